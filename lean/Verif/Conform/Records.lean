/-
  The tests of tests/cache/inode.cpp on the model of the records. See Conform/Basic.lean.
-/
import Verif.Cache.Records
import Verif.Cache.Model
import Verif.Conform.Basic
namespace Dragonstash.Conform
open Codec Cache

/-- tests/cache/inode.cpp 33-47. -/
def testNode : Inode := mkInode
  { size := 0x123456789abcdef0, nblocks := 0x223456789abcdef0, uid := 0x12345678, gid := 0x12345679,
    atime := ⟨0x323456789abcdef0, 0x323456789abcdef1⟩, mtime := ⟨0x423456789abcdef0, 0x423456789abcdef1⟩,
    ctime := ⟨0x523456789abcdef0, 0x523456789abcdef1⟩, mode := S_IFDIR } 0x1122334455667788

/-- 31-74: Inode serialization. -/
example : parseInode (encInode 0 0 0 testNode) = .ok (.ok testNode) := by decide +kernel

/-- 79-86: the buffer is too short. -/
example : parseInode [] = .ok (.error EINVAL) := by decide +kernel
/-- 88-113: invalid versions 0, 2 and 0xff. -/
example : parseInode [0] = .ok (.error EINVAL) ∧ parseInode [2] = .ok (.error EINVAL) ∧ parseInode [0xff] = .ok (.error EINVAL) := by decide +kernel
/-- 117-124: empty after the header. -/
example : parseInode [1] = .ok (.error EINVAL) := by decide +kernel
/-- 126-133: too short. -/
example : parseInode (1 :: List.replicate 94 0) = .ok (.error EINVAL) := by decide +kernel

/-- 135-171: a valid inode. -/
example : parseInode [
    0x01, 0x00, 0x00, 0x00, 0x00, 0x00, 0x00, 0x00,
    0x12, 0x34, 0x56, 0x78, 0x9a, 0xbc, 0xde, 0xf0,
    0x10, 0x20, 0x30, 0x40, 0x50, 0x60, 0x70, 0x80,
    0x11, 0x21, 0x31, 0x41, 0x51, 0x61, 0x71, 0x81,
    0x12, 0x13, 0x14, 0x15,
    0x22, 0x23, 0x24, 0x25,
    0x10, 0x00, 0x00, 0x00, 0x00, 0x00, 0x00, 0x00,
    0x20, 0x00, 0x00, 0x00, 0x00, 0x00, 0x00, 0x00,
    0x10, 0x00, 0x00, 0x00, 0x00, 0x00, 0x00, 0x10,
    0x20, 0x00, 0x00, 0x10, 0x00, 0x00, 0x00, 0x00,
    0x10, 0x00, 0x00, 0x00, 0x00, 0x00, 0x00, 0x20,
    0x20, 0x00, 0x00, 0x20, 0x00, 0x00, 0x00, 0x00,
    0x11, 0x22, 0x33, 0x44, 0x00, 0x00, 0x00, 0x00] = .ok (.ok
    { flags := 0, parent := 0xf0debc9a78563412, attr := {
        mode := 0x44332211, size := 0x8070605040302010, nblocks := 0x8171615141312111,
        uid := 0x15141312, gid := 0x25242322,
        atime := ⟨0x0000000000000010, 0x0000000000000020⟩,
        mtime := ⟨0x1000000000000010, 0x0000000010000020⟩,
        ctime := ⟨0x2000000000000010, 0x0000000020000020⟩ } }) := by decide +kernel

end Dragonstash.Conform
