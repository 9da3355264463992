/-
  On-disk records: `Inode` (include/dragonstash/cache/inode.hpp 40-205, src/cache/inode.cpp 52-79)
  and `DirEntry` (include/dragonstash/cache/direntry.hpp 37-90, src/cache/direntry.cpp 31-62).
-/
import Verif.Errno
import Verif.Bytes
import Verif.Cache.Refs
namespace Dragonstash

/-- A `struct timespec`, both fields as 64-bit patterns. -/
structure Timespec where
  sec : Nat
  nsec : Nat
  deriving DecidableEq, Repr

/-- `InodeAttributes` with the embedded `CommonFileAttributes` (inode.hpp 49-79). -/
structure Attrs where
  size : Nat
  nblocks : Nat
  uid : Nat
  gid : Nat
  atime : Timespec
  mtime : Timespec
  ctime : Timespec
  mode : Nat
  deriving DecidableEq, Repr

/-- `InodeV1` (inode.hpp 124-172) without version and reserved fields. -/
structure Inode where
  flags : Nat
  parent : Ino
  attr : Attrs
  deriving DecidableEq, Repr

/-- `DirEntryV1` (direntry.hpp 37-42) with the name which follows it. -/
structure DirEnt where
  flags : Nat
  mode : Nat
  ino : Ino
  name : Bytes
  deriving DecidableEq, Repr

/-- Field widths hold (they do for every C++ object). -/
def Timespec.Fits (t : Timespec) : Prop := t.sec < 256 ^ 8 ∧ t.nsec < 256 ^ 8
def Attrs.Fits (a : Attrs) : Prop :=
  a.size < 256 ^ 8 ∧ a.nblocks < 256 ^ 8 ∧ a.uid < 256 ^ 4 ∧ a.gid < 256 ^ 4 ∧ a.atime.Fits ∧ a.mtime.Fits
    ∧ a.ctime.Fits ∧ a.mode < 256 ^ 4
def Inode.Fits (i : Inode) : Prop := i.flags < 256 ^ 2 ∧ i.parent < 256 ^ 8 ∧ i.attr.Fits
def DirEnt.Fits (d : DirEnt) : Prop := d.flags < 256 ^ 2 ∧ d.mode < 256 ^ 4 ∧ d.ino < 256 ^ 8

namespace Codec

/-- `struct timespec` in memory. -/
def encTs (t : Timespec) : Bytes := leEnc 8 t.sec ++ leEnc 8 t.nsec

/-- `serialize` (inode.hpp 183-205): the 96 bytes of an `InodeV1` in memory. `r0`, `r2` are the
reserved fields (offsets 1 and 4), `pad` the four bytes of padding behind `mode`, whose contents
are unspecified. -/
def encInode (r0 r2 pad : Nat) (i : Inode) : Bytes :=
  leEnc 1 1 ++ (leEnc 1 r0 ++ (leEnc 2 i.flags ++ (leEnc 4 r2 ++ (leEnc 8 i.parent ++
    (leEnc 8 i.attr.size ++ (leEnc 8 i.attr.nblocks ++ (leEnc 4 i.attr.uid ++ (leEnc 4 i.attr.gid ++
      (encTs i.attr.atime ++ (encTs i.attr.mtime ++ (encTs i.attr.ctime ++
        (leEnc 4 i.attr.mode ++ leEnc 4 pad))))))))))))

/-- Reading `k` bytes at offset `o`; outside the buffer it is undefined behaviour. -/
def rd (b : Bytes) (o k : Nat) : M Nat :=
  if o + k ≤ b.length then .ok (fieldAt b o k) else .error (.ub 0)

/-- A `struct timespec` at offset `o`. -/
def rdTs (b : Bytes) (o : Nat) : M Timespec := do
  let s ← rd b o 8
  let n ← rd b (o + 8) 8
  pure ⟨s, n⟩

/-- `Inode::parse_inplace` (inode.cpp 52-79), for a buffer aligned as LMDB provides it (the
misaligned case fails an assertion, inode.cpp 72). All fields are read through `rd`. -/
def parseInode (b : Bytes) : M (Res Inode) :=
  if b.length = 0 then .ok (.error EINVAL)
  else do
    let version ← rd b 0 1
    if version ≠ 1 then pure (.error EINVAL)
    else if b.length < 96 then pure (.error EINVAL)
    else do
      let flags ← rd b 2 2
      let parent ← rd b 8 8
      let size ← rd b 16 8
      let nblocks ← rd b 24 8
      let uid ← rd b 32 4
      let gid ← rd b 36 4
      let atime ← rdTs b 40
      let mtime ← rdTs b 56
      let ctime ← rdTs b 72
      let mode ← rd b 88 4
      pure (.ok ⟨flags, parent, ⟨size, nblocks, uid, gid, atime, mtime, ctime, mode⟩⟩)

/-- `Dragonstash::emplace` (direntry.hpp 61-73) followed by copying the name
(src/cache/cache.cpp 950-953). -/
def encDirEnt (r0 : Nat) (d : DirEnt) : Bytes :=
  leEnc 1 1 ++ (leEnc 1 r0 ++ (leEnc 2 d.flags ++ (leEnc 4 d.mode ++ (leEnc 8 d.ino ++ d.name))))

/-- `DirEntry::parse` / `parse_inplace` (direntry.cpp 31-62; both alignment cases give the same
value). -/
def parseDirEnt (b : Bytes) : M (Res DirEnt) :=
  if b.length = 0 then .ok (.error EINVAL)
  else do
    let version ← rd b 0 1
    if version ≠ 1 then pure (.error EINVAL)
    else if b.length < 16 then pure (.error EINVAL)
    else do
      let flags ← rd b 2 2
      let mode ← rd b 4 4
      let ino ← rd b 8 8
      pure (.ok ⟨flags, mode, ino, b.drop 16⟩)

/-- Key of an inode number (`MDBInVal(ino)`: the eight bytes in memory). -/
def key8 (i : Ino) : Bytes := leEnc 8 i
/-- Key in the inode-keyed tree (src/cache/cache.cpp 440-443, 974-976). -/
def key16 (p c : Ino) : Bytes := leEnc 8 p ++ leEnc 8 c
/-- Key in the name-keyed tree (src/cache/cache.cpp 960-963). -/
def keyN (p : Ino) (n : Bytes) : Bytes := leEnc 8 p ++ n

end Codec
end Dragonstash
