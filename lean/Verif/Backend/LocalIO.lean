/-
  Model of the handles of the local backend: `LocalFile` and `LocalDir` (src/backend/local.cpp 38-180).
  The system calls are recorded with the descriptor (or directory stream) they are made on; what the
  host answers is arbitrary.
-/
import Verif.Backend.Local
namespace Dragonstash.Local
open Cache FS

/-- `::readdir`: the entries still to come, and what happens behind the last one: the end (`none`), or
an error, in both cases a null pointer. -/
structure Stream where
  rest : List (Bytes × Nat × Nat)
  err : Option Errno

/-- Values of `d_type` and of the file types (dirent.h, sys/stat.h). -/
def DT_FIFO := 1
def DT_CHR := 2
def DT_DIR := 4
def DT_BLK := 6
def DT_REG := 8
def DT_LNK := 10
def DT_SOCK := 12
def S_IFIFO := 0o010000
def S_IFCHR := 0o020000
def S_IFBLK := 0o060000
def S_IFSOCK := 0o140000

/-- The `switch` of `LocalDir::readdir` (local.cpp 130-153). -/
def modeOfType (t : Nat) : Nat :=
  if t = DT_BLK then S_IFBLK
  else if t = DT_CHR then S_IFCHR
  else if t = DT_REG then S_IFREG
  else if t = DT_DIR then S_IFDIR
  else if t = DT_FIFO then S_IFIFO
  else if t = DT_LNK then S_IFLNK
  else if t = DT_SOCK then S_IFSOCK
  else 0

/-- `Backend::DirEntry` (include/dragonstash/backend/base.hpp 52-55), the fields which are set. -/
structure DirEnt where
  name : Bytes
  mode : Nat
  ino : Nat
  complete : Bool
  deriving DecidableEq

/-- `LocalDir::readdir` (local.cpp 123-163) on an open stream. -/
def Stream.readdir (s : Stream) : Stream × Res DirEnt :=
  match s.rest with
  | [] => (s, .error 0)
  | (n, t, i) :: l => ({ s with rest := l }, .ok ⟨n, modeOfType t, i, false⟩)

/-- Reading to the end, as `Filesystem::opendir` does (src/fs.cpp 221-241): the entries, and the error
number behind them. -/
def Stream.drain : Nat → Stream → List DirEnt × Errno
  | 0, _ => ([], EIO)
  | f + 1, s => match s.readdir with
    | (_, .error e) => ([], e)
    | (s', .ok d) => let (l, e) := s'.drain f; (d :: l, e)

/-- The system calls of the handles. -/
inductive Sys where
  | fstat (fd : Int)
  | pread (fd : Int) (count : Nat) (offset : Int)
  | pwrite (fd : Int) (count : Nat) (offset : Int)
  | fsync (fd : Int)
  | close (fd : Int)
  deriving DecidableEq

/-- Calls of member functions of `LocalFile`. -/
inductive FileOp where
  | fstat
  | pread (count : Nat) (offset : Int)
  | pwrite (count : Nat) (offset : Int)
  | fsync
  | close
  deriving DecidableEq

/-- The system call which a member function makes on `m_fd` (local.cpp 64-108). -/
def FileOp.sys (fd : Int) : FileOp → Sys
  | .fstat => .fstat fd
  | .pread c o => .pread fd c o
  | .pwrite c o => .pwrite fd c o
  | .fsync => .fsync fd
  | .close => .close fd

/-- A member function of `LocalFile` (local.cpp 64-108): `ans` is the result of the system call, -1
with `errno`. The new `m_fd`, the system call, the result of the function. -/
def FileOp.run (fd : Int) (ans : Int) (errno : Errno) (op : FileOp) : Int × Sys × Res Nat :=
  if ans < 0 then (fd, op.sys fd, .error errno)
  else (if op = .close then 0 else fd, op.sys fd, .ok ans.toNat)

/-- A sequence of calls: the system calls made. -/
def fileCalls : Int → List (FileOp × Int × Errno) → List Sys
  | _, [] => []
  | fd, (op, ans, e) :: l => (op.run fd ans e).2.1 :: fileCalls (op.run fd ans e).1 l

/-- The descriptor of a system call. -/
def Sys.fd : Sys → Int
  | .fstat fd => fd
  | .pread fd _ _ => fd
  | .pwrite fd _ _ => fd
  | .fsync fd => fd
  | .close fd => fd

end Dragonstash.Local
