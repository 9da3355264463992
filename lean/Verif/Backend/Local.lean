/-
  Model of the local backend (src/backend/local.cpp).

  The host's file system is a function from paths to answers here; symbolic links inside of paths are a
  matter of the host, see Backend/HostTree and Backend/Posix.
-/
import Verif.FS.Model
namespace Dragonstash.Local
open Cache FS

/-- The host's system calls: `lstat` (first argument: number of earlier calls), `readlink` with an
unlimited buffer, and `opendir` followed by `readdir` until it returns no entry. -/
structure Host where
  lstat : Nat → Bytes → Res BStat
  readlink : Bytes → Res Bytes
  opendir : Bytes → Res (List Bytes)

/-- `std::filesystem::path::operator/=` for a relative operand (libstdc++): an empty path is replaced;
otherwise a separator is added if the last byte is not one. -/
def appendPath (root inner : Bytes) : Bytes :=
  if root = [] then inner
  else if root.getLast? = some 0x2f then root ++ inner
  else root ++ 0x2f :: inner

/-- `LocalFilesystem::map_path` (local.cpp 188-205). -/
def mapPath (root s : Bytes) : Res Bytes :=
  match s with
  | [] => .error EINVAL
  | c :: inner =>
    if c ≠ 0x2f then .error EINVAL
    else if inner.head? = some 0x2f then .error EINVAL
    else .ok (appendPath root inner)

/-- `LocalFilesystem::lstat` (local.cpp 239-252). The host sees a C string. -/
def lstat (root : Bytes) (H : Host) (k : Nat) (path : Bytes) : Res BStat :=
  match mapPath root path with
  | .error e => .error e
  | .ok p => H.lstat k (cstr p)

/-- `LocalFilesystem::readlink` (local.cpp 254-281): `lstat`, then `::readlink` into a buffer of one
byte more than the size which `lstat` gave. If `::readlink` fails, its result -1 is passed to
`resize`, which throws `std::length_error`. -/
def readlink (root : Bytes) (H : Host) (path : Bytes) : M (Res Bytes) :=
  match mapPath root path with
  | .error e => .ok (.error e)
  | .ok p =>
    match H.lstat 0 (cstr p) with
    | .error e => .ok (.error e)
    | .ok st =>
      match H.readlink (cstr p) with
      | .error _ => .error (.thrown 279)
      | .ok t => .ok (.ok (t.take (st.size + 1)))

/-- `LocalFilesystem::opendir` (local.cpp 224-237) followed by `LocalDir::readdir` (local.cpp 123-163)
to the end; errors of the host's `readdir` look like the end of the directory. -/
def opendir (root : Bytes) (H : Host) (path : Bytes) : Res (List Bytes × Errno) :=
  match mapPath root path with
  | .error e => .error e
  | .ok p =>
    match H.opendir (cstr p) with
    | .error e => .error e
    | .ok l => .ok (l, 0)

/-- The backend which `Filesystem` sees. (An exception in `readlink` ends the process, see C53; it is
not used here: some error takes its place.) -/
def backend (root : Bytes) (H : Host) : Backend where
  lstat := lstat root H
  readlink := fun p => match readlink root H p with | .ok r => r | .error _ => .error EIO
  opendir := opendir root H

/-! ### Specification: where a path leads -/

/-- The pieces of a path between slashes. -/
def pieces : Bytes → List Bytes
  | [] => [[]]
  | c :: l => if c = 0x2f then [] :: pieces l else match pieces l with
    | [] => [[c]]
    | h :: t => (c :: h) :: t

/-- One piece: empty pieces and `.` lead nowhere, `..` to the parent. -/
def stepTo (st : List Bytes) (c : Bytes) : List Bytes :=
  if c = [] ∨ c = [0x2e] then st else if c = [0x2e, 0x2e] then st.dropLast else st ++ [c]

/-- The place a path leads to (as a list of names from the root of the host), `cwd` being the working
directory, if there are no symbolic links. -/
def place (cwd : List Bytes) (p : Bytes) : List Bytes :=
  (pieces p).foldl stepTo (if p.head? = some 0x2f then [] else cwd)

/-- `p` leads to a place at or below `root`. -/
def Below (cwd : List Bytes) (root p : Bytes) : Prop := ∃ cs, place cwd p = place cwd root ++ cs

end Dragonstash.Local
