/-
  Model of the in-memory backend (src/backend/in_memory.cpp,
  include/dragonstash/backend/in_memory.hpp).

  Simplifications: a tree of values instead of heap objects; the children of a directory
  (`std::unordered_map`) are a list of pairs, of which the first with a name counts, in the order in
  which iteration yields them; no allocation fails.
-/
import Verif.FS.Model
namespace Dragonstash.InMem
open Cache FS

/-- `InMemory::Node` and its subclasses File, Link, Directory (in_memory.hpp 38-152). -/
inductive Node where
  | file (attr : BStat) (data : Bytes)
  | link (attr : BStat) (dest : Bytes)
  | dir (attr : BStat) (children : List (Bytes × Node))

/-- `Node::attr` (in_memory.hpp 52-54). -/
def Node.attr : Node → BStat
  | .file a _ => a
  | .link a _ => a
  | .dir a _ => a

def zeroStat : BStat := ⟨0, 0, 0, 0, 0, ⟨0, 0⟩, ⟨0, 0⟩, ⟨0, 0⟩⟩

/-- Constructors of File, Link and Directory (in_memory.cpp 59-94): everything but the type is zero. -/
def newFile : Node := .file { zeroStat with mode := S_IFREG } []
def newLink (dest : Bytes) : Node := .link { zeroStat with mode := S_IFLNK } dest
def newDir : Node := .dir { zeroStat with mode := S_IFDIR } []

/-- Attributes replaced, whatever the kind of the node. -/
def Node.setAttr (n : Node) (a : BStat) : Node :=
  match n with
  | .file _ d => .file a d
  | .link _ d => .link a d
  | .dir _ c => .dir a c

/-- `Node::update_attr` (in_memory.cpp 43-48): the type is kept. `mode & ~S_IFMT` is the mode without
its type, `mode` having 32 bits. -/
def Node.updateAttr (n : Node) (a : BStat) : Node :=
  n.setAttr { a with mode := fmt n.attr.mode ||| (a.mode &&& (0xffffffff ^^^ 0o170000)) }

/-- `Directory::find` (in_memory.cpp 98-137) and `Node::find` (in_memory.cpp 50-53). The assertions in
lines 118-119 are that the remainder is what starts at the slash which was found. -/
def Node.find : Node → Bytes → Res Node
  | .dir a ch, path =>
    match path with
    | [] => .error EINVAL
    | c :: path =>
      if c ≠ 0x2f then .error EINVAL
      else if path = [] then .ok (.dir a ch)
      else
        let name := path.takeWhile (· != 0x2f)
        let rest := path.dropWhile (· != 0x2f)
        if name = [] then .error EINVAL
        else match ch.lookup name with
          | none => .error ENOENT
          | some n => if rest = [] then .ok n else Node.find n rest
  | _, _ => .error ENOTDIR
termination_by _ path => path.length
decreasing_by
  have := (List.dropWhile_sublist (· != (0x2f : UInt8)) (l := path)).length_le
  simp only [List.length_cons]
  omega

/-- `Directory::emplace` (in_memory.hpp 139-146): `unordered_map::emplace` keeps an existing child. The
place at which a new child appears in the iteration is not specified; here it is the end. -/
def addChild (ch : List (Bytes × Node)) (name : Bytes) (n : Node) : List (Bytes × Node) :=
  if (ch.lookup name).isSome then ch else ch ++ [(name, n)]

/-- `Directory::remove` (in_memory.cpp 139-147). -/
def delChild (ch : List (Bytes × Node)) (name : Bytes) : List (Bytes × Node) := ch.filter (fun x => x.1 != name)

/-- The reference which `Directory::emplace` returns (in_memory.hpp 142-145), when it is used: `ref` refers
to the object which was given to `unordered_map::emplace`; if the name exists already, that has
destroyed the object. -/
def emplaceRef (ch : List (Bytes × Node)) (name : Bytes) (n : Node) : M Node :=
  if (ch.lookup name).isSome then .error (.ub 134) else .ok n

/-- The first child with a name, changed. -/
def updChild (ch : List (Bytes × Node)) (name : Bytes) (g : Node → Node) : List (Bytes × Node) :=
  match ch with
  | [] => []
  | x :: l => if x.1 = name then (x.1, g x.2) :: l else x :: updChild l name g

/-- A change of the object which `find` returned a pointer to (in_memory.cpp 98-137), as a change of the
tree; every object has one owner. -/
def Node.edit : List Bytes → (Node → Node) → Node → Node
  | [], g, n => g n
  | c :: cs, g, .dir a ch => .dir a (updChild ch c (Node.edit cs g))
  | _ :: _, _, n => n

/-- `emplace` on the directory at a path (in_memory.hpp 139-146). -/
def Node.emplaceAt (root : Node) (ds : List Bytes) (name : Bytes) (new : Node) : Node :=
  root.edit ds fun | .dir a ch => .dir a (addChild ch name new) | n => n

/-- `remove` on the directory at a path (in_memory.cpp 139-147). -/
def Node.removeAt (root : Node) (ds : List Bytes) (name : Bytes) : Node :=
  root.edit ds fun | .dir a ch => .dir a (delChild ch name) | n => n

/-- `update_attr` on the object at a path (in_memory.cpp 43-48). -/
def Node.updateAt (root : Node) (ds : List Bytes) (a : BStat) : Node := root.edit ds (·.updateAttr a)

/-- State of `DirHandle` (in_memory.hpp 154-176): the names to come. -/
structure DirHandle where
  pos : Nat
  left : List Bytes

/-- `DirHandle::DirHandle` (in_memory.cpp 149-155), while the directory is not changed. -/
def openDir (ch : List (Bytes × Node)) : DirHandle := ⟨0, ch.map Prod.fst⟩

/-- `DirHandle::readdir` (in_memory.cpp 157-196). The error 0 is the end. -/
def DirHandle.readdir (h : DirHandle) : DirHandle × Res Bytes :=
  match h.pos with
  | 0 => ({ h with pos := 1 }, .ok [0x2e])
  | 1 => ({ h with pos := 2 }, .ok [0x2e, 0x2e])
  | _ => match h.left with
    | [] => (h, .error 0)
    | n :: l => ({ h with left := l }, .ok n)

/-- What a caller sees who calls `readdir` until it fails, as `Filesystem::opendir` does
(fs.cpp 215-217); `fuel` is more than the number of entries. -/
def DirHandle.drain : Nat → DirHandle → List Bytes × Errno
  | 0, _ => ([], 0)
  | f + 1, h =>
    match h.readdir with
    | (_, .error e) => ([], e)
    | (h', .ok n) => let (l, e) := DirHandle.drain f h'; (n :: l, e)

/-- `InMemoryFilesystem` (in_memory.hpp 180-197): the root directory and whether it is connected. -/
structure MemFS where
  attr : BStat
  children : List (Bytes × Node)
  connected : Bool := true

def MemFS.root (f : MemFS) : Node := .dir f.attr f.children

/-- `InMemoryFilesystem::lstat` (in_memory.cpp 312-323). -/
def MemFS.lstat (f : MemFS) (path : Bytes) : Res BStat :=
  if !f.connected then .error ENOTCONN
  else match f.root.find path with
  | .error e => .error e
  | .ok n => .ok n.attr

/-- `InMemoryFilesystem::readlink` (in_memory.cpp 324-340). -/
def MemFS.readlink (f : MemFS) (path : Bytes) : Res Bytes :=
  if !f.connected then .error ENOTCONN
  else match f.root.find path with
  | .error e => .error e
  | .ok (.link _ dest) => .ok dest
  | .ok _ => .error EINVAL

/-- `InMemoryFilesystem::opendir` (in_memory.cpp 295-309), followed by reading to the end. -/
def MemFS.opendir (f : MemFS) (path : Bytes) : Res (List Bytes × Errno) :=
  if !f.connected then .error ENOTCONN
  else match f.root.find path with
  | .error e => .error e
  | .ok (.dir _ ch) => .ok ((openDir ch).drain (ch.length + 3))
  | .ok _ => .error ENOTDIR

def EISDIR : Errno := 21

/-- `InMemoryFilesystem::open` (in_memory.cpp 272-293); the handle refers to the file. -/
def MemFS.open_ (f : MemFS) (path : Bytes) : Res Node :=
  if !f.connected then .error ENOTCONN
  else match f.root.find path with
  | .error e => .error e
  | .ok (.file a d) => .ok (.file a d)
  | .ok (.dir _ _) => .error EISDIR
  | .ok (.link _ _) => .error EINVAL

/-- The backend which `Filesystem` sees. -/
def MemFS.backend (f : MemFS) : Backend where
  lstat := fun _ p => f.lstat p
  readlink := f.readlink
  opendir := f.opendir

/-- A file: the size in its attributes and its data. -/
structure FileSt where
  size : Nat
  data : Bytes
  deriving DecidableEq, Repr

/-- `FileHandle::pread` (in_memory.cpp 223-238): what is copied into the buffer, its length being the
result. The sum in line 232 is taken modulo 2^64; a copy of bytes behind the data is undefined. -/
def pread (f : FileSt) (count : Nat) (offset : Int) : M (Res Bytes) :=
  if offset < 0 then .ok (.error EINVAL)
  else
    let off := offset.toNat
    if off ≥ f.data.length then .ok (.ok [])
    else
      let e := u64 (off + count)
      let n := if e > f.data.length then sub64 count (e - f.data.length) else count
      if off + n ≤ f.data.length then .ok (.ok ((f.data.drop off).take n)) else .error (.ub 236)

/-- `FileHandle::pwrite` (in_memory.cpp 240-253) of `buf`. `resize` fills with zeroes; a copy behind
the data is undefined. -/
def pwrite (f : FileSt) (buf : Bytes) (offset : Int) : M (FileSt × Res Nat) :=
  if offset < 0 then .ok (f, .error EINVAL)
  else
    let off := offset.toNat
    let req := u64 (off + buf.length)
    let f' := if f.data.length < req then ⟨req, f.data ++ List.replicate (req - f.data.length) 0⟩ else f
    if off + buf.length ≤ f'.data.length then
      .ok ({ f' with data := f'.data.take off ++ buf ++ f'.data.drop (off + buf.length) }, .ok buf.length)
    else .error (.ub 251)

/-- `FileHandle::fstat` (in_memory.cpp 218-221), the size. -/
def fstatSize (f : FileSt) : Nat := f.size

end Dragonstash.InMem
