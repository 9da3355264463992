/-
  Specification: a host which is one file system with symbolic links.

  The whole file system of the host is an `HTree`, by canonical places (names from its root, without
  links). Paths are resolved as in path_resolution(7) of the Linux manual. Not modelled: permissions
  (everything can be read and searched), the limit on the length of paths, mounts.
-/
import Verif.Props.LocalWhole
namespace Dragonstash.Local
open Cache FS

/-- One part of the resolution of a path: from the directory at `loc`, through the pieces `ps` of the
path. Empty pieces count as `.` (so a path which ends with a slash leads to a directory). A symbolic
link is followed unless it is the last piece and `follow` is not set: the resolution goes on, from the
directory of the link or from the root, with the pieces of the target (`next`). -/
def walkIn (F : HTree) (follow : Bool) (next : List Bytes → List Bytes → Res (List Bytes)) : List Bytes → List Bytes → Res (List Bytes)
  | loc, [] => .ok loc
  | loc, c :: ps =>
    match F loc with
    | none => .error ENOENT
    | some o =>
      if o.names = none then .error ENOTDIR
      else if c = [] ∨ c = [0x2e] then walkIn F follow next loc ps
      else if c = [0x2e, 0x2e] then walkIn F follow next loc.dropLast ps
      else if 255 < c.length then .error ENAMETOOLONG
      else match F (loc ++ [c]) with
        | none => .error ENOENT
        | some o' =>
          match o'.target with
          | none => walkIn F follow next (loc ++ [c]) ps
          | some t =>
            if ps = [] ∧ follow = false then .ok (loc ++ [c])
            else if t = [] then .error ENOENT
            else next (if t.head? = some 0x2f then [] else loc) (pieces t ++ ps)

/-- The resolution of a path with at most `b` links. -/
def walk (F : HTree) (follow : Bool) : Nat → List Bytes → List Bytes → Res (List Bytes)
  | 0 => walkIn F follow (fun _ _ => .error ELOOP)
  | b + 1 => walkIn F follow (walk F follow b)

/-- The canonical place of a path; `cwd` is the place of the working directory. Linux follows at most
40 links. -/
def resolve (F : HTree) (cwd : List Bytes) (follow : Bool) (p : Bytes) : Res (List Bytes) :=
  if p = [] then .error ENOENT
  else walk F follow 40 (if p.head? = some 0x2f then [] else cwd) (pieces p)

/-- What is at the canonical place. -/
def locate (F : HTree) (cwd : List Bytes) (follow : Bool) (p : Bytes) : Res Obj :=
  match resolve F cwd follow p with
  | .error e => .error e
  | .ok l => match F l with | some o => .ok o | none => .error ENOENT

/-- The system calls which the local backend uses (local.cpp 229, 246, 260, 272): `lstat` and `readlink`
do not follow a link at the end of the path, `opendir` does. -/
def posix (F : HTree) (cwd : List Bytes) : Host where
  lstat := fun _ p => match locate F cwd false p with | .ok o => .ok o.stat | .error e => .error e
  readlink := fun p => match locate F cwd false p with
    | .error e => .error e
    | .ok o => match o.target with | some t => .ok t | none => .error EINVAL
  opendir := fun p => match locate F cwd true p with
    | .error e => .error e
    | .ok o => match o.names with | some ns => .ok ([0x2e] :: [0x2e, 0x2e] :: ns) | none => .error ENOTDIR

/-- A file system: it has a root directory; a directory lists what is in it, under names of at most 255
bytes; things are only in directories; a link has a target, which is not empty; the type in the
attributes is right. -/
structure FileSys (F : HTree) : Prop where
  top : ∃ o, F [] = some o ∧ o.names ≠ none
  tree : Tree F
  up : ∀ {cs n o}, F (cs ++ [n]) = some o → ∃ o', F cs = some o' ∧ o'.names ≠ none
  short : ∀ {cs o ns n}, F cs = some o → o.names = some ns → n ∈ ns → n.length ≤ 255
  kind : ∀ {cs o}, F cs = some o → (fmt o.stat.mode = S_IFDIR ↔ o.names ≠ none) ∧ (fmt o.stat.mode = S_IFLNK ↔ o.target ≠ none)

/-- The tree which is seen at `root`: what `lstat` finds at the root followed by names (through links in
between). -/
def view (F : HTree) (cwd : List Bytes) (root : Bytes) : HTree := fun cs =>
  match walk F false 40 (if root.head? = some 0x2f then [] else cwd) (pieces root ++ [] :: cs) with
  | .error _ => none
  | .ok l => F l

end Dragonstash.Local
