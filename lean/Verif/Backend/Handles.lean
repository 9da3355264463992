/-
  Model of the owners of descriptors: `Dragonstash::FileHandle` (include/dragonstash/cache/blocklist.hpp
  35-66, src/cache/blocklist.cpp 44-79), `LocalFile` (src/backend/local.cpp 52-108) and `LocalDir`
  (local.cpp 110-121, 173-180).

  A descriptor stands for one open file; the number of a closed file is not used again for another one
  (a token instead of the number which the host may reuse), except that 0 is always a descriptor.
-/
import Verif.Base
namespace Dragonstash.Handles

/-- Objects of type `FileHandle` (by any names): their `m_fd`, if they exist. And the calls of
`::close`, and the results of `release`, latest first. -/
structure World where
  obj : Nat → Option Int
  closed : List Int
  released : List Int

def World.init : World := ⟨fun _ => none, [], []⟩

def World.set (w : World) (k : Nat) (v : Option Int) : World := { w with obj := fun j => if j = k then v else w.obj j }

/-- `reset` (blocklist.cpp 73-79) of object `k`, whose `m_fd` is `old`. -/
def World.reset (w : World) (k : Nat) (old new : Int) : World :=
  let w := if old ≥ 0 then { w with closed := old :: w.closed } else w
  w.set k (some new)

/-- Operations. -/
inductive Op where
  | make (k : Nat)
  | makeFd (k : Nat) (fd : Int)
  | moveNew (k src : Nat)
  | moveAssign (k src : Nat)
  | release (k : Nat)
  | reset (k : Nat) (fd : Int)
  | destroy (k : Nat)

/-- The operations; `none` if the objects do not exist, or one to be made exists. -/
def step (w : World) : Op → Option World
  -- `FileHandle()` (blocklist.cpp 44-48)
  | .make k => match w.obj k with
    | none => some (w.set k (some (-1)))
    | some _ => none
  -- `FileHandle(int)` (blocklist.cpp 50-54)
  | .makeFd k fd => match w.obj k with
    | none => some (w.set k (some fd))
    | some _ => none
  -- move constructor (blocklist.cpp 56-60)
  | .moveNew k src => match w.obj k, w.obj src with
    | none, some fd => some ((w.set src (some (-1))).set k (some fd))
    | _, _ => none
  -- move assignment (blocklist.cpp 62-66): `release` of the source, then `reset`; the source may be the
  -- object itself
  | .moveAssign k src => match w.obj k, w.obj src with
    | some _, some fd =>
      let w := w.set src (some (-1))
      match w.obj k with
      | some old => some (w.reset k old fd)
      | none => none
    | _, _ => none
  -- `release` (blocklist.hpp 54-58)
  | .release k => match w.obj k with
    | some fd => some { w.set k (some (-1)) with released := fd :: w.released }
    | none => none
  -- `reset` (blocklist.cpp 73-79)
  | .reset k fd => match w.obj k with
    | some old => some (w.reset k old fd)
    | none => none
  -- destructor (blocklist.cpp 68-71)
  | .destroy k => match w.obj k with
    | some old => some ((w.reset k old (-1)).set k none)
    | none => none

/-- The descriptor which an operation hands to an object. -/
def Op.gives : Op → Option Int
  | .makeFd _ fd => some fd
  | .reset _ fd => some fd
  | _ => none

/-- Histories; `given` are the descriptors handed to objects. Each is handed over once. (Negative
numbers are no descriptors.) -/
inductive Run : List Int → World → Prop
  | init : Run [] World.init
  | step {given w op w'} : Run given w → step w op = some w' → (∀ fd, op.gives = some fd → 0 ≤ fd → fd ∉ given) →
      Run (op.gives.toList ++ given) w'

/-! ### LocalFile and LocalDir -/

/-- A `LocalFile` object: `m_fd`, and the calls of `::close` so far, latest first. -/
structure LFile where
  fd : Int
  closed : List Int

/-- `LocalFile::close` (local.cpp 101-108); `ok` is whether `::close` succeeds. -/
def LFile.close (f : LFile) (ok : Bool) : LFile :=
  if ok then ⟨0, f.fd :: f.closed⟩ else ⟨f.fd, f.fd :: f.closed⟩

/-- `~LocalFile` (local.cpp 57-62): the calls of `::close` in the life of the object. -/
def LFile.destroy (f : LFile) (ok : Bool) : List Int := if f.fd ≥ 0 then (f.close ok).closed else f.closed

/-- A `LocalDir` object: `m_fd` (0 is a null pointer), and the calls of `::closedir`. -/
structure LDir where
  dp : Nat
  closed : List Nat

/-- `LocalDir::closedir` (local.cpp 173-180). -/
def LDir.closedir (f : LDir) (ok : Bool) : LDir :=
  if ok then ⟨0, f.dp :: f.closed⟩ else ⟨f.dp, f.dp :: f.closed⟩

/-- `~LocalDir` (local.cpp 116-121). -/
def LDir.destroy (f : LDir) (ok : Bool) : List Nat := if f.dp ≠ 0 then (f.closedir ok).closed else f.closed

end Dragonstash.Handles
