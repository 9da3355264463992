/-
  Model of `InodeReferences` (include/dragonstash/cache/cache.hpp 92-166).
-/
import Verif.Errno
namespace Dragonstash

/-- Inode numbers (`ino_t`, include/dragonstash/cache/inode.hpp 44). -/
notation "Ino" => Nat

/-- `InodeReferences::Record` (cache.hpp 94-97). -/
structure Rec where
  nrefs : Nat
  doomed : Bool
  deriving DecidableEq, Repr

namespace RefMap

/-- `m_refs` (cache.hpp 108): a finite map, as a partial function. -/
abbrev RefMap := Ino → Option Rec

/-- Insertion into / assignment in the map. -/
def set (m : RefMap) (i : Ino) (r : Rec) : RefMap := fun j => if j = i then some r else m j

/-- The empty map. -/
def empty : RefMap := fun _ => none

/-- `incref` (cache.hpp 111-122); the argument and the addition are `uint64_t`. -/
def incref (m : RefMap) (i : Ino) (n : Nat) : RefMap × Res Nat :=
  match m i with
  | none => (set m i ⟨u64 n, false⟩, .ok (u64 n))
  | some r =>
    if r.doomed then (m, .error ESTALE)
    else (set m i { r with nrefs := u64 (r.nrefs + n) }, .ok (u64 (r.nrefs + n)))

/-- `decref` (cache.hpp 124-135); the exception is `Fault.thrown`, it is raised before any
modification. -/
def decref (m : RefMap) (i : Ino) (n : Nat) : M (RefMap × Res Nat) :=
  if n = 0 then .ok (m, .error EINVAL)
  else match m i with
  | none => .error (.thrown 131)
  | some r =>
    if r.nrefs < n then .error (.thrown 131)
    else .ok (set m i { r with nrefs := r.nrefs - n }, .ok (r.nrefs - n))

/-- `doom` (cache.hpp 137-148). -/
def doom (m : RefMap) (i : Ino) : RefMap × Res Unit :=
  match m i with
  | none => (set m i ⟨0, true⟩, .ok ())
  | some r =>
    if r.nrefs > 0 then (m, .error EBUSY)
    else (set m i { r with doomed := true }, .ok ())

/-- `doomed` (cache.hpp 150-156). -/
def doomed (m : RefMap) (i : Ino) : Bool :=
  match m i with
  | none => false
  | some r => r.doomed

/-- `refcount` (cache.hpp 158-164). -/
def refcount (m : RefMap) (i : Ino) : Nat :=
  match m i with
  | none => 0
  | some r => r.nrefs

/-- Calls on an `InodeReferences` object. -/
inductive Op where
  | inc (i : Ino) (n : Nat)
  | dec (i : Ino) (n : Nat)
  | doom (i : Ino)
  deriving DecidableEq, Repr

/-- What a caller sees of a call. -/
inductive Out where
  | ok (n : Nat)
  | err (e : Errno)
  | threw
  deriving DecidableEq, Repr

/-- One call; a caller may catch the exception and go on, the object is then unchanged. -/
def step (m : RefMap) : Op → RefMap × Out
  | .inc i n => match incref m i n with
    | (m', .ok k) => (m', .ok k)
    | (m', .error e) => (m', .err e)
  | .dec i n => match decref m i n with
    | .ok (m', .ok k) => (m', .ok k)
    | .ok (m', .error e) => (m', .err e)
    | .error _ => (m, .threw)
  | .doom i => match doom m i with
    | (m', .ok _) => (m', .ok 0)
    | (m', .error e) => (m', .err e)

/-- A sequence of calls, with the results. -/
def run (m : RefMap) : List Op → RefMap × List Out
  | [] => (m, [])
  | op :: ops => let (m1, o) := step m op; let (m2, os) := run m1 ops; (m2, o :: os)

end RefMap

/-! The reference table as the cache model uses it: absent records are the record `{0, false}`.
`Refs.ofMap` (Props/Refs) relates it to the map: `C13_table`. -/

/-- Reference table with absent records identified with `{0, false}`. -/
abbrev Refs := Ino → Rec

namespace Refs

/-- No references, nothing doomed. -/
def empty : Refs := fun _ => ⟨0, false⟩

/-- Overwrite one record. -/
def set (r : Refs) (i : Ino) (x : Rec) : Refs := fun j => if j = i then x else r j

/-- `incref` (cache.hpp 111-122). -/
def incref (r : Refs) (i : Ino) (n : Nat) : Refs × Res Nat :=
  if (r i).doomed then (r, .error ESTALE)
  else (r.set i { r i with nrefs := u64 ((r i).nrefs + n) }, .ok (u64 ((r i).nrefs + n)))

/-- `decref` (cache.hpp 124-135). -/
def decref (r : Refs) (i : Ino) (n : Nat) : M (Refs × Res Nat) :=
  if n = 0 then .ok (r, .error EINVAL)
  else if (r i).nrefs < n then .error (.thrown 131)
  else .ok (r.set i { r i with nrefs := (r i).nrefs - n }, .ok ((r i).nrefs - n))

/-- `doom` (cache.hpp 137-148). -/
def doom (r : Refs) (i : Ino) : Refs × Res Unit :=
  if (r i).nrefs > 0 then (r, .error EBUSY)
  else (r.set i { r i with doomed := true }, .ok ())

end Refs
end Dragonstash
