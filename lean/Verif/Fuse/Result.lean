/-
  Model of `Result<T>` and `Result<void>` (include/dragonstash/error.hpp 38-188) with both members:
  everywhere else in this development a result is an `Except` (`Verif.Errno`), which is right as long
  as no failed result is converted to a result of another type (C71).
-/
import Verif.Errno
namespace Dragonstash.Err

/-- The members of `Result<T>` (error.hpp 84-86): an optional value and the error number (an `int`). -/
structure Result (α : Type) where
  value : Option α
  errno : Int
  deriving DecidableEq

/-- `operator bool` (error.hpp 89-91). -/
def Result.ok {α : Type} (r : Result α) : Bool := r.value.isSome

/-- `error()` (error.hpp 93-95). -/
def Result.error {α : Type} (r : Result α) : Int := r.errno

/-- `operator*` (error.hpp 101-107): `std::optional::value` throws if there is none. -/
def Result.get {α : Type} (r : Result α) : M α :=
  match r.value with
  | some v => .ok v
  | none => .error (.thrown 102)

/-- The constructor from a value (error.hpp 43-49); `f` is the implicit conversion of the value. Also
`make_result(value)` (error.hpp 165-169). -/
def Result.ofValue {α β : Type} (f : α → β) (v : α) : Result β := ⟨some (f v), 0⟩

/-- The constructor of failures (error.hpp 67-72). -/
def Result.failed {α : Type} (e : Int) : Result α := ⟨none, e⟩

/-- `ErrorResultHelper` (error.hpp 34-36), what `make_result(FAILED, e)` (171-174) and `copy_error`
(176-180) return. -/
structure Helper where
  error : Int

def makeFailed (e : Int) : Helper := ⟨e⟩
def copyError {α : Type} (r : Result α) : Helper := ⟨r.error⟩

/-- The constructor from the helper (error.hpp 74-78). -/
def Result.ofHelper {α : Type} (h : Helper) : Result α := .failed h.error

/-- The constructors from a result of another type (error.hpp 51-65): `f` is the conversion of the
value, `d` is `T()`. -/
def Result.convert {α β : Type} (f : α → β) (d : β) (src : Result α) : M (Result β) :=
  if src.ok then do pure ⟨some (f (← src.get)), src.error⟩
  else pure ⟨some d, src.error⟩

/-- Copies, moves and assignments between results of the same type (error.hpp 80-85) are those of the
members. -/
def Result.copy {α : Type} (src : Result α) : Result α := ⟨src.value, src.errno⟩

/-- `Result<void>` (error.hpp 117-162). -/
structure ResultV where
  ok : Bool
  errno : Int
  deriving DecidableEq

/-- The default constructor, `make_result()` (error.hpp 120-124, 182-185). -/
def ResultV.good : ResultV := ⟨true, 0⟩
/-- The constructors of failures (error.hpp 131-143). -/
def ResultV.failed (e : Int) : ResultV := ⟨false, e⟩
def ResultV.ofHelper (h : Helper) : ResultV := ⟨false, h.error⟩

/-- The ways in which a result of one type becomes a result of another type in a function which
returns it to its caller. -/
inductive Path : Type → Type → Type 1 where
  /-- nothing -/
  | here (α : Type) : Path α α
  /-- `return r;` (and storing it, moving it, assigning it) -/
  | copy {α β : Type} (p : Path α β) : Path α β
  /-- `if (!r) { return copy_error(r); } return make_result(g(*r));`, the usual idiom (e.g.
  src/cache/cache.cpp 548-564) -/
  | propagate {α β γ : Type} (p : Path α β) (g : β → γ) : Path α γ
  /-- `if (!r) { return make_result(FAILED, r.error()); } return make_result(g(*r));`
  (src/cache/cache.cpp 501-504) -/
  | rewrap {α β γ : Type} (p : Path α β) (g : β → γ) : Path α γ
  /-- `return r;` where the function returns a result of another type -/
  | convert {α β γ : Type} (p : Path α β) (g : β → γ) (d : γ) : Path α γ

/-- What the caller at the end gets. -/
def Path.run {α β : Type} : Path α β → Result α → M (Result β)
  | .here _, r => .ok r
  | .copy p, r => do pure (← p.run r).copy
  | .propagate p g, r => do
    let r ← p.run r
    if !r.ok then pure (.ofHelper (copyError r)) else do pure (.ofValue g (← r.get))
  | .rewrap p g, r => do
    let r ← p.run r
    if !r.ok then pure (.ofHelper (makeFailed r.error)) else do pure (.ofValue g (← r.get))
  | .convert p g d, r => do (← p.run r).convert g d

/-- The path has no conversion between results of different types. -/
def Path.plain {α β : Type} : Path α β → Bool
  | .here _ => true
  | .copy p => p.plain
  | .propagate p _ => p.plain
  | .rewrap p _ => p.plain
  | .convert _ _ _ => false

/-- What is done to the value on the way (for the specification). -/
def Path.map {α β : Type} : Path α β → α → β
  | .here _ => id
  | .copy p => p.map
  | .propagate p g => fun v => g (p.map v)
  | .rewrap p g => fun v => g (p.map v)
  | .convert p g _ => fun v => g (p.map v)

end Dragonstash.Err
