/-
  Replaying the project's own unit tests (/repo/tests) on the model.

  These are tests of the model, not proofs of properties: the code cannot be run here, but what its
  authors recorded as its behaviour can be compared with what the model does. Every CHECK and REQUIRE
  of a test is a `check` with the line of the test file; a test passes if the model runs it without a
  fault and all checks hold. The kernel evaluates the model.
-/
import Verif.Base
import Verif.Errno
namespace Dragonstash.Conform

/-- A test is a program on some state of the model; a failed check and a fault of the model stop it. -/
abbrev T (σ α : Type) := StateT σ M α

/-- `CHECK(b)` or `REQUIRE(b)` in the given line. -/
def check {σ : Type} (line : Nat) (b : Bool) : T σ Unit := fun s => if b then .ok ((), s) else .error (.assertFail line)

/-- `require_result_ok`, `check_result_ok` (tests/testutils/result.hpp): the value. -/
def okAt {σ α : Type} (line : Nat) (r : Res α) : T σ α := fun s =>
  match r with
  | .ok x => .ok (x, s)
  | .error _ => .error (.assertFail line)

/-- `check_result_error` (tests/testutils/result.hpp). -/
def errAt {σ α : Type} (line : Nat) (r : Res α) (e : Errno) : T σ Unit := fun s =>
  match r with
  | .ok _ => .error (.assertFail line)
  | .error x => if x = e then .ok ((), s) else .error (.assertFail line)

/-- The test ran to its end. -/
def passes {σ α : Type} (s : σ) (t : T σ α) : Bool := match t s with | .ok _ => true | .error _ => false

open Lean in
/-- `b!"..."`: the bytes of a string of ASCII characters. -/
macro:max "b!" s:str : term => do
  let cs ← s.getString.toList.toArray.mapM fun c => `(($(quote c.toNat) : UInt8))
  `(([$cs,*] : List UInt8))

end Dragonstash.Conform
