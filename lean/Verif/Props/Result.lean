/-
  C71: errors stay errors on their way to the caller.
-/
import Verif.Fuse.Result
namespace Dragonstash.Err

/-- A success with value `v`. -/
def Succeeded {α : Type} (r : Result α) (v : α) : Prop := r.ok = true ∧ r.get = .ok v

/-- A failure with error number `e`: the value cannot be read. -/
def Failed {α : Type} (r : Result α) (e : Int) : Prop := r.ok = false ∧ r.error = e ∧ ∃ l, r.get = .error (.thrown l)

/-- C71 in full: whatever way a result takes through the program, a failure reaches the caller as a
failure with the same error number, a success as a success. -/
def C71_full : Prop :=
  ∀ (α β : Type) (p : Path α β) (r : Result α),
    (∀ v, Succeeded r v → ∃ r', p.run r = .ok r' ∧ Succeeded r' (p.map v)) ∧
    (∀ e, Failed r e → ∃ r', p.run r = .ok r' ∧ Failed r' e)

/-- It is false: a failed result of one type becomes a success with a default value when it is
converted to a result of another type (error.hpp 51-65); only `error()` still shows the number. -/
theorem C71_counterexample : ¬ C71_full := by
  intro h
  obtain ⟨r', h1, h2, -⟩ := (h Nat Int (.convert (.here Nat) Int.ofNat 0) (.failed 5)).2 5 ⟨rfl, rfl, 102, rfl⟩
  cases h1
  cases h2

theorem ok_iff {α : Type} {r : Result α} : (∃ v, Succeeded r v) ∨ Failed r r.error := by
  cases h : r.value with
  | none => exact .inr ⟨by simp [Result.ok, h], rfl, 102, by simp [Result.get, h]⟩
  | some v => exact .inl ⟨v, by simp [Result.ok, h], by simp [Result.get, h]⟩

/-- C71, successes: they stay successes on every way, with the value converted step by step. -/
theorem C71_success {α β : Type} (p : Path α β) {r : Result α} {v : α} (hr : Succeeded r v) : ∃ r', p.run r = .ok r' ∧ Succeeded r' (p.map v) := by
  induction p with
  | here => exact ⟨r, rfl, hr⟩
  | copy p ih => obtain ⟨r', h1, h2⟩ := ih; exact ⟨r'.copy, by simp [Path.run, h1], h2⟩
  | propagate p g ih =>
    obtain ⟨r', h1, h2, h3⟩ := ih
    exact ⟨.ofValue g (p.map v), by simp [Path.run, h1, h2, h3], rfl, rfl⟩
  | rewrap p g ih =>
    obtain ⟨r', h1, h2, h3⟩ := ih
    exact ⟨.ofValue g (p.map v), by simp [Path.run, h1, h2, h3], rfl, rfl⟩
  | convert p g d ih =>
    obtain ⟨r', h1, h2, h3⟩ := ih
    exact ⟨⟨some (g (p.map v)), r'.error⟩, by simp [Path.run, h1, Result.convert, h2, h3], rfl, rfl⟩

/-- C71, failures: on every way without a conversion to a result of another type. (Nothing in the
program converts a failed result; the constructors which do so are there.) -/
theorem C71_failure_partial {α β : Type} (p : Path α β) (hp : p.plain = true) {r : Result α} {e : Int} (hr : Failed r e) : ∃ r', p.run r = .ok r' ∧ Failed r' e := by
  induction p with
  | here => exact ⟨r, rfl, hr⟩
  | copy p ih => obtain ⟨r', h1, h2⟩ := ih hp; exact ⟨r'.copy, by simp [Path.run, h1], h2⟩
  | propagate p g ih =>
    obtain ⟨r', h1, h2, h3, -⟩ := ih hp
    exact ⟨.failed e, by simp [Path.run, h1, h2, copyError, Result.ofHelper, h3], rfl, rfl, 102, rfl⟩
  | rewrap p g ih =>
    obtain ⟨r', h1, h2, h3, -⟩ := ih hp
    exact ⟨.failed e, by simp [Path.run, h1, h2, makeFailed, Result.ofHelper, h3], rfl, rfl, 102, rfl⟩
  | convert p g d ih => cases hp

/-- C71: what a conversion makes of a failure: always a success, with the default value, which
`error()` alone tells from a genuine one. -/
theorem C71_converted {α β : Type} (g : α → β) (d : β) {r : Result α} {e : Int} (hr : Failed r e) :
    ∃ r', (Path.convert (.here α) g d).run r = .ok r' ∧ Succeeded r' d ∧ r'.error = e := by
  obtain ⟨h1, h2, -⟩ := hr
  exact ⟨⟨some d, r.error⟩, by simp [Path.run, Result.convert, h1], ⟨rfl, rfl⟩, h2⟩

/-- C71: `error()` of a success is 0 as it is made; but 0 does not mean success: the end of a
directory is a failure with number 0 (src/backend/local.cpp 127, src/backend/in_memory.cpp 182). -/
theorem C71_zero {α : Type} (v : α) : Succeeded (Result.ofValue id v) v ∧ (Result.ofValue id v).error = 0 ∧ Failed (Result.failed 0 : Result α) 0 :=
  ⟨⟨rfl, rfl⟩, rfl, rfl, rfl, 102, rfl⟩

/-- C71 for results without a value: a success is one, with number 0; a failure keeps its number, also when it is
that of another result, of a type with values. -/
theorem C71_void {α : Type} {r : Result α} {e : Int} (hr : Failed r e) :
    ResultV.good.ok = true ∧ ResultV.good.errno = 0 ∧ (∀ k, (ResultV.failed k).ok = false ∧ (ResultV.failed k).errno = k) ∧
    (ResultV.ofHelper (copyError r)).ok = false ∧ (ResultV.ofHelper (copyError r)).errno = e ∧
    ∀ k, (ResultV.ofHelper (makeFailed k)).ok = false ∧ (ResultV.ofHelper (makeFailed k)).errno = k :=
  ⟨rfl, rfl, fun _ => ⟨rfl, rfl⟩, rfl, hr.2.1, fun _ => ⟨rfl, rfl⟩⟩

/-- `C71_void`: `ENOENT`. -/
example : Failed (Result.failed 2 : Result Nat) 2 := ⟨rfl, rfl, 102, rfl⟩

/-- A failure through three functions which propagate it. -/
example : ∃ r', (Path.rewrap (.copy (.propagate (.here Nat) Nat.succ)) (fun n => (n, n))).run (.failed 2) = .ok r' ∧ Failed r' 2 :=
  C71_failure_partial _ rfl ⟨rfl, rfl, 102, rfl⟩
/-- A success of type `LocalFile` returned as a `File`, as `LocalFilesystem::open` does. -/
example : ∃ r', (Path.convert (.propagate (.here Nat) Nat.succ) Int.ofNat 0).run (.ofValue id 3) = .ok r' ∧ Succeeded r' 4 :=
  C71_success (.convert (.propagate (.here Nat) Nat.succ) Int.ofNat 0) ⟨rfl, rfl⟩

/-- `C71_converted`: the failure becomes a success with the default value. (`C71_zero` has no hypotheses.) -/
example : ∃ r', (Path.convert (.here Nat) Int.ofNat 7).run (.failed 2) = .ok r' ∧ Succeeded r' 7 ∧ r'.error = 2 :=
  C71_converted Int.ofNat 7 ⟨rfl, rfl, 102, rfl⟩

end Dragonstash.Err
