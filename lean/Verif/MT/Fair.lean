/-
  Runs of the mounted filesystem which go on forever, and fair schedulers: the specification of C88.
  Nothing here is program code.
-/
import Verif.MT.Model
namespace Dragonstash.MT
open Cache FS Conc

/-- The request which a thread still has to answer. (Once the reply was sent, only the transaction is
left to be destroyed.) -/
def TState.unanswered : TState → Option Req
  | .recv rq _ => some rq
  | .run rq _ _ _ => some rq
  | .committed rq _ => some rq
  | .answer rq _ => some rq
  | .idle => none
  | .leaving _ _ _ _ => none
  | .left _ => none

/-- The request which a thread is busy with. -/
def TState.request : TState → Option Req
  | .recv rq _ => some rq
  | .run rq _ _ _ => some rq
  | .committed rq _ => some rq
  | .answer rq _ => some rq
  | .idle => none
  | .leaving rq _ _ _ => some rq
  | .left rq => some rq

/-- A thread which has a request makes a step. (The other steps are new requests of the kernel.) -/
def Served (m : MSys) (k : Nat) (m' : MSys) : Prop := Step m k m' ∧ m.th[k]? ≠ some .idle

/-- An execution, with the requests which the kernel sent meanwhile, in their order. -/
inductive Exec (m : MSys) : List Req → MSys → Prop
  | refl : Exec m [] m
  | issue {l m1 m2 k rq B} : Exec m l m1 → Step m1 k m2 → m1.th[k]? = some .idle → m2.th[k]? = some (.recv rq B) → Exec m (l ++ [rq]) m2
  | served {l m1 m2 k} : Exec m l m1 → Served m1 k m2 → Exec m l m2

/-- What must happen: `P` holds in some state whatever the order is in which the threads go on, if the
kernel sends no more requests. -/
inductive Inevitable (P : MSys → Prop) : MSys → Prop
  | now {m} : P m → Inevitable P m
  | next {m} : (∃ k m', Served m k m') → (∀ k m', Served m k m' → Inevitable P m') → Inevitable P m

/-- The next step would break the rules for the kernel, or exhaust 64 bit numbers. -/
def Improper (m : MSys) : Prop := ∃ k m', Served m k m' ∧ ¬ (Proper m k m' ∧ Room m'.w)

/-- A run without end: a reachable state, then steps of threads or requests of the kernel, which
respect the rules; at times nothing happens. -/
structure IsRun (σ : Nat → MSys) : Prop where
  start : MReach (σ 0)
  next : ∀ n, σ (n + 1) = σ n ∨ ∃ k, Step (σ n) k (σ (n + 1)) ∧ Proper (σ n) k (σ (n + 1)) ∧ Room (σ (n + 1)).w

/-- The scheduler and the locks are fair: a thread which again and again could go on with its request goes
on again and again. -/
def Fair (σ : Nat → MSys) : Prop :=
  ∀ k, (∀ n, ∃ n', n ≤ n' ∧ ∃ m', Served (σ n') k m') → ∀ n, ∃ n', n ≤ n' ∧ Served (σ n') k (σ (n' + 1))

end Dragonstash.MT
