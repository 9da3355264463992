/-
  Evaluation of concrete call sequences, used only for the examples beside the theorems (that their
  hypotheses can be met) and for counterexamples.
-/
import Verif.Cache.View
namespace Dragonstash.Cache
open Codec

def Op.inRangeB : Op → Bool
  | .lookup p _ => decide (p < W64)
  | .getattr i => decide (i < W64)
  | .readlink i => decide (i < W64)
  | .readdir dir prev => decide (dir < W64 ∧ prev < W64)
  | .path i => decide (i < W64)
  | .name i => decide (i < W64)
  | .parent i => decide (i < W64)
  | .testFlag i f => decide (i < W64 ∧ f < 16)
  | .lock i => decide (i < W64)
  | .release i n => decide (i < W64 ∧ n < W64)
  | .emplace p _ _ => decide (p < W64)
  | .unlinkIno i => decide (i < W64)
  | .unlinkName p _ => decide (p < W64)
  | .clean => true
  | .writelink i _ => decide (i < W64)
  | .updateFlags i a b => decide (i < W64 ∧ (∀ f ∈ a, f < 16) ∧ ∀ f ∈ b, f < 16)
  | .startRewrite dir => decide (dir < W64)
  | .finishRewrite => true

theorem Op.inRangeB_iff {o : Op} : o.inRangeB = true → o.inRange := by
  cases o <;> simp only [Op.inRangeB, Op.inRange, decide_eq_true_eq, imp_self, implies_true]

/-- Decides `Allowed`. -/
def allowedB (w : World) : Call → Bool
  | .op o => o.inRangeB && match w.stack with
    | [] => true
    | f :: _ => match o with
      | .emplace p _ _ => p != 0 && (match f.db.next with | none => true | some n => decide (n + 1 < W64))
      | .lock i => decide ((w.refs i).nrefs + 1 < W64)
      | _ => true
  | _ => true

theorem allowedB_iff {w : World} {c : Call} (h : allowedB w c = true) : Allowed w c := by
  cases c with
  | op o =>
    simp only [allowedB, Bool.and_eq_true] at h
    refine ⟨Op.inRangeB_iff h.1, ?_⟩
    intro f r hs
    rw [hs] at h
    cases o <;> simp_all
    obtain ⟨-, -, h3⟩ := h
    intro n hn; rw [hn] at h3; simpa using h3
  | _ => trivial

/-- Decides `Proper`. -/
def properB (w : World) : Call → Bool
  | .op (.emplace p _ _) => match w.stack with
    | [] => true
    | f :: _ => match getattr f.db p with
      | .ok (_, a) => fmt a.mode == S_IFDIR
      | .error _ => false
  | _ => true

theorem properB_iff {w : World} {c : Call} (h : properB w c = true) : Proper w c := by
  cases c with
  | op o =>
    cases o <;> try trivial
    intro f r hs
    simp only [properB, hs] at h
    split at h
    · rename_i x a hg
      unfold Cache.getattr at hg
      split at hg
      · cases hg
      · rename_i nd hf
        cases hg
        exact ⟨_, by unfold Cache.getattr; rw [hf], by simpa using h⟩
    · cases h
  | _ => trivial

/-- Runs calls, provided that all are allowed and proper. -/
def demoP (w : World) : List Call → Option World
  | [] => some w
  | c :: cs => if allowedB w c && properB w c then
      match w.step c with
      | .ok (w', _) => demoP w' cs
      | .error _ => none
    else none

/-- Runs calls, provided that all are allowed. -/
def demo (w : World) : List Call → Option World
  | [] => some w
  | c :: cs => if allowedB w c then
      match w.step c with
      | .ok (w', _) => demo w' cs
      | .error _ => none
    else none

theorem demoP_reach {cs : List Call} : ∀ {w w' : World}, ReachP w → demoP w cs = some w' → ReachP w' := by
  induction cs with
  | nil => intro w w' h hd; cases hd; exact h
  | cons c cs ih =>
    intro w w' h hd
    unfold demoP at hd
    split at hd
    · rename_i hc
      rw [Bool.and_eq_true] at hc
      split at hd
      · rename_i w1 o hs
        exact ih (.step h (allowedB_iff hc.1) (properB_iff hc.2) hs) hd
      · cases hd
    · cases hd

theorem demo_reach {cs : List Call} : ∀ {w w' : World}, Reach w → demo w cs = some w' → Reach w' := by
  induction cs with
  | nil => intro w w' h hd; cases hd; exact h
  | cons c cs ih =>
    intro w w' h hd
    unfold demo at hd
    split at hd
    · rename_i hc
      split at hd
      · rename_i w1 o hs
        exact ih (.step h (allowedB_iff hc) hs) hd
      · cases hd
    · cases hd

/-- A world given by a checked call sequence. -/
theorem demoP_ex {cs : List Call} {P : World → Prop} [DecidablePred P]
    (h : (match demoP World.init cs with | some w => decide (P w) | none => false) = true) : ∃ w, ReachP w ∧ P w := by
  split at h
  · rename_i w hw; exact ⟨w, demoP_reach .init hw, by simpa using h⟩
  · cases h

theorem demo_ex {cs : List Call} {P : World → Prop} [DecidablePred P]
    (h : (match demo World.init cs with | some w => decide (P w) | none => false) = true) : ∃ w, Reach w ∧ P w := by
  split at h
  · rename_i w hw; exact ⟨w, demo_reach .init hw, by simpa using h⟩
  · cases h

/-- A world given by a checked call sequence, and one more allowed and proper call with its answer. -/
theorem demo_step {cs : List Call} {c : Call} {out : Out} {P : World → World → Prop} [∀ w w', Decidable (P w w')]
    (h : (match demoP World.init cs with
      | some w => allowedB w c && properB w c && (match w.step c with | .ok (w', o) => decide (o = out ∧ P w w') | .error _ => false)
      | none => false) = true) : ∃ w w', ReachP w ∧ Allowed w c ∧ w.step c = .ok (w', out) ∧ P w w' := by
  split at h
  · rename_i w hw
    rw [Bool.and_eq_true, Bool.and_eq_true] at h
    obtain ⟨⟨h1, -⟩, h2⟩ := h
    split at h2
    · rename_i w' o hs
      obtain ⟨rfl, h3⟩ := of_decide_eq_true h2
      exact ⟨w, w', demoP_reach .init hw, allowedB_iff h1, hs, h3⟩
    · cases h2
  · cases h

/-- Attributes for examples. -/
def dirA : Attrs := rootAttrs 0 0 ⟨0, 0⟩
def fileA (size : Nat) : Attrs := { rootAttrs 0 0 ⟨0, 0⟩ with mode := S_IFREG + 0o644, size := size }
def linkA : Attrs := { rootAttrs 0 0 ⟨0, 0⟩ with mode := S_IFLNK + 0o777 }

/-- Opening a cache. -/
def opened : List Call := [.openInit 0 0 ⟨0, 0⟩, .openClean]

end Dragonstash.Cache
