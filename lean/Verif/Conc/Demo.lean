/-
  Evaluation of concrete interleavings, used only for examples and counterexamples.
-/
import Verif.Conc.Inv2
import Verif.Cache.Demo
namespace Dragonstash.Conc
open Cache Codec

/-- Decides `CAllowed`. -/
def callowedB (w : CWorld) : CCall → Bool
  | .on k (.op o) => o.inRangeB && match w.txns k with
    | none => true
    | some t => match t.frames with
      | [] => true
      | f :: _ => match o with
        | .emplace p _ _ => p != 0 && (match f.fr.db.next with | none => true | some n => decide (n + 1 < W64))
        | .lock i => decide ((w.refs i).nrefs + 1 < W64)
        | _ => true
  | _ => true

theorem callowedB_iff {w : CWorld} {c : CCall} (h : callowedB w c = true) : CAllowed w c := by
  cases c with
  | on k a =>
    cases a with
    | op o =>
      simp only [callowedB, Bool.and_eq_true] at h
      refine ⟨Op.inRangeB_iff h.1, ?_⟩
      intro t f r hk hf
      rw [hk] at h
      simp only [hf] at h
      cases o <;> simp_all
      obtain ⟨-, -, h3⟩ := h
      intro n hn; rw [hn] at h3; simpa using h3
    | _ => trivial
  | _ => trivial

/-- Runs calls, provided that all are allowed and none has to wait. -/
def crun (w : CWorld) : List CCall → Option (CWorld × List Out)
  | [] => some (w, [])
  | c :: cs => if callowedB w c then
      match w.step c with
      | .done w' o => (crun w' cs).map (fun x => (x.1, o :: x.2))
      | _ => none
    else none

theorem crun_run {cs : List CCall} : ∀ {w w1 w2 : CWorld} {os : List Out}, CRun w w1 → crun w1 cs = some (w2, os) → CRun w w2 := by
  induction cs with
  | nil => intro w w1 w2 os h hd; cases hd; exact h
  | cons c cs ih =>
    intro w w1 w2 os h hd
    unfold crun at hd
    split at hd
    · rename_i hc
      split at hd
      · rename_i w' o hs
        cases hx : crun w' cs with
        | none => rw [hx] at hd; cases hd
        | some x => rw [hx] at hd; cases hd; exact ih (.step h (callowedB_iff hc) hs) hx
      · cases hd
    · cases hd

/-- A cache with a file `a` (inode 2). -/
def oneFile : List Call :=
  [.openInit 0 0 ⟨0, 0⟩, .openClean, .beginRW, .op (.emplace 1 [0x61] (fileA 3)), .commit]

/-- State after `oneFile` and then the calls `cs`. -/
def cdemo (cs : List CCall) : Option (CWorld × List Out) :=
  match demo World.init oneFile with
  | none => none
  | some w => crun (CWorld.start w.disk w.refs) cs

theorem cdemo_reach {cs : List CCall} {w : CWorld} {os : List Out} (h : cdemo cs = some (w, os)) : CReach w := by
  unfold cdemo at h
  split at h
  · cases h
  · rename_i w0 hw
    refine ⟨w0, demo_reach .init hw, ?_, ?_, crun_run .refl h⟩
    · have : (demo World.init oneFile).map (fun w => decide (w.phase = .up)) = some true := by decide +kernel
      rw [hw] at this; simpa using this
    · have : (demo World.init oneFile).map (fun w => w.stack.isEmpty) = some true := by decide +kernel
      rw [hw] at this; simpa using this

/-- A demonstration state with a decidable property. -/
theorem cdemo_ex {cs : List CCall} {P : CWorld → Bool} (h : ((cdemo cs).map (fun x => P x.1)) = some true) :
    ∃ w, CReach w ∧ P w = true := by
  cases hc : cdemo cs with
  | none => rw [hc] at h; cases h
  | some x =>
    obtain ⟨w, os⟩ := x
    rw [hc] at h
    exact ⟨w, cdemo_reach hc, by simpa using h⟩

end Dragonstash.Conc
