/-
  Evaluation of concrete interleavings of requests, used only for examples and counterexamples.
-/
import Verif.MT.Model
import Verif.MT.Counts
import Verif.FS.Demo
import Verif.Conc.Inv
namespace Dragonstash.MT
open Cache FS Conc

/-- The next step of a thread which has a request. -/
def MSys.go (m : MSys) (k : Nat) : Option MSys :=
  match m.th[k]? with
  | some (.recv rq B) => match prog B (m.w.disk.treei.size + 4) rq with
    | none => some { (m.to k .idle).send rq (directReply rq) with hist := m.hist ++ [⟨rq, B, m.hist.length, directReply rq⟩] }
    | some P => match m.w.step (if readOnly rq then .beginRO k k else .beginRW k k) with
      | .done w' _ => some { m.to k (.run rq B m.hist.length P) with w := w' }
      | _ => none
  | some (.run rq B v (.op o c)) => match m.w.step (.on k (.op o)) with
    | .done w' out => some { m.to k (.run rq B v (c out)) with w := w' }
    | _ => none
  | some (.run rq B v (.done true [r])) => match m.w.step (.on k .commit) with
    | .done w' _ => some { m.to k (.committed rq r) with w := w', hist := m.hist ++ [⟨rq, B, v, r⟩] }
    | _ => none
  | some (.run rq B v (.done false [r])) => some ((m.to k (.leaving rq B v r)).send rq r)
  | some (.committed rq r) => match m.w.step (.on k .finish) with
    | .done w' _ => some { m.to k (.answer rq r) with w := w' }
    | _ => none
  | some (.answer rq r) => some ((m.to k .idle).send rq r)
  | some (.leaving rq B v r) => match m.w.step (.on k .drop) with
    | .done w' _ => some { m.to k (.left rq) with w := w', hist := m.hist ++ [⟨rq, B, v, r⟩] }
    | _ => none
  | some (.left rq) => match m.w.step (.on k .finish) with
    | .done w' _ => some { m.to k .idle with w := w' }
    | _ => none
  | _ => none

theorem MSys.go_step {m m' : MSys} {k : Nat} (h : m.go k = some m') : Step m k m' := by
  unfold MSys.go at h
  split at h
  · rename_i rq B hk
    split at h
    · rename_i hp; cases h; exact .direct hk hp
    · rename_i P hp
      split at h
      · rename_i w' out hs; cases h; exact .begin_ hk hp hs
      · cases h
  · rename_i rq B v o c hk
    split at h
    · rename_i w' out hs; cases h; exact .call hk hs
    · cases h
  · rename_i rq B v r hk
    split at h
    · rename_i w' out hs; cases h; exact .commit hk hs
    · cases h
  · rename_i rq B v r hk; cases h; exact .reply hk
  · rename_i rq r hk
    split at h
    · rename_i w' out hs; cases h; exact .unlock hk hs
    · cases h
  · rename_i rq r hk; cases h; exact .answer hk
  · rename_i rq B v r hk
    split at h
    · rename_i w' out hs; cases h; exact .leave hk hs
    · cases h
  · rename_i rq hk
    split at h
    · rename_i w' out hs; cases h; exact .finish hk hs
    · cases h
  · cases h

/-- Conversely: the step of a thread which has a request is determined. -/
theorem Step.go {m m' : MSys} {k : Nat} (h : Step m k m') : m.th[k]? = some .idle ∨ m.go k = some m' := by
  cases h with
  | issue hk => exact .inl hk
  | direct hk hp => right; simp only [MSys.go, hk, hp]
  | begin_ hk hp hs => right; simp only [MSys.go, hk, hp, hs]
  | call hk hs => right; simp only [MSys.go, hk, hs]
  | commit hk hs => right; simp only [MSys.go, hk, hs]
  | unlock hk hs => right; simp only [MSys.go, hk, hs]
  | answer hk => right; simp only [MSys.go, hk]
  | reply hk => right; simp only [MSys.go, hk]
  | leave hk hs => right; simp only [MSys.go, hk, hs]
  | finish hk hs => right; simp only [MSys.go, hk, hs]

/-- A step raises a lock count by at most one. -/
theorem cstep_counts {w w' : CWorld} {c : CCall} {out : Out} (hc : ∀ k, c ≠ .on k .abort) (h : w.step c = .done w' out) (i : Ino) : (w'.refs i).nrefs ≤ (w.refs i).nrefs + 1 := by
  cases step_inv h with
  | @op k t f r o x _ mx h1 h2 h3 h4 =>
    have := (doOp_counts h4 i).1
    have h5 : o.takes i ≤ 1 := by
      cases o <;> simp only [Op.takes] <;> try omega
      split <;> omega
    simp only; simp only [Frame.txn] at this; omega
  | abort => exact absurd rfl (hc _)
  | abortNested => exact absurd rfl (hc _)
  | _ => exact Nat.le_succ _

theorem step_counts {m m' : MSys} {k : Nat} (h : Step m k m') (i : Ino) : (m'.w.refs i).nrefs ≤ (m.w.refs i).nrefs + 1 := by
  cases h with
  | issue => exact Nat.le_succ _
  | direct => exact Nat.le_succ _
  | begin_ _ _ hs => exact cstep_counts (by intro k hh; split at hh <;> cases hh) hs i
  | call _ hs => exact cstep_counts (by intro k hh; cases hh) hs i
  | commit _ hs => exact cstep_counts (by intro k hh; cases hh) hs i
  | unlock _ hs => exact cstep_counts (by intro k hh; cases hh) hs i
  | answer => exact Nat.le_succ _
  | reply => exact Nat.le_succ _
  | leave _ hs => exact cstep_counts (by intro k hh; cases hh) hs i
  | finish _ hs => exact cstep_counts (by intro k hh; cases hh) hs i

/-- Events: the kernel sends a request to an idle thread; a thread makes a step. -/
inductive Ev where
  | issue (k : Nat) (t : Tbl) (rq : Req)
  | go (k : Nat)

def roomB (w : CWorld) (cap : Nat) : Bool :=
  decide (cap < 2 ^ 63) && decide (w.disk.treei.size < 2 ^ 62) && (match w.disk.next with | none => true | some n => decide (n < 2 ^ 62))

theorem roomB_iff {w : CWorld} {cap : Nat} (hc : ∀ i, (w.refs i).nrefs ≤ cap) (h : roomB w cap = true) : Room w := by
  simp only [roomB, Bool.and_eq_true, decide_eq_true_eq] at h
  obtain ⟨⟨h1, h2⟩, h3⟩ := h
  refine ⟨fun i => ?_, h2, fun n hn => ?_⟩
  · have := hc i; omega
  · rw [hn] at h3; simpa using h3

def MSys.goB (m : MSys) (k : Nat) : Bool := match m.th[k]? with | some (.recv rq _) => rq.onDirB m.w.disk | _ => true

/-- Runs events, provided that they are proper. -/
def demoMT (m : MSys) (cap : Nat) : List Ev → Option (MSys × Nat)
  | [] => some (m, cap)
  | .issue k t rq :: l => match m.th[k]? with
    | some .idle =>
      if rq.inRangeB && returnedB m.held rq && decide (t.maxNames < 2 ^ 62) && roomB m.w cap then
        demoMT { m.to k (.recv rq t.backend) with held := fun i => m.held i - rq.returned i } cap l
      else none
    | _ => none
  | .go k :: l => match m.go k with
    | none => none
    | some m' =>
      if m.goB k && roomB m'.w (cap + 1) then demoMT m' (cap + 1) l
      else none

theorem go_notRecv {m m' : MSys} {k : Nat} (h : m.go k = some m') : ∀ rq B, m'.th[k]? ≠ some (.recv rq B) := by
  intro rq B hh
  have hlt : ∀ st, (m.th.set k st)[k]? = some (TState.recv rq B) → st = .recv rq B := by
    intro st hst
    rw [List.getElem?_set, if_pos rfl] at hst
    split at hst
    · cases hst; rfl
    · cases hst
  have hs := MSys.go_step h
  cases hs with
  | issue hk => unfold MSys.go at h; rw [hk] at h; cases h
  | direct => cases hlt _ hh
  | begin_ => cases hlt _ hh
  | call => cases hlt _ hh
  | commit => cases hlt _ hh
  | unlock => cases hlt _ hh
  | answer => cases hlt _ hh
  | reply => cases hlt _ hh
  | leave => cases hlt _ hh
  | finish => cases hlt _ hh

theorem demoMT_reach : ∀ {l : List Ev} {m m' : MSys} {cap cap' : Nat}, MReach m → (∀ i, (m.w.refs i).nrefs ≤ cap) →
    demoMT m cap l = some (m', cap') → MReach m' ∧ (∀ i, (m'.w.refs i).nrefs ≤ cap') ∧ Steps m m' := by
  intro l
  induction l with
  | nil => intro m m' cap cap' h hc hd; cases hd; exact ⟨h, hc, .refl⟩
  | cons a l ih =>
    have front : ∀ {m m1 m2 : MSys} {k : Nat}, Step m k m1 → Steps m1 m2 → Steps m m2 := by
      intro m m1 m2 k h1 h2
      induction h2 with
      | refl => exact .step .refl h1
      | step _ hs ih => exact .step ih hs
    intro m m' cap cap' h hc hd
    cases a with
    | issue k t rq =>
      simp only [demoMT] at hd
      split at hd
      · rename_i hk
        split at hd
        · rename_i hv
          simp only [Bool.and_eq_true, decide_eq_true_eq] at hv
          obtain ⟨⟨⟨h1, h2⟩, h3⟩, h4⟩ := hv
          have hs : Step m k { m.to k (.recv rq t.backend) with held := fun i => m.held i - rq.returned i } := .issue hk
          have hlen : k < m.th.length := (List.getElem?_eq_some_iff.mp hk).1
          obtain ⟨g1, g2, g3⟩ := ih (h.step hs (.issue (rq := rq) (B := t.backend)
            (by simp only [MSys.to]; rw [List.getElem?_set, if_pos rfl, if_pos hlen])
            (by cases rq <;> simp_all [Req.inRangeB, Req.inRange]; exact h1) (returnedB_iff h2)
            (fun p names e hp => by have := Tbl.maxNames_ge hp; omega)) (roomB_iff hc h4)) hc hd
          exact ⟨g1, g2, front hs g3⟩
        · cases hd
      · cases hd
    | go k =>
      simp only [demoMT] at hd
      split at hd
      · cases hd
      · rename_i m1 hm
        split at hd
        · rename_i hv
          rw [Bool.and_eq_true] at hv
          obtain ⟨h1, h2⟩ := hv
          have hs := MSys.go_step hm
          have hc' : ∀ i, (m1.w.refs i).nrefs ≤ cap + 1 := fun i => by
            have := step_counts hs i; have := hc i; omega
          have hp : Proper m k m1 := by
            by_cases hr : ∃ rq B, m.th[k]? = some (.recv rq B)
            · obtain ⟨rq, B, hr⟩ := hr
              unfold MSys.goB at h1
              rw [hr] at h1
              simp only at h1
              exact .begin_ hr (by cases rq <;> first | trivial | exact onDirB_iff h1)
            · exact .other (fun rq B hh => hr ⟨rq, B, hh⟩) (go_notRecv hm)
          obtain ⟨g1, g2, g3⟩ := ih (h.step hs hp (roomB_iff hc' h2)) hc' hd
          exact ⟨g1, g2, front hs g3⟩
        · cases hd

/-- Events from mounting with a new cache, with `n` threads. -/
def demoMount (n : Nat) (l : List Ev) : Option (MSys × Nat) :=
  match openCleanDB (initDB emptyDB 0 0 ⟨0, 0⟩) Refs.empty with
  | .ok (d, r) => if roomB (CWorld.start d r) 0 then demoMT (MSys.start d r n) 0 l else none
  | .error _ => none

theorem demoMount_reach {n : Nat} {l : List Ev} {m : MSys} {cap : Nat} (h : demoMount n l = some (m, cap)) : MReach m ∧ ∃ d r, Steps (MSys.start d r n) m := by
  unfold demoMount at h
  split at h
  · rename_i d r ho
    split at h
    · rename_i hr
      have hc : ∀ i, ((CWorld.start d r).refs i).nrefs ≤ 0 := by
        obtain ⟨s, h1, h2, h3⟩ := root_rep 0 0 ⟨0, 0⟩
        have h0 : SI s (initDB emptyDB 0 0 ⟨0, 0⟩) Refs.empty := ⟨h1, h2, h3, fun i hi => (by cases hi), fun i hi => absurd hi (by simp [Refs.empty]), Refs.empty_ok⟩
        exact fun i => Nat.le_of_eq (open_counts h0 ho i)
      obtain ⟨g1, -, g2⟩ := demoMT_reach (.mount ho (roomB_iff hc hr)) hc h
      exact ⟨g1, d, r, g2⟩
    · cases h
  · cases h

/-- A reachable state given by a checked interleaving. -/
theorem demoMT_ex {n : Nat} {l : List Ev} {P : MSys → Prop} [DecidablePred P]
    (h : (match demoMount n l with | some (m, _) => decide (P m) | none => false) = true) : ∃ m, MReach m ∧ P m := by
  split at h
  · rename_i m x hm; exact ⟨m, (demoMount_reach hm).1, by simpa using h⟩
  · cases h

theorem demoMT_steps {n : Nat} {l : List Ev} {P : MSys → Prop} [DecidablePred P]
    (h : (match demoMount n l with | some (m, _) => decide (P m) | none => false) = true) : ∃ d r m, Steps (MSys.start d r n) m ∧ P m := by
  split at h
  · rename_i m x hm; obtain ⟨-, d, r, g⟩ := demoMount_reach hm; exact ⟨d, r, m, g, by simpa using h⟩
  · cases h

end Dragonstash.MT
