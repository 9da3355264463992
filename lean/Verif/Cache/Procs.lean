/-
  Several processes which have the same cache open: they share the database file, each has a reference
  table of its own (`m_inode_references`, include/dragonstash/cache/cache.hpp 768-806, is a member of the
  Cache object). Nothing in the project keeps a second process out (cache.cpp 298-333).

  From LMDB: a write transaction waits until no process has one open; a transaction which begins sees what
  was last committed by any process. Each process has one thread here.
-/
import Verif.Cache.Demo
import Verif.Cache.Steps
import Verif.Cache.Shape
namespace Dragonstash.Cache
open Codec

/-- What one process has in memory. -/
structure Proc where
  phase : Phase
  refs : Refs
  stack : List Frame

/-- The file, and the processes (which may be running or not). -/
structure PWorld where
  disk : DB
  proc : Nat → Proc

/-- The world as process `p` has it. -/
def PWorld.of (m : PWorld) (p : Nat) : World := ⟨(m.proc p).phase, m.disk, (m.proc p).refs, (m.proc p).stack⟩

/-- After process `p` has made a call which led to `w`. -/
def PWorld.after (m : PWorld) (p : Nat) (w : World) : PWorld :=
  ⟨w.disk, fun q => if q = p then ⟨w.phase, w.refs, w.stack⟩ else m.proc q⟩

/-- No other process has a write transaction open. -/
def PWorld.free (m : PWorld) (p : Nat) : Prop := ∀ q, q ≠ p → ∀ f ∈ (m.proc q).stack, f.ro = true

/-- The call is, or begins with, a write transaction (cache.cpp 278-296, 301, 330, 340-343). -/
def Call.writes : Call → Bool
  | .openInit _ _ _ => true
  | .openClean => true
  | .beginRW => true
  | _ => false

/-- Process `p` makes a call (see `World.step`); it has to wait for write transactions of others. -/
structure PStep (m : PWorld) (p : Nat) (c : Call) (out : Out) (m' : PWorld) : Prop where
  waits : c.writes = true → m.free p
  step : ∃ w, (m.of p).step c = .ok (w, out) ∧ m' = m.after p w

/-- No process runs, and there is no file. -/
def PWorld.start : PWorld := ⟨emptyDB, fun _ => ⟨.down, Refs.empty, []⟩⟩

/-- What a history of calls by any processes leads to (with what callers have to respect, see `Allowed` and
`Proper`). -/
inductive PRun : PWorld → PWorld → Prop
  | refl {m} : PRun m m
  | step {m m1 m2 p c out} : PRun m m1 → Allowed (m1.of p) c → Proper (m1.of p) c → PStep m1 p c out m2 → PRun m m2

def PReach (m : PWorld) : Prop := PRun PWorld.start m

theorem PRun.trans {m m1 m2 : PWorld} (h : PRun m m1) (h' : PRun m1 m2) : PRun m m2 := by
  induction h' with
  | refl => exact h
  | step _ a b c ih => exact .step ih a b c

/-! ### Invariants -/

theorem after_same (m : PWorld) (p : Nat) (w : World) : (m.after p w).of p = w := by
  unfold PWorld.after PWorld.of; simp

theorem after_other (m : PWorld) {p q : Nat} (w : World) (h : q ≠ p) : (m.after p w).of q = { m.of q with disk := w.disk } := by
  unfold PWorld.after PWorld.of; simp [h]

/-- A database which holds something is not emptied. -/
theorem step_empty {w w' : World} {c : Call} {o : Out} (hi : Inv GoodWF w) (hs : w.step c = .ok (w', o)) (he : w'.disk = emptyDB) : w.disk = emptyDB := by
  have hn : ∀ {d : DB}, GoodWF d → d ≠ emptyDB := by
    rintro d ⟨s, h1, -⟩ rfl
    have := h1.next; cases this
  cases c with
  | crash => simp only [World.step] at hs; cases hs; exact he
  | openInit u g now =>
    obtain ⟨-, rfl⟩ := step_openInit hs
    have he : initDB w.disk u g now = emptyDB := he
    unfold initDB at he
    split at he
    · exact he
    · have := congrArg DB.next he; cases this
  | openClean =>
    obtain ⟨hp, d, r, h1, rfl⟩ := step_openClean hs
    rcases hi.disk with ⟨h, -⟩ | ⟨s, h2, h3, h4⟩
    · exact h
    · obtain ⟨s1, s2, d2, r1, r2, e1, e2, -⟩ := openClean_spec h2 h3 w.refs
      rw [e1] at h1; cases h1
      have := e2.next
      rw [show d = emptyDB from he] at this; cases this
  | beginRO => rw [(step_begin (.inl rfl) hs).2.2] at he; exact he
  | beginRW => rw [(step_begin (.inr rfl) hs).2.2] at he; exact he
  | nested => obtain ⟨f, r, -, -, rfl⟩ := step_nested hs; exact he
  | op o => obtain ⟨f, r, t, -, -, -, rfl⟩ := step_op hs; exact he
  | abort => obtain ⟨f, r, refs, -, -, rfl, -⟩ := step_abort hs; exact he
  | drop =>
    simp only [World.step] at hs
    split at hs
    · cases hs
    · cases hs; exact he
  | commit =>
    simp only [World.step] at hs
    split at hs
    · cases hs
    · rename_i f hst
      cases hs
      simp only at he
      by_cases hro : f.ro = true
      · rw [if_pos hro] at he; exact he
      · rw [if_neg hro] at he
        exact absurd he (hn (hi.frames f (by rw [hst]; simp)).1)
    · cases hs; exact he

/-- Each process has a consistent view. -/
theorem PReach.inv {m : PWorld} (h : PReach m) (p : Nat) : Inv GoodWF (m.of p) := by
  unfold PReach at h
  generalize hm : PWorld.start = m0 at h
  induction h generalizing p with
  | refl => subst hm; exact ⟨.inl ⟨rfl, rfl⟩, fun _ => ⟨rfl, rfl⟩, fun f hf => by cases hf⟩
  | @step m1 m2 q c out hr ha hp hs ih =>
    obtain ⟨w, h1, rfl⟩ := hs.step
    have hq := ih q
    have hw := hq.stepP ha hp h1
    by_cases hpq : p = q
    · subst hpq; rw [after_same]; exact hw
    · rw [after_other _ _ hpq]
      have ihp := ih p
      refine ⟨?_, ihp.down, ihp.frames⟩
      rcases hw.disk with ⟨h2, -⟩ | h2
      · have h3 : m1.disk = emptyDB := step_empty hq h1 h2
        rcases ihp.disk with ⟨-, h4⟩ | ⟨s, h4, -⟩
        · exact .inl ⟨h2, h4⟩
        · have := h4.next
          rw [show (m1.of p).disk = emptyDB from h3] at this; cases this
      · exact .inr h2

/-- The counter of inode numbers, 0 if there is no file yet. -/
def DB.counter (d : DB) : Nat := d.next.getD 0

/-- At most one process writes, and what it has is not older than the file. -/
structure Iso (m : PWorld) : Prop where
  one : ∀ p q f g, f ∈ (m.proc p).stack → f.ro = false → g ∈ (m.proc q).stack → g.ro = false → p = q
  newer : ∀ p f, f ∈ (m.proc p).stack → f.ro = false → m.disk.counter ≤ f.db.counter
  single : ∀ p f, f ∈ (m.proc p).stack → f.ro = true → (m.proc p).stack = [f]

theorem doOp_counter {w : World} {f : Frame} {r : List Frame} {o : Op} {t : Txn} {out : Out} (h : Good f.db) (h3 : RewriteOK f.rewrite) (ha : Allowed w (.op o))
    (hst : w.stack = f :: r) (hd : doOp (f.txn w.refs) o = .ok (t, out)) : f.db.counter ≤ t.db.counter := by
  obtain ⟨s, h1, h2⟩ := h
  obtain ⟨s', g1, -, g3⟩ := doOp_eff (t := f.txn w.refs) ⟨h1, h2⟩ ha.1 h3 (by
    rintro p n a rfl
    have := ha.2 f r hst
    simp only at this
    exact ⟨this.1, this.2 _ h1.next⟩) hd
  unfold DB.counter
  rw [h1.next, g1.1.next]
  rcases g3 with ⟨g3, -⟩ | ⟨-, rfl, -⟩
  · exact g3.next
  · exact Nat.le_refl _

theorem openClean_counter {d d' : DB} {r r' : Refs} (h : Good d) (ho : openCleanDB d r = .ok (d', r')) : d'.counter = d.counter := by
  obtain ⟨s, h1, h2⟩ := h
  obtain ⟨s1, s2, d2, r1, r2, e1, e2, -, -, c1, -, c2, -⟩ := openClean_spec h1 h2 r
  rw [e1] at ho; cases ho
  unfold DB.counter
  rw [h1.next, e2.next, c2.next, c1.next]

theorem GoodWF.good {d : DB} (h : GoodWF d) : Good d := by obtain ⟨s, a, b, -⟩ := h; exact ⟨s, a, b⟩

/-- What one call does to the stack of its process, and to the file. -/
theorem step_iso {w w' : World} {c : Call} {o : Out} (hi : Inv GoodWF w) (ha : Allowed w c) (hs : w.step c = .ok (w', o))
    (hn : ∀ f ∈ w.stack, f.ro = false → w.disk.counter ≤ f.db.counter) (h1 : ∀ f ∈ w.stack, f.ro = true → w.stack = [f]) :
    w.disk.counter ≤ w'.disk.counter ∧ (∀ f ∈ w'.stack, f.ro = false → w'.disk.counter ≤ f.db.counter) ∧ (∀ f ∈ w'.stack, f.ro = true → w'.stack = [f]) ∧
      (w'.disk = w.disk ∨ c.writes = true ∨ ∃ f ∈ w.stack, f.ro = false) ∧
      ((∃ f ∈ w'.stack, f.ro = false) → c.writes = true ∨ ∃ f ∈ w.stack, f.ro = false) := by
  cases c with
  | crash =>
    simp only [World.step] at hs; cases hs
    exact ⟨Nat.le_refl _, fun f hf => (by cases hf), fun f hf => (by cases hf), .inl rfl, fun ⟨f, hf, _⟩ => (by cases hf)⟩
  | openInit u g now =>
    obtain ⟨hp, rfl⟩ := step_openInit hs
    have hst := (hi.down (by rw [hp]; simp)).1
    refine ⟨?_, fun f hf => ?_, fun f hf => ?_, .inr (.inl rfl), fun _ => .inl rfl⟩
    · unfold initDB
      cases hx : w.disk.next with
      | none => simp [DB.counter, hx]
      | some n => exact Nat.le_refl _
    · rw [show _ = _ from hst] at hf; cases hf
    · rw [show _ = _ from hst] at hf; cases hf
  | openClean =>
    obtain ⟨hp, d, r, hd, rfl⟩ := step_openClean hs
    have hst := (hi.down (by rw [hp]; simp)).1
    have hg : Good w.disk := by
      rcases hi.disk with ⟨-, h⟩ | h
      · rw [hp] at h; cases h
      · exact h.good
    refine ⟨Nat.le_of_eq (openClean_counter hg hd).symm, fun f hf => ?_, fun f hf => ?_, .inr (.inl rfl), fun _ => .inl rfl⟩
    · rw [show _ = _ from hst] at hf; cases hf
    · rw [show _ = _ from hst] at hf; cases hf
  | beginRO =>
    simp only [World.step] at hs
    split at hs
    · cases hs
      refine ⟨Nat.le_refl _, fun f hf hr => ?_, fun f hf _ => ?_, .inl rfl, fun ⟨f, hf, hr⟩ => ?_⟩ <;> simp only [List.mem_singleton] at hf <;> subst hf
      · exact Nat.le_refl _
      · rfl
      · cases hr
    · cases hs
  | beginRW =>
    simp only [World.step] at hs
    split at hs
    · cases hs
      refine ⟨Nat.le_refl _, fun f hf hr => ?_, fun f hf _ => ?_, .inl rfl, fun _ => .inl rfl⟩ <;> simp only [List.mem_singleton] at hf <;> subst hf
      · exact Nat.le_refl _
      · rfl
    · cases hs
  | nested =>
    simp only [World.step] at hs
    split at hs
    · cases hs
    · rename_i f r hst
      by_cases hro : f.ro = true
      · rw [if_pos hro] at hs; cases hs
      · rw [if_neg hro] at hs; cases hs
        have hro' : f.ro = false := by cases hx : f.ro <;> simp_all
        have hm : f ∈ w.stack := by rw [hst]; simp
        refine ⟨Nat.le_refl _, fun g hg hr => ?_, fun g hg hr => ?_, .inl rfl, fun _ => .inr ⟨f, hm, hro'⟩⟩
        · simp only [List.mem_cons] at hg
          rcases hg with rfl | rfl | hg
          · exact hn f hm hro'
          · exact hn g hm hro'
          · exact hn g (by rw [hst]; simp [hg]) hr
        · simp only [List.mem_cons] at hg
          rcases hg with rfl | rfl | hg
          · cases hr
          · exact absurd hr hro
          · have hgm : g ∈ w.stack := by rw [hst]; simp [hg]
            have := h1 g hgm hr
            rw [hst] at this
            simp only [List.cons.injEq] at this
            rw [this.2] at hg; cases hg
  | op o =>
    simp only [World.step] at hs
    split at hs
    · cases hs
    · rename_i f r hst
      split at hs
      · cases hs
      · cases hd : doOp (f.txn w.refs) o with
        | error e => rw [hd] at hs; cases hs
        | ok v =>
          obtain ⟨t, out⟩ := v
          rw [hd] at hs; cases hs
          have hm : f ∈ w.stack := by rw [hst]; simp
          have hfr := hi.frames f hm
          have hc := doOp_counter hfr.1.good hfr.2 ha hst hd
          refine ⟨Nat.le_refl _, fun g hg hr => ?_, fun g hg hr => ?_, .inl rfl, fun ⟨g, hg, hr⟩ => ?_⟩ <;> simp only [List.mem_cons] at hg
          · rcases hg with rfl | hg
            · exact Nat.le_trans (hn f hm hr) hc
            · exact hn g (by rw [hst]; simp [hg]) hr
          · rcases hg with rfl | hg
            · have := h1 f hm hr
              rw [hst] at this
              simp only [List.cons.injEq, true_and] at this
              subst this; rfl
            · have hgm : g ∈ w.stack := by rw [hst]; simp [hg]
              have := h1 g hgm hr
              rw [hst] at this
              simp only [List.cons.injEq] at this
              rw [this.2] at hg; cases hg
          · rcases hg with rfl | hg
            · exact .inr ⟨f, hm, hr⟩
            · exact .inr ⟨g, by rw [hst]; simp [hg], hr⟩
  | commit =>
    simp only [World.step] at hs
    split at hs
    · cases hs
    · rename_i f hst
      cases hs
      have hm : f ∈ w.stack := by rw [hst]; simp
      refine ⟨?_, fun g hg => (by cases hg), fun g hg => (by cases hg), ?_, fun ⟨g, hg, _⟩ => (by cases hg)⟩
      · simp only
        by_cases hro : f.ro = true
        · rw [if_pos hro]; exact Nat.le_refl _
        · rw [if_neg hro]; exact hn f hm (by cases hx : f.ro <;> simp_all)
      · by_cases hro : f.ro = true
        · exact .inl (if_pos hro)
        · exact .inr (.inr ⟨f, hm, by cases hx : f.ro <;> simp_all⟩)
    · rename_i f g r hst
      cases hs
      have hm : f ∈ w.stack := by rw [hst]; simp
      have hgm : g ∈ w.stack := by rw [hst]; simp
      have hfro : f.ro = false := by
        cases hx : f.ro with
        | false => rfl
        | true => have := h1 f hm hx; rw [hst] at this; simp at this
      have hall : ∀ x ∈ w.stack, x.ro = false := by
        intro x hx
        cases hr : x.ro with
        | false => rfl
        | true => have := h1 x hx hr; rw [hst] at this; simp at this
      refine ⟨Nat.le_refl _, fun x hx hr => ?_, fun x hx hr => ?_, .inl rfl, fun _ => .inr ⟨f, hm, hfro⟩⟩ <;> simp only [List.mem_cons] at hx
      · rcases hx with rfl | hx
        · exact hn f hm hfro
        · exact hn x (by rw [hst]; simp [hx]) hr
      · rcases hx with rfl | hx
        · have := hall g hgm; rw [show _ = _ from this] at hr; cases hr
        · have := hall x (by rw [hst]; simp [hx]); rw [this] at hr; cases hr
  | abort =>
    obtain ⟨f, r, refs, hst, -, rfl, -⟩ := step_abort hs
    refine ⟨Nat.le_refl _, fun g hg hr => ?_, fun g hg hr => ?_, .inl rfl, fun ⟨g, hg, hr⟩ => .inr ⟨g, by rw [hst]; exact List.mem_cons_of_mem _ hg, hr⟩⟩
    · exact hn g (by rw [hst]; exact List.mem_cons_of_mem _ hg) hr
    · have := h1 g (by rw [hst]; exact List.mem_cons_of_mem _ hg) hr
      rw [hst] at this
      simp only [List.cons.injEq] at this
      rw [show _ = _ from this.2] at hg; cases hg
  | drop =>
    simp only [World.step] at hs
    split at hs
    · cases hs
    · rename_i f r hst
      cases hs
      refine ⟨Nat.le_refl _, fun g hg hr => ?_, fun g hg hr => ?_, .inl rfl, fun ⟨g, hg, hr⟩ => .inr ⟨g, by rw [hst]; exact List.mem_cons_of_mem _ hg, hr⟩⟩
      · exact hn g (by rw [hst]; exact List.mem_cons_of_mem _ hg) hr
      · have := h1 g (by rw [hst]; exact List.mem_cons_of_mem _ hg) hr
        rw [hst] at this
        simp only [List.cons.injEq] at this
        rw [show _ = _ from this.2] at hg; cases hg

theorem iso_step {m m' : PWorld} {p : Nat} {c : Call} {out : Out} (hi : ∀ p, Inv GoodWF (m.of p)) (h : Iso m) (ha : Allowed (m.of p) c)
    (hs : PStep m p c out m') : Iso m' ∧ m.disk.counter ≤ m'.disk.counter := by
  obtain ⟨w, h1, rfl⟩ := hs.step
  obtain ⟨g1, g2, g3, g4, g5⟩ := step_iso (hi p) ha h1 (h.newer p) (h.single p)
  have hothers : ∀ q, q ≠ p → ∀ f ∈ (m.proc q).stack, f.ro = false → w.disk = m.disk ∧ ¬ ∃ g ∈ w.stack, g.ro = false := by
    intro q hq f hf hr
    have hno : ¬ (c.writes = true ∨ ∃ f ∈ (m.of p).stack, f.ro = false) := by
      rintro (hw | ⟨g, hg, hgr⟩)
      · have := hs.waits hw q hq f hf; rw [hr] at this; cases this
      · exact hq (h.one q p f g hf hr hg hgr)
    refine ⟨?_, fun hx => hno (g5 hx)⟩
    rcases g4 with g4 | g4
    · exact g4
    · exact absurd g4 hno
  have same : (m.after p w).proc p = ⟨w.phase, w.refs, w.stack⟩ := by simp [PWorld.after]
  have other : ∀ {q}, q ≠ p → (m.after p w).proc q = m.proc q := by intro q hq; simp [PWorld.after, hq]
  refine ⟨⟨?_, ?_, ?_⟩, g1⟩
  · intro a b f g hf hfr hg hgr
    by_cases hap : a = p
    · by_cases hbp : b = p
      · rw [hap, hbp]
      · subst hap
        rw [same] at hf; rw [other hbp] at hg
        exact absurd ⟨f, hf, hfr⟩ (hothers b hbp g hg hgr).2
    · by_cases hbp : b = p
      · subst hbp
        rw [same] at hg; rw [other hap] at hf
        exact absurd ⟨g, hg, hgr⟩ (hothers a hap f hf hfr).2
      · rw [other hap] at hf; rw [other hbp] at hg
        exact h.one a b f g hf hfr hg hgr
  · intro a f hf hfr
    by_cases hap : a = p
    · subst hap; rw [same] at hf; exact g2 f hf hfr
    · rw [other hap] at hf
      show w.disk.counter ≤ _
      rw [(hothers a hap f hf hfr).1]; exact h.newer a f hf hfr
  · intro a f hf hfr
    by_cases hap : a = p
    · subst hap; rw [same] at hf ⊢; exact g3 f hf hfr
    · rw [other hap] at hf ⊢; exact h.single a f hf hfr

theorem PReach.iso {m : PWorld} (h : PReach m) : Iso m := by
  unfold PReach at h
  generalize hm : PWorld.start = m0 at h
  induction h with
  | refl => subst hm; exact ⟨fun _ _ f _ hf => (by cases hf), fun _ f hf => (by cases hf), fun _ f hf => (by cases hf)⟩
  | @step m1 m2 q c out hr ha hp hs ih => exact (iso_step (fun p => PReach.inv (by unfold PReach; rw [hm]; exact hr) p) ih ha hs).1

theorem PRun.counter {m m' : PWorld} (h : PReach m) (hr : PRun m m') : m.disk.counter ≤ m'.disk.counter := by
  induction hr with
  | refl => exact Nat.le_refl _
  | @step m1 m2 q c out hr ha hp hs ih =>
    have hm : PReach m1 := PRun.trans h hr
    exact Nat.le_trans ih (iso_step hm.inv hm.iso ha hs).2

end Dragonstash.Cache
