/-
  Threads on bytes and threads on records run in lockstep.
-/
import Verif.Conc.ByteModel
import Verif.Cache.Bytewise
namespace Dragonstash.ConcB
open Cache Codec Conc
open List (Forall₂)

structure CFRel (b : CFrame) (f : Conc.CFrame) : Prop where
  fr : FRel b.fr f.fr
  mx : b.mx = f.mx

structure CTRel (b : CTxn) (t : Conc.CTxn) : Prop where
  thread : b.thread = t.thread
  frames : Forall₂ CFRel b.frames t.frames
  wr : b.wr = t.wr
  tailM : b.tailM = t.tailM

/-- Transactions under the same name. -/
inductive ORel : Option CTxn → Option Conc.CTxn → Prop
  | none : ORel none none
  | some {b t} : CTRel b t → ORel (some b) (some t)

/-- Corresponding worlds. -/
structure CWRel (b : CWorld) (w : Conc.CWorld) : Prop where
  disk : DRel b.disk w.disk
  refs : b.refs = w.refs
  txns : ∀ k, ORel (b.txns k) (w.txns k)
  writer : b.writer = w.writer
  mutex : b.mutex = w.mutex

/-- Corresponding outcomes. -/
inductive OutRel : Outcome → Conc.Outcome → Prop
  | done {b w out} : CWRel b w → OutRel (.done b out) (.done w out)
  | blocked : OutRel .blocked .blocked
  | deadlk : OutRel .deadlk .deadlk
  | fault : OutRel .fault .fault

theorem asksRefs_rel (pad : Ino → Nat) {b : Cache.B.DB} {d : DB} (h : DRel b d) (o : Op) : asksRefs pad b o = Conc.asksRefs d o := by
  cases o with
  | emplace p n a =>
    simp only [asksRefs, Conc.asksRefs]
    cases checkName n true with
    | error e => rfl
    | ok _ =>
      simp only
      rcases h.treen.find (keyN p n) with ⟨e1, e2⟩ | ⟨v, w, e1, e2, hr⟩
      · rw [e1, e2]
      rw [e1, e2]
      simp only [hr.2.2]
      rcases h.inodes.find (key8 w.ino) with ⟨e1, e2⟩ | ⟨v', w', e1, e2, hr'⟩
      · rw [e1, e2]
      rw [e1, e2]
      simp only [hr'.2.2]
  | unlinkIno i =>
    obtain ⟨b', hb, -⟩ := makeOrphan_rel h pad i
    simp only [asksRefs, Conc.asksRefs, hb]
  | unlinkName p n =>
    simp only [asksRefs, Conc.asksRefs]
    rcases h.treen.find (keyN p n) with ⟨e1, e2⟩ | ⟨v, w, e1, e2, hr⟩
    · rw [e1, e2]
    rw [e1, e2]
    obtain ⟨b', hb, -⟩ := makeOrphan_rel h pad w.ino
    simp only [hr.2.2, hb]
  | _ => rfl

theorem CWRel.set {b : CWorld} {w : Conc.CWorld} (h : CWRel b w) (k : Nat) {x : Option CTxn} {y : Option Conc.CTxn} (hx : ORel x y) : CWRel (b.set k x) (w.set k y) := by
  refine ⟨h.disk, h.refs, fun j => ?_, h.writer, h.mutex⟩
  show ORel (if j = k then x else b.txns j) (if j = k then y else w.txns j)
  by_cases e : j = k
  · rw [if_pos e, if_pos e]; exact hx
  · rw [if_neg e, if_neg e]; exact h.txns j

theorem any_mx {l : List CFrame} {m : List Conc.CFrame} (h : Forall₂ CFRel l m) : l.any (·.mx) = m.any (·.mx) := by
  induction h with
  | nil => rfl
  | cons h1 _ ih => rw [List.any_cons, List.any_cons, ih, h1.mx]

theorem owner_rel {b : CWorld} {w : Conc.CWorld} (h : CWRel b w) : b.owner = w.owner := by
  unfold CWorld.owner Conc.CWorld.owner
  rw [h.mutex]
  cases w.mutex with
  | none => rfl
  | some k =>
    simp only
    have := h.txns k
    generalize b.txns k = x at this ⊢
    generalize w.txns k = y at this ⊢
    cases this with
    | none => rfl
    | some ht => exact congrArg some ht.thread

theorem acquire_rel {b : CWorld} {w : Conc.CWorld} (h : CWRel b w) {t : CTxn} {u : Conc.CTxn} (ht : CTRel t u) : b.acquire t = w.acquire u := by
  unfold CWorld.acquire Conc.CWorld.acquire
  rw [any_mx ht.frames, owner_rel h, h.mutex, ht.thread]

theorem runOp_rel (pad : Ino → Nat) {b : CWorld} {w : Conc.CWorld} (h : CWRel b w) (k : Nat) {t : CTxn} {u : Conc.CTxn} (ht : CTRel t u)
    {f : CFrame} {g : Conc.CFrame} (hf : CFRel f g) {r : List CFrame} {s : List Conc.CFrame} (hr : Forall₂ CFRel r s) (o : Op) (ho : o.Fits) (mx : Bool) :
    OutRel (b.runOp pad k t f r o mx) (w.runOp k u g s o mx) := by
  unfold CWorld.runOp Conc.CWorld.runOp
  have hd := doOp_rel pad (t := f.fr.txn b.refs) (u := g.fr.txn w.refs) ⟨hf.fr.db, h.refs, hf.fr.rewrite, hf.fr.hooks⟩ o ho
  generalize Cache.B.doOp pad (f.fr.txn b.refs) o = x at hd ⊢
  generalize doOp (g.fr.txn w.refs) o = y at hd ⊢
  cases hd with
  | error e => exact .fault
  | @ok a c hac =>
    obtain ⟨t', out⟩ := a
    obtain ⟨u', out'⟩ := c
    obtain ⟨h1, h2⟩ := hac
    simp only at h1 h2
    subst h2
    have hs := h.set k (.some (b := { t with frames := ⟨⟨t'.db, t'.rewrite, t'.hooks, f.fr.ro⟩, f.mx || mx⟩ :: r })
      (t := { u with frames := ⟨⟨u'.db, u'.rewrite, u'.hooks, g.fr.ro⟩, g.mx || mx⟩ :: s })
      ⟨ht.thread, .cons ⟨⟨h1.db, h1.rewrite, h1.hooks, hf.fr.ro⟩, by rw [hf.mx]⟩ hr, ht.wr, ht.tailM⟩)
    exact .done ⟨hs.disk, h1.refs, hs.txns, hs.writer, by simp only [h.mutex]⟩

theorem act_rel (pad : Ino → Nat) {b : CWorld} {w : Conc.CWorld} (h : CWRel b w) (k : Nat) {t : CTxn} {u : Conc.CTxn} (ht : CTRel t u) (a : Act)
    (ha : ∀ o, a = .op o → o.Fits) : OutRel (b.act pad k t a) (w.act k u a) := by
  obtain ⟨th, fr, wr, tm⟩ := t
  obtain ⟨th', fr', wr', tm'⟩ := u
  obtain ⟨h1, h2, h3, h4⟩ := ht
  simp only at h1 h2 h3 h4
  subst h1 h3 h4
  have hw : (if wr then none else b.writer) = (if wr then none else w.writer) := by rw [h.writer]
  cases a with
  | op o =>
    unfold CWorld.act Conc.CWorld.act
    cases h2 with
    | nil => exact .fault
    | @cons f g r s hf hr =>
      simp only
      rw [hf.fr.ro, asksRefs_rel pad hf.fr.db]
      have ht : CTRel ⟨th, f :: r, wr, tm⟩ ⟨th, g :: s, wr, tm⟩ := ⟨rfl, .cons hf hr, rfl, rfl⟩
      by_cases e : (g.fr.ro && !o.isRO) = true
      · rw [if_pos e, if_pos e]; exact .fault
      rw [if_neg e, if_neg e]
      by_cases e2 : Conc.asksRefs g.fr.db o = true
      · rw [if_pos e2, if_pos e2, acquire_rel h ht]
        cases w.acquire ⟨th, g :: s, wr, tm⟩ with
        | have_ => exact runOp_rel pad h k ht hf hr o (ha o rfl) _
        | got => exact runOp_rel pad h k ht hf hr o (ha o rfl) _
        | wait => exact .blocked
        | deadlk => exact .deadlk
      · rw [if_neg e2, if_neg e2]
        exact runOp_rel pad h k ht hf hr o (ha o rfl) _
  | nested =>
    unfold CWorld.act Conc.CWorld.act
    cases h2 with
    | nil => exact .fault
    | @cons f g r s hf hr =>
      simp only
      rw [hf.fr.ro]
      by_cases e : g.fr.ro = true
      · rw [if_pos e, if_pos e]; exact .fault
      rw [if_neg e, if_neg e]
      exact .done (h.set k (.some ⟨rfl, .cons ⟨⟨hf.fr.db, rfl, rfl, rfl⟩, rfl⟩ (.cons hf hr), rfl, rfl⟩))
  | commit =>
    unfold CWorld.act Conc.CWorld.act
    cases h2 with
    | nil => exact .fault
    | @cons f g r s hf hr =>
      cases hr with
      | nil =>
        have hs := h.set k (.some (b := ⟨th, [], false, f.mx⟩) (t := ⟨th, [], false, g.mx⟩) ⟨rfl, .nil, rfl, hf.mx⟩)
        refine .done ⟨?_, hs.refs, hs.txns, hw, hs.mutex⟩
        simp only
        rw [hf.fr.ro]
        by_cases e : g.fr.ro = true
        · rw [if_pos e, if_pos e]; exact h.disk
        · rw [if_neg e, if_neg e]; exact hf.fr.db
      | cons hf2 hr =>
        exact .done (h.set k (.some ⟨rfl, .cons ⟨⟨hf.fr.db, hf2.fr.rewrite, by simp only [hf2.fr.hooks, hf.fr.hooks], hf2.fr.ro⟩, by simp only [hf2.mx, hf.mx]⟩ hr, rfl, rfl⟩))
  | abort =>
    unfold CWorld.act Conc.CWorld.act
    cases h2 with
    | nil => exact .fault
    | @cons f g r s hf hr =>
      simp only
      rw [h.refs, hf.fr.hooks]
      cases undoAll w.refs g.fr.hooks.reverse with
      | error e => exact .fault
      | ok refs =>
        cases hr with
        | nil =>
          have hs := h.set k (.some (b := ⟨th, [], false, f.mx⟩) (t := ⟨th, [], false, g.mx⟩) ⟨rfl, .nil, rfl, hf.mx⟩)
          exact .done ⟨hs.disk, rfl, hs.txns, hw, hs.mutex⟩
        | @cons f2 g2 r2 s2 hf2 hr2 =>
          have hs := h.set k (.some (b := ⟨th, f2 :: r2, wr, tm⟩) (t := ⟨th, g2 :: s2, wr, tm⟩) ⟨rfl, .cons hf2 hr2, rfl, rfl⟩)
          exact .done ⟨hs.disk, rfl, hs.txns, hs.writer, by simp only [hf.mx, h.mutex]⟩
  | drop =>
    unfold CWorld.act Conc.CWorld.act
    cases h2 with
    | nil => exact .fault
    | @cons f g r s hf hr =>
      have hs := h.set k (.some (b := ⟨th, r, wr, tm⟩) (t := ⟨th, s, wr, tm⟩) ⟨rfl, hr, rfl, rfl⟩)
      exact .done ⟨hs.disk, hs.refs, hs.txns, hs.writer, by simp only [hf.mx, h.mutex]⟩
  | finish =>
    unfold CWorld.act Conc.CWorld.act
    cases h2 with
    | cons hf hr => exact .fault
    | nil =>
      have hs := h.set k .none
      exact .done ⟨hs.disk, hs.refs, hs.txns, hw, by simp only [h.mutex]⟩

/-- One call: the same outcome, whatever the padding. -/
theorem step_rel (pad : Ino → Nat) {b : CWorld} {w : Conc.CWorld} (h : CWRel b w) (c : CCall) (hc : ∀ k o, c = .on k (.op o) → o.Fits) :
    OutRel (b.step pad c) (w.step c) := by
  cases c with
  | beginRO k th =>
    unfold CWorld.step Conc.CWorld.step
    simp only
    have := h.txns k
    generalize b.txns k = x at this ⊢
    generalize w.txns k = y at this ⊢
    cases this with
    | some _ => exact .fault
    | none => exact .done (h.set k (.some ⟨rfl, .cons ⟨⟨h.disk, rfl, rfl, rfl⟩, rfl⟩ .nil, rfl, rfl⟩))
  | beginRW k th =>
    unfold CWorld.step Conc.CWorld.step
    simp only
    have := h.txns k
    generalize b.txns k = x at this ⊢
    generalize w.txns k = y at this ⊢
    cases this with
    | some _ => exact .fault
    | none =>
      simp only
      rw [h.writer]
      by_cases e : w.writer.isSome = true
      · rw [if_pos e, if_pos e]; exact .blocked
      rw [if_neg e, if_neg e]
      have hs := h.set k (.some (b := ⟨th, [⟨{ db := b.disk }, false⟩], true, false⟩) (t := ⟨th, [⟨{ db := w.disk }, false⟩], true, false⟩)
        ⟨rfl, .cons ⟨⟨h.disk, rfl, rfl, rfl⟩, rfl⟩ .nil, rfl, rfl⟩)
      exact .done ⟨hs.disk, hs.refs, hs.txns, rfl, hs.mutex⟩
  | on k a =>
    unfold CWorld.step Conc.CWorld.step
    simp only
    have := h.txns k
    generalize b.txns k = x at this ⊢
    generalize w.txns k = y at this ⊢
    cases this with
    | none => exact .fault
    | some ht => exact act_rel pad h k ht a (fun o e => hc k o (by rw [e]))

theorem OutRel.left {x : Outcome} {y : Conc.Outcome} (h : OutRel x y) {b : CWorld} {out : Out} (e : x = .done b out) : ∃ w, y = .done w out ∧ CWRel b w := by
  cases h with
  | done h => cases e; exact ⟨_, rfl, h⟩
  | _ => cases e

theorem OutRel.right {x : Outcome} {y : Conc.Outcome} (h : OutRel x y) {w : Conc.CWorld} {out : Out} (e : y = .done w out) : ∃ b, x = .done b out ∧ CWRel b w := by
  cases h with
  | done h => cases e; exact ⟨_, rfl, h⟩
  | _ => cases e

theorem OutRel.blocked' {x : Outcome} {y : Conc.Outcome} (h : OutRel x y) : x = .blocked ↔ y = .blocked := by
  cases h <;> simp

theorem start_rel {b : Cache.B.DB} {d : DB} (h : DRel b d) (r : Refs) : CWRel (CWorld.start b r) (Conc.CWorld.start d r) :=
  ⟨h, rfl, fun _ => .none, rfl, rfl⟩

end Dragonstash.ConcB
