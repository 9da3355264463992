/-
  Invariant of all interleavings: the databases of all transactions.
-/
import Verif.Conc.Inv
namespace Dragonstash.Conc
open Cache Codec

structure DataInv (w : CWorld) : Prop where
  disk : Good w.disk
  frames : ∀ k t, w.txns k = some t → ∀ f ∈ t.frames, Good f.fr.db ∧ RewriteOK f.fr.rewrite
  chain : ∀ k t, w.txns k = some t → Chain w.refs w.disk t.frames
  refs : RefsOK w.refs

/-- One transaction is replaced, the committed databases stay. -/
theorem DataInv.replace {w : CWorld} (h : DataInv w) {k : Nat} {u : Option CTxn} {w' : CWorld}
    (e1 : ∀ j, w'.txns j = if j = k then u else w.txns j) (e2 : w'.disk = w.disk)
    (hm : ∀ i, (w.refs i).doomed = true → (w'.refs i).doomed = true) (hr : RefsOK w'.refs)
    (h1 : ∀ t, u = some t → (∀ f ∈ t.frames, Good f.fr.db ∧ RewriteOK f.fr.rewrite) ∧ Chain w'.refs w.disk t.frames) : DataInv w' := by
  refine ⟨by rw [e2]; exact h.disk, ?_, ?_, hr⟩
  · intro j t hj
    rw [e1] at hj
    by_cases e : j = k
    · rw [if_pos e] at hj; exact (h1 t hj).1
    · rw [if_neg e] at hj; exact h.frames j t hj
  · intro j t hj
    rw [e1] at hj
    rw [e2]
    by_cases e : j = k
    · rw [if_pos e] at hj; exact (h1 t hj).2
    · rw [if_neg e] at hj; exact (h.chain j t hj).mono hm

theorem rewriteOK_none : RewriteOK none := fun l hl => by cases hl

theorem DataInv.step {w w' : CWorld} {c : CCall} {out : Out} (h : DataInv w) (hl : LockInv w) (ha : CAllowed w c) (hs : Step w c w' out) : DataInv w' := by
  cases hs with
  | @beginRO k th hk =>
    refine h.replace (fun j => rfl) rfl (fun _ h => h) h.refs ?_
    intro t ht; cases ht
    refine ⟨fun f hf => ?_, ?_⟩
    · simp only [List.mem_singleton] at hf; subst hf; exact ⟨h.disk, rewriteOK_none⟩
    · show Chain _ _ [_]; unfold Chain; rw [if_pos rfl]; exact .refl
  | @beginRW k th hk hw =>
    refine h.replace (fun j => rfl) rfl (fun _ h => h) h.refs ?_
    intro t ht; cases ht
    refine ⟨fun f hf => ?_, ?_⟩
    · simp only [List.mem_singleton] at hf; subst hf; exact ⟨h.disk, rewriteOK_none⟩
    · show Chain _ _ [_]; unfold Chain; rw [if_neg (by simp)]; exact .refl
  | @op k t f r o x _ mx hk hf hro hd hask hmx =>
    obtain ⟨g, grw⟩ := h.frames k t hk f (by rw [hf]; simp)
    have ha2 := ha.2 t f r hk hf
    obtain ⟨d1, d2, d3, d4, d5⟩ := doOp_later (t := f.fr.txn w.refs) g ha.1 grw (by
      rintro p n a rfl; simp only at ha2; exact ha2) hd h.refs
    refine h.replace (fun j => rfl) rfl d5 d4 ?_
    intro u hu; cases hu
    refine ⟨fun y hy => ?_, ?_⟩
    · simp only [List.mem_cons] at hy
      rcases hy with rfl | hy
      · exact ⟨d1, d2⟩
      · exact h.frames k t hk y (by rw [hf]; simp [hy])
    · refine Chain.op (f := f) (by rw [← hf]; exact h.chain k t hk) d5 h.disk ?_ rfl d3 (fun e => roOp_db (hro e) hd)
      intro y hy; exact (h.frames k t hk y (by rw [hf]; exact hy)).1
  | @nested k t f r hk hf hro =>
    refine h.replace (fun j => rfl) rfl (fun _ h => h) h.refs ?_
    intro u hu; cases hu
    refine ⟨fun y hy => ?_, ?_⟩
    · simp only [List.mem_cons] at hy
      rcases hy with rfl | hy
      · exact ⟨(h.frames k t hk f (by rw [hf]; simp)).1, rewriteOK_none⟩
      · exact h.frames k t hk y (by rw [hf]; simpa using hy)
    · exact ⟨rfl, hro, .refl, by rw [← hf]; exact h.chain k t hk⟩
  | @commit k t f hk hf =>
    have hg := h.frames k t hk f (by rw [hf]; simp)
    have hc := h.chain k t hk
    rw [hf] at hc; unfold Chain at hc
    cases hro : f.fr.ro with
    | true =>
      refine h.replace (k := k) (u := some { t with frames := [], wr := false, tailM := f.mx }) (fun j => rfl) (by simp) (fun _ h => h) h.refs ?_
      intro u hu; cases hu; exact ⟨fun y hy => (by cases hy), trivial⟩
    | false =>
      rw [hro] at hc; simp only [Bool.false_eq_true, if_false] at hc
      have hw : w.writer = some k := hl.wr k t hk ((hl.txn k t hk).rw f (by rw [hf]; simp) hro)
      refine ⟨by simpa using hg.1, ?_, ?_, h.refs⟩
      · intro j u hj y hy
        have hj : (if j = k then some { t with frames := [], wr := false, tailM := f.mx } else w.txns j) = some u := hj
        split at hj
        · cases hj; cases hy
        · exact h.frames j u hj y hy
      · intro j u hj
        have hj : (if j = k then some { t with frames := [], wr := false, tailM := f.mx } else w.txns j) = some u := hj
        split at hj
        · cases hj; trivial
        · rename_i hne
          have hcj := h.chain j u hj
          have hro' : ∀ y ∈ u.frames, y.fr.ro = true := by
            intro y hy
            cases hr : y.fr.ro with
            | true => rfl
            | false =>
              have := hl.wr j u hj ((hl.txn j u hj).rw y hy hr)
              rw [hw] at this; cases this; exact absurd rfl hne
          cases hu : u.frames with
          | nil => trivial
          | cons y l =>
            have hy : y.fr.ro = true := hro' y (by rw [hu]; simp)
            have := ((hl.txn j u hj).single y (by rw [hu]; simp) hy).1
            rw [hu] at this hcj; cases this
            unfold Chain at hcj ⊢
            rw [if_pos hy] at hcj ⊢
            simp only [Bool.false_eq_true, if_false]
            exact hcj.trans (h.frames j u hj y (by rw [hu]; simp)).1 h.disk hc
  | @commitNested k t f g r hk hf =>
    have hc := h.chain k t hk
    rw [hf] at hc
    refine h.replace (fun j => rfl) rfl (fun _ h => h) h.refs ?_
    intro u hu; cases hu
    refine ⟨fun y hy => ?_, ?_⟩
    · simp only [List.mem_cons] at hy
      rcases hy with rfl | hy
      · exact ⟨(h.frames k t hk f (by rw [hf]; simp)).1, (h.frames k t hk g (by rw [hf]; simp)).2⟩
      · exact h.frames k t hk y (by rw [hf]; simp [hy])
    · refine Chain.op (f := g) hc.2.2.2 (fun _ h => h) h.disk ?_ rfl hc.2.2.1 (fun e => ?_)
      · intro y hy; exact (h.frames k t hk y (by rw [hf]; exact List.mem_cons_of_mem _ hy)).1
      · rw [hc.2.1] at e; cases e
  | @abort k t f refs hk hf hu =>
    refine h.replace (fun j => rfl) rfl (fun i hi => by rw [show (refs i).doomed = _ from undoAll_doomed hu i]; exact hi) (h.refs.undoAll hu) ?_
    intro u hu; cases hu; exact ⟨fun y hy => (by cases hy), trivial⟩
  | @abortNested k t f g r refs hk hf hu =>
    have hm : ∀ i, (w.refs i).doomed = true → (refs i).doomed = true := fun i hi => by rw [undoAll_doomed hu i]; exact hi
    refine h.replace (fun j => rfl) rfl hm (h.refs.undoAll hu) ?_
    intro u hu; cases hu
    have hc := h.chain k t hk
    rw [hf] at hc
    exact ⟨fun y hy => h.frames k t hk y (by rw [hf]; exact List.mem_cons_of_mem _ hy), hc.tail.mono hm⟩
  | @drop k t f r hk hf =>
    refine h.replace (fun j => rfl) rfl (fun _ h => h) h.refs ?_
    intro u hu; cases hu
    have hc := h.chain k t hk
    rw [hf] at hc
    exact ⟨fun y hy => h.frames k t hk y (by rw [hf]; exact List.mem_cons_of_mem _ hy), hc.tail⟩
  | @finish k t hk hf =>
    exact h.replace (fun j => rfl) rfl (fun _ h => h) h.refs (fun u hu => by cases hu)

/-- Both invariants hold in every reachable state. -/
theorem CReach.inv {w : CWorld} (h : CReach w) : LockInv w ∧ DataInv w := by
  obtain ⟨w0, h1, h2, h3, h4⟩ := h
  have gen : ∀ {w0 w : CWorld}, CRun w0 w → LockInv w0 ∧ DataInv w0 → LockInv w ∧ DataInv w := by
    intro w0 w hr
    induction hr with
    | refl => exact id
    | step _ ha hs ih =>
      intro h0
      obtain ⟨i1, i2⟩ := ih h0
      have := step_inv hs
      exact ⟨i1.step this, i2.step i1 ha this⟩
  refine gen h4 ⟨⟨?_, ?_, ?_, ?_, ?_⟩, ⟨?_, ?_, ?_, h1.refsOK⟩⟩
  · intro k t hk; cases hk
  · intro k hk; cases hk
  · intro k t hk; cases hk
  · intro k hk; cases hk
  · intro k t hk; cases hk
  · rcases h1.inv.disk with ⟨-, h5⟩ | h5
    · rw [h2] at h5; cases h5
    · exact h5
  · intro k t hk; cases hk
  · intro k t hk; cases hk

end Dragonstash.Conc
