/-
  Invariant of the state between requests, and single cache operations under it.
-/
import Verif.FS.Model
import Verif.Cache.Steps
namespace Dragonstash.FS
open Cache Codec
variable {s s' : Tree} {d d' : DB} {r r' : Refs}

/-- The state between requests: the databases hold the tree `s`; it has no cycles; doomed inode
numbers are not in use any more; locked inodes exist. -/
structure SI (s : Tree) (d : DB) (r : Refs) : Prop where
  rep : Rep s d
  ok : s.OK
  wf : s.WF
  fresh : ∀ i, (r i).doomed = true → i < s.next ∧ s.nodes i = none
  locked : ∀ i, 0 < (r i).nrefs → ∃ nd, s.nodes i = some nd
  refs : RefsOK r

theorem eff_fresh (h : Eff s r s' r') (ok : s.OK) (hf : ∀ i, (r i).doomed = true → i < s.next ∧ s.nodes i = none) :
    ∀ i, (r' i).doomed = true → i < s'.next ∧ s'.nodes i = none := by
  induction h with
  | refl => exact hf
  | @set s r j x x' h1 h2 h3 h4 =>
    intro i hi
    obtain ⟨a, b⟩ := hf i hi
    refine ⟨a, ?_⟩
    rw [Tree.set_ne]
    · exact b
    · rintro rfl; rw [b] at h1; cases h1
  | orphan j => intro i hi; obtain ⟨a, b⟩ := hf i hi; exact ⟨a, orphan_none b⟩
  | @add s r p n a h1 h2 h3 h4 h5 =>
    intro i hi
    obtain ⟨a, b⟩ := hf i hi
    refine ⟨Nat.lt_succ_of_lt a, ?_⟩
    rw [Tree.add_ne (by omega)]; exact b
  | @collect s s' r r' h1 h2 h3 =>
    intro i hi
    rcases (h3 i).2.mp hi with h4 | h4
    · obtain ⟨a, b⟩ := hf i h4
      refine ⟨by rw [h2.next]; exact a, ?_⟩
      cases hx : s'.nodes i with
      | none => rfl
      | some nd => obtain ⟨-, y, h5, -⟩ := h2.back hx; rw [b] at h5; cases h5
    · obtain ⟨nd, h5⟩ := h4.exists_
      exact ⟨by rw [h2.next]; exact (ok.bound i nd h5).2, h2.gone i h4⟩
  | trans e1 e2 ih1 ih2 => exact ih2 (e1.ok ok) (ih1 ok hf)

/-- Effects preserve the invariant. -/
theorem SI.eff (h : SI s d r) (e : Eff s r s' r') (ep : EffP s r s' r') (hr : Rep s' d') : SI s' d' r' := by
  refine ⟨hr, e.ok h.ok, ep.wf h.ok h.wf, eff_fresh e h.ok h.fresh, ?_, e.refsOK h.refs⟩
  intro i hi
  rw [e.counts i] at hi
  obtain ⟨nd, h1⟩ := h.locked i hi
  obtain ⟨nd', h2, -⟩ := e.survive h.ok hi h1
  exact ⟨nd', h2⟩

/-- One more reference to inode `i`. -/
def addRef (r : Refs) (i : Ino) : Refs := r.set i { r i with nrefs := (r i).nrefs + 1 }
/-- `n` references less. -/
def subRef (r : Refs) (i : Ino) (n : Nat) : Refs := r.set i { r i with nrefs := (r i).nrefs - n }

theorem addRef_count (r : Refs) (i j : Ino) : (addRef r i j).nrefs = (r j).nrefs + if j = i then 1 else 0 := by
  unfold addRef Refs.set; split
  · subst_vars; rfl
  · rfl

theorem addRef_doomed (r : Refs) (i j : Ino) : (addRef r i j).doomed = (r j).doomed := by
  unfold addRef Refs.set; split
  · subst_vars; rfl
  · rfl

theorem subRef_count (r : Refs) (i j : Ino) (n : Nat) : (subRef r i n j).nrefs = (r j).nrefs - if j = i then n else 0 := by
  unfold subRef Refs.set; split
  · subst_vars; rfl
  · rfl

theorem subRef_doomed (r : Refs) (i j : Ino) (n : Nat) : (subRef r i n j).doomed = (r j).doomed := by
  unfold subRef Refs.set; split
  · subst_vars; rfl
  · rfl

theorem SI.addRef (h : SI s d r) {i nd} (hi : s.nodes i = some nd) (hlt : (r i).nrefs + 1 < W64) : SI s d (addRef r i) := by
  refine ⟨h.rep, h.ok, h.wf, ?_, ?_, ?_, ?_⟩
  · intro j; rw [addRef_doomed]; exact h.fresh j
  · intro j; rw [addRef_count]
    split
    · rintro -; subst_vars; exact ⟨nd, hi⟩
    · exact h.locked j
  · intro j; rw [addRef_count]
    split
    · subst_vars; exact hlt
    · exact h.refs.lt j
  · intro j; rw [addRef_doomed, addRef_count]
    intro hd
    rw [if_neg]
    · exact h.refs.doomed j hd
    · rintro rfl; rw [(h.fresh j hd).2] at hi; cases hi

theorem SI.subRef (h : SI s d r) (i : Ino) (n : Nat) : SI s d (subRef r i n) := by
  refine ⟨h.rep, h.ok, h.wf, ?_, ?_, ?_, ?_⟩
  · intro j; rw [subRef_doomed]; exact h.fresh j
  · intro j; rw [subRef_count]; intro hj; exact h.locked j (by omega)
  · intro j; rw [subRef_count]; have := h.refs.lt j; omega
  · intro j; rw [subRef_doomed, subRef_count]; intro hd; have := h.refs.doomed j hd; omega

theorem SI.not_doomed (h : SI s d r) {i nd} (hi : s.nodes i = some nd) : (r i).doomed = false := by
  cases hd : (r i).doomed with
  | false => rfl
  | true => rw [(h.fresh i hd).2] at hi; cases hi

/-- `lock` of an existing inode. -/
theorem lock_ok {t : Txn} (hd : (t.refs i).doomed = false) (hlt : (t.refs i).nrefs + 1 < W64) :
    ∃ t', lock t i = (t', .ok ()) ∧ t'.db = t.db ∧ t'.refs = addRef t.refs i := by
  refine ⟨{ t with refs := addRef t.refs i, hooks := t.hooks ++ [.unlock i] }, ?_, rfl, rfl⟩
  unfold lock Refs.incref
  simp only [hd, Bool.false_eq_true, if_false, u64, Nat.mod_eq_of_lt hlt, addRef]

/-- `release`. -/
theorem release_ok {t : Txn} {i n} (hn : n ≤ (t.refs i).nrefs) :
    ∃ t', release t i n = .ok (t', .ok ()) ∧ t'.db = t.db ∧ t'.refs = subRef t.refs i n := by
  unfold release Refs.decref
  by_cases h0 : n = 0
  · refine ⟨t, by rw [if_pos h0], rfl, ?_⟩
    funext j; unfold subRef Refs.set; split
    · subst_vars; simp
    · rfl
  · refine ⟨{ t with refs := subRef t.refs i n, hooks := t.hooks ++ [.relock i n] }, ?_, rfl, rfl⟩
    rw [if_neg h0, if_neg h0, if_neg (by omega)]
    rfl

/-- After the constructor of the cache. -/
theorem open_SI' {s : Tree} (h : Rep s d) (ok : s.OK) (wf : s.WF) (ho : openCleanDB d Refs.empty = .ok (d', r')) :
    ∃ s1 s2, SI s2 d' r' ∧ Collected s (fun _ => False) s1 ∧ Collected s1 (fun _ => False) s2 ∧ s1.OK := by
  obtain ⟨s1, s2, d2, r1, r2, g1, g2, g3, g4, g5, g6, g7, g8, -⟩ := openClean_spec h ok Refs.empty
  rw [ho] at g1; cases g1
  have hne : locked Refs.empty = fun _ => False := by
    funext i; simp [locked, Refs.empty]
  have hl1 : locked r1 = fun _ => False := by
    funext i; simp [locked, (g6 i).1, Refs.empty]
  have e1 : Eff s Refs.empty s1 r1 := .collect g3 g5 g6
  have e2 : Eff s1 r1 s2 r' := .collect g4 g7 g8
  have h0 : SI s d Refs.empty := ⟨h, ok, wf, fun i hi => (by cases hi), fun i hi => absurd hi (by simp [Refs.empty]), Refs.empty_ok⟩
  refine ⟨s1, s2, h0.eff (.trans e1 e2) (.trans (.collect g5) e1 (.collect g7)) g2, ?_, ?_⟩
  · rw [← hne]; exact g5
  · exact ⟨by rw [← hl1]; exact g7, g3⟩

theorem open_SI {s : Tree} (h : Rep s d) (ok : s.OK) (wf : s.WF) (ho : openCleanDB d Refs.empty = .ok (d', r')) :
    ∃ s1 s2, SI s2 d' r' ∧ Collected s (fun _ => False) s1 ∧ Collected s1 (fun _ => False) s2 := by
  obtain ⟨s1, s2, h1, h2, h3, -⟩ := open_SI' h ok wf ho
  exact ⟨s1, s2, h1, h2, h3⟩

end Dragonstash.FS
