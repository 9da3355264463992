/-
  Invariant of all interleavings: the hooks of a transaction lead from the lock counts at the time it
  got the mutex to the present ones.
-/
import Verif.Conc.Inv2
namespace Dragonstash.Conc
open Cache Codec

/-- The hooks of a transaction and its nested ones in the order of registration. -/
def allHooks : List CFrame → List Undo
  | [] => []
  | f :: l => allHooks l ++ f.fr.hooks

def CWorld.counts (w : CWorld) : Ino → Nat := fun i => (w.refs i).nrefs

def HookInv (w : CWorld) : Prop := ∀ k t, w.txns k = some t → ∃ c, Fwd c (allHooks t.frames) w.counts

theorem allHooks_nil {l : List CFrame} (h : ∀ f ∈ l, f.fr.hooks = []) : allHooks l = [] := by
  induction l with
  | nil => rfl
  | cons f l ih =>
    unfold allHooks
    rw [ih (fun g hg => h g (List.mem_cons_of_mem _ hg)), h f (by simp)]; rfl

theorem snoc_inj {a b : List Undo} {x y : Undo} (h : a ++ [x] = b ++ [y]) : a = b ∧ x = y := by
  have h' := congrArg List.reverse h
  rw [List.reverse_append, List.reverse_append] at h'
  simp only [List.reverse_singleton, List.singleton_append, List.cons.injEq, List.reverse_inj] at h'
  exact ⟨h'.2, h'.1⟩

theorem Fwd.split {h2 : List Undo} : ∀ {h1 : List Undo} {c c'' : Ino → Nat}, Fwd c (h1 ++ h2) c'' → ∃ c', Fwd c h1 c' ∧ Fwd c' h2 c'' := by
  intro h1 c c'' h
  generalize he : h1 ++ h2 = l at h
  induction h generalizing h2 with
  | nil =>
    have : h1 = [] ∧ h2 = [] := by simpa using he
    rw [this.1, this.2]
    exact ⟨c, .nil, .nil⟩
  | @lock hs c1 i hf hlt ih =>
    rcases List.eq_nil_or_concat h2 with rfl | ⟨h3, x, rfl⟩
    · rw [List.append_nil] at he; subst he
      exact ⟨_, .lock hf hlt, .nil⟩
    · rw [List.concat_eq_append, ← List.append_assoc] at he
      obtain ⟨e1, rfl⟩ := snoc_inj he
      obtain ⟨c', g1, g2⟩ := ih e1
      exact ⟨c', g1, by rw [List.concat_eq_append]; exact .lock g2 hlt⟩
  | @release hs c1 i n hf h0 hn hlt ih =>
    rcases List.eq_nil_or_concat h2 with rfl | ⟨h3, x, rfl⟩
    · rw [List.append_nil] at he; subst he
      exact ⟨_, .release hf h0 hn hlt, .nil⟩
    · rw [List.concat_eq_append, ← List.append_assoc] at he
      obtain ⟨e1, rfl⟩ := snoc_inj he
      obtain ⟨c', g1, g2⟩ := ih e1
      exact ⟨c', g1, by rw [List.concat_eq_append]; exact .release g2 h0 hn hlt⟩

/-- A count which grew did so by a lock. -/
theorem Fwd.raised {c c' : Ino → Nat} {hs : List Undo} (h : Fwd c hs c') {i : Ino} (hlt : c i < c' i) : Undo.unlock i ∈ hs := by
  induction h with
  | nil => omega
  | @lock hs c1 j hf _ ih =>
    by_cases e : i = j
    · subst e; simp
    · simp only [e, if_false] at hlt
      exact List.mem_append_left _ (ih hlt)
  | @release hs c1 j n hf h0 hn _ ih =>
    by_cases e : i = j
    · subst e
      simp only [if_true] at hlt
      exact List.mem_append_left _ (ih (by omega))
    · simp only [e, if_false] at hlt
      exact List.mem_append_left _ (ih hlt)

theorem LockInv.no_hooks {w : CWorld} (h : LockInv w) {k t} (hk : w.txns k = some t) (hm : w.mutex ≠ some k) : allHooks t.frames = [] := by
  have hn : t.hasMutex ≠ true := fun e => hm (h.mx k t hk e)
  refine allHooks_nil (fun f hf => ?_)
  obtain ⟨l, r, hl⟩ := List.append_of_mem hf
  by_cases e : f.fr.hooks = []
  · exact e
  · exfalso
    have := (h.txn k t hk).hooks l f r hl e
    apply hn
    unfold CTxn.hasMutex
    rw [hl, List.any_append, this]; simp

theorem HookInv.replace {w w' : CWorld} (h : HookInv w) (hl : LockInv w') {k : Nat} {u : Option CTxn}
    (e1 : ∀ j, w'.txns j = if j = k then u else w.txns j) (hc : w'.counts = w.counts ∨ w'.mutex = some k ∨ ∃ t, w.txns k = some t ∧ t.hasMutex = true ∧ LockInv w)
    (h1 : ∀ t, u = some t → ∃ c, Fwd c (allHooks t.frames) w'.counts) : HookInv w' := by
  intro j t hj
  rw [e1] at hj
  by_cases e : j = k
  · rw [if_pos e] at hj; exact h1 t hj
  · rw [if_neg e] at hj
    rcases hc with hc | hc | ⟨t0, hk, hm, hl0⟩
    · rw [hc]; exact h j t hj
    · have : allHooks t.frames = [] := hl.no_hooks (k := j) (by rw [e1, if_neg e]; exact hj) (by rw [hc]; intro h; cases h; exact e rfl)
      rw [this]; exact ⟨_, .nil⟩
    · have : allHooks t.frames = [] := hl0.no_hooks hj (by rw [hl0.mx k t0 hk hm]; intro h; cases h; exact e rfl)
      rw [this]; exact ⟨_, .nil⟩

/-- What aborting the innermost transaction does to the counts. -/
theorem HookInv.abort {w : CWorld} (h : HookInv w) {k t f r refs} (hk : w.txns k = some t) (hf : t.frames = f :: r)
    (hu : undoAll w.refs f.fr.hooks.reverse = .ok refs) :
    ∃ c, Fwd c (allHooks r) (fun i => (refs i).nrefs) ∧ Fwd (fun i => (refs i).nrefs) f.fr.hooks w.counts := by
  obtain ⟨c, hc⟩ := h k t hk
  rw [hf] at hc
  obtain ⟨c', h1, h2⟩ := Fwd.split (h1 := allHooks r) (h2 := f.fr.hooks) hc
  have := ((Fwd.undo h2 (r := w.refs) (fun _ => rfl)).1 refs hu).1
  have he : (fun i => (refs i).nrefs) = c' := funext this
  rw [he]
  exact ⟨c, h1, h2⟩

theorem doOp_fwd {t t' : Txn} {o : Op} {out : Out} (g : Good t.db) (hr : o.inRange) (hrw : RewriteOK t.rewrite)
    (ha : ∀ p n a, o = .emplace p n a → p ≠ 0 ∧ ∀ n, t.db.next = some n → n + 1 < W64)
    (hal : ∀ i, o = .lock i → (t.refs i).nrefs + 1 < W64)
    (rok : RefsOK t.refs) (he : doOp t o = .ok (t', out)) :
    ∃ hs, t'.hooks = t.hooks ++ hs ∧ Fwd (fun i => (t.refs i).nrefs) hs (fun i => (t'.refs i).nrefs) := by
  obtain ⟨s, h1, ok⟩ := g
  have ha' : ∀ p n a, o = .emplace p n a → p ≠ 0 ∧ s.next + 1 < W64 := fun p n a h => ⟨(ha p n a h).1, (ha p n a h).2 _ h1.next⟩
  rcases doOp_hooks ⟨h1, ok⟩ hr hrw ha' he with ⟨h2, h3, -⟩ | ⟨i, ho, h2, -, h3⟩ | ⟨i, n, -, h2, h4, h5, h3⟩
  · refine ⟨[], by rw [h2]; simp, ?_⟩
    have : (fun i => (t'.refs i).nrefs) = fun i => (t.refs i).nrefs := funext h3
    rw [this]; exact .nil
  · refine ⟨[.unlock i], h2, ?_⟩
    have hb := hal i ho
    have : (fun j => (t'.refs j).nrefs) = fun j => if j = i then (t.refs i).nrefs + 1 else (t.refs j).nrefs := by
      funext j; rw [h3]; unfold Refs.set
      by_cases e : j = i
      · subst e; simp only [if_true]; exact Nat.mod_eq_of_lt hb
      · simp [e]
    rw [this]
    exact Fwd.lock (hs := []) (c' := fun j => (t.refs j).nrefs) .nil hb
  · refine ⟨[.relock i n], h2, ?_⟩
    have : (fun j => (t'.refs j).nrefs) = fun j => if j = i then (t.refs i).nrefs - n else (t.refs j).nrefs := by
      funext j; rw [h3]; unfold Refs.set
      by_cases e : j = i
      · subst e; simp
      · simp [e]
    rw [this]
    exact Fwd.release (hs := []) (c' := fun j => (t.refs j).nrefs) .nil h4 h5 (rok.lt i)

/-- The call does not destroy a nested transaction which was neither committed nor aborted (then its
hooks are lost, but not what they should take back). -/
def Tidy (w : CWorld) (c : CCall) : Prop := ∀ k t f r, c = .on k .drop → w.txns k = some t → t.frames = f :: r → r = []

/-- Reachable without destroying nested transactions which were neither committed nor aborted. -/
inductive TidyReach : CWorld → Prop
  | start {w : World} : Reach w → w.phase = .up → w.stack = [] → TidyReach (CWorld.start w.disk w.refs)
  | step {w w' c out} : TidyReach w → CAllowed w c → Tidy w c → w.step c = .done w' out → TidyReach w'

theorem TidyReach.reach {w : CWorld} (h : TidyReach w) : CReach w := by
  induction h with
  | start h1 h2 h3 => exact ⟨_, h1, h2, h3, .refl⟩
  | step _ ha _ hs ih => exact ih.step ha hs

theorem HookInv.step {w w' : CWorld} {c : CCall} {out : Out} (h : HookInv w) (hl : LockInv w) (hd : DataInv w) (ha : CAllowed w c)
    (hti : Tidy w c) (hs : Step w c w' out) : HookInv w' := by
  have hl' := hl.step hs
  cases hs with
  | @beginRO k th hk => exact h.replace hl' (fun j => rfl) (.inl rfl) (fun t ht => by cases ht; exact ⟨_, .nil⟩)
  | @beginRW k th hk hw => exact h.replace hl' (fun j => rfl) (.inl rfl) (fun t ht => by cases ht; exact ⟨_, .nil⟩)
  | @op k t f r o x _ mx hk hf hro hdo hask hmx =>
    obtain ⟨g, grw⟩ := hd.frames k t hk f (by rw [hf]; simp)
    have ha2 := ha.2 t f r hk hf
    obtain ⟨hs1, hh, hfw⟩ := doOp_fwd (t := f.fr.txn w.refs) g ha.1 grw (by rintro p n a rfl; simp only at ha2; exact ha2)
      (by rintro i rfl; simp only at ha2; exact ha2) hd.refs hdo
    refine h.replace hl' (fun j => rfl) ?_ ?_
    · cases hask' : asksRefs f.fr.db o with
      | false =>
        left
        have := ((doOp_norefs (t := f.fr.txn w.refs) hask' w.refs).2 x out hdo).1
        unfold CWorld.counts; simp only; rw [this]; rfl
      | true =>
        rcases hask hask' with h1 | h1
        · right; left; simp [h1]
        · right; right
          exact ⟨t, hk, by unfold CTxn.hasMutex; rw [h1]; simp, hl⟩
    · intro u hu; cases hu
      obtain ⟨c, hc⟩ := h k t hk
      refine ⟨c, ?_⟩
      rw [hf] at hc
      show Fwd c (allHooks r ++ x.hooks) _
      rw [hh]
      have : allHooks r ++ ((f.fr.txn w.refs).hooks ++ hs1) = allHooks (f :: r) ++ hs1 := by
        rw [← List.append_assoc]; rfl
      rw [this]
      exact hc.trans hfw
  | @nested k t f r hk hf hro =>
    refine h.replace hl' (fun j => rfl) (.inl rfl) ?_
    intro u hu; cases hu
    obtain ⟨c, hc⟩ := h k t hk
    rw [hf] at hc
    refine ⟨c, ?_⟩
    show Fwd c (allHooks (f :: r) ++ []) _
    rw [List.append_nil]; exact hc
  | @commit k t f hk hf => exact h.replace hl' (fun j => rfl) (.inl rfl) (fun t ht => by cases ht; exact ⟨_, .nil⟩)
  | @commitNested k t f g r hk hf =>
    refine h.replace hl' (fun j => rfl) (.inl rfl) ?_
    intro u hu; cases hu
    obtain ⟨c, hc⟩ := h k t hk
    rw [hf] at hc
    refine ⟨c, ?_⟩
    show Fwd c (allHooks r ++ (g.fr.hooks ++ f.fr.hooks)) _
    rw [← List.append_assoc]; exact hc
  | @abort k t f refs hk hf hu =>
    refine h.replace hl' (fun j => rfl) ?_ (fun t ht => by cases ht; exact ⟨_, .nil⟩)
    by_cases e : f.fr.hooks = []
    · left; rw [e] at hu; cases hu; rfl
    · right; right
      have := (hl.txn k t hk).hooks [] f [] hf e
      exact ⟨t, hk, by unfold CTxn.hasMutex; rw [hf, this]; simp, hl⟩
  | @abortNested k t f g r refs hk hf hu =>
    refine h.replace hl' (fun j => rfl) ?_ ?_
    · by_cases e : f.fr.hooks = []
      · left; rw [e] at hu; cases hu; rfl
      · right; right
        have := (hl.txn k t hk).hooks [] f (g :: r) hf e
        exact ⟨t, hk, by unfold CTxn.hasMutex; rw [hf, this]; simp, hl⟩
    · intro u hu'; cases hu'
      obtain ⟨c, h1, -⟩ := h.abort hk hf hu
      exact ⟨c, h1⟩
  | @drop k t f r hk hf =>
    refine h.replace hl' (fun j => rfl) (.inl rfl) ?_
    intro u hu; cases hu
    obtain rfl := hti k t f r rfl hk hf
    exact ⟨_, .nil⟩
  | @finish k t hk hf => exact h.replace hl' (fun j => rfl) (.inl rfl) (fun t ht => by cases ht)

theorem TidyReach.hooks {w : CWorld} (h : TidyReach w) : HookInv w := by
  induction h with
  | start => intro k t hk; cases hk
  | step h1 ha ht hs ih => exact ih.step h1.reach.inv.1 h1.reach.inv.2 ha ht (step_inv hs)

end Dragonstash.Conc
