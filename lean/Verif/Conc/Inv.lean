/-
  Invariants of all interleavings: who has which lock, and how the databases are related.
-/
import Verif.Conc.Data
namespace Dragonstash.Conc
open Cache Codec

theorem set_self {w : CWorld} {k : Nat} {t : Option CTxn} : (w.set k t).txns k = t := by simp [CWorld.set]
theorem set_ne {w : CWorld} {k j : Nat} {t : Option CTxn} (h : j ≠ k) : (w.set k t).txns j = w.txns j := by simp [CWorld.set, h]

/-- What a call does, by cases. -/
inductive Step (w : CWorld) : CCall → CWorld → Out → Prop
  | beginRO {k th} : w.txns k = none →
      Step w (.beginRO k th) (w.set k (some ⟨th, [⟨{ db := w.disk, ro := true }, false⟩], false, false⟩)) (.unit (.ok ()))
  | beginRW {k th} : w.txns k = none → w.writer = none →
      Step w (.beginRW k th) { w.set k (some ⟨th, [⟨{ db := w.disk }, false⟩], true, false⟩) with writer := some k } (.unit (.ok ()))
  | op {k t f r o x out} (mx : Bool) : w.txns k = some t → t.frames = f :: r → (f.fr.ro = true → o.isRO = true) →
      doOp (f.fr.txn w.refs) o = .ok (x, out) →
      (asksRefs f.fr.db o = true → mx = true ∨ t.frames.any (·.mx) = true) →
      (mx = true → asksRefs f.fr.db o = true ∧ t.frames.any (·.mx) = false ∧ w.mutex = none) →
      Step w (.on k (.op o)) { w.set k (some { t with frames := ⟨⟨x.db, x.rewrite, x.hooks, f.fr.ro⟩, f.mx || mx⟩ :: r }) with
        refs := x.refs, mutex := if mx then some k else w.mutex } out
  | nested {k t f r} : w.txns k = some t → t.frames = f :: r → f.fr.ro = false →
      Step w (.on k .nested) (w.set k (some { t with frames := ⟨{ db := f.fr.db }, false⟩ :: f :: r })) (.unit (.ok ()))
  | commit {k t f} : w.txns k = some t → t.frames = [f] →
      Step w (.on k .commit) { w.set k (some { t with frames := [], wr := false, tailM := f.mx }) with
        disk := if f.fr.ro then w.disk else f.fr.db
        writer := if t.wr then none else w.writer } (.unit (.ok ()))
  | commitNested {k t f g r} : w.txns k = some t → t.frames = f :: g :: r →
      Step w (.on k .commit) (w.set k (some { t with
        frames := ⟨{ g.fr with db := f.fr.db, hooks := g.fr.hooks ++ f.fr.hooks }, g.mx || f.mx⟩ :: r })) (.unit (.ok ()))
  | abort {k t f refs} : w.txns k = some t → t.frames = [f] → undoAll w.refs f.fr.hooks.reverse = .ok refs →
      Step w (.on k .abort) { w.set k (some { t with frames := [], wr := false, tailM := f.mx }) with
            refs := refs, writer := if t.wr then none else w.writer } (.unit (.ok ()))
  | abortNested {k t f g r refs} : w.txns k = some t → t.frames = f :: g :: r → undoAll w.refs f.fr.hooks.reverse = .ok refs →
      Step w (.on k .abort) { w.set k (some { t with frames := g :: r }) with
            refs := refs, mutex := if f.mx then none else w.mutex } (.unit (.ok ()))
  | drop {k t f r} : w.txns k = some t → t.frames = f :: r →
      Step w (.on k .drop) { w.set k (some { t with frames := r }) with
        mutex := if f.mx then none else w.mutex } (.unit (.ok ()))
  | finish {k t} : w.txns k = some t → t.frames = [] →
      Step w (.on k .finish) { w.set k none with
        writer := if t.wr then none else w.writer
        mutex := if t.tailM then none else w.mutex } (.unit (.ok ()))

theorem step_inv {w w' : CWorld} {c : CCall} {out : Out} (h : w.step c = .done w' out) : Step w c w' out := by
  cases c with
  | beginRO k th =>
    simp only [CWorld.step] at h
    split at h
    · cases h
    · rename_i hk; cases h; exact .beginRO hk
  | beginRW k th =>
    simp only [CWorld.step] at h
    split at h
    · cases h
    · rename_i hk
      split at h
      · cases h
      · rename_i hw; cases h; exact .beginRW hk (by simpa using hw)
  | on k a =>
    simp only [CWorld.step] at h
    split at h
    · cases h
    · rename_i t hk
      cases a with
      | op o =>
        simp only [CWorld.act] at h
        split at h
        · cases h
        · rename_i f r hf
          split at h
          · cases h
          · rename_i hro
            have hro' : f.fr.ro = true → o.isRO = true := by
              intro h1; cases h2 : o.isRO with
              | true => rfl
              | false => simp [h1, h2] at hro
            have run : ∀ mx, w.runOp k t f r o mx = .done w' out → ∃ x, doOp (f.fr.txn w.refs) o = .ok (x, out) ∧
                w' = { w.set k (some { t with frames := ⟨⟨x.db, x.rewrite, x.hooks, f.fr.ro⟩, f.mx || mx⟩ :: r }) with
                  refs := x.refs, mutex := if mx then some k else w.mutex } := by
              intro mx hr
              unfold CWorld.runOp at hr
              split at hr
              · cases hr
              · rename_i x out' hd; cases hr; exact ⟨x, hd, rfl⟩
            split at h
            · rename_i hask
              unfold CWorld.acquire at h
              by_cases h1 : t.frames.any (·.mx) = true
              · rw [if_pos h1] at h
                obtain ⟨x, hd, rfl⟩ := run _ h
                exact .op false hk hf hro' hd (fun _ => .inr h1) (fun h => by cases h)
              · rw [if_neg h1] at h
                by_cases h2 : w.owner = some t.thread
                · rw [if_pos h2] at h; cases h
                · rw [if_neg h2] at h
                  by_cases h3 : w.mutex.isSome = true
                  · rw [if_pos h3] at h; cases h
                  · rw [if_neg h3] at h
                    obtain ⟨x, hd, rfl⟩ := run _ h
                    exact .op true hk hf hro' hd (fun _ => .inl rfl) (fun _ => ⟨hask, by simpa using h1, by simpa using h3⟩)
            · rename_i hask
              obtain ⟨x, hd, rfl⟩ := run _ h
              exact .op false hk hf hro' hd (fun h => absurd h hask) (fun h => by cases h)
      | nested =>
        simp only [CWorld.act] at h
        split at h
        · cases h
        · rename_i f r hf
          split at h
          · cases h
          · rename_i hro; cases h; exact .nested hk hf (by simpa using hro)
      | commit =>
        simp only [CWorld.act] at h
        split at h
        · cases h
        · rename_i f hf; cases h; exact .commit hk hf
        · rename_i f g r hf; cases h; exact .commitNested hk hf
      | abort =>
        simp only [CWorld.act] at h
        split at h
        · cases h
        · rename_i f r hf
          split at h
          · cases h
          · rename_i refs hu
            split at h
            · rename_i hf' ; cases h; exact .abort hk hf hu
            · rename_i g r' ; cases h; exact .abortNested hk hf hu
      | drop =>
        simp only [CWorld.act] at h
        split at h
        · cases h
        · rename_i f r hf; cases h; exact .drop hk hf
      | finish =>
        simp only [CWorld.act] at h
        split at h
        · cases h
        · rename_i hf; cases h; exact .finish hk hf

/-! ### Locks -/

/-- Properties of one transaction: at most one of its frames has the mutex; what an ended one may
still have; only the write transaction has frames which can write; the table is only touched, and
hooks for it registered, when this frame or an outer one has the mutex. -/
structure TxnOK (t : CTxn) : Prop where
  one : t.frames.countP (·.mx) ≤ 1
  tail : t.tailM = true → t.frames = []
  rw : ∀ f ∈ t.frames, f.fr.ro = false → t.wr = true
  single : ∀ f ∈ t.frames, f.fr.ro = true → t.frames = [f] ∧ t.wr = false
  hooks : ∀ l f r, t.frames = l ++ f :: r → f.fr.hooks ≠ [] → (f :: r).any (·.mx) = true

/-- Who has which lock. -/
structure LockInv (w : CWorld) : Prop where
  mx : ∀ k t, w.txns k = some t → t.hasMutex = true → w.mutex = some k
  mx' : ∀ k, w.mutex = some k → ∃ t, w.txns k = some t ∧ t.hasMutex = true
  wr : ∀ k t, w.txns k = some t → t.wr = true → w.writer = some k
  wr' : ∀ k, w.writer = some k → ∃ t, w.txns k = some t ∧ t.wr = true
  txn : ∀ k t, w.txns k = some t → TxnOK t

/-- A call which does not ask for the reference table does not depend on it, and leaves it and the hooks
alone. -/
theorem doOp_norefs {t : Txn} {o : Op} (ho : asksRefs t.db o = false) (r : Refs) :
    doOp { t with refs := r } o = (doOp t o).map (fun x => ({ x.1 with refs := r }, x.2)) ∧
    ∀ t' out, doOp t o = .ok (t', out) → t'.refs = t.refs ∧ t'.hooks = t.hooks := by
  have ro : ∀ {β : Type} (m : M β) (f : β → Out), (do let x ← m; pure (({ t with refs := r } : Txn), f x)) =
      (do let x ← m; pure (t, f x) : M (Txn × Out)).map (fun x => ({ x.1 with refs := r }, x.2)) ∧
      ∀ t' out, (do let x ← m; pure (t, f x)) = (.ok (t', out) : M (Txn × Out)) → t'.refs = t.refs ∧ t'.hooks = t.hooks := by
    intro β m f
    cases m with
    | error e => exact ⟨rfl, fun _ _ h => by cases h⟩
    | ok v => exact ⟨rfl, fun _ _ h => by cases h; exact ⟨rfl, rfl⟩⟩
  cases o with
  | lookup p n => exact ro _ _
  | getattr i => exact ⟨rfl, fun _ _ h => by cases h; exact ⟨rfl, rfl⟩⟩
  | readlink i => exact ⟨rfl, fun _ _ h => by cases h; exact ⟨rfl, rfl⟩⟩
  | readdir dir prev => exact ro _ _
  | path i => exact ro _ _
  | name i => exact ⟨rfl, fun _ _ h => by cases h; exact ⟨rfl, rfl⟩⟩
  | parent i => exact ⟨rfl, fun _ _ h => by cases h; exact ⟨rfl, rfl⟩⟩
  | testFlag i f => exact ⟨rfl, fun _ _ h => by cases h; exact ⟨rfl, rfl⟩⟩
  | lock i => cases ho
  | release i n =>
    have hn : n = 0 := by simpa [asksRefs] using ho
    subst hn
    exact ⟨rfl, fun _ _ h => by cases h; exact ⟨rfl, rfl⟩⟩
  | emplace p n a =>
    simp only [asksRefs] at ho
    simp only [doOp, Cache.emplace]
    cases hc : checkName n true with
    | error e => exact ⟨rfl, fun _ _ h => by cases h; exact ⟨rfl, rfl⟩⟩
    | ok u =>
      rw [hc] at ho
      simp only at ho ⊢
      cases h2 : t.db.treen.find (keyN p n) with
      | none => rw [h2] at ho; cases ho
      | some e =>
        rw [h2] at ho
        simp only at ho ⊢
        cases h3 : t.db.inodes.find (key8 e.ino) with
        | none => exact ⟨rfl, fun _ _ h => by cases h⟩
        | some old =>
          rw [h3] at ho
          have he : fmt old.attr.mode = fmt a.mode := by simpa using ho
          simp only [he, if_true]
          exact ⟨rfl, fun _ _ h => by cases h; exact ⟨rfl, rfl⟩⟩
  | unlinkIno i =>
    simp only [asksRefs] at ho
    simp only [doOp, Cache.unlinkIno]
    cases hm : makeOrphan t.db i with
    | mk d x =>
      rw [hm] at ho
      cases x with
      | ok u => cases ho
      | error e => exact ⟨rfl, fun _ _ h => by cases h; exact ⟨rfl, rfl⟩⟩
  | unlinkName p n =>
    simp only [asksRefs] at ho
    simp only [doOp, Cache.unlinkName]
    cases h2 : t.db.treen.find (keyN p n) with
    | none => exact ⟨rfl, fun _ _ h => by cases h; exact ⟨rfl, rfl⟩⟩
    | some e =>
      rw [h2] at ho
      simp only [Cache.unlinkIno] at ho ⊢
      cases hm : makeOrphan t.db e.ino with
      | mk d x =>
        rw [hm] at ho
        cases x with
        | ok u => cases ho
        | error e => exact ⟨rfl, fun _ _ h => by cases h; exact ⟨rfl, rfl⟩⟩
  | clean => cases ho
  | writelink i dest =>
    simp only [doOp, Cache.writelink]
    cases h2 : t.db.inodes.find (key8 i) with
    | none => exact ⟨rfl, fun _ _ h => by cases h; exact ⟨rfl, rfl⟩⟩
    | some nd =>
      by_cases hf : fmt nd.attr.mode ≠ S_IFLNK
      · simp only [if_pos hf]; exact ⟨rfl, fun _ _ h => by cases h; exact ⟨rfl, rfl⟩⟩
      · simp only [if_neg hf]; exact ⟨rfl, fun _ _ h => by cases h; exact ⟨rfl, rfl⟩⟩
  | updateFlags i a b =>
    simp only [doOp, Cache.updateFlags]
    cases h2 : t.db.inodes.find (key8 i) with
    | none => exact ⟨rfl, fun _ _ h => by cases h; exact ⟨rfl, rfl⟩⟩
    | some nd => exact ⟨rfl, fun _ _ h => by cases h; exact ⟨rfl, rfl⟩⟩
  | startRewrite dir =>
    obtain ⟨db, refs0, rw0, hooks0⟩ := t
    simp only [doOp, Cache.startRewrite]
    cases rw0 with
    | some l => exact ⟨rfl, fun _ _ h => by cases h; exact ⟨rfl, rfl⟩⟩
    | none =>
      simp only
      cases h2 : db.treei.lower (key8 dir) with
      | nil => exact ⟨rfl, fun _ _ h => by cases h; exact ⟨rfl, rfl⟩⟩
      | cons e l =>
        simp only
        cases hc : collectKids dir (e :: l) [] with
        | error x => exact ⟨rfl, fun _ _ h => by cases h⟩
        | ok v => exact ⟨rfl, fun _ _ h => by cases h; exact ⟨rfl, rfl⟩⟩
  | finishRewrite =>
    obtain ⟨db, refs0, rw0, hooks0⟩ := t
    simp only [doOp, Cache.finishRewrite]
    cases rw0 with
    | none => exact ⟨rfl, fun _ _ h => by cases h; exact ⟨rfl, rfl⟩⟩
    | some l => exact ⟨rfl, fun _ _ h => by cases h; exact ⟨rfl, rfl⟩⟩

theorem doOp_hooks_eq {t t' : Txn} {o : Op} {out : Out} (he : doOp t o = .ok (t', out)) :
    t'.hooks = t.hooks ∨ asksRefs t.db o = true := by
  cases h : asksRefs t.db o with
  | true => exact .inr rfl
  | false => exact .inl ((doOp_norefs h t.refs).2 t' out he).2

theorem TxnOK.op {t : CTxn} (h : TxnOK t) {f : CFrame} {r : List CFrame} (hf : t.frames = f :: r) {d rw hooks} {mx : Bool}
    (hmx : mx = true → t.frames.any (·.mx) = false)
    (hh : hooks ≠ [] → mx = true ∨ t.frames.any (·.mx) = true) :
    TxnOK { t with frames := ⟨⟨d, rw, hooks, f.fr.ro⟩, f.mx || mx⟩ :: r } := by
  refine ⟨?_, ?_, ?_, ?_, ?_⟩
  · show List.countP _ (_ :: r) ≤ 1
    have h1 := h.one
    rw [hf, List.countP_cons] at h1
    rw [List.countP_cons]
    cases mx with
    | false => simpa using h1
    | true =>
      have h2 := hmx rfl
      rw [hf] at h2
      simp only [List.any_cons, Bool.or_eq_false_iff] at h2
      have : r.countP (·.mx) = 0 := by
        rw [List.countP_eq_zero]
        intro a ha
        have := List.any_eq_false.mp h2.2 a ha
        simpa using this
      rw [this]; simp
  · intro ht; have := h.tail ht; rw [hf] at this; cases this
  · intro g hg hro
    simp only [List.mem_cons] at hg
    rcases hg with rfl | hg
    · exact h.rw f (by rw [hf]; simp) hro
    · exact h.rw g (by rw [hf]; simp [hg]) hro
  · intro g hg hro
    simp only [List.mem_cons] at hg
    rcases hg with rfl | hg
    · have := h.single f (by rw [hf]; simp) hro
      rw [hf] at this
      have hr : r = [] := by simpa using this.1
      subst hr; exact ⟨rfl, this.2⟩
    · have := (h.single g (by rw [hf]; simp [hg]) hro).1
      rw [hf] at this; cases this; cases hg
  · intro l g r' he hne
    cases l with
    | nil =>
      cases he
      rcases hh hne with h1 | h1
      · subst h1; simp
      · rw [hf] at h1
        simp only [List.any_cons, Bool.or_eq_true] at h1 ⊢
        rcases h1 with h1 | h1
        · simp [h1]
        · simp [h1]
    | cons x l =>
      cases he
      exact h.hooks (f :: l) g r' (by rw [hf]; rfl) hne

theorem TxnOK.pop {t : CTxn} (h : TxnOK t) {f : CFrame} {r : List CFrame} (hf : t.frames = f :: r) : TxnOK { t with frames := r } := by
  refine ⟨?_, ?_, ?_, ?_, ?_⟩
  · have := h.one; rw [hf, List.countP_cons] at this; show List.countP _ r ≤ 1; omega
  · intro ht; have := h.tail ht; rw [hf] at this; cases this
  · intro g hg; exact h.rw g (by rw [hf]; simp [show g ∈ r from hg])
  · intro g hg hro
    have := (h.single g (by rw [hf]; simp [show g ∈ r from hg]) hro).1
    rw [hf] at this; cases this; cases hg
  · intro l g r' he
    exact h.hooks (f :: l) g r' (by rw [hf]; show f :: r = _; rw [show r = l ++ g :: r' from he]; rfl)

theorem TxnOK.ended {t : CTxn} {m : Bool} : TxnOK { t with frames := [], wr := false, tailM := m } :=
  ⟨by simp, fun _ => rfl, fun f hf => (by cases hf), fun f hf => (by cases hf), fun l f r he => (by simp at he)⟩

/-- Replacing a transaction when neither lock changes hands. -/
theorem LockInv.same {w : CWorld} (h : LockInv w) {k : Nat} {t t' : CTxn} (hk : w.txns k = some t) {w' : CWorld}
    (e1 : w'.txns = (w.set k (some t')).txns) (e2 : w'.mutex = w.mutex) (e3 : w'.writer = w.writer)
    (h1 : t'.hasMutex = t.hasMutex) (h2 : t'.wr = t.wr) (h3 : TxnOK t') : LockInv w' := by
  have hx : ∀ j, w'.txns j = if j = k then some t' else w.txns j := fun j => by rw [e1]; rfl
  refine ⟨?_, ?_, ?_, ?_, ?_⟩
  · intro j u hj hm
    rw [e2]
    rw [hx] at hj
    split at hj
    · rename_i e; subst e; cases hj; exact h.mx _ t hk (by rw [← h1]; exact hm)
    · exact h.mx j u hj hm
  · intro j hj
    rw [e2] at hj
    obtain ⟨u, g1, g2⟩ := h.mx' j hj
    by_cases e : j = k
    · subst e; rw [hk] at g1; cases g1; exact ⟨t', by rw [hx, if_pos rfl], by rw [h1]; exact g2⟩
    · exact ⟨u, by rw [hx, if_neg e]; exact g1, g2⟩
  · intro j u hj hm
    rw [e3]
    rw [hx] at hj
    split at hj
    · rename_i e; subst e; cases hj; exact h.wr _ t hk (by rw [← h2]; exact hm)
    · exact h.wr j u hj hm
  · intro j hj
    rw [e3] at hj
    obtain ⟨u, g1, g2⟩ := h.wr' j hj
    by_cases e : j = k
    · subst e; rw [hk] at g1; cases g1; exact ⟨t', by rw [hx, if_pos rfl], by rw [h2]; exact g2⟩
    · exact ⟨u, by rw [hx, if_neg e]; exact g1, g2⟩
  · intro j u hj
    rw [hx] at hj
    split at hj
    · cases hj; exact h3
    · exact h.txn j u hj

theorem any_countP {l : List CFrame} : l.any (·.mx) = decide (0 < l.countP (·.mx)) := by
  induction l with
  | nil => rfl
  | cons f l ih =>
    rw [List.any_cons, List.countP_cons, ih]
    cases f.mx <;> simp

/-- The transaction gives the mutex back. -/
theorem LockInv.general {w : CWorld} (h : LockInv w) {k : Nat} {t : CTxn} (hk : w.txns k = some t) {w' : CWorld} {u : Option CTxn}
    (e1 : ∀ j, w'.txns j = if j = k then u else w.txns j)
    (h1 : w'.mutex = w.mutex ∨ (w'.mutex = none ∧ t.hasMutex = true) ∨ (w'.mutex = some k ∧ w.mutex = none))
    (h2 : w'.writer = w.writer ∨ (w'.writer = none ∧ t.wr = true))
    (h3 : ∀ t', u = some t' → (t'.hasMutex = true ↔ w'.mutex = some k) ∧ (t'.wr = true ↔ w'.writer = some k) ∧ TxnOK t')
    (h4 : u = none → w'.mutex ≠ some k ∧ w'.writer ≠ some k) : LockInv w' := by
  have other : ∀ j, j ≠ k → ((w'.mutex = some j ↔ w.mutex = some j) ∧ (w'.writer = some j ↔ w.writer = some j)) := by
    intro j hj
    constructor
    · rcases h1 with h1 | ⟨h1, h1'⟩ | ⟨h1, h1'⟩
      · rw [h1]
      · rw [h1, h.mx k t hk h1']; simp; exact fun e => hj e.symm
      · rw [h1, h1']; simp; exact fun e => hj e.symm
    · rcases h2 with h2 | ⟨h2, h2'⟩
      · rw [h2]
      · rw [h2, h.wr k t hk h2']; simp; exact fun e => hj e.symm
  refine ⟨?_, ?_, ?_, ?_, ?_⟩
  · intro j x hj hm
    rw [e1] at hj
    by_cases e : j = k
    · subst e; rw [if_pos rfl] at hj; exact (h3 x hj).1.mp hm
    · rw [if_neg e] at hj; exact (other j e).1.mpr (h.mx j x hj hm)
  · intro j hj
    by_cases e : j = k
    · subst e
      cases u with
      | none => exact absurd hj (h4 rfl).1
      | some t' => exact ⟨t', by rw [e1, if_pos rfl], (h3 t' rfl).1.mpr hj⟩
    · obtain ⟨x, g1, g2⟩ := h.mx' j ((other j e).1.mp hj)
      exact ⟨x, by rw [e1, if_neg e]; exact g1, g2⟩
  · intro j x hj hm
    rw [e1] at hj
    by_cases e : j = k
    · subst e; rw [if_pos rfl] at hj; exact (h3 x hj).2.1.mp hm
    · rw [if_neg e] at hj; exact (other j e).2.mpr (h.wr j x hj hm)
  · intro j hj
    by_cases e : j = k
    · subst e
      cases u with
      | none => exact absurd hj (h4 rfl).2
      | some t' => exact ⟨t', by rw [e1, if_pos rfl], (h3 t' rfl).2.1.mpr hj⟩
    · obtain ⟨x, g1, g2⟩ := h.wr' j ((other j e).2.mp hj)
      exact ⟨x, by rw [e1, if_neg e]; exact g1, g2⟩
  · intro j x hj
    rw [e1] at hj
    by_cases e : j = k
    · subst e; rw [if_pos rfl] at hj; exact (h3 x hj).2.2
    · rw [if_neg e] at hj; exact h.txn j x hj

/-- A new transaction. -/
theorem LockInv.begin {w : CWorld} (h : LockInv w) {k : Nat} (hk : w.txns k = none) {w' : CWorld} {t : CTxn}
    (e1 : ∀ j, w'.txns j = if j = k then some t else w.txns j) (h1 : w'.mutex = w.mutex) (hm : t.hasMutex = false) (ht : TxnOK t)
    (h2 : (t.wr = false ∧ w'.writer = w.writer) ∨ (t.wr = true ∧ w.writer = none ∧ w'.writer = some k)) : LockInv w' := by
  refine ⟨?_, ?_, ?_, ?_, ?_⟩
  · intro j x hj hx
    rw [e1] at hj
    by_cases e : j = k
    · subst e; rw [if_pos rfl] at hj; cases hj; rw [hm] at hx; cases hx
    · rw [if_neg e] at hj; rw [h1]; exact h.mx j x hj hx
  · intro j hj
    rw [h1] at hj
    obtain ⟨x, g1, g2⟩ := h.mx' j hj
    by_cases e : j = k
    · subst e; rw [hk] at g1; cases g1
    · exact ⟨x, by rw [e1, if_neg e]; exact g1, g2⟩
  · intro j x hj hx
    rw [e1] at hj
    by_cases e : j = k
    · subst e; rw [if_pos rfl] at hj; cases hj
      rcases h2 with ⟨h2, -⟩ | ⟨-, -, h2⟩
      · rw [h2] at hx; cases hx
      · exact h2
    · rw [if_neg e] at hj
      have := h.wr j x hj hx
      rcases h2 with ⟨-, h2⟩ | ⟨-, h2, -⟩
      · rw [h2]; exact this
      · rw [h2] at this; cases this
  · intro j hj
    rcases h2 with ⟨h2, h2'⟩ | ⟨h2, h2', h2''⟩
    · rw [h2'] at hj
      obtain ⟨x, g1, g2⟩ := h.wr' j hj
      by_cases e : j = k
      · subst e; rw [hk] at g1; cases g1
      · exact ⟨x, by rw [e1, if_neg e]; exact g1, g2⟩
    · rw [h2''] at hj; cases hj
      exact ⟨t, by rw [e1, if_pos rfl], h2⟩
  · intro j x hj
    rw [e1] at hj
    by_cases e : j = k
    · subst e; rw [if_pos rfl] at hj; cases hj; exact ht
    · rw [if_neg e] at hj; exact h.txn j x hj

theorem LockInv.has {w : CWorld} (h : LockInv w) {k t} (hk : w.txns k = some t) : t.hasMutex = true ↔ w.mutex = some k := by
  refine ⟨h.mx k t hk, fun hm => ?_⟩
  obtain ⟨x, g1, g2⟩ := h.mx' k hm
  rw [hk] at g1; cases g1; exact g2

theorem LockInv.hasW {w : CWorld} (h : LockInv w) {k t} (hk : w.txns k = some t) : t.wr = true ↔ w.writer = some k := by
  refine ⟨h.wr k t hk, fun hm => ?_⟩
  obtain ⟨x, g1, g2⟩ := h.wr' k hm
  rw [hk] at g1; cases g1; exact g2

/-- The innermost frame is destroyed. -/
theorem LockInv.popStep {w : CWorld} (h : LockInv w) {k : Nat} {t : CTxn} {f : CFrame} {r : List CFrame} (hk : w.txns k = some t)
    (hf : t.frames = f :: r) {w' : CWorld} (e1 : w'.txns = (w.set k (some { t with frames := r })).txns)
    (e2 : w'.mutex = (if f.mx then none else w.mutex) ∧ w'.writer = w.writer) : LockInv w' := by
  have tok := h.txn k t hk
  have htl : t.tailM = false := by
    cases ht : t.tailM with
    | false => rfl
    | true => have := tok.tail ht; rw [hf] at this; cases this
  have hh := h.has hk
  unfold CTxn.hasMutex at hh
  rw [htl, hf] at hh
  refine h.general hk (fun j => by rw [e1]; rfl) ?_ (.inl e2.2) ?_ (fun e => by cases e)
  · rw [e2.1]
    cases hm : f.mx
    · exact .inl (by simp)
    · exact .inr (.inl ⟨by simp, by unfold CTxn.hasMutex; rw [hf]; simp [hm]⟩)
  · intro t' ht'; cases ht'
    refine ⟨?_, by rw [e2.2]; exact (show t.wr = true ↔ _ from h.hasW hk), tok.pop hf⟩
    rw [e2.1]
    unfold CTxn.hasMutex
    cases hm : f.mx with
    | false => simpa [htl, hm] using hh
    | true =>
      have h1 := tok.one
      rw [hf, List.countP_cons, hm] at h1
      have h2 : r.any (·.mx) = false := by
        rw [any_countP]; simp at h1 ⊢; omega
      simp [htl, h2]

theorem LockInv.step {w w' : CWorld} {c : CCall} {out : Out} (h : LockInv w) (hs : Step w c w' out) : LockInv w' := by
  cases hs with
  | @beginRO k th hk =>
    refine h.begin hk (fun j => rfl) rfl rfl ⟨by simp, fun h => (by cases h), fun f hf hro => ?_, fun f hf hro => ?_, ?_⟩ (.inl ⟨rfl, rfl⟩)
    · simp only [List.mem_singleton] at hf; subst hf; cases hro
    · simp only [List.mem_singleton] at hf; subst hf; exact ⟨rfl, rfl⟩
    · intro l f r he hne
      rcases l with _ | ⟨x, l⟩
      · cases he; exact absurd rfl hne
      · simp at he
  | @beginRW k th hk hw =>
    refine h.begin hk (fun j => rfl) rfl rfl ⟨by simp, fun h => (by cases h), fun f hf hro => ?_, fun f hf hro => ?_, ?_⟩ (.inr ⟨rfl, hw, rfl⟩)
    · rfl
    · simp only [List.mem_singleton] at hf; subst hf; cases hro
    · intro l f r he hne
      rcases l with _ | ⟨x, l⟩
      · cases he; exact absurd rfl hne
      · simp at he
  | @op k t f r o x _ mx hk hf hro hd hask hmx =>
    have tok := h.txn k t hk
    have htl : t.tailM = false := by
      cases ht : t.tailM with
      | false => rfl
      | true => have := tok.tail ht; rw [hf] at this; cases this
    have tok' : TxnOK { t with frames := ⟨⟨x.db, x.rewrite, x.hooks, f.fr.ro⟩, f.mx || mx⟩ :: r } := by
      refine tok.op hf (fun e => (hmx e).2.1) (fun hne => ?_)
      rcases doOp_hooks_eq hd with h1 | h1
      · right
        have := tok.hooks [] f r hf (by rw [h1] at hne; exact hne)
        rw [hf]; exact this
      · exact hask h1
    refine h.general hk (fun j => rfl) ?_ (.inl rfl) ?_ (fun e => by cases e)
    · cases mx with
      | true => exact .inr (.inr ⟨rfl, (hmx rfl).2.2⟩)
      | false => exact .inl rfl
    · intro t' ht'; cases ht'
      refine ⟨?_, (show t.wr = true ↔ _ from h.hasW hk), tok'⟩
      have := h.has hk
      unfold CTxn.hasMutex at this ⊢
      rw [htl, hf] at this
      rw [htl]
      cases mx with
      | true => simp
      | false => simpa using this
  | @nested k t f r hk hf hro =>
    have tok := h.txn k t hk
    refine h.same hk rfl rfl rfl ?_ rfl ?_
    · unfold CTxn.hasMutex; rw [hf]; simp
    · refine ⟨?_, ?_, ?_, ?_, ?_⟩
      · have := tok.one; rw [hf] at this; rw [List.countP_cons]; simpa using this
      · intro ht; have := tok.tail ht; rw [hf] at this; cases this
      · intro g hg hgro
        simp only [List.mem_cons] at hg
        rcases hg with rfl | hg
        · exact tok.rw f (by rw [hf]; simp) hro
        · exact tok.rw g (by rw [hf]; simpa using hg) hgro
      · intro g hg hgro
        simp only [List.mem_cons] at hg
        rcases hg with rfl | rfl | hg
        · cases hgro
        · rw [hro] at hgro; cases hgro
        · have := (tok.single g (by rw [hf]; simp [hg]) hgro).1
          rw [hf] at this; cases this; cases hg
      · intro l g r' he hne
        cases l with
        | nil => cases he; exact absurd rfl hne
        | cons y l =>
          have he : ⟨{ db := f.fr.db }, false⟩ :: f :: r = y :: (l ++ g :: r') := he
          injection he with he1 he2
          exact tok.hooks l g r' (by rw [hf]; exact he2) hne
  | @commit k t f hk hf =>
    have tok := h.txn k t hk
    have htl : t.tailM = false := by
      cases ht : t.tailM with
      | false => rfl
      | true => have := tok.tail ht; rw [hf] at this; cases this
    refine h.general hk (fun j => rfl) (.inl rfl) ?_ ?_ (fun e => by cases e)
    · simp only
      cases hw : t.wr
      · exact .inl (by simp)
      · exact .inr (by simp)
    · intro t' ht'; cases ht'
      refine ⟨?_, ?_, TxnOK.ended⟩
      · have := h.has hk
        unfold CTxn.hasMutex at this ⊢
        rw [htl, hf] at this
        have := this
        simp only [List.any_cons, List.any_nil, Bool.or_false, Bool.false_or] at this ⊢
        exact this
      · have := h.hasW hk
        simp only [Bool.false_eq_true, false_iff]
        cases hw : t.wr with
        | true => simp
        | false => rw [hw] at this; simpa using this
  | @commitNested k t f g r hk hf =>
    have tok := h.txn k t hk
    refine h.same hk rfl rfl rfl ?_ rfl ?_
    · unfold CTxn.hasMutex; rw [hf]; simp only [List.any_cons]; cases t.tailM <;> cases f.mx <;> cases g.mx <;> rfl
    · refine ⟨?_, ?_, ?_, ?_, ?_⟩
      · have := tok.one; rw [hf, List.countP_cons, List.countP_cons] at this; rw [List.countP_cons]
        cases hg : g.mx <;> cases hfm : f.mx <;> simp [hg, hfm] at this ⊢ <;> omega
      · intro ht; have := tok.tail ht; rw [hf] at this; cases this
      · intro x hx hgro
        simp only [List.mem_cons] at hx
        rcases hx with rfl | hx
        · exact tok.rw g (by rw [hf]; simp) hgro
        · exact tok.rw x (by rw [hf]; simp [hx]) hgro
      · intro x hx hgro
        simp only [List.mem_cons] at hx
        rcases hx with rfl | hx
        · have := (tok.single g (by rw [hf]; simp) hgro).1
          rw [hf] at this; cases this
        · have := (tok.single x (by rw [hf]; simp [hx]) hgro).1
          rw [hf] at this; cases this
      · intro l x r' he hne
        cases l with
        | nil =>
          cases he
          by_cases hfh : f.fr.hooks = []
          · have hgh : g.fr.hooks ≠ [] := by
              intro e; exact hne (by show g.fr.hooks ++ f.fr.hooks = []; rw [e, hfh]; rfl)
            have := tok.hooks [f] g r (by rw [hf]; rfl) hgh
            simp only [List.any_cons, Bool.or_eq_true] at this ⊢
            rcases this with h1 | h1
            · exact .inl (.inl h1)
            · exact .inr h1
          · have := tok.hooks [] f (g :: r) (by rw [hf]; rfl) hfh
            simp only [List.any_cons, Bool.or_eq_true] at this ⊢
            rcases this with h1 | h1 | h1
            · exact .inl (.inr h1)
            · exact .inl (.inl h1)
            · exact .inr h1
        | cons y l =>
          cases he
          exact tok.hooks (f :: g :: l) x r' (by rw [hf]; rfl) hne
  | @abort k t f refs hk hf hu =>
    have tok := h.txn k t hk
    have htl : t.tailM = false := by
      cases ht : t.tailM with
      | false => rfl
      | true => have := tok.tail ht; rw [hf] at this; cases this
    refine h.general hk (fun j => rfl) (.inl rfl) ?_ ?_ (fun e => by cases e)
    · simp only
      cases hw : t.wr
      · exact .inl (by simp)
      · exact .inr (by simp)
    · intro t' ht'; cases ht'
      refine ⟨?_, ?_, TxnOK.ended⟩
      · have := h.has hk
        unfold CTxn.hasMutex at this ⊢
        rw [htl, hf] at this
        have := this
        simp only [List.any_cons, List.any_nil, Bool.or_false, Bool.false_or] at this ⊢
        exact this
      · have := h.hasW hk
        simp only [Bool.false_eq_true, false_iff]
        cases hw : t.wr with
        | true => simp
        | false => rw [hw] at this; simpa using this
  | @abortNested k t f g r refs hk hf hu => exact h.popStep hk hf rfl ⟨rfl, rfl⟩
  | @drop k t f r hk hf => exact h.popStep hk hf rfl ⟨rfl, rfl⟩
  | @finish k t hk hf =>
    have tok := h.txn k t hk
    refine h.general hk (fun j => rfl) ?_ ?_ (fun t' e => by cases e) (fun _ => ⟨?_, ?_⟩)
    · simp only
      cases hw : t.tailM
      · exact .inl (by simp)
      · exact .inr (.inl ⟨by simp, by simp [CTxn.hasMutex, hw]⟩)
    · simp only
      cases hw : t.wr
      · exact .inl (by simp)
      · exact .inr (by simp)
    · have := h.has hk
      unfold CTxn.hasMutex at this
      rw [hf] at this
      simp only
      cases hw : t.tailM
      · simp [hw] at this ⊢; exact this
      · simp
    · have := h.hasW hk
      simp only
      cases hw : t.wr
      · simp [hw] at this ⊢; exact this
      · simp

end Dragonstash.Conc
