/-
  The functions of `Verif.Cache.Refuse` are the functions of `Verif.Cache.Model`, as long as the writes succeed; and
  what they have done to the reference table when one does not.
-/
import Verif.Cache.Refuse
import Verif.Cache.Steps
namespace Dragonstash.Cache
open Codec

/-- A function which leaves the reference table alone and needs `k` writes. -/
def Takes {α : Type} (x : X α) (d : DB) (k : Nat) (a : α) (d' : DB) : Prop :=
  ∀ r n, x ⟨d, r, n⟩ = if n < k then .ok (.refused r) else .ok (.done a ⟨d', r, n - k⟩)

/-- A function which needs `k` writes. -/
def Ends {α : Type} (x : X α) (d : DB) (r : Refs) (k : Nat) (a : α) (d' : DB) (r' : Refs) : Prop :=
  (∀ n, k ≤ n → x ⟨d, r, n⟩ = .ok (.done a ⟨d', r', n - k⟩)) ∧ ∀ n, n < k → ∃ r1, x ⟨d, r, n⟩ = .ok (.refused r1)

section
variable {α β : Type} {x : X α} {f : α → X β} {d d1 d2 : DB} {k k1 k2 : Nat} {a : α} {b : β} {r r1 r2 : Refs}

theorem x_bind (x : X α) (f : α → X β) : (x >>= f) = X.bind x f := rfl
theorem x_pure (a : α) : (pure a : X α) = X.pure a := rfl

theorem takes_pure : Takes (pure a : X α) d 0 a d := by intro r n; rfl
theorem takes_db : Takes X.db d 0 d d := by intro r n; rfl
theorem takes_write (g : DB → DB) : Takes (X.write g) d 1 () (g d) := by
  intro r n
  unfold X.write
  by_cases h : n = 0
  · subst h; rfl
  · rw [if_neg (by exact h), if_neg (by omega)]

theorem Takes.bind (h1 : Takes x d k1 a d1) (h2 : Takes (f a) d1 k2 b d2) : Takes (x >>= f) d (k1 + k2) b d2 := by
  intro r n
  rw [x_bind]; unfold X.bind
  rw [h1 r n]
  by_cases hn : n < k1
  · rw [if_pos hn, if_pos (by omega)]
  · rw [if_neg hn]
    simp only
    rw [h2 r (n - k1)]
    by_cases hm : n - k1 < k2
    · rw [if_pos hm, if_pos (by omega)]
    · rw [if_neg hm, if_neg (by omega), Nat.sub_sub]

theorem Takes.ends (h : Takes x d k a d1) (r : Refs) : Ends x d r k a d1 r := by
  refine ⟨fun n hn => ?_, fun n hn => ⟨r, ?_⟩⟩
  · rw [h r n, if_neg (by omega)]
  · rw [h r n, if_pos hn]

theorem Ends.bind (h1 : Ends x d r k1 a d1 r1) (h2 : Ends (f a) d1 r1 k2 b d2 r2) : Ends (x >>= f) d r (k1 + k2) b d2 r2 := by
  refine ⟨fun n hn => ?_, fun n hn => ?_⟩
  · rw [x_bind]; unfold X.bind
    rw [h1.1 n (by omega)]
    simp only
    rw [h2.1 _ (by omega), Nat.sub_sub]
  · rw [x_bind]; unfold X.bind
    by_cases hk : n < k1
    · obtain ⟨r', h⟩ := h1.2 n hk
      rw [h]; exact ⟨r', rfl⟩
    · rw [h1.1 n (by omega)]
      exact h2.2 _ (by omega)

theorem ends_refs : Ends X.refs d r 0 r d r := ⟨fun _ _ => rfl, fun _ h => by omega⟩
theorem ends_setRefs : Ends (X.setRefs r1) d r 0 () d r1 := ⟨fun _ _ => rfl, fun _ h => by omega⟩

/-- Where a sequence is refused: in its first part, or in the second one. -/
theorem Takes.refused {n : Nat} {r' : Refs} (h1 : Takes x d k a d1) (h : (x >>= f) ⟨d, r, n⟩ = .ok (.refused r')) :
    r' = r ∨ (k ≤ n ∧ f a ⟨d1, r, n - k⟩ = .ok (.refused r')) := by
  rw [x_bind] at h; unfold X.bind at h
  rw [h1 r n] at h
  by_cases hn : n < k
  · rw [if_pos hn] at h; cases h; exact .inl rfl
  · rw [if_neg hn] at h; exact .inr ⟨by omega, h⟩

theorem Takes.kept {n : Nat} {r' : Refs} (h1 : Takes x d k a d1) (h : x ⟨d, r, n⟩ = .ok (.refused r')) : r' = r := by
  rw [h1 r n] at h
  by_cases hn : n < k
  · rw [if_pos hn] at h; cases h; rfl
  · rw [if_neg hn] at h; cases h
end

theorem Takes.cast {α : Type} {x : X α} {d d1 d2 : DB} {k k' : Nat} {a a' : α} (h : Takes x d k a d1) (hk : k = k') (ha : a = a') (hd : d1 = d2) :
    Takes x d k' a' d2 := by subst hk ha hd; exact h

/-! ### Function by function -/

theorem makeOrphan_takes (d : DB) (i : Ino) : ∃ k, Takes (X.makeOrphan i) d k (makeOrphan d i).2 (makeOrphan d i).1 := by
  unfold X.makeOrphan makeOrphan
  cases hp : parent d i with
  | error e => exact ⟨_, takes_db.bind (by simp only; rw [hp]; exact takes_pure)⟩
  | ok p =>
    by_cases h0 : p = INVALID
    · refine ⟨_, takes_db.bind (k2 := 0) ?_⟩
      simp only; rw [hp]; simp only; rw [if_pos h0, if_pos h0]; exact takes_pure
    · cases hf : d.treei.find (key16 p i) with
      | none =>
        refine ⟨_, takes_db.bind (k2 := 0) ?_⟩
        simp only; rw [hp]; simp only; rw [if_neg h0, if_neg h0]; rw [hf]; exact takes_pure
      | some e =>
        cases hi : d.inodes.find (key8 i) with
        | none =>
          refine ⟨_, takes_db.bind (k2 := 1 + (1 + (1 + (0 + 0)))) ?_⟩
          simp only; rw [hp]; simp only; rw [if_neg h0, if_neg h0]; rw [hf]; simp only
          refine (takes_write _).bind ((takes_write _).bind ((takes_write _).bind (takes_db.bind ?_)))
          simp only; rw [hi]; exact takes_pure
        | some n =>
          refine ⟨_, takes_db.bind (k2 := 1 + (1 + (1 + (0 + (1 + 0))))) ?_⟩
          simp only; rw [hp]; simp only; rw [if_neg h0, if_neg h0]; rw [hf]; simp only
          refine (takes_write _).bind ((takes_write _).bind ((takes_write _).bind (takes_db.bind ?_)))
          simp only; rw [hi]
          exact (takes_write _).bind takes_pure

theorem orphanKids_takes (f : Nat) : ∀ {d d' : DB} {i : Ino}, orphanKids f d i = .ok d' → ∃ k, Takes (X.orphanKids f i) d k () d' := by
  induction f with
  | zero => intro d d' i h; cases h
  | succ f ih =>
    intro d d' i h
    unfold orphanKids at h
    unfold X.orphanKids
    cases hl : d.treei.lower (key8 i) with
    | nil =>
      rw [hl] at h; cases h
      refine ⟨_, takes_db.bind (k2 := 0) ?_⟩
      rw [hl]; exact takes_pure
    | cons e l =>
      rw [hl] at h
      simp only at h
      by_cases he : leDec (e.1.take 8) ≠ i
      · rw [if_pos he] at h; cases h
        refine ⟨_, takes_db.bind (k2 := 0) ?_⟩
        rw [hl]; simp only; rw [if_pos he]; exact takes_pure
      · rw [if_neg he] at h
        obtain ⟨k1, h1⟩ := makeOrphan_takes d e.2.ino
        obtain ⟨k2, h2⟩ := ih h
        refine ⟨_, takes_db.bind (k2 := k1 + k2) ?_⟩
        rw [hl]; simp only; rw [if_neg he]
        exact h1.bind h2

theorem removeData_takes {d d' : DB} {i : Ino} {n : Inode} (h : removeData d i n = .ok d') : ∃ k, Takes (X.removeData i n) d k () d' := by
  unfold removeData at h
  unfold X.removeData
  by_cases h1 : fmt n.attr.mode = S_IFLNK
  · rw [if_pos h1] at h; cases h
    rw [if_pos h1]; exact ⟨_, takes_write _⟩
  · rw [if_neg h1] at h
    rw [if_neg h1]
    by_cases h2 : fmt n.attr.mode = S_IFDIR
    · rw [if_pos h2] at h
      rw [if_pos h2]
      obtain ⟨k, hk⟩ := orphanKids_takes _ h
      exact ⟨_, takes_db.bind hk⟩
    · rw [if_neg h2] at h; cases h
      rw [if_neg h2]; exact ⟨_, takes_pure⟩

theorem removeOne_takes {d d' : DB} {i : Ino} (h : removeOne d i = .ok d') : ∃ k, Takes (X.removeOne i) d k () d' := by
  unfold removeOne at h
  unfold X.removeOne
  cases hi : d.inodes.find (key8 i) with
  | none =>
    rw [hi] at h; cases h
    refine ⟨_, takes_db.bind (k2 := 1) ?_⟩
    rw [hi]; exact takes_write _
  | some n =>
    rw [hi] at h
    simp only at h
    cases hr : removeData d i n with
    | error e => rw [hr] at h; cases h
    | ok d1 =>
      rw [hr] at h; cases h
      obtain ⟨k, hk⟩ := removeData_takes hr
      refine ⟨_, takes_db.bind (k2 := k + (1 + 1)) ?_⟩
      rw [hi]
      exact hk.bind ((takes_write _).bind (takes_write _))

theorem cleanLoop_ends (f : Nat) : ∀ {d d' : DB} {r r' : Refs}, cleanLoop f d r = .ok (d', r') → ∃ k, Ends (X.cleanLoop f) d r k () d' r' := by
  induction f with
  | zero => intro d d' r r' h; cases h
  | succ f ih =>
    intro d d' r r' h
    unfold cleanLoop at h
    unfold X.cleanLoop
    cases hf : firstFree d.orphans.entries r with
    | none =>
      rw [hf] at h; cases h
      refine ⟨_, (takes_db.ends r).bind (ends_refs.bind (k2 := 0) ?_)⟩
      rw [hf]; exact takes_pure.ends r
    | some p =>
      obtain ⟨i, r1⟩ := p
      rw [hf] at h
      simp only at h
      cases hr : removeOne d i with
      | error e => rw [hr] at h; cases h
      | ok d1 =>
        rw [hr] at h
        obtain ⟨k1, h1⟩ := removeOne_takes hr
        obtain ⟨k2, h2⟩ := ih h
        refine ⟨_, (takes_db.ends r).bind (ends_refs.bind (k2 := 0 + (k1 + k2)) ?_)⟩
        rw [hf]
        exact ends_setRefs.bind ((h1.ends r1).bind h2)

theorem cleanOrphans_ends {d d' : DB} {r r' : Refs} (h : cleanOrphans d r = .ok (d', r')) : ∃ k, Ends X.cleanOrphans d r k () d' r' := by
  obtain ⟨k, hk⟩ := cleanLoop_ends _ h
  exact ⟨_, (takes_db.ends r).bind hk⟩

/-- The first half of `emplaceNew`: four writes. -/
def X.addNew (p : Ino) (n : Bytes) (a : Attrs) : X Ino := do
  let i ← X.allocNext
  X.write (fun d => { d with inodes := d.inodes.put (key8 i) (mkInode a p) })
  X.write (fun d => { d with treen := d.treen.put (keyN p n) (mkEnt i n) })
  X.write (fun d => { d with treei := d.treei.put (key16 p i) (mkEnt i n) })
  pure i

/-- The database after this half. -/
def added (d : DB) (i p : Ino) (n : Bytes) (a : Attrs) : DB :=
  { d with
    next := some (u64 (i + 1))
    inodes := d.inodes.put (key8 i) (mkInode a p)
    treen := d.treen.put (keyN p n) (mkEnt i n)
    treei := d.treei.put (key16 p i) (mkEnt i n) }

theorem X.bind_assoc {α β γ : Type} (x : X α) (f : α → X β) (g : β → X γ) : (x >>= f >>= g) = (x >>= fun a => f a >>= g) := by
  funext s
  simp only [x_bind]
  unfold X.bind
  cases x s with
  | error e => rfl
  | ok v => cases v <;> rfl

theorem X.pure_bind {α β : Type} (a : α) (f : α → X β) : ((pure a : X α) >>= f) = f a := rfl

theorem emplaceNew_eq (p : Ino) (n : Bytes) (a : Attrs) :
    X.emplaceNew p n a = (X.addNew p n a >>= fun i => X.cleanOrphans >>= fun _ => pure (.ok i)) := by
  unfold X.emplaceNew X.addNew
  simp only [X.bind_assoc, X.pure_bind]
  rfl

theorem addNew_takes {d : DB} {i : Ino} (h : d.next = some i) (p : Ino) (n : Bytes) (a : Attrs) :
    Takes (X.addNew p n a) d 4 i (added d i p n a) := by
  have halloc : Takes X.allocNext d 1 i { d with next := some (u64 (i + 1)) } := by
    unfold X.allocNext
    refine (takes_db.bind (k2 := 1) ?_).cast rfl rfl rfl
    rw [h]
    exact Takes.bind (f := fun _ => X.pure i) (takes_write (fun d => { d with next := some (u64 (i + 1)) })) takes_pure
  unfold X.addNew
  exact halloc.bind (k2 := 1 + (1 + (1 + 0))) ((takes_write _).bind ((takes_write _).bind ((takes_write _).bind takes_pure)))

theorem orphanAll_takes : ∀ (l : List Ino) (d : DB), ∃ k, Takes (X.orphanAll l) d k () (l.foldl (fun d i => (makeOrphan d i).1) d)
  | [], d => ⟨0, takes_pure⟩
  | i :: l, d => by
    obtain ⟨k1, h1⟩ := makeOrphan_takes d i
    obtain ⟨k2, h2⟩ := orphanAll_takes l (makeOrphan d i).1
    exact ⟨_, h1.bind h2⟩

/-! ### Calls -/

theorem exec_ends {t : Txn} {x : X (Option (List Ino) × Out)} {k : Nat} {rw : Option (List Ino)} {out : Out} {d' : DB} {r' : Refs}
    (h : Ends x t.db t.refs k (rw, out) d' r') :
    (∀ n, k ≤ n → t.exec n x = .ok (.done { t with db := d', refs := r', rewrite := rw } out)) ∧ ∀ n, n < k → ∃ r, t.exec n x = .ok (.refused r) := by
  refine ⟨fun n hn => ?_, fun n hn => ?_⟩
  · unfold Txn.exec; rw [h.1 n hn]
  · obtain ⟨r, hr⟩ := h.2 n hn
    exact ⟨r, by unfold Txn.exec; rw [hr]⟩

theorem emplaceNew_ends {t t' : Txn} {d : DB} {p : Ino} {n : Bytes} {a : Attrs} {v : Res Ino} (h : emplaceNew t d p n a = .ok (t', v)) :
    ∃ k d' r', Ends (X.emplaceNew p n a) d t.refs k v d' r' ∧ t' = { t with db := d', refs := r' } := by
  unfold emplaceNew allocNext at h
  cases hn : d.next with
  | none => rw [hn] at h; cases h
  | some i =>
    rw [hn] at h
    simp only [bind_ok] at h
    cases hc : cleanOrphans (added d i p n a) t.refs with
    | error e =>
      unfold added at hc
      rw [hc] at h; cases h
    | ok v =>
      obtain ⟨d', r'⟩ := v
      obtain ⟨k, hk⟩ := cleanOrphans_ends hc
      unfold added at hc
      rw [hc] at h; cases h
      refine ⟨4 + (k + 0), d', r', ?_, rfl⟩
      rw [emplaceNew_eq]
      exact ((addNew_takes hn p n a).ends _).bind (hk.bind (takes_pure.ends _))

theorem unlinkIno_ends {t t' : Txn} {i : Ino} {v : Res Unit} (h : unlinkIno t i = .ok (t', v)) :
    ∃ k d' r', Ends (X.unlinkIno i) t.db t.refs k v d' r' ∧ t' = { t with db := d', refs := r' } := by
  unfold unlinkIno at h
  unfold X.unlinkIno
  obtain ⟨k1, h1⟩ := makeOrphan_takes t.db i
  cases hm : makeOrphan t.db i with
  | mk d1 res =>
    rw [hm] at h h1
    simp only at h1
    cases res with
    | error e =>
      cases h
      refine ⟨_, d1, t.refs, (h1.ends _).bind (k2 := 0) (takes_pure.ends _), ?_⟩
      have hd : (makeOrphan t.db i).2 = .error e → (makeOrphan t.db i).1 = t.db := by
        unfold makeOrphan
        cases parent t.db i with
        | error e => intro _; rfl
        | ok p =>
          simp only
          by_cases h0 : p = INVALID
          · rw [if_pos h0]; intro h; cases h
          · rw [if_neg h0]
            cases t.db.treei.find (key16 p i) with
            | none => intro _; rfl
            | some x =>
              simp only
              cases t.db.inodes.find (key8 i) <;> (intro h; cases h)
      rw [hm] at hd
      have := hd rfl
      simp only at this
      subst this; rfl
    | ok u =>
      cases u
      simp only at h
      unfold clean at h
      cases hc : cleanOrphans d1 t.refs with
      | error e => simp only at h; rw [hc] at h; cases h
      | ok v =>
        obtain ⟨d', r'⟩ := v
        simp only at h; rw [hc] at h; cases h
        obtain ⟨k, hk⟩ := cleanOrphans_ends hc
        exact ⟨_, d', r', (h1.ends _).bind (hk.bind (takes_pure.ends _)), rfl⟩

theorem writelink_takes (t : Txn) (i : Ino) (dest : Bytes) :
    ∃ k d', Takes (X.writelink i dest) t.db k (writelink t i dest).2 d' ∧ (writelink t i dest).1 = { t with db := d' } := by
  unfold writelink X.writelink
  cases hi : t.db.inodes.find (key8 i) with
  | none =>
    refine ⟨_, t.db, takes_db.bind (k2 := 0) ?_, rfl⟩
    rw [hi]; exact takes_pure
  | some n =>
    simp only
    by_cases hm : fmt n.attr.mode ≠ S_IFLNK
    · rw [if_pos hm]
      refine ⟨_, t.db, takes_db.bind (k2 := 0) ?_, rfl⟩
      rw [hi]; simp only; rw [if_pos hm]; exact takes_pure
    · rw [if_neg hm]
      refine ⟨_, _, takes_db.bind (k2 := 1 + (1 + 0)) ?_, rfl⟩
      rw [hi]; simp only; rw [if_neg hm]
      exact (takes_write _).bind ((takes_write _).bind takes_pure)

theorem updateFlags_takes (t : Txn) (i : Ino) (a b : List Flag) :
    ∃ k d', Takes (X.updateFlags i a b) t.db k (updateFlags t i a b).2 d' ∧ (updateFlags t i a b).1 = { t with db := d' } := by
  unfold updateFlags X.updateFlags
  cases hi : t.db.inodes.find (key8 i) with
  | none =>
    refine ⟨_, t.db, takes_db.bind (k2 := 0) ?_, rfl⟩
    rw [hi]; exact takes_pure
  | some n =>
    refine ⟨_, _, takes_db.bind (k2 := 1 + 0) ?_, rfl⟩
    rw [hi]
    exact (takes_write _).bind takes_pure

theorem finishRewrite_takes (t : Txn) :
    ∃ k d', Takes (X.finishRewrite t.rewrite) t.db k (none, (finishRewrite t).2) d' ∧ (finishRewrite t).1 = { t with db := d', rewrite := none } := by
  cases hr : t.rewrite with
  | none =>
    refine ⟨0, t.db, ?_, ?_⟩
    · unfold finishRewrite; rw [hr]; exact takes_pure
    · unfold finishRewrite; rw [hr]
      cases t; simp only at hr; subst hr; rfl
  | some l =>
    obtain ⟨k, hk⟩ := orphanAll_takes l t.db
    unfold finishRewrite
    simp only [hr]
    exact ⟨_, _, hk.bind takes_pure, rfl⟩

/-- A call which is not refused does what the model of `Verif.Cache.Model` says; and whether it is refused depends on the
number of writes which succeed only. -/
theorem doOpX_ends {t t' : Txn} {o : Op} {out : Out} (h : doOp t o = .ok (t', out)) :
    ∃ k, (∀ n, k ≤ n → doOpX t n o = .ok (.done t' out)) ∧ ∀ n, n < k → ∃ r, doOpX t n o = .ok (.refused r) := by
  have triv : (∀ n, doOpX t n o = (do let (t', out) ← doOp t o; pure (.done t' out))) →
      ∃ k, (∀ n, k ≤ n → doOpX t n o = .ok (.done t' out)) ∧ ∀ n, n < k → ∃ r, doOpX t n o = .ok (.refused r) := by
    intro hx
    exact ⟨0, fun n _ => by rw [hx, h]; rfl, fun n hn => by omega⟩
  cases o with
  | lookup p n => exact triv (fun _ => rfl)
  | getattr i => exact triv (fun _ => rfl)
  | readlink i => exact triv (fun _ => rfl)
  | readdir dir prev => exact triv (fun _ => rfl)
  | path i => exact triv (fun _ => rfl)
  | name i => exact triv (fun _ => rfl)
  | parent i => exact triv (fun _ => rfl)
  | testFlag i f => exact triv (fun _ => rfl)
  | lock i => exact triv (fun _ => rfl)
  | release i n => exact triv (fun _ => rfl)
  | startRewrite dir => exact triv (fun _ => rfl)
  | emplace p m a =>
    simp only [doOp] at h
    cases hm : emplace t p m a with
    | error e => rw [hm] at h; cases h
    | ok v =>
      obtain ⟨t1, v⟩ := v
      rw [hm] at h; cases h
      suffices hx : ∃ k d' r' rw, Ends (X.emplace t.rewrite p m a) t.db t.refs k (rw, v) d' r' ∧ t1 = { t with db := d', refs := r', rewrite := rw } by
        obtain ⟨k, d', r', rw, hx, rfl⟩ := hx
        exact ⟨_, exec_ends (hx.bind (f := fun q => pure (q.1, Out.ino q.2)) (takes_pure.ends _))⟩
      unfold emplace at hm
      unfold X.emplace
      cases hc : checkName m true with
      | error e => rw [hc] at hm; cases hm; exact ⟨0, t.db, t.refs, t.rewrite, takes_pure.ends _, rfl⟩
      | ok u =>
        cases u
        rw [hc] at hm
        simp only at hm
        simp only
        cases hf : t.db.treen.find (keyN p m) with
        | none =>
          rw [hf] at hm
          obtain ⟨k, d', r', hk, rfl⟩ := emplaceNew_ends hm
          refine ⟨_, d', r', t.rewrite, (takes_db.ends _).bind (k2 := k + 0) ?_, rfl⟩
          rw [hf]
          exact hk.bind (f := fun q => pure (t.rewrite, q)) (takes_pure.ends _)
        | some e =>
          rw [hf] at hm
          simp only at hm
          cases hi : t.db.inodes.find (key8 e.ino) with
          | none => rw [hi] at hm; cases hm
          | some old =>
            rw [hi] at hm
            simp only at hm
            by_cases hfm : fmt old.attr.mode = fmt a.mode
            · rw [if_pos hfm] at hm; cases hm
              refine ⟨_, _, t.refs, _, (takes_db.ends _).bind (k2 := 1 + 0) ?_, rfl⟩
              rw [hf]; simp only; rw [hi]; simp only; rw [if_pos hfm]
              refine Takes.ends ?_ _
              exact Takes.bind (f := fun _ => X.pure _) (takes_write _) takes_pure
            · rw [if_neg hfm] at hm
              obtain ⟨k, d', r', hk, rfl⟩ := emplaceNew_ends hm
              obtain ⟨k1, h1⟩ := makeOrphan_takes t.db e.ino
              refine ⟨_, d', r', t.rewrite, (takes_db.ends _).bind (k2 := k1 + (k + 0)) ?_, rfl⟩
              rw [hf]; simp only; rw [hi]; simp only; rw [if_neg hfm]
              exact (h1.ends _).bind (hk.bind (f := fun q => pure (t.rewrite, q)) (takes_pure.ends _))
  | unlinkIno i =>
    simp only [doOp] at h
    cases hm : unlinkIno t i with
    | error e => rw [hm] at h; cases h
    | ok v =>
      obtain ⟨t1, v⟩ := v
      rw [hm] at h; cases h
      obtain ⟨k, d', r', hk, rfl⟩ := unlinkIno_ends hm
      exact ⟨_, exec_ends (hk.bind (f := fun q => pure (t.rewrite, Out.unit q)) (takes_pure.ends _))⟩
  | unlinkName p m =>
    simp only [doOp] at h
    cases hm : unlinkName t p m with
    | error e => rw [hm] at h; cases h
    | ok v =>
      obtain ⟨t1, v⟩ := v
      rw [hm] at h; cases h
      suffices hx : ∃ k d' r', Ends (X.unlinkName p m) t.db t.refs k v d' r' ∧ t1 = { t with db := d', refs := r' } by
        obtain ⟨k, d', r', hk, rfl⟩ := hx
        exact ⟨_, exec_ends (hk.bind (f := fun q => pure (t.rewrite, Out.unit q)) (takes_pure.ends _))⟩
      unfold unlinkName at hm
      unfold X.unlinkName
      cases hf : t.db.treen.find (keyN p m) with
      | none =>
        rw [hf] at hm; cases hm
        refine ⟨_, t.db, t.refs, (takes_db.ends _).bind (k2 := 0) ?_, rfl⟩
        rw [hf]; exact takes_pure.ends _
      | some e =>
        rw [hf] at hm
        obtain ⟨k, d', r', hk, rfl⟩ := unlinkIno_ends hm
        refine ⟨_, d', r', (takes_db.ends _).bind (k2 := k) ?_, rfl⟩
        rw [hf]; exact hk
  | clean =>
    simp only [doOp] at h
    unfold clean at h
    cases hc : cleanOrphans t.db t.refs with
    | error e => rw [hc] at h; cases h
    | ok v =>
      obtain ⟨d', r'⟩ := v
      rw [hc] at h; cases h
      obtain ⟨k, hk⟩ := cleanOrphans_ends hc
      exact ⟨_, exec_ends (hk.bind (f := fun _ => pure (t.rewrite, Out.unit (.ok ()))) (takes_pure.ends _))⟩
  | writelink i dest =>
    simp only [doOp] at h
    cases h
    obtain ⟨k, d', hk, he⟩ := writelink_takes t i dest
    rw [he]
    exact ⟨_, exec_ends ((hk.ends _).bind (f := fun q => pure (t.rewrite, Out.unit q)) (takes_pure.ends _))⟩
  | updateFlags i a b =>
    simp only [doOp] at h
    cases h
    obtain ⟨k, d', hk, he⟩ := updateFlags_takes t i a b
    rw [he]
    exact ⟨_, exec_ends ((hk.ends _).bind (f := fun q => pure (t.rewrite, Out.unit q)) (takes_pure.ends _))⟩
  | finishRewrite =>
    simp only [doOp] at h
    cases h
    obtain ⟨k, d', hk, he⟩ := finishRewrite_takes t
    rw [he]
    exact ⟨_, exec_ends ((hk.ends _).bind (f := fun q => pure (q.1, Out.unit q.2)) (takes_pure.ends _))⟩

/-! ### Refused in the middle of a collection -/

/-- Collection broken off: nothing but some of the inodes which it would have removed are doomed. Whatever is locked of the
others, these are removed. -/
def CutOff (s : Tree) (r r' : Refs) : Prop :=
  ∃ D : Ino → Prop, DoomedBy r r' D ∧ (∀ i, D i → (r i).nrefs = 0) ∧ ∀ L : Ino → Prop, (∀ i, D i → ¬ L i) → ∀ i, D i → Gone s L i

theorem cleanLoop_cut (f : Nat) : ∀ {s : Tree} {d : DB} {r r' : Refs} {n : Nat}, Rep s d → s.OK →
    X.cleanLoop f ⟨d, r, n⟩ = .ok (.refused r') → CutOff s r r' := by
  induction f with
  | zero => intro s d r r' n _ _ h; cases h
  | succ f ih =>
    intro s d r r' n h ok hx
    unfold X.cleanLoop at hx
    change (match firstFree d.orphans.entries r with
      | none => (pure () : X Unit)
      | some (i, r') => X.setRefs r' >>= fun _ => X.removeOne i >>= fun _ => X.cleanLoop f) ⟨d, r, n⟩ = _ at hx
    cases hff : firstFree d.orphans.entries r with
    | none => rw [hff] at hx; cases hx
    | some p =>
      obtain ⟨i, r1⟩ := p
      rw [hff] at hx
      obtain ⟨e, he, hie, h0, hr1⟩ := firstFree_some hff
      obtain ⟨j, nd, hk, hj, hl, hrt⟩ := (h.orphans _ _).mp ((Tab.mem_iff _ _ _).mp he)
      rw [hk, leDec_key8 (OK.lt ok hj)] at hie
      subst hie
      obtain ⟨d1, e1, rep1, ok1, -⟩ := h.removeOne ok hj hl hrt
      obtain ⟨k, hk⟩ := removeOne_takes e1
      have hx' : (X.removeOne i >>= fun _ => X.cleanLoop f) ⟨d, r1, n⟩ = .ok (.refused r') := hx
      have hone : DoomedBy r r1 (fun j => j = i) := by
        intro j
        rw [hr1]; unfold Refs.set
        by_cases hji : j = i
        · subst hji; simp
        · simp [hji]
      rcases hk.refused hx' with rfl | ⟨-, hx1⟩
      · refine ⟨fun j => j = i, hone, ?_, ?_⟩
        · rintro j rfl; exact h0
        · rintro L hL j rfl
          exact .orphan hj hrt hl (hL _ rfl)
      · obtain ⟨D, g1, g2, g3⟩ := ih rep1 ok1 hx1
        have hn : ∀ j, (r1 j).nrefs = (r j).nrefs := fun j => (hone j).1
        refine ⟨fun j => j = i ∨ D j, ?_, ?_, ?_⟩
        · intro j
          refine ⟨by rw [(g1 j).1, hn], ?_⟩
          rw [(g1 j).2, (hone j).2, or_assoc]
        · rintro j (rfl | hD)
          · exact h0
          · rw [← hn]; exact g2 j hD
        · intro L hL j hD
          rw [gone_remove hj hl hrt (hL i (.inl rfl)) ok]
          rcases hD with rfl | hD
          · exact .inl rfl
          · exact .inr (g3 L (fun x hx => hL x (.inr hx)) j hD)

theorem cleanOrphans_cut {s : Tree} {d : DB} {r r' : Refs} {n : Nat} (h : Rep s d) (ok : s.OK)
    (hx : X.cleanOrphans ⟨d, r, n⟩ = .ok (.refused r')) : CutOff s r r' :=
  cleanLoop_cut _ h ok hx

theorem exec_refused {α : Type} {t : Txn} {n : Nat} {x : X α} {g : α → Option (List Ino) × Out} {r' : Refs}
    (h : t.exec n (x >>= fun q => pure (g q)) = .ok (.refused r')) : x ⟨t.db, t.refs, n⟩ = .ok (.refused r') := by
  unfold Txn.exec at h
  rw [x_bind] at h; unfold X.bind at h
  cases hx : x ⟨t.db, t.refs, n⟩ with
  | error e => rw [hx] at h; cases h
  | ok v =>
    rw [hx] at h
    cases v with
    | refused r => cases h; rfl
    | done a s => cases h

/-- What a refused call has done: nothing, or it was broken off in the middle of a collection, from a state which does not
depend on the reference table. -/
def Interrupted (t : Txn) (o : Op) (r' : Refs) : Prop :=
  r' = t.refs ∨ ∃ s1 : Tree, s1.OK ∧ CutOff s1 t.refs r' ∧
    ∀ r2, ∃ s' t' out, doOp { t with refs := r2 } o = .ok (t', out) ∧ CollectedTo s1 { t with refs := r2 } s' t'

theorem emplaceNew_refused {s : Tree} {d : DB} {r r' : Refs} {k : Nat} (h : Rep s d) (ok : s.OK) {p n a} (hp0 : 0 < p) (hp : p < W64) (hn : GoodName n)
    (hnext : s.next + 1 < W64) (hfree : ∀ i, ¬ s.At p n i) (hx : X.emplaceNew p n a ⟨d, r, k⟩ = .ok (.refused r')) :
    r' = r ∨ CutOff (s.add p n a) r r' := by
  rw [emplaceNew_eq] at hx
  rcases (addNew_takes h.next p n a).refused hx with h1 | ⟨-, h1⟩
  · exact .inl h1
  · right
    have hu : u64 (s.next + 1) = s.next + 1 := Nat.mod_eq_of_lt hnext
    have hr := h.addNode (a := a) ok hp0 hp hn hnext hfree
    have hok := OK.addNode (a := a) ok hp0 hp hn hnext hfree
    have h2 : X.cleanOrphans ⟨added d s.next p n a, r, k - 4⟩ = .ok (.refused r') := by
      rw [x_bind] at h1; unfold X.bind at h1
      cases hc : X.cleanOrphans ⟨added d s.next p n a, r, k - 4⟩ with
      | error e => rw [hc] at h1; cases h1
      | ok v =>
        rw [hc] at h1
        cases v with
        | refused q => cases h1; rfl
        | done q1 q2 => cases h1
    unfold added at h2
    rw [hu] at h2
    exact cleanOrphans_cut hr hok h2

theorem refused_bind {α β : Type} {x : X α} {g : α → β} {S : WS} {r' : Refs} (h : (x >>= fun q => pure (g q)) S = .ok (.refused r')) :
    x S = .ok (.refused r') := by
  rw [x_bind] at h; unfold X.bind at h
  cases hx : x S with
  | error e => rw [hx] at h; cases h
  | ok v =>
    rw [hx] at h
    cases v with
    | refused q => cases h; rfl
    | done q1 q2 => cases h

theorem unlinkIno_refused {s : Tree} {t : Txn} {i : Ino} {k : Nat} {r' : Refs} (h : TRep s t) (hb : i < W64)
    (hx : X.unlinkIno i ⟨t.db, t.refs, k⟩ = .ok (.refused r')) :
    r' = t.refs ∨ ∃ nd, i ≠ ROOT ∧ s.nodes i = some nd ∧ CutOff (s.orphan i) t.refs r' := by
  unfold X.unlinkIno at hx
  obtain ⟨k1, h1⟩ := makeOrphan_takes t.db i
  rcases h1.refused hx with h2 | ⟨-, h2⟩
  · exact .inl h2
  · have hm := h.1.makeOrphan_any h.2 hb
    cases hres : (Cache.makeOrphan t.db i).2 with
    | error e => rw [hres] at h2; cases h2
    | ok u =>
      cases u
      rw [hres] at h2
      have h3 := refused_bind h2
      have hr : i ≠ ROOT := by rintro rfl; rw [h.1.makeOrphan_root h.2] at hres; cases hres
      cases hi : s.nodes i with
      | none => rw [h.1.makeOrphan_missing h.2 hb hr hi] at hres; cases hres
      | some nd => exact .inr ⟨nd, hr, rfl, cleanOrphans_cut hm (OK.orphan h.2 i) h3⟩

theorem doOpX_refused {s : Tree} {t : Txn} {o : Op} {n : Nat} {r' : Refs} (h : TRep s t) (hr : o.inRange)
    (ha : ∀ p n a, o = .emplace p n a → p ≠ 0 ∧ s.next + 1 < W64)
    (hx : doOpX t n o = .ok (.refused r')) : Interrupted t o r' := by
  have triv : (∀ n, doOpX t n o = (do let (t', out) ← doOp t o; pure (.done t' out))) → Interrupted t o r' := by
    intro he
    rw [he] at hx
    cases hd : doOp t o with
    | error e => rw [hd] at hx; cases hx
    | ok v => rw [hd] at hx; cases hx
  cases o with
  | lookup p n => exact triv (fun _ => rfl)
  | getattr i => exact triv (fun _ => rfl)
  | readlink i => exact triv (fun _ => rfl)
  | readdir dir prev => exact triv (fun _ => rfl)
  | path i => exact triv (fun _ => rfl)
  | name i => exact triv (fun _ => rfl)
  | parent i => exact triv (fun _ => rfl)
  | testFlag i f => exact triv (fun _ => rfl)
  | lock i => exact triv (fun _ => rfl)
  | release i n => exact triv (fun _ => rfl)
  | startRewrite dir => exact triv (fun _ => rfl)
  | emplace p m a =>
    obtain ⟨hp0, hnext⟩ := ha p m a rfl
    have hp : p < W64 := hr
    have hx1 : X.emplace t.rewrite p m a ⟨t.db, t.refs, n⟩ = .ok (.refused r') :=
      exec_refused (g := fun (q : Option (List Ino) × Res Ino) => (q.1, Out.ino q.2)) hx
    unfold X.emplace at hx1
    cases hc : checkName m true with
    | error e => rw [hc] at hx1; cases hx1
    | ok u =>
      cases u
      have hn := checkName_good.mp hc
      rw [hc] at hx1
      simp only at hx1
      rcases takes_db.refused hx1 with hq | ⟨-, hx2⟩
      · exact .inl hq
      by_cases hex : ∃ i, s.At p m i
      · obtain ⟨i, nd, hi, hl⟩ := hex
        rw [h.1.tn_some hi hl] at hx2
        simp only [mkEnt] at hx2
        rw [h.1.ino_some hi] at hx2
        simp only at hx2
        by_cases hf : fmt nd.attr.mode = fmt a.mode
        · rw [if_pos (show fmt (recOf nd).attr.mode = fmt a.mode from hf)] at hx2
          exact .inl (Takes.kept (Takes.bind (f := fun _ => X.pure _) (takes_write _) takes_pure) hx2)
        · rw [if_neg (show ¬ fmt (recOf nd).attr.mode = fmt a.mode from hf)] at hx2
          obtain ⟨k1, h1⟩ := makeOrphan_takes t.db i
          rcases h1.refused hx2 with hq | ⟨-, hx3⟩
          · exact .inl hq
          have hloc := h.2.loc i nd p m hi hl
          have ok1 := OK.orphan h.2 i
          have hfree := orphan_free h.2 ⟨nd, hi, hl⟩
          rcases emplaceNew_refused (h.1.makeOrphan_any h.2 (OK.lt h.2 hi)) ok1 hloc.1 hloc.2.1 hn hnext hfree (refused_bind hx3) with hq | hq
          · exact .inl hq
          · refine .inr ⟨_, OK.addNode ok1 hloc.1 hloc.2.1 hn hnext hfree, hq, fun r2 => ?_⟩
            obtain ⟨s', t', e1, e2⟩ := emplace_replace (t := { t with refs := r2 }) h hi hl hf hnext
            exact ⟨s', t', _, by simp only [doOp]; rw [e1]; rfl, e2⟩
      · have hfree : ∀ i, ¬ s.At p m i := fun i hi => hex ⟨i, hi⟩
        rw [h.1.tn_none h.2 hp hfree] at hx2
        rcases emplaceNew_refused h.1 h.2 (by omega) hp hn hnext hfree (refused_bind hx2) with hq | hq
        · exact .inl hq
        · refine .inr ⟨_, OK.addNode h.2 (by omega) hp hn hnext hfree, hq, fun r2 => ?_⟩
          obtain ⟨s', t', e1, e2⟩ := emplace_free (t := { t with refs := r2 }) h (a := a) (by omega) hp hn hnext hfree
          exact ⟨s', t', _, by simp only [doOp]; rw [e1]; rfl, e2⟩
  | unlinkIno i =>
    rcases unlinkIno_refused h hr (exec_refused (g := fun q => (t.rewrite, Out.unit q)) hx) with hq | ⟨nd, hroot, hi, hq⟩
    · exact .inl hq
    · refine .inr ⟨_, OK.orphan h.2 i, hq, fun r2 => ?_⟩
      obtain ⟨s', t', e1, e2⟩ := unlinkIno_spec (t := { t with refs := r2 }) h hroot hi
      exact ⟨s', t', _, by simp only [doOp]; rw [e1]; rfl, e2⟩
  | unlinkName p m =>
    have hx1 : X.unlinkName p m ⟨t.db, t.refs, n⟩ = .ok (.refused r') := exec_refused (g := fun q => (t.rewrite, Out.unit q)) hx
    unfold X.unlinkName at hx1
    rcases takes_db.refused hx1 with hq | ⟨-, hx2⟩
    · exact .inl hq
    by_cases hex : ∃ i, s.At p m i
    · obtain ⟨i, hat⟩ := hex
      obtain ⟨nd, hi, hl⟩ := hat
      rw [h.1.tn_some hi hl] at hx2
      simp only [mkEnt] at hx2
      rcases unlinkIno_refused h (OK.lt h.2 hi) hx2 with hq | ⟨_, -, -, hq⟩
      · exact .inl hq
      · refine .inr ⟨_, OK.orphan h.2 i, hq, fun r2 => ?_⟩
        obtain ⟨s', t', e1, e2⟩ := unlinkName_spec (t := { t with refs := r2 }) h ⟨nd, hi, hl⟩
        exact ⟨s', t', _, by simp only [doOp]; rw [e1]; rfl, e2⟩
    · rw [h.1.tn_none h.2 hr (fun i hi => hex ⟨i, hi⟩)] at hx2
      cases hx2
  | clean =>
    have hx1 := exec_refused (g := fun _ => (t.rewrite, Out.unit (.ok ()))) hx
    refine .inr ⟨s, h.2, cleanOrphans_cut h.1 h.2 hx1, fun r2 => ?_⟩
    obtain ⟨s', t', e1, e2⟩ := clean_spec (t := { t with refs := r2 }) h
    exact ⟨s', t', _, by simp only [doOp]; rw [e1]; rfl, e2⟩
  | writelink i dest =>
    obtain ⟨k, d', hk, -⟩ := writelink_takes t i dest
    exact .inl (hk.kept (exec_refused (g := fun q => (t.rewrite, Out.unit q)) hx))
  | updateFlags i a b =>
    obtain ⟨k, d', hk, -⟩ := updateFlags_takes t i a b
    exact .inl (hk.kept (exec_refused (g := fun q => (t.rewrite, Out.unit q)) hx))
  | finishRewrite =>
    obtain ⟨k, d', hk, -⟩ := finishRewrite_takes t
    exact .inl (hk.kept (exec_refused (g := fun (q : Option (List Ino) × Res Unit) => (q.1, Out.unit q.2)) hx))

end Dragonstash.Cache
