/-
  C82: moving transaction objects.
-/
import Verif.Cache.Objects
namespace Dragonstash.Objs
open Hooks
variable {σ : Type}

/-! ### Specification -/

/-- The addresses which a call mentions. -/
def Call.addrs : Call σ → List Nat
  | .begin k => [k]
  | .nested k p => [k, p]
  | .add k _ => [k]
  | .useTable k => [k]
  | .commit k => [k]
  | .abort k => [k]
  | .move k' k => [k', k]
  | .assign k' k => [k', k]
  | .destroy k => [k]

/-- The same call, where what was at `k` is now at `k'`. -/
def to (k k' x : Nat) : Nat := if x = k then k' else x
def Call.moved (k k' : Nat) : Call σ → Call σ
  | .begin x => .begin (to k k' x)
  | .nested x p => .nested (to k k' x) (to k k' p)
  | .add x h => .add (to k k' x) h
  | .useTable x => .useTable (to k k' x)
  | .commit x => .commit (to k k' x)
  | .abort x => .abort (to k k' x)
  | .move y x => .move (to k k' y) (to k k' x)
  | .assign y x => .assign (to k k' y) (to k k' x)
  | .destroy x => .destroy (to k k' x)

/-- What can be observed: the outside state and the calls of hooks, how LMDB's transactions have ended,
whether the mutex is locked, and the results of the calls. -/
def seenOf (p : World σ × List (Res Unit)) : Env σ × List (Nat × Bool) × Bool × List (Res Unit) := (p.1.env, p.1.ended, p.1.mutex, p.2)

/-! ### Two worlds which differ by a move -/

def Obj.moved (k k' : Nat) (o : Obj σ) : Obj σ := { o with parent := o.parent.map (to k k') }

structure Twin (k k' : Nat) (w w' : World σ) : Prop where
  env : w'.env = w.env
  lmdb : w'.lmdb = w.lmdb
  ended : w'.ended = w.ended
  mutex : w'.mutex = w.mutex
  next : w'.next = w.next
  obj : ∀ x, x ≠ k' → w'.obj (to k k' x) = (w.obj x).map (Obj.moved k k')
  ptr : ∀ x o, x ≠ k' → w.obj x = some o → o.parent ≠ some k'

theorem to_inj {k k' x y : Nat} (hx : x ≠ k') (hy : y ≠ k') (h : to k k' x = to k k' y) : x = y := by
  unfold to at h
  by_cases e1 : x = k <;> by_cases e2 : y = k
  · rw [e1, e2]
  · rw [if_pos e1, if_neg e2] at h; exact absurd h.symm hy
  · rw [if_neg e1, if_pos e2] at h; exact absurd h hx
  · rw [if_neg e1, if_neg e2] at h; exact h

variable {k k' : Nat} {w w' : World σ}

theorem Twin.put (h : Twin k k' w w') {x : Nat} (hx : x ≠ k') {o : Option (Obj σ)} (ho : ∀ q, o = some q → q.parent ≠ some k') :
    Twin k k' (w.put x o) (w'.put (to k k' x) (o.map (Obj.moved k k'))) := by
  refine ⟨h.env, h.lmdb, h.ended, h.mutex, h.next, fun y hy => ?_, fun y q hy hq => ?_⟩
  · show (if _ then _ else _) = Option.map _ (if _ then _ else _)
    by_cases e : y = x
    · rw [if_pos (by rw [e]), if_pos e]
    · rw [if_neg (fun e' => e (to_inj hy hx e')), if_neg e]; exact h.obj y hy
  · have hq' : (if y = x then o else w.obj y) = some q := hq
    by_cases e : y = x
    · rw [if_pos e] at hq'; exact ho q hq'
    · rw [if_neg e] at hq'; exact h.ptr y q hy hq'

theorem Twin.child (h : Twin k k' w w') (t : Nat) : w'.hasChild t = w.hasChild t := by
  unfold World.hasChild; rw [h.lmdb, h.next]

theorem Twin.locked (h : Twin k k' w w') : ∀ (f : Nat) (p : Option Nat), p ≠ some k' → holdsLock w' f (p.map (to k k')) = holdsLock w f p := by
  intro f
  induction f with
  | zero => intro p _; cases p <;> rfl
  | succ f ih =>
    intro p hp
    cases p with
    | none => rfl
    | some x =>
      have hx : x ≠ k' := fun e => hp (by rw [e])
      show (match w'.obj (to k k' x) with | none => _ | some o => _) = match w.obj x with | none => _ | some o => _
      rw [h.obj x hx]
      cases hw : w.obj x with
      | none => rfl
      | some o =>
        simp only [Option.map_some]
        show (if o.lock then _ else _) = _
        cases o.lock with
        | true => rfl
        | false => exact ih _ (h.ptr x o hx hw)

theorem Twin.with_env (h : Twin k k' w w') (e : Env σ) : Twin k k' { w with env := e } { w' with env := e } :=
  ⟨rfl, h.lmdb, h.ended, h.mutex, h.next, h.obj, h.ptr⟩

theorem Twin.unlock (h : Twin k k' w w') (o : Obj σ) : Twin k k' (w.unlock o) (w'.unlock (o.moved k k')) :=
  ⟨h.env, h.lmdb, h.ended, by show (w'.mutex && _) = (w.mutex && _); rw [h.mutex]; rfl, h.next, h.obj, h.ptr⟩

/-- Both fail in the same way, or both go on with related results. -/
def Both {α β : Type} (R : α → β → Prop) (a : M α) (b : M β) : Prop :=
  match a, b with
  | .ok x, .ok y => R x y
  | .error e, .error e' => e = e'
  | _, _ => False

theorem Both.bind {α β γ δ : Type} {R : α → β → Prop} {S : γ → δ → Prop} {a : M α} {b : M β} {f : α → M γ} {g : β → M δ}
    (h : Both R a b) (hf : ∀ x y, a = .ok x → b = .ok y → R x y → Both S (f x) (g y)) : Both S (a >>= f) (b >>= g) := by
  cases ha : a with
  | error e =>
    cases hb : b with
    | error e' => rw [ha, hb] at h; exact h
    | ok y => rw [ha, hb] at h; exact h.elim
  | ok x =>
    cases hb : b with
    | error e' => rw [ha, hb] at h; exact h.elim
    | ok y =>
      have h' := h
      rw [ha, hb] at h'
      exact hf x y ha hb h'

theorem Twin.endTxn (h : Twin k k' w w') (t : Nat) (c : Bool) : Both (Twin k k') (w.endTxn t c) (w'.endTxn t c) := by
  unfold World.endTxn
  rw [h.child]
  by_cases e : w.hasChild t = true
  · rw [if_pos e, if_pos e]; exact rfl
  · rw [if_neg e, if_neg e]
    exact ⟨h.env, by show (fun x => _) = (fun x => _); rw [h.lmdb], by show _ ++ _ = _ ++ _; rw [h.ended], h.mutex, h.next, h.obj, h.ptr⟩

theorem Twin.at (h : Twin k k' w w') {x : Nat} (hx : x ≠ k') :
    Both (fun o o' => w.obj x = some o ∧ o' = o.moved k k') (w.at x) (w'.at (to k k' x)) := by
  unfold World.at
  rw [h.obj x hx]
  cases w.obj x with
  | none => exact rfl
  | some o => exact ⟨rfl, rfl⟩

theorem Twin.free (h : Twin k k' w w') {x : Nat} (hx : x ≠ k') : Both (fun _ _ => True) (w.free x) (w'.free (to k k' x)) := by
  unfold World.free
  rw [h.obj x hx]
  cases w.obj x with
  | none => exact trivial
  | some o => exact rfl

theorem Twin.abort (h : Twin k k' w w') {x : Nat} (hx : x ≠ k') {o : Obj σ} (ho : o.parent ≠ some k') :
    Both (Twin k k') (doAbort w x o) (doAbort w' (to k k' x) (o.moved k k')) := by
  unfold doAbort
  show Both _ (match o.txn with | none => _ | some t => _) (match o.txn with | none => _ | some t => _)
  cases o.txn with
  | none => exact rfl
  | some t =>
    simp only
    have he : ({ w' with env := abortHooks (o.moved k k').hooks w'.env } : World σ) = { w' with env := abortHooks o.hooks w.env } := by
      rw [h.env]; rfl
    rw [he]
    refine Both.bind ((h.with_env _).endTxn t false) (fun w1 w1' _ _ h1 => ?_)
    exact (h1.unlock o).put hx (fun q hq => by cases hq; exact ho)

theorem Twin.commit (h : Twin k k' w w') {x : Nat} (hx : x ≠ k') {o : Obj σ} (ho : o.parent ≠ some k') :
    Both (fun a b => Twin k k' a.1 b.1 ∧ a.2 = b.2) (doCommit w x o) (doCommit w' (to k k' x) (o.moved k k')) := by
  obtain ⟨txn, parent, hooks, lock⟩ := o
  cases txn with
  | none => exact ⟨h, rfl⟩
  | some t =>
    cases parent with
    | none =>
      unfold doCommit
      simp only [Obj.moved, Option.map_none]
      rw [h.env]
      cases hs : s1loop hooks w.env with
      | mk e r =>
        obtain ⟨hs', r⟩ := r
        cases r with
        | error z =>
          simp only
          exact Both.bind ((h.with_env e).abort hx (o := ⟨some t, none, hs', lock⟩) ho) (fun w1 w1' _ _ h1 => ⟨h1, rfl⟩)
        | ok u =>
          simp only
          refine Both.bind ((h.with_env _).endTxn t true) (fun w1 w1' _ _ h1 => ⟨?_, rfl⟩)
          exact (h1.unlock ⟨some t, none, hooks, lock⟩).put hx (o := some ⟨none, none, [], false⟩) (fun q hq => by cases hq; exact ho)
    | some p =>
      unfold doCommit
      simp only [Obj.moved, Option.map_some]
      have hpk : p ≠ k' := fun e => ho (by rw [e])
      refine Both.bind (h.endTxn t true) (fun w1 w1' _ _ h1 => ?_)
      by_cases e : p = x
      · rw [if_pos e, if_pos (by rw [e])]; exact rfl
      · rw [if_neg e, if_neg (fun e' => e (to_inj hpk hx e')), h1.obj p hpk]
        cases hq : w1.obj p with
        | none => exact rfl
        | some q =>
          simp only [Option.map_some]
          show Both _ _ (if (q.lock && lock) = true then _ else _)
          by_cases el : (q.lock && lock) = true
          · rw [if_pos el, if_pos el]; exact rfl
          · rw [if_neg el, if_neg el]
            refine ⟨?_, rfl⟩
            exact (h1.put hpk (o := some { q with hooks := q.hooks ++ hooks, lock := q.lock || lock }) (fun r hr => by cases hr; exact h1.ptr p q hpk hq)).put hx
              (o := some ⟨none, some p, [], false⟩) (fun r hr => by cases hr; exact ho)

theorem Twin.release (h : Twin k k' w w') (o : Obj σ) : Both (Twin k k') (release w o) (release w' (o.moved k k')) := by
  unfold Objs.release
  show Both _ (match o.txn with | none => _ | some t => _) (match o.txn with | none => _ | some t => _)
  cases o.txn with
  | none => exact h.unlock o
  | some t => exact (h.unlock o).endTxn t false

theorem Twin.step (h : Twin k k' w w') (c : Call σ) (hc : k' ∉ c.addrs) :
    Both (fun a b => Twin k k' a.1 b.1 ∧ a.2 = b.2) (step w c) (step w' (c.moved k k')) := by
  have ne : ∀ {x}, x ∈ c.addrs → x ≠ k' := fun hx e => hc (e ▸ hx)
  cases c with
  | begin x =>
    have hx : x ≠ k' := ne (List.mem_singleton.mpr rfl)
    show Both _ (w.free x >>= fun _ => _) (w'.free (to k k' x) >>= fun _ => _)
    refine Both.bind (h.free hx) (fun _ _ _ _ _ => ⟨?_, rfl⟩)
    have := (show Twin k k' { w with lmdb := fun x => if x = w.next then some none else w.lmdb x, next := w.next + 1 }
      { w' with lmdb := fun x => if x = w'.next then some none else w'.lmdb x, next := w'.next + 1 } from
        ⟨h.env, by simp only [h.next, h.lmdb], h.ended, h.mutex, by simp only [h.next], h.obj, h.ptr⟩).put hx
          (o := some ⟨some w.next, none, [], false⟩) (fun q hq => by cases hq; exact (by simp))
    simpa [Obj.moved, h.next] using this
  | nested x p =>
    have hx : x ≠ k' := ne (by simp [Call.addrs])
    have hp : p ≠ k' := ne (by simp [Call.addrs])
    show Both _ (w.at p >>= fun o => _) (w'.at (to k k' p) >>= fun o => _)
    refine Both.bind (h.at hp) (fun o o' _ _ ho => ?_)
    obtain ⟨ho, rfl⟩ := ho
    show Both _ (match o.txn with | none => _ | some t => _) (match o.txn with | none => _ | some t => _)
    cases o.txn with
    | none => exact rfl
    | some t =>
      simp only
      rw [h.child]
      by_cases e : w.hasChild t = true
      · rw [if_pos e, if_pos e]; exact rfl
      · rw [if_neg e, if_neg e]
        refine Both.bind (h.free hx) (fun _ _ _ _ _ => ⟨?_, rfl⟩)
        have := (show Twin k k' { w with lmdb := fun x => if x = w.next then some (some t) else w.lmdb x, next := w.next + 1 }
          { w' with lmdb := fun x => if x = w'.next then some (some t) else w'.lmdb x, next := w'.next + 1 } from
            ⟨h.env, by simp only [h.next, h.lmdb], h.ended, h.mutex, by simp only [h.next], h.obj, h.ptr⟩).put hx
              (o := some ⟨some w.next, some p, [], false⟩) (fun q hq => by cases hq; simpa using hp)
        simpa [Obj.moved, h.next] using this
  | add x hk =>
    have hx : x ≠ k' := ne (by simp [Call.addrs])
    show Both _ (w.at x >>= fun o => _) (w'.at (to k k' x) >>= fun o => _)
    refine Both.bind (h.at hx) (fun o o' _ _ ho => ?_)
    obtain ⟨ho, rfl⟩ := ho
    exact ⟨h.put hx (o := some { o with hooks := o.hooks ++ [hk] }) (fun q hq => by cases hq; exact h.ptr x o hx ho), rfl⟩
  | useTable x =>
    have hx : x ≠ k' := ne (by simp [Call.addrs])
    show Both _ (w.at x >>= fun o => _) (w'.at (to k k' x) >>= fun o => _)
    refine Both.bind (h.at hx) (fun o o' _ _ ho => ?_)
    obtain ⟨ho, rfl⟩ := ho
    show Both _ (if o.lock = true then _ else _) (if o.lock = true then _ else _)
    by_cases el : o.lock = true
    · rw [if_pos el, if_pos el]; exact ⟨h, rfl⟩
    · rw [if_neg el, if_neg el]
      show Both _ (holdsLock w w.next o.parent >>= fun held => _) (holdsLock w' w'.next (o.parent.map (to k k')) >>= fun held => _)
      rw [h.next, h.locked _ _ (h.ptr x o hx ho)]
      refine Both.bind (R := fun a b => a = b) (by cases holdsLock w w.next o.parent <;> exact rfl) (fun a b _ _ e => ?_)
      subst e
      cases a with
      | true => exact ⟨h, rfl⟩
      | false =>
        simp only [Bool.false_eq_true, if_false]
        by_cases em : w.mutex = true
        · rw [if_pos em, if_pos (h.mutex.trans em)]; exact ⟨h, rfl⟩
        · rw [if_neg em, if_neg (by rw [h.mutex]; exact em)]
          refine ⟨?_, rfl⟩
          exact (show Twin k k' { w with mutex := true } { w' with mutex := true, next := w.next } from ⟨h.env, h.lmdb, h.ended, rfl, rfl, h.obj, h.ptr⟩).put hx
            (o := some { o with lock := true }) (fun q hq => by cases hq; exact h.ptr x o hx ho)
  | commit x =>
    have hx : x ≠ k' := ne (by simp [Call.addrs])
    show Both _ (w.at x >>= fun o => _) (w'.at (to k k' x) >>= fun o => _)
    refine Both.bind (h.at hx) (fun o o' _ _ ho => ?_)
    obtain ⟨ho, rfl⟩ := ho
    exact h.commit hx (h.ptr x o hx ho)
  | abort x =>
    have hx : x ≠ k' := ne (by simp [Call.addrs])
    show Both _ (w.at x >>= fun o => _) (w'.at (to k k' x) >>= fun o => _)
    refine Both.bind (h.at hx) (fun o o' _ _ ho => ?_)
    obtain ⟨ho, rfl⟩ := ho
    exact Both.bind (h.abort hx (h.ptr x o hx ho)) (fun _ _ _ _ h1 => ⟨h1, rfl⟩)
  | move y x =>
    have hy : y ≠ k' := ne (by simp [Call.addrs])
    have hx : x ≠ k' := ne (by simp [Call.addrs])
    show Both _ (w.at x >>= fun o => _) (w'.at (to k k' x) >>= fun o => _)
    refine Both.bind (h.at hx) (fun o o' _ _ ho => ?_)
    obtain ⟨ho, rfl⟩ := ho
    have hp := h.ptr x o hx ho
    refine Both.bind (h.free hy) (fun _ _ _ _ _ => ⟨?_, rfl⟩)
    exact (h.put hy (o := some o) (fun q hq => by cases hq; exact hp)).put hx (o := some { o with txn := none, hooks := [], lock := false })
      (fun q hq => by cases hq; exact hp)
  | assign y x =>
    have hy : y ≠ k' := ne (by simp [Call.addrs])
    have hx : x ≠ k' := ne (by simp [Call.addrs])
    show Both _ (w.at x >>= fun o => _) (w'.at (to k k' x) >>= fun o => _)
    refine Both.bind (h.at hx) (fun o o' _ _ ho => ?_)
    obtain ⟨ho, rfl⟩ := ho
    have hp := h.ptr x o hx ho
    refine Both.bind (h.at hy) (fun o2 o2' _ _ ho2 => ?_)
    obtain ⟨ho2, rfl⟩ := ho2
    by_cases e : y = x
    · rw [if_pos e, if_pos (by rw [e])]; exact rfl
    · rw [if_neg e, if_neg (fun e' => e (to_inj hy hx e'))]
      refine Both.bind (h.release o2) (fun w1 w1' _ _ h1 => ⟨?_, rfl⟩)
      exact (h1.put hy (o := some o) (fun q hq => by cases hq; exact hp)).put hx (o := some { o with txn := none, hooks := [], lock := false })
        (fun q hq => by cases hq; exact hp)
  | destroy x =>
    have hx : x ≠ k' := ne (by simp [Call.addrs])
    show Both _ (w.at x >>= fun o => _) (w'.at (to k k' x) >>= fun o => _)
    refine Both.bind (h.at hx) (fun o o' _ _ ho => ?_)
    obtain ⟨ho, rfl⟩ := ho
    refine Both.bind (h.release o) (fun w1 w1' _ _ h1 => ⟨?_, rfl⟩)
    exact h1.put hx (o := none) (fun q hq => by cases hq)

theorem Twin.run {w w' : World σ} (h : Twin k k' w w') (ds : List (Call σ)) (hd : ∀ d ∈ ds, k' ∉ d.addrs) :
    (run w' (ds.map (Call.moved k k'))).map seenOf = (run w ds).map seenOf := by
  induction ds generalizing w w' with
  | nil => simp only [List.map_nil, Objs.run, Except.map, seenOf]; rw [h.env, h.ended, h.mutex]
  | cons c ds ih =>
    have h1 := h.step c (hd c (by simp))
    simp only [List.map_cons, Objs.run]
    cases ha : Objs.step w c with
    | error e =>
      cases hb : Objs.step w' (c.moved k k') with
      | error e' => rw [ha, hb] at h1; have : e = e' := h1; rw [this]; rfl
      | ok y => rw [ha, hb] at h1; exact h1.elim
    | ok x =>
      cases hb : Objs.step w' (c.moved k k') with
      | error e' => rw [ha, hb] at h1; exact h1.elim
      | ok y =>
        rw [ha, hb] at h1
        obtain ⟨w1, r⟩ := x
        obtain ⟨w1', r'⟩ := y
        obtain ⟨h2, h3⟩ := h1
        simp only at h2 h3
        subst h3
        have := ih h2 (fun d hm => hd d (by simp [hm]))
        simp only [bind_ok]
        cases hr : Objs.run w1 ds with
        | error e =>
          cases hr' : Objs.run w1' (ds.map (Call.moved k k')) with
          | error e' => rw [hr, hr'] at this; simpa [Except.map] using this
          | ok y => rw [hr, hr'] at this; cases this
        | ok p =>
          cases hr' : Objs.run w1' (ds.map (Call.moved k k')) with
          | error e' => rw [hr, hr'] at this; cases this
          | ok p' =>
            rw [hr, hr'] at this
            obtain ⟨w2, rs⟩ := p
            obtain ⟨w2', rs'⟩ := p'
            simp only [Except.map, seenOf, Except.ok.injEq, Prod.mk.injEq] at this
            obtain ⟨e1, e2, e3, e4⟩ := this
            simp only [bind_ok, pure_eq_ok, Except.map, seenOf, e1, e2, e3, e4]

/-! ### C82, moves -/

/-- Nothing points to the object at `k`: it has no nested transactions (not even finished ones which
are still around). -/
def Unpointed (w : World σ) (k : Nat) : Prop := ∀ x o, w.obj x = some o → o.parent ≠ some k

theorem twin_of {o : Obj σ} {w1 : World σ} (hk : k ≠ k') (ho : w.obj k = some o) (h1 : Unpointed w k) (h2 : Unpointed w k')
    (e1 : w1.env = w.env) (e2 : w1.lmdb = w.lmdb) (e3 : w1.ended = w.ended) (e4 : w1.mutex = w.mutex) (e5 : w1.next = w.next)
    (e6 : w1.obj k' = some o) (e7 : ∀ x, x ≠ k → x ≠ k' → w1.obj x = w.obj x) : Twin k k' w w1 := by
  have same : ∀ q : Obj σ, q.parent ≠ some k → q.moved k k' = q := by
    intro q hq
    obtain ⟨a, p, b, c⟩ := q
    cases p with
    | none => rfl
    | some p =>
      show (⟨a, some (to k k' p), b, c⟩ : Obj σ) = _
      rw [show to k k' p = p from if_neg (fun e => hq (by rw [e]))]
  refine ⟨e1, e2, e3, e4, e5, fun x hx => ?_, fun x q _ hq => h2 x q hq⟩
  by_cases e : x = k
  · rw [show to k k' x = k' from if_pos e, e6, e, ho, Option.map_some, same o (h1 k o ho)]
  · rw [show to k k' x = x from if_neg e, e7 x e hx]
    cases hw : w.obj x with
    | none => rfl
    | some q => rw [Option.map_some, same q (h1 x q hw)]

/-- C82, in full: moving a transaction object changes nothing: all later calls, on the new object instead
of the old one, have the same results and effects as without the move. -/
def C82_full : Prop :=
  ∀ (s : Nat) (cs : List (Call Nat)) (w : World Nat) (outs : List (Res Unit)) (k k' : Nat) (o : Obj Nat) (ds : List (Call Nat)),
    run (World.start s) cs = .ok (w, outs) → w.obj k = some o → w.obj k' = none → (∀ d ∈ ds, k' ∉ d.addrs) →
    (run w (.move k' k :: ds.map (Call.moved k k'))).map seenOf = (run w ds).map (fun p => seenOf (p.1, .ok () :: p.2))

/-- C82, what holds, in every state: it is so if the object has no nested transaction objects. -/
theorem C82_move_partial (w : World σ) {k k' : Nat} {o : Obj σ} (ho : w.obj k = some o) (hf : w.obj k' = none)
    (h1 : Unpointed w k) (h2 : Unpointed w k') (ds : List (Call σ)) (hd : ∀ d ∈ ds, k' ∉ d.addrs) :
    (run w (.move k' k :: ds.map (Call.moved k k'))).map seenOf = (run w ds).map (fun p => seenOf (p.1, .ok () :: p.2)) := by
  have hk : k ≠ k' := fun e => by rw [e, hf] at ho; cases ho
  have hs : step w (.move k' k) = .ok ((w.put k' (some o)).put k (some { o with txn := none, hooks := [], lock := false }), .ok ()) := by
    simp only [step, World.at, World.free, ho, hf, bind_ok, pure_eq_ok]
  have ht : Twin k k' w ((w.put k' (some o)).put k (some { o with txn := none, hooks := [], lock := false })) := by
    refine twin_of hk ho h1 h2 rfl rfl rfl rfl rfl ?_ ?_
    · show (if k' = k then _ else if k' = k' then _ else _) = _
      rw [if_neg (Ne.symm hk), if_pos rfl]
    · intro x e1 e2
      show (if x = k then _ else if x = k' then _ else _) = _
      rw [if_neg e1, if_neg e2]
  have hr := ht.run ds hd
  simp only [run, hs, bind_ok]
  cases hb : run w ds with
  | error e =>
    cases ha : run ((w.put k' (some o)).put k (some { o with txn := none, hooks := [], lock := false })) (ds.map (Call.moved k k')) with
    | error e' => rw [ha, hb] at hr; simpa [Except.map] using hr
    | ok p => rw [ha, hb] at hr; cases hr
  | ok q =>
    cases ha : run ((w.put k' (some o)).put k (some { o with txn := none, hooks := [], lock := false })) (ds.map (Call.moved k k')) with
    | error e' => rw [ha, hb] at hr; cases hr
    | ok p =>
      rw [ha, hb] at hr
      obtain ⟨p1, p2⟩ := p
      obtain ⟨q1, q2⟩ := q
      simp only [Except.map, seenOf, Except.ok.injEq, Prod.mk.injEq] at hr
      obtain ⟨e1, e2, e3, e4⟩ := hr
      simp only [bind_ok, pure_eq_ok, Except.map, seenOf, e1, e2, e3, e4]

/-- C82: the same for move assignment to an object whose transaction has ended, or was moved away. -/
theorem C82_assign_partial (w : World σ) {k k' : Nat} {o o' : Obj σ} (ho : w.obj k = some o) (hf : w.obj k' = some o') (hk : k ≠ k')
    (hd' : o'.txn = none) (hl : o'.lock = false)
    (h1 : Unpointed w k) (h2 : Unpointed w k') (ds : List (Call σ)) (hd : ∀ d ∈ ds, k' ∉ d.addrs) :
    (run w (.assign k' k :: ds.map (Call.moved k k'))).map seenOf = (run w ds).map (fun p => seenOf (p.1, .ok () :: p.2)) := by
  have hs : step w (.assign k' k) = .ok (((w.unlock o').put k' (some o)).put k (some { o with txn := none, hooks := [], lock := false }), .ok ()) := by
    simp only [step, World.at, ho, hf, bind_ok, pure_eq_ok, if_neg (Ne.symm hk), release, hd']
  have ht : Twin k k' w (((w.unlock o').put k' (some o)).put k (some { o with txn := none, hooks := [], lock := false })) := by
    refine twin_of hk ho h1 h2 rfl rfl rfl ?_ rfl ?_ ?_
    · show (w.mutex && !o'.lock) = w.mutex
      rw [hl]; simp
    · show (if k' = k then _ else if k' = k' then _ else _) = _
      rw [if_neg (Ne.symm hk), if_pos rfl]
    · intro x e1 e2
      show (if x = k then _ else if x = k' then _ else _) = _
      rw [if_neg e1, if_neg e2]; rfl
  have hr := ht.run ds hd
  simp only [run, hs, bind_ok]
  generalize ((w.unlock o').put k' (some o)).put k (some { o with txn := none, hooks := [], lock := false }) = w1 at hr ⊢
  cases hb : run w ds with
  | error e =>
    cases ha : run w1 (ds.map (Call.moved k k')) with
    | error e' => rw [ha, hb] at hr; simpa [Except.map] using hr
    | ok p => rw [ha, hb] at hr; cases hr
  | ok q =>
    cases ha : run w1 (ds.map (Call.moved k k')) with
    | error e' => rw [ha, hb] at hr; cases hr
    | ok p =>
      rw [ha, hb] at hr
      obtain ⟨p1, p2⟩ := p
      obtain ⟨q1, q2⟩ := q
      simp only [Except.map, seenOf, Except.ok.injEq, Prod.mk.injEq] at hr
      obtain ⟨e1, e2, e3, e4⟩ := hr
      simp only [bind_ok, pure_eq_ok, Except.map, seenOf, e1, e2, e3, e4]

/-- What is left behind by a move, or by a commit, can be committed (again); nothing happens. -/
theorem C82_left_behind (w : World σ) {k : Nat} {o : Obj σ} (ho : w.obj k = some o) (ht : o.txn = none) : step w (.commit k) = .ok (w, .ok ()) := by
  simp only [step, World.at, ho, bind_ok, doCommit, ht]

/-- It can be destroyed: nothing happens to anything else. -/
theorem C82_left_behind_destroyed (w : World σ) {k : Nat} {o : Obj σ} (ho : w.obj k = some o) (ht : o.txn = none) (hl : o.lock = false) :
    step w (.destroy k) = .ok (w.put k none, .ok ()) := by
  simp only [step, World.at, ho, bind_ok, release, ht, pure_eq_ok]
  have : w.unlock o = w := by unfold World.unlock; rw [hl, Bool.not_false, Bool.and_true]
  rw [this]

def rbHook (n : Nat) : Hook Nat := { id := n, rollback := some (· + n), s2commit := some (· + 100 * n) }

/-- State, log, ended transactions, mutex and results after a run. -/
def ranOK (s : Nat) (cs : List (Call Nat)) : Option (Nat × List (Nat × Stage) × List (Nat × Bool) × Bool × List (Res Unit)) :=
  match run (World.start s) cs with
  | .ok (w, outs) => some (w.env.st, w.env.log, w.ended, w.mutex, outs)
  | .error _ => none

/-- It is false in general: if a transaction is moved while it has a nested one, the hooks of the latter
are lost: neither the commit nor anything else ever calls them. -/
theorem C82_counterexample : ¬ C82_full := by
  intro h
  have := h 0 [.begin 0, .nested 1 0] _ _ 0 2 _ [.add 1 (rbHook 1), .commit 1, .commit 0] rfl rfl rfl (by decide)
  have := congrArg (fun x => x.map (fun p => p.1.log)) this
  revert this
  decide +kernel

/-- Also, the nested transaction then does not find the mutex which the outer one has, and fails with EDEADLK. -/
theorem C82_mutex_counterexample :
    (ranOK 0 [.begin 0, .useTable 0, .nested 1 0, .useTable 1]).map (·.2.2.2.2) = some [.ok (), .ok (), .ok (), .ok ()] ∧
    (ranOK 0 [.begin 0, .useTable 0, .nested 1 0, .move 2 0, .useTable 1]).map (·.2.2.2.2) = some [.ok (), .ok (), .ok (), .ok (), .error EDEADLK] := by
  decide +kernel

/-- Assigning to an object with an open transaction (and destroying it) aborts the transaction without
calling any hook: what they should take back stays. `abort` calls them. -/
theorem C82_overwritten_counterexample :
    (ranOK 0 [.begin 0, .add 0 (rbHook 1), .begin 1, .assign 0 1]).map (fun r => (r.1, r.2.1, r.2.2.1)) = some (0, [], [(0, false)]) ∧
    (ranOK 0 [.begin 0, .add 0 (rbHook 1), .destroy 0]).map (fun r => (r.1, r.2.1, r.2.2.1)) = some (0, [], [(0, false)]) ∧
    (ranOK 0 [.begin 0, .add 0 (rbHook 1), .abort 0]).map (fun r => (r.1, r.2.1, r.2.2.1)) = some (1, [(1, .rollback)], [(0, false)]) :=
  ⟨rfl, rfl, rfl⟩

/-- An object which was moved from must not be aborted: a null pointer is dereferenced; also not after a commit. -/
theorem C82_null_counterexample :
    (∃ w outs, run (World.start 0) [.begin 0, .move 1 0] = .ok (w, outs) ∧ step w (.abort 0) = .error (.ub 757)) ∧
    (∃ w outs, run (World.start 0) [.begin 0, .commit 0] = .ok (w, outs) ∧ step w (.abort 0) = .error (.ub 757)) :=
  ⟨⟨_, _, rfl, rfl⟩, ⟨_, _, rfl, rfl⟩⟩

def demoMoves : List (Call Nat) :=
  [.begin 0, .add 0 (rbHook 1), .move 1 0, .useTable 1, .add 1 (rbHook 2), .move 2 1, .commit 1, .commit 2, .destroy 0, .destroy 1, .destroy 2]
example : (ranOK 0 demoMoves).map (fun r => (r.1, r.2.1, r.2.2.1)) = some (300, [(1, .s2commit), (2, .s2commit)], [(0, true)]) := rfl
example : (ranOK 0 demoMoves).map (fun r => (r.2.2.2)) = some (false, List.replicate 11 (.ok ())) := by decide +kernel

/-- The hypotheses of the partial theorems: after the first five calls an object with a transaction, hooks and the mutex, and one from which was moved.
(Theorems `C82_move_partial`, `C82_assign_partial`, `C82_left_behind` and `C82_left_behind_destroyed`.) -/
example : ∃ w outs o o', run (World.start 0) (demoMoves.take 5) = .ok (w, outs) ∧ w.obj 1 = some o ∧ o.hooks.length = 2 ∧ o.lock = true ∧
    w.obj 2 = none ∧ w.obj 0 = some o' ∧ o'.txn = none ∧ o'.lock = false ∧ Unpointed w 1 ∧ Unpointed w 2 ∧ Unpointed w 0 := by
  have hu : ∀ w : World Nat, (∀ x, x ≠ 0 → x ≠ 1 → w.obj x = none) → (∀ x o, x < 2 → w.obj x = some o → o.parent = none) → ∀ k, Unpointed w k := by
    intro w h1 h2 k x o hx
    by_cases e0 : x = 0
    · rw [h2 x o (by omega) hx]; exact fun h => by cases h
    · by_cases e1 : x = 1
      · rw [h2 x o (by omega) hx]; exact fun h => by cases h
      · rw [h1 x e0 e1] at hx; cases hx
  have hx : ∀ w outs, run (World.start 0) (demoMoves.take 5) = .ok (w, outs) → (∀ x, x ≠ 0 → x ≠ 1 → w.obj x = none) ∧ (∀ x o, x < 2 → w.obj x = some o → o.parent = none) := by
    intro w outs h
    cases h
    refine ⟨fun x h0 h1 => by simp [World.put, World.start, h0, h1], fun x o hx ho => ?_⟩
    have : x = 0 ∨ x = 1 := by omega
    rcases this with e | e
    · subst e; cases ho; rfl
    · subst e; cases ho; rfl
  refine ⟨_, _, _, _, rfl, rfl, rfl, rfl, rfl, rfl, rfl, rfl, ?_⟩
  exact ⟨hu _ (hx _ _ rfl).1 (hx _ _ rfl).2 1, hu _ (hx _ _ rfl).1 (hx _ _ rfl).2 2, hu _ (hx _ _ rfl).1 (hx _ _ rfl).2 0⟩

/-! ### C82, nothing is lost -/

/-- The object at `k` holds LMDB transaction `t`; it has the mutex. -/
def World.Holds (w : World σ) (k t : Nat) : Prop := ∃ o, w.obj k = some o ∧ o.txn = some t
def World.HasMutex (w : World σ) (k : Nat) : Prop := ∃ o, w.obj k = some o ∧ o.lock = true
/-- How often LMDB transaction `t` was ended. -/
def World.ends (w : World σ) (t : Nat) : Nat := (w.ended.map Prod.fst).count t

/-- Each LMDB transaction which was begun is held by exactly one object and has not ended, or has ended,
exactly once, and is held by none. The mutex is locked just if an object has it, and only one has. -/
structure Accounted (w : World σ) : Prop where
  fresh : ∀ t, w.next ≤ t → w.ends t = 0 ∧ ∀ k, ¬ w.Holds k t
  begun : ∀ t, t < w.next → (w.ends t = 0 ∧ ∃ k, w.Holds k t) ∨ (w.ends t = 1 ∧ ∀ k, ¬ w.Holds k t)
  once : ∀ k k' t, w.Holds k t → w.Holds k' t → k = k'
  mutex : w.mutex = true ↔ ∃ k, w.HasMutex k
  owner : ∀ k k', w.HasMutex k → w.HasMutex k' → k = k'

theorem holds_put {w : World σ} {k x t : Nat} {o : Option (Obj σ)} :
    (w.put k o).Holds x t ↔ if x = k then ∃ q, o = some q ∧ q.txn = some t else w.Holds x t := by
  unfold World.Holds World.put
  by_cases e : x = k <;> simp [e]

theorem mutex_put {w : World σ} {k x : Nat} {o : Option (Obj σ)} :
    (w.put k o).HasMutex x ↔ if x = k then ∃ q, o = some q ∧ q.lock = true else w.HasMutex x := by
  unfold World.HasMutex World.put
  by_cases e : x = k <;> simp [e]

/-- Only what is held, who has the mutex, and the counts matter. -/
theorem Accounted.of {w w' : World σ} (h : Accounted w) (e1 : w'.next = w.next) (e2 : w'.ended = w.ended) (e3 : w'.mutex = w.mutex)
    (e4 : ∀ k t, w'.Holds k t ↔ w.Holds k t) (e5 : ∀ k, w'.HasMutex k ↔ w.HasMutex k) : Accounted w' := by
  have ee : ∀ t, w'.ends t = w.ends t := fun t => by unfold World.ends; rw [e2]
  refine ⟨?_, ?_, ?_, ?_, ?_⟩
  · intro t ht; rw [e1] at ht; rw [ee]; simp only [e4]; exact h.fresh t ht
  · intro t ht; rw [e1] at ht; rw [ee]; simp only [e4]; exact h.begun t ht
  · intro k k' t; rw [e4, e4]; exact h.once k k' t
  · rw [e3]; simp only [e5]; exact h.mutex
  · intro k k'; rw [e5, e5]; exact h.owner k k'

theorem holds_iff {w : World σ} {k t : Nat} {o : Obj σ} (ho : w.obj k = some o) : w.Holds k t ↔ o.txn = some t :=
  ⟨fun ⟨q, h1, h2⟩ => by rw [ho] at h1; cases h1; exact h2, fun h => ⟨o, ho, h⟩⟩
theorem mutex_iff {w : World σ} {k : Nat} {o : Obj σ} (ho : w.obj k = some o) : w.HasMutex k ↔ o.lock = true :=
  ⟨fun ⟨q, h1, h2⟩ => by rw [ho] at h1; cases h1; exact h2, fun h => ⟨o, ho, h⟩⟩

/-- Another object with the same transaction and mutex. -/
theorem Accounted.same {w : World σ} (h : Accounted w) {k : Nat} {o o' : Obj σ} (ho : w.obj k = some o) (h1 : o'.txn = o.txn) (h2 : o'.lock = o.lock) :
    Accounted (w.put k (some o')) := by
  refine h.of rfl rfl rfl (fun x t => ?_) (fun x => ?_)
  · rw [holds_put]
    by_cases e : x = k
    · subst e; rw [if_pos rfl, holds_iff ho]; simp [h1]
    · rw [if_neg e]
  · rw [mutex_put]
    by_cases e : x = k
    · subst e; rw [if_pos rfl, mutex_iff ho]; simp [h2]
    · rw [if_neg e]

/-- An object with nothing in it comes and goes. -/
theorem Accounted.empty {w : World σ} (h : Accounted w) {k : Nat} (h1 : ∀ t, ¬ w.Holds k t) (h2 : ¬ w.HasMutex k) {o : Option (Obj σ)}
    (h3 : ∀ q, o = some q → q.txn = none ∧ q.lock = false) : Accounted (w.put k o) := by
  refine h.of rfl rfl rfl (fun x t => ?_) (fun x => ?_)
  · rw [holds_put]
    by_cases e : x = k
    · subst e; rw [if_pos rfl]
      exact ⟨fun ⟨q, e1, e2⟩ => (by rw [(h3 q e1).1] at e2; cases e2), fun hx => absurd hx (h1 t)⟩
    · rw [if_neg e]
  · rw [mutex_put]
    by_cases e : x = k
    · subst e; rw [if_pos rfl]
      exact ⟨fun ⟨q, e1, e2⟩ => (by rw [(h3 q e1).2] at e2; cases e2), fun hx => absurd hx h2⟩
    · rw [if_neg e]

/-- What one object holds goes to another, which holds nothing. -/
theorem Accounted.transfer {w : World σ} (h : Accounted w) {k k' : Nat} (hk : k ≠ k') {o o2 : Obj σ} (ho : w.obj k = some o) (h1 : ∀ t, ¬ w.Holds k' t) (h2 : ¬ w.HasMutex k')
    (h3 : o2.txn = none) (h4 : o2.lock = false) : Accounted ((w.put k' (some o)).put k (some o2)) := by
  have a : ∀ x t, ((w.put k' (some o)).put k (some o2)).Holds x t ↔ x ≠ k ∧ if x = k' then w.Holds k t else w.Holds x t := by
    intro x t
    rw [holds_put, holds_put, holds_iff ho]
    by_cases e : x = k
    · simp [e, h3]
    · simp [e]
  have b : ∀ x, ((w.put k' (some o)).put k (some o2)).HasMutex x ↔ x ≠ k ∧ if x = k' then w.HasMutex k else w.HasMutex x := by
    intro x
    rw [mutex_put, mutex_put, mutex_iff ho]
    by_cases e : x = k
    · simp [e, h4]
    · simp [e]
  have ex : ∀ {P : Nat → Prop}, ¬ P k' → ((∃ x, x ≠ k ∧ if x = k' then P k else P x) ↔ ∃ x, P x) := by
    intro P hP
    constructor
    · rintro ⟨x, -, hx⟩
      by_cases e : x = k'
      · rw [if_pos e] at hx; exact ⟨_, hx⟩
      · rw [if_neg e] at hx; exact ⟨_, hx⟩
    · rintro ⟨x, hx⟩
      by_cases e : x = k
      · exact ⟨k', Ne.symm hk, by rw [if_pos rfl, ← e]; exact hx⟩
      · exact ⟨x, e, by rw [if_neg (fun e' : x = k' => hP (e' ▸ hx))]; exact hx⟩
  have un : ∀ {P : Nat → Prop}, ¬ P k' → (∀ x y, P x → P y → x = y) →
      ∀ x y, (x ≠ k ∧ if x = k' then P k else P x) → (y ≠ k ∧ if y = k' then P k else P y) → x = y := by
    intro P hP hu x y hx hy
    obtain ⟨hx1, hx⟩ := hx
    obtain ⟨hy1, hy⟩ := hy
    by_cases e1 : x = k' <;> by_cases e2 : y = k'
    · rw [e1, e2]
    · rw [if_pos e1] at hx; rw [if_neg e2] at hy; exact absurd (hu _ _ hy hx) hy1
    · rw [if_neg e1] at hx; rw [if_pos e2] at hy; exact absurd (hu _ _ hx hy) hx1
    · rw [if_neg e1] at hx; rw [if_neg e2] at hy; exact hu _ _ hx hy
  refine ⟨?_, ?_, ?_, ?_, ?_⟩
  · intro t ht
    refine ⟨(h.fresh t ht).1, fun x hx => ?_⟩
    obtain ⟨y, hy⟩ := (ex (P := fun x => w.Holds x t) (h1 t)).mp ⟨x, (a x t).mp hx⟩
    exact (h.fresh t ht).2 y hy
  · intro t ht
    rcases h.begun t ht with ⟨e1, x, hx⟩ | ⟨e1, hx⟩
    · obtain ⟨y, hy⟩ := (ex (P := fun x => w.Holds x t) (h1 t)).mpr ⟨x, hx⟩
      exact .inl ⟨e1, y, (a y t).mpr hy⟩
    · refine .inr ⟨e1, fun x h' => ?_⟩
      obtain ⟨y, hy⟩ := (ex (P := fun x => w.Holds x t) (h1 t)).mp ⟨x, (a x t).mp h'⟩
      exact hx y hy
  · intro x y t hx hy
    exact un (P := fun x => w.Holds x t) (h1 t) (fun x y => h.once x y t) x y ((a x t).mp hx) ((a y t).mp hy)
  · show w.mutex = true ↔ _
    rw [h.mutex, ← ex (P := w.HasMutex) h2]
    exact ⟨fun ⟨x, hx⟩ => ⟨x, (b x).mpr hx⟩, fun ⟨x, hx⟩ => ⟨x, (b x).mp hx⟩⟩
  · intro x y hx hy
    exact un (P := w.HasMutex) h2 h.owner x y ((b x).mp hx) ((b y).mp hy)

/-- The object gives back the mutex. -/
theorem Accounted.unlocked {w : World σ} (h : Accounted w) {k : Nat} {o o2 : Obj σ} (ho : w.obj k = some o) (h3 : o2.txn = o.txn) (h4 : o2.lock = false) :
    Accounted ((w.unlock o).put k (some o2)) := by
  have b : ∀ x, ((w.unlock o).put k (some o2)).HasMutex x ↔ x ≠ k ∧ w.HasMutex x := by
    intro x
    rw [mutex_put]
    by_cases e : x = k
    · simp [e, h4]
    · simp only [e, if_false, ne_eq, not_false_eq_true, true_and]; exact Iff.rfl
  have a : ∀ x t, ((w.unlock o).put k (some o2)).Holds x t ↔ w.Holds x t := by
    intro x t
    rw [holds_put]
    by_cases e : x = k
    · subst e; rw [if_pos rfl, holds_iff ho]; simp [h3]
    · rw [if_neg e]; exact Iff.rfl
  refine ⟨?_, ?_, ?_, ?_, ?_⟩
  · intro t ht; simp only [a]; exact h.fresh t ht
  · intro t ht; simp only [a]; exact h.begun t ht
  · intro x y t hx hy; exact h.once x y t ((a x t).mp hx) ((a y t).mp hy)
  · show (w.mutex && !o.lock) = true ↔ _
    constructor
    · intro e
      rw [Bool.and_eq_true] at e
      obtain ⟨x, hx⟩ := h.mutex.mp e.1
      refine ⟨x, (b x).mpr ⟨fun e' => ?_, hx⟩⟩
      subst e'
      rw [(mutex_iff ho).mp hx] at e
      exact absurd e.2 (by decide)
    · rintro ⟨x, hx⟩
      obtain ⟨hxk, hx⟩ := (b x).mp hx
      rw [h.mutex.mpr ⟨x, hx⟩]
      cases hl : o.lock with
      | false => rfl
      | true => exact absurd (h.owner x k hx ((mutex_iff ho).mpr hl)) hxk
  · intro x y hx hy; exact h.owner x y ((b x).mp hx).2 ((b y).mp hy).2

/-- The object's transaction ends. -/
theorem Accounted.ended {w w1 : World σ} (h : Accounted w) {k t : Nat} {c : Bool} {o o2 : Obj σ} (ho : w.obj k = some o) (ht : o.txn = some t)
    (he : w.endTxn t c = .ok w1) (h3 : o2.txn = none) (h4 : o2.lock = o.lock) : Accounted (w1.put k (some o2)) := by
  unfold World.endTxn at he
  by_cases e : w.hasChild t = true
  · rw [if_pos e] at he; cases he
  · rw [if_neg e] at he
    injection he with he
    subst he
    have hold : w.Holds k t := ⟨o, ho, ht⟩
    have a : ∀ x u, (({ w with lmdb := fun x => if x = t then none else w.lmdb x, ended := w.ended ++ [(t, c)] } : World σ).put k (some o2)).Holds x u ↔ w.Holds x u ∧ u ≠ t := by
      intro x u
      rw [holds_put]
      by_cases e : x = k
      · subst e; rw [if_pos rfl, holds_iff ho, ht]
        constructor
        · rintro ⟨q, e1, e2⟩; cases e1; rw [h3] at e2; cases e2
        · rintro ⟨e1, e2⟩; exact absurd (Option.some.inj e1).symm e2
      · rw [if_neg e]
        exact ⟨fun hx => ⟨hx, fun e' => e (h.once x k t (e' ▸ hx) hold)⟩, fun hx => hx.1⟩
    have b : ∀ x, (({ w with lmdb := fun x => if x = t then none else w.lmdb x, ended := w.ended ++ [(t, c)] } : World σ).put k (some o2)).HasMutex x ↔ w.HasMutex x := by
      intro x
      rw [mutex_put]
      by_cases e : x = k
      · subst e; rw [if_pos rfl, mutex_iff ho]; simp [h4]
      · rw [if_neg e]; exact Iff.rfl
    have n : ∀ u, (({ w with lmdb := fun x => if x = t then none else w.lmdb x, ended := w.ended ++ [(t, c)] } : World σ).put k (some o2)).ends u = w.ends u + if u = t then 1 else 0 := by
      intro u
      show ((w.ended ++ [(t, c)]).map Prod.fst).count u = _
      rw [List.map_append, List.count_append]
      show _ + [t].count u = _
      rw [List.count_singleton]
      by_cases e : u = t
      · subst e; simp [World.ends]
      · rw [if_neg e]; simp [World.ends, Ne.symm e]
    refine ⟨?_, ?_, ?_, ?_, ?_⟩
    · intro u hu
      have hu : w.next ≤ u := hu
      have hne : u ≠ t := fun e => (h.fresh u hu).2 k (e ▸ hold)
      refine ⟨by rw [n, if_neg hne]; exact (h.fresh u hu).1, fun x hx => (h.fresh u hu).2 x ((a x u).mp hx).1⟩
    · intro u hu
      have hu : u < w.next := hu
      rw [n]
      by_cases e : u = t
      · subst e
        rcases h.begun u hu with ⟨e1, -⟩ | ⟨-, e1⟩
        · exact .inr ⟨by rw [e1, if_pos rfl], fun x hx => ((a x u).mp hx).2 rfl⟩
        · exact absurd hold (e1 k)
      · rw [if_neg e]
        rcases h.begun u hu with ⟨e1, x, hx⟩ | ⟨e1, hx⟩
        · exact .inl ⟨e1, x, (a x u).mpr ⟨hx, e⟩⟩
        · exact .inr ⟨e1, fun x h' => hx x ((a x u).mp h').1⟩
    · intro x y u hx hy; exact h.once x y u ((a x u).mp hx).1 ((a y u).mp hy).1
    · show w.mutex = true ↔ _
      rw [h.mutex]; simp only [b]
    · intro x y hx hy; exact h.owner x y ((b x).mp hx) ((b y).mp hy)

theorem bind_inv {α β : Type} {x : M α} {f : α → M β} {b : β} (h : (x >>= f) = .ok b) : ∃ a, x = .ok a ∧ f a = .ok b := by
  cases x with
  | error e => cases h
  | ok a => exact ⟨a, rfl, h⟩

/-- A new transaction. -/
theorem Accounted.born {w : World σ} (h : Accounted w) {k : Nat} (hk : w.obj k = none) {P : Option Nat} {L : Nat → Option (Option Nat)} {hs : List (Hook σ)} :
    Accounted (({ w with lmdb := L, next := w.next + 1 } : World σ).put k (some ⟨some w.next, P, hs, false⟩)) := by
  have a : ∀ x u, (({ w with lmdb := L, next := w.next + 1 } : World σ).put k (some ⟨some w.next, P, hs, false⟩)).Holds x u ↔
      w.Holds x u ∨ (x = k ∧ u = w.next) := by
    intro x u
    rw [holds_put]
    by_cases e : x = k
    · subst e; rw [if_pos rfl]
      constructor
      · rintro ⟨q, e1, e2⟩; cases e1; exact .inr ⟨rfl, (Option.some.inj e2).symm⟩
      · rintro (⟨q, e1, -⟩ | ⟨-, e1⟩)
        · rw [hk] at e1; cases e1
        · exact ⟨_, rfl, by rw [e1]⟩
    · rw [if_neg e]; exact ⟨fun hx => .inl hx, fun hx => hx.elim id (fun h' => absurd h'.1 e)⟩
  have b : ∀ x, (({ w with lmdb := L, next := w.next + 1 } : World σ).put k (some ⟨some w.next, P, hs, false⟩)).HasMutex x ↔ w.HasMutex x := by
    intro x
    rw [mutex_put]
    by_cases e : x = k
    · subst e; rw [if_pos rfl]
      constructor
      · rintro ⟨q, e1, e2⟩; cases e1; cases e2
      · rintro ⟨q, e1, -⟩; rw [hk] at e1; cases e1
    · rw [if_neg e]; exact Iff.rfl
  refine ⟨?_, ?_, ?_, ?_, ?_⟩
  · intro u hu
    have hu : w.next + 1 ≤ u := hu
    refine ⟨(h.fresh u (by omega)).1, fun x hx => ?_⟩
    rcases (a x u).mp hx with h' | ⟨-, h'⟩
    · exact (h.fresh u (by omega)).2 x h'
    · omega
  · intro u hu
    have hu : u < w.next + 1 := hu
    by_cases e : u = w.next
    · exact .inl ⟨(h.fresh u (by omega)).1, k, (a k u).mpr (.inr ⟨rfl, e⟩)⟩
    · rcases h.begun u (by omega) with ⟨e1, x, hx⟩ | ⟨e1, hx⟩
      · exact .inl ⟨e1, x, (a x u).mpr (.inl hx)⟩
      · exact .inr ⟨e1, fun x h' => ((a x u).mp h').elim (hx x) (fun h'' => e h''.2)⟩
  · intro x y u hx hy
    rcases (a x u).mp hx with h1 | ⟨h1, h1'⟩ <;> rcases (a y u).mp hy with h2 | ⟨h2, h2'⟩
    · exact h.once x y u h1 h2
    · exact absurd h1 ((h.fresh u (by omega)).2 x)
    · exact absurd h2 ((h.fresh u (by omega)).2 y)
    · rw [h1, h2]
  · show w.mutex = true ↔ _
    rw [h.mutex]; simp only [b]
  · intro x y hx hy; exact h.owner x y ((b x).mp hx) ((b y).mp hy)

/-- The mutex is taken. -/
theorem Accounted.locked {w : World σ} (h : Accounted w) {k : Nat} {o : Obj σ} (ho : w.obj k = some o) (hm : ¬ w.mutex = true) :
    Accounted (({ w with mutex := true } : World σ).put k (some { o with lock := true })) := by
  have nb : ∀ x, ¬ w.HasMutex x := fun x hx => hm (h.mutex.mpr ⟨x, hx⟩)
  have a : ∀ x t, (({ w with mutex := true } : World σ).put k (some { o with lock := true })).Holds x t ↔ w.Holds x t := by
    intro x t
    rw [holds_put]
    by_cases e : x = k
    · subst e; rw [if_pos rfl, holds_iff ho]; simp
    · rw [if_neg e]; exact Iff.rfl
  have b : ∀ x, (({ w with mutex := true } : World σ).put k (some { o with lock := true })).HasMutex x ↔ x = k := by
    intro x
    rw [mutex_put]
    by_cases e : x = k
    · subst e; rw [if_pos rfl]; simp
    · rw [if_neg e]; exact ⟨fun hx => absurd hx (nb x), fun e' => absurd e' e⟩
  refine ⟨?_, ?_, ?_, ?_, ?_⟩
  · intro t ht; simp only [a]; exact h.fresh t ht
  · intro t ht; simp only [a]; exact h.begun t ht
  · intro x y t hx hy; exact h.once x y t ((a x t).mp hx) ((a y t).mp hy)
  · exact ⟨fun _ => ⟨k, (b k).mpr rfl⟩, fun _ => rfl⟩
  · intro x y hx hy; rw [(b x).mp hx, (b y).mp hy]

/-- The mutex is handed over. -/
theorem Accounted.handed {w : World σ} (h : Accounted w) {k p : Nat} (hk : p ≠ k) {o q o2 q2 : Obj σ} (ho : w.obj k = some o) (hq : w.obj p = some q)
    (h1 : o2.txn = o.txn) (h2 : q2.txn = q.txn) (h3 : o2.lock = false) (h4 : q2.lock = (q.lock || o.lock)) :
    Accounted ((w.put p (some q2)).put k (some o2)) := by
  have hq' : ∀ z : Option (Obj σ), (w.put k z).obj p = some q := fun z => by show (if p = k then _ else _) = _; rw [if_neg hk]; exact hq
  have a : ∀ x t, ((w.put p (some q2)).put k (some o2)).Holds x t ↔ w.Holds x t := by
    intro x t
    rw [holds_put, holds_put]
    by_cases e : x = k
    · subst e; rw [if_pos rfl, holds_iff ho]; simp [h1]
    · rw [if_neg e]
      by_cases e' : x = p
      · subst e'; rw [if_pos rfl, holds_iff hq]; simp [h2]
      · rw [if_neg e']
  have b : ∀ x, ((w.put p (some q2)).put k (some o2)).HasMutex x ↔ (x ≠ k ∧ w.HasMutex x) ∨ (x = p ∧ w.HasMutex k) := by
    intro x
    rw [mutex_put, mutex_put]
    by_cases e : x = k
    · subst e; simp [h3, Ne.symm hk]
    · rw [if_neg e]
      by_cases e' : x = p
      · subst e'; rw [if_pos rfl, mutex_iff hq, mutex_iff ho]; simp [h4, e]
      · simp [e, e']
  refine ⟨?_, ?_, ?_, ?_, ?_⟩
  · intro t ht; simp only [a]; exact h.fresh t ht
  · intro t ht; simp only [a]; exact h.begun t ht
  · intro x y t hx hy; exact h.once x y t ((a x t).mp hx) ((a y t).mp hy)
  · show w.mutex = true ↔ _
    rw [h.mutex]
    constructor
    · rintro ⟨x, hx⟩
      by_cases e : x = k
      · exact ⟨p, (b p).mpr (.inr ⟨rfl, e ▸ hx⟩)⟩
      · exact ⟨x, (b x).mpr (.inl ⟨e, hx⟩)⟩
    · rintro ⟨x, hx⟩
      rcases (b x).mp hx with h' | h'
      · exact ⟨x, h'.2⟩
      · exact ⟨k, h'.2⟩
  · intro x y hx hy
    rcases (b x).mp hx with h1 | h1 <;> rcases (b y).mp hy with h2 | h2
    · exact h.owner x y h1.2 h2.2
    · exact absurd (h.owner x k h1.2 h2.2) h1.1
    · exact absurd (h.owner y k h2.2 h1.2) h2.1
    · rw [h1.1, h2.1]

theorem put_put' (w : World σ) (k : Nat) (a b : Option (Obj σ)) : (w.put k a).put k b = w.put k b := by
  unfold World.put
  congr 1
  funext x
  by_cases e : x = k <;> simp [e]

theorem put_comm (w : World σ) {k p : Nat} (h : p ≠ k) (a b : Option (Obj σ)) : (w.put k a).put p b = (w.put p b).put k a := by
  unfold World.put
  congr 1
  funext x
  by_cases e : x = k
  · subst e; simp [Ne.symm h]
  · simp [e]

theorem put_obj (w : World σ) (k : Nat) (a : Option (Obj σ)) : (w.put k a).obj k = a := by simp [World.put]

theorem endTxn_facts {w w1 : World σ} {t : Nat} {c : Bool} (h : w.endTxn t c = .ok w1) : w1.obj = w.obj := by
  unfold World.endTxn at h
  by_cases e : w.hasChild t = true
  · rw [if_pos e] at h; cases h
  · rw [if_neg e] at h; injection h with h; subst h; rfl

theorem Accounted.env {w : World σ} (h : Accounted w) (e : Env σ) : Accounted ({ w with env := e } : World σ) :=
  h.of rfl rfl rfl (fun _ _ => Iff.rfl) (fun _ => Iff.rfl)

/-- End of the object's transaction, the mutex being given back. -/
theorem Accounted.over {w w1 : World σ} (h : Accounted w) {k t : Nat} {c : Bool} {o o2 o' : Obj σ} (ho : w.obj k = some o) (ht : o.txn = some t)
    (he : w.endTxn t c = .ok w1) (h3 : o2.txn = none) (h4 : o2.lock = false) (h5 : o'.lock = o.lock) : Accounted ((w1.unlock o').put k (some o2)) := by
  have h1 := h.ended (o2 := { o with txn := none }) ho ht he rfl rfl
  have h2 := h1.unlocked (o2 := o2) (put_obj _ _ _) h3 h4
  have : ((w1.put k (some { o with txn := none })).unlock { o with txn := none }).put k (some o2) = (w1.unlock o').put k (some o2) := by
    show ((w1.unlock { o with txn := none }).put k _).put k _ = _
    rw [put_put']
    unfold World.unlock
    rw [h5]
  rw [this] at h2
  exact h2

theorem Accounted.aborted {w w1 : World σ} (h : Accounted w) {k : Nat} {o o' : Obj σ} (ho : w.obj k = some o) (e1 : o'.txn = o.txn) (e2 : o'.lock = o.lock)
    (hs : doAbort w k o' = .ok w1) : Accounted w1 := by
  unfold doAbort at hs
  rw [e1] at hs
  cases ht : o.txn with
  | none => rw [ht] at hs; cases hs
  | some t =>
    rw [ht] at hs
    simp only at hs
    obtain ⟨w2, h1, h2⟩ := bind_inv hs
    injection h2 with h2
    subst h2
    exact (h.env (abortHooks o'.hooks w.env)).over ho ht h1 rfl rfl e2

theorem Accounted.released {w w1 : World σ} (h : Accounted w) {k : Nat} {o : Obj σ} (ho : w.obj k = some o) (hs : release w o = .ok w1) :
    Accounted (w1.put k (some { o with txn := none, lock := false })) ∧ ∀ x, x ≠ k → w1.obj x = w.obj x := by
  unfold release at hs
  cases ht : o.txn with
  | none =>
    rw [ht] at hs
    simp only at hs
    injection hs with hs
    subst hs
    exact ⟨h.unlocked ho ht.symm rfl, fun _ _ => rfl⟩
  | some t =>
    rw [ht] at hs
    simp only at hs
    refine ⟨?_, fun x _ => by rw [endTxn_facts hs]; rfl⟩
    have h1 := h.unlocked (o2 := { o with lock := false }) ho rfl rfl
    have h2 : ((w.unlock o).put k (some { o with lock := false })).endTxn t false = .ok (w1.put k (some { o with lock := false })) := by
      unfold World.endTxn at hs ⊢
      by_cases e : (w.unlock o).hasChild t = true
      · rw [if_pos e] at hs; cases hs
      · rw [if_neg e] at hs
        injection hs with hs
        subst hs
        rw [if_neg (show ¬ ((w.unlock o).put k (some { o with lock := false })).hasChild t = true from e)]
        rfl
    have h3 := h1.ended (o2 := { o with txn := none, lock := false }) (put_obj _ _ _) ht h2 rfl rfl
    rw [put_put'] at h3
    exact h3

theorem at_inv {w : World σ} {k : Nat} {o : Obj σ} (h : w.at k = .ok o) : w.obj k = some o := by
  unfold World.at at h
  cases hk : w.obj k with
  | none => rw [hk] at h; cases h
  | some q => rw [hk] at h; injection h with h; rw [h]

theorem free_inv {w : World σ} {k : Nat} {u : Unit} (h : w.free k = .ok u) : w.obj k = none := by
  unfold World.free at h
  cases hk : w.obj k with
  | none => rfl
  | some q => rw [hk] at h; cases h

theorem free_empty {w : World σ} {k : Nat} (h : w.obj k = none) : (∀ t, ¬ w.Holds k t) ∧ ¬ w.HasMutex k :=
  ⟨fun _ ⟨_, e, _⟩ => (by rw [h] at e; cases e), fun ⟨_, e, _⟩ => (by rw [h] at e; cases e)⟩

theorem Accounted.committed {w w1 : World σ} {r : Res Unit} (h : Accounted w) {k : Nat} {o : Obj σ} (ho : w.obj k = some o)
    (hs : doCommit w k o = .ok (w1, r)) : Accounted w1 := by
  unfold doCommit at hs
  cases ht : o.txn with
  | none =>
    rw [ht] at hs; simp only at hs; injection hs with hs; injection hs with hs _; subst hs; exact h
  | some t =>
    rw [ht] at hs; simp only at hs
    cases hp : o.parent with
    | none =>
      rw [hp] at hs; simp only at hs
      rcases hl : s1loop o.hooks w.env with ⟨e, hs', x⟩
      rw [hl] at hs
      cases x with
      | error x =>
        simp only at hs
        obtain ⟨w2, h1, h2⟩ := bind_inv hs
        injection h2 with h2; injection h2 with h2 _; subst h2
        exact (h.env e).aborted (o' := ⟨some t, none, hs', o.lock⟩) ho ht.symm rfl h1
      | ok u =>
        simp only at hs
        obtain ⟨w2, h1, h2⟩ := bind_inv hs
        injection h2 with h2; injection h2 with h2 _; subst h2
        exact (h.env (hs'.foldl (fun e (h : Hook σ) => h.doS2 e) e)).over ho ht h1 rfl rfl rfl
    | some p =>
      rw [hp] at hs; simp only at hs
      obtain ⟨w2, h1, h2⟩ := bind_inv hs
      by_cases e : p = k
      · rw [if_pos e] at h2; cases h2
      · rw [if_neg e] at h2
        cases hq : w2.obj p with
        | none => rw [hq] at h2; cases h2
        | some q =>
          rw [hq] at h2; simp only at h2
          by_cases el : (q.lock && o.lock) = true
          · rw [if_pos el] at h2; cases h2
          · rw [if_neg el] at h2
            injection h2 with h2; injection h2 with h2 _; subst h2
            have a := h.ended (o2 := { o with txn := none }) ho ht h1 rfl rfl
            have b := a.handed (q := q) (o2 := { o with txn := none, hooks := [], lock := false })
              (q2 := { q with hooks := q.hooks ++ o.hooks, lock := q.lock || o.lock }) e (put_obj _ _ _)
              (by show (if p = k then _ else _) = _; rw [if_neg e]; exact hq) rfl rfl rfl rfl
            rw [put_comm _ e, put_put'] at b
            simp only [hp] at b
            exact b

/-- Every call leaves everything accounted for. -/
theorem Accounted.step {w w1 : World σ} {r : Res Unit} (h : Accounted w) (c : Call σ) (hs : Objs.step w c = .ok (w1, r)) : Accounted w1 := by
  cases c with
  | begin k =>
    obtain ⟨u, h1, h2⟩ := bind_inv hs
    injection h2 with h2; injection h2 with h2 _; subst h2
    exact h.born (free_inv h1)
  | nested k p =>
    obtain ⟨o, h1, h2⟩ := bind_inv hs
    cases ht : o.txn with
    | none => rw [ht] at h2; cases h2
    | some t =>
      rw [ht] at h2; simp only at h2
      by_cases e : w.hasChild t = true
      · rw [if_pos e] at h2; cases h2
      · rw [if_neg e] at h2
        obtain ⟨u, h3, h4⟩ := bind_inv h2
        injection h4 with h4; injection h4 with h4 _; subst h4
        exact h.born (free_inv h3)
  | add k hk =>
    obtain ⟨o, h1, h2⟩ := bind_inv hs
    injection h2 with h2; injection h2 with h2 _; subst h2
    exact h.same (at_inv h1) rfl rfl
  | useTable k =>
    obtain ⟨o, h1, h2⟩ := bind_inv hs
    by_cases e : o.lock = true
    · rw [if_pos e] at h2; injection h2 with h2; injection h2 with h2 _; subst h2; exact h
    · rw [if_neg e] at h2
      obtain ⟨held, h3, h4⟩ := bind_inv h2
      by_cases e2 : held = true
      · rw [if_pos e2] at h4; injection h4 with h4; injection h4 with h4 _; subst h4; exact h
      · rw [if_neg e2] at h4
        by_cases e3 : w.mutex = true
        · rw [if_pos e3] at h4; injection h4 with h4; injection h4 with h4 _; subst h4; exact h
        · rw [if_neg e3] at h4; injection h4 with h4; injection h4 with h4 _; subst h4
          exact h.locked (at_inv h1) e3
  | commit k =>
    obtain ⟨o, h1, h2⟩ := bind_inv hs
    exact h.committed (at_inv h1) h2
  | abort k =>
    obtain ⟨o, h1, h2⟩ := bind_inv hs
    obtain ⟨w2, h3, h4⟩ := bind_inv h2
    injection h4 with h4; injection h4 with h4 _; subst h4
    exact h.aborted (at_inv h1) rfl rfl h3
  | move k' k =>
    obtain ⟨o, h1, h2⟩ := bind_inv hs
    obtain ⟨u, h3, h4⟩ := bind_inv h2
    injection h4 with h4; injection h4 with h4 _; subst h4
    have hf := free_inv h3
    have ho := at_inv h1
    exact h.transfer (fun e => by rw [e, hf] at ho; cases ho) ho (free_empty hf).1 (free_empty hf).2 rfl rfl
  | assign k' k =>
    obtain ⟨o, h1, h2⟩ := bind_inv hs
    obtain ⟨o', h3, h4⟩ := bind_inv h2
    by_cases e : k' = k
    · rw [if_pos e] at h4; cases h4
    · rw [if_neg e] at h4
      obtain ⟨w2, h5, h6⟩ := bind_inv h4
      injection h6 with h6; injection h6 with h6 _; subst h6
      obtain ⟨a, b⟩ := h.released (at_inv h3) h5
      have c := a.transfer (k := k) (k' := k') (o := o) (o2 := { o with txn := none, hooks := [], lock := false }) (Ne.symm e)
        (by show (if k = k' then _ else _) = _; rw [if_neg (Ne.symm e), b k (Ne.symm e)]; exact at_inv h1)
        (fun t ht => by rw [holds_iff (put_obj _ _ _)] at ht; cases ht)
        (fun ht => by rw [mutex_iff (put_obj _ _ _)] at ht; cases ht) rfl rfl
      rw [put_put'] at c
      exact c
  | destroy k =>
    obtain ⟨o, h1, h2⟩ := bind_inv hs
    obtain ⟨w2, h3, h4⟩ := bind_inv h2
    injection h4 with h4; injection h4 with h4 _; subst h4
    obtain ⟨a, -⟩ := h.released (at_inv h1) h3
    have c := a.empty (o := none) (fun t ht => by rw [holds_iff (put_obj _ _ _)] at ht; cases ht)
        (fun ht => by rw [mutex_iff (put_obj _ _ _)] at ht; cases ht) (fun q e => by cases e)
    rw [put_put'] at c
    exact c

theorem Accounted.run {w w1 : World σ} (cs : List (Call σ)) {outs : List (Res Unit)} (h : Accounted w) (hs : Objs.run w cs = .ok (w1, outs)) : Accounted w1 := by
  induction cs generalizing w outs with
  | nil => injection hs with hs; injection hs with hs _; subst hs; exact h
  | cons c cs ih =>
    obtain ⟨⟨w2, r⟩, h1, h2⟩ := bind_inv hs
    obtain ⟨⟨w3, rs⟩, h3, h4⟩ := bind_inv h2
    injection h4 with h4; injection h4 with h4 _; subst h4
    exact ih (h.step c h1) h3

/-- **C82**: whatever is done with transaction objects (moves, assignments, nesting, commits, aborts,
destruction in any order), as long as the program stays within what C++ defines: each transaction begun is
either still held, by exactly one object, or has been ended, exactly once; and the mutex of the table of
references is locked just as long as some object, exactly one, has it. -/
theorem C82_accounted (s : σ) (cs : List (Call σ)) (w : World σ) (outs : List (Res Unit)) (hr : run (World.start s) cs = .ok (w, outs)) : Accounted w := by
  refine Accounted.run cs ⟨fun t _ => ⟨rfl, ?_⟩, fun t ht => absurd ht (Nat.not_lt_zero _), ?_, ?_, ?_⟩ hr
  · rintro k ⟨o, e, -⟩; cases e
  · rintro k k' t ⟨o, e, -⟩; cases e
  · exact ⟨fun e => (by cases e), fun ⟨k, o, e, _⟩ => (by cases e)⟩
  · rintro k k' ⟨o, e, -⟩; cases e

/-- When all objects are gone, every transaction has ended exactly once, and the mutex is free. -/
theorem C82_all_ended (s : σ) (cs : List (Call σ)) (w : World σ) (outs : List (Res Unit)) (hr : run (World.start s) cs = .ok (w, outs))
    (hg : ∀ k, w.obj k = none) : (∀ t, t < w.next → (w.ended.map Prod.fst).count t = 1) ∧ w.mutex = false := by
  have h := C82_accounted s cs w outs hr
  constructor
  · intro t ht
    rcases h.begun t ht with ⟨-, k, o, e, -⟩ | ⟨e, -⟩
    · rw [hg k] at e; cases e
    · exact e
  · cases hm : w.mutex with
    | false => rfl
    | true =>
      obtain ⟨k, o, e, -⟩ := h.mutex.mp hm
      rw [hg k] at e; cases e

/-- A run which uses everything, with all objects gone at the end. -/
def demoAll : List (Call Nat) :=
  [.begin 0, .useTable 0, .nested 1 0, .useTable 1, .add 1 (rbHook 1), .move 2 1, .commit 2, .destroy 1, .begin 1, .add 1 (rbHook 2), .begin 3, .assign 1 3,
   .abort 1, .move 4 0, .commit 4, .destroy 0, .destroy 1, .destroy 2, .destroy 3, .destroy 4]
/-- The hypotheses of `C82_accounted` and `C82_all_ended`. -/
example : ∃ w outs, run (World.start 0) demoAll = .ok (w, outs) ∧ (∀ k, w.obj k = none) ∧ w.next = 4 ∧ w.ended = [(1, true), (2, false), (3, false), (0, true)] ∧ w.env.st = 100 := by
  refine ⟨_, _, rfl, fun k => ?_, by rfl, by rfl, by rfl⟩
  by_cases h0 : k = 0
  · subst h0; rfl
  by_cases h1 : k = 1
  · subst h1; rfl
  by_cases h2 : k = 2
  · subst h2; rfl
  by_cases h3 : k = 3
  · subst h3; rfl
  by_cases h4 : k = 4
  · subst h4; rfl
  simp [World.put, World.unlock, World.start, h0, h1, h2, h3, h4]

end Dragonstash.Objs
