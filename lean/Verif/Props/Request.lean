/-
  C49: request objects reply exactly once.
-/
import Verif.Fuse.Request
namespace Dragonstash.FuseReq

/-- Object `k` holds the request `id`. -/
def World.Holds (w : World) (k id : Nat) : Prop := ∃ o, w.obj k = some o ∧ o.req = some id

/-- Number of answers to request `id`. -/
def World.answered (w : World) (id : Nat) : Nat := (w.answers.map Prod.fst).count id

/-- Each request which was handed to an object is held by exactly one object and neither answered nor
released; or it is held by none, and has been answered exactly once or released exactly once, but
not both. Nothing happens to others. -/
def Accounted (given : List (Nat × Nat)) (w : World) : Prop :=
  ∀ id,
    (id ∉ given.map Prod.fst → w.answered id = 0 ∧ w.released.count id = 0 ∧ ∀ k, ¬ w.Holds k id) ∧
    (id ∈ given.map Prod.fst →
      (w.answered id = 0 ∧ w.released.count id = 0 ∧ ∃ k, w.Holds k id ∧ ∀ j, w.Holds j id → j = k) ∨
      (w.answered id + w.released.count id = 1 ∧ ∀ k, ¬ w.Holds k id))

/-- What an operation can do to one request. -/
inductive Change (given given' : List (Nat × Nat)) (w w' : World) (id : Nat) : Prop
  | same : (id ∈ given'.map Prod.fst ↔ id ∈ given.map Prod.fst) → w'.answered id = w.answered id → w'.released.count id = w.released.count id →
      (∀ j, w'.Holds j id ↔ w.Holds j id) → Change given given' w w' id
  | moved (src k : Nat) : (id ∈ given'.map Prod.fst ↔ id ∈ given.map Prod.fst) → w'.answered id = w.answered id → w'.released.count id = w.released.count id →
      w.Holds src id → (∀ j, w'.Holds j id ↔ j = k) → Change given given' w w' id
  | gone (k : Nat) : (id ∈ given'.map Prod.fst ↔ id ∈ given.map Prod.fst) → w'.answered id + w'.released.count id = w.answered id + w.released.count id + 1 →
      w.Holds k id → (∀ j, ¬ w'.Holds j id) → Change given given' w w' id
  | given (k : Nat) : id ∉ given.map Prod.fst → id ∈ given'.map Prod.fst → w'.answered id = w.answered id → w'.released.count id = w.released.count id →
      (∀ j, w'.Holds j id ↔ j = k) → Change given given' w w' id

theorem Change.accounted {given given' : List (Nat × Nat)} {w w' : World} (h : Accounted given w) (hc : ∀ id, Change given given' w w' id) :
    Accounted given' w' := by
  intro id
  obtain ⟨h1, h2⟩ := h id
  cases hc id with
  | same g1 g2 g3 g4 => simp only [g1, g2, g3, g4]; exact ⟨h1, h2⟩
  | moved src k g1 g2 g3 g4 g5 =>
    simp only [g1, g2, g3, g5]
    refine ⟨fun hn => absurd g4 ((h1 hn).2.2 src), fun hm => ?_⟩
    rcases h2 hm with ⟨a, b, -⟩ | ⟨-, b⟩
    · exact .inl ⟨a, b, k, rfl, fun j hj => hj⟩
    · exact absurd g4 (b src)
  | gone k g1 g2 g3 g4 =>
    simp only [g1]
    refine ⟨fun hn => absurd g3 ((h1 hn).2.2 k), fun hm => ?_⟩
    rcases h2 hm with ⟨a, b, -⟩ | ⟨-, b⟩
    · exact .inr ⟨by omega, g4⟩
    · exact absurd g3 (b k)
  | given k g1 g2 g3 g4 g5 =>
    obtain ⟨a, b, -⟩ := h1 g1
    refine ⟨fun hn => absurd g2 hn, fun _ => .inl ⟨by omega, by omega, k, (g5 k).mpr rfl, fun j hj => (g5 j).mp hj⟩⟩

theorem Accounted.unique {given : List (Nat × Nat)} {w : World} (h : Accounted given w) {id j k : Nat} (hj : w.Holds j id) (hk : w.Holds k id) : j = k := by
  obtain ⟨h1, h2⟩ := h id
  by_cases hm : id ∈ given.map Prod.fst
  · rcases h2 hm with ⟨-, -, i, -, u⟩ | ⟨-, u⟩
    · rw [u j hj, u k hk]
    · exact absurd hj (u j)
  · exact absurd hj ((h1 hm).2.2 j)

theorem set_holds {w : World} {k : Nat} {v : Option Obj} {id : Nat} (j : Nat) : (w.set k v).Holds j id ↔ if j = k then (∃ o, v = some o ∧ o.req = some id) else w.Holds j id := by
  unfold World.Holds World.set
  simp only
  by_cases hj : j = k
  · rw [if_pos hj, if_pos hj]
  · rw [if_neg hj, if_neg hj]

theorem holds_iff {w : World} {k : Nat} {o : Obj} (h : w.obj k = some o) {id : Nat} : w.Holds k id ↔ o.req = some id := by
  unfold World.Holds; rw [h]
  constructor
  · rintro ⟨o', ho, h'⟩; cases ho; exact h'
  · intro h'; exact ⟨o, rfl, h'⟩

theorem holds_none {w : World} {k : Nat} (h : w.obj k = none) {id : Nat} : ¬ w.Holds k id := by
  rintro ⟨o, ho, -⟩; rw [h] at ho; cases ho

/-- A step which leaves object `k` with `m_req` null, answers its request with `a`. -/
def World.answer (w : World) (k : Nat) (o : Obj) (id : Nat) (a : Answer) : World :=
  { w.set k (some { o with req := none }) with answers := (id, a) :: w.answers }

theorem answer_holds {w : World} {k i : Nat} {o : Obj} {a : Answer} {id : Nat} (j : Nat) : (w.answer k o i a).Holds j id ↔ j ≠ k ∧ w.Holds j id := by
  have := set_holds (w := w) (k := k) (v := some { o with req := none }) (id := id) j
  refine Iff.trans this ?_
  by_cases hj : j = k
  · simp [hj]
  · simp [hj]

theorem answer_answered {w : World} {k i : Nat} {o : Obj} {a : Answer} {id : Nat} : (w.answer k o i a).answered id = w.answered id + if i = id then 1 else 0 := by
  unfold World.answer World.answered; simp [List.count_cons]

/-- Answering the request of an object. -/
theorem answer_change {given : List (Nat × Nat)} {w : World} (h : Accounted given w) {k i : Nat} {o : Obj} {a : Answer} (hk : w.obj k = some o) (hi : o.req = some i) (id : Nat) :
    Change given given w (w.answer k o i a) id := by
  have hki : w.Holds k i := ⟨o, hk, hi⟩
  by_cases he : i = id
  · subst he
    refine .gone k Iff.rfl (by rw [answer_answered, if_pos rfl]; simp [World.answer, World.set]; omega) hki (fun j hj => ?_)
    obtain ⟨h1, h2⟩ := (answer_holds j).mp hj
    exact h1 (h.unique h2 hki)
  · refine .same Iff.rfl (by rw [answer_answered, if_neg he]; rfl) rfl (fun j => ?_)
    rw [answer_holds]
    refine ⟨fun h => h.2, fun h => ⟨?_, h⟩⟩
    rintro rfl
    rw [holds_iff hk, hi] at h; cases h; exact he rfl

/-- The same members but null, where there was no request. -/
theorem set_null_same {w : World} {k : Nat} {o : Obj} (hk : w.obj k = some o) (hn : o.req = none) {v : Option Obj} (hv : ∀ o', v = some o' → o'.req = none) {id : Nat} (j : Nat) :
    (w.set k v).Holds j id ↔ w.Holds j id := by
  rw [set_holds]
  by_cases hj : j = k
  · subst hj
    rw [if_pos rfl, holds_iff hk, hn]
    constructor
    · rintro ⟨o', h1, h2⟩; rw [hv o' h1] at h2; cases h2
    · intro h; cases h
  · rw [if_neg hj]

theorem set_answered {w : World} {k : Nat} {v : Option Obj} {id : Nat} : (w.set k v).answered id = w.answered id := rfl

theorem set_released {w : World} {k : Nat} {v : Option Obj} : (w.set k v).released = w.released := rfl

/-- Moving the members of `src` to `k`, where `k` has no request. -/
theorem move_change {given : List (Nat × Nat)} {w : World} (h : Accounted given w) {k src : Nat} {s : Obj} (hs : w.obj src = some s) (hks : k ≠ src)
    (hk : ∀ id, ¬ w.Holds k id) (id : Nat) : Change given given w ((w.set k (some s)).set src (some { s with req := none })) id := by
  by_cases hid : s.req = some id
  · refine .moved src k Iff.rfl rfl rfl ⟨s, hs, hid⟩ (fun j => ?_)
    rw [set_holds]
    by_cases hj : j = src
    · rw [if_pos hj]
      subst hj
      simp only [Option.some.injEq, exists_eq_left', reduceCtorEq, false_iff]
      exact fun h => hks h.symm
    · rw [if_neg hj, set_holds]
      by_cases hj2 : j = k
      · rw [if_pos hj2]; simp [hid, hj2]
      · rw [if_neg hj2]; simp only [hj2, iff_false]
        intro hh; exact hj (h.unique hh ⟨s, hs, hid⟩)
  · refine .same Iff.rfl rfl rfl (fun j => ?_)
    rw [set_holds]
    by_cases hj : j = src
    · subst hj
      rw [if_pos rfl, holds_iff hs]
      simp [hid]
    · rw [if_neg hj, set_holds]
      by_cases hj2 : j = k
      · subst hj2; rw [if_pos rfl]; simp [hid, hk id]
      · rw [if_neg hj2]

theorem resetReq_eq {w : World} {k i : Nat} {o : Obj} (hi : o.req = some i) : w.resetReq k o = w.answer k o i (.auto o.err) := by
  unfold World.resetReq World.answer; rw [hi]

theorem step_accounted {given : List (Nat × Nat)} {w w' : World} {op : Op} {out : Outcome} (h : Accounted given w) (hs : step w op = some (w', out))
    (hg : ∀ x, op.gives = some x → x.1 ∉ given.map Prod.fst) : Accounted (op.gives.toList ++ given) w' := by
  cases op with
  | make k =>
    simp only [step] at hs
    split at hs
    · rename_i hk
      cases hs
      refine Change.accounted h (fun id => .same Iff.rfl rfl rfl (fun j => ?_))
      rw [set_holds]
      by_cases hj : j = k
      · subst hj; rw [if_pos rfl]; simp [holds_none hk]
      · rw [if_neg hj]
    · cases hs
  | makeReq k i e =>
    simp only [step] at hs
    split at hs
    · rename_i hk
      cases hs
      have hn := hg (i, e) rfl
      refine Change.accounted h (fun id => ?_)
      by_cases hid : i = id
      · subst hid
        refine .given k hn (by simp [Op.gives]) rfl rfl (fun j => ?_)
        rw [set_holds]
        by_cases hj : j = k
        · simp [hj]
        · rw [if_neg hj]; simp only [hj, iff_false]; exact ((h i).1 hn).2.2 j
      · refine .same (by simp [Op.gives]; rintro rfl; exact absurd rfl hid) rfl rfl (fun j => ?_)
        rw [set_holds]
        by_cases hj : j = k
        · subst hj; rw [if_pos rfl]; simp [holds_none hk, hid]
        · rw [if_neg hj]
    · cases hs
  | moveNew k src =>
    simp only [step] at hs
    split at hs
    · rename_i o hk hsrc
      cases hs
      have hks : k ≠ src := by rintro rfl; rw [hk] at hsrc; cases hsrc
      exact Change.accounted h (move_change h hsrc hks (fun id => holds_none hk))
    · cases hs
  | moveAssign k src =>
    simp only [step] at hs
    split at hs
    · rename_i o s0 hk hsrc
      have main : ∀ w1 : World, Accounted given w1 → (∀ id, ¬ w1.Holds k id) → (match w1.obj src with
          | some s => some ((w1.set k (some s)).set src (some { s with req := none }), Outcome.ok)
          | none => none) = some (w', out) → Accounted given w' := by
        intro w1 h1 hno hs
        split at hs
        · rename_i s hsrc1
          cases hs
          by_cases hks : k = src
          · subst hks
            refine Change.accounted h1 (fun id => .same Iff.rfl rfl rfl (fun j => ?_))
            rw [set_holds]
            by_cases hj : j = k
            · subst hj; simp [hno id]
            · rw [if_neg hj, set_holds, if_neg hj]
          · exact Change.accounted h1 (move_change h1 hsrc1 hks hno)
        · cases hs
      cases hr : o.req with
      | none =>
        rw [hr] at hs
        simp only [Option.isSome_none, Bool.false_eq_true, if_false] at hs
        exact main w h (fun id => by rw [holds_iff hk, hr]; simp) hs
      | some i =>
        rw [hr] at hs
        simp only [Option.isSome_some, if_true] at hs
        rw [resetReq_eq hr] at hs
        exact main _ (Change.accounted h (answer_change h hk hr)) (fun id hh => ((answer_holds k).mp hh).1 rfl) hs
    · cases hs
  | assignNull k =>
    simp only [step] at hs
    split at hs
    · rename_i o hk
      cases hs
      cases hr : o.req with
      | none =>
        simp only [Option.isSome_none, Bool.false_eq_true, if_false]
        exact Change.accounted h (fun id => .same Iff.rfl rfl rfl (set_null_same hk hr (by rintro o' ⟨⟩; rfl)))
      | some i =>
        simp only [Option.isSome_some, if_true]
        rw [resetReq_eq hr]
        have h1 : Accounted given (w.answer k o i (.auto o.err)) := Change.accounted h (answer_change h hk hr)
        have hk1 : (w.answer k o i (.auto o.err)).obj k = some { o with req := none } := by simp [World.answer, World.set]
        exact Change.accounted h1 (fun id => .same Iff.rfl rfl rfl (set_null_same hk1 rfl (by rintro o' ⟨⟩; rfl)))
    · cases hs
  | destroy k =>
    simp only [step] at hs
    split at hs
    · rename_i o hk
      cases hs
      cases hr : o.req with
      | none =>
        simp only [Option.isSome_none, Bool.false_eq_true, if_false]
        exact Change.accounted h (fun id => .same Iff.rfl rfl rfl (set_null_same hk hr (by rintro o' ⟨⟩)))
      | some i =>
        simp only [Option.isSome_some, if_true]
        rw [resetReq_eq hr]
        have h1 : Accounted given (w.answer k o i (.auto o.err)) := Change.accounted h (answer_change h hk hr)
        have hk1 : (w.answer k o i (.auto o.err)).obj k = some { o with req := none } := by simp [World.answer, World.set]
        exact Change.accounted h1 (fun id => .same Iff.rfl rfl rfl (set_null_same hk1 rfl (by rintro o' ⟨⟩)))
    · cases hs
  | release k =>
    simp only [step] at hs
    split at hs
    · rename_i o hk
      cases hs
      refine Change.accounted h (fun id => ?_)
      have hh : ∀ j, World.Holds { w.set k (some { o with req := none }) with released := o.req.toList ++ w.released } j id ↔ j ≠ k ∧ w.Holds j id := by
        intro j
        have := set_holds (w := w) (k := k) (v := some { o with req := none }) (id := id) j
        refine Iff.trans this ?_
        by_cases hj : j = k
        · simp [hj]
        · simp [hj]
      by_cases hid : o.req = some id
      · have hki : w.Holds k id := ⟨o, hk, hid⟩
        refine .gone k Iff.rfl ?_ hki (fun j hj => ?_)
        · show w.answered id + (o.req.toList ++ w.released).count id = _
          rw [hid]; simp; omega
        · obtain ⟨h1, h2⟩ := (hh j).mp hj
          exact h1 (h.unique h2 hki)
      · refine .same Iff.rfl rfl ?_ (fun j => ?_)
        · show (o.req.toList ++ w.released).count id = _
          cases hr : o.req with
          | none => rfl
          | some i =>
            have : i ≠ id := by rintro rfl; exact hid hr
            simp [List.count_cons, this]
        · rw [hh]
          refine ⟨fun h => h.2, fun h => ⟨?_, h⟩⟩
          rintro rfl
          exact hid ((holds_iff hk).mp h)
    · cases hs
  | swap k j0 =>
    simp only [step] at hs
    split at hs
    · rename_i a b ha hb
      cases hs
      refine Change.accounted h (fun id => ?_)
      by_cases hkj : k = j0
      · subst hkj
        rw [ha] at hb; cases hb
        refine .same Iff.rfl rfl rfl (fun j => ?_)
        rw [set_holds]
        by_cases hj : j = k
        · subst hj; rw [if_pos rfl, holds_iff ha]; simp
        · rw [if_neg hj, set_holds, if_neg hj]
      · have hh : ∀ j, ((w.set k (some { a with req := b.req })).set j0 (some { b with req := a.req })).Holds j id ↔
            if j = j0 then a.req = some id else if j = k then b.req = some id else w.Holds j id := by
          intro j
          rw [set_holds]
          by_cases hj : j = j0
          · simp [hj]
          · rw [if_neg hj, if_neg hj, set_holds]; simp
        by_cases h1 : a.req = some id
        · have hk1 : w.Holds k id := ⟨a, ha, h1⟩
          have hb1 : ¬ b.req = some id := fun hh => hkj (h.unique hk1 ⟨b, hb, hh⟩)
          refine .moved k j0 Iff.rfl rfl rfl hk1 (fun j => ?_)
          rw [hh]
          by_cases hj : j = j0
          · simp [hj, h1]
          · rw [if_neg hj]
            simp only [hj, iff_false]
            by_cases hj2 : j = k
            · rw [if_pos hj2]; exact hb1
            · rw [if_neg hj2]; exact fun hh => hj2 (h.unique hh hk1)
        · by_cases h2 : b.req = some id
          · have hk1 : w.Holds j0 id := ⟨b, hb, h2⟩
            refine .moved j0 k Iff.rfl rfl rfl hk1 (fun j => ?_)
            rw [hh]
            by_cases hj : j = j0
            · subst hj; simp only [if_true, h1, false_iff]; exact fun h => hkj h.symm
            · rw [if_neg hj]
              by_cases hj2 : j = k
              · simp [hj2, h2]
              · rw [if_neg hj2]; simp only [hj2, iff_false]; exact fun hh => hj (h.unique hh hk1)
          · refine .same Iff.rfl rfl rfl (fun j => ?_)
            rw [hh]
            by_cases hj : j = j0
            · subst hj; rw [if_pos rfl, holds_iff hb]; simp [h1, h2]
            · rw [if_neg hj]
              by_cases hj2 : j = k
              · subst hj2; rw [if_pos rfl, holds_iff ha]; simp [h1, h2]
              · rw [if_neg hj2]
    · cases hs
  | reply k c =>
    simp only [step] at hs
    split at hs
    · rename_i o hk
      split at hs
      · rename_i i hi
        cases hs
        exact Change.accounted h (answer_change h hk hi)
      · cases hs; exact h
    · cases hs
  | replyNone k =>
    simp only [step] at hs
    split at hs
    · rename_i o hk
      split at hs
      · rename_i i hi
        cases hs
        exact Change.accounted h (answer_change h hk hi)
      · cases hs; exact h
    · cases hs

/-- After every history: each request handed to an object has been answered exactly once, or given back
to the caller, or is held, unanswered, by exactly one object. No request is answered twice. -/
theorem C49_once {given : List (Nat × Nat)} {w : World} (h : Run given w) : Accounted given w := by
  induction h with
  | init => exact fun id => ⟨fun _ => ⟨rfl, rfl, fun k h => (by obtain ⟨o, ho, -⟩ := h; cases ho)⟩, fun h => (by cases h)⟩
  | step _ hs hg ih => exact step_accounted ih hs hg

/-- Once all objects are gone, every request which was not given back has been answered, exactly once. -/
theorem C49_all_answered {given : List (Nat × Nat)} {w : World} (h : Run given w) (hd : ∀ k, w.obj k = none) {x : Nat × Nat} (hx : x ∈ given)
    (hr : x.1 ∉ w.released) : w.answered x.1 = 1 := by
  rcases (C49_once h x.1).2 (List.mem_map.mpr ⟨x, hx, rfl⟩) with ⟨-, -, k, hk, -⟩ | ⟨h1, -⟩
  · exact absurd hk (holds_none (hd k))
  · rw [List.count_eq_zero.mpr hr] at h1; omega

/-- Replying where there is no request is reported by an exception, and sends nothing. This includes
replying a second time: -/
theorem C49_closed {w w' : World} {k c : Nat} {out : Outcome} (h : ∀ id, ¬ w.Holds k id) (hs : step w (.reply k c) = some (w', out)) : out = .thrown ∧ w' = w := by
  simp only [step] at hs
  split at hs
  · rename_i o hk
    split at hs
    · rename_i i hi; exact absurd ⟨o, hk, hi⟩ (h i)
    · cases hs; exact ⟨rfl, rfl⟩
  · cases hs

theorem C49_twice {given : List (Nat × Nat)} {w w1 w2 : World} (h : Run given w) {k c c' : Nat} {out : Outcome} (h1 : step w (.reply k c) = some (w1, .ok))
    (h2 : step w1 (.reply k c') = some (w2, out)) : out = .thrown ∧ w2 = w1 := by
  refine C49_closed (fun id hh => ?_) h2
  simp only [step] at h1
  split at h1
  · rename_i o hk
    split at h1
    · rename_i i hi
      cases h1
      exact ((answer_holds (w := w) (k := k) (o := o) (i := i) (a := .explicit c) k).mp hh).1 rfl
    · cases h1
  · cases h1

/-- But `reply_none` does not check: a null pointer is handed to the library. -/
theorem C49_none_counterexample : ∃ w w', step w (.replyNone 0) = some (w', .nullReq) ∧ ∃ given, Run given w := by
  refine ⟨(World.init.set 0 (some ⟨none, ECANCELED⟩)), _, rfl, _, .step (op := .make 0) (out := .ok) .init rfl (by intro x h; cases h)⟩

/-- Without `swap`, a request which nobody replied to is answered with the default error which it was
given. -/
theorem C49_default_error {given : List (Nat × Nat)} {w : World} (h : RunNoSwap given w) :
    (∀ id e, (id, Answer.auto e) ∈ w.answers → (id, e) ∈ given) ∧ ∀ k o id, w.obj k = some o → o.req = some id → (id, o.err) ∈ given := by
  induction h with
  | init => exact ⟨fun id e h => (by cases h), fun k o id h => (by cases h)⟩
  | @step given w op w' out hrun hs hg hns ih =>
    obtain ⟨h1, h2⟩ := ih
    -- one answer or none, by an object which held the request
    have setO : ∀ (w : World) k v, (∀ k o id, w.obj k = some o → o.req = some id → (id, o.err) ∈ op.gives.toList ++ given) →
        (∀ o id, v = some o → o.req = some id → (id, o.err) ∈ op.gives.toList ++ given) →
        ∀ j o id, (w.set k v).obj j = some o → o.req = some id → (id, o.err) ∈ op.gives.toList ++ given := by
      intro w k v ha hb j o id ho hid
      unfold World.set at ho
      simp only at ho
      split at ho
      · exact hb o id ho hid
      · exact ha j o id ho hid
    have up : ∀ {x}, x ∈ given → x ∈ op.gives.toList ++ given := fun hx => List.mem_append_right _ hx
    have h1' : ∀ id e, (id, Answer.auto e) ∈ w.answers → (id, e) ∈ op.gives.toList ++ given := fun id e h => up (h1 id e h)
    have h2' : ∀ k o id, w.obj k = some o → o.req = some id → (id, o.err) ∈ op.gives.toList ++ given := fun k o id a b => up (h2 k o id a b)
    have nul : ∀ (o : Obj) o' id, some { o with req := none } = some o' → o'.req = some id → (id, o'.err) ∈ op.gives.toList ++ given := by
      intro o o' id ho hid; cases ho; cases hid
    have resetA : ∀ k o, w.obj k = some o → (∀ id e, (id, Answer.auto e) ∈ (if o.req.isSome then w.resetReq k o else w).answers → (id, e) ∈ op.gives.toList ++ given) ∧
        (∀ k' o' id, (if o.req.isSome then w.resetReq k o else w).obj k' = some o' → o'.req = some id → (id, o'.err) ∈ op.gives.toList ++ given) := by
      intro k o hk
      cases hr : o.req with
      | none => simp only [Option.isSome_none, Bool.false_eq_true, if_false]; exact ⟨h1', h2'⟩
      | some i =>
        simp only [Option.isSome_some, if_true]
        rw [resetReq_eq hr]
        refine ⟨fun id e hm => ?_, setO w k _ h2' (nul o)⟩
        rcases List.mem_cons.mp hm with hm | hm
        · cases hm; exact h2' k o i hk hr
        · exact h1' id e hm
    cases op with
    | make k =>
      simp only [step] at hs
      split at hs
      · cases hs; exact ⟨h1', setO w k _ h2' (by intro o id ho hid; cases ho; cases hid)⟩
      · cases hs
    | makeReq k i e =>
      simp only [step] at hs
      split at hs
      · cases hs
        refine ⟨h1', setO w k _ h2' (by intro o id ho hid; cases ho; cases hid; simp [Op.gives])⟩
      · cases hs
    | moveNew k src =>
      simp only [step] at hs
      split at hs
      · rename_i o hk hsrc
        cases hs
        exact ⟨h1', setO _ src _ (setO w k _ h2' (by intro o' id ho hid; cases ho; exact h2' src o id hsrc hid)) (nul o)⟩
      · cases hs
    | moveAssign k src =>
      simp only [step] at hs
      split at hs
      · rename_i o s0 hk hsrc
        obtain ⟨r1, r2⟩ := resetA k o hk
        generalize (if o.req.isSome then w.resetReq k o else w) = w1 at hs r1 r2
        split at hs
        · rename_i s hs1
          cases hs
          exact ⟨r1, setO _ src _ (setO w1 k _ r2 (by intro o' id ho hid; cases ho; exact r2 src s id hs1 hid)) (nul s)⟩
        · cases hs
      · cases hs
    | assignNull k =>
      simp only [step] at hs
      split at hs
      · rename_i o hk
        cases hs
        obtain ⟨r1, r2⟩ := resetA k o hk
        exact ⟨r1, setO _ k _ r2 (nul o)⟩
      · cases hs
    | destroy k =>
      simp only [step] at hs
      split at hs
      · rename_i o hk
        cases hs
        obtain ⟨r1, r2⟩ := resetA k o hk
        exact ⟨r1, setO _ k _ r2 (by intro o' id ho; cases ho)⟩
      · cases hs
    | release k =>
      simp only [step] at hs
      split at hs
      · rename_i o hk
        cases hs
        exact ⟨h1', setO w k _ h2' (nul o)⟩
      · cases hs
    | swap k j => exact absurd rfl (hns k j)
    | reply k c =>
      simp only [step] at hs
      split at hs
      · rename_i o hk
        split at hs
        · cases hs
          refine ⟨fun id e hm => ?_, setO w k _ h2' (nul o)⟩
          rcases List.mem_cons.mp hm with hm | hm
          · cases hm
          · exact h1' id e hm
        · cases hs; exact ⟨h1', h2'⟩
      · cases hs
    | replyNone k =>
      simp only [step] at hs
      split at hs
      · rename_i o hk
        split at hs
        · cases hs
          refine ⟨fun id e hm => ?_, setO w k _ h2' (nul o)⟩
          rcases List.mem_cons.mp hm with hm | hm
          · cases hm
          · exact h1' id e hm
        · cases hs; exact ⟨h1', h2'⟩
      · cases hs

def runOps : List Op → World → Option World
  | [], w => some w
  | o :: l, w => match step w o with | some (w', _) => runOps l w' | none => none

theorem run_ops : ∀ (l : List Op) (given : List (Nat × Nat)) (w w' : World), Run given w → runOps l w = some w' →
    ((l.filterMap Op.gives ++ given).map Prod.fst).Nodup → Run ((l.filterMap Op.gives).reverse ++ given) w' := by
  intro l
  induction l with
  | nil => intro given w w' h hr _; cases hr; exact h
  | cons o l ih =>
    intro given w w' h hr hn
    simp only [runOps] at hr
    split at hr
    · rename_i w1 out h1
      cases hg : o.gives with
      | none =>
        have : List.filterMap Op.gives (o :: l) = List.filterMap Op.gives l := by simp [hg]
        rw [this] at hn ⊢
        have := Run.step h h1 (by rw [hg]; intro fd hh; cases hh)
        rw [hg] at this
        exact ih _ _ _ this hr hn
      | some x =>
        have : List.filterMap Op.gives (o :: l) = x :: List.filterMap Op.gives l := by simp [hg]
        rw [this] at hn ⊢
        simp only [List.cons_append, List.map_cons, List.map_append, List.nodup_cons, List.mem_append, not_or] at hn
        have := Run.step h h1 (by rw [hg]; intro y hh; cases hh; exact hn.1.2)
        rw [hg] at this
        have := ih _ _ _ this hr (by
          simp only [Option.toList_some, List.singleton_append, List.map_append, List.map_cons]
          rw [List.nodup_append] at hn ⊢
          refine ⟨hn.2.1, List.nodup_cons.mpr ⟨hn.1.2, hn.2.2.1⟩, ?_⟩
          intro a ha b hb hab
          subst hab
          rcases List.mem_cons.mp hb with rfl | hb
          · exact hn.1.1 ha
          · exact hn.2.2.2 a ha a hb rfl)
        simpa using this
    · cases hr

/-- With `swap`, requests are answered with each other's default errors. -/
theorem C49_swap_counterexample : ∃ given w, Run given w ∧ (1, 5) ∈ given ∧ (1, Answer.auto 7) ∈ w.answers := by
  have h : (runOps [.makeReq 0 1 5, .makeReq 1 2 7, .swap 0 1, .destroy 1] World.init).isSome = true := by decide
  obtain ⟨w, hw⟩ := Option.isSome_iff_exists.mp h
  have key : (runOps [.makeReq 0 1 5, .makeReq 1 2 7, .swap 0 1, .destroy 1] World.init).map (fun w => w.answers) = some [(1, .auto 7)] := by decide
  rw [hw] at key
  simp only [Option.map_some, Option.some.injEq] at key
  exact ⟨_, w, run_ops _ [] _ _ .init hw (by decide), by decide, by rw [key]; simp⟩

/-- The hypotheses can be met: moves, self-assignment, replies and destruction; all objects are gone.
(Theorems `C49_once` and `C49_all_answered`.)
(The two replies of object 2 are those of `C49_twice` and `C49_closed`; there is no swap, as in `C49_default_error`.) -/
example : ∃ given w, Run given w ∧ (∀ k, w.obj k = none) ∧ (1, 5) ∈ given ∧ (2, 7) ∈ given ∧
    w.answers = [(2, .auto 7), (1, .explicit 9), (3, .auto 5)] ∧ w.released = [] := by
  have h : ∃ w, runOps [.makeReq 0 1 5, .makeReq 1 2 7, .makeReq 2 3 5, .moveAssign 2 2, .moveAssign 2 0, .moveNew 3 1, .reply 2 9, .reply 2 9, .destroy 0, .destroy 1, .destroy 2, .destroy 3]
      World.init = some w ∧ (∀ k, w.obj k = none) ∧ w.answers = [(2, .auto 7), (1, .explicit 9), (3, .auto 5)] ∧ w.released = [] := by
    refine ⟨_, rfl, ?_, by decide, by decide⟩
    intro k
    show (if k = 3 then none else _) = none
    by_cases h3 : k = 3
    · rw [if_pos h3]
    · rw [if_neg h3]
      by_cases h2 : k = 2
      · subst h2; rfl
      · by_cases h1 : k = 1
        · subst h1; rfl
        · by_cases h0 : k = 0
          · subst h0; rfl
          · simp [World.resetReq, World.set, World.init, h0, h1, h2, h3]
  obtain ⟨w, hw, h1, h2, h3⟩ := h
  exact ⟨_, w, run_ops _ [] _ _ .init hw (by decide), h1, by decide, by decide, h2, h3⟩

end Dragonstash.FuseReq
