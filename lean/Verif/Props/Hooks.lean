/-
  C15, C16, C17: transaction hooks.
-/
import Verif.Cache.Hooks
namespace Dragonstash.Hooks
variable {σ : Type}

/-! ### Specification -/

/-- The hooks which have a stage 1 commit callback, in order, as log entries; similarly below. -/
def s1calls (hs : List (Hook σ)) : List (Nat × Stage) :=
  (hs.filter (·.s1commit.isSome)).map (fun h => (h.id, .s1commit))
def s2calls (hs : List (Hook σ)) : List (Nat × Stage) :=
  (hs.filter (·.s2commit.isSome)).map (fun h => (h.id, .s2commit))
/-- Stage 1 rollback is due for hooks which have both a stage 1 commit and a stage 1 rollback. -/
def s1rbcalls (hs : List (Hook σ)) : List (Nat × Stage) :=
  (hs.filter (fun h => h.s1commit.isSome && h.s1rollback.isSome)).map (fun h => (h.id, .s1rollback))
def rbcalls (hs : List (Hook σ)) : List (Nat × Stage) :=
  (hs.filter (·.rollback.isSome)).map (fun h => (h.id, .rollback))

/-- The effect of an optional callback on the outside state. -/
def ap (f : Option (σ → σ)) (s : σ) : σ := match f with | none => s | some f => f s
/-- The effect of a stage 1 commit callback on the outside state. -/
def ap1 (f : Option (σ → σ × Res Unit)) (s : σ) : σ := match f with | none => s | some f => (f s).1
/-- Its result; a missing callback counts as success. -/
def res1 (f : Option (σ → σ × Res Unit)) (s : σ) : Res Unit :=
  match f with | none => .ok () | some f => (f s).2

/-- Every stage 1 callback succeeds when they are called in order starting in state `s`. -/
def AllOk : List (Hook σ) → σ → Prop
  | [], _ => True
  | h :: hs, s => res1 h.s1commit s = .ok () ∧ AllOk hs (ap1 h.s1commit s)

/-- Outside state after all stage 1 callbacks in order. -/
def after1 (hs : List (Hook σ)) (s : σ) : σ := hs.foldl (fun s h => ap1 h.s1commit s) s

/-! ### Lemmas -/

theorem doS1_ok {h : Hook σ} {e : Env σ} (hr : res1 h.s1commit e.st = .ok ()) :
    h.doS1 e = (⟨ap1 h.s1commit e.st, e.log ++ s1calls [h]⟩,
      { h with ran := h.ran || h.s1commit.isSome }, .ok ()) := by
  unfold Hook.doS1 res1 at *
  cases hc : h.s1commit with
  | none =>
    obtain ⟨id, a, b, c, d, ran⟩ := h
    simp only at hc; subst hc
    simp [ap1, s1calls]
  | some f =>
    rw [hc] at hr; simp only at hr
    obtain ⟨id, a, b, c, d, ran⟩ := h
    simp only at hc; subst hc
    simp only [ap1, s1calls]
    rw [show f e.st = ((f e.st).1, .ok ()) from by rw [← hr]]
    simp

theorem s1loop_ok (hs : List (Hook σ)) (e : Env σ) (h : AllOk hs e.st) :
    s1loop hs e = (⟨after1 hs e.st, e.log ++ s1calls hs⟩,
      hs.map (fun h => { h with ran := h.ran || h.s1commit.isSome }), .ok ()) := by
  induction hs generalizing e with
  | nil => obtain ⟨s, l⟩ := e; simp [s1loop, after1, s1calls]
  | cons x xs ih =>
    obtain ⟨h1, h2⟩ := h
    unfold s1loop
    rw [doS1_ok h1]
    simp only
    rw [ih _ h2]
    simp only [after1, List.foldl_cons, List.map_cons, s1calls, List.filter_cons]
    cases x.s1commit <;> simp

theorem s1loop_fail (pre : List (Hook σ)) (h : Hook σ) (post : List (Hook σ)) (e : Env σ) (x : Errno)
    (hok : AllOk pre e.st) (hf : res1 h.s1commit (after1 pre e.st) = .error x) :
    s1loop (pre ++ h :: post) e =
      (⟨ap1 h.s1commit (after1 pre e.st), e.log ++ s1calls pre ++ [(h.id, .s1commit)]⟩,
       pre.map (fun h => { h with ran := h.ran || h.s1commit.isSome }) ++ h :: post, .error x) := by
  induction pre generalizing e with
  | nil =>
    simp only [after1, List.foldl_nil] at hf
    simp only [List.nil_append, s1loop, Hook.doS1, res1, after1, List.foldl_nil] at *
    cases hc : h.s1commit with
    | none => rw [hc] at hf; cases hf
    | some f =>
      rw [hc] at hf
      simp only at hf ⊢
      rw [show f e.st = ((f e.st).1, .error x) from by rw [← hf]]
      simp [s1calls, ap1]
  | cons y ys ih =>
    obtain ⟨h1, h2⟩ := hok
    rw [List.cons_append]
    unfold s1loop
    rw [doS1_ok h1]
    simp only
    rw [ih _ h2 (by simpa [after1] using hf)]
    simp only [after1, List.foldl_cons, List.map_cons, s1calls, List.filter_cons]
    cases y.s1commit <;> simp

theorem s2_fold (hs : List (Hook σ)) (e : Env σ) :
    hs.foldl (fun e h => h.doS2 e) e
      = ⟨hs.foldl (fun s h => ap h.s2commit s) e.st, e.log ++ s2calls hs⟩ := by
  induction hs generalizing e with
  | nil => obtain ⟨s, l⟩ := e; simp [s2calls]
  | cons x xs ih =>
    rw [List.foldl_cons, ih]
    unfold Hook.doS2 s2calls
    cases hc : x.s2commit <;> simp [callOpt, ap, hc]

theorem rb_fold (hs : List (Hook σ)) (e : Env σ) :
    hs.foldl (fun e h => h.doRb e) e
      = ⟨hs.foldl (fun s h => ap h.rollback s) e.st, e.log ++ rbcalls hs⟩ := by
  induction hs generalizing e with
  | nil => obtain ⟨s, l⟩ := e; simp [rbcalls]
  | cons x xs ih =>
    rw [List.foldl_cons, ih]
    unfold Hook.doRb rbcalls
    cases hc : x.rollback <;> simp [callOpt, ap, hc]

theorem s1rb_fold (hs : List (Hook σ)) (e : Env σ) :
    hs.foldl (fun e h => h.doS1rb e) e
      = ⟨hs.foldl (fun s h => if h.ran then ap h.s1rollback s else s) e.st,
         e.log ++ (hs.filter (fun h => h.ran && h.s1rollback.isSome)).map (fun h => (h.id, .s1rollback))⟩ := by
  induction hs generalizing e with
  | nil => obtain ⟨s, l⟩ := e; simp
  | cons x xs ih =>
    rw [List.foldl_cons, ih]
    unfold Hook.doS1rb
    cases hr : x.ran
    · simp [hr]
    · cases hc : x.s1rollback <;> simp [callOpt, ap, hc, hr]

/-- Hooks as they are after registration: stage 1 has not run yet. -/
def Fresh (hs : List (Hook σ)) : Prop := ∀ h ∈ hs, h.ran = false

theorem filter_ran_fresh {hs : List (Hook σ)} (h : Fresh hs) :
    hs.filter (fun h => h.ran && h.s1rollback.isSome) = [] := by
  rw [List.filter_eq_nil_iff]
  intro x hx; simp [h x hx]

theorem foldl_fresh {hs : List (Hook σ)} (h : Fresh hs) (s : σ) :
    hs.foldl (fun s h => if h.ran then ap h.s1rollback s else s) s = s := by
  induction hs with
  | nil => rfl
  | cons x xs ih =>
    rw [List.foldl_cons, if_neg (by rw [h x (List.mem_cons_self ..)]; decide)]
    exact ih (fun y hy => h y (List.mem_cons_of_mem _ hy))

theorem fresh_reverse {hs : List (Hook σ)} (h : Fresh hs) : Fresh hs.reverse :=
  fun x hx => h x (List.mem_reverse.mp hx)

theorem abortHooks_fresh {hs : List (Hook σ)} (h : Fresh hs) (e : Env σ) :
    abortHooks hs e = ⟨hs.reverse.foldl (fun s h => ap h.rollback s) e.st,
      e.log ++ rbcalls hs.reverse⟩ := by
  unfold abortHooks
  simp only
  rw [rb_fold, s1rb_fold, foldl_fresh (fresh_reverse h), filter_ran_fresh (fresh_reverse h)]
  simp

theorem map_ran_ids {hs : List (Hook σ)} :
    s2calls (hs.map (fun h => { h with ran := h.ran || h.s1commit.isSome })) = s2calls hs := by
  induction hs with
  | nil => rfl
  | cons x xs ih => simp only [s2calls, List.map_cons, List.filter_cons] at *; cases x.s2commit <;> simp_all

theorem map_ran_rb {hs : List (Hook σ)} :
    rbcalls (hs.map (fun h => { h with ran := h.ran || h.s1commit.isSome })) = rbcalls hs := by
  induction hs with
  | nil => rfl
  | cons x xs ih => simp only [rbcalls, List.map_cons, List.filter_cons] at *; cases x.rollback <;> simp_all

theorem map_ran_s2 {hs : List (Hook σ)} (s : σ) :
    (hs.map (fun h => { h with ran := h.ran || h.s1commit.isSome })).foldl (fun s h => ap h.s2commit s) s
      = hs.foldl (fun s h => ap h.s2commit s) s := by
  rw [List.foldl_map]

/-! ### C15 -/

/-- C15. Committing a top-level transaction in which every stage 1 callback succeeds: the calls
executed are exactly every stage 1 commit callback, in registration order, then every stage 2
commit callback, in registration order; the commit succeeds and the transaction is closed. -/
theorem C15_commit (hs : List (Hook σ)) (e : Env σ) (h : AllOk hs e.st) :
    step ⟨e, [hs]⟩ .commit =
      .ok (⟨⟨hs.foldl (fun s h => ap h.s2commit s) (hs.foldl (fun s h => ap1 h.s1commit s) e.st),
            e.log ++ s1calls hs ++ s2calls hs⟩, []⟩, .ok ()) := by
  unfold step
  simp only
  rw [s1loop_ok hs e h]
  simp only
  rw [s2_fold, map_ran_ids, map_ran_s2]
  rfl

/-- Three hooks, one without callbacks, acting on a counter. -/
def exHooks (fail : Bool) : List (Hook Nat) :=
  [ { id := 1, s1commit := some (fun n => (n + 1, .ok ())), s1rollback := some (· - 1), s2commit := some (· * 2),
      rollback := some (· + 100) },
    { id := 2 },
    { id := 3, s1commit := some (fun n => if fail then (n, .error EBUSY) else (n + 10, .ok ())),
      s1rollback := some (· - 10), s2commit := some (· + 1000), rollback := some (· + 7) },
    { id := 4, s1commit := some (fun n => (n, .ok ())), s1rollback := some id, rollback := some (· + 1) } ]

/-- The hypothesis of `C15_commit`, and what happens. -/
example : AllOk (exHooks false) 5 := by simp [AllOk, exHooks, res1]
example : (step ⟨⟨5, []⟩, [exHooks false]⟩ .commit).map (fun p => (p.1.env.st, p.1.env.log, p.2))
    = .ok (1032, [(1, .s1commit), (3, .s1commit), (4, .s1commit), (1, .s2commit), (3, .s2commit)], .ok ()) := by
  decide +kernel

/-! ### C16 -/

theorem ran_rev {pre : List (Hook σ)} (hp : Fresh pre) :
    ((pre.map (fun h => { h with ran := h.ran || h.s1commit.isSome })).filter
        (fun h => h.ran && h.s1rollback.isSome)).map (fun h => (h.id, Stage.s1rollback)) = s1rbcalls pre := by
  induction pre with
  | nil => rfl
  | cons y ys ih =>
    have := hp y (by simp)
    have ih := ih (fun z hz => hp z (by simp [hz]))
    unfold s1rbcalls at *
    simp only [List.map_cons, List.filter_cons, this, Bool.false_or] at *
    cases y.s1commit <;> cases y.s1rollback <;> simp_all

theorem ran_state {pre : List (Hook σ)} (hp : Fresh pre) (s : σ) :
    (pre.map (fun h => { h with ran := h.ran || h.s1commit.isSome })).foldl
        (fun s h => if h.ran then ap h.s1rollback s else s) s
      = pre.foldl (fun s h => if h.s1commit.isSome then ap h.s1rollback s else s) s := by
  induction pre generalizing s with
  | nil => rfl
  | cons y ys ih =>
    have := hp y (by simp)
    have ih := ih (fun z hz => hp z (by simp [hz]))
    simp only [List.map_cons, List.foldl_cons, this, Bool.false_or]
    exact ih _

/-- C16. If the stage 1 callback of hook `h` is the first to fail, with error `x`, then: the stage
1 callbacks before it and itself have run, nothing after it and no stage 2; then stage 1 rollback
of exactly the earlier hooks whose stage 1 ran, in reverse order, then rollback of all hooks
(earlier, failing and later ones) in reverse order; the transaction is closed and the error is `x`. -/
theorem C16_failure (pre : List (Hook σ)) (h : Hook σ) (post : List (Hook σ)) (e : Env σ) (x : Errno)
    (hfresh : Fresh (pre ++ h :: post))
    (hok : AllOk pre e.st) (hf : res1 h.s1commit (after1 pre e.st) = .error x) :
    let s1 := ap1 h.s1commit (after1 pre e.st)
    let s2 := pre.reverse.foldl (fun s h => if h.s1commit.isSome then ap h.s1rollback s else s) s1
    let s3 := (pre ++ h :: post).reverse.foldl (fun s h => ap h.rollback s) s2
    step ⟨e, [pre ++ h :: post]⟩ .commit =
      .ok (⟨⟨s3, e.log ++ s1calls pre ++ [(h.id, .s1commit)] ++ s1rbcalls pre.reverse
              ++ rbcalls (pre ++ h :: post).reverse⟩, []⟩, .error x) := by
  intro s1 s2 s3
  have fpost : Fresh post.reverse := fresh_reverse (fun y hy => hfresh y (by simp [hy]))
  have fpre : Fresh pre.reverse := fun y hy => hfresh y (by simp at hy; simp [hy])
  have fh : h.ran = false := hfresh h (by simp)
  have rba : ∀ (a b : List (Hook σ)), rbcalls (a ++ b) = rbcalls a ++ rbcalls b := by
    intro a b; simp [rbcalls]
  unfold step
  simp only
  rw [s1loop_fail pre h post e x hok hf]
  simp only [abortHooks]
  rw [s1rb_fold, rb_fold]
  simp only [List.reverse_append, List.reverse_cons, List.append_assoc, List.filter_append,
    filter_ran_fresh fpost, List.nil_append, List.filter_cons, fh, Bool.false_and, List.filter_nil,
    List.foldl_append, foldl_fresh fpost, List.foldl_cons, List.foldl_nil, rba,
    ← List.map_reverse, map_ran_rb, ran_state fpre, List.map_append, ran_rev fpre]
  simp only [s3, s2, s1, List.reverse_append, List.reverse_cons, List.append_assoc, List.foldl_append, List.foldl_cons, List.foldl_nil,
    List.foldl_map]
  simp

/-- The hypotheses of `C16_failure`, and what happens; `C16_exhaustive` has none, and `C16_abort` only that of the next group. -/
example : AllOk ((exHooks true).take 2) 5
    ∧ res1 (((exHooks true)[2]?.bind (·.s1commit))) (after1 ((exHooks true).take 2) 5) = .error EBUSY := by
  refine ⟨by simp [AllOk, exHooks, res1], rfl⟩
example : (step ⟨⟨5, []⟩, [exHooks true]⟩ .commit).map (fun p => (p.1.env.st, p.1.env.log, p.2))
    = .ok (113, [(1, .s1commit), (3, .s1commit), (1, .s1rollback), (4, .rollback), (3, .rollback), (1, .rollback)],
        .error EBUSY) := by decide +kernel

/-- Every commit of a top-level transaction falls under C15 or C16. -/
theorem C16_exhaustive (hs : List (Hook σ)) (s : σ) :
    AllOk hs s ∨ ∃ pre h post x, hs = pre ++ h :: post ∧ AllOk pre s
      ∧ res1 h.s1commit (after1 pre s) = .error x := by
  induction hs generalizing s with
  | nil => exact .inl trivial
  | cons y ys ih =>
    cases hr : res1 y.s1commit s with
    | error x => exact .inr ⟨[], y, ys, x, rfl, trivial, hr⟩
    | ok u =>
      rcases ih (ap1 y.s1commit s) with h | ⟨pre, h, post, x, h1, h2, h3⟩
      · exact .inl ⟨hr, h⟩
      · exact .inr ⟨y :: pre, h, post, x, by rw [h1]; rfl, ⟨hr, h2⟩, h3⟩

/-- Aborting a transaction whose hooks have not been committed runs exactly the rollback callbacks
of its own hooks, in reverse order, and leaves the outer transactions' hooks alone. -/
theorem C16_abort (hs : List (Hook σ)) (rest : List (List (Hook σ))) (e : Env σ) (hf : Fresh hs) :
    step ⟨e, hs :: rest⟩ .abort =
      .ok (⟨⟨hs.reverse.foldl (fun s h => ap h.rollback s) e.st, e.log ++ rbcalls hs.reverse⟩, rest⟩, .ok ()) := by
  unfold step
  simp only
  rw [abortHooks_fresh hf]

/-! ### C17 -/

/-- `body` opens nested transactions, registers hooks (in whichever transaction is innermost) and
commits exactly the nested transactions it opened; `d` is the number of nested ones open. -/
def Balanced : Nat → List (Call σ) → Prop
  | d, [] => d = 0
  | d, .begin :: cs => Balanced (d + 1) cs
  | d, .add _ :: cs => Balanced d cs
  | d, .commit :: cs => 0 < d ∧ Balanced (d - 1) cs
  | _, .abort :: _ => False

/-- The hooks registered by a sequence of calls, in order. -/
def added : List (Call σ) → List (Hook σ)
  | [] => []
  | .add h :: cs => h :: added cs
  | _ :: cs => added cs

/-- Stack of `d + 1` transactions above `rest`. -/
theorem run_balanced (body : List (Call σ)) : ∀ (d : Nat) (e : Env σ) (inner : List (List (Hook σ)))
    (outer : List (Hook σ)) (rest : List (List (Hook σ))), inner.length = d → Balanced d body →
    ∃ rs, run ⟨e, inner ++ outer :: rest⟩ body
      = .ok (⟨e, (outer ++ inner.reverse.flatten ++ added body) :: rest⟩, rs) ∧ ∀ r ∈ rs, r = .ok () := by
  induction body with
  | nil =>
    intro d e inner outer rest hd hb
    simp only [Balanced] at hb
    subst hb
    have : inner = [] := List.length_eq_zero_iff.mp hd
    subst this
    exact ⟨[], by simp [run, added], by simp⟩
  | cons c cs ih =>
    intro d e inner outer rest hd hb
    cases c with
    | begin =>
      obtain ⟨rs, h1, h2⟩ := ih (d + 1) e ([] :: inner) outer rest (by simp [hd]) hb
      refine ⟨.ok () :: rs, ?_, by simpa using h2⟩
      simp only [run, step, bind_ok]
      rw [show ([] : List (Hook σ)) :: (inner ++ outer :: rest) = ([] :: inner) ++ outer :: rest from rfl, h1]
      simp [added]
    | add h =>
      cases inner with
      | nil =>
        obtain ⟨rs, h1, h2⟩ := ih d e [] (outer ++ [h]) rest hd hb
        refine ⟨.ok () :: rs, ?_, by simpa using h2⟩
        simp only [List.nil_append] at h1
        simp only [run, step, bind_ok, List.nil_append]
        rw [h1]
        simp [added]
      | cons x xs =>
        obtain ⟨rs, h1, h2⟩ := ih d e ((x ++ [h]) :: xs) outer rest hd hb
        refine ⟨.ok () :: rs, ?_, by simpa using h2⟩
        simp only [run, step, bind_ok, List.cons_append]
        rw [show (x ++ [h]) :: (xs ++ outer :: rest) = ((x ++ [h]) :: xs) ++ outer :: rest from rfl, h1]
        simp [added]
    | commit =>
      obtain ⟨hd0, hb⟩ := hb
      cases inner with
      | nil => simp at hd; omega
      | cons x xs =>
        cases xs with
        | nil =>
          obtain ⟨rs, h1, h2⟩ := ih (d - 1) e [] (outer ++ x) rest (by simp at hd; simp; omega) hb
          refine ⟨.ok () :: rs, ?_, by simpa using h2⟩
          simp only [List.nil_append] at h1
          simp only [run, step, bind_ok, List.cons_append, List.nil_append]
          rw [h1]
          simp [added]
        | cons y ys =>
          obtain ⟨rs, h1, h2⟩ := ih (d - 1) e ((y ++ x) :: ys) outer rest (by simp at hd; simp; omega) hb
          refine ⟨.ok () :: rs, ?_, by simpa using h2⟩
          simp only [run, step, bind_ok, List.cons_append]
          rw [show (y ++ x) :: (ys ++ outer :: rest) = ((y ++ x) :: ys) ++ outer :: rest from rfl, h1]
          simp [added]
    | abort => exact hb.elim

theorem run_append (w : World σ) (a b : List (Call σ)) :
    run w (a ++ b) = (do let (w1, r1) ← run w a; let (w2, r2) ← run w1 b; pure (w2, r1 ++ r2)) := by
  induction a generalizing w with
  | nil =>
    simp only [List.nil_append, run, bind_ok]
    cases run w b <;> rfl
  | cons c cs ih =>
    rw [List.cons_append]
    simp only [run]
    cases step w c with
    | error e => rfl
    | ok p =>
      obtain ⟨w1, r⟩ := p
      simp only [bind_ok]
      rw [ih]
      cases run w1 cs with
      | error e => rfl
      | ok q =>
        obtain ⟨w2, r2⟩ := q
        simp only [bind_ok, pure_eq_ok]
        cases run w2 b <;> rfl

/-- C17. Nested transactions that are begun and committed inside a transaction run no callback and
leave the outer transaction holding the hooks registered before, then those registered inside,
in order of registration; every nested commit succeeds. -/
theorem C17_nested_commit (body : List (Call σ)) (hb : Balanced 0 body) (e : Env σ)
    (outer : List (Hook σ)) (rest : List (List (Hook σ))) :
    ∃ rs, run ⟨e, outer :: rest⟩ body = .ok (⟨e, (outer ++ added body) :: rest⟩, rs)
      ∧ ∀ r ∈ rs, r = .ok () := by
  obtain ⟨rs, h1, h2⟩ := run_balanced body 0 e [] outer rest rfl hb
  exact ⟨rs, by simpa using h1, h2⟩

/-- C17. The outcome (callbacks executed and their order, outside state, error) of committing or
aborting the outermost transaction is the one of a single transaction in which the same hooks
were registered in the same order. -/
theorem C17_flat (body : List (Call σ)) (hb : Balanced 0 body) (e : Env σ) (fin : Call σ) :
    ∃ rs rs' r, (run ⟨e, [[]]⟩ (body ++ [fin])
        = (step ⟨e, [added body]⟩ fin).bind (fun p => .ok (p.1, rs ++ [p.2])))
      ∧ (run ⟨e, [[]]⟩ ((added body).map Call.add ++ [fin])
        = (step ⟨e, [added body]⟩ fin).bind (fun p => .ok (p.1, rs' ++ [p.2])))
      ∧ (∀ x ∈ rs ++ rs', x = r) := by
  have hadds : ∀ l : List (Hook σ), Balanced 0 (l.map Call.add) ∧ added (l.map Call.add) = l := by
    intro l
    induction l with
    | nil => exact ⟨rfl, rfl⟩
    | cons x xs ih => exact ⟨ih.1, by simp [added, ih.2]⟩
  obtain ⟨rs, h1, h2⟩ := C17_nested_commit body hb e [] []
  obtain ⟨rs', h1', h2'⟩ := C17_nested_commit _ (hadds (added body)).1 e [] []
  refine ⟨rs, rs', .ok (), ?_, ?_, ?_⟩
  · rw [run_append, h1]
    simp only [bind_ok, run, List.nil_append]
    cases step ⟨e, [added body]⟩ fin with
    | error x => rfl
    | ok p => rfl
  · rw [run_append, h1', (hadds _).2]
    simp only [bind_ok, run, List.nil_append]
    cases step ⟨e, [added body]⟩ fin with
    | error x => rfl
    | ok p => rfl
  · intro x hx
    rcases List.mem_append.mp hx with hx | hx
    · exact h2 x hx
    · exact h2' x hx

/-- C17. A nested transaction which is aborted runs the rollback callbacks of the hooks registered
inside it (also in committed transactions nested further), in reverse order, at once; the outer
transactions keep exactly their own hooks. -/
theorem C17_nested_abort (body : List (Call σ)) (hb : Balanced 0 body) (e : Env σ)
    (outer : List (Hook σ)) (rest : List (List (Hook σ))) (hf : Fresh (added body)) :
    ∃ rs, run ⟨e, outer :: rest⟩ (.begin :: body ++ [.abort])
      = .ok (⟨⟨(added body).reverse.foldl (fun s h => ap h.rollback s) e.st,
              e.log ++ rbcalls (added body).reverse⟩, outer :: rest⟩, rs) := by
  obtain ⟨rs, h1, -⟩ := C17_nested_commit body hb e [] (outer :: rest)
  refine ⟨.ok () :: (rs ++ [.ok ()]), ?_⟩
  rw [List.cons_append]
  simp only [run, step, bind_ok]
  rw [run_append, h1]
  simp only [bind_ok, run, List.nil_append]
  rw [C16_abort _ _ _ hf]
  rfl

/-- Three levels of nesting. -/
def exBody : List (Call Nat) :=
  [.add { id := 1, rollback := some (· + 1) }, .begin, .add { id := 2, s1commit := some (fun n => (n * 2, .ok ())) },
   .begin, .add { id := 3, s2commit := some (· + 5) }, .commit, .add { id := 4, rollback := some (· * 3) }, .commit,
   .add { id := 5, s1commit := some (fun n => (n + 1, .ok ())) }]
/-- The hypotheses of `C17_nested_commit`, `C17_flat` and `C17_nested_abort`; `Fresh` is that of `C16_abort`, too. -/
example : Balanced 0 exBody := by simp [Balanced, exBody]
example : (added exBody).map (·.id) = [1, 2, 3, 4, 5] ∧ Fresh (added exBody) := by
  refine ⟨rfl, ?_⟩
  intro h hh
  simp only [exBody, added, List.mem_cons, List.not_mem_nil, or_false] at hh
  rcases hh with h | h | h | h | h <;> subst h <;> rfl
example : ((run ⟨⟨7, []⟩, [[]]⟩ (exBody ++ [.commit])).map (fun p => (p.1.env.st, p.1.env.log)))
    = .ok (20, [(2, .s1commit), (5, .s1commit), (3, .s2commit)]) := by decide +kernel

end Dragonstash.Hooks
