import Verif.Blocklist.Raw
/-
  `mark_internal` as a function on the list of live entries, and the proof that the raw file
  operations compute it without faults.
-/
namespace Dragonstash.Blocklist

/-- Entries which end at or before block `b` (a prefix of the list). -/
def lo (b : Nat) (L : List Entry) : List Entry := L.takeWhile (fun e => decide (e.start + e.count ≤ b))
/-- The rest. -/
def hi (b : Nat) (L : List Entry) : List Entry := L.dropWhile (fun e => decide (e.start + e.count ≤ b))

/-- Cut off the part of the first entry before `e`. -/
def trimHead (e : Nat) : List Entry → List Entry
  | [] => []
  | b :: B => if b.start < e then ⟨e, b.start + b.count - e, b.state⟩ :: B else b :: B

/-- The part of `r` before `s`. -/
def leftOf (s : Nat) (r : Entry) : Entry := ⟨r.start, s - r.start, r.state⟩

/-- Entries before and after the marked range `[s, e)`.  In the third branch (an entry starting
exactly at `s` which ends within the range) nothing is trimmed at `e`. -/
def prePost (L : List Entry) (s e : Nat) : List Entry × List Entry :=
  match hi s L with
  | [] => (lo s L, [])
  | r :: _ =>
    if r.start ≤ s then
      if r.start = s ∧ r.start + r.count ≤ e then (lo s L, hi e L)
      else (lo s L ++ [leftOf s r], trimHead e (hi e L))
    else (lo s L, trimHead e (hi e L))

/-- Two neighbouring entries can be merged. -/
def mergeable (p x : Entry) : Prop :=
  p.start + p.count = x.start ∧ p.state = x.state ∧ p.count + x.count ≤ 65535

instance (p x : Entry) : Decidable (mergeable p x) := by unfold mergeable; infer_instance

/-- Merge `x` with the entry following it. -/
def absorbNext (x : Entry) : List Entry → List Entry
  | [] => [x]
  | y :: B => if mergeable x y then ⟨x.start, x.count + y.count, x.state⟩ :: B else x :: y :: B

/-- Merge the head of the second list into the last entry of the first. -/
def absorbPrev : List Entry → List Entry → List Entry
  | [], X => X
  | [q], x :: X => if mergeable q x then ⟨q.start, q.count + x.count, q.state⟩ :: X else q :: x :: X
  | [q], [] => [q]
  | q :: q' :: P, X => q :: absorbPrev (q' :: P) X

theorem absorbPrev_snoc (P : List Entry) (q x : Entry) (X : List Entry) :
    absorbPrev (P ++ [q]) (x :: X) =
      P ++ (if mergeable q x then ⟨q.start, q.count + x.count, q.state⟩ :: X else q :: x :: X) := by
  induction P with
  | nil => simp [absorbPrev]
  | cons p P ih =>
    cases P with
    | nil => simp [absorbPrev]
    | cons p' P => simp only [List.cons_append, absorbPrev]; rw [← List.cons_append, ih]; simp

/-- The list of entries after marking. -/
def markL (L : List Entry) (s c : Nat) (st : State) : List Entry :=
  let pp := prePost L s (s + c)
  if st = .absent then pp.1 ++ pp.2
  else absorbPrev pp.1 (absorbNext ⟨s, c, st.code⟩ pp.2)

/-- The invariant of every history of marks: entries are in range, ends do not decrease. -/
structure W0 (L : List Entry) : Prop where
  ok : ∀ e ∈ L, EOk e
  mono : L.Pairwise (fun a b => a.start + a.count ≤ b.start + b.count)

theorem lo_append_hi (b : Nat) (L : List Entry) : lo b L ++ hi b L = L := List.takeWhile_append_dropWhile

theorem lo_le {b : Nat} {L : List Entry} : ∀ e ∈ lo b L, e.start + e.count ≤ b := by
  intro e he
  induction L with
  | nil => simp [lo] at he
  | cons a L ih =>
    unfold lo at he ih
    rw [List.takeWhile_cons] at he
    by_cases ha : a.start + a.count ≤ b
    · simp only [ha, decide_true, if_true, List.mem_cons] at he
      rcases he with rfl | he
      · exact ha
      · exact ih he
    · simp [ha] at he

theorem hi_gt {b : Nat} {L : List Entry} (h : L.Pairwise (fun a b => a.start + a.count ≤ b.start + b.count)) :
    ∀ e ∈ hi b L, b < e.start + e.count := by
  induction L with
  | nil => simp [hi]
  | cons a L ih =>
    rw [List.pairwise_cons] at h
    unfold hi
    rw [List.dropWhile_cons]
    by_cases ha : a.start + a.count ≤ b
    · simp only [ha, decide_true, if_true]; exact ih h.2
    · simp only [ha, decide_false, Bool.false_eq_true, if_false, List.mem_cons]
      rintro e (rfl | he)
      · omega
      · have := h.1 e he; omega

theorem W0.hi_gt {L : List Entry} (h : W0 L) (b : Nat) : ∀ e ∈ hi b L, b < e.start + e.count :=
  Blocklist.hi_gt h.mono

theorem hi_hi {s e : Nat} (h : s ≤ e) (L : List Entry) : hi e (hi s L) = hi e L := by
  induction L with
  | nil => rfl
  | cons a L ih =>
    unfold hi at *
    rw [List.dropWhile_cons, List.dropWhile_cons]
    by_cases ha : a.start + a.count ≤ s
    · have : a.start + a.count ≤ e := by omega
      simp only [ha, this, decide_true, if_true]; exact ih
    · simp only [ha, decide_false, Bool.false_eq_true, if_false]
      rw [List.dropWhile_cons]

variable {f : File} {S : List Entry} {g : Nat → Int}

/-- Binary search finds the boundary. -/
theorem upperBound_rep {A R : List Entry} {b : Nat} (h : Rep f (A ++ R) S g)
    (hA : ∀ e ∈ A, e.fin ≤ b) (hR : ∀ e ∈ R, b < e.fin) :
    ∀ fuel first len, len ≤ fuel → first ≤ A.length → A.length ≤ first + len →
      first + len ≤ (A ++ R).length → upperBound f b fuel first len = .ok A.length := by
  intro fuel
  induction fuel with
  | zero =>
    intro first len h1 h2 h3 h4
    have : len = 0 := by omega
    subst this
    unfold upperBound
    congr 1; omega
  | succ fuel ih =>
    intro first len h1 h2 h3 h4
    cases len with
    | zero => unfold upperBound; congr 1; omega
    | succ len =>
      unfold upperBound
      have hm : first + (len + 1) / 2 < (A ++ R).length := by omega
      have hd : deref f (first + (len + 1) / 2) 335 = .ok (A ++ R)[first + (len + 1) / 2] := by
        unfold deref
        rw [h.mapped, h.slots, List.getElem?_append_left hm]
        simp only [if_true, List.getElem?_eq_getElem hm]
      simp only [hd, bind_ok]
      by_cases hc : first + (len + 1) / 2 < A.length
      · have hx : (A ++ R)[first + (len + 1) / 2] = A[first + (len + 1) / 2] := List.getElem_append_left hc
        have := hA _ (List.getElem_mem hc)
        rw [hx, if_neg (by omega)]
        apply ih <;> omega
      · have hx : (A ++ R)[first + (len + 1) / 2] = R[first + (len + 1) / 2 - A.length]'(by
            simp at hm; omega) := List.getElem_append_right (by omega)
        have := hR _ (List.getElem_mem (l := R) (n := first + (len + 1) / 2 - A.length) (by simp at hm; omega))
        rw [hx, if_pos (by omega)]
        apply ih <;> omega

theorem searchEntry_rep {L : List Entry} (h : Rep f L S g) (hw : W0 L) (b : Nat) :
    searchEntry f b = .ok (lo b L).length := by
  have h' : Rep f (lo b L ++ hi b L) S g := h.congrL (lo_append_hi b L).symm
  unfold searchEntry
  rw [h'.n]
  refine upperBound_rep h' ?_ ?_ _ _ _ (Nat.le_refl _) (Nat.zero_le _) (by simp) (by simp)
  · intro e he
    rw [(hw.ok e (by rw [← lo_append_hi b L]; simp [he])).fin_eq]
    exact lo_le e he
  · intro e he
    rw [(hw.ok e (by rw [← lo_append_hi b L]; simp [he])).fin_eq]
    exact hw.hi_gt b e he

theorem tryMerge_rep {A B : List Entry} {p x : Entry} (h : Rep f (A ++ p :: x :: B) S g)
    (hp : EOk p) (hx : EOk x) :
    (mergeable p x → ∃ f' S', tryMerge f (A.length + 1) = .ok (f', true, A.length) ∧
        Rep f' (A ++ ⟨p.start, p.count + x.count, p.state⟩ :: B) S' g) ∧
    (¬ mergeable p x → tryMerge f (A.length + 1) = .ok (f, false, A.length + 1)) := by
  have d1 : deref f A.length 262 = .ok p := deref_rep h 262
  have d2 : deref f (A.length + 1) 262 = .ok x := by
    have := deref_rep (A := A ++ [p]) (B := B) (x := x) (h.congrL (by simp)) 262
    simpa using this
  have hs : tryMerge f (A.length + 1) = (if p.fin ≠ x.start then .ok (f, false, A.length + 1)
      else if p.state ≠ x.state then .ok (f, false, A.length + 1)
      else if p.count + x.count > 65535 then .ok (f, false, A.length + 1)
      else do
        let f ← store f A.length { p with count := u16 (p.count + x.count) } 280
        let f ← addCnt f p.state x.count 283
        let (f, j) ← deleteEntry f (A.length + 1)
        .ok (f, true, j - 1)) := by
    unfold tryMerge
    simp only [Nat.add_one_ne_zero, if_false, Nat.add_sub_cancel, d1, d2, bind_ok, pure_eq_ok]
  rw [hp.fin_eq] at hs
  constructor
  · rintro ⟨m1, m2, m3⟩
    rw [hs, if_neg (by simp [m1]), if_neg (by simp [m2]), if_neg (by omega)]
    have hu : u16 (p.count + x.count) = p.count + x.count := by unfold u16; omega
    rw [hu]
    obtain ⟨f1, e1, r1⟩ := store_rep h ⟨p.start, p.count + x.count, p.state⟩ 280
    obtain ⟨f2, e2, r2⟩ := addCnt_rep r1 (d := x.count) hp.state 283
    let p' : Entry := ⟨p.start, p.count + x.count, p.state⟩
    have r2' := r2.congrL (show A ++ p' :: x :: B = (A ++ [p']) ++ [x] ++ B by simp)
    obtain ⟨f3, S', e3, r3⟩ := deleteRange_rep r2' (by
      intro e he; simp at he; subst he; exact hx)
    have hlen : (A ++ [p']).length = A.length + 1 := by simp
    refine ⟨f3, S', ?_, r3.congr (by simp [p']) rfl ?_⟩
    · simp only [e1, e2, bind_ok]
      have hem : ensureMapped f2 = f2 := by unfold ensureMapped; rw [r2.mapped]; simp
      have hne : ¬ A.length + 1 = f2.n := by rw [r2.n]; simp
      unfold deleteEntry
      simp only [hem, hne, if_false]
      rw [hlen] at e3
      simp only [List.length_cons, List.length_nil, Nat.zero_add] at e3
      rw [e3]; simp
    · intro t
      by_cases ht : p.state = t
      · have : x.state = t := by rw [← m2]; exact ht
        simp [this, ht]
      · have h1 : ¬ x.state = t := by rw [← m2]; exact ht
        simp [h1, Ne.symm ht]
  · intro hm
    rw [hs]
    by_cases m1 : p.start + p.count = x.start
    · by_cases m2 : p.state = x.state
      · have : p.count + x.count > 65535 := by
          apply Nat.lt_of_not_le; intro m3; exact hm ⟨m1, m2, m3⟩
        simp [m1, m2, this]
      · simp [m1, m2]
    · simp [m1]

theorem mergeAround_rep {A B : List Entry} {x : Entry} (h : Rep f (A ++ x :: B) S g)
    (hok : ∀ e ∈ A ++ x :: B, EOk e) (hmono : (A ++ x :: B).Pairwise (fun a b => a.start + a.count ≤ b.start + b.count)) :
    ∃ f' S', mergeAround f A.length = .ok f' ∧ Rep f' (absorbPrev A (absorbNext x B)) S' g := by
  have hx : EOk x := hok x (by simp)
  -- first step
  obtain ⟨f1, S1, x1, B1, e1, r1, ab1, hx1⟩ : ∃ f1 S1 x1 B1,
      mergeNext f A.length = .ok (f1, A.length) ∧ Rep f1 (A ++ x1 :: B1) S1 g ∧
      absorbNext x B = x1 :: B1 ∧ EOk x1 := by
    cases B with
    | nil =>
      refine ⟨f, S, x, [], ?_, h, rfl, hx⟩
      unfold mergeNext; rw [h.n]; simp
    | cons y B =>
      have hne : A.length + 1 ≠ f.n := by rw [h.n]; simp
      unfold mergeNext; rw [if_pos hne]
      have hy : EOk y := hok y (by simp)
      have tm := tryMerge_rep h hx hy
      by_cases hm : mergeable x y
      · obtain ⟨f', S', e, r⟩ := tm.1 hm
        refine ⟨f', S', _, B, by rw [e]; rfl, r, by simp [absorbNext, hm], ?_⟩
        have h1 := hy.range
        exact ⟨by have := hm.1; simp; omega, hm.2.2, hx.state⟩
      · refine ⟨f, S, x, y :: B, by rw [tm.2 hm]; rfl, h, by simp [absorbNext, hm], hx⟩
  have hmA : mergeAround f A.length = (tryMerge f1 A.length).map (fun r => r.1) := by
    unfold mergeAround
    simp only [e1, bind_ok]
    cases tryMerge f1 A.length <;> rfl
  rw [hmA, ab1]
  rcases List.eq_nil_or_concat A with rfl | ⟨P, q, rfl⟩
  · refine ⟨f1, S1, ?_, r1.congrL (by simp [absorbPrev])⟩
    simp [tryMerge, Except.map]
  · have hq : EOk q := hok q (by simp)
    have r1' : Rep f1 (P ++ q :: x1 :: B1) S1 g := r1.congrL (by simp)
    have tm := tryMerge_rep r1' hq hx1
    have hl : (P.concat q).length = P.length + 1 := by simp
    rw [hl, List.concat_eq_append, absorbPrev_snoc]
    by_cases hm : mergeable q x1
    · obtain ⟨f', S', e, r⟩ := tm.1 hm
      exact ⟨f', S', by rw [e]; rfl, r.congrL (by simp [hm])⟩
    · exact ⟨f1, S1, by rw [tm.2 hm]; rfl, r1'.congrL (by simp [hm])⟩

theorem total_absorbNext (t : Nat) (x : Entry) (B : List Entry) :
    total t (absorbNext x B) = total t (x :: B) := by
  cases B with
  | nil => rfl
  | cons y B =>
    by_cases hm : mergeable x y
    · have := hm.2.1
      simp only [absorbNext, hm, if_true]
      by_cases h : x.state = t
      · simp [h, ← this]; omega
      · simp [h, ← this]
    · simp only [absorbNext, hm, if_false]

theorem total_absorbPrev (t : Nat) (A X : List Entry) :
    total t (absorbPrev A X) = total t (A ++ X) := by
  rcases List.eq_nil_or_concat A with rfl | ⟨P, q, rfl⟩
  · simp [absorbPrev]
  · cases X with
    | nil =>
      rw [List.concat_eq_append, List.append_nil]
      congr 1
      induction P with
      | nil => rfl
      | cons p P ih => cases P with
        | nil => simp [absorbPrev]
        | cons p' P => simp only [List.cons_append, absorbPrev] at *; rw [ih]
    | cons x X =>
      rw [List.concat_eq_append, absorbPrev_snoc]
      by_cases hm : mergeable q x
      · have := hm.2.1
        simp only [hm, if_true]
        by_cases h : q.state = t
        · simp [h, ← this]; omega
        · simp [h, ← this]
      · simp [hm]

end Dragonstash.Blocklist
