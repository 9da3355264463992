import Verif.Blocklist.Hist
/-
  Counting blocks, and marks which hit the straddling case with a state other than ABSENT.
-/
namespace Dragonstash.Blocklist

open Spec (setRange countBelow)

theorem countBelow_congr {p q : Nat → Bool} {N : Nat} (h : ∀ b, b < N → p b = q b) :
    countBelow p N = countBelow q N := by
  induction N with
  | zero => rfl
  | succ n ih =>
    unfold countBelow
    rw [ih (fun b hb => h b (by omega)), h n (by omega)]

theorem countBelow_or {p q : Nat → Bool} (N : Nat) (h : ∀ b, ¬ (p b = true ∧ q b = true)) :
    countBelow (fun b => p b || q b) N = countBelow p N + countBelow q N := by
  induction N with
  | zero => rfl
  | succ n ih =>
    unfold countBelow
    rw [ih]
    have := h n
    cases hp : p n <;> cases hq : q n <;> simp_all <;> omega

theorem countBelow_false (N : Nat) : countBelow (fun _ => false) N = 0 := by
  induction N with
  | zero => rfl
  | succ n ih => unfold countBelow; rw [ih]; simp

theorem countBelow_range (s c : Nat) : ∀ N, s + c ≤ N →
    countBelow (fun b => decide (s ≤ b ∧ b < s + c)) N = c := by
  have key : ∀ N, countBelow (fun b => decide (s ≤ b ∧ b < s + c)) N = min c (N - s) := by
    intro N
    induction N with
    | zero => simp [countBelow]
    | succ n ih =>
      unfold countBelow
      rw [ih]
      by_cases h : s ≤ n ∧ n < s + c
      · simp only [h, and_self, decide_true, if_true]; omega
      · rw [decide_eq_false h]; simp only [Bool.false_eq_true, if_false]; omega
  intro N h
  rw [key]; omega

theorem countBelow_le (p : Nat → Bool) (N : Nat) : countBelow p N ≤ N := by
  induction N with
  | zero => exact Nat.le_refl _
  | succ n ih => unfold countBelow; split <;> omega

theorem countBelow_lt {p : Nat → Bool} {N b : Nat} (hb : b < N) (hp : p b = false) : countBelow p N < N := by
  induction N with
  | zero => omega
  | succ n ih =>
    unfold countBelow
    have := countBelow_le p n
    by_cases h : b = n
    · subst h; rw [hp]; simp; omega
    · have := ih (by omega); split <;> omega

theorem sem_hit {e : Entry} {L : List Entry} {b : Nat} (h : e.start ≤ b ∧ b < e.start + e.count) :
    sem (e :: L) b = dec e.state := if_pos h
theorem sem_miss {e : Entry} {L : List Entry} {b : Nat} (h : ¬ (e.start ≤ b ∧ b < e.start + e.count)) :
    sem (e :: L) b = sem L b := if_neg h

/-- In a list of disjoint entries the counts of the entries with state byte `t` add up to the
number of blocks with that state. -/
theorem total_eq_count {L : List Entry} (h : Wf L) {t : Nat} (ht : t < 4) (N : Nat)
    (hN : ∀ e ∈ L, e.start + e.count ≤ N) :
    total t L = countBelow (fun b => decide (sem L b = dec t)) N := by
  induction L with
  | nil =>
    rw [total_nil, ← countBelow_false N]
    apply countBelow_congr
    intro b _
    have := dec_ne_absent ht
    simp [sem, this.symm]
  | cons e L ih =>
    rw [total_cons, ih h.tail (fun x hx => hN x (by simp [hx]))]
    have hd := (List.pairwise_cons.1 h.disj).1
    -- nothing behind `e` covers a block of `e`
    have hno : ∀ b, e.covers b → sem L b = .absent := by
      intro b hb
      apply sem_absent
      rintro t' ⟨x, hx, hxb, _⟩
      have := hd x hx
      unfold Entry.covers at hb hxb
      omega
    have heq : ∀ b, decide (sem (e :: L) b = dec t) =
        ((decide (e.start ≤ b ∧ b < e.start + e.count) && decide (e.state = t)) || decide (sem L b = dec t)) := by
      intro b
      by_cases hb : e.covers b
      · rw [sem_hit hb, hno b hb]
        have h1 : decide (State.absent = dec t) = false := decide_eq_false (dec_ne_absent ht).symm
        have h2 : decide (e.start ≤ b ∧ b < e.start + e.count) = true := decide_eq_true hb
        rw [h1, h2]
        simp only [Bool.or_false, Bool.true_and]
        have hs := (h.ok e (by simp)).state
        by_cases hh : e.state = t
        · simp [hh]
        · have : dec e.state ≠ dec t := fun hc => hh (by rw [← code_dec hs, hc, code_dec ht])
          simp [hh, this]
      · rw [sem_miss hb]
        have h2 : decide (e.start ≤ b ∧ b < e.start + e.count) = false := decide_eq_false hb
        rw [h2]; simp
    rw [countBelow_congr (fun b _ => heq b), countBelow_or]
    · congr 1
      by_cases hh : e.state = t
      · rw [if_pos hh]
        simp only [hh, decide_true, Bool.and_true]
        exact (countBelow_range _ _ _ (hN e (by simp))).symm
      · rw [if_neg hh]
        simp only [hh, decide_false, Bool.and_false]
        exact (countBelow_false N).symm
    · rintro b ⟨h1, h2⟩
      simp only [Bool.and_eq_true, decide_eq_true_eq] at h1 h2
      rw [hno b h1.1] at h2
      exact dec_ne_absent ht h2.symm

/-- All blocks with a state: the sum over the four states. -/
theorem count_present (m : Spec.Map) (N : Nat) :
    countBelow (fun b => decide (m b ≠ .absent)) N =
      countBelow (fun b => decide (m b = .readahead)) N + countBelow (fun b => decide (m b = .read)) N +
      countBelow (fun b => decide (m b = .pinned)) N + countBelow (fun b => decide (m b = .written)) N := by
  induction N with
  | zero => rfl
  | succ n ih =>
    unfold countBelow
    rw [ih]
    cases m n <;> simp <;> omega

theorem Inv.cnt_eq {f : File} {L : List Entry} (h : Inv f L) (hw : Wf L) {t : Nat} (ht : t < 4) :
    f.cnt t = countBelow (fun b => decide (sem L b = dec t)) W64 := by
  have h1 : ∀ e ∈ L, e.start + e.count ≤ W64 - 1 := by
    intro e he; have := (hw.ok e he).range; omega
  have h2 : ∀ e ∈ L, e.start + e.count ≤ W64 := by
    intro e he; have := (hw.ok e he).range; omega
  have e1 := total_eq_count hw ht (W64 - 1) h1
  have e2 := total_eq_count hw ht W64 h2
  have := countBelow_le (fun b => decide (sem L b = dec t)) (W64 - 1)
  rw [h.cnt, ← e2]
  unfold wrapI
  omega

/-! ### Marks with a state other than ABSENT set exactly their range, from every list of
disjoint entries. -/

theorem sem_append_left {A B : List Entry} {b : Nat} (h : ∀ e ∈ A, ¬ e.covers b) :
    sem (A ++ B) b = sem B b := by
  induction A with
  | nil => rfl
  | cons a A ih =>
    have h1 := h a (by simp)
    simp only [List.cons_append, sem, if_neg h1]
    exact ih (fun e he => h e (by simp [he]))

theorem sem_append_right {A B : List Entry} {b : Nat} (h : ∀ e ∈ B, ¬ e.covers b) :
    sem (A ++ B) b = sem A b := by
  induction A with
  | nil => exact sem_absent (fun t ⟨e, he, hc, _⟩ => h e he hc)
  | cons a A ih => simp only [List.cons_append, sem, ih]

theorem absorbNext_sem {x : Entry} {B : List Entry} (b : Nat) :
    sem (absorbNext x B) b = sem (x :: B) b := by
  cases B with
  | nil => rfl
  | cons y B =>
    by_cases hm : mergeable x y
    · simp only [absorbNext, hm, if_true]
      obtain ⟨m1, m2, _⟩ := hm
      by_cases h1 : x.start ≤ b ∧ b < x.start + x.count
      · rw [sem_hit h1, sem_hit (by simp only; omega)]
      · rw [sem_miss h1]
        by_cases h2 : y.start ≤ b ∧ b < y.start + y.count
        · rw [sem_hit h2, sem_hit (by simp only; omega), m2]
        · rw [sem_miss h2, sem_miss (by simp only; omega)]
    · simp only [absorbNext, hm, if_false]

theorem absorbPrev_sem {A X : List Entry} (b : Nat) : sem (absorbPrev A X) b = sem (A ++ X) b := by
  rcases List.eq_nil_or_concat A with rfl | ⟨P, q, rfl⟩
  · simp [absorbPrev]
  · cases X with
    | nil =>
      rw [List.concat_eq_append, List.append_nil]
      have : absorbPrev (P ++ [q]) [] = P ++ [q] := by
        clear b
        induction P with
        | nil => rfl
        | cons p P ih =>
          cases P with
          | nil => rfl
          | cons p' P => simp only [List.cons_append, absorbPrev] at ih ⊢; rw [ih]
      rw [this]
    | cons x X =>
      rw [List.concat_eq_append, absorbPrev_snoc]
      have key : ∀ Y Z : List Entry, sem Y b = sem Z b → sem (P ++ Y) b = sem (P ++ Z) b := by
        intro Y Z h
        induction P with
        | nil => exact h
        | cons p P ih => simp only [List.cons_append, sem, ih]
      by_cases hm : mergeable q x
      · rw [if_pos hm, List.append_assoc]
        apply key
        have := absorbNext_sem (x := q) (B := x :: X) b
        simp only [absorbNext, hm, if_true] at this
        exact this
      · rw [if_neg hm, List.append_assoc]; rfl

/-- What lies behind the mark. -/
theorem post_sem {L : List Entry} {s e : Nat} (h : W0 L) (hse : s ≤ e) (b : Nat) (hb : e ≤ b) :
    sem (prePost L s e).2 b = sem L b := by
  have hL : sem (hi e L) b = sem L b := by
    conv => rhs; rw [← lo_append_hi e L]
    rw [sem_append_left]
    intro x hx hc
    have := lo_le x hx
    unfold Entry.covers at hc; omega
  by_cases hs : Straddle L s e
  · obtain ⟨r, R, hR, h1, h2, _⟩ := hs
    have : (prePost L s e).2 = hi e L := by
      unfold prePost
      rw [hR]
      simp only
      rw [if_pos (by omega), if_pos ⟨h1, h2⟩]
    rw [this, hL]
  · rw [post_eq hse hs]
    rw [← hL]
    cases hB : hi e L with
    | nil => rfl
    | cons y B =>
      rw [trimHead_cons]
      split
      · have hy := h.hi_gt e y (by rw [hB]; simp)
        by_cases hc : y.start ≤ b ∧ b < y.start + y.count
        · rw [sem_hit hc, sem_hit (by simp only; omega)]
        · rw [sem_miss hc, sem_miss (by simp only; omega)]
      · rfl

theorem post_start {L : List Entry} {s e : Nat} (h : Wf L) (hse : s ≤ e) :
    ∀ x ∈ (prePost L s e).2, s ≤ x.start := by
  by_cases hs : Straddle L s e
  · obtain ⟨r, R, hR, h1, h2, _⟩ := hs
    have : (prePost L s e).2 = hi e L := by
      unfold prePost
      rw [hR]
      simp only
      rw [if_pos (by omega), if_pos ⟨h1, h2⟩]
    rw [this]
    intro x hx
    have hx2 : x ∈ hi s L := by rw [← hi_hi hse] at hx; exact mem_hi hx
    rw [hR] at hx2
    obtain ⟨_, p2, _⟩ := wf_parts (s := s) h
    rw [hR, List.pairwise_cons] at p2
    simp only [List.mem_cons] at hx2
    rcases hx2 with rfl | hx2
    · omega
    · have := p2.1 x hx2; omega
  · rw [post_eq hse hs]
    obtain ⟨_, q2⟩ := trimHead_disj (e := e) h
    intro x hx
    have := q2 x hx; omega

/-- Marking with a state other than ABSENT is always right on a list of disjoint entries. -/
theorem markL_sem_present {L : List Entry} {s c : Nat} {st : State} (h : Wf L)
    (hst : st ≠ .absent) : sem (markL L s c st) = setRange (sem L) s c st := by
  funext b
  have hse : s ≤ s + c := by omega
  have p2 := pre_le hse h.w0
  have pc := fun t => pre_cov (s := s) (e := s + c) h b t
  unfold markL
  simp only
  rw [if_neg hst, absorbPrev_sem]
  have key : ∀ Y Z : List Entry, sem Y b = sem Z b →
      sem ((prePost L s (s + c)).1 ++ Y) b = sem ((prePost L s (s + c)).1 ++ Z) b := by
    intro Y Z h
    induction (prePost L s (s + c)).1 with
    | nil => exact h
    | cons p P ih => simp only [List.cons_append, sem, ih]
  rw [key _ _ (absorbNext_sem b)]
  unfold setRange
  by_cases h1 : s ≤ b ∧ b < s + c
  · rw [if_pos h1, sem_append_left]
    · rw [sem_hit h1, dec_code]
    · intro e he hc
      have := p2 e he
      unfold Entry.covers at hc; omega
  · rw [if_neg h1]
    by_cases h2 : b < s
    · rw [sem_append_right]
      · apply sem_congr _ h (fun t => by rw [pc]; exact ⟨fun h => h.2, fun h => ⟨h2, h⟩⟩)
        exact ⟨pre_ok hse h.w0, pre_disj h⟩
      · intro e he hc
        simp only [List.mem_cons] at he
        unfold Entry.covers at hc
        rcases he with rfl | he
        · simp only at hc; omega
        · have := post_start h hse e he; omega
    · rw [sem_append_left]
      · rw [sem_miss (by simp only; omega)]
        exact post_sem h.w0 hse b (by omega)
      · intro e he hc
        have := p2 e he
        unfold Entry.covers at hc; omega

end Dragonstash.Blocklist
