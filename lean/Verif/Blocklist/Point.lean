import Verif.Blocklist.Hist
import Verif.Blocklist.Count
/-
  Block by block: `state()` scans the entries from the front, the search of `mark` looks for the
  first entry which ends behind a block.  As long as both agree on a block, marks elsewhere keep
  its state, and a mark of the block with a state other than ABSENT makes both agree.
-/
namespace Dragonstash.Blocklist
open Spec

/-- The state of a block as the binary search sees it: only the first entry ending behind `b`
counts. -/
def bsem : List Entry → Map
  | [], _ => .absent
  | e :: L, b => if b < e.start + e.count then (if e.start ≤ b then dec e.state else .absent) else bsem L b

theorem bsem_skip {A B : List Entry} {b : Nat} (h : ∀ e ∈ A, e.start + e.count ≤ b) :
    bsem (A ++ B) b = bsem B b := by
  induction A with
  | nil => rfl
  | cons a A ih =>
    have h1 := h a (by simp)
    simp only [List.cons_append, bsem]
    rw [if_neg (by omega)]
    exact ih (fun e he => h e (by simp [he]))

theorem bsem_stop {A B : List Entry} {b : Nat} (h : ∃ e ∈ A, b < e.start + e.count) :
    bsem (A ++ B) b = bsem A b := by
  induction A with
  | nil => simp at h
  | cons a A ih =>
    simp only [List.cons_append, bsem]
    by_cases ha : b < a.start + a.count
    · rw [if_pos ha, if_pos ha]
    · rw [if_neg ha, if_neg ha]
      apply ih
      obtain ⟨e, he, hb⟩ := h
      simp only [List.mem_cons] at he
      rcases he with rfl | he
      · exact absurd hb ha
      · exact ⟨e, he, hb⟩

theorem bsem_none {L : List Entry} {b : Nat} (h : ∀ e ∈ L, ¬ e.covers b) : bsem L b = .absent := by
  induction L with
  | nil => rfl
  | cons a L ih =>
    simp only [bsem]
    by_cases ha : b < a.start + a.count
    · rw [if_pos ha, if_neg]
      intro hs; exact h a (by simp) ⟨hs, ha⟩
    · rw [if_neg ha]; exact ih (fun e he => h e (by simp [he]))

theorem sem_none {L : List Entry} {b : Nat} (h : ∀ e ∈ L, ¬ e.covers b) : sem L b = .absent :=
  sem_absent (fun _ ⟨e, he, hc, _⟩ => h e he hc)

theorem none_of_sem {L : List Entry} {b : Nat} (hok : ∀ e ∈ L, EOk e) (h : sem L b = .absent) :
    ∀ e ∈ L, ¬ e.covers b := by
  induction L with
  | nil => simp
  | cons a L ih =>
    intro e he hc
    simp only [sem] at h
    by_cases ha : a.covers b
    · rw [if_pos ha] at h
      exact dec_ne_absent (hok a (by simp)).state h
    · rw [if_neg ha] at h
      simp only [List.mem_cons] at he
      rcases he with rfl | he
      · exact ha hc
      · exact ih (fun e he => hok e (by simp [he])) h e he hc

theorem sem_stop {A B : List Entry} {b : Nat} (h : ∃ e ∈ A, e.covers b) : sem (A ++ B) b = sem A b := by
  induction A with
  | nil => simp at h
  | cons a A ih =>
    simp only [List.cons_append, sem]
    by_cases ha : a.covers b
    · rw [if_pos ha, if_pos ha]
    · rw [if_neg ha, if_neg ha]
      apply ih
      obtain ⟨e, he, hb⟩ := h
      simp only [List.mem_cons] at he
      rcases he with rfl | he
      · exact absurd hb ha
      · exact ⟨e, he, hb⟩

theorem absorbNext_bsem {x : Entry} {B : List Entry} (b : Nat) :
    bsem (absorbNext x B) b = bsem (x :: B) b := by
  cases B with
  | nil => rfl
  | cons y B =>
    by_cases hm : mergeable x y
    · simp only [absorbNext, hm, if_true, bsem]
      obtain ⟨m1, m2, _⟩ := hm
      by_cases h1 : b < x.start + x.count
      · rw [if_pos (by omega), if_pos h1]
      · rw [if_neg h1]
        by_cases h2 : b < y.start + y.count
        · rw [if_pos h2, if_pos (by omega), if_pos (by omega), if_pos (by omega), m2]
        · rw [if_neg h2, if_neg (by omega)]
    · simp only [absorbNext, hm, if_false]

theorem absorbPrev_bsem {A X : List Entry} (b : Nat) : bsem (absorbPrev A X) b = bsem (A ++ X) b := by
  rcases List.eq_nil_or_concat A with rfl | ⟨P, q, rfl⟩
  · simp [absorbPrev]
  · cases X with
    | nil =>
      rw [List.concat_eq_append, List.append_nil]
      have : absorbPrev (P ++ [q]) [] = P ++ [q] := by
        clear b
        induction P with
        | nil => rfl
        | cons p P ih =>
          cases P with
          | nil => rfl
          | cons p' P => simp only [List.cons_append, absorbPrev] at ih ⊢; rw [ih]
      rw [this]
    | cons x X =>
      rw [List.concat_eq_append, absorbPrev_snoc]
      have key : ∀ Y Z : List Entry, bsem Y b = bsem Z b → bsem (P ++ Y) b = bsem (P ++ Z) b := by
        intro Y Z h
        induction P with
        | nil => exact h
        | cons p P ih => simp only [List.cons_append, bsem, ih]
      by_cases hm : mergeable q x
      · rw [if_pos hm, List.append_assoc]
        apply key
        have := absorbNext_bsem (x := q) (B := x :: X) b
        simp only [absorbNext, hm, if_true] at this
        exact this
      · rw [if_neg hm, List.append_assoc]; rfl

/-- Both ways of looking at block `b` give `v`. -/
def At (L : List Entry) (b : Nat) (v : State) : Prop := sem L b = v ∧ bsem L b = v

theorem sem_congr_append {A Y Z : List Entry} {b : Nat} (h : sem Y b = sem Z b) :
    sem (A ++ Y) b = sem (A ++ Z) b := by
  induction A with
  | nil => exact h
  | cons p P ih => simp only [List.cons_append, sem, ih]

theorem bsem_congr_append {A Y Z : List Entry} {b : Nat} (h : bsem Y b = bsem Z b) :
    bsem (A ++ Y) b = bsem (A ++ Z) b := by
  induction A with
  | nil => exact h
  | cons p P ih => simp only [List.cons_append, bsem, ih]

/-- The entry inserted by a mark, if any. -/
def newPart (s c : Nat) (st : State) : List Entry := if st = .absent then [] else [⟨s, c, st.code⟩]

/-- Merging aside, a mark puts its entry between what lies before and behind. -/
theorem markL_point (L : List Entry) (s c : Nat) (st : State) (b : Nat) :
    sem (markL L s c st) b =
      sem ((prePost L s (s + c)).1 ++ (newPart s c st ++ (prePost L s (s + c)).2)) b ∧
    bsem (markL L s c st) b =
      bsem ((prePost L s (s + c)).1 ++ (newPart s c st ++ (prePost L s (s + c)).2)) b := by
  unfold markL newPart
  by_cases hst : st = .absent
  · simp only [if_pos hst]; exact ⟨rfl, rfl⟩
  · simp only [if_neg hst]
    constructor
    · rw [absorbPrev_sem]
      exact sem_congr_append (absorbNext_sem b)
    · rw [absorbPrev_bsem]
      exact bsem_congr_append (absorbNext_bsem b)

section
variable {L : List Entry} {s e b : Nat}

/-- What lies behind the mark consists of old entries and possibly one which starts at the end. -/
theorem post_mem {y : Entry} (h : y ∈ (prePost L s e).2) : y ∈ L ∨ y.start = e := by
  have key : ∀ y, y ∈ trimHead e (hi e L) → y ∈ L ∨ y.start = e := by
    intro y hy
    cases hB : hi e L with
    | nil => rw [hB] at hy; simp [trimHead] at hy
    | cons z B =>
      have hm : ∀ w ∈ z :: B, w ∈ L := fun w hw => mem_hi (s := e) (by rw [hB]; exact hw)
      rw [hB, trimHead_cons] at hy
      by_cases hz : z.start < e
      · rw [if_pos hz] at hy
        simp only [List.mem_cons] at hy
        rcases hy with rfl | hy
        · exact .inr rfl
        · exact .inl (hm y (by simp [hy]))
      · rw [if_neg hz] at hy
        exact .inl (hm y hy)
  unfold prePost at h
  cases hR : hi s L with
  | nil => rw [hR] at h; simp at h
  | cons r R =>
    rw [hR] at h
    simp only at h
    by_cases h1 : r.start ≤ s
    · rw [if_pos h1] at h
      by_cases h2 : r.start = s ∧ r.start + r.count ≤ e
      · rw [if_pos h2] at h; exact .inl (mem_hi h)
      · rw [if_neg h2] at h; exact key y h
    · rw [if_neg h1] at h; exact key y h

theorem post_bsem (h : W0 L) (hse : s ≤ e) (hb : e ≤ b) : bsem (prePost L s e).2 b = bsem L b := by
  have hL : bsem (hi e L) b = bsem L b := by
    conv => rhs; rw [← lo_append_hi e L]
    rw [bsem_skip]
    intro x hx
    have := lo_le x hx
    omega
  by_cases hs : Straddle L s e
  · obtain ⟨r, R, hR, h1, h2, _⟩ := hs
    have : (prePost L s e).2 = hi e L := by
      unfold prePost
      rw [hR]
      simp only
      rw [if_pos (by omega), if_pos ⟨h1, h2⟩]
    rw [this, hL]
  · rw [post_eq hse hs]
    rw [← hL]
    cases hB : hi e L with
    | nil => rfl
    | cons y B =>
      rw [trimHead_cons]
      by_cases hy2 : y.start < e
      · rw [if_pos hy2]
        have hy := h.hi_gt e y (by rw [hB]; simp)
        simp only [bsem]
        have e1 : e + (y.start + y.count - e) = y.start + y.count := by omega
        rw [e1]
        by_cases hc : b < y.start + y.count
        · rw [if_pos hc, if_pos hc, if_pos hb, if_pos (by omega)]
        · rw [if_neg hc, if_neg hc]
      · rw [if_neg hy2]

/-- What lies before the mark looks as before. -/
theorem pre_point (h : W0 L) (hse : s ≤ e) (hb : b < s) :
    ((∃ p ∈ (prePost L s e).1, p.covers b) → sem (prePost L s e).1 b = sem L b) ∧
    ((∃ p ∈ (prePost L s e).1, b < p.start + p.count) → bsem (prePost L s e).1 b = bsem L b) ∧
    ((∀ p ∈ (prePost L s e).1, p.start + p.count ≤ b) → bsem L b = .absent) := by
  have hloL : (∃ p ∈ lo s L, p.covers b) → sem (lo s L) b = sem L b := by
    intro hp
    conv => rhs; rw [← lo_append_hi s L]
    rw [sem_stop hp]
  have hloB : (∃ p ∈ lo s L, b < p.start + p.count) → bsem (lo s L) b = bsem L b := by
    intro hp
    conv => rhs; rw [← lo_append_hi s L]
    rw [bsem_stop hp]
  have hskip : (∀ p ∈ lo s L, p.start + p.count ≤ b) → bsem L b = bsem (hi s L) b := by
    intro hp
    conv => lhs; rw [← lo_append_hi s L]
    rw [bsem_skip hp]
  unfold prePost
  cases hR : hi s L with
  | nil =>
    refine ⟨hloL, hloB, fun hp => ?_⟩
    rw [hskip hp, hR]; rfl
  | cons r R =>
    have hrs : s < r.start + r.count := h.hi_gt s r (by rw [hR]; simp)
    have hgt : ¬ r.start ≤ b → (∀ p ∈ lo s L, p.start + p.count ≤ b) → bsem L b = .absent := by
      intro h1 hp
      rw [hskip hp, hR, bsem, if_pos (by omega), if_neg h1]
    simp only
    by_cases h1 : r.start ≤ s
    · rw [if_pos h1]
      by_cases h2 : r.start = s ∧ r.start + r.count ≤ e
      · rw [if_pos h2]
        exact ⟨hloL, hloB, hgt (by omega)⟩
      · rw [if_neg h2]
        simp only
        have hend : (leftOf s r).start + (leftOf s r).count = s := by simp only [leftOf]; omega
        have hcov : (leftOf s r).covers b ↔ r.covers b := by
          simp only [leftOf, Entry.covers]; omega
        have hL : L = lo s L ++ (r :: R) := by rw [← hR, lo_append_hi]
        refine ⟨fun _ => ?_, fun _ => ?_, fun hp => ?_⟩
        · rename_i hex
          conv => rhs; rw [hL]
          by_cases hl : ∃ p ∈ lo s L, p.covers b
          · rw [sem_stop hl, sem_stop hl]
          · have hl' : ∀ p ∈ lo s L, ¬ p.covers b := fun p hp hc => hl ⟨p, hp, hc⟩
            rw [sem_append_left hl', sem_append_left hl']
            obtain ⟨p, hp, hc⟩ := hex
            rw [List.mem_append, List.mem_singleton] at hp
            rcases hp with hp | rfl
            · exact absurd hc (hl' p hp)
            · simp only [sem]
              rw [if_pos hc, if_pos (hcov.1 hc)]; rfl
        · conv => rhs; rw [hL]
          by_cases hl : ∃ p ∈ lo s L, b < p.start + p.count
          · rw [bsem_stop hl, bsem_stop hl]
          · have hl' : ∀ p ∈ lo s L, p.start + p.count ≤ b := by
              intro p hp
              apply Nat.le_of_not_lt
              intro hc; exact hl ⟨p, hp, hc⟩
            rw [bsem_skip hl', bsem_skip hl']
            simp only [bsem]
            have hb2 : b < r.start + r.count := by omega
            rw [hend, if_pos hb, if_pos hb2]
            rfl
        · have := hp (leftOf s r) (by simp)
          omega
    · rw [if_neg h1]
      exact ⟨hloL, hloB, hgt (by omega)⟩

end

/-- A mark does not touch blocks outside its range on which both views agree. -/
theorem At.outside {L : List Entry} {s c b : Nat} {st v : State} (h : W0 L) (ha : At L b v)
    (hb : ¬ (s ≤ b ∧ b < s + c)) : At (markL L s c st) b v := by
  have hse : s ≤ s + c := by omega
  obtain ⟨m1, m2⟩ := markL_point L s c st b
  obtain ⟨a1, a2⟩ := ha
  have hnew : ∀ y ∈ newPart s c st, ¬ y.covers b := by
    intro y hy hc
    unfold newPart at hy
    by_cases hst : st = .absent
    · rw [if_pos hst] at hy; simp at hy
    · rw [if_neg hst, List.mem_singleton] at hy
      subst hy
      exact hb hc
  by_cases hbs : b < s
  · obtain ⟨p1, p2, p3⟩ := pre_point (e := s + c) h hse hbs
    have htail : v = .absent → ∀ y ∈ newPart s c st ++ (prePost L s (s + c)).2, ¬ y.covers b := by
      intro hv y hy hc
      rw [hv] at a1
      rcases List.mem_append.1 hy with hy | hy
      · exact hnew y hy hc
      · rcases post_mem hy with hy | hy
        · exact none_of_sem h.ok a1 y hy hc
        · have := hc.1; omega
    constructor
    · rw [m1]
      by_cases hc : ∃ p ∈ (prePost L s (s + c)).1, p.covers b
      · rw [sem_stop hc, p1 hc, a1]
      · have hc' : ∀ p ∈ (prePost L s (s + c)).1, ¬ p.covers b := fun p hp h => hc ⟨p, hp, h⟩
        have hv : v = .absent := by
          by_cases he : ∃ p ∈ (prePost L s (s + c)).1, b < p.start + p.count
          · rw [← a2, ← p2 he, bsem_none hc']
          · rw [← a2]
            apply p3
            intro p hp
            apply Nat.le_of_not_lt
            intro h; exact he ⟨p, hp, h⟩
        rw [sem_append_left hc', sem_none (htail hv), hv]
    · rw [m2]
      by_cases he : ∃ p ∈ (prePost L s (s + c)).1, b < p.start + p.count
      · rw [bsem_stop he, p2 he, a2]
      · have he' : ∀ p ∈ (prePost L s (s + c)).1, p.start + p.count ≤ b := by
          intro p hp
          apply Nat.le_of_not_lt
          intro h; exact he ⟨p, hp, h⟩
        have hv : v = .absent := by rw [← a2, p3 he']
        rw [bsem_skip he', bsem_none (htail hv), hv]
  · have hbe : s + c ≤ b := by omega
    have hp := pre_le hse h
    constructor
    · rw [m1, sem_append_left, sem_append_left hnew, post_sem h hse b hbe, a1]
      intro p hp' hc
      have := hp p hp'
      unfold Entry.covers at hc; omega
    · rw [m2, bsem_skip, bsem_skip, post_bsem h hse hbe, a2]
      · intro y hy
        unfold newPart at hy
        by_cases hst : st = .absent
        · rw [if_pos hst] at hy; simp at hy
        · rw [if_neg hst, List.mem_singleton] at hy
          subst hy; exact hbe
      · intro p hp'
        have := hp p hp'; omega

/-- A mark with a state other than ABSENT makes both views agree on its range. -/
theorem At.inside {L : List Entry} {s c b : Nat} {st : State} (h : W0 L) (hst : st ≠ .absent)
    (h1 : s ≤ b) (h2 : b < s + c) : At (markL L s c st) b st := by
  have hse : s ≤ s + c := by omega
  obtain ⟨m1, m2⟩ := markL_point L s c st b
  have hp := pre_le hse h
  constructor
  · rw [m1, sem_append_left]
    · simp only [newPart, if_neg hst, List.cons_append, List.nil_append, sem]
      rw [if_pos ⟨h1, h2⟩, dec_code]
    · intro p hp' hc
      have := hp p hp'
      unfold Entry.covers at hc; omega
  · rw [m2, bsem_skip]
    · simp only [newPart, if_neg hst, List.cons_append, List.nil_append, bsem]
      rw [if_pos h2, if_pos h1, dec_code]
    · intro p hp'
      have := hp p hp'; omega

/-- A mark with ABSENT clears a block unless an entry starting at or before it is left behind. -/
theorem At.cleared {L : List Entry} {s c b : Nat} (h : W0 L) (h1 : s ≤ b) (h2 : b < s + c)
    (hpost : ∀ y ∈ (prePost L s (s + c)).2, b < y.start) : At (markL L s c .absent) b .absent := by
  have hse : s ≤ s + c := by omega
  obtain ⟨m1, m2⟩ := markL_point L s c .absent b
  have hp := pre_le hse h
  have hnone : ∀ y ∈ (prePost L s (s + c)).1 ++ (newPart s c .absent ++ (prePost L s (s + c)).2), ¬ y.covers b := by
    intro y hy hc
    unfold Entry.covers at hc
    rcases List.mem_append.1 hy with hy | hy
    · have := hp y hy; omega
    · simp only [newPart, if_true, List.nil_append] at hy
      have := hpost y hy; omega
  exact ⟨by rw [m1, sem_none hnone], by rw [m2, bsem_none hnone]⟩

/-- Sorted disjoint entries: both views agree everywhere. -/
theorem Wf.at {L : List Entry} (h : Wf L) (b : Nat) : At L b (sem L b) := by
  refine ⟨rfl, ?_⟩
  induction L with
  | nil => rfl
  | cons a L ih =>
    simp only [bsem, sem]
    have hd := (List.pairwise_cons.1 h.disj).1
    by_cases h1 : b < a.start + a.count
    · rw [if_pos h1]
      by_cases h2 : a.start ≤ b
      · rw [if_pos h2, if_pos ⟨h2, h1⟩]
      · rw [if_neg h2, if_neg (fun hc => h2 hc.1)]
        symm
        apply sem_none
        intro y hy hc
        have := hd y hy
        have := hc.1
        omega
    · rw [if_neg h1, if_neg (fun hc => h1 hc.2)]
      exact ih h.tail

/-! ### Marks of any length -/

theorem At.chunks_outside (st : State) (fuel : Nat) : ∀ {L : List Entry} {s c b : Nat} {v : State},
    W0 L → s + c < W64 → At L b v → ¬ (s ≤ b ∧ b < s + c) → At (chunkL st fuel L s c) b v := by
  induction fuel with
  | zero => intro L s c b v _ _ h _; exact h
  | succ k ih =>
    intro L s c b v hw hsc ha hb
    unfold chunkL
    by_cases h1 : c > 65535
    · simp only [h1, if_true]
      exact ih (markL_w0 hw (by omega) (by omega)) (by omega) (ha.outside hw (by omega)) (by omega)
    · simp only [h1, if_false]
      by_cases h2 : c > 0
      · simp only [h2, if_true]
        exact ha.outside hw hb
      · simp only [h2, if_false]; exact ha

theorem At.chunks_inside (st : State) (hst : st ≠ .absent) (fuel : Nat) : ∀ {L : List Entry} {s c b : Nat},
    c / 65535 < fuel → W0 L → s + c < W64 → s ≤ b → b < s + c → At (chunkL st fuel L s c) b st := by
  induction fuel with
  | zero => intro L s c b h; omega
  | succ k ih =>
    intro L s c b hk hw hsc h1 h2
    unfold chunkL
    by_cases h3 : c > 65535
    · simp only [h3, if_true]
      have hw' : W0 (markL L s 65535 st) := markL_w0 hw (by omega) (by omega)
      by_cases h4 : b < s + 65535
      · exact At.chunks_outside st k hw' (by omega) (At.inside hw hst h1 h4) (by omega)
      · exact ih (by omega) hw' (by omega) (by omega) (by omega)
    · simp only [h3, if_false]
      have h4 : c > 0 := by omega
      simp only [h4, if_true]
      exact At.inside hw hst h1 h2

theorem aux_zero {c : Nat} (h : c > 65535) : 0 * 65535 < c := by omega
theorem aux_succ {j c : Nat} (h : j * 65535 < c - 65535) : (j + 1) * 65535 < c := by
  rw [Nat.succ_mul]; exact Nat.add_lt_of_lt_sub h
theorem aux_min {s j c : Nat} (h : c > 65535) :
    s + 65535 + min ((j + 1) * 65535) (c - 65535) - 1 = s + min ((j + 1 + 1) * 65535) c - 1 := by omega

theorem post_start_of_last {L : List Entry} {s e : Nat} (h : W0 L) (hse : s < e) (hl : sem L (e - 1) = .absent) :
    ∀ y ∈ (prePost L s e).2, e ≤ y.start := by
  intro y hy
  have h1 := (post_ok (Nat.le_of_lt hse) h y hy).2
  rcases post_mem hy with hy | hy
  · apply Nat.le_of_not_lt
    intro hlt
    exact none_of_sem h.ok hl y hy ⟨by omega, by omega⟩
  · omega

/-- A mark with ABSENT is exact if both views agree everywhere and the last block of every chunk
is absent. -/
theorem At.chunks_cleared (fuel : Nat) : ∀ {L : List Entry} {s c : Nat},
    c / 65535 < fuel → W0 L → s + c < W64 → (∀ b, At L b (sem L b)) → LastAbsent (sem L) s c →
    ∀ b, At (chunkL .absent fuel L s c) b (setRange (sem L) s c .absent b) := by
  induction fuel with
  | zero => intro L s c h; omega
  | succ k ih =>
    intro L s c hk hw hsc ha hl b
    have one : ∀ n, 0 < n → n ≤ 65535 → s + n < W64 → sem L (s + n - 1) = .absent →
        ∀ b, At (markL L s n .absent) b (setRange (sem L) s n .absent b) := by
      intro n hn hn' hs he b
      unfold setRange
      by_cases hb : s ≤ b ∧ b < s + n
      · rw [if_pos hb]
        refine At.cleared hw hb.1 hb.2 (fun y hy => ?_)
        have := post_start_of_last hw (by omega) he y hy
        omega
      · rw [if_neg hb]
        exact (ha b).outside hw hb
    unfold chunkL
    by_cases h1 : c > 65535
    · simp only [h1, if_true]
      have hlast : sem L (s + 65535 - 1) = .absent := by
        have hz : 0 * 65535 < c := aux_zero h1
        have h3 := hl 0 hz
        have e : s + min ((0 + 1) * 65535) c - 1 = s + 65535 - 1 := by omega
        exact e ▸ h3
      have h0 := one 65535 (by omega) (by omega) (by omega) hlast
      have hs : sem (markL L s 65535 .absent) = setRange (sem L) s 65535 .absent := funext (fun b => (h0 b).1)
      have := ih (L := markL L s 65535 .absent) (s := s + 65535) (c := c - 65535) (by omega)
        (markL_w0 hw (by omega) (by omega)) (by omega) (fun b => by rw [hs]; exact h0 b) (by
          intro j hj
          have hz : (j + 1) * 65535 < c := aux_succ hj
          have h3 := hl (j + 1) hz
          rw [hs]
          have e1 : s + 65535 + min ((j + 1) * 65535) (c - 65535) - 1 = s + min ((j + 1 + 1) * 65535) c - 1 := aux_min h1
          rw [e1]
          unfold setRange
          by_cases hh : s ≤ s + min ((j + 1 + 1) * 65535) c - 1 ∧ s + min ((j + 1 + 1) * 65535) c - 1 < s + 65535
          · rw [if_pos hh]
          · rw [if_neg hh]; exact h3) b
      rw [hs, setRange_split _ _ _ _ h1] at this
      exact this
    · simp only [h1, if_false]
      by_cases h2 : c > 0
      · simp only [h2, if_true]
        refine one c h2 (by omega) hsc ?_ b
        have := hl 0 (by omega)
        have e : min ((0 + 1) * 65535) c = c := by omega
        rwa [e] at this
      · simp only [h2, if_false]
        have : c = 0 := by omega
        subst this
        rw [setRange_zero]; exact ha b

/-- Blocks behind a mark keep their state, whatever the entries. -/
theorem chunkL_behind (st : State) (fuel : Nat) : ∀ {L : List Entry} {s c b : Nat},
    W0 L → s + c < W64 → s + c ≤ b → sem (chunkL st fuel L s c) b = sem L b := by
  have one : ∀ {L : List Entry} {s c b : Nat}, W0 L → s + c ≤ b → sem (markL L s c st) b = sem L b := by
    intro L s c b hw hb
    have hse : s ≤ s + c := by omega
    have hp := pre_le hse hw
    rw [(markL_point L s c st b).1, sem_append_left, sem_append_left, post_sem hw hse b hb]
    · intro y hy hc
      unfold newPart at hy
      by_cases hst : st = .absent
      · rw [if_pos hst] at hy; simp at hy
      · rw [if_neg hst, List.mem_singleton] at hy
        subst hy
        have := hc.2
        simp only at this
        omega
    · intro p hp' hc
      have := hp p hp'
      unfold Entry.covers at hc; omega
  induction fuel with
  | zero => intro L s c b _ _ _; rfl
  | succ k ih =>
    intro L s c b hw hsc hb
    unfold chunkL
    by_cases h1 : c > 65535
    · simp only [h1, if_true]
      rw [ih (markL_w0 hw (by omega) (by omega)) (by omega) (by omega), one hw (by omega)]
    · simp only [h1, if_false]
      by_cases h2 : c > 0
      · simp only [h2, if_true]
        exact one hw hb
      · simp only [h2, if_false]

/-! ### Nothing is invented -/

theorem pre_cov_sub {L : List Entry} {s e b t : Nat} (h : W0 L) (hse : s ≤ e) (hc : Cov (prePost L s e).1 b t) :
    Cov L b t := by
  obtain ⟨y, hy, hyb, hyt⟩ := hc
  have hlo : y ∈ lo s L → Cov L b t := fun hy => ⟨y, mem_lo hy, hyb, hyt⟩
  unfold prePost at hy
  cases hR : hi s L with
  | nil => rw [hR] at hy; exact hlo hy
  | cons r R =>
    rw [hR] at hy
    have hrs : s < r.start + r.count := h.hi_gt s r (by rw [hR]; simp)
    have hrL : r ∈ L := mem_hi (s := s) (by rw [hR]; simp)
    simp only at hy
    by_cases h1 : r.start ≤ s
    · rw [if_pos h1] at hy
      by_cases h2 : r.start = s ∧ r.start + r.count ≤ e
      · rw [if_pos h2] at hy; exact hlo hy
      · rw [if_neg h2] at hy
        simp only [List.mem_append, List.mem_singleton] at hy
        rcases hy with hy | rfl
        · exact hlo hy
        · refine ⟨r, hrL, ?_, hyt⟩
          unfold Entry.covers leftOf at hyb
          simp only at hyb
          exact ⟨hyb.1, by omega⟩
    · rw [if_neg h1] at hy; exact hlo hy

theorem post_cov_sub {L : List Entry} {s e b t : Nat} (h : W0 L) (hc : Cov (prePost L s e).2 b t) :
    Cov L b t := by
  obtain ⟨y, hy, hyb, hyt⟩ := hc
  have hlo : y ∈ hi e L → Cov L b t := fun hy => ⟨y, mem_hi hy, hyb, hyt⟩
  have key : y ∈ trimHead e (hi e L) → Cov L b t := by
    intro hy
    cases hB : hi e L with
    | nil => rw [hB] at hy; simp [trimHead] at hy
    | cons z B =>
      have hze := h.hi_gt e z (by rw [hB]; simp)
      rw [hB, trimHead_cons] at hy
      by_cases hz : z.start < e
      · rw [if_pos hz] at hy
        simp only [List.mem_cons] at hy
        rcases hy with rfl | hy
        · refine ⟨z, mem_hi (s := e) (by rw [hB]; simp), ?_, hyt⟩
          unfold Entry.covers at hyb ⊢
          simp only at hyb
          omega
        · exact ⟨y, mem_hi (s := e) (by rw [hB]; simp [hy]), hyb, hyt⟩
      · rw [if_neg hz] at hy
        exact ⟨y, mem_hi (s := e) (by rw [hB]; exact hy), hyb, hyt⟩
  unfold prePost at hy
  cases hR : hi s L with
  | nil => rw [hR] at hy; simp at hy
  | cons r R =>
    rw [hR] at hy
    simp only at hy
    by_cases h1 : r.start ≤ s
    · rw [if_pos h1] at hy
      by_cases h2 : r.start = s ∧ r.start + r.count ≤ e
      · rw [if_pos h2] at hy; exact hlo hy
      · rw [if_neg h2] at hy; exact key hy
    · rw [if_neg h1] at hy; exact key hy

/-- A mark only adds coverage of its own range with its own state. -/
theorem markL_cov_sub {L : List Entry} {s c b t : Nat} {st : State} (h : W0 L)
    (hc : Cov (markL L s c st) b t) :
    Cov L b t ∨ (st ≠ .absent ∧ t = st.code ∧ s ≤ b ∧ b < s + c) := by
  have hse : s ≤ s + c := by omega
  unfold markL at hc
  simp only at hc
  by_cases hst : st = .absent
  · rw [if_pos hst, Cov_append] at hc
    rcases hc with hc | hc
    · exact .inl (pre_cov_sub h hse hc)
    · exact .inl (post_cov_sub h hc)
  · rw [if_neg hst, absorbPrev_cov, Cov_append, absorbNext_cov, Cov_cons] at hc
    rcases hc with hc | ⟨hc, ht⟩ | hc
    · exact .inl (pre_cov_sub h hse hc)
    · exact .inr ⟨hst, ht.symm, hc.1, hc.2⟩
    · exact .inl (post_cov_sub h hc)

theorem chunkL_cov_sub (st : State) (fuel : Nat) : ∀ {L : List Entry} {s c b t : Nat},
    W0 L → s + c < W64 → Cov (chunkL st fuel L s c) b t →
    Cov L b t ∨ (st ≠ .absent ∧ t = st.code ∧ s ≤ b ∧ b < s + c) := by
  induction fuel with
  | zero => intro L s c b t _ _ h; exact .inl h
  | succ k ih =>
    intro L s c b t hw hsc hc
    unfold chunkL at hc
    by_cases h1 : c > 65535
    · simp only [h1, if_true] at hc
      rcases ih (markL_w0 hw (by omega) (by omega)) (by omega) hc with h | ⟨a, b', c', d⟩
      · rcases markL_cov_sub hw h with h | ⟨a, b', c', d⟩
        · exact .inl h
        · exact .inr ⟨a, b', c', by omega⟩
      · exact .inr ⟨a, b', by omega, by omega⟩
    · simp only [h1, if_false] at hc
      by_cases h2 : c > 0
      · simp only [h2, if_true] at hc
        exact markL_cov_sub hw hc
      · simp only [h2, if_false] at hc
        exact .inl hc

/-! ### Counters -/

theorem countBelow_mono {p q : Nat → Bool} (N : Nat) (h : ∀ b, p b = true → q b = true) :
    countBelow p N ≤ countBelow q N := by
  induction N with
  | zero => exact Nat.le_refl _
  | succ n ih =>
    unfold countBelow
    have := h n
    cases hp : p n <;> cases hq : q n <;> simp_all <;> omega

theorem countBelow_or_le {p q : Nat → Bool} (N : Nat) :
    countBelow (fun b => p b || q b) N ≤ countBelow p N + countBelow q N := by
  induction N with
  | zero => exact Nat.le_refl _
  | succ n ih =>
    unfold countBelow
    cases hp : p n <;> cases hq : q n <;> simp <;> omega

theorem countBelow_range_le (s c N : Nat) : countBelow (fun b => decide (s ≤ b ∧ b < s + c)) N ≤ c := by
  have := countBelow_range s c (s + c + N) (by omega)
  have mono : ∀ (p : Nat → Bool) (n k : Nat), countBelow p n ≤ countBelow p (k + n) := by
    intro p n k
    induction k with
    | zero => rw [Nat.zero_add]; exact Nat.le_refl _
    | succ k ih =>
      rw [Nat.succ_add]
      conv => rhs; unfold countBelow
      omega
  have := mono (fun b => decide (s ≤ b ∧ b < s + c)) N (s + c)
  omega

/-- The counts of the entries with state byte `t` add up to at least the number of blocks with
that state. -/
theorem count_le_total {L : List Entry} {t : Nat} (ht : t < 4) (hok : ∀ e ∈ L, EOk e) (N : Nat) :
    countBelow (fun b => decide (sem L b = dec t)) N ≤ total t L := by
  induction L with
  | nil =>
    rw [total_nil]
    have h0 : countBelow (fun b => decide (sem [] b = dec t)) N = countBelow (fun _ => false) N := by
      apply countBelow_congr
      intro b _
      exact decide_eq_false (dec_ne_absent ht).symm
    rw [h0, countBelow_false]; exact Nat.le_refl _
  | cons e L ih =>
    rw [total_cons]
    have ih := ih (fun x hx => hok x (by simp [hx]))
    have hs := (hok e (by simp)).state
    by_cases hh : e.state = t
    · rw [if_pos hh]
      have h1 : countBelow (fun b => decide (sem (e :: L) b = dec t)) N ≤
          countBelow (fun b => decide (e.start ≤ b ∧ b < e.start + e.count) || decide (sem L b = dec t)) N := by
        apply countBelow_mono
        intro b hb
        by_cases hc : e.covers b
        · simp only [Bool.or_eq_true, decide_eq_true_eq]; exact .inl hc
        · rw [sem_miss hc] at hb
          simp only [Bool.or_eq_true]; exact .inr hb
      have h2 := countBelow_or_le (p := fun b => decide (e.start ≤ b ∧ b < e.start + e.count))
        (q := fun b => decide (sem L b = dec t)) N
      have h3 := countBelow_range_le e.start e.count N
      omega
    · rw [if_neg hh]
      have h1 : countBelow (fun b => decide (sem (e :: L) b = dec t)) N ≤
          countBelow (fun b => decide (sem L b = dec t)) N := by
        apply countBelow_mono
        intro b hb
        by_cases hc : e.covers b
        · rw [sem_hit hc] at hb
          exfalso
          simp only [decide_eq_true_eq] at hb
          exact hh (by rw [← code_dec hs, hb, code_dec ht])
        · rw [sem_miss hc] at hb; exact hb
      omega

theorem total_le (L : List Entry) (hok : ∀ e ∈ L, EOk e) :
    total 0 L + total 1 L + total 2 L + total 3 L ≤ 65535 * L.length := by
  induction L with
  | nil => simp
  | cons e L ih =>
    have ih := ih (fun x hx => hok x (by simp [hx]))
    have hc := (hok e (by simp)).count
    simp only [total_cons, List.length_cons]
    by_cases h0 : e.state = 0
    · rw [if_pos h0, if_neg (by omega), if_neg (by omega), if_neg (by omega)]; omega
    · by_cases h1 : e.state = 1
      · rw [if_neg (by omega), if_pos h1, if_neg (by omega), if_neg (by omega)]; omega
      · by_cases h2 : e.state = 2
        · rw [if_neg (by omega), if_neg (by omega), if_pos h2, if_neg (by omega)]; omega
        · by_cases h3 : e.state = 3
          · rw [if_neg (by omega), if_neg (by omega), if_neg (by omega), if_pos h3]; omega
          · rw [if_neg h0, if_neg h1, if_neg h2, if_neg h3]; omega

end Dragonstash.Blocklist
