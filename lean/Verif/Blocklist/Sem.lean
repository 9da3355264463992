import Verif.Blocklist.Refine
import Verif.Blocklist.Spec
/-
  Meaning of a list of entries as a block map; `markL` implements marking unless an entry which
  starts exactly at the marked range is followed by one straddling its end.
-/
namespace Dragonstash.Blocklist
open Spec

/-- Entry `e` covers block `b`. -/
def Entry.covers (e : Entry) (b : Nat) : Prop := e.start ≤ b ∧ b < e.start + e.count

instance (e : Entry) (b : Nat) : Decidable (e.covers b) := by unfold Entry.covers; infer_instance

/-- State for a state byte. -/
def dec : Nat → State
  | 0 => .readahead
  | 1 => .read
  | 2 => .pinned
  | 3 => .written
  | _ => .absent

theorem dec_code {st : State} : dec st.code = st := by cases st <;> rfl

theorem ofCode_dec {t : Nat} (h : t < 4) : State.ofCode t = .ok (dec t) := by
  match t, h with
  | 0, _ => rfl
  | 1, _ => rfl
  | 2, _ => rfl
  | 3, _ => rfl

theorem dec_ne_absent {t : Nat} (h : t < 4) : dec t ≠ .absent := by
  match t, h with
  | 0, _ => simp [dec]
  | 1, _ => simp [dec]
  | 2, _ => simp [dec]
  | 3, _ => simp [dec]

theorem code_dec {t : Nat} (h : t < 4) : (dec t).code = t := by
  match t, h with
  | 0, _ => rfl
  | 1, _ => rfl
  | 2, _ => rfl
  | 3, _ => rfl

/-- State of a block: that of the first entry covering it. -/
def sem : List Entry → Map
  | [], _ => .absent
  | e :: L, b => if e.covers b then dec e.state else sem L b

/-- Some entry with state byte `t` covers `b`. -/
def Cov (L : List Entry) (b t : Nat) : Prop := ∃ e ∈ L, e.covers b ∧ e.state = t

@[simp] theorem Cov_nil (b t) : Cov [] b t ↔ False := by simp [Cov]
@[simp] theorem Cov_cons (e L b t) : Cov (e :: L) b t ↔ (e.covers b ∧ e.state = t) ∨ Cov L b t := by
  simp [Cov]
@[simp] theorem Cov_append (A B b t) : Cov (A ++ B) b t ↔ Cov A b t ∨ Cov B b t := by
  unfold Cov
  constructor
  · rintro ⟨e, he, h⟩
    rcases List.mem_append.1 he with he | he
    · exact .inl ⟨e, he, h⟩
    · exact .inr ⟨e, he, h⟩
  · rintro (⟨e, he, h⟩ | ⟨e, he, h⟩)
    · exact ⟨e, by simp [he], h⟩
    · exact ⟨e, by simp [he], h⟩

/-- Entries in range, sorted and disjoint (entries may be empty). -/
structure Wf (L : List Entry) : Prop where
  ok : ∀ e ∈ L, EOk e
  disj : L.Pairwise (fun a b => a.start + a.count ≤ b.start)

theorem Wf.w0 {L : List Entry} (h : Wf L) : W0 L :=
  ⟨h.ok, h.disj.imp (fun h => by omega)⟩

theorem Wf.tail {e : Entry} {L : List Entry} (h : Wf (e :: L)) : Wf L :=
  ⟨fun x hx => h.ok x (by simp [hx]), (List.pairwise_cons.1 h.disj).2⟩

theorem sem_of_cov {L : List Entry} (h : Wf L) {b t : Nat} (hc : Cov L b t) : sem L b = dec t := by
  induction L with
  | nil => simp at hc
  | cons e L ih =>
    unfold sem
    by_cases he : e.covers b
    · rw [if_pos he]
      rcases (Cov_cons ..).1 hc with hc | hc
      · rw [hc.2]
      · obtain ⟨x, hx, hxb, _⟩ := hc
        have := (List.pairwise_cons.1 h.disj).1 x hx
        unfold Entry.covers at he hxb
        omega
    · rw [if_neg he]
      rcases (Cov_cons ..).1 hc with hc | hc
      · exact absurd hc.1 he
      · exact ih h.tail hc

theorem sem_absent {L : List Entry} {b : Nat} (hc : ∀ t, ¬ Cov L b t) : sem L b = .absent := by
  induction L with
  | nil => rfl
  | cons e L ih =>
    unfold sem
    rw [if_neg, ih]
    · intro t ht; exact hc t ((Cov_cons ..).2 (.inr ht))
    · intro he; exact hc e.state ((Cov_cons ..).2 (.inl ⟨he, rfl⟩))

theorem cov_of_sem {L : List Entry} {b : Nat} (h : sem L b ≠ .absent) : ∃ t, Cov L b t ∧ dec t = sem L b := by
  induction L with
  | nil => exact absurd rfl h
  | cons e L ih =>
    unfold sem at h ⊢
    by_cases he : e.covers b
    · rw [if_pos he]
      exact ⟨e.state, (Cov_cons ..).2 (.inl ⟨he, rfl⟩), rfl⟩
    · rw [if_neg he] at h ⊢
      obtain ⟨t, ht, hd⟩ := ih h
      exact ⟨t, (Cov_cons ..).2 (.inr ht), hd⟩

theorem cov_state_lt {L : List Entry} (h : ∀ e ∈ L, EOk e) {b t : Nat} (hc : Cov L b t) : t < 4 := by
  obtain ⟨e, he, _, rfl⟩ := hc
  exact (h e he).state

/-- Equal coverage gives equal meaning. -/
theorem sem_congr {L L' : List Entry} (h : Wf L) (h' : Wf L') {b b' : Nat}
    (hc : ∀ t, Cov L b t ↔ Cov L' b' t) : sem L b = sem L' b' := by
  by_cases ha : sem L b = .absent
  · rw [ha]
    symm
    apply sem_absent
    intro t ht
    have := sem_of_cov h ((hc t).2 ht)
    rw [ha] at this
    exact dec_ne_absent (cov_state_lt h'.ok ht) this.symm
  · obtain ⟨t, ht, hd⟩ := cov_of_sem ha
    rw [← hd, sem_of_cov h' ((hc t).1 ht)]

/-- The linear scan of `state()` computes `sem`. -/
theorem stateScan_rep {f : File} {S : List Entry} {g : Nat → Int} (b : Nat) (B : List Entry) :
    ∀ A, Rep f (A ++ B) S g → (∀ e ∈ B, EOk e) → stateScan f b A.length B.length = .ok (sem B b) := by
  induction B with
  | nil => intro A _ _; rfl
  | cons e B ih =>
    intro A h hok
    have he := hok e (by simp)
    simp only [List.length_cons, stateScan]
    rw [deref_rep h]
    simp only [bind_ok, he.fin_eq]
    unfold sem
    by_cases hc : e.covers b
    · rw [if_pos hc, if_pos ⟨hc.1, hc.2⟩, ofCode_dec he.state]
    · rw [if_neg hc, if_neg (fun hh => hc ⟨hh.1, hh.2⟩)]
      have := ih (A ++ [e]) (h.congrL (by simp)) (fun x hx => hok x (by simp [hx]))
      simpa using this

theorem stateAt_rep {f : File} {L S : List Entry} {g : Nat → Int} (h : Rep f L S g) (hok : ∀ e ∈ L, EOk e) (b : Nat) :
    stateAt f b = .ok (sem L b) := by
  unfold stateAt
  have hem : ensureMapped f = f := by unfold ensureMapped; rw [h.mapped]; simp
  rw [hem, h.n]
  have := stateScan_rep b L [] (by simpa using h) hok
  simpa using this

/-- The situation in which `mark_internal` forgets to trim: an entry starts exactly at `s`, ends
within `[s, e)`, and a later entry straddles `e`. -/
def Straddle (L : List Entry) (s e : Nat) : Prop :=
  ∃ r R, hi s L = r :: R ∧ r.start = s ∧ r.start + r.count ≤ e ∧ headBelow e (hi e L) = true

theorem Cov_mem_le {A : List Entry} {s b t : Nat} (h : ∀ e ∈ A, e.start + e.count ≤ s) (hc : Cov A b t) : b < s := by
  obtain ⟨e, he, hb, _⟩ := hc
  have := h e he
  unfold Entry.covers at hb; omega

section
variable {L : List Entry} {s e : Nat}

theorem wf_parts (h : Wf L) : (lo s L).Pairwise (fun a b => a.start + a.count ≤ b.start) ∧
    (hi s L).Pairwise (fun a b => a.start + a.count ≤ b.start) ∧
    (∀ a ∈ lo s L, ∀ b ∈ hi s L, a.start + a.count ≤ b.start) := by
  have := h.disj
  rw [← lo_append_hi s L, List.pairwise_append] at this
  exact this

theorem mem_lo {x : Entry} (hx : x ∈ lo s L) : x ∈ L := by rw [← lo_append_hi s L]; simp [hx]
theorem mem_hi {x : Entry} (hx : x ∈ hi s L) : x ∈ L := by rw [← lo_append_hi s L]; simp [hx]

/-- `pre` covers exactly what `L` covers before `s`. -/
theorem pre_cov (h : Wf L) (b t : Nat) :
    Cov (prePost L s e).1 b t ↔ (b < s ∧ Cov L b t) := by
  have hL : Cov L b t ↔ Cov (lo s L) b t ∨ Cov (hi s L) b t := by
    rw [← Cov_append, lo_append_hi]
  obtain ⟨_, p2, p3⟩ := wf_parts (s := s) h
  have hloimp : Cov (lo s L) b t → b < s := Cov_mem_le lo_le
  unfold prePost
  cases hR : hi s L with
  | nil =>
    rw [hR] at hL
    simp only [Cov_nil, or_false] at hL
    simp only [hL]
    exact ⟨fun hh => ⟨hloimp hh, hh⟩, fun hh => hh.2⟩
  | cons r R =>
    rw [hR, List.pairwise_cons] at p2
    have hrs : s < r.start + r.count := h.w0.hi_gt s r (by rw [hR]; simp)
    have hRs : ¬ (b < s ∧ Cov R b t) := by
      rintro ⟨hb, x, hx, hxb, _⟩
      have := p2.1 x hx
      unfold Entry.covers at hxb; omega
    rw [hR, Cov_cons] at hL
    simp only
    by_cases hc : r.start ≤ s
    · rw [if_pos hc]
      by_cases hex : r.start = s ∧ r.start + r.count ≤ e
      · rw [if_pos hex]
        simp only [hL]
        constructor
        · intro hh; exact ⟨hloimp hh, .inl hh⟩
        · rintro ⟨hb, hh | hh | hh⟩
          · exact hh
          · have := hh.1; unfold Entry.covers at this; omega
          · exact absurd ⟨hb, hh⟩ hRs
      · rw [if_neg hex]
        simp only [Cov_append, Cov_cons, Cov_nil, or_false, hL]
        constructor
        · rintro (hh | ⟨hh, ht⟩)
          · exact ⟨hloimp hh, .inl hh⟩
          · unfold Entry.covers leftOf at hh
            simp only at hh
            refine ⟨by omega, .inr (.inl ⟨?_, ht⟩)⟩
            unfold Entry.covers; omega
        · rintro ⟨hb, hh | hh | hh⟩
          · exact .inl hh
          · refine .inr ⟨?_, hh.2⟩
            have := hh.1
            unfold Entry.covers leftOf at *
            simp only; omega
          · exact absurd ⟨hb, hh⟩ hRs
    · rw [if_neg hc]
      simp only [hL]
      constructor
      · intro hh; exact ⟨hloimp hh, .inl hh⟩
      · rintro ⟨hb, hh | hh | hh⟩
        · exact hh
        · have := hh.1; unfold Entry.covers at this; omega
        · exact absurd ⟨hb, hh⟩ hRs

theorem trimHead_cov (h : Wf L) (b t : Nat) :
    Cov (trimHead e (hi e L)) b t ↔ (e ≤ b ∧ Cov L b t) := by
  have hL : Cov L b t ↔ Cov (lo e L) b t ∨ Cov (hi e L) b t := by
    rw [← Cov_append, lo_append_hi]
  obtain ⟨_, p2, _⟩ := wf_parts (s := e) h
  have hloimp : Cov (lo e L) b t → b < e := Cov_mem_le lo_le
  cases hB : hi e L with
  | nil =>
    rw [hB] at hL
    simp only [trimHead, Cov_nil, false_iff, not_and, hL, or_false]
    intro h1 h2; have := hloimp h2; omega
  | cons x B =>
    have hxe : e < x.start + x.count := h.w0.hi_gt e x (by rw [hB]; simp)
    rw [hB, List.pairwise_cons] at p2
    have hBe : Cov B b t → e ≤ b := by
      rintro ⟨y, hy, hyb, _⟩
      have := p2.1 y hy
      unfold Entry.covers at hyb; omega
    rw [hB, Cov_cons] at hL
    rw [trimHead_cons]
    by_cases hx : x.start < e
    · rw [if_pos hx, Cov_cons, hL]
      constructor
      · rintro (⟨hh, ht⟩ | hh)
        · unfold Entry.covers at hh
          simp only at hh
          refine ⟨by omega, .inr (.inl ⟨?_, ht⟩)⟩
          unfold Entry.covers; omega
        · exact ⟨hBe hh, .inr (.inr hh)⟩
      · rintro ⟨hb, hh | ⟨hh, ht⟩ | hh⟩
        · have := hloimp hh; omega
        · refine .inl ⟨?_, ht⟩
          unfold Entry.covers at *; simp only; omega
        · exact .inr hh
    · rw [if_neg hx, Cov_cons, hL]
      constructor
      · rintro (⟨hh, ht⟩ | hh)
        · refine ⟨?_, .inr (.inl ⟨hh, ht⟩)⟩
          unfold Entry.covers at hh; omega
        · exact ⟨hBe hh, .inr (.inr hh)⟩
      · rintro ⟨hb, hh | hh | hh⟩
        · have := hloimp hh; omega
        · exact .inl hh
        · exact .inr hh

/-- Without a straddling entry the part behind the range is trimmed in every case. -/
theorem post_eq (hse : s ≤ e) (hns : ¬ Straddle L s e) : (prePost L s e).2 = trimHead e (hi e L) := by
  unfold prePost
  cases hR : hi s L with
  | nil =>
    have hB : hi e L = [] := by rw [← hi_hi hse, hR]; rfl
    rw [hB]; rfl
  | cons r R =>
    simp only
    split
    · split
      · rename_i hex
        have : headBelow e (hi e L) = false := by
          rw [← Bool.not_eq_true]; intro hh
          exact hns ⟨r, R, hR, hex.1, hex.2, hh⟩
        cases hB : hi e L with
        | nil => rfl
        | cons x B =>
          rw [hB] at this
          simp only [headBelow, decide_eq_false_iff_not] at this
          rw [trimHead_cons, if_neg this]
      · rfl
    · rfl

theorem pre_le (hse : s ≤ e) (h : W0 L) : ∀ x ∈ (prePost L s e).1, x.start + x.count ≤ s := by
  unfold prePost
  cases hR : hi s L with
  | nil => exact lo_le
  | cons r R =>
    simp only
    split
    · split
      · exact lo_le
      · intro x hx
        simp only [List.mem_append, List.mem_singleton] at hx
        rcases hx with hx | rfl
        · exact lo_le x hx
        · simp [leftOf]; omega
    · exact lo_le

theorem pre_ok (hse : s ≤ e) (h : W0 L) : ∀ x ∈ (prePost L s e).1, EOk x := by
  unfold prePost
  cases hR : hi s L with
  | nil => exact fun x hx => h.ok x (mem_lo hx)
  | cons r R =>
    have hr : EOk r := h.ok r (mem_hi (s := s) (by rw [hR]; simp))
    have := hr.range
    have := hr.count
    have hrs : s < r.start + r.count := h.hi_gt s r (by rw [hR]; simp)
    simp only
    split
    · split
      · exact fun x hx => h.ok x (mem_lo hx)
      · intro x hx
        simp only [List.mem_append, List.mem_singleton] at hx
        rcases hx with hx | rfl
        · exact h.ok x (mem_lo hx)
        · exact ⟨by simp [leftOf]; omega, by simp [leftOf]; omega, hr.state⟩
    · exact fun x hx => h.ok x (mem_lo hx)

theorem trimHead_ok (h : W0 L) : ∀ x ∈ trimHead e (hi e L), EOk x ∧ e < x.start + x.count := by
  cases hB : hi e L with
  | nil => simp [trimHead]
  | cons y B =>
    have hmem : ∀ x ∈ y :: B, EOk x ∧ e < x.start + x.count := fun x hx =>
      ⟨h.ok x (mem_hi (s := e) (by rw [hB]; exact hx)), h.hi_gt e x (by rw [hB]; exact hx)⟩
    have hy := hmem y (by simp)
    have := hy.1.range
    have := hy.1.count
    rw [trimHead_cons]
    split
    · intro x hx
      simp only [List.mem_cons] at hx
      rcases hx with rfl | hx
      · exact ⟨⟨by simp; omega, by simp; omega, hy.1.state⟩, by simp; omega⟩
      · exact hmem x (by simp [hx])
    · exact hmem

theorem post_ok (hse : s ≤ e) (h : W0 L) : ∀ x ∈ (prePost L s e).2, EOk x ∧ e < x.start + x.count := by
  have hhi : ∀ x ∈ hi e L, EOk x ∧ e < x.start + x.count :=
    fun x hx => ⟨h.ok x (mem_hi hx), h.hi_gt e x hx⟩
  unfold prePost
  cases hR : hi s L with
  | nil => simp
  | cons r R =>
    simp only
    split
    · split
      · exact hhi
      · exact trimHead_ok h
    · exact trimHead_ok h

theorem pairwise_lo {ρ : Entry → Entry → Prop} (h : L.Pairwise ρ) : (lo s L).Pairwise ρ :=
  h.sublist (List.takeWhile_sublist _)
theorem pairwise_hi {ρ : Entry → Entry → Prop} (h : L.Pairwise ρ) : (hi s L).Pairwise ρ :=
  h.sublist (List.dropWhile_sublist _)

theorem pre_mono (hse : s ≤ e) (h : W0 L) :
    (prePost L s e).1.Pairwise (fun a b => a.start + a.count ≤ b.start + b.count) := by
  have hlo := pairwise_lo (s := s) h.mono
  unfold prePost
  cases hR : hi s L with
  | nil => exact hlo
  | cons r R =>
    simp only
    split
    · split
      · exact hlo
      · rw [List.pairwise_append]
        refine ⟨hlo, by simp, ?_⟩
        intro a ha b hb
        simp only [List.mem_singleton] at hb
        subst hb
        have := lo_le a ha
        simp [leftOf]; omega
    · exact hlo

theorem trimHead_mono (h : W0 L) :
    (trimHead e (hi e L)).Pairwise (fun a b => a.start + a.count ≤ b.start + b.count) := by
  have hm := pairwise_hi (s := e) h.mono
  cases hB : hi e L with
  | nil => simp [trimHead]
  | cons y B =>
    have hgt := h.hi_gt e y (by rw [hB]; simp)
    rw [hB, List.pairwise_cons] at hm
    rw [trimHead_cons]
    split
    · rw [List.pairwise_cons]
      exact ⟨fun z hz => by have := hm.1 z hz; simp; omega, hm.2⟩
    · rw [List.pairwise_cons]; exact hm

theorem post_mono (hse : s ≤ e) (h : W0 L) :
    (prePost L s e).2.Pairwise (fun a b => a.start + a.count ≤ b.start + b.count) := by
  have hhi := pairwise_hi (s := e) h.mono
  unfold prePost
  cases hR : hi s L with
  | nil => simp
  | cons r R =>
    simp only
    split
    · split
      · exact hhi
      · exact trimHead_mono h
    · exact trimHead_mono h

end

/-! ### Merging preserves everything -/

theorem absorbNext_w0 {x : Entry} {B : List Entry} (hok : ∀ y ∈ x :: B, EOk y)
    (hm : (x :: B).Pairwise (fun a b => a.start + a.count ≤ b.start + b.count)) :
    ∃ x' B', absorbNext x B = x' :: B' ∧ (∀ y ∈ x' :: B', EOk y) ∧
      (x' :: B').Pairwise (fun a b => a.start + a.count ≤ b.start + b.count) ∧ x'.start = x.start ∧
      x.start + x.count ≤ x'.start + x'.count ∧
      (∀ y ∈ B', y ∈ B) := by
  cases B with
  | nil => exact ⟨x, [], rfl, hok, hm, rfl, Nat.le_refl _, by simp⟩
  | cons y B =>
    by_cases hmg : mergeable x y
    · refine ⟨⟨x.start, x.count + y.count, x.state⟩, B, by simp [absorbNext, hmg], ?_, ?_, rfl, ?_, ?_⟩
      · intro z hz
        simp only [List.mem_cons] at hz
        rcases hz with rfl | hz
        · have h1 := (hok y (by simp)).range
          have h2 := (hok x (by simp)).state
          exact ⟨by have := hmg.1; simp; omega, hmg.2.2, h2⟩
        · exact hok z (by simp [hz])
      · rw [List.pairwise_cons] at hm ⊢
        have h2 := hm.2
        rw [List.pairwise_cons] at h2
        refine ⟨fun z hz => ?_, h2.2⟩
        have := h2.1 z hz
        have := hmg.1
        simp; omega
      · simp
      · intro z hz; simp [hz]
    · exact ⟨x, y :: B, by simp [absorbNext, hmg], hok, hm, rfl, Nat.le_refl _, by simp⟩

theorem absorbPrev_w0 {A B : List Entry} {x : Entry} (hok : ∀ y ∈ A ++ x :: B, EOk y)
    (hm : (A ++ x :: B).Pairwise (fun a b => a.start + a.count ≤ b.start + b.count)) :
    W0 (absorbPrev A (x :: B)) := by
  rcases List.eq_nil_or_concat A with rfl | ⟨P, q, rfl⟩
  · exact ⟨by simpa [absorbPrev] using hok, by simpa [absorbPrev] using hm⟩
  · rw [List.concat_eq_append] at *
    rw [absorbPrev_snoc]
    by_cases hmg : mergeable q x
    · rw [if_pos hmg]
      have hq := hok q (by simp)
      have hx := hok x (by simp)
      have h1 := hx.range
      have h2 := hmg.1
      constructor
      · intro z hz
        simp only [List.mem_append, List.mem_cons] at hz
        rcases hz with hz | rfl | hz
        · exact hok z (by simp [hz])
        · exact ⟨by simp; omega, hmg.2.2, hq.state⟩
        · exact hok z (by simp [hz])
      · have hm' : (P ++ (q :: x :: B)).Pairwise (fun a b => a.start + a.count ≤ b.start + b.count) := by
          simpa using hm
        rw [List.pairwise_append, List.pairwise_cons, List.pairwise_cons] at hm'
        rw [List.pairwise_append, List.pairwise_cons]
        obtain ⟨a1, ⟨a2, a3, a4⟩, a5⟩ := hm'
        refine ⟨a1, ⟨fun z hz => ?_, a4⟩, ?_⟩
        · have := a3 z hz
          simp; omega
        · intro a ha b hb
          simp only [List.mem_cons] at hb
          rcases hb with rfl | hb
          · have := a5 a ha x (by simp)
            simp; omega
          · exact a5 a ha b (by simp [hb])
    · rw [if_neg hmg]
      exact ⟨by simpa using hok, by simpa using hm⟩

/-- The general invariant is preserved by every mark. -/
theorem markL_w0 {L : List Entry} {s c : Nat} {st : State} (h : W0 L) (hc' : c ≤ 65535)
    (he : s + c < W64) : W0 (markL L s c st) := by
  have hse : s ≤ s + c := by omega
  have p1 := pre_ok hse h
  have p2 := pre_le hse h
  have p3 := pre_mono hse h
  have q1 := post_ok hse h
  have q3 := post_mono hse h
  unfold markL
  by_cases hst : st = .absent
  · rw [if_pos hst]
    constructor
    · intro x hx
      rcases List.mem_append.1 hx with hx | hx
      · exact p1 x hx
      · exact (q1 x hx).1
    · rw [List.pairwise_append]
      refine ⟨p3, q3, fun a ha b hb => ?_⟩
      have := p2 a ha
      have := (q1 b hb).2
      omega
  · rw [if_neg hst]
    have hxok : EOk ⟨s, c, st.code⟩ := ⟨by simpa using he, hc', code_lt hst⟩
    obtain ⟨x', B', e1, o1, m1, s1, s2, sub⟩ := absorbNext_w0 (x := ⟨s, c, st.code⟩) (B := (prePost L s (s + c)).2)
      (by
        intro y hy
        simp only [List.mem_cons] at hy
        rcases hy with rfl | hy
        · exact hxok
        · exact (q1 y hy).1)
      (by
        rw [List.pairwise_cons]
        exact ⟨fun y hy => by have := (q1 y hy).2; simp; omega, q3⟩)
    rw [e1]
    apply absorbPrev_w0
    · intro y hy
      rcases List.mem_append.1 hy with hy | hy
      · exact p1 y hy
      · exact o1 y hy
    · rw [List.pairwise_append]
      refine ⟨p3, m1, fun a ha b hb => ?_⟩
      have h1 := p2 a ha
      simp only [List.mem_cons] at hb
      rcases hb with rfl | hb
      · simp only at s1 s2; omega
      · have := (q1 b (sub b hb)).2; omega

theorem absorbNext_cov {x : Entry} {B : List Entry} (b t : Nat) :
    Cov (absorbNext x B) b t ↔ Cov (x :: B) b t := by
  cases B with
  | nil => rfl
  | cons y B =>
    by_cases hm : mergeable x y
    · obtain ⟨m1, m2, _⟩ := hm
      simp only [absorbNext, mergeable, m1, m2, *, and_self, if_true, Cov_cons, Entry.covers, true_and]
      constructor
      · rintro (⟨h, ht⟩ | h)
        · by_cases hb : b < y.start
          · exact .inl ⟨by omega, ht⟩
          · exact .inr (.inl ⟨by omega, ht⟩)
        · exact .inr (.inr h)
      · rintro (⟨h, ht⟩ | ⟨h, ht⟩ | h)
        · exact .inl ⟨by omega, ht⟩
        · exact .inl ⟨by omega, ht⟩
        · exact .inr h
    · simp only [absorbNext, hm, if_false]

theorem absorbPrev_cov {A X : List Entry} (b t : Nat) :
    Cov (absorbPrev A X) b t ↔ Cov (A ++ X) b t := by
  rcases List.eq_nil_or_concat A with rfl | ⟨P, q, rfl⟩
  · simp [absorbPrev]
  · cases X with
    | nil =>
      rw [List.concat_eq_append, List.append_nil]
      have : absorbPrev (P ++ [q]) [] = P ++ [q] := by
        induction P with
        | nil => rfl
        | cons p P ih => cases P with
          | nil => simp [absorbPrev]
          | cons p' P => simp only [List.cons_append, absorbPrev] at *; rw [ih]
      rw [this]
    | cons x X =>
      rw [List.concat_eq_append, absorbPrev_snoc]
      by_cases hm : mergeable q x
      · rw [if_pos hm]
        obtain ⟨m1, m2, _⟩ := hm
        simp only [Cov_append, Cov_cons, Cov_nil, or_false, Entry.covers, m2, or_assoc]
        constructor
        · rintro (h | ⟨h, ht⟩ | h)
          · exact .inl h
          · by_cases hb : b < x.start
            · exact .inr (.inl ⟨by omega, ht⟩)
            · exact .inr (.inr (.inl ⟨by omega, ht⟩))
          · exact .inr (.inr (.inr h))
        · rintro (h | ⟨h, ht⟩ | ⟨h, ht⟩ | h)
          · exact .inl h
          · exact .inr (.inl ⟨by omega, ht⟩)
          · exact .inr (.inl ⟨by omega, ht⟩)
          · exact .inr (.inr h)
      · rw [if_neg hm]
        simp

theorem absorbNext_disj {x : Entry} {B : List Entry}
    (hm : (x :: B).Pairwise (fun a b => a.start + a.count ≤ b.start)) :
    ∃ x' B', absorbNext x B = x' :: B' ∧ x'.start = x.start ∧
      (x' :: B').Pairwise (fun a b => a.start + a.count ≤ b.start) ∧ (∀ y ∈ B', y ∈ B) := by
  cases B with
  | nil => exact ⟨x, [], rfl, rfl, hm, by simp⟩
  | cons y B =>
    by_cases hmg : mergeable x y
    · refine ⟨⟨x.start, x.count + y.count, x.state⟩, B, by simp [absorbNext, hmg], rfl, ?_, fun z hz => by simp [hz]⟩
      rw [List.pairwise_cons, List.pairwise_cons] at hm
      rw [List.pairwise_cons]
      refine ⟨fun z hz => ?_, hm.2.2⟩
      have := hm.2.1 z hz
      have := hmg.1
      simp; omega
    · exact ⟨x, y :: B, by simp [absorbNext, hmg], rfl, hm, by simp⟩

theorem absorbPrev_disj {A B : List Entry} {x : Entry}
    (hm : (A ++ x :: B).Pairwise (fun a b => a.start + a.count ≤ b.start)) :
    (absorbPrev A (x :: B)).Pairwise (fun a b => a.start + a.count ≤ b.start) := by
  rcases List.eq_nil_or_concat A with rfl | ⟨P, q, rfl⟩
  · simpa [absorbPrev] using hm
  · rw [List.concat_eq_append] at *
    rw [absorbPrev_snoc]
    have hm' : (P ++ (q :: x :: B)).Pairwise (fun a b => a.start + a.count ≤ b.start) := by
      simpa using hm
    by_cases hmg : mergeable q x
    · rw [if_pos hmg]
      rw [List.pairwise_append, List.pairwise_cons, List.pairwise_cons] at hm'
      rw [List.pairwise_append, List.pairwise_cons]
      obtain ⟨a1, ⟨a2, a3, a4⟩, a5⟩ := hm'
      refine ⟨a1, ⟨fun z hz => ?_, a4⟩, ?_⟩
      · have := a3 z hz
        have := hmg.1
        simp; omega
      · intro a ha b hb
        simp only [List.mem_cons] at hb
        rcases hb with rfl | hb
        · exact a5 a ha q (by simp)
        · exact a5 a ha b (by simp [hb])
    · rw [if_neg hmg]; exact hm'

theorem pre_disj {L : List Entry} {s e : Nat} (h : Wf L) :
    (prePost L s e).1.Pairwise (fun a b => a.start + a.count ≤ b.start) := by
  have hlo := pairwise_lo (s := s) h.disj
  obtain ⟨_, _, p3⟩ := wf_parts (s := s) h
  unfold prePost
  cases hR : hi s L with
  | nil => exact hlo
  | cons r R =>
    simp only
    split
    · split
      · exact hlo
      · rw [List.pairwise_append]
        refine ⟨hlo, by simp, ?_⟩
        intro a ha b hb
        simp only [List.mem_singleton] at hb
        subst hb
        exact p3 a ha r (by rw [hR]; simp)
    · exact hlo

theorem trimHead_disj {L : List Entry} {e : Nat} (h : Wf L) :
    (trimHead e (hi e L)).Pairwise (fun a b => a.start + a.count ≤ b.start) ∧
    (∀ x ∈ trimHead e (hi e L), e ≤ x.start) := by
  have hm := pairwise_hi (s := e) h.disj
  cases hB : hi e L with
  | nil => simp [trimHead]
  | cons y B =>
    have hgt := h.w0.hi_gt e y (by rw [hB]; simp)
    rw [hB, List.pairwise_cons] at hm
    rw [trimHead_cons]
    have hrest : ∀ z ∈ B, e ≤ z.start := fun z hz => by have := hm.1 z hz; omega
    split
    · refine ⟨?_, ?_⟩
      · rw [List.pairwise_cons]
        exact ⟨fun z hz => by have := hm.1 z hz; simp; omega, hm.2⟩
      · intro z hz
        simp only [List.mem_cons] at hz
        rcases hz with rfl | hz
        · simp
        · exact hrest z hz
    · refine ⟨by rw [List.pairwise_cons]; exact hm, ?_⟩
      intro z hz
      simp only [List.mem_cons] at hz
      rcases hz with rfl | hz
      · omega
      · exact hrest z hz

/-- Disjointness is preserved by every mark without a straddling entry. -/
theorem markL_wf {L : List Entry} {s c : Nat} {st : State} (h : Wf L) (hc' : c ≤ 65535)
    (he : s + c < W64) (hns : ¬ Straddle L s (s + c)) : Wf (markL L s c st) := by
  refine ⟨(markL_w0 h.w0 hc' he).ok, ?_⟩
  have hse : s ≤ s + c := by omega
  have p1 := pre_disj (s := s) (e := s + c) h
  have p2 := pre_le hse h.w0
  obtain ⟨q1, q2⟩ := trimHead_disj (e := s + c) h
  unfold markL
  simp only
  rw [post_eq hse hns]
  by_cases hst : st = .absent
  · rw [if_pos hst, List.pairwise_append]
    refine ⟨p1, q1, fun a ha b hb => ?_⟩
    have := p2 a ha
    have := q2 b hb
    omega
  · rw [if_neg hst]
    obtain ⟨x', B', e1, s1, m1, sub⟩ := absorbNext_disj (x := ⟨s, c, st.code⟩) (B := trimHead (s + c) (hi (s + c) L))
      (by
        rw [List.pairwise_cons]
        exact ⟨fun y hy => q2 y hy, q1⟩)
    rw [e1]
    apply absorbPrev_disj
    rw [List.pairwise_append]
    refine ⟨p1, m1, fun a ha b hb => ?_⟩
    have h1 := p2 a ha
    simp only [List.mem_cons] at hb
    rcases hb with rfl | hb
    · rw [s1]; exact h1
    · have := q2 b (sub b hb); omega

/-- What is covered after a mark without a straddling entry. -/
theorem markL_cov {L : List Entry} {s c : Nat} {st : State} (h : Wf L)
    (hns : ¬ Straddle L s (s + c)) (b t : Nat) :
    Cov (markL L s c st) b t ↔
      (if s ≤ b ∧ b < s + c then st ≠ .absent ∧ t = st.code else Cov L b t) := by
  have hse : s ≤ s + c := by omega
  have hpre := pre_cov (s := s) (e := s + c) h b t
  have hpost := trimHead_cov (e := s + c) h b t
  have key : Cov (markL L s c st) b t ↔
      (b < s ∧ Cov L b t) ∨ (st ≠ .absent ∧ s ≤ b ∧ b < s + c ∧ st.code = t) ∨ (s + c ≤ b ∧ Cov L b t) := by
    unfold markL
    simp only
    rw [post_eq hse hns]
    by_cases hst : st = .absent
    · rw [if_pos hst, Cov_append, hpre, hpost]; simp [hst]
    · rw [if_neg hst, absorbPrev_cov, Cov_append, absorbNext_cov, Cov_cons, hpre, hpost]
      simp only [ne_eq, hst, not_false_eq_true, true_and, Entry.covers]
      constructor
      · rintro (h | ⟨⟨h1, h2⟩, h3⟩ | h)
        · exact .inl h
        · exact .inr (.inl ⟨h1, h2, h3⟩)
        · exact .inr (.inr h)
      · rintro (h | ⟨h1, h2, h3⟩ | h)
        · exact .inl h
        · exact .inr (.inl ⟨⟨h1, h2⟩, h3⟩)
        · exact .inr (.inr h)
  rw [key]
  by_cases hb : s ≤ b ∧ b < s + c
  · rw [if_pos hb]
    constructor
    · rintro (h | h | h)
      · omega
      · exact ⟨h.1, h.2.2.2.symm⟩
      · omega
    · rintro ⟨h1, h2⟩; exact .inr (.inl ⟨h1, hb.1, hb.2, h2.symm⟩)
  · rw [if_neg hb]
    constructor
    · rintro (h | h | h)
      · exact h.2
      · exact absurd ⟨h.2.1, h.2.2.1⟩ hb
      · exact h.2
    · intro h
      by_cases hb' : b < s
      · exact .inl ⟨hb', h⟩
      · exact .inr (.inr ⟨by omega, h⟩)

theorem markL_sem {L : List Entry} {s c : Nat} {st : State} (h : Wf L) (hc' : c ≤ 65535)
    (he : s + c < W64) (hns : ¬ Straddle L s (s + c)) :
    sem (markL L s c st) = setRange (sem L) s c st := by
  funext b
  have hw := markL_wf (st := st) h hc' he hns
  have hcov := markL_cov (st := st) h hns b
  unfold setRange
  by_cases hb : s ≤ b ∧ b < s + c
  · rw [if_pos hb]
    simp only [if_pos hb] at hcov
    by_cases hst : st = .absent
    · rw [hst] at hcov ⊢
      exact sem_absent (fun t ht => ((hcov t).1 ht).1 rfl)
    · rw [sem_of_cov hw ((hcov st.code).2 ⟨hst, rfl⟩), dec_code]
  · rw [if_neg hb]
    simp only [if_neg hb] at hcov
    exact sem_congr hw h hcov

/-- A straddling entry shows in the block map. -/
theorem straddle_visible {L : List Entry} {s e : Nat} (h : Wf L) (hse : s < e) (hs : Straddle L s e) :
    sem L s ≠ .absent ∧ sem L (e - 1) ≠ .absent ∧ sem L (e - 1) = sem L e ∧ e ≠ s + 1 := by
  obtain ⟨r, R, hR, hr1, hr2, hh⟩ := hs
  have hrs : s < r.start + r.count := h.w0.hi_gt s r (by rw [hR]; simp)
  have hrL : r ∈ L := mem_hi (s := s) (by rw [hR]; simp)
  cases hB : hi e L with
  | nil => rw [hB] at hh; simp [headBelow] at hh
  | cons x B =>
    rw [hB] at hh
    simp only [headBelow, decide_eq_true_iff] at hh
    have hxe : e < x.start + x.count := h.w0.hi_gt e x (by rw [hB]; simp)
    have hxL : x ∈ L := mem_hi (s := e) (by rw [hB]; simp)
    have c1 : Cov L s r.state := ⟨r, hrL, ⟨by omega, by omega⟩, rfl⟩
    have c2 : Cov L (e - 1) x.state := ⟨x, hxL, ⟨by omega, by omega⟩, rfl⟩
    have c3 : Cov L e x.state := ⟨x, hxL, ⟨by omega, by omega⟩, rfl⟩
    refine ⟨?_, ?_, ?_, ?_⟩
    · rw [sem_of_cov h c1]; exact dec_ne_absent (h.ok r hrL).state
    · rw [sem_of_cov h c2]; exact dec_ne_absent (h.ok x hxL).state
    · rw [sem_of_cov h c2, sem_of_cov h c3]
    · -- r and x are different entries, so x starts after r
      intro hes
      have hrlo : r ∈ lo e L := by
        rw [lo_lo (Nat.le_of_lt hse), hR]
        apply List.mem_append_right
        unfold lo
        rw [List.takeWhile_cons]; simp [hr2]
      obtain ⟨_, _, p3⟩ := wf_parts (s := e) h
      have := p3 r hrlo x (by rw [hB]; simp)
      omega

theorem not_straddle_of_clean {L : List Entry} {s e : Nat} (h : Wf L) (hse : s < e)
    (hc : e = s + 1 ∨ CleanChunk (sem L) s e) : ¬ Straddle L s e := by
  intro hs
  obtain ⟨h1, h2, h3, h4⟩ := straddle_visible h hse hs
  rcases hc with hc | hc | hc | hc
  · exact h4 hc
  · exact h1 hc
  · exact h2 hc
  · exact hc h3

/-! ### Non-empty entries -/

/-- Sorted, disjoint and non-empty. -/
structure SWf (L : List Entry) : Prop extends Wf L where
  pos : ∀ e ∈ L, 0 < e.count

theorem absorbNext_pos {x : Entry} {B : List Entry} (h : ∀ y ∈ x :: B, 0 < y.count) :
    ∀ y ∈ absorbNext x B, 0 < y.count := by
  cases B with
  | nil => exact h
  | cons y B =>
    by_cases hm : mergeable x y
    · simp only [absorbNext, hm, if_true]
      intro z hz
      simp only [List.mem_cons] at hz
      rcases hz with rfl | hz
      · have := h x (by simp); simp; omega
      · exact h z (by simp [hz])
    · simp only [absorbNext, hm, if_false]; exact h

theorem absorbPrev_pos {A X : List Entry} (h : ∀ y ∈ A ++ X, 0 < y.count) :
    ∀ y ∈ absorbPrev A X, 0 < y.count := by
  induction A with
  | nil => simpa [absorbPrev] using h
  | cons a A ih =>
    cases A with
    | nil =>
      cases X with
      | nil => simpa [absorbPrev] using h
      | cons x X =>
        unfold absorbPrev
        by_cases hm : mergeable a x
        · rw [if_pos hm]
          intro z hz
          simp only [List.mem_cons] at hz
          rcases hz with rfl | hz
          · have := h a (by simp); simp; omega
          · exact h z (by simp [hz])
        · rw [if_neg hm]; simpa using h
    | cons a' A =>
      unfold absorbPrev
      intro z hz
      simp only [List.mem_cons] at hz
      rcases hz with rfl | hz
      · exact h z (by simp)
      · exact ih (fun y hy => h y (by simp at hy ⊢; exact .inr hy)) z hz

theorem markL_swf {L : List Entry} {s c : Nat} {st : State} (h : SWf L) (hc : 0 < c) (hc' : c ≤ 65535)
    (he : s + c < W64) (hcl : CleanChunk (sem L) s (s + c)) : SWf (markL L s c st) := by
  have hse : s ≤ s + c := by omega
  have hns : ¬ Straddle L s (s + c) := not_straddle_of_clean h.toWf (by omega) (.inr hcl)
  refine ⟨markL_wf h.toWf hc' he hns, ?_⟩
  have hpre : ∀ x ∈ (prePost L s (s + c)).1, 0 < x.count := by
    have hlo : ∀ x ∈ lo s L, 0 < x.count := fun x hx => h.pos x (mem_lo hx)
    unfold prePost
    cases hR : hi s L with
    | nil => exact hlo
    | cons r R =>
      have hrL : r ∈ L := mem_hi (s := s) (by rw [hR]; simp)
      have hrs : s < r.start + r.count := h.toWf.w0.hi_gt s r (by rw [hR]; simp)
      simp only
      split
      · rename_i hle
        split
        · exact hlo
        · rename_i hex
          intro x hx
          simp only [List.mem_append, List.mem_singleton] at hx
          rcases hx with hx | rfl
          · exact hlo x hx
          · -- an empty left part would need an entry from `s` to beyond the end
            simp only [leftOf]
            by_cases heq : r.start = s
            · exfalso
              have hend : s + c < r.start + r.count := by
                apply Nat.lt_of_not_le; intro hh; exact hex ⟨heq, hh⟩
              have hok := (h.ok r hrL).state
              have c1 : Cov L s r.state := ⟨r, hrL, ⟨by omega, by omega⟩, rfl⟩
              have c2 : Cov L (s + c - 1) r.state := ⟨r, hrL, ⟨by omega, by omega⟩, rfl⟩
              have c3 : Cov L (s + c) r.state := ⟨r, hrL, ⟨by omega, by omega⟩, rfl⟩
              rcases hcl with hcl | hcl | hcl
              · rw [sem_of_cov h.toWf c1] at hcl; exact dec_ne_absent hok hcl
              · rw [sem_of_cov h.toWf c2] at hcl; exact dec_ne_absent hok hcl
              · rw [sem_of_cov h.toWf c2, sem_of_cov h.toWf c3] at hcl; exact hcl rfl
            · omega
      · exact hlo
  have hpost : ∀ x ∈ trimHead (s + c) (hi (s + c) L), 0 < x.count := by
    cases hB : hi (s + c) L with
    | nil => simp [trimHead]
    | cons y B =>
      have hgt := h.toWf.w0.hi_gt (s + c) y (by rw [hB]; simp)
      have hB' : ∀ x ∈ y :: B, 0 < x.count := fun x hx => h.pos x (mem_hi (s := s + c) (by rw [hB]; exact hx))
      rw [trimHead_cons]
      split
      · intro x hx
        simp only [List.mem_cons] at hx
        rcases hx with rfl | hx
        · simp; omega
        · exact hB' x (by simp [hx])
      · exact hB'
  unfold markL
  simp only
  rw [post_eq hse hns]
  by_cases hst : st = .absent
  · rw [if_pos hst]
    intro x hx
    rcases List.mem_append.1 hx with hx | hx
    · exact hpre x hx
    · exact hpost x hx
  · rw [if_neg hst]
    apply absorbPrev_pos
    intro x hx
    rcases List.mem_append.1 hx with hx | hx
    · exact hpre x hx
    · refine absorbNext_pos ?_ x hx
      intro y hy
      simp only [List.mem_cons] at hy
      rcases hy with rfl | hy
      · exact hc
      · exact hpost y hy

end Dragonstash.Blocklist
