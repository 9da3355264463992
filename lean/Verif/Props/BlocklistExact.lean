/-
  C01, C02, C04: exactly which marks go wrong, in terms of the entries in the file.
-/
import Verif.Props.BlocklistPoint
namespace Dragonstash.Blocklist
open Spec (setRange Map run countBelow)

/-! ### Specification -/

/-- The entries of the file do not overlap. -/
def Disjoint (f : File) : Prop := (entries f).Pairwise (fun a b => a.start + a.count ≤ b.start)

/-- In the file an entry begins exactly at `s` and ends within `[s, e)`, and another one lies across `e`. -/
def Skips (f : File) (s e : Nat) : Prop :=
  ∃ r ∈ entries f, ∃ x ∈ entries f, r.start = s ∧ 0 < r.count ∧ r.start + r.count ≤ e ∧ x.start < e ∧ e < x.start + x.count

/-- In the file an entry of another state begins exactly at `s` and ends behind `e`. -/
def Hollow (f : File) (s e : Nat) (st : State) : Prop :=
  ∃ r ∈ entries f, r.start = s ∧ e < r.start + r.count ∧ r.state ≠ st.code

/-- The states are those before, with `[s, s + c)` set to `st`. -/
def Right (f : File) (s c : Nat) (st : State) (f' : File) : Prop :=
  ∀ b, ∃ old, stateAt f b = .ok old ∧ stateAt f' b = .ok (if s ≤ b ∧ b < s + c then st else old)

/-! ### Lists -/

theorem hi_split {A B : List Entry} {x : Entry} {b : Nat} (hA : ∀ a ∈ A, a.start + a.count ≤ b) (hx : b < x.start + x.count) :
    hi b (A ++ x :: B) = x :: B := by
  unfold hi
  rw [List.dropWhile_append_of_pos (fun a ha => by simpa using hA a ha), List.dropWhile_cons_of_neg (by simp; omega)]

theorem straddle_iff {L : List Entry} (h : Wf L) {s e : Nat} : Straddle L s e ↔
    ∃ r ∈ L, ∃ x ∈ L, r.start = s ∧ 0 < r.count ∧ r.start + r.count ≤ e ∧ x.start < e ∧ e < x.start + x.count := by
  constructor
  · rintro ⟨r, R, hR, h1, h2, h3⟩
    have hrs : s < r.start + r.count := h.w0.hi_gt s r (by rw [hR]; simp)
    cases hB : hi e L with
    | nil => rw [hB] at h3; cases h3
    | cons x B =>
      rw [hB] at h3
      simp only [headBelow, decide_eq_true_eq] at h3
      exact ⟨r, mem_hi (s := s) (by rw [hR]; simp), x, mem_hi (s := e) (by rw [hB]; simp), h1, by omega, h2, h3, h.w0.hi_gt e x (by rw [hB]; simp)⟩
  · rintro ⟨r, hr, x, hx, h1, h2, h3, h4, h5⟩
    obtain ⟨A, B, rfl⟩ := List.append_of_mem hr
    have hd := h.disj
    rw [List.pairwise_append] at hd
    have hA := hd.2.2
    refine ⟨r, B, hi_split (fun a ha => ?_) (by omega), h1, h3, ?_⟩
    · have := hA a ha r (by simp); omega
    · obtain ⟨A', B', hL⟩ := List.append_of_mem hx
      have hd' := h.disj
      rw [hL, List.pairwise_append] at hd'
      rw [hL, hi_split (fun a ha => ?_) h5]
      · simpa [headBelow] using h4
      · have := hd'.2.2 a ha x (by simp); omega

theorem prePost_straddle {L : List Entry} {s e : Nat} (hs : Straddle L s e) : prePost L s e = (lo s L, hi e L) := by
  obtain ⟨r, R, hR, h1, h2, -⟩ := hs
  unfold prePost
  rw [hR]; simp only
  rw [if_pos (by omega), if_pos ⟨h1, h2⟩]

theorem lo_hi_sub {L : List Entry} {s e : Nat} (h : s ≤ e) : (lo s L ++ hi e L).Sublist L := by
  have h1 : (hi e L).Sublist (hi s L) := by
    rw [← hi_hi h]; exact List.dropWhile_sublist _
  have := List.Sublist.append (List.Sublist.refl (lo s L)) h1
  rwa [lo_append_hi] at this

theorem Wf.sub {L L' : List Entry} (h : Wf L) (hs : L'.Sublist L) : Wf L' :=
  ⟨fun e he => h.ok e (hs.subset he), h.disj.sublist hs⟩

/-- Marking as absent across a straddling entry leaves its blocks. -/
theorem absent_wrong {L : List Entry} {s c : Nat} (h : Wf L) (hc : 0 < c) (hs : Straddle L s (s + c)) :
    sem (markL L s c .absent) (s + c - 1) ≠ .absent ∧ Wf (markL L s c .absent) := by
  have hm : markL L s c .absent = lo s L ++ hi (s + c) L := by
    unfold markL; rw [prePost_straddle hs]; simp
  have hw : Wf (lo s L ++ hi (s + c) L) := h.sub (lo_hi_sub (by omega))
  rw [hm]
  refine ⟨?_, hw⟩
  obtain ⟨r, R, hR, h1, h2, h3⟩ := hs
  cases hB : hi (s + c) L with
  | nil => rw [hB] at h3; cases h3
  | cons x B =>
    rw [hB] at h3 hw
    simp only [headBelow, decide_eq_true_eq] at h3
    have h4 := h.w0.hi_gt (s + c) x (by rw [hB]; simp)
    have : Cov (lo s L ++ x :: B) (s + c - 1) x.state := ⟨x, by simp, ⟨by omega, by omega⟩, rfl⟩
    rw [sem_of_cov hw this]
    exact dec_ne_absent (hw.ok x (by simp)).state

/-- Marking as present across a straddling entry leaves overlapping entries. -/
theorem present_overlaps {L : List Entry} {s c : Nat} {st : State} (hst : st ≠ .absent) (hs : Straddle L s (s + c)) :
    ¬ (markL L s c st).Pairwise (fun a b => a.start + a.count ≤ b.start) := by
  have hm : markL L s c st = absorbPrev (lo s L) (absorbNext ⟨s, c, st.code⟩ (hi (s + c) L)) := by
    unfold markL; rw [prePost_straddle hs]; simp only; rw [if_neg hst]
  rw [hm]
  obtain ⟨r, R, hR, h1, h2, h3⟩ := hs
  cases hB : hi (s + c) L with
  | nil => rw [hB] at h3; cases h3
  | cons x B =>
    rw [hB] at h3
    simp only [headBelow, decide_eq_true_eq] at h3
    have hn : absorbNext ⟨s, c, st.code⟩ (x :: B) = ⟨s, c, st.code⟩ :: x :: B := by
      simp only [absorbNext]
      rw [if_neg]
      rintro ⟨h, -⟩
      simp only at h; omega
    rw [hn]
    rcases List.eq_nil_or_concat (lo s L) with h | ⟨P, q, h⟩
    · rw [h]
      intro hp
      have := (List.pairwise_cons.mp hp).1 x (by simp)
      simp only at this; omega
    · rw [h, List.concat_eq_append, absorbPrev_snoc]
      intro hp
      have hp := (List.pairwise_append.mp hp).2.1
      by_cases hmg : mergeable q ⟨s, c, st.code⟩
      · rw [if_pos hmg] at hp
        have := (List.pairwise_cons.mp hp).1 x (by simp)
        have := hmg.1
        simp only at this; simp only at *; omega
      · rw [if_neg hmg] at hp
        have := (List.pairwise_cons.mp (List.pairwise_cons.mp hp).2).1 x (by simp)
        simp only at this; omega

/-- Entries which are not empty stay so, but in one case. -/
theorem pos_iff {L : List Entry} {s c : Nat} {st : State} (h : SWf L) (hc : 0 < c) :
    (∀ e ∈ markL L s c st, 0 < e.count) ↔ ¬ ∃ r ∈ L, r.start = s ∧ s + c < r.start + r.count ∧ r.state ≠ st.code := by
  have hlo : ∀ x ∈ lo s L, 0 < x.count := fun x hx => h.pos x (mem_lo hx)
  have hpost : ∀ x ∈ trimHead (s + c) (hi (s + c) L), 0 < x.count := by
    cases hB : hi (s + c) L with
    | nil => simp [trimHead]
    | cons y B =>
      have hgt := h.toWf.w0.hi_gt (s + c) y (by rw [hB]; simp)
      have hB' : ∀ x ∈ y :: B, 0 < x.count := fun x hx => h.pos x (mem_hi (s := s + c) (by rw [hB]; exact hx))
      rw [trimHead_cons]
      split
      · intro x hx
        simp only [List.mem_cons] at hx
        rcases hx with rfl | hx
        · simp; omega
        · exact hB' x (by simp [hx])
      · exact hB'
  have fin : ∀ {A B : List Entry}, prePost L s (s + c) = (A, B) → (∀ x ∈ A, 0 < x.count) → (∀ x ∈ B, 0 < x.count) → ∀ e ∈ markL L s c st, 0 < e.count := by
    intro A B hpp hA hB
    unfold markL
    rw [hpp]; simp only
    by_cases hst : st = .absent
    · rw [if_pos hst]
      intro x hx
      rcases List.mem_append.1 hx with hx | hx
      · exact hA x hx
      · exact hB x hx
    · rw [if_neg hst]
      apply absorbPrev_pos
      intro x hx
      rcases List.mem_append.1 hx with hx | hx
      · exact hA x hx
      · refine absorbNext_pos ?_ x hx
        intro y hy
        simp only [List.mem_cons] at hy
        rcases hy with rfl | hy
        · exact hc
        · exact hB y hy
  have hout : ∀ r ∈ L, r.start = s → hi s L ≠ [] ∧ ∀ r' R, hi s L = r' :: R → r' = r := by
    intro r hr hrs
    have hp := h.pos r hr
    obtain ⟨A, B, rfl⟩ := List.append_of_mem hr
    have hd := h.disj
    rw [List.pairwise_append] at hd
    rw [hi_split (fun a ha => by have := hd.2.2 a ha r (by simp); omega) (by omega)]
    exact ⟨by simp, fun r' R e => by cases e; rfl⟩
  cases hR : hi s L with
  | nil =>
    refine ⟨fun _ ⟨r, hr, h1, _⟩ => (hout r hr h1).1 hR, fun _ => fin (A := lo s L) (B := []) (by unfold prePost; rw [hR]) hlo (by simp)⟩
  | cons r R =>
    have hrL : r ∈ L := mem_hi (s := s) (by rw [hR]; simp)
    have hrs : s < r.start + r.count := h.toWf.w0.hi_gt s r (by rw [hR]; simp)
    have only : ∀ {p : Entry → Prop}, (∃ x ∈ L, x.start = s ∧ p x) → r.start = s ∧ p r := by
      rintro p ⟨x, hx, h1, h2⟩
      have := (hout x hx h1).2 r R hR
      subst this; exact ⟨h1, h2⟩
    by_cases hle : r.start ≤ s
    case neg =>
      refine ⟨fun _ hx => hle (by have := (only hx).1; omega), fun _ => fin (A := lo s L) (B := trimHead (s + c) (hi (s + c) L)) (by unfold prePost; rw [hR]; simp only; rw [if_neg hle]) hlo hpost⟩
    by_cases heq : r.start = s
    case neg =>
      refine ⟨fun _ hx => heq (only hx).1, fun _ => fin (A := lo s L ++ [leftOf s r]) (B := trimHead (s + c) (hi (s + c) L)) (by unfold prePost; rw [hR]; simp only; rw [if_pos hle, if_neg (by omega)]) ?_ hpost⟩
      intro x hx
      simp only [List.mem_append, List.mem_singleton] at hx
      rcases hx with hx | rfl
      · exact hlo x hx
      · simp only [leftOf]; omega
    by_cases hend : r.start + r.count ≤ s + c
    · refine ⟨fun _ hx => by have := (only hx).2.1; omega, fun _ => fin (A := lo s L) (B := hi (s + c) L) (by unfold prePost; rw [hR]; simp only; rw [if_pos hle, if_pos ⟨heq, hend⟩]) hlo
        (fun x hx => h.pos x (mem_hi hx))⟩
    · have hpp : prePost L s (s + c) = (lo s L ++ [leftOf s r], trimHead (s + c) (hi (s + c) L)) := by
        unfold prePost; rw [hR]; simp only; rw [if_pos hle, if_neg (fun h => hend h.2)]
      have hiE : hi (s + c) L = r :: R := by
        rw [← hi_hi (show s ≤ s + c by omega), hR]
        unfold hi; rw [List.dropWhile_cons_of_neg (by simp; omega)]
      have htr : trimHead (s + c) (hi (s + c) L) = ⟨s + c, r.start + r.count - (s + c), r.state⟩ :: R := by
        rw [hiE, trimHead_cons, if_pos (by omega)]
      have hmp : markL L s c st = if st = .absent then (lo s L ++ [leftOf s r]) ++ (⟨s + c, r.start + r.count - (s + c), r.state⟩ :: R)
          else absorbPrev (lo s L ++ [leftOf s r]) (absorbNext ⟨s, c, st.code⟩ (⟨s + c, r.start + r.count - (s + c), r.state⟩ :: R)) := by
        unfold markL; rw [hpp, htr]
      have hzero : (leftOf s r).count = 0 := by simp only [leftOf]; omega
      have hstate := (h.ok r hrL).state
      have hcnt := (h.ok r hrL).count
      by_cases hsame : r.state = st.code
      · refine ⟨fun _ hx => (only hx).2.2 hsame, fun _ => ?_⟩
        have hst : st ≠ .absent := by rintro rfl; rw [hsame] at hstate; simp [State.code] at hstate
        rw [hmp, if_neg hst]
        have hn : absorbNext ⟨s, c, st.code⟩ (⟨s + c, r.start + r.count - (s + c), r.state⟩ :: R) = ⟨s, c + (r.start + r.count - (s + c)), st.code⟩ :: R := by
          simp only [absorbNext]
          rw [if_pos ⟨rfl, hsame.symm, by show c + (r.start + r.count - (s + c)) ≤ 65535; omega⟩]
        rw [hn, absorbPrev_snoc, if_pos ⟨by simp only [leftOf]; omega, hsame, by
          show (leftOf s r).count + (c + (r.start + r.count - (s + c))) ≤ 65535; omega⟩]
        intro x hx
        rcases List.mem_append.1 hx with hx | hx
        · exact hlo x hx
        · rcases List.mem_cons.1 hx with rfl | hx
          · show 0 < (leftOf s r).count + (c + (r.start + r.count - (s + c))); omega
          · exact h.pos x (mem_hi (s := s) (by rw [hR]; simp [hx]))
      · refine ⟨fun hall => ?_, fun hn => absurd ⟨r, hrL, heq, by omega, hsame⟩ hn⟩
        exfalso
        have hmem : leftOf s r ∈ markL L s c st := by
          rw [hmp]
          by_cases hst : st = .absent
          · rw [if_pos hst]; simp
          · rw [if_neg hst]
            have hn : absorbNext ⟨s, c, st.code⟩ (⟨s + c, r.start + r.count - (s + c), r.state⟩ :: R) = ⟨s, c, st.code⟩ :: ⟨s + c, r.start + r.count - (s + c), r.state⟩ :: R := by
              simp only [absorbNext]
              rw [if_neg (fun h => hsame h.2.1.symm)]
            rw [hn, absorbPrev_snoc, if_neg (fun h => hsame h.2.1)]
            simp
        have := hall _ hmem
        omega

/-! ### C01, C02, C04 -/

theorem chunk_one {L : List Entry} {s c : Nat} {st : State} (hc : 0 < c) (hc' : c ≤ 65535) : chunkL st (c / 65535 + 1) L s c = markL L s c st := by
  unfold chunkL
  rw [if_neg (by omega), if_pos hc]

theorem Inv.wf {f : File} {L : List Entry} (i : Inv f L) (hd : Disjoint f) : Wf L := by
  unfold Disjoint at hd; rw [i.entries] at hd
  exact ⟨i.w0.ok, hd⟩

/-- C01, exactly: a mark of a block list without overlapping entries sets exactly the requested range, if and
only if it marks as present, or there is no entry which begins at its start and ends within it
while another one lies across its end. (Longer marks are sequences of these: `C12_pieces`.) -/
theorem C01_exact (cs : List Call) (hr : CallsInRange cs) (f : File) (hf : calls fresh cs = .ok f) (hd : Disjoint f)
    (s c : Nat) (st : State) (h0 : 0 < c) (hc : c ≤ 65535) (hsc : s + c < W64) :
    ∃ f', mark f s c st = .ok f' ∧ (Right f s c st f' ↔ st ≠ .absent ∨ ¬ Skips f s (s + c)) ∧
      (Disjoint f' ↔ st = .absent ∨ ¬ Skips f s (s + c)) := by
  obtain ⟨f2, e, i⟩ := Inv.calls cs Inv.fresh hr
  obtain rfl := ok_unique hf e
  generalize cs.foldl callL [] = L at i
  have w := i.wf hd
  obtain ⟨f', e', i'⟩ := i.mark st hsc
  rw [chunk_one h0 hc] at i'
  have hk : Skips f s (s + c) ↔ Straddle L s (s + c) := by
    rw [straddle_iff w]; unfold Skips; rw [i.entries]
  refine ⟨f', e', ?_, ?_⟩
  · have hR : Right f s c st f' ↔ sem (markL L s c st) = setRange (sem L) s c st := by
      constructor
      · intro h
        funext b
        obtain ⟨old, h1, h2⟩ := h b
        rw [i.state] at h1; rw [i'.state] at h2
        cases h1
        injection h2
      · intro h b
        exact ⟨_, i.state b, by rw [i'.state, h]; rfl⟩
    rw [hR, hk]
    constructor
    · intro h
      by_cases hst : st = .absent
      · right
        intro hs
        subst hst
        apply (absent_wrong w h0 hs).1
        rw [h]; unfold setRange; rw [if_pos (by omega)]
      · exact .inl hst
    · rintro (h | h)
      · exact markL_sem_present w h
      · exact markL_sem w hc hsc h
  · unfold Disjoint
    rw [i'.entries, hk]
    constructor
    · intro h
      by_cases hst : st = .absent
      · exact .inl hst
      · exact .inr (fun hs => present_overlaps hst hs h)
    · rintro (rfl | h)
      · by_cases hs : Straddle L s (s + c)
        · exact (absent_wrong w h0 hs).2.disj
        · exact (markL_wf w hc hsc hs).disj
      · exact (markL_wf w hc hsc h).disj

/-- C04, exactly: on a block list which `fsck` accepts, it accepts the result of a mark if and only if that marks as
absent or nothing is skipped, and no entry of another state begins at its start and ends behind its end. -/
theorem C04_exact (cs : List Call) (hr : CallsInRange cs) (f f1 : File) (hf : calls fresh cs = .ok f) (ha : fsck f = .ok f1)
    (s c : Nat) (st : State) (h0 : 0 < c) (hc : c ≤ 65535) (hsc : s + c < W64) :
    ∃ f', mark f s c st = .ok f' ∧ ((∃ f2, fsck f' = .ok f2) ↔ (st = .absent ∨ ¬ Skips f s (s + c)) ∧ ¬ Hollow f s (s + c) st) := by
  obtain ⟨f2, e, i⟩ := Inv.calls cs Inv.fresh hr
  obtain rfl := ok_unique hf e
  have hco := fsck_sound (by rw [i.entries]; exact fun e he => (i.w0.ok e he).range) ha
  obtain ⟨f', e', -, hdis⟩ := C01_exact cs hr f hf hco.disjoint s c st h0 hc hsc
  refine ⟨f', e', ?_⟩
  generalize cs.foldl callL [] = L at i
  have w : SWf L := ⟨i.wf hco.disjoint, by have := hco.nonempty; rwa [i.entries] at this⟩
  obtain ⟨f3, e3, i'⟩ := i.mark st hsc
  obtain rfl := ok_unique e' e3
  rw [chunk_one h0 hc] at i'
  have hH : Hollow f s (s + c) st ↔ ∃ r ∈ L, r.start = s ∧ s + c < r.start + r.count ∧ r.state ≠ st.code := by
    unfold Hollow; rw [i.entries]
  rw [hH, ← pos_iff w h0, ← hdis]
  constructor
  · rintro ⟨f2, h2⟩
    have := fsck_sound (by rw [i'.entries]; exact fun e he => (i'.w0.ok e he).range) h2
    refine ⟨this.disjoint, ?_⟩
    have := this.nonempty
    rwa [i'.entries] at this
  · rintro ⟨h1, h2⟩
    exact i'.fsck_ok ⟨i'.wf h1, h2⟩

/-! ### C03 -/

/-- No block lies in two entries of the file. -/
def NoneTwice (f : File) : Prop := (entries f).Pairwise (fun a b => ∀ k, ¬ ((a.start ≤ k ∧ k < a.start + a.count) ∧ b.start ≤ k ∧ k < b.start + b.count))

theorem countBelow_less {p q : Nat → Bool} {N b : Nat} (h : ∀ b, p b = true → q b = true) (hb : b < N) (h1 : p b = false) (h2 : q b = true) :
    countBelow p N < countBelow q N := by
  induction N with
  | zero => omega
  | succ n ih =>
    unfold countBelow
    have hm := countBelow_mono n h
    by_cases e : b = n
    · subst e; rw [h1, h2]; simp only [Bool.false_eq_true, if_false, if_true]; omega
    · have := ih (by omega)
      have := h n
      cases hp : p n <;> cases hq : q n <;> simp_all <;> omega

theorem sem_mem {L : List Entry} {x : Entry} {k : Nat} (hok : ∀ e ∈ L, EOk e) (hx : x ∈ L) (hk : x.covers k) : sem L k ≠ .absent := by
  induction L with
  | nil => cases hx
  | cons y L ih =>
    intro hab
    by_cases hy : y.covers k
    · rw [sem_hit hy] at hab; exact dec_ne_absent (hok y (by simp)).state hab
    · rw [sem_miss hy] at hab
      rcases List.mem_cons.1 hx with rfl | hx
      · exact hy hk
      · exact ih (fun z hz => hok z (by simp [hz])) hx hab

def sumL (L : List Entry) : Nat := total 0 L + total 1 L + total 2 L + total 3 L

/-- The counts of the entries add up to the number of blocks in them exactly if no block is in two. -/
theorem count_sum {L : List Entry} (hok : ∀ e ∈ L, EOk e) (N : Nat) (hN : ∀ e ∈ L, e.start + e.count ≤ N) :
    countBelow (fun b => decide (sem L b ≠ .absent)) N ≤ sumL L ∧
    (countBelow (fun b => decide (sem L b ≠ .absent)) N = sumL L ↔ L.Pairwise (fun a b => ∀ k, ¬ (a.covers k ∧ b.covers k))) := by
  induction L with
  | nil =>
    have : countBelow (fun b => decide (sem [] b ≠ .absent)) N = 0 := by
      rw [← countBelow_false N]; exact countBelow_congr (fun b _ => by simp [sem])
    rw [this]; simp [sumL]
  | cons e L ih =>
    obtain ⟨ih1, ih2⟩ := ih (fun x hx => hok x (by simp [hx])) (fun x hx => hN x (by simp [hx]))
    have hs := (hok e (by simp)).state
    have hsum : sumL (e :: L) = e.count + sumL L := by
      unfold sumL
      simp only [total_cons]
      have : e.state = 0 ∨ e.state = 1 ∨ e.state = 2 ∨ e.state = 3 := by omega
      rcases this with h | h | h | h <;> simp only [h] <;> simp <;> omega
    have heq : ∀ b, decide (sem (e :: L) b ≠ .absent) =
        (decide (e.start ≤ b ∧ b < e.start + e.count) || (decide (sem L b ≠ .absent) && !decide (e.start ≤ b ∧ b < e.start + e.count))) := by
      intro b
      by_cases hb : e.covers b
      · rw [sem_hit hb]
        have h2 : decide (e.start ≤ b ∧ b < e.start + e.count) = true := decide_eq_true hb
        rw [h2]; simp [dec_ne_absent hs]
      · rw [sem_miss hb]
        have h2 : decide (e.start ≤ b ∧ b < e.start + e.count) = false := decide_eq_false hb
        rw [h2]; simp
    have hcnt : countBelow (fun b => decide (sem (e :: L) b ≠ .absent)) N =
        e.count + countBelow (fun b => decide (sem L b ≠ .absent) && !decide (e.start ≤ b ∧ b < e.start + e.count)) N := by
      rw [countBelow_congr (fun b _ => heq b), countBelow_or]
      · rw [countBelow_range _ _ _ (hN e (by simp))]
      · rintro b ⟨h1, h2⟩
        rw [h1] at h2; simp at h2
    have hle := countBelow_mono (p := fun b => decide (sem L b ≠ .absent) && !decide (e.start ≤ b ∧ b < e.start + e.count))
      (q := fun b => decide (sem L b ≠ .absent)) N (fun b hb => by simp only [Bool.and_eq_true] at hb; exact hb.1)
    rw [hcnt, hsum]
    refine ⟨by omega, ?_⟩
    rw [List.pairwise_cons, ← ih2]
    constructor
    · intro h
      refine ⟨fun x hx k hk => ?_, by omega⟩
      have hsx : sem L k ≠ .absent := sem_mem (fun z hz => hok z (by simp [hz])) hx hk.2
      have := countBelow_less (p := fun b => decide (sem L b ≠ .absent) && !decide (e.start ≤ b ∧ b < e.start + e.count))
        (q := fun b => decide (sem L b ≠ .absent)) (N := N) (b := k) (fun b hb => by simp only [Bool.and_eq_true] at hb; exact hb.1)
        (by have := hN e (by simp); have := hk.1.2; omega) (by
          have h2 : decide (e.start ≤ k ∧ k < e.start + e.count) = true := decide_eq_true hk.1
          rw [h2]; simp) (by simpa using hsx)
      omega
    · rintro ⟨h1, h2⟩
      have : countBelow (fun b => decide (sem L b ≠ .absent) && !decide (e.start ≤ b ∧ b < e.start + e.count)) N = countBelow (fun b => decide (sem L b ≠ .absent)) N := by
        refine countBelow_congr (fun b _ => ?_)
        by_cases hb : e.covers b
        · have hab : sem L b = .absent := by
            apply sem_absent
            rintro t' ⟨x, hx, hxb, _⟩
            exact h1 x hx b ⟨hb, hxb⟩
          rw [hab]; simp
        · have h2 : decide (e.start ≤ b ∧ b < e.start + e.count) = false := decide_eq_false hb
          rw [h2]; simp
      omega

/-- C03, exactly: after any history (with less than 2^48 entries) the counters are right if and only if no block
lies in two entries of the file; otherwise the number of present blocks is overstated. -/
theorem C03_exact (cs : List Call) (hr : CallsInRange cs) (f : File) (hf : calls fresh cs = .ok f)
    (hn : nentries f < 281474976710656) (m : Map) (hm : ∀ b, stateAt f b = .ok (m b)) :
    (((∀ s, s ≠ .absent → blocks f s = countBelow (fun b => decide (m b = s)) W64) ∧
      presentBlocks f = countBelow (fun b => decide (m b ≠ .absent)) W64) ↔ NoneTwice f) ∧
    (¬ NoneTwice f → countBelow (fun b => decide (m b ≠ .absent)) W64 < presentBlocks f) := by
  obtain ⟨f2, e, i⟩ := Inv.calls cs Inv.fresh hr
  obtain rfl := ok_unique hf e
  revert i
  generalize cs.foldl callL [] = L
  intro i
  have hmL : m = sem L := by
    funext b
    have := hm b
    rw [i.state b] at this
    injection this with this
    exact this.symm
  subst hmL
  have hle := total_le L i.w0.ok
  have hlen : L.length < 281474976710656 := by rw [← i.n]; exact hn
  have hc : ∀ t, t < 4 → countBelow (fun b => decide (sem L b = dec t)) W64 ≤ total t L :=
    fun t ht => count_le_total ht i.w0.ok W64
  have hw : ∀ t, total t L < W64 → f.cnt t = total t L := by
    intro t ht
    rw [i.cnt]; unfold wrapI; omega
  have w0 := hw 0 (by omega)
  have w1 := hw 1 (by omega)
  have w2 := hw 2 (by omega)
  have w3 := hw 3 (by omega)
  have c0 : countBelow (fun b => decide (sem L b = .readahead)) W64 ≤ total 0 L := hc 0 (by omega)
  have c1 : countBelow (fun b => decide (sem L b = .read)) W64 ≤ total 1 L := hc 1 (by omega)
  have c2 : countBelow (fun b => decide (sem L b = .pinned)) W64 ≤ total 2 L := hc 2 (by omega)
  have c3 : countBelow (fun b => decide (sem L b = .written)) W64 ≤ total 3 L := hc 3 (by omega)
  have hpres : presentBlocks f = sumL L := by
    unfold presentBlocks sumL
    rw [w0, w1, w2, w3]
    unfold u64
    omega
  obtain ⟨s1, s2⟩ := count_sum i.w0.ok W64 (fun e he => Nat.le_of_lt (i.w0.ok e he).range)
  have hN : NoneTwice f ↔ L.Pairwise (fun a b => ∀ k, ¬ (a.covers k ∧ b.covers k)) := by
    unfold NoneTwice; rw [i.entries]; exact Iff.rfl
  rw [hN, hpres, ← s2]
  refine ⟨⟨fun h => h.2.symm, fun h => ⟨fun s hs => ?_, h.symm⟩⟩, fun h => by omega⟩
  have h := h.symm
  rw [count_present (sem L) W64] at h
  unfold sumL at h
  cases s with
  | absent => exact absurd rfl hs
  | readahead => show f.cnt 0 = _; rw [w0]; omega
  | read => show f.cnt 1 = _; rw [w1]; omega
  | pinned => show f.cnt 2 = _; rw [w2]; omega
  | written => show f.cnt 3 = _; rw [w3]; omega

/-- Both cases occur.
(Of `C03_exact`.) -/
example : (∃ f, calls fresh [.mark 0 2 .read, .mark 3 5 .read] = .ok f ∧ NoneTwice f) ∧
    ∃ f, calls fresh [.mark 0 2 .read, .mark 3 5 .read, .mark 0 5 .pinned] = .ok f ∧ ¬ NoneTwice f := by
  constructor
  · obtain ⟨f, e, i⟩ := Inv.calls [.mark 0 2 .read, .mark 3 5 .read] Inv.fresh (callsInRange (by decide))
    have hL : [Call.mark 0 2 .read, .mark 3 5 .read].foldl callL [] = [(⟨0, 2, 1⟩ : Entry), ⟨3, 5, 1⟩] := by decide +kernel
    rw [hL] at i
    refine ⟨f, e, ?_⟩
    unfold NoneTwice; rw [i.entries]
    simp; omega
  · obtain ⟨f, e, i⟩ := Inv.calls [.mark 0 2 .read, .mark 3 5 .read, .mark 0 5 .pinned] Inv.fresh (callsInRange (by decide))
    have hL : [Call.mark 0 2 .read, .mark 3 5 .read, .mark 0 5 .pinned].foldl callL [] = [(⟨0, 5, 2⟩ : Entry), ⟨3, 5, 1⟩] := by decide +kernel
    rw [hL] at i
    refine ⟨f, e, ?_⟩
    unfold NoneTwice; rw [i.entries]
    intro h
    exact (List.pairwise_cons.mp h).1 ⟨3, 5, 1⟩ (by simp) 3 (by decide)

/-! ### Histories -/

/-- Histories of marks of at most 65535 blocks in which no mark skips an entry. -/
def Unskipped : File → List Call → Prop
  | _, [] => True
  | f, .mark s c st :: cs => c ≤ 65535 ∧ s + c < W64 ∧ ¬ Skips f s (s + c) ∧ ∀ f', mark f s c st = .ok f' → Unskipped f' cs
  | f, x :: cs => ∀ f', Blocklist.step f x = .ok f' → Unskipped f' cs

theorem unskipped_run (cs : List Call) : ∀ {f : File} {L : List Entry}, Inv f L → Wf L → Unskipped f cs →
    ∃ f', calls f cs = .ok f' ∧ Disjoint f' ∧ ∀ b, stateAt f' b = .ok (run (sem L) (marksOf cs) b) := by
  induction cs with
  | nil =>
    intro f L i w _
    exact ⟨f, rfl, by unfold Disjoint; rw [i.entries]; exact w.disj, fun b => i.state b⟩
  | cons x cs ih =>
    intro f L i w h
    cases x with
    | mark s c st =>
      obtain ⟨h1, h2, h3, h4⟩ := h
      obtain ⟨f', e', i'⟩ := i.mark st h2
      have hn : ¬ Straddle L s (s + c) := by
        rw [straddle_iff w]; unfold Skips at h3; rwa [i.entries] at h3
      have hsem : Wf (chunkL st (c / 65535 + 1) L s c) ∧ sem (chunkL st (c / 65535 + 1) L s c) = setRange (sem L) s c st := by
        by_cases h0 : 0 < c
        · rw [chunk_one h0 h1]; exact ⟨markL_wf w h1 h2 hn, markL_sem w h1 h2 hn⟩
        · have : c = 0 := by omega
          subst this
          unfold chunkL
          rw [if_neg (by omega), if_neg (by omega)]
          exact ⟨w, (setRange_zero _ _ _).symm⟩
      obtain ⟨f2, g1, g2, g3⟩ := ih i' hsem.1 (h4 f' e')
      refine ⟨f2, ?_, g2, fun b => ?_⟩
      · show (Blocklist.step f (.mark s c st) >>= fun f => calls f cs) = _
        show (mark f s c st >>= fun f => calls f cs) = _
        rw [e']; exact g1
      · rw [g3 b, hsem.2]; rfl
    | shrink =>
      obtain ⟨f', e', i'⟩ := i.step .shrink (fun _ _ _ h => by cases h)
      obtain ⟨f2, g1, g2, g3⟩ := ih i' w (h f' e')
      refine ⟨f2, ?_, g2, g3⟩
      show (Blocklist.step f .shrink >>= fun f => calls f cs) = _
      rw [e']; exact g1
    | fsck =>
      obtain ⟨f', e', i'⟩ := i.step .fsck (fun _ _ _ h => by cases h)
      obtain ⟨f2, g1, g2, g3⟩ := ih i' w (h f' e')
      refine ⟨f2, ?_, g2, g3⟩
      show (Blocklist.step f .fsck >>= fun f => calls f cs) = _
      rw [e']; exact g1
    | reopen =>
      obtain ⟨f', e', i'⟩ := i.step .reopen (fun _ _ _ h => by cases h)
      obtain ⟨f2, g1, g2, g3⟩ := ih i' w (h f' e')
      refine ⟨f2, ?_, g2, g3⟩
      show (Blocklist.step f .reopen >>= fun f => calls f cs) = _
      rw [e']; exact g1

/-- C02 for all histories in which no mark skips an entry. Missing: those marks, each of which goes wrong
(`C01_exact`). -/
theorem C02_unskipped_partial (cs : List Call) (h : Unskipped fresh cs) :
    ∃ f, calls fresh cs = .ok f ∧ Disjoint f ∧ ∀ b, stateAt f b = .ok (run Spec.empty (marksOf cs) b) :=
  unskipped_run cs Inv.fresh ⟨by simp, by simp⟩ h

/-- Marks inside of entries, which are not clean in the sense of `C02_history_partial`: the middle and then the
beginning of an entry are overwritten. -/
def demoInside : List Call := [.mark 0 100 .read, .mark 10 20 .pinned, .mark 12 5 .absent, .mark 0 4 .written]

/-- Whether an entry is skipped. -/
def skipsB (f : File) (s e : Nat) : Bool :=
  (entries f).any fun r => (entries f).any fun x => decide (r.start = s ∧ 0 < r.count ∧ r.start + r.count ≤ e ∧ x.start < e ∧ e < x.start + x.count)

theorem skipsB_iff {f : File} {s e : Nat} : skipsB f s e = true ↔ Skips f s e := by
  unfold skipsB Skips
  simp only [List.any_eq_true, decide_eq_true_eq]

def unskipped : File → List Call → Bool
  | _, [] => true
  | f, .mark s c st :: cs => decide (c ≤ 65535) && decide (s + c < W64) && !skipsB f s (s + c) && (match mark f s c st with | .ok f' => unskipped f' cs | .error _ => true)
  | f, x :: cs => match Blocklist.step f x with | .ok f' => unskipped f' cs | .error _ => true

theorem unskippedB : ∀ {cs : List Call} {f : File}, unskipped f cs = true → Unskipped f cs := by
  intro cs
  induction cs with
  | nil => intro f _; trivial
  | cons x cs ih =>
    intro f h
    cases x with
    | mark s c st =>
      simp only [unskipped, Bool.and_eq_true, decide_eq_true_eq] at h
      obtain ⟨⟨⟨h1, h2⟩, h3⟩, h4⟩ := h
      refine ⟨h1, h2, fun hs => ?_, fun f' hf => ?_⟩
      · rw [skipsB_iff.mpr hs] at h3; cases h3
      · rw [hf] at h4; exact ih h4
    | shrink => intro f' hf; simp only [unskipped, hf] at h; exact ih h
    | fsck => intro f' hf; simp only [unskipped, hf] at h; exact ih h
    | reopen => intro f' hf; simp only [unskipped, hf] at h; exact ih h

example : ∃ f, calls fresh demoInside = .ok f ∧ Disjoint f ∧ ∀ b, stateAt f b = .ok (run Spec.empty (marksOf demoInside) b) :=
  C02_unskipped_partial demoInside (unskippedB (by decide +kernel))

/-- The history of the example is not covered by the older theorem. -/
example : ¬ Spec.GoodHist Spec.empty (marksOf demoInside) := by
  rintro ⟨-, -, -, h, -⟩
  rcases h with h | h
  · cases h
  · have := h 0 (by decide)
    revert this
    unfold Spec.CleanChunk
    decide

/-- `C01_exact` and `C04_exact` have cases of both kinds: after blocks 0-1 and 3-7 are marked, marking 0-4 skips the second
entry, marking 0-1 does not; and an entry from 3 to 7 is hollowed out by marking 3-4. -/
example : ∃ f f1, calls fresh [.mark 0 2 .read, .mark 3 5 .read] = .ok f ∧ fsck f = .ok f1 ∧ Disjoint f ∧ Skips f 0 (0 + 5) ∧ ¬ Skips f 0 (0 + 2) ∧
    Hollow f 3 (3 + 2) .pinned ∧ ¬ Hollow f 3 (3 + 2) .read := by
  have hi : CallsInRange [.mark 0 2 .read, .mark 3 5 .read] := callsInRange (by decide)
  obtain ⟨f, e, i⟩ := Inv.calls _ Inv.fresh hi
  have hL : [Call.mark 0 2 .read, .mark 3 5 .read].foldl callL [] = [(⟨0, 2, 1⟩ : Entry), ⟨3, 5, 1⟩] := by decide +kernel
  rw [hL] at i
  have hd : [(⟨0, 2, 1⟩ : Entry), ⟨3, 5, 1⟩].Pairwise (fun a b => a.start + a.count ≤ b.start) := by simp
  have hw : SWf [(⟨0, 2, 1⟩ : Entry), ⟨3, 5, 1⟩] := ⟨⟨i.w0.ok, hd⟩, by simp⟩
  obtain ⟨f1, h1⟩ := i.fsck_ok hw
  refine ⟨f, f1, e, h1, ?_, ?_, ?_, ?_, ?_⟩
  · unfold Disjoint; rw [i.entries]; exact hd
  · unfold Skips; rw [i.entries]; exact ⟨⟨0, 2, 1⟩, by simp, ⟨3, 5, 1⟩, by simp, rfl, by decide, by decide, by decide, by decide⟩
  · unfold Skips; rw [i.entries]; simp
  · unfold Hollow; rw [i.entries]; exact ⟨⟨3, 5, 1⟩, by simp, rfl, by decide, by decide⟩
  · unfold Hollow; rw [i.entries]; simp [State.code]

end Dragonstash.Blocklist
