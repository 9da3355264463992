/-
  C09, C10: exactly what `truncate_access` returns, in terms of the states of the blocks.
-/
import Verif.Props.BlocklistExact
namespace Dragonstash.Blocklist

/-! ### Specification -/

/-- Block `b` is present in the file. -/
def Present (f : File) (b : Nat) : Prop := ∃ s, stateAt f b = .ok s ∧ s ≠ .absent

/-- An access to `size` bytes from byte `start` on meets the absent block `F` first. -/
structure MeetsFirst (f : File) (start size F : Nat) : Prop where
  /-- The block with the first byte is not behind it, -/
  after : start / 4096 ≤ F
  /-- it has bytes of the access, -/
  inside : F < (start + size + 4095) / 4096
  /-- it is absent, -/
  absent : stateAt f F = .ok .absent
  /-- and those before it are present. -/
  before : ∀ b, start / 4096 ≤ b → b < F → Present f b

/-! ### The loop -/

theorem truncL_stop {S : List Entry} {req F : Nat} (hF : F < req) (R : List Entry) :
    ∀ {x : Entry} {avail : Nat}, Wf (x :: R) → avail = x.start + x.count → avail ≤ F →
    (∀ b, avail ≤ b → b < F → ∃ e ∈ R, e.covers b) → (∀ e ∈ R, ¬ e.covers F) →
    truncL S req R avail =
      if ∃ e ∈ R, F < e.start then .ok F
      else match S with
        | [] => .error (.ub 618)
        | y :: _ => .ok (if y.start ≠ F then F else y.fin) := by
  induction R with
  | nil =>
    intro x avail hw hav hle hc hn
    have hav2 : avail = F := by
      by_cases hlt : avail < F
      · obtain ⟨e, he, _⟩ := hc avail (Nat.le_refl _) hlt; simp at he
      · omega
    rw [if_neg (by simp)]
    unfold truncL
    rw [if_pos (by omega), hav2]
    cases S <;> rfl
  | cons r R ih =>
    intro x avail hw hav hle hc hn
    have hd := List.pairwise_cons.1 hw.disj
    have hd2 := List.pairwise_cons.1 hd.2
    have hr := hd.1 r (by simp)
    have hrok := hw.ok r (by simp)
    have hnr := hn r (by simp)
    unfold Entry.covers at hnr
    by_cases hst : r.start = avail
    · rw [truncL, if_pos (by omega), if_neg (by simp [hst])]
      rw [ih hw.tail hrok.fin_eq (by rw [hrok.fin_eq]; omega) (fun b hb hb2 => ?_) (fun e he => hn e (by simp [he]))]
      · have heq : (∃ e ∈ r :: R, F < e.start) ↔ ∃ e ∈ R, F < e.start := by
          constructor
          · rintro ⟨e, he, h⟩
            simp only [List.mem_cons] at he
            rcases he with rfl | he
            · omega
            · exact ⟨e, he, h⟩
          · rintro ⟨e, he, h⟩; exact ⟨e, by simp [he], h⟩
        by_cases hex : ∃ e ∈ R, F < e.start
        · rw [if_pos hex, if_pos (heq.2 hex)]
        · rw [if_neg hex, if_neg (fun h => hex (heq.1 h))]
      · rw [hrok.fin_eq] at hb
        obtain ⟨e, he, hcov⟩ := hc b (by omega) hb2
        simp only [List.mem_cons] at he
        rcases he with rfl | he
        · unfold Entry.covers at hcov; omega
        · exact ⟨e, he, hcov⟩
    · have hav2 : avail = F := by
        by_cases hlt : avail < F
        · obtain ⟨e, he, hcov⟩ := hc avail (Nat.le_refl _) hlt
          unfold Entry.covers at hcov
          simp only [List.mem_cons] at he
          rcases he with rfl | he
          · omega
          · have := hd2.1 e he; omega
        · omega
      rw [truncL, if_pos (by omega), if_pos hst, if_pos ⟨r, by simp, by omega⟩, hav2]

theorem truncL_whole {S : List Entry} {req : Nat} (R : List Entry) :
    ∀ {x : Entry} {avail : Nat}, Wf (x :: R) → avail = x.start + x.count →
    (∀ b, avail ≤ b → b < req → ∃ e ∈ R, e.covers b) →
    ∃ a, truncL S req R avail = .ok a ∧ req ≤ a := by
  induction R with
  | nil =>
    intro x avail hw hav hc
    by_cases hlt : avail < req
    · obtain ⟨e, he, _⟩ := hc avail (Nat.le_refl _) hlt; simp at he
    · unfold truncL; rw [if_neg hlt]; exact ⟨_, rfl, by omega⟩
  | cons r R ih =>
    intro x avail hw hav hc
    by_cases hlt : avail < req
    · have hd := List.pairwise_cons.1 hw.disj
      have hd2 := List.pairwise_cons.1 hd.2
      have hr := hd.1 r (by simp)
      have hrok := hw.ok r (by simp)
      have hst : r.start = avail := by
        obtain ⟨e, he, hcov⟩ := hc avail (Nat.le_refl _) hlt
        unfold Entry.covers at hcov
        simp only [List.mem_cons] at he
        rcases he with rfl | he
        · omega
        · have := hd2.1 e he; omega
      rw [truncL, if_pos hlt, if_neg (by simp [hst])]
      refine ih hw.tail hrok.fin_eq (fun b hb hb2 => ?_)
      rw [hrok.fin_eq] at hb
      obtain ⟨e, he, hcov⟩ := hc b (by omega) hb2
      simp only [List.mem_cons] at he
      rcases he with rfl | he
      · unfold Entry.covers at hcov; omega
      · exact ⟨e, he, hcov⟩
    · unfold truncL; rw [if_neg hlt]; exact ⟨_, rfl, by omega⟩

/-- The entry which the search finds when the first block is present. -/
theorem hi_present {L : List Entry} (hw : Wf L) {s : Nat} (h : sem L s ≠ .absent) :
    ∃ x R, hi s L = x :: R ∧ x.start ≤ s ∧ s < x.start + x.count ∧ Wf (x :: R) ∧ x ∈ L ∧
      (∀ e ∈ R, e ∈ L) ∧ (∀ b e, s ≤ b → x.start + x.count ≤ b → e ∈ L → e.covers b → e ∈ R) := by
  obtain ⟨y, hy, hyc⟩ := present_cov h
  unfold Entry.covers at hyc
  have hyH := mem_hi_of hy hyc.2
  cases hR : hi s L with
  | nil => rw [hR] at hyH; simp at hyH
  | cons x R =>
    rw [hR] at hyH
    have hwxR : Wf (x :: R) := by
      rw [← hR]; exact ⟨fun e he => hw.ok e (mem_hi he), pairwise_hi hw.disj⟩
    have hgt : s < x.start + x.count := hw.w0.hi_gt _ x (by rw [hR]; simp)
    have hst : x.start ≤ s := by
      simp only [List.mem_cons] at hyH
      rcases hyH with rfl | hyH
      · exact hyc.1
      · have := (List.pairwise_cons.1 hwxR.disj).1 y hyH; omega
    refine ⟨x, R, rfl, hst, hgt, hwxR, mem_hi (s := s) (by rw [hR]; simp), fun e h => mem_hi (s := s) (by rw [hR]; simp [h]), ?_⟩
    intro b e hb hxb he hc
    unfold Entry.covers at hc
    have heH : e ∈ hi s L := mem_hi_of he (by omega)
    rw [hR] at heH
    simp only [List.mem_cons] at heH
    rcases heH with rfl | heH
    · omega
    · exact heH

theorem present_iff {f : File} {L : List Entry} (i : Inv f L) {b : Nat} : Present f b ↔ sem L b ≠ .absent := by
  unfold Present
  constructor
  · rintro ⟨s, h1, h2⟩
    rw [i.state b] at h1
    injection h1 with h1
    rw [h1]; exact h2
  · intro h; exact ⟨_, i.state b, h⟩

/-- There is no slot behind the entries exactly if the capacity is used up. -/
theorem slack_nil {f : File} {L S : List Entry} (h : Inv f L) (hS : f.slots = L ++ S) : S = [] ↔ nentries f = capacity f := by
  obtain ⟨S', hr'⟩ := h.rep
  have hcap := capacity_rep hr'
  have : S' = S := by
    have := hr'.slots
    rw [ensureMapped_slots, hS] at this
    exact (List.append_cancel_left this).symm
  subst this
  have e : capacity (ensureMapped f) = capacity f := by unfold capacity; rw [ensureMapped_idem]
  have hc : capacity f = L.length + S'.length := by rw [← e, hcap]
  unfold nentries
  rw [h.n, hc]
  cases S' with
  | nil => simp
  | cons a S => simp

/-! ### C10, C09 -/

theorem access_whole {f : File} {L : List Entry} (i : Inv f L) (hw : Wf L)
    (start size : Nat) (hr : start + size < 9223372036854775808)
    (hp : ∀ b, start / 4096 ≤ b → b < (start + size + 4095) / 4096 → Present f b) :
    truncateAccess f (start : Int) size = .ok size := by
  by_cases hp0 : sem L (start / 4096) = .absent
  · have hz : size = 0 := by
      by_cases hs : size = 0
      · exact hs
      · exact absurd hp0 ((present_iff i).1 (hp (start / 4096) (Nat.le_refl _) (by omega)))
    subst hz
    exact access_zero i hp0
  · obtain ⟨x, R, hR, h1, h2, h3, h4, h5, h6⟩ := hi_present hw hp0
    obtain ⟨S, hS, heq⟩ := truncateAccess_rep i
    have hreq : u64 (u64 (start + size) + 4096 - 1) / 4096 = (start + size + 4095) / 4096 := by
      unfold u64; omega
    rw [heq, hreq, hR]
    simp only
    rw [if_pos h1]
    obtain ⟨a, ha, hle⟩ := truncL_whole (S := S) (req := (start + size + 4095) / 4096) R h3 rfl (fun b hb1 hb2 => by
      obtain ⟨y, hy, hyc⟩ := present_cov ((present_iff i).1 (hp b (by omega) hb2))
      exact ⟨y, h6 b y (by omega) hb1 hy hyc, hyc⟩)
    have hge := truncL_ge (S := S) (req := (start + size + 4095) / 4096) (by omega)
      (fun e he => (i.small e (by rw [hS]; simp [he])).count) R (fun e he => i.w0.ok e (h5 e he)) ha
    rw [ha]
    show Except.ok _ = _
    congr 1
    have hm1 : min ((start + size + 4095) / 4096 + 1) a ≤ (start + size + 4095) / 4096 + 1 := Nat.min_le_left _ _
    have hm2 : (start + size + 4095) / 4096 ≤ min ((start + size + 4095) / 4096 + 1) a := Nat.le_min.2 ⟨by omega, hle⟩
    have hm3 : start / 4096 < min ((start + size + 4095) / 4096 + 1) a := Nat.lt_min.2 ⟨by omega, by omega⟩
    generalize min ((start + size + 4095) / 4096 + 1) a = m at *
    apply Nat.min_eq_left
    unfold u64 sub64
    omega

theorem access_exact {f : File} {L : List Entry} (i : Inv f L) (hw : Wf L)
    (start size F : Nat) (hr : start + size < 9223372036854775808) (hF : MeetsFirst f start size F) :
    ((F = start / 4096 ∨ ∃ e ∈ entries f, F < e.start) →
      truncateAccess f (start : Int) size = .ok (min size ((F - start / 4096) * 4096))) ∧
    (F ≠ start / 4096 → (∀ e ∈ entries f, e.start ≤ F) → nentries f = capacity f →
      truncateAccess f (start : Int) size = .error (.ub 618)) ∧
    (nentries f < capacity f → ∃ n, truncateAccess f (start : Int) size = .ok n ∧
      min size ((F - start / 4096) * 4096) ≤ n ∧ n ≤ size) := by
  rw [i.entries]
  obtain ⟨ha, hin, hab, hbe⟩ := hF
  have habs : sem L F = .absent := by
    rw [i.state F] at hab; injection hab
  by_cases hF0 : F = start / 4096
  · have hz := access_zero (size := size) i (by rw [← hF0]; exact habs)
    refine ⟨fun _ => ?_, fun h => absurd hF0 h, fun _ => ⟨0, hz, ?_, Nat.zero_le _⟩⟩
    · rw [hz, hF0]; simp
    · rw [hF0]; simp
  · have hp0 := (present_iff i).1 (hbe (start / 4096) (Nat.le_refl _) (by omega))
    obtain ⟨x, R, hR, h1, h2, h3, h4, h5, h6⟩ := hi_present hw hp0
    obtain ⟨S, hS, heq⟩ := truncateAccess_rep i
    have hreq : u64 (u64 (start + size) + 4096 - 1) / 4096 = (start + size + 4095) / 4096 := by
      unfold u64; omega
    have hnot : ∀ z ∈ L, ¬ z.covers F := fun z hz hc => cov_present i.w0.ok hz hc habs
    have hxF : x.start + x.count ≤ F := by
      have := hnot x h4
      unfold Entry.covers at this; omega
    have hl := truncL_stop (S := S) hin R h3 rfl hxF (fun b hb1 hb2 => by
      obtain ⟨y, hy, hyc⟩ := present_cov ((present_iff i).1 (hbe b (by omega) hb2))
      exact ⟨y, h6 b y (by omega) hb1 hy hyc, hyc⟩) (fun z hz => hnot z (h5 z hz))
    have hex : (∃ e ∈ R, F < e.start) ↔ ∃ e ∈ L, F < e.start := by
      constructor
      · rintro ⟨z, hz, h⟩; exact ⟨z, h5 z hz, h⟩
      · rintro ⟨z, hz, h⟩
        have hzH : z ∈ hi (start / 4096) L := mem_hi_of hz (by omega)
        rw [hR] at hzH
        simp only [List.mem_cons] at hzH
        rcases hzH with rfl | hzH
        · omega
        · exact ⟨z, hzH, h⟩
    have hval : truncateAccess f (start : Int) size = (truncL S ((start + size + 4095) / 4096) R (x.start + x.count)).map fun a =>
          min size (u64 (sub64 (min ((start + size + 4095) / 4096 + 1) a) (start / 4096) * 4096)) := by
      rw [heq, hreq, hR]; simp only
      rw [if_pos h1]
    have hcalc : ∀ a, F ≤ a → min size ((F - start / 4096) * 4096) ≤
        min size (u64 (sub64 (min ((start + size + 4095) / 4096 + 1) a) (start / 4096) * 4096)) := by
      intro a hle
      have hm1 : min ((start + size + 4095) / 4096 + 1) a ≤ (start + size + 4095) / 4096 + 1 := Nat.min_le_left _ _
      have hm2 : F ≤ min ((start + size + 4095) / 4096 + 1) a := Nat.le_min.2 ⟨by omega, hle⟩
      generalize min ((start + size + 4095) / 4096 + 1) a = m at *
      apply Nat.le_min.2
      refine ⟨Nat.min_le_left _ _, Nat.le_trans (Nat.min_le_right _ _) ?_⟩
      unfold u64 sub64
      omega
    refine ⟨fun h => ?_, fun _ h hfull => ?_, fun hroom => ?_⟩
    · have h : ∃ e ∈ L, F < e.start := h.resolve_left hF0
      rw [hval, hl, if_pos (hex.2 h)]
      show Except.ok (min size (u64 (sub64 (min ((start + size + 4095) / 4096 + 1) F) (start / 4096) * 4096))) = _
      rw [Nat.min_eq_right (show F ≤ (start + size + 4095) / 4096 + 1 by omega)]
      congr 2
      unfold u64 sub64
      omega
    · have : S = [] := (slack_nil i hS).2 hfull
      subst this
      rw [hval, hl, if_neg (fun hc => by obtain ⟨z, hz, hzF⟩ := hex.1 hc; have := h z hz; omega)]
      rfl
    · have hne : S ≠ [] := fun hc => by
        have := (slack_nil i hS).1 hc; omega
      obtain ⟨a, ha2⟩ : ∃ a, truncL S ((start + size + 4095) / 4096) R (x.start + x.count) = .ok a := by
        rw [hl]
        by_cases h : ∃ e ∈ R, F < e.start
        · rw [if_pos h]; exact ⟨_, rfl⟩
        · rw [if_neg h]
          cases S with
          | nil => exact absurd rfl hne
          | cons y S => exact ⟨_, rfl⟩
      have hFa : F ≤ a := by
        rw [hl] at ha2
        by_cases h : ∃ e ∈ R, F < e.start
        · rw [if_pos h] at ha2; injection ha2 with ha2; omega
        · rw [if_neg h] at ha2
          cases S with
          | nil => exact absurd rfl hne
          | cons y S =>
            injection ha2 with ha2
            have := (i.small y (by rw [hS]; simp)).count
            by_cases hy : y.start ≠ F
            · rw [if_pos hy] at ha2; omega
            · rw [if_neg hy] at ha2
              unfold Entry.fin u64 at ha2
              omega
      rw [hval, ha2]
      exact ⟨_, rfl, hcalc a hFa, Nat.min_le_left _ _⟩

/-- C10, exactly, part 1: if all blocks of the access are present, everything is offered. (After any history which
left entries which do not overlap.) -/
theorem C10_whole (cs : List Call) (hcs : CallsInRange cs) (f : File) (hf : calls fresh cs = .ok f) (hd : Disjoint f)
    (start size : Nat) (hr : start + size < 9223372036854775808)
    (hp : ∀ b, start / 4096 ≤ b → b < (start + size + 4095) / 4096 → Present f b) :
    truncateAccess f (start : Int) size = .ok size := by
  obtain ⟨f2, e, i⟩ := Inv.calls cs Inv.fresh hcs
  obtain rfl := ok_unique hf e
  exact access_whole i (i.wf hd) start size hr hp

/-- C10 and C09, exactly, part 2: if the access meets the absent block `F` first and some entry begins behind `F`,
then whole blocks are counted from the *beginning* of the first block to `F`, whereas the bytes which can be read are
those from `start` on. -/
theorem C10_exact (cs : List Call) (hcs : CallsInRange cs) (f : File) (hf : calls fresh cs = .ok f) (hd : Disjoint f)
    (start size F : Nat) (hr : start + size < 9223372036854775808) (hF : MeetsFirst f start size F) :
    ((F = start / 4096 ∨ ∃ e ∈ entries f, F < e.start) →
      truncateAccess f (start : Int) size = .ok (min size ((F - start / 4096) * 4096))) ∧
    (F ≠ start / 4096 → (∀ e ∈ entries f, e.start ≤ F) → nentries f = capacity f →
      truncateAccess f (start : Int) size = .error (.ub 618)) ∧
    (nentries f < capacity f → ∃ n, truncateAccess f (start : Int) size = .ok n ∧
      min size ((F - start / 4096) * 4096) ≤ n ∧ n ≤ size) := by
  obtain ⟨f2, e, i⟩ := Inv.calls cs Inv.fresh hcs
  obtain rfl := ok_unique hf e
  exact access_exact i (i.wf hd) start size F hr hF

/-- C09, exactly: in the case of the first part of `C10_exact` nothing is overstated if and only if the access begins
with a whole block, or asks for no more than can be read, or nothing can be read. -/
theorem C09_exact (cs : List Call) (hcs : CallsInRange cs) (f : File) (hf : calls fresh cs = .ok f) (hd : Disjoint f)
    (start size F : Nat) (hr : start + size < 9223372036854775808) (hF : MeetsFirst f start size F)
    (hb : F = start / 4096 ∨ ∃ e ∈ entries f, F < e.start) :
    ∃ n, truncateAccess f (start : Int) size = .ok n ∧
      ((∀ x, start ≤ x → x < start + n → Present f (x / 4096)) ↔
        F = start / 4096 ∨ start % 4096 = 0 ∨ start + size ≤ F * 4096) := by
  refine ⟨_, (C10_exact cs hcs f hf hd start size F hr hF).1 hb, ?_⟩
  obtain ⟨ha, hin, hab, hbe⟩ := hF
  have hnp : ¬ Present f F := by
    rintro ⟨s, h1, h2⟩
    rw [hab] at h1; injection h1 with h1; exact h2 h1.symm
  constructor
  · intro h
    by_cases h1 : F = start / 4096
    · exact .inl h1
    · by_cases h2 : start % 4096 = 0
      · exact .inr (.inl h2)
      · refine .inr (.inr ?_)
        by_cases h3 : start + size ≤ F * 4096
        · exact h3
        · exfalso
          have hlt : F * 4096 < start + min size ((F - start / 4096) * 4096) := by
            rcases Nat.le_total size ((F - start / 4096) * 4096) with hm | hm
            · rw [Nat.min_eq_left hm]; omega
            · rw [Nat.min_eq_right hm]; omega
          have := h (F * 4096) (by omega) hlt
          rw [Nat.mul_div_cancel _ (by decide)] at this
          exact hnp this
  · intro h x hx1 hx2
    have hm1 := Nat.min_le_left size ((F - start / 4096) * 4096)
    have hm2 := Nat.min_le_right size ((F - start / 4096) * 4096)
    generalize min size ((F - start / 4096) * 4096) = m at *
    refine hbe _ (by omega) ?_
    rcases h with h | h | h
    · subst h; omega
    · omega
    · omega

/-- Blocks 0-1 and 9 are present. -/
def demoAccess : List Call := [.mark 0 2 .read, .mark 9 1 .read]

theorem demoAccess_ex : ∃ f, calls fresh demoAccess = .ok f ∧ Disjoint f ∧ entries f = [⟨0, 2, 1⟩, ⟨9, 1, 1⟩] ∧
    (∀ b, stateAt f b = .ok (sem [⟨0, 2, 1⟩, ⟨9, 1, 1⟩] b)) ∧ nentries f < capacity f := by
  obtain ⟨f, e, i⟩ := Inv.calls demoAccess Inv.fresh (callsInRange (by decide))
  have hL : demoAccess.foldl callL [] = [⟨0, 2, 1⟩, ⟨9, 1, 1⟩] := by decide +kernel
  rw [hL] at i
  have h : (calls fresh demoAccess).map (fun f => decide (nentries f < capacity f)) = .ok true := by decide +kernel
  rw [e] at h
  injection h with h
  refine ⟨f, e, ?_, i.entries, i.state, of_decide_eq_true h⟩
  unfold Disjoint; rw [i.entries]; decide

theorem demoAccess_meets {f : File} (h : ∀ b, stateAt f b = .ok (sem [⟨0, 2, 1⟩, ⟨9, 1, 1⟩] b)) : MeetsFirst f 4196 20000 2 := by
  refine ⟨by decide, by decide, h 2, fun b h1 h2 => ⟨_, h b, ?_⟩⟩
  obtain rfl : b = 1 := by omega
  decide

/-- The hypotheses of `C10_exact` and `C09_exact` are met: an access from byte 4196 on is granted 4096 bytes, although
only 3996 can be read. -/
example : ∃ f, calls fresh demoAccess = .ok f ∧ MeetsFirst f 4196 20000 2 ∧ truncateAccess f ((4196 : Nat) : Int) 20000 = .ok 4096 ∧
    ¬ ∀ x, 4196 ≤ x → x < 4196 + 4096 → Present f (x / 4096) := by
  obtain ⟨f, e, hd, hL, hs, hc⟩ := demoAccess_ex
  have hm := demoAccess_meets hs
  have hb : 2 = 4196 / 4096 ∨ ∃ e ∈ entries f, 2 < e.start := .inr ⟨⟨9, 1, 1⟩, by rw [hL]; simp, by decide⟩
  have h1 := (C10_exact demoAccess (callsInRange (by decide)) f e hd 4196 20000 2 (by decide) hm).1 hb
  obtain ⟨n, h2, h3⟩ := C09_exact demoAccess (callsInRange (by decide)) f e hd 4196 20000 2 (by decide) hm hb
  have hn : n = 4096 := by
    rw [h1] at h2
    have h4 := Except.ok.inj h2
    rw [← h4]; decide +kernel
  subst hn
  exact ⟨f, e, hm, h2, fun h => absurd (h3.1 h) (by decide)⟩

/-- The hypotheses of `C10_whole` are met. -/
example : ∃ f, calls fresh demoAccess = .ok f ∧ truncateAccess f ((100 : Nat) : Int) 8092 = .ok 8092 := by
  obtain ⟨f, e, hd, hL, hs, hc⟩ := demoAccess_ex
  refine ⟨f, e, C10_whole demoAccess (callsInRange (by decide)) f e hd 100 8092 (by decide) (fun b h1 h2 => ⟨_, hs b, ?_⟩)⟩
  have : b = 0 ∨ b = 1 := by omega
  rcases this with rfl | rfl <;> decide

end Dragonstash.Blocklist
