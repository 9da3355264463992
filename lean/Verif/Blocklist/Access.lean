import Verif.Blocklist.Count
/-
  `truncate_access`.
-/
namespace Dragonstash.Blocklist

/-- The loop of `truncate_access` on the entries behind the current one (`S` is the slack behind
the live entries). -/
def truncL (S : List Entry) (req : Nat) : List Entry → Nat → M Nat
  | [], avail =>
    if avail < req then
      match S with
      | [] => .error (.ub 618)
      | x :: _ => .ok (if x.start ≠ avail then avail else x.fin)
    else .ok avail
  | e :: R, avail =>
    if avail < req then
      if e.start ≠ avail then .ok avail else truncL S req R e.fin
    else .ok avail

theorem truncLoop_rep {f : File} {S : List Entry} {g : Nat → Int} (req : Nat) (R : List Entry) :
    ∀ (A : List Entry) (x : Entry) (avail fuel : Nat), Rep f (A ++ x :: R) S g → R.length + 2 ≤ fuel →
    truncLoop f req fuel A.length avail = truncL S req R avail := by
  induction R with
  | nil =>
    intro A x avail fuel h hf
    obtain ⟨k, rfl⟩ : ∃ k, fuel = k + 2 := ⟨fuel - 2, by omega⟩
    have hn : f.n = A.length + 1 := by rw [h.n]; simp
    have hs : f.slots[A.length + 1]? = S[0]? := by
      rw [h.slots]
      rw [List.getElem?_append_right (by simp)]
      simp
    rw [truncLoop]
    by_cases hlt : avail < req
    · rw [if_pos ⟨by omega, hlt⟩]
      unfold truncL
      rw [if_pos hlt]
      unfold deref
      rw [h.mapped, hs]
      cases S with
      | nil => simp
      | cons y S =>
        simp only [List.getElem?_cons_zero, if_true, bind_ok]
        by_cases hy : y.start ≠ avail
        · rw [if_pos hy, if_pos hy]; rfl
        · rw [if_neg hy, if_neg hy, truncLoop, if_neg (by omega)]; rfl
    · unfold truncL; rw [if_neg (by omega), if_neg hlt]; rfl
  | cons e R ih =>
    intro A x avail fuel h hf
    simp only [List.length_cons] at hf
    obtain ⟨k, rfl⟩ : ∃ k, fuel = k + 1 := ⟨fuel - 1, by omega⟩
    have hn : f.n = A.length + 1 + (R.length + 1) := by rw [h.n]; simp; omega
    have h2 : Rep f ((A ++ [x]) ++ e :: R) S g := h.congrL (by simp)
    have hd := deref_rep h2 618
    simp only [List.length_append, List.length_singleton] at hd
    have := ih (A ++ [x]) e e.fin k h2 (by omega)
    simp only [List.length_append, List.length_singleton] at this
    rw [truncLoop, truncL]
    by_cases hlt : avail < req
    · rw [if_pos ⟨by omega, hlt⟩, if_pos hlt, hd, bind_ok]
      by_cases he : e.start ≠ avail
      · rw [if_pos he, if_pos he]; rfl
      · rw [if_neg he, if_neg he]; exact this
    · rw [if_neg (by omega), if_neg hlt]; rfl

theorem truncL_ge {S : List Entry} {req : Nat} (hreq : req + 65535 < W64) (hS : ∀ e ∈ S, e.count ≤ 65535)
    (R : List Entry) : ∀ {avail a : Nat}, (∀ e ∈ R, EOk e) → truncL S req R avail = .ok a → avail ≤ a := by
  induction R with
  | nil =>
    intro avail a _ h
    unfold truncL at h
    split at h
    · rename_i hlt
      cases S with
      | nil => cases h
      | cons x S =>
        injection h with h
        subst h
        have := hS x (by simp)
        split
        · omega
        · unfold Entry.fin u64; omega
    · injection h with h; omega
  | cons e R ih =>
    intro avail a hok h
    unfold truncL at h
    split at h
    · split at h
      · injection h with h; omega
      · have he := hok e (by simp)
        have := ih (fun x hx => hok x (by simp [hx])) h
        rw [he.fin_eq] at this; omega
    · injection h with h; omega

theorem truncL_lower {S : List Entry} {req F : Nat} (hreq : req + 65535 < W64)
    (hS : ∀ e ∈ S, e.count ≤ 65535) (hF : F ≤ req) (R : List Entry) :
    ∀ {x : Entry} {avail a : Nat}, Wf (x :: R) → avail = x.start + x.count →
    (∀ b, avail ≤ b → b < F → ∃ e ∈ R, e.covers b) →
    truncL S req R avail = .ok a → F ≤ a := by
  induction R with
  | nil =>
    intro x avail a hw hav hc h
    have := truncL_ge hreq hS [] (by simp) h
    by_cases hlt : avail < F
    · obtain ⟨e, he, _⟩ := hc avail (Nat.le_refl _) hlt
      simp at he
    · omega
  | cons r R ih =>
    intro x avail a hw hav hc h
    have hge := truncL_ge hreq hS (r :: R) (fun e he => hw.ok e (by simp only [List.mem_cons] at he ⊢; exact .inr he)) h
    by_cases hlt : avail < F
    · have hd := List.pairwise_cons.1 hw.disj
      have hd2 := List.pairwise_cons.1 hd.2
      have hr := hd.1 r (by simp)
      have hrok := hw.ok r (by simp)
      have hst : r.start = avail := by
        obtain ⟨e, he, hcov⟩ := hc avail (Nat.le_refl _) hlt
        unfold Entry.covers at hcov
        simp only [List.mem_cons] at he
        rcases he with rfl | he
        · omega
        · have := hd2.1 e he; omega
      rw [truncL, if_pos (by omega), if_neg (by simp [hst])] at h
      refine ih hw.tail (hrok.fin_eq) (fun b hb hb2 => ?_) h
      rw [hrok.fin_eq] at hb
      obtain ⟨e, he, hcov⟩ := hc b (by omega) hb2
      simp only [List.mem_cons] at he
      rcases he with rfl | he
      · unfold Entry.covers at hcov; omega
      · exact ⟨e, he, hcov⟩
    · omega

theorem truncL_upper {S : List Entry} {req : Nat} (R : List Entry) :
    ∀ {x : Entry} {avail a : Nat}, (∀ e ∈ x :: R, EOk e) → avail = x.start + x.count →
    (∃ e ∈ x :: R, req < e.start + e.count) →
    truncL S req R avail = .ok a → ∀ b, avail ≤ b → b < a → ∃ e ∈ R, e.covers b := by
  induction R with
  | nil =>
    rintro x avail a hw hav ⟨e, he, hreq⟩ h b hb1 hb2
    simp at he; subst he
    unfold truncL at h
    rw [if_neg (by omega)] at h
    injection h with h; omega
  | cons r R ih =>
    rintro x avail a hw hav ⟨e, he, hreq⟩ h b hb1 hb2
    rw [truncL] at h
    split at h
    · rename_i hlt
      split at h
      · injection h with h; omega
      · rename_i hst
        have hst : r.start = avail := by simpa using hst
        have hrok := hw r (by simp)
        have hw2 : ∃ e ∈ r :: R, req < e.start + e.count := by
          simp only [List.mem_cons] at he
          rcases he with rfl | he
          · omega
          · exact ⟨e, by simpa using he, hreq⟩
        by_cases hbr : b < r.start + r.count
        · exact ⟨r, by simp, by unfold Entry.covers; omega⟩
        · obtain ⟨e', he', hc'⟩ := ih (fun z hz => hw z (List.mem_cons_of_mem _ hz)) hrok.fin_eq hw2 h b (by rw [hrok.fin_eq]; omega) hb2
          exact ⟨e', by simp [he'], hc'⟩
    · injection h with h; omega

theorem truncL_ok {S : List Entry} {req : Nat} (R : List Entry) :
    ∀ {x : Entry} {avail : Nat}, (∀ e ∈ x :: R, EOk e) → avail = x.start + x.count →
    (S ≠ [] ∨ ∃ e ∈ x :: R, req < e.start + e.count) →
    ∃ a, truncL S req R avail = .ok a := by
  induction R with
  | nil =>
    intro x avail hok hav h
    unfold truncL
    split
    · rename_i hlt
      rcases h with h | ⟨e, he, hh⟩
      · cases S with
        | nil => exact absurd rfl h
        | cons y S => exact ⟨_, rfl⟩
      · simp at he; subst he; omega
    · exact ⟨_, rfl⟩
  | cons r R ih =>
    intro x avail hok hav h
    rw [truncL]
    split
    · rename_i hlt
      split
      · exact ⟨_, rfl⟩
      · refine ih (x := r) (fun e he => hok e (by simp only [List.mem_cons] at he ⊢; exact .inr he))
          (hok r (by simp)).fin_eq ?_
        rcases h with h | ⟨e, he, hh⟩
        · exact .inl h
        · simp only [List.mem_cons] at he
          rcases he with rfl | he
          · omega
          · exact .inr ⟨e, by simpa using he, hh⟩
    · exact ⟨_, rfl⟩

/-- `truncate_access` in terms of the list of entries. -/
theorem truncateAccess_rep {f : File} {L : List Entry} (h : Inv f L) :
    ∃ S, f.slots = L ++ S ∧ ∀ (start size : Nat),
      truncateAccess f (start : Int) size =
        match hi (start / 4096) L with
        | [] => .ok 0
        | x :: R =>
          if x.start ≤ start / 4096 then
            (truncL S (u64 (u64 (start + size) + 4096 - 1) / 4096) R (x.start + x.count)).map fun a =>
              min size (u64 (sub64 (min (u64 (u64 (start + size) + 4096 - 1) / 4096 + 1) a) (start / 4096) * 4096))
          else .ok 0 := by
  obtain ⟨S, hr⟩ := h.rep
  refine ⟨S, by rw [← ensureMapped_slots]; exact hr.slots, fun start size => ?_⟩
  unfold truncateAccess
  rw [if_neg (by omega)]
  simp only [Int.toNat_natCast, pageSize]
  rw [searchEntry_rep hr h.w0, bind_ok]
  have hsplit := lo_append_hi (start / 4096) L
  cases hR : hi (start / 4096) L with
  | nil =>
    rw [hR, List.append_nil] at hsplit
    rw [hsplit, if_pos hr.n.symm]; rfl
  | cons x R =>
    rw [hR] at hsplit
    have hr2 : Rep (ensureMapped f) (lo (start / 4096) L ++ x :: R) S (fun t => total t L) :=
      hr.congrL hsplit.symm
    have hxL : x ∈ L := by rw [← hsplit]; simp
    have hxok := h.w0.ok x hxL
    have hgt : start / 4096 < x.start + x.count := h.w0.hi_gt _ x (by rw [hR]; simp)
    have hn : (ensureMapped f).n = (lo (start / 4096) L).length + (R.length + 1) := by rw [hr2.n]; simp
    rw [if_neg (by omega), deref_rep hr2, bind_ok]
    simp only
    by_cases hst : x.start ≤ start / 4096
    · have hc : x.contains (start / 4096) = true := by rw [hxok.contains_iff]; exact ⟨hst, hgt⟩
      rw [if_neg (by simp [hc]), if_pos hst, hxok.fin_eq,
        truncLoop_rep _ R _ _ _ _ hr2 (by omega)]
      cases truncL S (u64 (u64 (start + size) + 4096 - 1) / 4096) R (x.start + x.count) with
      | error e => rfl
      | ok a => rfl
    · have hc : x.contains (start / 4096) = false := by
        rw [← Bool.not_eq_true, hxok.contains_iff]; omega
      rw [if_pos (by simp [hc]), if_neg hst]; rfl

theorem present_cov {L : List Entry} {b : Nat} : sem L b ≠ .absent → ∃ e ∈ L, e.covers b := by
  intro h
  obtain ⟨t, ⟨e, he, hc, _⟩, _⟩ := cov_of_sem h
  exact ⟨e, he, hc⟩

theorem cov_present {L : List Entry} (h : ∀ e ∈ L, EOk e) {b : Nat} {e : Entry} (he : e ∈ L) (hc : e.covers b) :
    sem L b ≠ .absent := by
  induction L with
  | nil => simp at he
  | cons a L ih =>
    unfold sem
    by_cases ha : a.covers b
    · rw [if_pos ha]; exact dec_ne_absent (h a (by simp)).state
    · rw [if_neg ha]
      simp only [List.mem_cons] at he
      rcases he with rfl | he
      · exact absurd hc ha
      · exact ih (fun x hx => h x (by simp [hx])) he

/-- An entry of `L` which ends behind `b` is in `hi b L`. -/
theorem mem_hi_of {L : List Entry} {b : Nat} {e : Entry} (he : e ∈ L) (hb : b < e.start + e.count) :
    e ∈ hi b L := by
  rw [← lo_append_hi b L, List.mem_append] at he
  rcases he with he | he
  · have := lo_le e he; omega
  · exact he

/-- The two bounds for `truncate_access`, and absence of faults. -/
theorem access_sound {f : File} {L : List Entry} (h : Inv f L) {start size n : Nat}
    (hr : start + size < 9223372036854775808)
    (hb : ∃ b, (start + size + 4095) / 4096 ≤ b ∧ sem L b ≠ .absent)
    (he : truncateAccess f (start : Int) size = .ok n) :
    n ≤ size ∧ ∀ x, start ≤ x → x + start % 4096 < start + n → sem L (x / 4096) ≠ .absent := by
  obtain ⟨S, hS, heq⟩ := truncateAccess_rep h
  have hreq : u64 (u64 (start + size) + 4096 - 1) / 4096 = (start + size + 4095) / 4096 := by
    unfold u64; omega
  rw [heq, hreq] at he
  obtain ⟨b, hbr, hbp⟩ := hb
  obtain ⟨y, hy, hyc⟩ := present_cov hbp
  cases hR : hi (start / 4096) L with
  | nil => rw [hR] at he; injection he with he; subst he; exact ⟨by omega, fun x h1 h2 => by omega⟩
  | cons x R =>
    rw [hR] at he
    simp only at he
    have hxL : x ∈ L := mem_hi (s := start / 4096) (by rw [hR]; simp)
    have hRL : ∀ e ∈ R, e ∈ L := fun e h => mem_hi (s := start / 4096) (by rw [hR]; simp [h])
    have hwxR : ∀ e ∈ x :: R, EOk e := by
      rw [← hR]; exact fun e he => h.w0.ok e (mem_hi he)
    have hgt : start / 4096 < x.start + x.count := h.w0.hi_gt _ x (by rw [hR]; simp)
    split at he
    · rename_i hst
      obtain ⟨a, ha, hn⟩ := map_inv he
      have hyR : y ∈ x :: R := by
        rw [← hR]; apply mem_hi_of hy
        unfold Entry.covers at hyc; omega
      have hup := truncL_upper R hwxR rfl ⟨y, hyR, by unfold Entry.covers at hyc; omega⟩ ha
      have hcov : ∀ k, start / 4096 ≤ k → k < a → sem L k ≠ .absent := by
        intro k hk1 hk2
        by_cases hkx : k < x.start + x.count
        · exact cov_present h.w0.ok hxL ⟨by omega, hkx⟩
        · obtain ⟨e, he, hc⟩ := hup k (by omega) hk2
          exact cov_present h.w0.ok (hRL e he) hc
      subst hn
      refine ⟨Nat.min_le_left _ _, fun z hz1 hz2 => hcov _ (by omega) ?_⟩
      have ham : min ((start + size + 4095) / 4096 + 1) a ≤ a := Nat.min_le_right _ _
      have ham2 : min ((start + size + 4095) / 4096 + 1) a ≤ (start + size + 4095) / 4096 + 1 := Nat.min_le_left _ _
      have hage : x.start + x.count ≤ a := by
        have hxrange := (h.w0.ok x hxL).range
        exact truncL_ge (S := S) (by omega) (fun e he => (h.small e (by rw [hS]; simp [he])).count) R
          (fun e he => h.w0.ok e (hRL e he)) ha
      have hm : start / 4096 < min ((start + size + 4095) / 4096 + 1) a := by omega
      generalize min ((start + size + 4095) / 4096 + 1) a = m at *
      unfold u64 sub64 at hz2
      omega
    · injection he with he; subst he; exact ⟨by omega, fun x h1 h2 => by omega⟩

theorem access_maximal {f : File} {L : List Entry} (h : Inv f L) (hw : Wf L) {start size n F : Nat}
    (hr : start + size < 9223372036854775808)
    (hF : ∀ b, start / 4096 ≤ b → b < F → sem L b ≠ .absent) (hF2 : F ≤ (start + size + 4095) / 4096)
    (hF1 : start / 4096 < F)
    (he : truncateAccess f (start : Int) size = .ok n) :
    min size (F * 4096 - start) ≤ n := by
  obtain ⟨S, hS, heq⟩ := truncateAccess_rep h
  have hreq : u64 (u64 (start + size) + 4096 - 1) / 4096 = (start + size + 4095) / 4096 := by
    unfold u64; omega
  rw [heq, hreq] at he
  obtain ⟨y, hy, hyc⟩ := present_cov (hF (start / 4096) (Nat.le_refl _) hF1)
  unfold Entry.covers at hyc
  have hyH := mem_hi_of hy hyc.2
  cases hR : hi (start / 4096) L with
  | nil => rw [hR] at hyH; simp at hyH
  | cons x R =>
    rw [hR] at he hyH
    simp only at he
    have hxL : x ∈ L := mem_hi (s := start / 4096) (by rw [hR]; simp)
    have hRL : ∀ e ∈ R, e ∈ L := fun e h => mem_hi (s := start / 4096) (by rw [hR]; simp [h])
    have hwxR : Wf (x :: R) := by
      rw [← hR]; exact ⟨fun e he => h.w0.ok e (mem_hi he), pairwise_hi hw.disj⟩
    have hgt : start / 4096 < x.start + x.count := h.w0.hi_gt _ x (by rw [hR]; simp)
    have hst : x.start ≤ start / 4096 := by
      simp only [List.mem_cons] at hyH
      rcases hyH with rfl | hyH
      · exact hyc.1
      · have := (List.pairwise_cons.1 hwxR.disj).1 y hyH; omega
    rw [if_pos hst] at he
    obtain ⟨a, ha, hn⟩ := map_inv he
    have hsm : ∀ e ∈ S, e.count ≤ 65535 := fun e he => (h.small e (by rw [hS]; simp [he])).count
    have hlow := truncL_lower (S := S) (by omega) hsm hF2 R hwxR rfl (fun b hb1 hb2 => by
      obtain ⟨e, he, hc⟩ := present_cov (hF b (by omega) hb2)
      have heH : e ∈ hi (start / 4096) L := mem_hi_of he (by unfold Entry.covers at hc; omega)
      rw [hR] at heH
      simp only [List.mem_cons] at heH
      rcases heH with rfl | heH
      · unfold Entry.covers at hc; omega
      · exact ⟨e, heH, hc⟩) ha
    subst hn
    have hm1 : F ≤ min ((start + size + 4095) / 4096 + 1) a := Nat.le_min.2 ⟨by omega, hlow⟩
    have hm2 : min ((start + size + 4095) / 4096 + 1) a ≤ (start + size + 4095) / 4096 + 1 := Nat.min_le_left _ _
    generalize min ((start + size + 4095) / 4096 + 1) a = m at *
    apply Nat.le_min.2
    refine ⟨Nat.min_le_left _ _, ?_⟩
    unfold u64 sub64
    omega

theorem access_zero {f : File} {L : List Entry} (h : Inv f L) {start size : Nat}
    (hb : sem L (start / 4096) = .absent) : truncateAccess f (start : Int) size = .ok 0 := by
  obtain ⟨S, hS, heq⟩ := truncateAccess_rep h
  rw [heq]
  cases hR : hi (start / 4096) L with
  | nil => rfl
  | cons x R =>
    have hxL : x ∈ L := mem_hi (s := start / 4096) (by rw [hR]; simp)
    have hgt : start / 4096 < x.start + x.count := h.w0.hi_gt _ x (by rw [hR]; simp)
    simp only
    split
    · rename_i hst; exact absurd hb (cov_present h.w0.ok hxL ⟨hst, hgt⟩)
    · rfl

theorem access_ok {f : File} {L : List Entry} (h : Inv f L) {start size : Nat}
    (hr : start + size < 9223372036854775808)
    (hc : nentries f < capacity f ∨ ∃ b, (start + size + 4095) / 4096 ≤ b ∧ sem L b ≠ .absent) :
    ∃ n, truncateAccess f (start : Int) size = .ok n := by
  obtain ⟨S, hS, heq⟩ := truncateAccess_rep h
  have hreq : u64 (u64 (start + size) + 4096 - 1) / 4096 = (start + size + 4095) / 4096 := by
    unfold u64; omega
  rw [heq, hreq]
  cases hR : hi (start / 4096) L with
  | nil => exact ⟨_, rfl⟩
  | cons x R =>
    have hgt : start / 4096 < x.start + x.count := h.w0.hi_gt _ x (by rw [hR]; simp)
    simp only
    split
    · have hc' : S ≠ [] ∨ ∃ e ∈ x :: R, (start + size + 4095) / 4096 < e.start + e.count := by
        rcases hc with hc | ⟨b, hb1, hb2⟩
        · left
          rintro rfl
          obtain ⟨S', hr'⟩ := h.rep
          have hcap := capacity_rep hr'
          have : S' = [] := by
            have := hr'.slots
            rw [ensureMapped_slots, hS] at this
            exact (List.append_cancel_left this).symm
          subst this
          have : capacity f = L.length := by
            have e : capacity (ensureMapped f) = capacity f := by unfold capacity; rw [ensureMapped_idem]
            rw [← e, hcap]; simp
          unfold nentries at hc
          rw [h.n] at hc; omega
        · right
          obtain ⟨e, he, hec⟩ := present_cov hb2
          unfold Entry.covers at hec
          exact ⟨e, by rw [← hR]; exact mem_hi_of he (by omega), by omega⟩
      obtain ⟨a, ha⟩ := truncL_ok (S := S) R (x := x) (fun e he => h.w0.ok e (by
        have : e ∈ hi (start / 4096) L := by rw [hR]; exact he
        exact mem_hi this)) rfl hc'
      rw [ha]; exact ⟨_, rfl⟩
    · exact ⟨_, rfl⟩

end Dragonstash.Blocklist
