import Verif.Blocklist.Lists
/-
  `markInternal` on the raw file refines `markL` on the list of live entries, without faults.
-/
namespace Dragonstash.Blocklist

variable {f : File} {S : List Entry} {g : Nat → Int}

theorem lo_lo {s e : Nat} (h : s ≤ e) (L : List Entry) : lo e L = lo s L ++ lo e (hi s L) := by
  induction L with
  | nil => rfl
  | cons a L ih =>
    unfold lo hi at *
    rw [List.takeWhile_cons, List.takeWhile_cons, List.dropWhile_cons]
    by_cases ha : a.start + a.count ≤ s
    · have : a.start + a.count ≤ e := by omega
      simp only [ha, this, decide_true, if_true, List.cons_append, ih]
    · simp only [ha, decide_false, Bool.false_eq_true, if_false, List.nil_append]
      rw [List.takeWhile_cons]

theorem split3 {s e : Nat} (h : s ≤ e) (L : List Entry) :
    lo s L ++ lo e (hi s L) ++ hi e L = L := by
  rw [← lo_lo h, lo_append_hi]

theorem trimHead_cons (e : Nat) (b : Entry) (B : List Entry) : trimHead e (b :: B) =
    if b.start < e then ⟨e, b.start + b.count - e, b.state⟩ :: B else b :: B := rfl

/-- Does the first entry begin before `e`? -/
def headBelow (e : Nat) : List Entry → Bool
  | [] => false
  | b :: _ => decide (b.start < e)

theorem containsAt_end {A B : List Entry} {e : Nat} (h : Rep f (A ++ B) S g) (he : 0 < e) (he' : e < W64)
    (hB : ∀ x ∈ B, EOk x) (hgt : ∀ x ∈ B, e < x.start + x.count) (line : Nat) :
    containsAt f A.length (sub64 e 1) line = .ok (headBelow e B) := by
  have hs : sub64 e 1 = e - 1 := by unfold sub64; omega
  unfold containsAt
  cases B with
  | nil => rw [h.n]; simp [headBelow]
  | cons b B =>
    have hne : A.length ≠ f.n := by rw [h.n]; simp
    rw [if_pos hne, deref_rep h]
    simp only [Except.map, headBelow]
    apply congrArg Except.ok
    have hb := hB b (by simp)
    have := hgt b (by simp)
    rw [hs, Bool.eq_iff_iff, hb.contains_iff, decide_eq_true_iff]
    omega

theorem trimEnd_rep {A B : List Entry} {e : Nat} (h : Rep f (A ++ B) S g) (he : 0 < e) (he' : e < W64)
    (hB : ∀ x ∈ B, EOk x) (hgt : ∀ x ∈ B, e < x.start + x.count) :
    ∃ f', trimEnd f (headBelow e B) A.length e = .ok f' ∧
      Rep f' (A ++ trimHead e B) S (fun t => g t + total t (trimHead e B) - total t B) ∧ f'.n = f.n := by
  cases B with
  | nil =>
    refine ⟨f, by simp [trimEnd, headBelow], h.congr (by simp [trimHead]) rfl (by simp [trimHead]), rfl⟩
  | cons b B =>
    by_cases hb : b.start < e
    · have hbe := hB b (by simp)
      have hg := hgt b (by simp)
      have hr := hbe.range
      have hc := hbe.count
      have hu : u16 (sub64 b.fin e) = b.start + b.count - e := by
        rw [hbe.fin_eq]; unfold u16 sub64; omega
      let b' : Entry := ⟨e, b.start + b.count - e, b.state⟩
      obtain ⟨f1, e1, r1⟩ := store_rep h b' 486
      obtain ⟨f2, e2, r2⟩ := subCnt_rep r1 (s := b.state) (d := b.count - b'.count) hbe.state
        (by simp [b']; omega) 490
      refine ⟨f2, ?_, r2.congr (by simp [trimHead, hb, b']) rfl ?_, ?_⟩
      · unfold trimEnd
        simp only [headBelow, hb, decide_true, if_true]
        rw [deref_rep h]
        simp only [bind_ok, hu]
        show (store f A.length b' 486 >>= _) = _
        rw [e1]
        simp only [bind_ok]
        have hs1 : sub64 e 1 = e - 1 := by unfold sub64; omega
        have hnc : (⟨e, b.start + b.count - e, b.state⟩ : Entry).contains (sub64 e 1) = false := by
          unfold Entry.contains; rw [hs1]
          simp; intro; omega
        rw [hnc]
        rw [chk_of (by rfl), chk_of (by simp; omega)]
        simp only [bind_ok]
        exact e2
      · intro t
        simp only [trimHead, hb, if_true, total_cons, b']
        by_cases ht : b.state = t
        · simp [ht]; omega
        · simp [ht, Ne.symm ht]
      · rw [r2.n, h.n]; simp
    · refine ⟨f, by simp [trimEnd, headBelow, hb], h.congr (by simp [trimHead, hb]) rfl ?_, rfl⟩
      intro t; simp only [trimHead, hb, if_false]; omega

theorem code_lt {st : State} (h : st ≠ .absent) : st.code < 4 := by
  cases st <;> simp_all [State.code]

/-- Result list of the final step. -/
def finL (P Q : List Entry) (x : Entry) (st : State) : List Entry :=
  if st = .absent then P ++ Q else absorbPrev P (absorbNext x Q)

theorem finishMark_rep {P D Q : List Entry} {s c so eo : Nat} {st : State}
    (h : Rep f (P ++ D ++ Q) S g) (hD : ∀ x ∈ D, EOk x) (hP : ∀ x ∈ P, EOk x) (hQ : ∀ x ∈ Q, EOk x)
    (hx : st ≠ .absent → EOk ⟨s, c, st.code⟩)
    (hmono : (P ++ (⟨s, c, st.code⟩ : Entry) :: Q).Pairwise (fun a b => a.start + a.count ≤ b.start + b.count))
    (hso : (if so = f.n then 0 else so + 1) = P.length) (heo : eo = P.length + D.length) :
    ∃ f' S', finishMark f so eo ⟨s, c, st.code⟩ st = .ok f' ∧
      Rep f' (finL P Q ⟨s, c, st.code⟩ st) S'
        (fun t => g t - total t D + (if st = .absent then 0 else (total t [⟨s, c, st.code⟩] : Int))) := by
  obtain ⟨f1, S1, e1, r1⟩ := deleteRange_rep h hD
  unfold finishMark
  simp only [hso, heo, e1, bind_ok]
  by_cases hst : st = .absent
  · refine ⟨f1, S1, by simp [hst], r1.congr (by simp [finL, hst]) rfl (by simp [hst])⟩
  · obtain ⟨f2, S2, e2, r2⟩ := insertBefore_rep r1 ⟨s, c, st.code⟩
    obtain ⟨f3, e3, r3⟩ := addCnt_rep r2 (s := st.code) (d := c) (code_lt hst) 514
    have hok : ∀ y ∈ P ++ (⟨s, c, st.code⟩ : Entry) :: Q, EOk y := by
      intro y hy
      simp only [List.mem_append, List.mem_cons] at hy
      rcases hy with hy | rfl | hy
      · exact hP y hy
      · exact hx hst
      · exact hQ y hy
    obtain ⟨f4, S4, e4, r4⟩ := mergeAround_rep r3 hok hmono
    refine ⟨f4, S4, ?_, r4.congr (by simp [finL, hst]) rfl ?_⟩
    · simp only [hst, if_false, e2, bind_ok, e3, e4]
    · intro t
      simp only [hst, if_false, total_cons, total_nil]
      by_cases ht : st.code = t
      · simp [ht]
      · simp [ht, Ne.symm ht]

theorem splitEntry_rep {A B : List Entry} {r : Entry} {s : Nat} (h : Rep f (A ++ r :: B) S g) (hr : EOk r)
    (h1 : r.start ≤ s) (h2 : s < r.start + r.count) :
    ∃ f' S', splitEntry f A.length s = .ok (f', A.length) ∧
      Rep f' (A ++ leftOf s r :: ⟨s, r.start + r.count - s, r.state⟩ :: B) S' g := by
  have hrg := hr.range
  have hc := hr.count
  have u1 : u16 (sub64 r.fin s) = r.start + r.count - s := by rw [hr.fin_eq]; unfold u16 sub64; omega
  have u2 : u16 (sub64 s r.start) = s - r.start := by unfold u16 sub64; omega
  obtain ⟨f1, e1, r1⟩ := store_rep h (leftOf s r) 317
  obtain ⟨f2, S2, e2, r2⟩ := insertBefore_rep (A := A ++ [leftOf s r]) (B := B) (r1.congrL (by simp))
    ⟨s, r.start + r.count - s, r.state⟩
  have hl : (A ++ [leftOf s r]).length = A.length + 1 := by simp
  rw [hl] at e2
  have r2' : Rep f2 (A ++ leftOf s r :: ⟨s, r.start + r.count - s, r.state⟩ :: B) S2 g := r2.congrL (by simp)
  refine ⟨f2, S2, ?_, r2'⟩
  unfold splitEntry
  rw [deref_rep h]
  simp only [bind_ok, hr.fin_eq]
  rw [chk_of (by simpa using h1), chk_of (by simpa using h2)]
  simp only [bind_ok]
  rw [hr.fin_eq] at u1
  rw [u1, u2]
  have e1' : store f A.length { r with count := s - r.start } 317 = .ok f1 := e1
  rw [e1']
  simp only [bind_ok, e2, Nat.add_sub_cancel]
  rw [deref_rep r2']
  have d2 : deref f2 (A.length + 1) 321 = .ok ⟨s, r.start + r.count - s, r.state⟩ := by
    have := deref_rep r2 321
    rwa [hl] at this
  simp only [bind_ok, d2]
  rw [chk_of, chk_of, chk_of]
  · rfl
  · exact decide_eq_true (by show s - r.start + (r.start + r.count - s) = r.count; omega)
  · exact decide_eq_true (by show (s + (r.start + r.count - s)) % W64 = r.start + r.count; omega)
  · exact decide_eq_true (by show (r.start + (s - r.start)) % W64 = s; omega)

/-- The tail of `markInternal` when the start is not contained in the entry `so`. -/
theorem mark_tail {P D B : List Entry} {s c so eo : Nat} {st : State} {e : Nat} (hedef : e = s + c)
    (h : Rep f (P ++ D ++ B) S g) (hD : ∀ x ∈ D, EOk x) (hP : ∀ x ∈ P, EOk x) (hB : ∀ x ∈ B, EOk x)
    (hc : 0 < c) (hc' : c ≤ 65535) (he' : s + c < W64)
    (hPle : ∀ x ∈ P, x.start + x.count ≤ s) (hPm : P.Pairwise (fun a b => a.start + a.count ≤ b.start + b.count))
    (hgt : ∀ x ∈ B, e < x.start + x.count) (hBm : B.Pairwise (fun a b => a.start + a.count ≤ b.start + b.count))
    (hso : (if so = f.n then 0 else so + 1) = P.length) (heo : eo = P.length + D.length) :
    ∃ f' S', (trimEnd f (headBelow e B) eo e >>= fun f => finishMark f so eo ⟨s, c, st.code⟩ st) = .ok f' ∧
      Rep f' (finL P (trimHead e B) ⟨s, c, st.code⟩ st) S'
        (fun t => g t + total t (trimHead e B) - total t B - total t D +
          (if st = .absent then 0 else (total t [⟨s, c, st.code⟩] : Int))) := by
  subst hedef
  obtain ⟨f1, e1, r1, hn⟩ := trimEnd_rep (A := P ++ D) (B := B) h (by omega : 0 < s + c) he' hB hgt
  have hl : (P ++ D).length = eo := by rw [heo]; simp
  rw [hl] at e1
  simp only [e1, bind_ok]
  have hQ : ∀ x ∈ trimHead (s + c) B, EOk x := by
    cases B with
    | nil => simp [trimHead]
    | cons b B =>
      rw [trimHead_cons]
      have hb := hB b (by simp)
      have := hgt b (by simp)
      have h3 := hb.range
      have h4 := hb.count
      split
      · intro x hx
        simp only [List.mem_cons] at hx
        rcases hx with rfl | hx
        · exact ⟨by simp; omega, by simp; omega, hb.state⟩
        · exact hB x (by simp [hx])
      · exact hB
  have hQgt : ∀ x ∈ trimHead (s + c) B, s + c < x.start + x.count := by
    cases B with
    | nil => simp [trimHead]
    | cons b B =>
      rw [trimHead_cons]
      have := hgt b (by simp)
      split
      · intro x hx
        simp only [List.mem_cons] at hx
        rcases hx with rfl | hx
        · simp; omega
        · exact hgt x (by simp [hx])
      · exact hgt
  have hQm : (trimHead (s + c) B).Pairwise (fun a b => a.start + a.count ≤ b.start + b.count) := by
    cases B with
    | nil => simp [trimHead]
    | cons b B =>
      rw [trimHead_cons]
      have := hgt b (by simp)
      rw [List.pairwise_cons] at hBm
      split
      · rw [List.pairwise_cons]
        refine ⟨fun y hy => ?_, hBm.2⟩
        have := hBm.1 y hy
        simp; omega
      · rw [List.pairwise_cons]; exact hBm
  have hmono : (P ++ (⟨s, c, st.code⟩ : Entry) :: trimHead (s + c) B).Pairwise
      (fun a b => a.start + a.count ≤ b.start + b.count) := by
    rw [List.pairwise_append]
    refine ⟨hPm, ?_, ?_⟩
    · rw [List.pairwise_cons]
      refine ⟨fun y hy => ?_, hQm⟩
      have := hQgt y hy
      simp; omega
    · intro a ha b hb
      have h1 := hPle a ha
      simp only [List.mem_cons] at hb
      rcases hb with rfl | hb
      · simp; omega
      · have := hQgt b hb; omega
  obtain ⟨f2, S2, e2, r2⟩ := finishMark_rep (P := P) (D := D) (Q := trimHead (s + c) B) (s := s) (c := c) (so := so)
    (eo := eo) (st := st) r1 hD hP hQ
    (fun hst => ⟨by simpa using he', hc', code_lt hst⟩) hmono (by rw [hn]; exact hso) heo
  exact ⟨f2, S2, e2, r2.congrG (fun t => rfl)⟩

theorem pairwise_sub {L A B C : List Entry} (h : A ++ B ++ C = L)
    (hm : L.Pairwise (fun a b => a.start + a.count ≤ b.start + b.count)) :
    A.Pairwise (fun a b => a.start + a.count ≤ b.start + b.count) ∧
    C.Pairwise (fun a b => a.start + a.count ≤ b.start + b.count) := by
  subst h
  rw [List.pairwise_append, List.pairwise_append] at hm
  exact ⟨hm.1.1, hm.2.1⟩

theorem total_markL (L : List Entry) (s c : Nat) (st : State) (t : Nat) :
    total t (markL L s c st) = total t (prePost L s (s + c)).1 + total t (prePost L s (s + c)).2 +
      (if st = .absent then 0 else total t [⟨s, c, st.code⟩]) := by
  unfold markL
  by_cases h : st = .absent
  · simp [h]
  · simp only [h, if_false, total_absorbPrev, total_append, total_absorbNext, total_cons, total_nil]; omega

theorem markL_eq_finL (L : List Entry) (s c : Nat) (st : State) :
    markL L s c st = finL (prePost L s (s + c)).1 (prePost L s (s + c)).2 ⟨s, c, st.code⟩ st := rfl

theorem markInternal_rep {L : List Entry} {s c : Nat} {st : State} (h : Rep f L S g) (hw : W0 L)
    (hc : 0 < c) (hc' : c ≤ 65535) (he : s + c < W64) :
    ∃ f' S', markInternal f s c st = .ok f' ∧
      Rep f' (markL L s c st) S' (fun t => g t + total t (markL L s c st) - total t L) := by
  have hfin : u64 (s + c) = s + c := by unfold u64; omega
  have hse : s ≤ s + c := by omega
  have h3 := split3 hse L
  have hlen : f.n = (lo s L).length + (hi s L).length := by
    rw [h.n, ← List.length_append, lo_append_hi]
  have hokA : ∀ x ∈ lo s L, EOk x := fun x hx => hw.ok x (by rw [← h3]; simp [hx])
  have hokD : ∀ x ∈ lo (s+c) (hi s L), EOk x := fun x hx => hw.ok x (by rw [← h3]; simp [hx])
  have hokB : ∀ x ∈ hi (s+c) L, EOk x := fun x hx => hw.ok x (by rw [← h3]; simp [hx])
  obtain ⟨hmA, hmB⟩ := pairwise_sub h3 hw.mono
  have hrep3 : Rep f (lo s L ++ lo (s+c) (hi s L) ++ hi (s+c) L) S g := h.congrL h3.symm
  have hlo : (lo (s+c) L).length = (lo s L).length + (lo (s+c) (hi s L)).length := by
    rw [lo_lo hse L]; simp
  have htot : ∀ t, total t L = total t (lo s L) + total t (lo (s+c) (hi s L)) + total t (hi (s+c) L) := by
    intro t; conv => lhs; rw [← h3]
    simp only [total_append]
  have hsearch := searchEntry_rep h hw
  have hendc : ∀ (line : Nat), containsAt f ((lo s L).length + (lo (s+c) (hi s L)).length) (sub64 (s+c) 1) line
      = .ok (headBelow (s+c) (hi (s+c) L)) := by
    intro line
    have := containsAt_end hrep3 (by omega : 0 < s + c) he hokB (hw.hi_gt _) line
    rwa [List.length_append] at this
  -- the case where no entry contains `s`
  have key : ∀ so, findOverlapping f s c = .ok (so, (lo s L).length + (lo (s+c) (hi s L)).length) →
      ¬ (so ≠ f.n ∧ so = (lo s L).length + (lo (s+c) (hi s L)).length) →
      containsAt f so s 445 = .ok false →
      (if so = f.n then 0 else so + 1) = (lo s L).length →
      prePost L s (s+c) = (lo s L, trimHead (s+c) (hi (s+c) L)) →
      ∃ f' S', markInternal f s c st = .ok f' ∧
      Rep f' (markL L s c st) S' (fun t => g t + total t (markL L s c st) - total t L) := by
    intro so hfo hne hca hso hpp
    obtain ⟨f', S', e1, r1⟩ := mark_tail (st := st) rfl hrep3 hokD hokA hokB hc hc' he lo_le hmA (hw.hi_gt _) hmB hso rfl
    refine ⟨f', S', ?_, r1.congr (by rw [markL_eq_finL, hpp]) rfl ?_⟩
    · unfold markInternal
      simp only [hfin, hfo, bind_ok]
      have hcs : caseSplit f so ((lo s L).length + (lo (s+c) (hi s L)).length) s =
          .ok (f, so, (lo s L).length + (lo (s+c) (hi s L)).length) := by
        unfold caseSplit; rw [if_neg hne]
      simp only [hcs, bind_ok, hca, hendc]
      simpa using e1
    · intro t
      rw [total_markL, hpp, htot t]
      by_cases hst : st = .absent
      · simp only [hst, if_true]; omega
      · simp only [hst, if_false]; omega
  cases hR : hi s L with
  | nil =>
    have hM : lo (s+c) (hi s L) = [] := by rw [hR]; rfl
    have hB : hi (s+c) L = [] := by rw [← hi_hi hse, hR]; rfl
    have hpp : prePost L s (s+c) = (lo s L, trimHead (s+c) (hi (s+c) L)) := by
      unfold prePost; rw [hR, hB]; rfl
    have hnA : f.n = (lo s L).length := by rw [hlen, hR]; simp
    by_cases hn0 : f.n = 0
    · apply key f.n
      · unfold findOverlapping; rw [if_pos hn0, hM]; simp [hnA]
      · simp
      · unfold containsAt; simp
      · simp [← hnA, hn0]
      · exact hpp
    · apply key (f.n - 1)
      · unfold findOverlapping
        rw [if_neg hn0]
        simp only [hsearch, bind_ok]
        rw [if_pos hnA.symm, hM, hnA]; simp
      · rw [hM]; simp; omega
      · unfold containsAt
        rw [if_pos (by omega)]
        have hlast : ∃ P q, lo s L = P ++ [q] := by
          rcases List.eq_nil_or_concat (lo s L) with hnil | ⟨P, q, hq⟩
          · rw [hnil] at hnA; simp at hnA; omega
          · exact ⟨P, q, by rw [hq]; simp⟩
        obtain ⟨P, q, hq⟩ := hlast
        have hrq : Rep f (P ++ q :: []) S g := h.congrL (by
          rw [← h3, hM, hB, hq]; simp)
        have hidx : f.n - 1 = P.length := by rw [hnA, hq]; simp
        rw [hidx, deref_rep hrq]
        have hqok := hokA q (by rw [hq]; simp)
        have := lo_le (L := L) q (by rw [hq]; simp : q ∈ lo s L)
        simp only [Except.map]
        congr 1
        rw [← Bool.not_eq_true, hqok.contains_iff]; omega
      · rw [if_neg (by omega)]; omega
      · exact hpp
  | cons r R =>
    have hr : EOk r := hw.ok r (by rw [← lo_append_hi s L, hR]; simp)
    have hrs : s < r.start + r.count := hw.hi_gt s r (by rw [hR]; simp)
    have hn0 : ¬ f.n = 0 := by rw [hlen, hR]; simp
    have hnA : ¬ (lo s L).length = f.n := by rw [hlen, hR]; simp
    have hrepR : Rep f (lo s L ++ r :: R) S g := h.congrL (by rw [← hR, lo_append_hi])
    have hfo : findOverlapping f s c = .ok (if r.contains s then (lo s L).length else
        if (lo s L).length = 0 then f.n else (lo s L).length - 1,
        (lo s L).length + (lo (s+c) (hi s L)).length) := by
      unfold findOverlapping
      rw [if_neg hn0]
      simp only [hsearch, bind_ok]
      rw [if_neg hnA, deref_rep hrepR]
      simp only [bind_ok, hfin, hsearch, pure_eq_ok, hlo]
    by_cases hcont : r.start ≤ s
    · have hct : r.contains s = true := (hr.contains_iff s).2 ⟨hcont, hrs⟩
      rw [hct] at hfo
      simp only [if_true] at hfo
      by_cases hend : r.start + r.count ≤ s + c
      · -- r ends within the range
        have hM : lo (s+c) (hi s L) = r :: lo (s+c) R := by
          rw [hR]; unfold lo; rw [List.takeWhile_cons]; simp [hend]
        have hcs : caseSplit f (lo s L).length ((lo s L).length + (lo (s+c) (hi s L)).length) s =
            .ok (f, (lo s L).length, (lo s L).length + (lo (s+c) (hi s L)).length) := by
          unfold caseSplit; rw [if_neg]; rw [hM]; simp
        have hsc : containsAt f (lo s L).length s 445 = .ok true := by
          unfold containsAt
          rw [if_pos hnA, deref_rep hrepR]; simp [Except.map, hct]
        have hrep4 : Rep f ((lo s L) ++ r :: (lo (s+c) R ++ hi (s+c) L)) S g := hrep3.congrL (by rw [hM]; simp)
        have hokD' : ∀ x ∈ lo (s+c) R, EOk x := fun x hx => hokD x (by rw [hM]; simp [hx])
        by_cases hex : r.start = s
        · -- exact match
          have hcle : r.count ≤ c := by omega
          have hpp : prePost L s (s+c) = (lo s L, hi (s+c) L) := by
            unfold prePost; rw [hR]; simp [hex]; omega
          by_cases hst : st = .absent
          · obtain ⟨f', S', e1, r1⟩ := deleteRange_rep hrep3 hokD
            refine ⟨f', S', ?_, r1.congr (by rw [markL_eq_finL, hpp]; simp [finL, hst]) rfl ?_⟩
            · unfold markInternal
              simp only [hfin, hfo, bind_ok, hcs, hsc, hendc, if_true]
              rw [deref_rep hrepR]
              simp only [bind_ok, hex, hcle, and_self, if_true, hst, e1, pure_eq_ok]
            · intro t
              rw [total_markL, hpp, htot t]; simp only [hst, if_true]; omega
          · obtain ⟨f1, e1, r1⟩ := subCnt_rep hrep4 (s := r.state) (d := r.count) hr.state
              (by have := hr.count; omega) 457
            obtain ⟨f2, e2, r2⟩ := store_rep r1 ⟨s, c, st.code⟩ 458
            obtain ⟨f3, e3, r3⟩ := addCnt_rep r2 (s := st.code) (d := c) (code_lt hst) 459
            obtain ⟨f4, S4, e4, r4⟩ := deleteRange_rep (A := lo s L ++ [⟨s, c, st.code⟩]) (D := lo (s+c) R)
              (B := hi (s+c) L) (r3.congrL (by simp)) hokD'
            have hxok : EOk ⟨s, c, st.code⟩ := ⟨by simpa using he, hc', code_lt hst⟩
            have hmono : (lo s L ++ (⟨s, c, st.code⟩ : Entry) :: hi (s+c) L).Pairwise
                (fun a b => a.start + a.count ≤ b.start + b.count) := by
              rw [List.pairwise_append]
              refine ⟨hmA, ?_, ?_⟩
              · rw [List.pairwise_cons]
                exact ⟨fun y hy => by have := hw.hi_gt (s+c) y hy; simp; omega, hmB⟩
              · intro a ha b hb
                have h1 := lo_le a ha
                simp only [List.mem_cons] at hb
                rcases hb with rfl | hb
                · simp; omega
                · have := hw.hi_gt (s+c) b hb; omega
            have hokall : ∀ y ∈ lo s L ++ (⟨s, c, st.code⟩ : Entry) :: hi (s+c) L, EOk y := by
              intro y hy
              simp only [List.mem_append, List.mem_cons] at hy
              rcases hy with hy | rfl | hy
              · exact hokA y hy
              · exact hxok
              · exact hokB y hy
            obtain ⟨f5, S5, e5, r5⟩ := mergeAround_rep (A := lo s L) (B := hi (s+c) L) (x := ⟨s, c, st.code⟩)
              (r4.congrL (by simp)) hokall hmono
            refine ⟨f5, S5, ?_, r5.congr (by rw [markL_eq_finL, hpp]; simp [finL, hst]) rfl ?_⟩
            · unfold markInternal
              simp only [hfin, hfo, bind_ok, hcs, hsc, hendc, if_true]
              rw [deref_rep hrepR]
              simp only [bind_ok, hex, hcle, and_self, if_true, hst, if_false, e1, e2, e3]
              rw [hM]
              have hl : (lo s L ++ [(⟨s, c, st.code⟩ : Entry)]).length = (lo s L).length + 1 := by simp
              rw [hl] at e4
              simp only [List.length_cons]
              rw [show (lo s L).length + ((lo (s+c) R).length + 1) = (lo s L).length + 1 + (lo (s+c) R).length by omega, e4]
              simp only [bind_ok, Nat.add_sub_cancel]
              exact e5
            · intro t
              rw [total_markL, hpp, htot t, hM]
              simp only [hst, if_false, total_cons, total_nil]
              simp only [show (t = st.code) = (st.code = t) from propext eq_comm,
                show (t = r.state) = (r.state = t) from propext eq_comm]
              by_cases ht : st.code = t <;> by_cases ht' : r.state = t <;>
                simp only [ht, ht', if_true, if_false] <;> omega
        · -- trim r at the start
          have hlt : r.start < s := by omega
          have hrr := hr.range
          have hrc := hr.count
          have hpp : prePost L s (s+c) = (lo s L ++ [leftOf s r], trimHead (s+c) (hi (s+c) L)) := by
            unfold prePost; rw [hR]; simp [hcont, hex]
          have hu : u16 (sub64 s r.start) = s - r.start := by unfold u16 sub64; omega
          obtain ⟨f1, e1, r1⟩ := store_rep hrep4 (leftOf s r) 475
          obtain ⟨f2, e2, r2⟩ := subCnt_rep r1 (s := r.state) (d := r.count - (s - r.start)) hr.state (by omega) 479
          have hendc2 : headBelow (s+c) (hi (s+c) L) = headBelow (s+c) (hi (s+c) L) := rfl
          obtain ⟨f', S', e3, r3⟩ := mark_tail (P := lo s L ++ [leftOf s r]) (D := lo (s+c) R) (B := hi (s+c) L)
            (so := (lo s L).length) (eo := (lo s L).length + (lo (s+c) (hi s L)).length) (st := st) (c := c) rfl
            (r2.congrL (by simp)) hokD' (by
              intro x hx
              simp only [List.mem_append, List.mem_singleton] at hx
              rcases hx with hx | rfl
              · exact hokA x hx
              · exact ⟨by simp [leftOf]; omega, by simp [leftOf]; omega, hr.state⟩) hokB hc hc' he (by
              intro x hx
              simp only [List.mem_append, List.mem_singleton] at hx
              rcases hx with hx | rfl
              · exact lo_le x hx
              · simp [leftOf]; omega) (by
              rw [List.pairwise_append]
              refine ⟨hmA, by simp, ?_⟩
              intro a ha b hb
              simp only [List.mem_singleton] at hb
              subst hb
              have := lo_le a ha
              simp [leftOf]; omega) (hw.hi_gt _) hmB (by
              have : f2.n = f.n := by rw [r2.n, hrep4.n]; simp
              rw [this, if_neg hnA]; simp) (by rw [hM]; simp; omega)
          refine ⟨f', S', ?_, r3.congr (by rw [markL_eq_finL, hpp]) rfl ?_⟩
          · unfold markInternal
            simp only [hfin, hfo, bind_ok, hcs, hsc, hendc, if_true]
            rw [deref_rep hrepR]
            simp only [bind_ok, hex, false_and, if_false, hu]
            have e1' : store f (lo s L).length { r with count := s - r.start } 475 = .ok f1 := e1
            rw [e1']
            simp only [bind_ok]
            rw [chk_of (decide_eq_true (by show (r.start + (s - r.start)) % W64 = s; omega)), chk_of (by simp; omega),
              chk_of (by simp; omega)]
            simp only [bind_ok, e2]
            exact e3
          · intro t
            rw [total_markL, hpp, htot t, hM]
            simp only [total_append, total_cons, total_nil, leftOf]
            by_cases ht' : r.state = t
            · simp [ht']
              by_cases hst : st = .absent
              · simp only [hst, if_true]; omega
              · simp only [hst, if_false]; omega
            · simp [ht', Ne.symm ht']
              by_cases hst : st = .absent
              · simp only [hst, if_true]; omega
              · simp only [hst, if_false]; omega
      · -- r contains the whole range: split
        have hM : lo (s+c) (hi s L) = [] := by
          rw [hR]; unfold lo; rw [List.takeWhile_cons]; simp [hend]
        have hB : hi (s+c) L = r :: R := by
          rw [← hi_hi hse, hR]; unfold hi; rw [List.dropWhile_cons]; simp [hend]
        have hrr := hr.range
        have hrc := hr.count
        obtain ⟨f1, S1, e1, r1⟩ := splitEntry_rep hrepR hr hcont hrs
        have hpp : prePost L s (s+c) = (lo s L ++ [leftOf s r], trimHead (s+c) (hi (s+c) L)) := by
          unfold prePost; rw [hR]; simp [hcont, hend]
        let r' : Entry := ⟨s, r.start + r.count - s, r.state⟩
        have hr' : EOk r' := ⟨by simp [r']; omega, by simp [r']; omega, hr.state⟩
        have r1' : Rep f1 ((lo s L ++ [leftOf s r]) ++ [] ++ (r' :: R)) S1 g := r1.congrL (by simp [r'])
        have hlen' : (lo s L ++ [leftOf s r]).length = (lo s L).length + 1 := by simp
        have hgt' : ∀ x ∈ r' :: R, s + c < x.start + x.count := by
          intro x hx
          simp only [List.mem_cons] at hx
          rcases hx with rfl | hx
          · simp [r']; omega
          · exact hw.hi_gt (s+c) x (by rw [hB]; simp [hx])
        have hokB' : ∀ x ∈ r' :: R, EOk x := by
          intro x hx
          simp only [List.mem_cons] at hx
          rcases hx with rfl | hx
          · exact hr'
          · exact hokB x (by rw [hB]; simp [hx])
        have hokP : ∀ x ∈ lo s L ++ [leftOf s r], EOk x := by
          intro x hx
          simp only [List.mem_append, List.mem_singleton] at hx
          rcases hx with hx | rfl
          · exact hokA x hx
          · exact ⟨by simp [leftOf]; omega, by simp [leftOf]; omega, hr.state⟩
        have hBm' : (r' :: R).Pairwise (fun a b => a.start + a.count ≤ b.start + b.count) := by
          rw [hB, List.pairwise_cons] at hmB
          rw [List.pairwise_cons]
          refine ⟨fun y hy => ?_, hmB.2⟩
          have := hmB.1 y hy
          simp [r']; omega
        have hn1 : f1.n = (lo s L).length + 1 + 1 + R.length := by rw [r1.n]; simp; omega
        obtain ⟨f', S', e3, r3⟩ := mark_tail (P := lo s L ++ [leftOf s r]) (D := []) (B := r' :: R)
          (so := (lo s L).length) (eo := (lo s L).length + 1) (st := st) (c := c) rfl
          r1' (by simp) hokP hokB' hc hc' he (by
            intro x hx
            simp only [List.mem_append, List.mem_singleton] at hx
            rcases hx with hx | rfl
            · exact lo_le x hx
            · simp [leftOf]; omega) (by
            rw [List.pairwise_append]
            refine ⟨hmA, by simp, ?_⟩
            intro a ha b hb
            simp only [List.mem_singleton] at hb
            subst hb
            have := lo_le a ha
            simp [leftOf]; omega) hgt' hBm' (by
            rw [if_neg (by omega)]; simp) (by simp)
        have htrim : trimHead (s+c) (r' :: R) = trimHead (s+c) (hi (s+c) L) := by
          rw [hB]
          have h1 : r'.start < s + c := by simp [r']; omega
          have h2 : r.start < s + c := by omega
          rw [trimHead_cons, trimHead_cons]
          rw [if_pos h1, if_pos h2]
          simp only [r']
          congr 2; omega
        refine ⟨f', S', ?_, r3.congr (by rw [markL_eq_finL, hpp, htrim]) rfl ?_⟩
        · unfold markInternal
          simp only [hfin, hfo, bind_ok]
          have hcs : caseSplit f (lo s L).length ((lo s L).length + (lo (s+c) (hi s L)).length) s =
              .ok (f1, (lo s L).length, (lo s L).length + 1) := by
            unfold caseSplit
            rw [if_pos ⟨hnA, by rw [hM]; simp⟩, e1]; rfl
          have hsc : containsAt f1 (lo s L).length s 445 = .ok false := by
            unfold containsAt
            rw [if_pos (by omega), deref_rep r1]
            simp only [Except.map]
            congr 1
            have hlok := hokP (leftOf s r) (by simp)
            rw [← Bool.not_eq_true, hlok.contains_iff]
            simp [leftOf]; omega
          have hec := containsAt_end (A := lo s L ++ [leftOf s r]) (r1'.congrL (by simp)) (by omega : 0 < s + c) he hokB' hgt' 446
          rw [hlen'] at hec
          simp only [hcs, bind_ok, hsc, hec]
          simpa using e3
        · intro t
          rw [total_markL, hpp, htot t, hM, htrim, hB]
          simp only [total_append, total_cons, total_nil, leftOf, r']
          by_cases ht' : r.state = t
          · simp [ht']
            by_cases hst : st = .absent
            · simp only [hst, if_true]; omega
            · simp only [hst, if_false]; omega
          · simp [ht']
            by_cases hst : st = .absent
            · simp only [hst, if_true]; omega
            · simp only [hst, if_false]; omega
    · have hct : r.contains s = false := by
        rw [← Bool.not_eq_true, hr.contains_iff]; omega
      rw [hct] at hfo
      simp only [Bool.false_eq_true, if_false] at hfo
      have hpp : prePost L s (s+c) = (lo s L, trimHead (s+c) (hi (s+c) L)) := by
        unfold prePost; rw [hR]; simp [hcont]
      have hDlen : (lo (s+c) (hi s L)).length ≤ (hi s L).length := by
        conv => rhs; rw [← lo_append_hi (s+c) (hi s L)]
        simp
      apply key _ hfo
      · by_cases hA0 : (lo s L).length = 0
        · simp [hA0]
        · simp [hA0]; omega
      · by_cases hA0 : (lo s L).length = 0
        · simp [hA0, containsAt]
        · simp only [hA0, if_false]
          unfold containsAt
          rw [if_pos (by omega)]
          obtain ⟨P, q, hq⟩ : ∃ P q, lo s L = P ++ [q] := by
            rcases List.eq_nil_or_concat (lo s L) with hnil | ⟨P, q, hq⟩
            · rw [hnil] at hA0; simp at hA0
            · exact ⟨P, q, by rw [hq]; simp⟩
          have hrq : Rep f (P ++ q :: (r :: R)) S g := hrepR.congrL (by rw [hq]; simp)
          have hidx : (lo s L).length - 1 = P.length := by rw [hq]; simp
          rw [hidx, deref_rep hrq]
          have hqok := hokA q (by rw [hq]; simp)
          have := lo_le (L := L) q (by rw [hq]; simp : q ∈ lo s L)
          simp only [Except.map]
          congr 1
          rw [← Bool.not_eq_true, hqok.contains_iff]; omega
      · by_cases hA0 : (lo s L).length = 0
        · simp [hA0]
        · simp only [hA0, if_false]; rw [if_neg (by omega)]; omega
      · exact hpp

end Dragonstash.Blocklist
