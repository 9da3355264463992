import Verif.Blocklist.Power
/-
  Many lives: processes die inside `mark`, the power fails, and the next process goes on with what it
  finds.  Nothing is known then about the order of the entries, whether they overlap, and whether the
  number of entries is right; what is known about each entry is `Ov`.
-/
namespace Dragonstash.Blocklist

/-! ### The model -/

/-- What can happen to a block list.  `Life P cs V f`: the marks and other calls `cs` have been made
(some of them only in part), the file is now `f`, and `V` are its contents since it was last written
back in full.  The power fails only if `P`.

* `call`: a call returns (blocklist.cpp 533-545, 629-711); closing and opening again writes the file
  back (96-101);
* `die`: the process dies inside a `mark`, also by a failing assertion; the next one opens the file
  and finds what was stored (MAP_SHARED, 163-166);
* `power`: the power fails, the next process finds a mixture of the parts.

Simplification: the file is taken to have reached the disk once when it is created (C70 is about
that).  Calls with undefined behaviour have no continuation. -/
inductive Life (P : Prop) : List Call → (File → Prop) → File → Prop
  | start : Life P [] (fun v => v = fresh) fresh
  | call {cs V f g} (c : Call) : Life P cs V f → CallsInRange [c] → step f c = .ok g →
      Life P (cs ++ [c]) (fun v => if c = .reopen then v = g else V v ∨ (∃ s n st, c = .mark s n st ∧ (markT f s n st).crash v) ∨ v = g) g
  | die {cs V f g} (s n : Nat) (st : State) : Life P cs V f → s + n < W64 → (markT f s n st).crash g →
      Life P (cs ++ [.mark s n st]) (fun v => V v ∨ (markT f s n st).crash v) (reopen g)
  | power {cs V f g} : P → Life P cs V f → (∃ v, V v ∧ g.n = v.n) → (∀ t, ∃ v, V v ∧ g.cnt t = v.cnt t) →
      (∃ v, V v ∧ g.slots.length = v.slots.length) →
      (∀ (i : Nat) (e : Entry), g.slots[i]? = some e → ∃ v, V v ∧ e = v.slots.getD i zeroEntry) →
      Life P cs (fun v => v = reopen g) (reopen g)

/-! ### Every entry -/

/-- The blocks an entry covers have `Q`; nothing is assumed about wrap-around. -/
structure Ov (Q : Nat → Nat → Prop) (e : Entry) : Prop where
  start : e.start < W64
  count : e.count ≤ 65535
  state : e.state < 4
  covers : ∀ b, e.start ≤ b → b < e.fin → Q b e.state

variable {Q : Nat → Nat → Prop} {f g : File}

theorem fin_of {e : Entry} {b : Nat} (hs : e.start < W64) (hc : e.count ≤ 65535) (h1 : e.start ≤ b) (h2 : b < e.fin) :
    e.fin = e.start + e.count ∧ e.start + e.count < W64 := by
  unfold Entry.fin u64 at *
  omega

theorem Ov.mono {Q' : Nat → Nat → Prop} {e : Entry} (h : Ov Q e) (hq : ∀ b t, Q b t → Q' b t) : Ov Q' e :=
  ⟨h.start, h.count, h.state, fun b h1 h2 => hq b _ (h.covers b h1 h2)⟩

theorem ov_zero : Ov Q zeroEntry := by
  refine ⟨by decide, by decide, by decide, fun b h1 h2 => ?_⟩
  have : zeroEntry.fin = 0 := by decide
  omega

theorem tryMergeT_ov (h : Al (Ov Q) f) (i : Nat) : Safe (Al (Ov Q)) (tryMergeT f i) (fun r => Al (Ov Q) r.1) := by
  unfold tryMergeT
  by_cases h0 : i = 0
  · rw [if_pos h0]; exact Safe.pure h
  rw [if_neg h0]
  refine Safe.bind (Q := fun e => f.slots[i - 1]? = some e) (Safe.quiet (fun _ => deref_inv)) (fun prev _ hp => ?_)
  refine Safe.bind (Q := fun e => f.slots[i]? = some e) (Safe.quiet (fun _ => deref_inv)) (fun it _ hit => ?_)
  obtain ⟨p1, p2, p3, p4⟩ := h _ _ hp
  obtain ⟨i1, i2, i3, i4⟩ := h _ _ hit
  by_cases h1 : prev.fin ≠ it.start
  · rw [if_pos h1]; exact Safe.pure h
  rw [if_neg h1]
  by_cases h2 : prev.state ≠ it.state
  · rw [if_pos h2]; exact Safe.pure h
  rw [if_neg h2]
  simp only
  by_cases h3 : prev.count + it.count > limit
  · rw [if_pos h3]; exact Safe.pure h
  rw [if_neg h3]
  simp only [ne_eq, Decidable.not_not] at h1 h2
  simp only [limit] at h3
  have hu : u16 (prev.count + it.count) = prev.count + it.count := by unfold u16; omega
  rw [hu]
  have hnew : Ov Q { prev with count := prev.count + it.count } := by
    refine ⟨p1, by simp only; omega, p3, fun b hb1 hb2 => ?_⟩
    obtain ⟨e1, e2⟩ := fin_of (e := { prev with count := prev.count + it.count }) p1 (by simp only; omega) hb1 hb2
    rw [e1] at hb2
    simp only at hb1 hb2 e2 ⊢
    have ep : prev.fin = prev.start + prev.count := by unfold Entry.fin u64; omega
    have ei : it.fin = it.start + it.count := by unfold Entry.fin u64; omega
    by_cases hb : b < prev.fin
    · exact p4 b hb1 hb
    · rw [h2]; exact i4 b (by omega) (by omega)
  refine Safe.bind (Q := Al (Ov Q)) (Safe.point (fun g hg => ?_)) (fun f1 _ j1 => ?_)
  · obtain ⟨_, b⟩ := store_inv hg
    subst b
    have : Al (Ov Q) { f with slots := f.slots.set (i - 1) { prev with count := prev.count + it.count } } := h.set rfl hnew
    exact ⟨this, this⟩
  · refine Safe.bind (addCntT_al j1 _ _ _) (fun f2 _ j2 => ?_)
    refine Safe.bind (deleteEntryT_al j2.1 _) (fun r _ j3 => ?_)
    exact Safe.pure j3

theorem mergeAroundT_ov (h : Al (Ov Q) f) (i : Nat) : Safe (Al (Ov Q)) (mergeAroundT f i) (Al (Ov Q)) := by
  unfold mergeAroundT
  refine Safe.bind (Q := fun r => Al (Ov Q) r.1) ?_ (fun r _ h1 => ?_)
  · unfold mergeNextT
    by_cases hn : i + 1 ≠ f.n
    · rw [if_pos hn]
      exact Safe.bind (tryMergeT_ov h (i + 1)) (fun r _ hr => Safe.pure hr)
    · rw [if_neg hn]; exact Safe.pure h
  · exact Safe.bind (tryMergeT_ov h1 _) (fun r2 _ h2 => Safe.pure h2)

theorem ov_left {a : Entry} {s : Nat} (h : Ov Q a) (h1 : a.start ≤ s) (h2 : s < a.fin) :
    u16 (sub64 s a.start) = s - a.start ∧ Ov Q { a with count := s - a.start } := by
  obtain ⟨a1, a2, a3, a4⟩ := h
  obtain ⟨e1, e2⟩ := fin_of a1 a2 h1 h2
  rw [e1] at h2
  refine ⟨by rw [sub64_of (by omega) (by omega)]; unfold u16; omega, a1, by simp only; omega, a3, fun b hb1 hb2 => ?_⟩
  obtain ⟨e3, _⟩ := fin_of (e := { a with count := s - a.start }) a1 (by simp only; omega) hb1 hb2
  rw [e3] at hb2
  simp only at hb1 hb2
  exact a4 b hb1 (by omega)

theorem ov_right {a : Entry} {s : Nat} (h : Ov Q a) (h0 : s < W64) (hx : ∃ b, a.start ≤ b ∧ b < a.fin ∧ s = b + 1 ∨ (a.start ≤ s ∧ s < a.fin)) :
    u16 (sub64 a.fin s) = a.fin - s ∧ Ov Q ⟨s, a.fin - s, a.state⟩ := by
  obtain ⟨a1, a2, a3, a4⟩ := h
  obtain ⟨b, h1⟩ := hx
  have e12 : a.fin = a.start + a.count ∧ a.start + a.count < W64 ∧ a.start ≤ s ∧ s ≤ a.fin := by
    rcases h1 with ⟨h1, h2, h3⟩ | ⟨h1, h2⟩
    · obtain ⟨e1, e2⟩ := fin_of a1 a2 h1 h2
      exact ⟨e1, e2, by omega, by omega⟩
    · obtain ⟨e1, e2⟩ := fin_of a1 a2 h1 h2
      exact ⟨e1, e2, h1, by omega⟩
  obtain ⟨e1, e2, e3, e4⟩ := e12
  refine ⟨by rw [sub64_of e4 (by omega)]; unfold u16; omega, h0, by simp only; omega, a3, fun b hb1 hb2 => ?_⟩
  obtain ⟨e5, _⟩ := fin_of (e := ⟨s, a.fin - s, a.state⟩) h0 (by simp only; omega) hb1 hb2
  rw [e5] at hb2
  simp only at hb1 hb2
  exact a4 b (by omega) (by omega)

theorem splitEntryT_ov (h : Al (Ov Q) f) (j s : Nat) (h64 : s < W64) :
    Safe (Al (Ov Q)) (splitEntryT f j s) (fun r => Al (Ov Q) r.1) := by
  unfold splitEntryT
  refine Safe.bind (Q := fun e => f.slots[j]? = some e) (Safe.quiet (fun _ => deref_inv)) (fun a _ ha => ?_)
  refine Safe.chk (fun h1 => Safe.chk (fun h2 => ?_))
  have oa := h _ _ ha
  obtain ⟨e2, n1⟩ := ov_left oa h1 h2
  obtain ⟨e1, n2⟩ := ov_right oa h64 ⟨0, .inr ⟨h1, h2⟩⟩
  simp only
  rw [e1, e2]
  refine Safe.bind (Q := Al (Ov Q)) (Safe.point (fun g hg => ?_)) (fun f1 _ h1 => ?_)
  · obtain ⟨_, y⟩ := store_inv hg
    have : Al (Ov Q) g := h.set (by rw [y]) n1
    exact ⟨this, this⟩
  · refine Safe.bind (insertBeforeT_al ov_zero h1 (j + 1) n2) (fun r _ h2 => ?_)
    refine Safe.bind (Q := fun _ => True) (Safe.quiet (fun _ _ => trivial)) (fun x _ _ => ?_)
    refine Safe.bind (Q := fun _ => True) (Safe.quiet (fun _ _ => trivial)) (fun y _ _ => ?_)
    exact Safe.chk (fun _ => Safe.chk (fun _ => Safe.chk (fun _ => Safe.pure h2)))

variable {E : Nat → Prop}

/-- `Q` includes what an entry torn at the end of a piece of a mark may cover. -/
def Closed (E : Nat → Prop) (Q : Nat → Nat → Prop) : Prop := ∀ p t b, E p → 0 < p → Q (p - 1) t → p ≤ b → Q b t

theorem trimEndT_ov (hQ : Closed E Q) (h : Al (Ov Q) f) {eo fin : Nat} {ec : Bool} (hE : E fin) (h0 : 0 < fin) (h64 : fin < W64)
    (hec : ec = true → ∀ x : Entry, f.slots[eo]? = some x → x.start ≤ fin - 1 ∧ fin - 1 < x.fin) :
    Safe (Al (Ov Q)) (trimEndT f ec eo fin) (fun g => Al (Ov Q) g) := by
  unfold trimEndT
  cases ec with
  | false => exact Safe.pure h
  | true =>
    simp only [if_true]
    refine Safe.bind (Q := fun e => f.slots[eo]? = some e) (Safe.quiet (fun _ => deref_inv)) (fun x _ hx => ?_)
    obtain ⟨h6, h7⟩ := hec rfl x hx
    have ox := h _ _ hx
    obtain ⟨e1, n1⟩ := ov_right ox h64 ⟨fin - 1, .inl ⟨h6, h7, by omega⟩⟩
    rw [e1]
    have nt : Ov Q { x with start := fin } :=
      ⟨h64, ox.count, ox.state, fun b hb1 _ => hQ fin x.state b hE h0 (ox.covers _ h6 h7) hb1⟩
    refine Safe.bind (Q := fun g => g = { f with slots := f.slots.set eo { x with start := fin } })
      (Safe.point (fun g hg => ?_)) (fun f1 _ hf1 => ?_)
    · obtain ⟨_, y⟩ := store_inv hg
      refine ⟨?_, y⟩
      have : Al (Ov Q) { f with slots := f.slots.set eo { x with start := fin } } := h.set rfl nt
      rw [y]; exact this
    · subst hf1
      refine Safe.bind (Q := Al (Ov Q)) (Safe.point (fun g hg => ?_)) (fun f2 _ h2 => ?_)
      · obtain ⟨_, y⟩ := store_inv hg
        simp only [List.set_set] at y
        have : Al (Ov Q) g := h.set (by rw [y]) n1
        exact ⟨this, this⟩
      · refine Safe.bind (Q := fun _ => True) (Safe.quiet (fun _ _ => trivial)) (fun _ _ _ => ?_)
        refine Safe.chk (fun _ => ?_)
        exact (subCntT_al h2 _ _ _).mono (fun g hg => hg) (fun g _ hg => hg.1)

theorem finishMarkT_ov (h : Al (Ov Q) f) (so eo : Nat) {x : Entry} {st : State} (hx : st ≠ .absent → Ov Q x) :
    Safe (Al (Ov Q)) (finishMarkT f so eo x st) (Al (Ov Q)) := by
  unfold finishMarkT
  simp only
  refine Safe.bind (deleteRangeT_al h _ _) (fun r _ h1 => ?_)
  by_cases hst : st = .absent
  · rw [if_pos hst]; exact Safe.pure h1
  rw [if_neg hst]
  refine Safe.bind (insertBeforeT_al ov_zero h1 _ (hx hst)) (fun r2 _ h2 => ?_)
  refine Safe.bind (addCntT_al h2 _ _ _) (fun f3 _ h3 => ?_)
  exact mergeAroundT_ov h3.1 _

theorem contains_inv {e : Entry} {b : Nat} (h : e.contains b = true) : e.start ≤ b ∧ b < e.fin := by
  unfold Entry.contains at h
  simpa using h

theorem markInternalT_ov (hQ : Closed E Q) {s c : Nat} {st : State} (hc0 : 0 < c) (hc : c ≤ 65535) (he : s + c < W64)
    (h : Al (Ov Q) f) (hE : E (s + c)) (hnew : st ≠ .absent → ∀ b, s ≤ b → b < s + c → Q b st.code) :
    Safe (Al (Ov Q)) (markInternalT f s c st) (Al (Ov Q)) := by
  have hfin : u64 (s + c) = s + c := by unfold u64; omega
  have hx : st ≠ .absent → Ov Q ⟨s, c, st.code⟩ := by
    intro hst
    refine ⟨by simp only; omega, hc, ?_, fun b h1 h2 => hnew hst b h1 ?_⟩
    · cases st <;> simp [State.code] at hst ⊢
    · unfold Entry.fin at h2; rw [hfin] at h2; exact h2
  unfold markInternalT
  refine Safe.bind (Q := fun _ => True) (Safe.quiet (fun _ _ => trivial)) (fun o _ _ => ?_)
  simp only [hfin]
  refine Safe.bind (Q := fun r => Al (Ov Q) r.1 ∧ (r.2.1 ≠ r.1.n → r.2.1 ≠ r.2.2)) ?_ (fun r _ hrr => ?_)
  · unfold caseSplitT
    by_cases hsp : o.1 ≠ f.n ∧ o.1 = o.2
    · rw [if_pos hsp]
      refine Safe.bind (splitEntryT_ov h o.1 s (by omega)) (fun r _ h1 => ?_)
      exact Safe.pure ⟨h1, fun _ => by simp only; omega⟩
    · rw [if_neg hsp]
      exact Safe.pure ⟨h, fun h1 h2 => hsp ⟨h1, h2⟩⟩
  obtain ⟨fa, sa, ea⟩ := r
  obtain ⟨g1, g2⟩ := hrr
  simp only at g1 g2 ⊢
  refine Safe.bind (Q := fun b => b = true → sa ≠ fa.n ∧ ∃ x : Entry, fa.slots[sa]? = some x ∧ x.contains s = true)
    (Safe.quiet (fun b h => containsAt_inv h)) (fun sc _ hsc => ?_)
  refine Safe.bind (Q := fun b => b = true → ea ≠ fa.n ∧ ∃ x : Entry, fa.slots[ea]? = some x ∧ x.contains (s + c - 1) = true)
    (Safe.quiet (fun b h => by
      have := containsAt_inv h
      rw [sub64_of (by omega) (by omega)] at this
      exact this)) (fun ec _ hec => ?_)
  have hrest : ∀ fb : File, Al (Ov Q) fb → fb.slots[ea]? = fa.slots[ea]? →
      Safe (Al (Ov Q)) (trimEndT fb ec ea (s + c) >>= fun f => finishMarkT f sa ea ⟨s, c, st.code⟩ st) (Al (Ov Q)) := by
    intro fb hb sb
    refine Safe.bind (trimEndT_ov hQ hb hE (by omega) he (fun hh x hx => ?_)) (fun fc _ h2 => finishMarkT_ov h2 _ _ hx)
    obtain ⟨h1, y, hy, hyc⟩ := hec hh
    rw [sb, hy] at hx
    injection hx with hx
    subst hx
    exact contains_inv hyc
  by_cases hsct : sc = true
  · rw [if_pos hsct]
    obtain ⟨hs1, x0, hx0, hxc⟩ := hsc hsct
    refine Safe.bind (Q := fun e => fa.slots[sa]? = some e) (Safe.quiet (fun _ => deref_inv)) (fun x _ hxs => ?_)
    rw [hx0] at hxs
    injection hxs with hxs
    subst hxs
    have ox := g1 sa x0 hx0
    obtain ⟨c1, c2⟩ := contains_inv hxc
    by_cases hex : x0.start = s ∧ x0.count ≤ c
    · rw [if_pos hex]
      by_cases hst : st = .absent
      · rw [if_pos hst]
        exact Safe.bind (deleteRangeT_al g1 _ _) (fun r _ h1 => Safe.pure h1)
      · rw [if_neg hst]
        refine Safe.bind (subCntT_al g1 _ _ _) (fun fb _ hb => ?_)
        refine Safe.bind (Q := Al (Ov Q)) (Safe.point (fun g hg => ?_)) (fun fc _ hc => ?_)
        · obtain ⟨_, y⟩ := store_inv hg
          have : Al (Ov Q) g := hb.1.set (by rw [y]) (hx hst)
          exact ⟨this, this⟩
        · refine Safe.bind (addCntT_al hc _ _ _) (fun fd _ hd => ?_)
          exact Safe.bind (deleteRangeT_al hd.1 _ _) (fun r _ h1 => mergeAroundT_ov h1 _)
    · rw [if_neg hex]
      obtain ⟨e2, n1⟩ := ov_left ox c1 c2
      simp only [e2]
      refine Safe.bind (Q := fun g => Al (Ov Q) g ∧ g.slots[ea]? = fa.slots[ea]?)
        (Safe.point (fun g hg => ?_)) (fun fb _ ⟨hb, sb⟩ => ?_)
      · obtain ⟨_, y⟩ := store_inv hg
        have : Al (Ov Q) g := g1.set (by rw [y]) n1
        exact ⟨this, this, by rw [y]; simp only; rw [List.getElem?_set_ne (g2 hs1)]⟩
      · refine Safe.chk (fun _ => Safe.chk (fun _ => Safe.chk (fun _ => ?_)))
        refine Safe.bind (subCntT_al hb _ _ _) (fun fc _ ⟨hc, _, sc'⟩ => ?_)
        exact hrest fc hc (by rw [sc', sb])
  · rw [if_neg hsct]
    exact hrest fa g1 rfl

theorem markLoopT_ov (hQ : Closed E Q) (st : State) (fuel : Nat) : ∀ {f : File} {s c k d : Nat},
    s + c < W64 → k * 65535 + d = c → Al (Ov Q) f →
    (∀ p, PieceEnd s c p → E p) → (st ≠ .absent → ∀ b, s ≤ b → b < s + c → Q b st.code) →
    Safe (Al (Ov Q)) (markLoopT st fuel f (s + k * 65535) d) (Al (Ov Q)) := by
  induction fuel with
  | zero => intro f s c k d _ _ _ _ _; exact Safe.quiet (fun a ha => by cases ha)
  | succ n ih =>
    intro f s c k d hsc hd h hE hnew
    unfold markLoopT
    by_cases h1 : d > limit
    · rw [if_pos h1]
      simp only [limit] at h1
      refine Safe.bind (markInternalT_ov (E := E) (Q := Q) (st := st) hQ (s := s + k * 65535) (c := 65535) (by omega) (by omega) (by omega) h
        (hE _ ⟨k, by omega, by rw [Nat.add_mul, Nat.min_eq_left (by omega)]; omega⟩) (fun hst b h1 h2 => hnew hst b (by omega) (by omega)))
        (fun f2 _ h2 => ?_)
      have hu : u64 (s + k * 65535 + limit) = s + (k + 1) * 65535 := by
        unfold u64; simp only [limit]; omega
      rw [hu]
      exact ih hsc (chunk_step h1 hd) h2 hE hnew
    · rw [if_neg h1]
      simp only [limit] at h1
      by_cases h2 : d > 0
      · rw [if_pos h2]
        exact markInternalT_ov (st := st) hQ (s := s + k * 65535) (c := d) (by omega) (by omega) (by omega) h
          (hE _ ⟨k, by omega, by rw [Nat.add_mul, Nat.min_eq_right (by omega)]; omega⟩)
          (fun hst b h1 h2 => hnew hst b (by omega) (by omega))
      · rw [if_neg h2]
        exact Safe.pure h

/-- Every slot at every point of `mark`, whatever the file looks like. -/
theorem markT_ov (hQ : Closed E Q) {s c : Nat} {st : State} (hsc : s + c < W64) (h : Al (Ov Q) f)
    (hE : ∀ p, PieceEnd s c p → E p) (hnew : st ≠ .absent → ∀ b, s ≤ b → b < s + c → Q b st.code) :
    Safe (Al (Ov Q)) (markT f s c st) (Al (Ov Q)) := by
  have hm : Al (Ov Q) (ensureMapped f) := h.same (ensureMapped_slots f)
  unfold markT
  refine Safe.bind (Q := fun g => g = ensureMapped f) (Safe.point (fun g hg => ?_)) (fun f1 _ h1 => ?_)
  · injection hg with hg
    subst hg
    exact ⟨hm, rfl⟩
  · subst h1
    have := markLoopT_ov (E := E) (Q := Q) hQ st (c / limit + 1) (s := s) (c := c) (k := 0) (d := c) hsc (by omega) hm hE hnew
    rw [Nat.zero_mul, Nat.add_zero] at this
    exact this

theorem reopen_al {P : Entry → Prop} (h : Al P f) : Al P (reopen f) := by
  refine h.same ?_
  unfold reopen
  rw [ensureMapped_slots]
  unfold ensureUnmapped
  by_cases hm : f.mapped = true
  · rw [if_pos hm]
  · rw [if_neg hm]

/-- What the calls so far may have left: the state given to the block by a mark, or, behind a point at
which a mark ended, the state given to the block before this point. -/
def Left (cs : List Call) (b t : Nat) : Prop :=
  Given cs b t ∨ ∃ p, EndOf cs p ∧ 0 < p ∧ p ≤ b ∧ Given cs (p - 1) t

theorem left_closed (cs : List Call) : Closed (EndOf cs) (Left cs) := by
  intro p t b hE h0 h hb
  rcases h with h | ⟨q, h1, h2, h3, h4⟩
  · exact .inr ⟨p, hE, h0, hb, h⟩
  · exact .inr ⟨q, h1, h2, by omega, h4⟩

theorem Left.append {cs ds : List Call} {b t : Nat} (h : Left cs b t) : Left (cs ++ ds) b t := by
  have gv : ∀ {b t}, Given cs b t → Given (cs ++ ds) b t := fun ⟨s, c, st, hm, h⟩ => ⟨s, c, st, List.mem_append_left _ hm, h⟩
  rcases h with h | ⟨p, ⟨s, c, st, hm, hp⟩, h2, h3, h4⟩
  · exact .inl (gv h)
  · exact .inr ⟨p, ⟨s, c, st, List.mem_append_left _ hm, hp⟩, h2, h3, gv h4⟩

/-- Every slot, at all times and in all versions. -/
theorem Life.al {P : Prop} {cs : List Call} {V : File → Prop} {f : File} (h : Life P cs V f) :
    Al (Ov (Left cs)) f ∧ ∀ v, V v → Al (Ov (Left cs)) v := by
  have mono : ∀ {cs ds : List Call} {f : File}, Al (Ov (Left cs)) f → Al (Ov (Left (cs ++ ds))) f :=
    fun h => h.mono (fun _ he => he.mono (fun _ _ => Left.append))
  have mark : ∀ {cs : List Call} {f : File} {s n : Nat} {st : State}, s + n < W64 → Al (Ov (Left cs)) f →
      Safe (Al (Ov (Left (cs ++ [.mark s n st])))) (markT f s n st) (Al (Ov (Left (cs ++ [.mark s n st])))) := by
    intro cs f s n st h1 h
    exact markT_ov (left_closed _) h1 (mono h) (fun p hp => ⟨s, n, st, by simp, hp⟩)
      (fun hst b h1 h2 => .inl ⟨s, n, st, by simp, h1, h2, hst, rfl⟩)
  induction h with
  | start =>
    have : Al (Ov (Left [])) fresh := by
      intro k x hx
      rw [(List.mem_replicate.1 (List.mem_of_getElem? hx)).2]; exact ov_zero
    exact ⟨this, fun v hv => by rw [hv]; exact this⟩
  | @call cs V f g c _ hr hs ih =>
    obtain ⟨i1, i2⟩ := ih
    have hg : Al (Ov (Left (cs ++ [c]))) g := by
      cases c with
      | mark s n st => exact (mark (hr s n st (by simp)) i1).res g (by rw [markT_res]; exact hs)
      | shrink => exact shrink_al (mono i1) hs
      | fsck =>
        unfold step at hs
        cases hf : fsck f with
        | ok a => rw [hf] at hs; injection hs with hs; subst hs; exact fsck_al (mono i1) hf
        | error e =>
          rw [hf] at hs
          cases e with
          | thrown l => injection hs with hs; subst hs; exact (mono i1).same (ensureMapped_slots f)
          | _ => cases hs
      | reopen => injection hs with hs; subst hs; exact reopen_al (mono i1)
    refine ⟨hg, fun v hv => ?_⟩
    simp only at hv
    by_cases hc : c = .reopen
    · rw [if_pos hc] at hv; rw [hv]; exact hg
    · rw [if_neg hc] at hv
      rcases hv with hv | ⟨s, n, st, rfl, hv⟩ | hv
      · exact mono (i2 v hv)
      · exact (mark (hr s n st (by simp)) i1).crash v hv
      · rw [hv]; exact hg
  | @die cs V f g s n st _ h1 hc ih =>
    obtain ⟨i1, i2⟩ := ih
    refine ⟨reopen_al ((mark h1 i1).crash g hc), fun v hv => ?_⟩
    rcases hv with hv | hv
    · exact mono (i2 v hv)
    · exact (mark h1 i1).crash v hv
  | @power cs V f g _ _ _ _ _ hslot ih =>
    have : Al (Ov (Left cs)) g := by
      intro k x hx
      obtain ⟨v, hv, rfl⟩ := hslot k x hx
      rw [List.getD_eq_getElem?_getD]
      cases hk : v.slots[k]? with
      | none => exact ov_zero
      | some y => exact ih.2 v hv k y hk
    exact ⟨reopen_al this, fun v hv => by rw [hv]; exact reopen_al this⟩

/-- What `state()` can report if every slot is sound. -/
theorem scan_ov (h : Al (Ov Q) g) (b : Nat) (k : Nat) : ∀ i v, stateScan g b i k = .ok v →
    v = .absent ∨ ∃ t, t < 4 ∧ v = dec t ∧ Q b t := by
  induction k with
  | zero => intro i v hv; injection hv with hv; exact .inl hv.symm
  | succ k ih =>
    intro i v hv
    unfold stateScan at hv
    cases hd : deref g i 551 with
    | error e => rw [hd] at hv; cases hv
    | ok e =>
      rw [hd] at hv
      simp only [bind_ok] at hv
      by_cases hc : e.start ≤ b ∧ e.fin > b
      · rw [if_pos hc] at hv
        have a := h i e (deref_inv hd)
        rw [ofCode_dec a.state] at hv
        injection hv with hv
        exact .inr ⟨_, a.state, hv.symm, a.covers b hc.1 hc.2⟩
      · rw [if_neg hc] at hv
        exact ih (i + 1) v hv

end Dragonstash.Blocklist
