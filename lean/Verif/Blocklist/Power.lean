import Verif.Blocklist.Crash
/-
  A power failure.  The block list is written through a shared mapping (blocklist.cpp 163-166) and
  nothing but the destructor (96-101) asks for it to reach the disk: until then the operating system
  writes back the parts of the file in any order and at any time.  After a power failure every part
  of the file is as it was at some point since it was last written back, and different parts need not
  be from the same point.

  Parts are taken as small as possible: the number of entries (117), every counter (118) and every
  16-byte entry of its own.  Devices write sectors of 512 bytes or more, pages of 4096 bytes are
  written back together: what is left then is also described by this model.
-/
namespace Dragonstash.Blocklist

/-- The contents of the file during the calls `cs` on `f`: between the calls and between the stores
of a `mark` (blocklist.cpp 387-545); `shrink` (678-711) and `fsck` (629-676) change it by one
`ftruncate`. -/
def Was (f : File) : List Call → File → Prop
  | [], g => g = f
  | c :: cs, g => g = f ∨ (∃ s n st, c = .mark s n st ∧ (markT f s n st).crash g) ∨ ∃ f', step f c = .ok f' ∧ Was f' cs g

/-- The file after a power failure during the calls `cs` on `f`, where `f` has been written back
(blocklist.cpp 98-100).  A part behind the end of the file, as it was at the point the part is from,
reads as zeros if the file is longer. -/
structure PowerLoss (f : File) (cs : List Call) (g : File) : Prop where
  n : ∃ v, Was f cs v ∧ g.n = v.n
  cnt : ∀ t, ∃ v, Was f cs v ∧ g.cnt t = v.cnt t
  length : ∃ v, Was f cs v ∧ g.slots.length = v.slots.length
  slot : ∀ (i : Nat) (e : Entry), g.slots[i]? = some e → ∃ v, Was f cs v ∧ e = v.slots.getD i zeroEntry

/-! ### All slots, also those behind the last entry -/

/-- Every slot of the file satisfies `P`. -/
def Al (P : Entry → Prop) (f : File) : Prop := ∀ (i : Nat) (e : Entry), f.slots[i]? = some e → P e

variable {P P' : Entry → Prop} {f g : File}

theorem Al.mono (h : Al P f) (hp : ∀ e, P e → P' e) : Al P' f := fun i e he => hp e (h i e he)

theorem Al.same (h : Al P f) (hs : g.slots = f.slots) : Al P g := fun i e he => h i e (by rw [← hs]; exact he)

theorem Al.set (h : Al P f) {k : Nat} {x : Entry} (hs : g.slots = f.slots.set k x) (hx : P x) : Al P g := by
  intro i e he
  rw [hs] at he
  by_cases hk : k = i
  · subst hk
    by_cases hl : k < f.slots.length
    · rw [List.getElem?_set_self hl] at he
      injection he with he
      rw [← he]; exact hx
    · rw [List.getElem?_eq_none (by rw [List.length_set]; omega)] at he
      cases he
  · rw [List.getElem?_set_ne hk] at he
    exact h i e he

theorem addCntT_al (h : Al P f) (s d l : Nat) : Safe (Al P) (addCntT f s d l) (fun g => Al P g ∧ g.n = f.n ∧ g.slots = f.slots) :=
  Safe.point (fun _ hg => by
    obtain ⟨_, _, n, s⟩ := addCnt_inv hg
    exact ⟨h.same s, h.same s, n, s⟩)

theorem subCntT_al (h : Al P f) (s d l : Nat) : Safe (Al P) (subCntT f s d l) (fun g => Al P g ∧ g.n = f.n ∧ g.slots = f.slots) :=
  Safe.point (fun _ hg => by
    obtain ⟨_, _, n, s⟩ := subCnt_inv hg
    exact ⟨h.same s, h.same s, n, s⟩)

theorem uncountT_al (k : Nat) : ∀ {f : File} (_ : Al P f) (i : Nat), Safe (Al P) (uncountT f i k) (Al P) := by
  induction k with
  | zero => intro f h i; exact Safe.pure h
  | succ k ih =>
    intro f h i
    refine Safe.bind (Q := fun _ => True) (Safe.quiet (fun _ _ => trivial)) (fun e _ _ => ?_)
    exact Safe.bind (subCntT_al h _ _ _) (fun f1 _ h1 => ih h1.1 (i + 1))

theorem memmoveT_al (h : Al P f) (d s k l : Nat) : Safe (Al P) (memmoveT f d s k l) (Al P) := by
  have key : ∀ f2, memmove f d s k l = .ok f2 → Al P f2 := by
    intro f2 hm i e he
    obtain ⟨_, _, _, _, _, m⟩ := memmove_inv hm
    rw [m] at he
    by_cases hi : d ≤ i ∧ i < d + k
    · rw [if_pos hi] at he; exact h _ _ he
    · rw [if_neg hi] at he; exact h _ _ he
  refine ⟨fun g hg => ?_, fun a ha => key a ha⟩
  obtain ⟨f2, hm, hg⟩ := hg
  intro i e he
  rcases hg.slot i with h' | h'
  · rw [h'] at he; exact h i e he
  · rw [h'] at he; exact key f2 hm i e he

theorem deleteRangeT_al (h : Al P f) (b e : Nat) : Safe (Al P) (deleteRangeT f b e) (fun r => Al P r.1) := by
  unfold deleteRangeT
  refine Safe.chk (fun _ => Safe.chk (fun _ => Safe.chk (fun _ => ?_)))
  refine Safe.bind (uncountT_al _ h _) (fun f1 _ h1 => ?_)
  refine Safe.bind (memmoveT_al h1 _ _ _ _) (fun f2 _ h2 => ?_)
  refine Safe.bind (Q := Al P) (Safe.point (fun g hg => ?_)) (fun f3 _ h3 => Safe.pure h3)
  injection hg with hg
  subst hg
  exact ⟨h2, h2⟩

theorem deleteEntryT_al (h : Al P f) (i : Nat) : Safe (Al P) (deleteEntryT f i) (fun r => Al P r.1) := by
  have h' : Al P (ensureMapped f) := h.same (ensureMapped_slots f)
  unfold deleteEntryT
  simp only
  by_cases hi : i = (ensureMapped f).n
  · rw [if_pos hi]; exact Safe.pure h'
  · rw [if_neg hi]; exact deleteRangeT_al h' _ _

variable {Q : Nat → Nat → Prop}

theorem tryMergeT_al (h : Al (Over Q) f) (i : Nat) : Safe (Al (Over Q)) (tryMergeT f i) (fun r => Al (Over Q) r.1) := by
  unfold tryMergeT
  by_cases h0 : i = 0
  · rw [if_pos h0]; exact Safe.pure h
  rw [if_neg h0]
  refine Safe.bind (Q := fun e => f.slots[i - 1]? = some e) (Safe.quiet (fun _ => deref_inv)) (fun prev _ hp => ?_)
  refine Safe.bind (Q := fun e => f.slots[i]? = some e) (Safe.quiet (fun _ => deref_inv)) (fun it _ hit => ?_)
  obtain ⟨op, cp⟩ := h _ _ hp
  obtain ⟨oi, ci⟩ := h _ _ hit
  by_cases h1 : prev.fin ≠ it.start
  · rw [if_pos h1]; exact Safe.pure h
  rw [if_neg h1]
  by_cases h2 : prev.state ≠ it.state
  · rw [if_pos h2]; exact Safe.pure h
  rw [if_neg h2]
  simp only
  by_cases h3 : prev.count + it.count > limit
  · rw [if_pos h3]; exact Safe.pure h
  rw [if_neg h3]
  simp only [ne_eq, Decidable.not_not] at h1 h2
  rw [op.fin_eq] at h1
  simp only [limit] at h3
  have hu : u16 (prev.count + it.count) = prev.count + it.count := by unfold u16; omega
  rw [hu]
  have hnew : Over Q { prev with count := prev.count + it.count } := by
    refine ⟨⟨?_, by simp only; omega, op.state⟩, ?_⟩
    · have := oi.range; simp only; omega
    · intro b hb
      unfold Entry.covers at hb
      simp only at hb ⊢
      by_cases hb2 : b < prev.start + prev.count
      · exact cp b ⟨hb.1, hb2⟩
      · rw [h2]; exact ci b ⟨by omega, by omega⟩
  refine Safe.bind (Q := Al (Over Q)) (Safe.point (fun g hg => ?_)) (fun f1 _ j1 => ?_)
  · obtain ⟨_, b⟩ := store_inv hg
    subst b
    have : Al (Over Q) { f with slots := f.slots.set (i - 1) { prev with count := prev.count + it.count } } := h.set rfl hnew
    exact ⟨this, this⟩
  · refine Safe.bind (addCntT_al j1 _ _ _) (fun f2 _ j2 => ?_)
    refine Safe.bind (deleteEntryT_al j2.1 _) (fun r _ j3 => ?_)
    exact Safe.pure j3

theorem mergeAroundT_al (h : Al (Over Q) f) (i : Nat) : Safe (Al (Over Q)) (mergeAroundT f i) (Al (Over Q)) := by
  unfold mergeAroundT
  refine Safe.bind (Q := fun r => Al (Over Q) r.1) ?_ (fun r _ h1 => ?_)
  · unfold mergeNextT
    by_cases hn : i + 1 ≠ f.n
    · rw [if_pos hn]
      exact Safe.bind (tryMergeT_al h (i + 1)) (fun r _ hr => Safe.pure hr)
    · rw [if_neg hn]; exact Safe.pure h
  · exact Safe.bind (tryMergeT_al h1 _) (fun r2 _ h2 => Safe.pure h2)

theorem over_zero : Over Q zeroEntry := by
  refine ⟨⟨by decide, by decide, by decide⟩, fun b hb => ?_⟩
  unfold Entry.covers zeroEntry at hb
  simp only at hb
  omega

theorem requireSpace_slots (h : requireSpace f = .ok g) : g.slots = f.slots ∨ g.slots = f.slots ++ List.replicate 256 zeroEntry := by
  unfold requireSpace at h
  have fin : ∀ x : File, (do chk 208 (decide (capacity x > nentries x)); pure x : M File) = .ok g → g = x := by
    intro x hx
    cases hk : chk 208 (decide (capacity x > nentries x)) with
    | error e => rw [hk] at hx; cases hx
    | ok u => rw [hk] at hx; injection hx with hx; exact hx.symm
  have := fin _ h
  subst this
  by_cases he : capacity f = nentries f
  · rw [if_pos he, ensureMapped_slots]
    right
    unfold grow ensureUnmapped
    by_cases hm : f.mapped = true
    · rw [if_pos hm]; rfl
    · rw [if_neg hm]; rfl
  · rw [if_neg he, ensureMapped_slots]
    exact .inl rfl

theorem insertBeforeT_al (hz : P zeroEntry) (h : Al P f) (d : Nat) {x : Entry} (hx : P x) :
    Safe (Al P) (insertBeforeT f d x) (fun r => Al P r.1) := by
  unfold insertBeforeT
  refine Safe.bind (Q := Al P) (Safe.point (fun g hg => ?_)) (fun f1 _ h1 => ?_)
  · have : Al P g := by
      rcases requireSpace_slots hg with hs | hs
      · exact h.same hs
      · intro i e he
        rw [hs] at he
        have hm := List.mem_of_getElem? he
        rcases List.mem_append.1 hm with hm | hm
        · obtain ⟨k, hk, hke⟩ := List.getElem_of_mem hm
          exact h k e (by rw [List.getElem?_eq_getElem hk, hke])
        · rw [(List.mem_replicate.1 hm).2]; exact hz
    exact ⟨this, this⟩
  refine Safe.bind (Q := Al P) ?_ (fun f2 _ h2 => ?_)
  · by_cases ht : f.n - d ≠ 0
    · rw [if_pos ht]; exact memmoveT_al h1 _ _ _ _
    · rw [if_neg ht]; exact Safe.pure h1
  refine Safe.bind (Q := Al P) (Safe.point (fun g hg => ?_)) (fun f3 _ h3 => ?_)
  · obtain ⟨_, b⟩ := store_inv hg
    have : Al P g := h2.set (by rw [b]) hx
    exact ⟨this, this⟩
  refine Safe.bind (Q := Al P) (Safe.point (fun g hg => ?_)) (fun f4 _ h4 => Safe.pure h4)
  injection hg with hg
  subst hg
  exact ⟨h3, h3⟩

theorem splitEntryT_al (h : Al (Over Q) f) (j s : Nat) : Safe (Al (Over Q)) (splitEntryT f j s) (fun r => Al (Over Q) r.1) := by
  unfold splitEntryT
  refine Safe.bind (Q := fun e => f.slots[j]? = some e) (Safe.quiet (fun _ => deref_inv)) (fun a _ ha => ?_)
  refine Safe.chk (fun h1 => Safe.chk (fun h2 => ?_))
  obtain ⟨oa, ca⟩ := h _ _ ha
  have hfin := oa.fin_eq
  have hr := oa.range
  have hcount := oa.count
  rw [hfin] at h2
  simp only [hfin]
  have e1 : u16 (sub64 (a.start + a.count) s) = a.start + a.count - s := by
    rw [sub64_of (by omega) (by omega)]; unfold u16; omega
  have e2 : u16 (sub64 s a.start) = s - a.start := by
    rw [sub64_of (by omega) (by omega)]; unfold u16; omega
  rw [e1, e2]
  have n1 : Over Q { a with count := s - a.start } := by
    refine ⟨⟨by simp only; omega, by simp only; omega, oa.state⟩, fun b hb => ?_⟩
    unfold Entry.covers at hb
    simp only at hb
    exact ca b ⟨by omega, by omega⟩
  have n2 : Over Q ⟨s, a.start + a.count - s, a.state⟩ := by
    refine ⟨⟨by simp only; omega, by simp only; omega, oa.state⟩, fun b hb => ?_⟩
    unfold Entry.covers at hb
    simp only at hb
    exact ca b ⟨by omega, by omega⟩
  refine Safe.bind (Q := Al (Over Q)) (Safe.point (fun g hg => ?_)) (fun f1 _ h1 => ?_)
  · obtain ⟨_, y⟩ := store_inv hg
    have : Al (Over Q) g := h.set (by rw [y]) n1
    exact ⟨this, this⟩
  · refine Safe.bind (insertBeforeT_al over_zero h1 (j + 1) n2) (fun r _ h2 => ?_)
    refine Safe.bind (Q := fun _ => True) (Safe.quiet (fun _ _ => trivial)) (fun x _ _ => ?_)
    refine Safe.bind (Q := fun _ => True) (Safe.quiet (fun _ _ => trivial)) (fun y _ _ => ?_)
    exact Safe.chk (fun _ => Safe.chk (fun _ => Safe.chk (fun _ => Safe.pure h2)))

/-- An entry between the stores of 486 and 487: it starts where a piece of a mark ends (`E`), and
has the state of the blocks around that point. -/
def Torn (E : Nat → Prop) (Q : Nat → Nat → Prop) (e : Entry) : Prop :=
  E e.start ∧ 0 < e.start ∧ e.state < 4 ∧ Q (e.start - 1) e.state ∧ Q e.start e.state

/-- What a slot of the file may hold. -/
def Poss (E : Nat → Prop) (Q : Nat → Nat → Prop) (e : Entry) : Prop := Over Q e ∨ Torn E Q e

variable {E : Nat → Prop}

theorem Al.poss (h : Al (Over Q) f) : Al (Poss E Q) f := h.mono (fun _ => .inl)

theorem trimEndT_al (h : Al (Over Q) f) {eo fin : Nat} {ec : Bool} (hE : E fin) (h0 : 0 < fin) (h64 : fin < W64)
    (hec : ec = true → ∀ x : Entry, f.slots[eo]? = some x → x.start < fin ∧ fin < x.start + x.count) :
    Safe (Al (Poss E Q)) (trimEndT f ec eo fin) (fun g => Al (Over Q) g) := by
  unfold trimEndT
  cases ec with
  | false => exact Safe.pure h
  | true =>
    simp only [if_true]
    refine Safe.bind (Q := fun e => f.slots[eo]? = some e) (Safe.quiet (fun _ => deref_inv)) (fun x _ hx => ?_)
    obtain ⟨h6, h7⟩ := hec rfl x hx
    obtain ⟨ox, cx⟩ := h _ _ hx
    have hfin := ox.fin_eq
    have hr := ox.range
    have hcount := ox.count
    rw [hfin]
    have e1 : u16 (sub64 (x.start + x.count) fin) = x.start + x.count - fin := by
      rw [sub64_of (by omega) (by omega)]; unfold u16; omega
    rw [e1]
    have n1 : Over Q ⟨fin, x.start + x.count - fin, x.state⟩ := by
      refine ⟨⟨by simp only; omega, by simp only; omega, ox.state⟩, fun b hb => ?_⟩
      unfold Entry.covers at hb
      simp only at hb
      exact cx b ⟨by omega, by omega⟩
    refine Safe.bind (Q := fun g => g = { f with slots := f.slots.set eo { x with start := fin } })
      (Safe.point (fun g hg => ?_)) (fun f1 _ hf1 => ?_)
    · obtain ⟨_, y⟩ := store_inv hg
      refine ⟨?_, y⟩
      have ht : Torn E Q { x with start := fin } :=
        ⟨hE, h0, ox.state, cx _ ⟨by simp only; omega, by simp only; omega⟩, cx _ ⟨by simp only; omega, by simp only; omega⟩⟩
      have : Al (Poss E Q) { f with slots := f.slots.set eo { x with start := fin } } := h.poss.set rfl (.inr ht)
      rw [y]; exact this
    · subst hf1
      refine Safe.bind (Q := Al (Over Q)) (Safe.point (fun g hg => ?_)) (fun f2 _ h2 => ?_)
      · obtain ⟨_, y⟩ := store_inv hg
        simp only [List.set_set] at y
        have : Al (Over Q) g := h.set (by rw [y]) n1
        exact ⟨this.poss, this⟩
      · refine Safe.bind (Q := fun _ => True) (Safe.quiet (fun _ _ => trivial)) (fun _ _ _ => ?_)
        refine Safe.chk (fun _ => ?_)
        exact (subCntT_al h2 _ _ _).mono (fun g hg => hg.poss) (fun g _ hg => hg.1)

theorem finishMarkT_al (h : Al (Over Q) f) (so eo : Nat) {x : Entry} {st : State} (hx : st ≠ .absent → Over Q x) :
    Safe (Al (Over Q)) (finishMarkT f so eo x st) (Al (Over Q)) := by
  unfold finishMarkT
  simp only
  refine Safe.bind (deleteRangeT_al h _ _) (fun r _ h1 => ?_)
  by_cases hst : st = .absent
  · rw [if_pos hst]; exact Safe.pure h1
  rw [if_neg hst]
  refine Safe.bind (insertBeforeT_al over_zero h1 _ (hx hst)) (fun r2 _ h2 => ?_)
  refine Safe.bind (addCntT_al h2 _ _ _) (fun f3 _ h3 => ?_)
  exact mergeAroundT_al h3.1 _

theorem Safe.and {α : Type} {C C' : File → Prop} {x : T α} {R R' : α → Prop} (h : Safe C x R) (h' : Safe C' x R') :
    Safe C x (fun a => R a ∧ R' a) := ⟨h.crash, fun a ha => ⟨h.res a ha, h'.res a ha⟩⟩

theorem Safe.poss {α : Type} {x : T α} {R : α → Prop} (h : Safe (Al (Over Q)) x R) : Safe (Al (Poss E Q)) x R :=
  h.mono (fun _ hg => hg.poss) (fun _ _ h => h)

theorem containsAt_inv {i b l : Nat} {r : Bool} (h : containsAt f i b l = .ok r) (hr : r = true) :
    i ≠ f.n ∧ ∃ x : Entry, f.slots[i]? = some x ∧ x.contains b = true := by
  unfold containsAt at h
  by_cases hi : i ≠ f.n
  · rw [if_pos hi] at h
    cases hd : deref f i l with
    | error e => rw [hd] at h; cases h
    | ok x =>
      rw [hd] at h
      injection h with h
      exact ⟨hi, x, deref_inv hd, h.trans hr⟩
  · rw [if_neg hi] at h
    injection h with h
    rw [← h] at hr; cases hr

/-- Every slot at every point of `mark_internal` (blocklist.cpp 387-531). -/
theorem markInternalT_al {L S : List Entry} {G : Nat → Int} {s c : Nat} {st : State} (hr : Rep f L S G) (hw : W0 L)
    (hc0 : 0 < c) (hc : c ≤ 65535) (he : s + c < W64) (h : Al (Over Q) f) (hE : E (s + c))
    (hnew : st ≠ .absent → ∀ b, s ≤ b → b < s + c → Q b st.code) :
    Safe (Al (Poss E Q)) (markInternalT f s c st) (Al (Over Q)) := by
  have hfin : u64 (s + c) = s + c := by unfold u64; omega
  have hn := hr.n
  have hx : st ≠ .absent → Over Q ⟨s, c, st.code⟩ := by
    intro hst
    refine ⟨⟨he, hc, ?_⟩, fun b hb => hnew hst b hb.1 hb.2⟩
    cases st <;> simp [State.code] at hst ⊢
  unfold markInternalT
  refine Safe.bind (Q := fun o => findOverlapping f s c = .ok o) (Safe.quiet (fun _ h => h)) (fun o _ ho => ?_)
  obtain ⟨so, eo⟩ := o
  obtain ⟨f1, f2, f3, f4, _⟩ := overlap_facts (R := fun _ _ _ => False) hr hw he ho (fun _ _ _ h => h.elim)
  simp only [hfin]
  have hms : f.msize = 512 + 16 * f.slots.length := by rw [hr.msize, hr.slots]; simp
  have hj0 : so ≠ f.n → J (Over Q) (fun _ _ _ => False) (so + 1) f := fun hne =>
    ⟨hr.mapped, hms, by rw [hr.slots, hn]; simp, by omega, fun i e _ hie => h i e hie, fun _ _ _ h => h.elim⟩
  refine Safe.bind (Q := fun r => Al (Over Q) r.1 ∧ r.2.1 ≤ r.1.n ∧ r.2.2 ≤ r.1.n ∧ (r.2.1 ≠ r.1.n → r.2.1 < r.2.2) ∧
      (r.2.2 ≠ r.1.n → ∀ x : Entry, r.1.slots[r.2.2]? = some x → s + c < x.start + x.count)) ?_ (fun r _ hrr => ?_)
  · unfold caseSplitT
    by_cases hsp : so ≠ f.n ∧ so = eo
    · rw [if_pos hsp]
      refine Safe.bind ((splitEntryT_al h so s).poss.and (splitEntryT_safe (s := s) (hj0 hsp.1) (fun _ _ _ h => h.elim) (by omega)))
        (fun r _ ⟨h1, j1, r1, n1, a, ha, hb⟩ => ?_)
      refine Safe.pure ⟨h1, by simp only; omega, by simp only; omega, fun _ => by simp only; omega, fun _ x hx => ?_⟩
      simp only at hx
      rw [r1, hb] at hx
      injection hx with hx
      subst hx
      have hae := f4 (by omega) a (by rw [← hsp.2]; exact ha)
      simp only; omega
    · rw [if_neg hsp]
      refine Safe.pure ⟨h, f1, f2, fun h => ?_, f4⟩
      have := f3 h
      simp only at h ⊢
      rcases Nat.lt_or_ge so eo with h' | h'
      · exact h'
      · exact absurd ⟨h, by omega⟩ hsp
  obtain ⟨fa, sa, ea⟩ := r
  obtain ⟨g1, g2, g3, g4, g5⟩ := hrr
  simp only at g1 g2 g3 g4 g5 ⊢
  refine Safe.bind (Q := fun b => b = true → sa ≠ fa.n ∧ ∃ x : Entry, fa.slots[sa]? = some x ∧ x.contains s = true)
    (Safe.quiet (fun b h => containsAt_inv h)) (fun sc _ hsc => ?_)
  refine Safe.bind (Q := fun b => b = true → ea ≠ fa.n ∧ ∃ x : Entry, fa.slots[ea]? = some x ∧ x.contains (s + c - 1) = true)
    (Safe.quiet (fun b h => by
      have := containsAt_inv h
      rw [sub64_of (by omega) (by omega)] at this
      exact this)) (fun ec _ hec => ?_)
  have hrest : ∀ fb : File, Al (Over Q) fb → (∀ i : Nat, i ≠ sa → fb.slots[i]? = fa.slots[i]?) →
      Safe (Al (Poss E Q)) (trimEndT fb ec ea (s + c) >>= fun f => finishMarkT f sa ea ⟨s, c, st.code⟩ st) (Al (Over Q)) := by
    intro fb hb sb
    refine Safe.bind (trimEndT_al hb hE (by omega) he (fun hh x hx => ?_)) (fun fc _ h2 => (finishMarkT_al h2 _ _ hx).poss)
    obtain ⟨h1, y, hy, hyc⟩ := hec hh
    have hne : ea ≠ sa := by
      intro hh
      by_cases hs : sa = fa.n
      · omega
      · have := g4 hs; omega
    rw [sb ea hne, hy] at hx
    injection hx with hx
    subst hx
    have hoy := (g1 ea y hy).1
    rw [hoy.contains_iff] at hyc
    exact ⟨by omega, g5 h1 y hy⟩
  by_cases hsct : sc = true
  · rw [if_pos hsct]
    obtain ⟨hs1, x0, hx0, hxc⟩ := hsc hsct
    refine Safe.bind (Q := fun e => fa.slots[sa]? = some e) (Safe.quiet (fun _ => deref_inv)) (fun x _ hxs => ?_)
    rw [hx0] at hxs
    injection hxs with hxs
    subst hxs
    obtain ⟨ox, cx⟩ := g1 sa x0 hx0
    rw [ox.contains_iff] at hxc
    have hro := ox.range
    have hco := ox.count
    by_cases hex : x0.start = s ∧ x0.count ≤ c
    · rw [if_pos hex]
      by_cases hst : st = .absent
      · rw [if_pos hst]
        exact Safe.bind (deleteRangeT_al g1 _ _).poss (fun r _ h1 => Safe.pure h1)
      · rw [if_neg hst]
        refine Safe.poss ?_
        refine Safe.bind (subCntT_al g1 _ _ _) (fun fb _ hb => ?_)
        refine Safe.bind (Q := Al (Over Q)) (Safe.point (fun g hg => ?_)) (fun fc _ hc => ?_)
        · obtain ⟨_, y⟩ := store_inv hg
          have : Al (Over Q) g := hb.1.set (by rw [y]) (hx hst)
          exact ⟨this, this⟩
        · refine Safe.bind (addCntT_al hc _ _ _) (fun fd _ hd => ?_)
          exact Safe.bind (deleteRangeT_al hd.1 _ _) (fun r _ h1 => mergeAroundT_al h1 _)
    · rw [if_neg hex]
      have e2 : u16 (sub64 s x0.start) = s - x0.start := by
        rw [sub64_of (by omega) (by omega)]; unfold u16; omega
      simp only [e2]
      have n1 : Over Q { x0 with count := s - x0.start } := by
        refine ⟨⟨by simp only; omega, by simp only; omega, ox.state⟩, fun b hb => ?_⟩
        unfold Entry.covers at hb
        simp only at hb
        exact cx b ⟨by omega, by omega⟩
      refine Safe.bind (Q := fun g => Al (Over Q) g ∧ ∀ i : Nat, i ≠ sa → g.slots[i]? = fa.slots[i]?)
        (Safe.point (fun g hg => ?_)) (fun fb _ ⟨hb, sb⟩ => ?_)
      · obtain ⟨_, y⟩ := store_inv hg
        have : Al (Over Q) g := g1.set (by rw [y]) n1
        exact ⟨this.poss, this, fun i hi => by rw [y]; simp only; rw [List.getElem?_set_ne (Ne.symm hi)]⟩
      · refine Safe.chk (fun _ => Safe.chk (fun _ => Safe.chk (fun _ => ?_)))
        refine Safe.bind (subCntT_al hb _ _ _).poss (fun fc _ ⟨hc, _, sc'⟩ => ?_)
        exact hrest fc hc (fun i hi => by rw [sc', sb i hi])
  · rw [if_neg hsct]
    exact hrest fa g1 (fun _ _ => rfl)

/-- Every slot at every point of the loop of `mark` (blocklist.cpp 537-544). -/
theorem markLoopT_al (st : State) (fuel : Nat) : ∀ {f : File} {L S : List Entry} {G : Nat → Int} {s c k d : Nat},
    d / 65535 < fuel → Rep f L S G → W0 L → s + c < W64 → k * 65535 + d = c → Al (Over Q) f →
    (∀ p, PieceEnd s c p → E p) → (st ≠ .absent → ∀ b, s ≤ b → b < s + c → Q b st.code) →
    Safe (Al (Poss E Q)) (markLoopT st fuel f (s + k * 65535) d) (Al (Over Q)) := by
  induction fuel with
  | zero => intro f L S G s c k d h; omega
  | succ n ih =>
    intro f L S G s c k d hf hr hw hsc hd h hE hnew
    unfold markLoopT
    by_cases h1 : d > limit
    · rw [if_pos h1]
      simp only [limit] at h1
      have hs := markInternalT_al (E := E) (Q := Q) (st := st) hr hw (s := s + k * 65535) (c := 65535) (by omega) (by omega) (by omega) h
        (hE _ ⟨k, by omega, by rw [Nat.add_mul, Nat.min_eq_left (by omega)]; omega⟩) (fun hst b h1 h2 => hnew hst b (by omega) (by omega))
      obtain ⟨f', S', e1, r1⟩ := markInternal_rep (st := st) hr hw (s := s + k * 65535) (c := 65535) (by omega) (by omega) (by omega)
      have hw' := markL_w0 (st := st) hw (s := s + k * 65535) (c := 65535) (by omega) (by omega)
      refine Safe.bind hs (fun f2 hf2 h2 => ?_)
      rw [markInternalT_res] at hf2
      have : f2 = f' := by rw [e1] at hf2; injection hf2 with hf2; exact hf2.symm
      subst this
      have hu : u64 (s + k * 65535 + limit) = s + (k + 1) * 65535 := by
        unfold u64; simp only [limit]; omega
      rw [hu]
      exact ih (by simp only [limit]; omega) r1 hw' hsc (chunk_step h1 hd) h2 hE hnew
    · rw [if_neg h1]
      simp only [limit] at h1
      by_cases h2 : d > 0
      · rw [if_pos h2]
        exact markInternalT_al (st := st) hr hw (s := s + k * 65535) (c := d) (by omega) (by omega) (by omega) h
          (hE _ ⟨k, by omega, by rw [Nat.add_mul, Nat.min_eq_right (by omega)]; omega⟩)
          (fun hst b h1 h2 => hnew hst b (by omega) (by omega))
      · rw [if_neg h2]
        exact Safe.pure h

/-- Every slot at every point of `mark`. -/
theorem markT_al {L : List Entry} {s c : Nat} {st : State} (hi : Inv f L) (hsc : s + c < W64) (h : Al (Over Q) f)
    (hE : ∀ p, PieceEnd s c p → E p) (hnew : st ≠ .absent → ∀ b, s ≤ b → b < s + c → Q b st.code) :
    Safe (Al (Poss E Q)) (markT f s c st) (Al (Over Q)) := by
  obtain ⟨S, hr⟩ := hi.rep
  have hm : Al (Over Q) (ensureMapped f) := h.same (ensureMapped_slots f)
  unfold markT
  refine Safe.bind (Q := fun g => g = ensureMapped f) (Safe.point (fun g hg => ?_)) (fun f1 _ h1 => ?_)
  · injection hg with hg
    subst hg
    exact ⟨hm.poss, rfl⟩
  · subst h1
    have := markLoopT_al (E := E) (Q := Q) st (c / limit + 1) (s := s) (c := c) (k := 0) (d := c) (by simp only [limit]; omega) hr hi.w0 hsc
      (by omega) hm hE hnew
    rw [Nat.zero_mul, Nat.add_zero] at this
    exact this

theorem shrink_al (h : Al P f) (hg : shrink f = .ok g) : Al P g := by
  unfold shrink at hg
  simp only at hg
  by_cases h1 : f.msize / growSize ≤ 1
  · rw [if_pos h1] at hg; injection hg with hg; rw [← hg]; exact h
  rw [if_neg h1] at hg
  by_cases h2 : (superblockSize + f.n * entrySize + growSize - 1) / growSize = f.msize / growSize
  · rw [if_pos h2] at hg; injection hg with hg; rw [← hg]; exact h
  rw [if_neg h2] at hg
  generalize (superblockSize + f.n * entrySize + growSize - 1) / growSize * growSize = z at hg
  cases c1 : chk 702 (decide (z < f.msize)) with
  | error e => rw [c1] at hg; cases hg
  | ok u =>
    rw [c1] at hg
    simp only [bind_ok] at hg
    cases c2 : chk 704 (decide ((z - superblockSize) / entrySize ≥ f.n)) with
    | error e => rw [c2] at hg; cases hg
    | ok u =>
      rw [c2] at hg
      simp only [bind_ok, pure_eq_ok] at hg
      injection hg with hg
      subst hg
      have hs : (ensureUnmapped f).slots = f.slots := by
        unfold ensureUnmapped
        by_cases hm : f.mapped = true
        · rw [if_pos hm]
        · rw [if_neg hm]
      intro i e he
      simp only [hs, List.getElem?_take] at he
      by_cases hi : i < (z - superblockSize) / entrySize
      · rw [if_pos hi] at he; exact h i e he
      · rw [if_neg hi] at he; cases he

theorem fsck_al (h : Al P f) (hg : fsck f = .ok g) : Al P g := by
  have hm : Al P (ensureMapped f) := h.same (ensureMapped_slots f)
  unfold fsck at hg
  simp only at hg
  generalize ensureMapped f = f1 at hm hg
  cases hl : fsckLoop f1 f1.n 0 0 0 (fun _ => 0) with
  | error e => rw [hl] at hg; cases hg
  | ok acc =>
    rw [hl] at hg
    simp only [bind_ok] at hg
    by_cases hc : acc 0 = f1.cnt 0 ∧ acc 1 = f1.cnt 1 ∧ acc 2 = f1.cnt 2 ∧ acc 3 = f1.cnt 3
    · rw [if_pos hc] at hg; exact shrink_al hm hg
    · rw [if_neg hc] at hg; cases hg

/-- The state given to a block by a mark of the history. -/
def Given (cs : List Call) (b t : Nat) : Prop :=
  ∃ s c st, Call.mark s c st ∈ cs ∧ s ≤ b ∧ b < s + c ∧ st ≠ .absent ∧ t = st.code

/-- The point is the end of a piece of a mark of the history. -/
def EndOf (cs : List Call) (p : Nat) : Prop := ∃ s c st, Call.mark s c st ∈ cs ∧ PieceEnd s c p

/-- Every slot after a call. -/
theorem step_al {c : Call} {L : List Entry} (hi : Inv f L) (h : Al (Over Q) f)
    (hc : ∀ s n st, c = .mark s n st → s + n < W64 ∧ (∀ p, PieceEnd s n p → E p) ∧
      (st ≠ .absent → ∀ b, s ≤ b → b < s + n → Q b st.code)) (hs : step f c = .ok g) : Al (Over Q) g := by
  cases c with
  | mark s n st =>
    obtain ⟨h1, h2, h3⟩ := hc s n st rfl
    exact (markT_al (E := E) hi h1 h h2 h3).res g (by rw [markT_res]; exact hs)
  | shrink => exact shrink_al h hs
  | fsck =>
    unfold step at hs
    cases hf : fsck f with
    | ok a => rw [hf] at hs; injection hs with hs; subst hs; exact fsck_al h hf
    | error e =>
      rw [hf] at hs
      cases e with
      | thrown l => injection hs with hs; subst hs; exact h.same (ensureMapped_slots f)
      | _ => cases hs
  | reopen =>
    injection hs with hs
    subst hs
    refine h.same ?_
    unfold reopen
    rw [ensureMapped_slots]
    unfold ensureUnmapped
    by_cases hm : f.mapped = true
    · rw [if_pos hm]
    · rw [if_neg hm]

/-- Every slot at every point of a history. -/
theorem was_al (cs : List Call) : ∀ {f : File} {L : List Entry}, Inv f L → Al (Over Q) f →
    (∀ s n st, Call.mark s n st ∈ cs → s + n < W64 ∧ (∀ p, PieceEnd s n p → E p) ∧
      (st ≠ .absent → ∀ b, s ≤ b → b < s + n → Q b st.code)) → ∀ {g}, Was f cs g → Al (Poss E Q) g := by
  induction cs with
  | nil => intro f L _ h _ g hg; rw [show g = f from hg]; exact h.poss
  | cons c cs ih =>
    intro f L hi h hc g hg
    have hc0 : ∀ s n st, c = .mark s n st → s + n < W64 ∧ (∀ p, PieceEnd s n p → E p) ∧
      (st ≠ .absent → ∀ b, s ≤ b → b < s + n → Q b st.code) := fun s n st e => hc s n st (by simp [e])
    rcases hg with rfl | ⟨s, n, st, rfl, hg⟩ | ⟨f1, hf1, hg⟩
    · exact h.poss
    · obtain ⟨h1, h2, h3⟩ := hc0 s n st rfl
      exact (markT_al (E := E) hi h1 h h2 h3).crash g hg
    · obtain ⟨f2, e2, i2⟩ := hi.step c (fun s n st e => (hc0 s n st e).1)
      have : f1 = f2 := by rw [hf1] at e2; injection e2
      subst this
      exact ih i2 (step_al (E := E) hi h hc0 hf1) (fun s n st hm => hc s n st (by simp [hm])) hg

theorem calls_al (cs : List Call) : ∀ {f : File} {L : List Entry}, Inv f L → Al (Over Q) f →
    (∀ s n st, Call.mark s n st ∈ cs → s + n < W64 ∧
      (st ≠ .absent → ∀ b, s ≤ b → b < s + n → Q b st.code)) → ∀ {g}, calls f cs = .ok g → Al (Over Q) g := by
  induction cs with
  | nil => intro f L _ h _ g hg; injection hg with hg; rw [← hg]; exact h
  | cons c cs ih =>
    intro f L hi h hc g hg
    have hc0 : ∀ s n st, c = .mark s n st → s + n < W64 ∧ (∀ p, PieceEnd s n p → True) ∧
      (st ≠ .absent → ∀ b, s ≤ b → b < s + n → Q b st.code) := fun s n st e =>
        ⟨(hc s n st (by simp [e])).1, fun _ _ => trivial, (hc s n st (by simp [e])).2⟩
    obtain ⟨f2, e2, i2⟩ := hi.step c (fun s n st e => (hc0 s n st e).1)
    rw [calls, e2, bind_ok] at hg
    exact ih i2 (step_al (E := fun _ => True) hi h hc0 e2) (fun s n st hm => hc s n st (by simp [hm])) hg

/-- What `state()` can report if every slot is sound. -/
theorem scan_poss (hm : g.mapped = true) (h : Al (Poss E Q) g) (b : Nat) (k : Nat) : ∀ i v, stateScan g b i k = .ok v →
    v = .absent ∨ ∃ t, t < 4 ∧ v = dec t ∧ (Q b t ∨ ∃ p, E p ∧ 0 < p ∧ p ≤ b ∧ Q (p - 1) t ∧ Q p t) := by
  induction k with
  | zero => intro i v hv; injection hv with hv; exact .inl hv.symm
  | succ k ih =>
    intro i v hv
    unfold stateScan at hv
    cases hd : deref g i 551 with
    | error e => rw [hd] at hv; cases hv
    | ok e =>
      rw [hd] at hv
      simp only [bind_ok] at hv
      by_cases hc : e.start ≤ b ∧ e.fin > b
      · rw [if_pos hc] at hv
        right
        rcases h i e (deref_inv hd) with ⟨a, b'⟩ | ⟨a1, a2, a3, a4, a5⟩
        · rw [ofCode_dec a.state] at hv
          injection hv with hv
          exact ⟨_, a.state, hv.symm, .inl (b' b ⟨hc.1, by rw [← a.fin_eq]; exact hc.2⟩)⟩
        · rw [ofCode_dec a3] at hv
          injection hv with hv
          exact ⟨_, a3, hv.symm, .inr ⟨_, a1, a2, hc.1, a4, a5⟩⟩
      · rw [if_neg hc] at hv
        exact ih (i + 1) v hv

/-! ### Blocks before everything marked since -/

/-- Slot `i` says that block `b` has state `t`, and no slot before it says anything else. -/
structure Says (i b t : Nat) (v : File) : Prop where
  lt : i < v.n
  le : v.n ≤ v.slots.length
  here : ∃ e : Entry, v.slots[i]? = some e ∧ e.start ≤ b ∧ b < e.fin ∧ e.state = t
  before : ∀ (m : Nat) (e : Entry), m ≤ i → v.slots[m]? = some e → e.start ≤ b → b < e.fin → e.state = t

theorem Inv.says {L : List Entry} {b t : Nat} (hi : Inv f L) (ht : t < 4) (ha : At L b (dec t))
    (hu : ∀ u, Cov L b u → u = t) : Says (lo b L).length b t f := by
  obtain ⟨S, hr⟩ := hi.rep
  obtain ⟨h1, e, h2, h3, h4⟩ := rep_kept hr hi.w0 ht ha rfl
  have hn : (ensureMapped f).n = f.n := ensureMapped_n f
  have hs := ensureMapped_slots f
  rw [hn] at h1
  rw [hs] at h2
  have hL := hr.slots
  rw [hs] at hL
  have hlen := hr.n
  rw [hn] at hlen
  have mem : ∀ (m : Nat) (x : Entry), m < f.n → f.slots[m]? = some x → x ∈ L := by
    intro m x hm hx
    rw [hL, List.getElem?_append_left (by omega)] at hx
    exact List.mem_of_getElem? hx
  refine ⟨h1, by rw [hL, List.length_append, hlen]; omega, ⟨e, h2, h3.1, ?_, h4⟩, ?_⟩
  · rw [(hi.w0.ok e (mem _ e h1 h2)).fin_eq]; exact h3.2
  · intro m x hm hx h5 h6
    have hxm := mem m x (by omega) hx
    rw [(hi.w0.ok x hxm).fin_eq] at h6
    exact hu _ ⟨x, hxm, ⟨h5, h6⟩, rfl⟩

theorem CL.says {R : Nat → Nat → Nat → Prop} {st : State} {s c i b t : Nat} (h : CL Q R st s c g) (hR : R i b t) (hs : b < s)
    (hu : ∀ u, Q b u → u = t) : Says i b t g := by
  have hplus : ∀ u, Plus Q st s c b u → u = t := by
    intro u hu'
    rcases hu' with hu' | hu'
    · exact hu u hu'
    · omega
  have over : ∀ e : Entry, Over (Plus Q st s c) e → e.start ≤ b → b < e.fin → e.state = t := by
    intro e he h1 h2
    rw [he.1.fin_eq] at h2
    exact hplus _ (he.2 b ⟨h1, h2⟩)
  rcases h with ⟨j, h⟩ | ⟨j, t', p, ⟨k, hk, hp⟩, h1, h2, h⟩
  · obtain ⟨k1, e, k2, k3, k4⟩ := h.kept i b t hR
    have hjn := h.jn
    refine ⟨by omega, h.le, ⟨e, k2, k3.1, ?_, k4⟩, ?_⟩
    · rw [(h.all i e (by omega) k2).1.fin_eq]; exact k3.2
    · intro m x hm hx
      exact over x (h.all m x (by omega) hx)
  · obtain ⟨k1, e, k2, k3, k4⟩ := h.kept i b t hR
    have hjn := h.jn
    have hsp : s < p := by omega
    refine ⟨by omega, h.le, ⟨e, k2, k3.1, ?_, k4⟩, ?_⟩
    · rcases h.all i e (by omega) k2 with h' | ⟨h3, _, _⟩
      · rw [h'.1.fin_eq]; exact k3.2
      · have := k3.1; omega
    · intro m x hm hx h5 h6
      rcases h.all m x (by omega) hx with h' | ⟨h3, _, _⟩
      · exact over x h' h5 h6
      · omega

/-- The pieces of a mark behind the block. -/
theorem chunks_says (st : State) (fuel : Nat) : ∀ {L : List Entry} {s c b t : Nat}, W0 L → t < 4 → At L b (dec t) →
    (∀ u, Cov L b u → u = t) → s + c < W64 → b < s →
    At (chunkL st fuel L s c) b (dec t) ∧ (∀ u, Cov (chunkL st fuel L s c) b u → u = t) ∧
    (lo b (chunkL st fuel L s c)).length = (lo b L).length := by
  induction fuel with
  | zero => intro L s c b t _ _ ha hu _ _; exact ⟨ha, hu, rfl⟩
  | succ k ih =>
    intro L s c b t hw ht ha hu hsc hb
    have one : ∀ c', At (markL L s c' st) b (dec t) ∧ (∀ u, Cov (markL L s c' st) b u → u = t) ∧
        (lo b (markL L s c' st)).length = (lo b L).length := by
      intro c'
      refine ⟨At.outside hw ha (by omega), fun u hu' => ?_, lo_outside hw ht ha.2 hb⟩
      rcases markL_cov_sub hw hu' with h | h
      · exact hu u h
      · omega
    unfold chunkL
    by_cases h1 : c > 65535
    · rw [if_pos h1]
      obtain ⟨a1, a2, a3⟩ := one 65535
      obtain ⟨b1, b2, b3⟩ := ih (s := s + 65535) (c := c - 65535) (markL_w0 hw (by omega) (by omega)) ht a1 a2 (by omega) (by omega)
      exact ⟨b1, b2, b3.trans a3⟩
    · rw [if_neg h1]
      by_cases h2 : c > 0
      · rw [if_pos h2]; exact one c
      · rw [if_neg h2]; exact ⟨ha, hu, rfl⟩

/-- A block before everything that is marked is in the same slot all the time. -/
theorem was_says (cs : List Call) : ∀ {f : File} {L : List Entry} {b t : Nat}, Inv f L → t < 4 → At L b (dec t) →
    (∀ u, Cov L b u → u = t) → (∀ s n st, Call.mark s n st ∈ cs → s + n < W64 ∧ b < s) →
    ∀ {v}, Was f cs v → Says (lo b L).length b t v := by
  induction cs with
  | nil => intro f L b t hi ht ha hu _ v hv; rw [show v = f from hv]; exact hi.says ht ha hu
  | cons c cs ih =>
    intro f L b t hi ht ha hu hc v hv
    rcases hv with rfl | ⟨s, n, st, rfl, hv⟩ | ⟨f1, hf1, hv⟩
    · exact hi.says ht ha hu
    · obtain ⟨h1, h2⟩ := hc s n st (by simp)
      exact (markT_crash (R := fun i b' t' => b' = b ∧ t' = t ∧ i = (lo b L).length) hi h1
        (fun i b' t' ⟨e1, e2, e3⟩ => by subst e1; subst e2; exact ⟨h2, ht, ha, e3⟩) hv).says ⟨rfl, rfl, rfl⟩ h2 hu
    · obtain ⟨f2, e2, i2⟩ := hi.step c (fun s n st e => (hc s n st (by simp [e])).1)
      have : f1 = f2 := by rw [hf1] at e2; injection e2
      subst this
      have hrest : ∀ s n st, Call.mark s n st ∈ cs → s + n < W64 ∧ b < s := fun s n st hm => hc s n st (by simp [hm])
      cases c with
      | mark s n st =>
        obtain ⟨h1, h2⟩ := hc s n st (by simp)
        have key : At (callL L (.mark s n st)) b (dec t) ∧ (∀ u, Cov (callL L (.mark s n st)) b u → u = t) ∧
            (lo b (callL L (.mark s n st))).length = (lo b L).length :=
          chunks_says st (n / 65535 + 1) hi.w0 ht ha hu h1 h2
        rw [← key.2.2]
        exact ih i2 ht key.1 key.2.1 hrest hv
      | shrink => exact ih i2 ht ha hu hrest hv
      | fsck => exact ih i2 ht ha hu hrest hv
      | reopen => exact ih i2 ht ha hu hrest hv

end Dragonstash.Blocklist
