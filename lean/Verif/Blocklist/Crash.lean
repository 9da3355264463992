import Verif.Blocklist.CrashModel
import Verif.Blocklist.Point
/-
  What a process which dies inside `mark` leaves behind.
-/
namespace Dragonstash.Blocklist

/-- Every crash point of `x` satisfies `C`, every result satisfies `Q`. -/
structure Safe {α : Type} (C : File → Prop) (x : T α) (Q : α → Prop) : Prop where
  crash : ∀ g, x.crash g → C g
  res : ∀ a, x.res = .ok a → Q a

theorem Safe.bind {α β : Type} {C : File → Prop} {x : T α} {k : α → T β} {Q : α → Prop} {R : β → Prop}
    (h : Safe C x Q) (hk : ∀ a, x.res = .ok a → Q a → Safe C (k a) R) : Safe C (x >>= k) R := by
  constructor
  · rintro g (hg | ⟨a, ha, hg⟩)
    · exact h.crash g hg
    · exact (hk a ha (h.res a ha)).crash g hg
  · intro b hb
    change (x.res >>= fun a => (k a).res) = .ok b at hb
    cases hx : x.res with
    | error e => rw [hx] at hb; cases hb
    | ok a => rw [hx] at hb; exact (hk a hx (h.res a hx)).res b hb

theorem Safe.pure {α : Type} {C : File → Prop} {a : α} {Q : α → Prop} (h : Q a) : Safe C (Pure.pure a : T α) Q :=
  ⟨fun _ hg => hg.elim, fun b hb => by cases hb; exact h⟩

theorem Safe.quiet {α : Type} {C : File → Prop} {m : M α} {Q : α → Prop} (h : ∀ a, m = .ok a → Q a) :
    Safe C (T.quiet m) Q := ⟨fun _ hg => hg.elim, h⟩

theorem Safe.point {C : File → Prop} {m : M File} {Q : File → Prop} (h : ∀ g, m = .ok g → C g ∧ Q g) :
    Safe C (T.point m) Q := ⟨fun g hg => (h g hg).1, fun g hg => (h g hg).2⟩

theorem Safe.mono {α : Type} {C C' : File → Prop} {x : T α} {Q Q' : α → Prop} (h : Safe C x Q)
    (hc : ∀ g, C g → C' g) (hq : ∀ a, x.res = .ok a → Q a → Q' a) : Safe C' x Q' :=
  ⟨fun g hg => hc g (h.crash g hg), fun a ha => hq a ha (h.res a ha)⟩

theorem Safe.chk {β : Type} {C : File → Prop} {l : Nat} {p : Prop} [Decidable p] {k : Unit → T β} {R : β → Prop}
    (hk : p → Safe C (k ()) R) : Safe C (T.quiet (Dragonstash.chk l (decide p)) >>= k) R := by
  refine Safe.bind (Q := fun _ => p) (Safe.quiet ?_) (fun _ _ h => hk h)
  intro a ha
  by_cases hp : p
  · exact hp
  · rw [decide_eq_false hp] at ha; cases ha

/-- Invariant of a file being marked: the live entries satisfy `P`, and the first `j` of them cover
what `R` asks for: `R i b t` asks for the entry in slot `i` to cover block `b` with state `t`. -/
structure J (P : Entry → Prop) (R : Nat → Nat → Nat → Prop) (j : Nat) (f : File) : Prop where
  mapped : f.mapped = true
  ms : f.msize = 512 + 16 * f.slots.length
  le : f.n ≤ f.slots.length
  jn : j ≤ f.n
  all : ∀ (i : Nat) (e : Entry), i < f.n → f.slots[i]? = some e → P e
  kept : ∀ i b t, R i b t → i < j ∧ ∃ e : Entry, f.slots[i]? = some e ∧ e.covers b ∧ e.state = t

variable {P : Entry → Prop} {R : Nat → Nat → Nat → Prop} {j : Nat} {f g : File}

/-- Changing slots from `j` on to entries satisfying `P`. -/
theorem J.slots (h : J P R j f) (hm : g.mapped = f.mapped) (hz : g.msize = f.msize) (hn : g.n = f.n) (hl : g.slots.length = f.slots.length)
    (hs : ∀ i : Nat, g.slots[i]? = f.slots[i]? ∨ (j ≤ i ∧ ∀ e : Entry, i < f.n → g.slots[i]? = some e → P e)) :
    J P R j g := by
  refine ⟨by rw [hm]; exact h.mapped, by rw [hz, hl]; exact h.ms, by rw [hn, hl]; exact h.le, by rw [hn]; exact h.jn, ?_, ?_⟩
  · intro i e hi he
    rw [hn] at hi
    rcases hs i with h' | ⟨_, h'⟩
    · rw [h'] at he; exact h.all i e hi he
    · exact h' e hi he
  · intro i b t hr
    obtain ⟨h1, e, h2, h3⟩ := h.kept i b t hr
    refine ⟨h1, e, ?_, h3⟩
    rcases hs i with h' | ⟨h', _⟩
    · rw [h']; exact h2
    · omega

/-- Changing one slot to an entry which covers at least as much of what matters. -/
theorem J.grow1 (h : J P R j f) {k : Nat} {x y : Entry} (hm : g.mapped = f.mapped) (hz : g.msize = f.msize) (hn : g.n = f.n)
    (hs : g.slots = f.slots.set k y) (hx : f.slots[k]? = some x) (hy : k < f.n → P y)
    (hc : ∀ b t, R k b t → x.covers b → x.state = t → y.covers b ∧ y.state = t) : J P R j g := by
  refine ⟨by rw [hm]; exact h.mapped, by rw [hz, hs, List.length_set]; exact h.ms, by rw [hn, hs, List.length_set]; exact h.le, by rw [hn]; exact h.jn, ?_, ?_⟩
  · intro i e hi he
    rw [hn] at hi
    rw [hs] at he
    by_cases hik : k = i
    · subst hik
      rw [List.getElem?_set_self (by have := h.le; omega)] at he
      injection he with he
      rw [← he]; exact hy hi
    · rw [List.getElem?_set_ne hik] at he
      exact h.all i e hi he
  · intro i b t hr
    obtain ⟨h1, e, h2, h3, h4⟩ := h.kept i b t hr
    by_cases hik : k = i
    · subst hik
      rw [hx] at h2
      injection h2 with h2
      subst h2
      have := hc b t hr h3 h4
      refine ⟨h1, y, ?_, this⟩
      rw [hs, List.getElem?_set_self]
      have := h.le; have := h.jn; omega
    · exact ⟨h1, e, by rw [hs, List.getElem?_set_ne hik]; exact h2, h3, h4⟩

theorem J.cnt (h : J P R j f) (hm : g.mapped = f.mapped) (hz : g.msize = f.msize) (hn : g.n = f.n) (hs : g.slots = f.slots) : J P R j g :=
  h.slots hm hz hn (by rw [hs]) (fun i => .inl (by rw [hs]))

theorem J.less (h : J P R j f) {k : Nat} (hk : k ≤ j)
    (hr : ∀ i b t, R i b t → ∀ e : Entry, k ≤ i → i < j → f.slots[i]? = some e → e.covers b → e.state = t → False) :
    J P R k f := by
  refine ⟨h.mapped, h.ms, h.le, by have := h.jn; omega, h.all, ?_⟩
  intro i b t hrb
  obtain ⟨h1, e, h2, h3, h4⟩ := h.kept i b t hrb
  refine ⟨?_, e, h2, h3, h4⟩
  apply Classical.byContradiction
  intro hlt
  exact hr i b t hrb e (by omega) h1 h2 h3 h4

theorem J.mono {P' : Entry → Prop} (h : J P R j f) (hp : ∀ e, P e → P' e) : J P' R j f :=
  ⟨h.mapped, h.ms, h.le, h.jn, fun i e hi he => hp e (h.all i e hi he), h.kept⟩

theorem store_inv {i : Nat} {e : Entry} {l : Nat} (h : store f i e l = .ok g) :
    i < f.slots.length ∧ g = { f with slots := f.slots.set i e } := by
  unfold store at h
  by_cases hc : (f.mapped && decide (i < f.slots.length)) = true
  · rw [if_pos hc] at h
    simp only [Bool.and_eq_true, decide_eq_true_eq] at hc
    injection h with h
    exact ⟨hc.2, h.symm⟩
  · rw [if_neg hc] at h; cases h

theorem deref_inv {i l : Nat} {e : Entry} (h : deref f i l = .ok e) : f.slots[i]? = some e := by
  unfold deref at h
  by_cases hm : f.mapped = true
  · rw [if_pos hm] at h
    cases hs : f.slots[i]? with
    | none => rw [hs] at h; cases h
    | some x => rw [hs] at h; injection h with h; rw [h]
  · rw [if_neg hm] at h; cases h

theorem addCnt_inv {s d l : Nat} (h : addCnt f s d l = .ok g) :
    g.mapped = f.mapped ∧ g.msize = f.msize ∧ g.n = f.n ∧ g.slots = f.slots := by
  unfold addCnt at h
  by_cases hs : s < 4
  · rw [if_pos hs] at h; injection h with h; subst h; exact ⟨rfl, rfl, rfl, rfl⟩
  · rw [if_neg hs] at h; cases h

theorem subCnt_inv {s d l : Nat} (h : subCnt f s d l = .ok g) :
    g.mapped = f.mapped ∧ g.msize = f.msize ∧ g.n = f.n ∧ g.slots = f.slots := by
  unfold subCnt at h
  by_cases hs : s < 4
  · rw [if_pos hs] at h; injection h with h; subst h; exact ⟨rfl, rfl, rfl, rfl⟩
  · rw [if_neg hs] at h; cases h

theorem memmove_inv {dst src len l : Nat} (h : memmove f dst src len l = .ok g) :
    g.mapped = f.mapped ∧ g.n = f.n ∧ g.slots.length = f.slots.length ∧
    dst + len ≤ f.slots.length ∧ src + len ≤ f.slots.length ∧
    ∀ i : Nat, g.slots[i]? = if dst ≤ i ∧ i < dst + len then f.slots[src + (i - dst)]? else f.slots[i]? := by
  unfold memmove at h
  by_cases hc : (f.mapped && decide (dst + len ≤ f.slots.length) && decide (src + len ≤ f.slots.length)) = true
  · rw [if_pos hc] at h
    simp only [Bool.and_eq_true, decide_eq_true_eq] at hc
    obtain ⟨⟨_, h1⟩, h2⟩ := hc
    injection h with h
    subst h
    have l1 : (f.slots.take dst).length = dst := by rw [List.length_take]; omega
    have l2 : ((f.slots.drop src).take len).length = len := by rw [List.length_take, List.length_drop]; omega
    refine ⟨rfl, rfl, ?_, h1, h2, ?_⟩
    · simp only [List.length_append, l1, l2, List.length_drop]; omega
    · intro i
      simp only
      by_cases hi : i < dst
      · rw [if_neg (by omega), List.append_assoc, List.getElem?_append_left (by omega), List.getElem?_take, if_pos hi]
      · by_cases hi2 : i < dst + len
        · rw [if_pos ⟨by omega, hi2⟩, List.append_assoc, List.getElem?_append_right (by omega), l1,
            List.getElem?_append_left (by omega), List.getElem?_take, if_pos (by omega), List.getElem?_drop]
        · rw [if_neg (by omega), List.append_assoc, List.getElem?_append_right (by omega), l1,
            List.getElem?_append_right (by omega), l2, List.getElem?_drop]
          congr 1; omega
  · rw [if_neg hc] at h; cases h

theorem addCntT_safe (h : J P R j f) (s d l : Nat) :
    Safe (J P R j) (addCntT f s d l) (fun g => J P R j g ∧ g.n = f.n ∧ g.slots = f.slots) :=
  Safe.point (fun _ hg => by
    obtain ⟨a, z, b, c⟩ := addCnt_inv hg
    exact ⟨h.cnt a z b c, h.cnt a z b c, b, c⟩)

theorem subCntT_safe (h : J P R j f) (s d l : Nat) :
    Safe (J P R j) (subCntT f s d l) (fun g => J P R j g ∧ g.n = f.n ∧ g.slots = f.slots) :=
  Safe.point (fun _ hg => by
    obtain ⟨a, z, b, c⟩ := subCnt_inv hg
    exact ⟨h.cnt a z b c, h.cnt a z b c, b, c⟩)

theorem uncountT_safe (k : Nat) : ∀ {f : File} (_ : J P R j f) (i : Nat),
    Safe (J P R j) (uncountT f i k) (fun g => J P R j g ∧ g.n = f.n ∧ g.slots = f.slots) := by
  induction k with
  | zero => intro f h i; exact Safe.pure ⟨h, rfl, rfl⟩
  | succ k ih =>
    intro f h i
    refine Safe.bind (Q := fun _ => True) (Safe.quiet (fun _ _ => trivial)) (fun e _ _ => ?_)
    refine Safe.bind (subCntT_safe h _ _ _) (fun f1 _ ⟨h1, h2, h3⟩ => ?_)
    exact (ih h1 (i + 1)).mono (fun _ hg => hg) (fun a _ ⟨x, y, z⟩ => ⟨x, y.trans h2, z.trans h3⟩)

theorem deleteRangeT_safe (h : J P R j f) {b e : Nat} (hj : j ≤ b) :
    Safe (J P R j) (deleteRangeT f b e) (fun r => J P R j r.1 ∧ r.2 = b ∧ b ≤ e ∧ e ≤ f.n ∧ r.1.n = f.n - (e - b) ∧
      ∀ i : Nat, i < b → r.1.slots[i]? = f.slots[i]?) := by
  unfold deleteRangeT
  refine Safe.chk (fun hbe => Safe.chk (fun hen => Safe.chk (fun _ => ?_)))
  refine Safe.bind (uncountT_safe _ h _) (fun f1 _ ⟨h1, n1, s1⟩ => ?_)
  have key : ∀ f2, memmove f1 b e (f.n - e) 243 = .ok f2 → ∀ g, Mixed f1 f2 g → J P R j g := by
    intro f2 hm g hg
    obtain ⟨m1, m2, m3, m4, m5, m6⟩ := memmove_inv hm
    refine h1.slots hg.mapped hg.msize hg.n hg.length (fun i => ?_)
    rcases hg.slot i with h' | h'
    · exact .inl h'
    · rw [m6] at h'
      by_cases hi : b ≤ i ∧ i < b + (f.n - e)
      · rw [if_pos hi] at h'
        refine .inr ⟨by omega, fun x _ hx => ?_⟩
        rw [h'] at hx
        exact h1.all _ _ (by omega) hx
      · rw [if_neg hi] at h'
        exact .inl h'
  refine Safe.bind (Q := fun f2 => memmove f1 b e (f.n - e) 243 = .ok f2)
    ⟨fun g ⟨f2, hm, hg⟩ => key f2 hm g hg, fun a ha => ha⟩ (fun f2 _ hm => ?_)
  obtain ⟨m1, m2, m3, m4, m5, m6⟩ := memmove_inv hm
  have hcnt2 : f2.cnt = f1.cnt ∧ f2.msize = f1.msize := by
    unfold memmove at hm
    by_cases hc : (f1.mapped && decide (b + (f.n - e) ≤ f1.slots.length) && decide (e + (f.n - e) ≤ f1.slots.length)) = true
    · rw [if_pos hc] at hm; injection hm with hm; subst hm; exact ⟨rfl, rfl⟩
    · rw [if_neg hc] at hm; cases hm
  have h2 : J P R j f2 := key f2 hm f2 ⟨m2, hcnt2.1, m1, hcnt2.2, m3, fun i => .inr rfl⟩
  have h3 : J P R j { f2 with n := f2.n - (e - b) } := by
    refine ⟨h2.mapped, h2.ms, ?_, ?_, fun i x hi hx => h2.all i x (by simp only at hi; omega) hx, h2.kept⟩
    · have := h2.le; simp only; omega
    · have := h2.jn; simp only; rw [m2, n1]; omega
  refine Safe.bind (Q := fun f3 => f3 = { f2 with n := f2.n - (e - b) }) (Safe.point (fun g hg => ?_)) (fun f3 _ hf3 => ?_)
  · injection hg with hg; subst hg; exact ⟨h3, rfl⟩
  · subst hf3
    refine Safe.pure ⟨h3, rfl, hbe, hen, by simp only; rw [m2, n1], ?_⟩
    intro i hi
    simp only
    rw [m6, if_neg (by omega), s1]

theorem ensureMapped_of (h : f.mapped = true) : ensureMapped f = f := by unfold ensureMapped; rw [if_pos h]

theorem deleteEntryT_safe (h : J P R j f) {i : Nat} (hj : j ≤ i) (hi : i < f.n) :
    Safe (J P R j) (deleteEntryT f i) (fun r => J P R j r.1 ∧ r.2 = i ∧ r.1.n = f.n - 1 ∧
      ∀ k : Nat, k < i → r.1.slots[k]? = f.slots[k]?) := by
  unfold deleteEntryT
  rw [ensureMapped_of h.mapped]
  simp only
  rw [if_neg (by omega)]
  exact (deleteRangeT_safe h hj).mono (fun _ hg => hg) (fun r _ ⟨a, b, c, d, e, k⟩ =>
    ⟨a, b, by rw [e]; omega, k⟩)

/-- `P` speaks about the blocks an entry covers. -/
def Over (Q : Nat → Nat → Prop) (e : Entry) : Prop := EOk e ∧ ∀ b, e.covers b → Q b e.state

theorem Over.mono {Q Q' : Nat → Nat → Prop} {e : Entry} (h : Over Q e) (hq : ∀ b t, Q b t → Q' b t) : Over Q' e :=
  ⟨h.1, fun b hb => hq b _ (h.2 b hb)⟩

variable {Q : Nat → Nat → Prop}

theorem tryMergeT_safe (h : J (Over Q) R j f) {i : Nat} (hj : j ≤ i) (hi : i < f.n) :
    Safe (J (Over Q) R j) (tryMergeT f i) (fun r => J (Over Q) R j r.1 ∧
      ((r.2.1 = false ∧ r.2.2 = i ∧ r.1 = f) ∨ (r.2.1 = true ∧ r.2.2 = i - 1 ∧ 0 < i ∧ r.1.n = f.n - 1))) := by
  unfold tryMergeT
  by_cases h0 : i = 0
  · rw [if_pos h0]; exact Safe.pure ⟨h, .inl ⟨rfl, rfl, rfl⟩⟩
  rw [if_neg h0]
  refine Safe.bind (Q := fun e => f.slots[i - 1]? = some e) (Safe.quiet (fun _ => deref_inv)) (fun prev _ hp => ?_)
  refine Safe.bind (Q := fun e => f.slots[i]? = some e) (Safe.quiet (fun _ => deref_inv)) (fun it _ hit => ?_)
  obtain ⟨op, cp⟩ := h.all _ _ (by omega) hp
  obtain ⟨oi, ci⟩ := h.all _ _ hi hit
  by_cases h1 : prev.fin ≠ it.start
  · rw [if_pos h1]; exact Safe.pure ⟨h, .inl ⟨rfl, rfl, rfl⟩⟩
  rw [if_neg h1]
  by_cases h2 : prev.state ≠ it.state
  · rw [if_pos h2]; exact Safe.pure ⟨h, .inl ⟨rfl, rfl, rfl⟩⟩
  rw [if_neg h2]
  simp only
  by_cases h3 : prev.count + it.count > limit
  · rw [if_pos h3]; exact Safe.pure ⟨h, .inl ⟨rfl, rfl, rfl⟩⟩
  rw [if_neg h3]
  simp only [ne_eq, Decidable.not_not] at h1 h2
  rw [op.fin_eq] at h1
  simp only [limit] at h3
  have hu : u16 (prev.count + it.count) = prev.count + it.count := by unfold u16; omega
  rw [hu]
  have hnew : Over Q { prev with count := prev.count + it.count } := by
    refine ⟨⟨?_, by simp only; omega, op.state⟩, ?_⟩
    · have := oi.range; simp only; omega
    · intro b hb
      unfold Entry.covers at hb
      simp only at hb ⊢
      by_cases hb2 : b < prev.start + prev.count
      · exact cp b ⟨hb.1, hb2⟩
      · rw [h2]; exact ci b ⟨by omega, by omega⟩
  refine Safe.bind (Q := fun g => J (Over Q) R j g ∧ g.n = f.n) (Safe.point (fun g hg => ?_)) (fun f1 _ ⟨j1, n1⟩ => ?_)
  · obtain ⟨a, b⟩ := store_inv hg
    subst b
    have : J (Over Q) R j { f with slots := f.slots.set (i - 1) { prev with count := prev.count + it.count } } :=
      h.grow1 rfl rfl rfl rfl hp (fun _ => hnew) (fun b t _ hb ht => ⟨⟨hb.1, by have := hb.2; simp only; omega⟩, ht⟩)
    exact ⟨this, this, rfl⟩
  · refine Safe.bind (addCntT_safe j1 _ _ _) (fun f2 _ ⟨j2, n2, _⟩ => ?_)
    refine Safe.bind (deleteEntryT_safe j2 hj (by omega)) (fun r _ ⟨j3, r3, n3, _⟩ => ?_)
    exact Safe.pure ⟨j3, .inr ⟨rfl, by simp only; rw [r3], by omega, by simp only; omega⟩⟩

theorem mergeAroundT_safe (h : J (Over Q) R j f) {i : Nat} (hj : j ≤ i) (hi : i < f.n) :
    Safe (J (Over Q) R j) (mergeAroundT f i) (J (Over Q) R j) := by
  unfold mergeAroundT
  refine Safe.bind (Q := fun r => J (Over Q) R j r.1 ∧ r.2 = i ∧ i < r.1.n) ?_ (fun r _ ⟨j1, r1, n1⟩ => ?_)
  · unfold mergeNextT
    by_cases hn : i + 1 ≠ f.n
    · rw [if_pos hn]
      refine Safe.bind (tryMergeT_safe h (i := i + 1) (by omega) (by omega)) (fun r _ ⟨j1, hr⟩ => ?_)
      rcases hr with ⟨a, b, c⟩ | ⟨a, b, c, d⟩
      · refine Safe.pure ⟨j1, by simp [a], ?_⟩
        simp only; rw [c]; exact hi
      · refine Safe.pure ⟨j1, ?_, ?_⟩
        · simp only [a, if_true, b]; omega
        · simp only [d]; omega
    · rw [if_neg hn]; exact Safe.pure ⟨h, rfl, hi⟩
  · refine Safe.bind (tryMergeT_safe j1 (i := r.2) (by omega) (by omega)) (fun r2 _ ⟨j2, _⟩ => ?_)
    exact Safe.pure j2

theorem requireSpace_inv (h : requireSpace f = .ok g) (hm : f.mapped = true) (hs : f.msize = 512 + 16 * f.slots.length) :
    g.mapped = true ∧ g.n = f.n ∧ g.n < g.slots.length ∧ (∃ Z, g.slots = f.slots ++ Z) ∧
    g.msize = 512 + 16 * g.slots.length := by
  have hc : capacity f = f.slots.length := by
    unfold capacity ensureMapped
    rw [if_pos hm, hs]
    simp only [superblockSize, entrySize]; omega
  unfold requireSpace at h
  by_cases he : capacity f = nentries f
  · rw [if_pos he] at h
    have hg : ensureMapped (grow f) = { f with slots := f.slots ++ List.replicate 256 zeroEntry, msize := 512 + 16 * (f.slots ++ List.replicate 256 zeroEntry).length } := by
      unfold grow ensureUnmapped
      rw [if_pos hm, hm]
      rfl
    rw [hg] at h
    rw [hc] at he
    unfold nentries at he
    simp only [bind_ok, pure_eq_ok] at h
    cases hk : chk 208 (decide (capacity { f with slots := f.slots ++ List.replicate 256 zeroEntry, msize := 512 + 16 * (f.slots ++ List.replicate 256 zeroEntry).length } > nentries { f with slots := f.slots ++ List.replicate 256 zeroEntry, msize := 512 + 16 * (f.slots ++ List.replicate 256 zeroEntry).length })) with
    | error e => rw [hk] at h; cases h
    | ok u =>
      rw [hk] at h
      simp only [bind_ok] at h
      injection h with h
      subst h
      refine ⟨hm, rfl, ?_, ⟨_, rfl⟩, rfl⟩
      simp only [List.length_append, List.length_replicate]; omega
  · rw [if_neg he, ensureMapped_of hm] at h
    simp only at h
    cases hk : chk 208 (decide (capacity f > nentries f)) with
    | error e => rw [hk] at h; cases h
    | ok u =>
      rw [hk] at h
      simp only [bind_ok, pure_eq_ok] at h
      injection h with h
      subst h
      refine ⟨hm, rfl, ?_, ⟨[], by simp⟩, hs⟩
      have hlt : capacity f > nentries f := by
        apply Classical.byContradiction
        intro hn
        rw [decide_eq_false hn] at hk; cases hk
      rw [hc] at hlt
      exact hlt

theorem insertBeforeT_safe (h : J P R j f) {d : Nat} {x : Entry}
    (hj : j ≤ d) (hd : d ≤ f.n) (hx : P x) :
    Safe (J P R j) (insertBeforeT f d x) (fun r => J P R j r.1 ∧ r.2 = d ∧ r.1.n = f.n + 1 ∧
      r.1.slots[d]? = some x ∧ (∀ k : Nat, k < d → r.1.slots[k]? = f.slots[k]?)) := by
  unfold insertBeforeT
  refine Safe.bind (Q := fun g => J P R j g ∧ g.n = f.n ∧ g.n < g.slots.length ∧ ∃ Z, g.slots = f.slots ++ Z)
    (Safe.point (fun g hg => ?_)) (fun f1 _ ⟨j1, n1, l1, Z, z1⟩ => ?_)
  · obtain ⟨a, b, c, ⟨Z, z⟩, ms⟩ := requireSpace_inv hg h.mapped h.ms
    have hle := h.le
    have : J P R j g := by
      refine ⟨a, ms, by omega, by rw [b]; exact h.jn, ?_, ?_⟩
      · intro i e hi he
        rw [z, List.getElem?_append_left (by omega)] at he
        exact h.all i e (by omega) he
      · intro i b' t hr
        obtain ⟨h1, e, h2, h3⟩ := h.kept i b' t hr
        have hjn := h.jn
        exact ⟨h1, e, by rw [z, List.getElem?_append_left (by omega)]; exact h2, h3⟩
    exact ⟨this, this, b, c, Z, z⟩
  have hlen := h.le
  refine Safe.bind (Q := fun g => J P R j g ∧ g.n = f.n ∧ g.n < g.slots.length ∧
    (∀ k : Nat, k < d → g.slots[k]? = f.slots[k]?) ∧
    (∀ k : Nat, d < k → k ≤ f.n → ∀ e : Entry, g.slots[k]? = some e → P e)) ?_ (fun f2 _ ⟨j2, n2, l2, k2, p2⟩ => ?_)
  · by_cases ht : f.n - d ≠ 0
    · rw [if_pos ht]
      have key : ∀ f2, memmove f1 (d + 1) d (f.n - d) 295 = .ok f2 → ∀ g, Mixed f1 f2 g → J P R j g := by
        intro f2 hm g hg
        obtain ⟨m1, m2, m3, m4, m5, m6⟩ := memmove_inv hm
        refine j1.slots hg.mapped hg.msize hg.n hg.length (fun i => ?_)
        rcases hg.slot i with h' | h'
        · exact .inl h'
        · rw [m6] at h'
          by_cases hi : d + 1 ≤ i ∧ i < d + 1 + (f.n - d)
          · rw [if_pos hi] at h'
            refine .inr ⟨by omega, fun e _ he => ?_⟩
            rw [h'] at he
            exact j1.all _ _ (by omega) he
          · rw [if_neg hi] at h'
            exact .inl h'
      refine ⟨fun g ⟨f2, hm, hg⟩ => key f2 hm g hg, fun f2 hm => ?_⟩
      obtain ⟨m1, m2, m3, m4, m5, m6⟩ := memmove_inv hm
      have hcnt2 : f2.cnt = f1.cnt ∧ f2.msize = f1.msize := by
        change memmove f1 (d + 1) d (f.n - d) 295 = _ at hm
        unfold memmove at hm
        by_cases hc : (f1.mapped && decide (d + 1 + (f.n - d) ≤ f1.slots.length) && decide (d + (f.n - d) ≤ f1.slots.length)) = true
        · rw [if_pos hc] at hm; injection hm with hm; subst hm; exact ⟨rfl, rfl⟩
        · rw [if_neg hc] at hm; cases hm
      refine ⟨key f2 hm f2 ⟨m2, hcnt2.1, m1, hcnt2.2, m3, fun i => .inr rfl⟩, m2.trans n1, by rw [m2, m3]; exact l1, ?_, ?_⟩
      · intro k hk
        rw [m6, if_neg (by omega), z1, List.getElem?_append_left (by omega)]
      · intro k hk1 hk2 e he
        rw [m6, if_pos (by omega)] at he
        exact j1.all _ _ (by omega) he
    · rw [if_neg ht]
      refine Safe.pure ⟨j1, n1, l1, ?_, ?_⟩
      · intro k hk
        rw [z1, List.getElem?_append_left (by omega)]
      · intro k hk1 hk2; omega
  · have hst : J P R j { f2 with slots := f2.slots.set d x } := by
      refine j2.slots rfl rfl rfl (by simp) (fun i => ?_)
      by_cases hid : d = i
      · subst hid
        refine .inr ⟨hj, fun e _ he => ?_⟩
        simp only at he
        rw [List.getElem?_set_self (by omega)] at he
        injection he with he
        rw [← he]; exact hx
      · exact .inl (by simp only; rw [List.getElem?_set_ne hid])
    refine Safe.bind (Q := fun g => g = { f2 with slots := f2.slots.set d x }) (Safe.point (fun g hg => ?_)) (fun f3 _ hf3 => ?_)
    · obtain ⟨_, b⟩ := store_inv hg
      exact ⟨by rw [b]; exact hst, b⟩
    · subst hf3
      have hfin : J P R j { f2 with slots := f2.slots.set d x, n := f2.n + 1 } := by
        refine ⟨hst.mapped, hst.ms, by simp only [List.length_set]; omega, by have := hst.jn; simp only at this ⊢; omega, ?_, hst.kept⟩
        intro i e hi he
        simp only at hi
        by_cases hin : i < f2.n
        · exact hst.all i e hin he
        · simp only at he
          by_cases hid : d = i
          · subst hid
            rw [List.getElem?_set_self (by omega)] at he
            injection he with he
            rw [← he]; exact hx
          · rw [List.getElem?_set_ne hid] at he
            exact p2 i (by omega) (by omega) e he
      refine Safe.bind (Q := fun g => g = { f2 with slots := f2.slots.set d x, n := f2.n + 1 }) (Safe.point (fun g hg => ?_)) (fun f4 _ hf4 => ?_)
      · injection hg with hg
        exact ⟨by rw [← hg]; exact hfin, hg.symm⟩
      · subst hf4
        refine Safe.pure ⟨hfin, rfl, by simp only; omega, ?_, ?_⟩
        · simp only
          rw [List.getElem?_set_self (by omega)]
        · intro k hk
          simp only
          rw [List.getElem?_set_ne (by omega)]
          exact k2 k hk

/-- An entry torn between the two stores of 486-487: it may reach beyond its old end. -/
def Over2 (Q : Nat → Nat → Prop) (p t : Nat) (e : Entry) : Prop :=
  Over Q e ∨ (e.start = p ∧ e.state = t ∧ t < 4)

/-- What may be found after a crash inside one `mark_internal` for a range ending at `p`. -/
def CP (Q Q1 : Nat → Nat → Prop) (R : Nat → Nat → Nat → Prop) (p : Nat) (g : File) : Prop :=
  (∃ j, J (Over Q1) R j g) ∨ ∃ j t, 0 < p ∧ Q (p - 1) t ∧ Q p t ∧ J (Over2 Q p t) R j g

variable {Q1 : Nat → Nat → Prop}

theorem CP.of {p : Nat} (hQ : ∀ b t, Q b t → Q1 b t) (h : J (Over Q) R j g) : CP Q Q1 R p g :=
  .inl ⟨j, h.mono (fun _ he => he.mono hQ)⟩

theorem sub64_of {a b : Nat} (h : b ≤ a) (ha : a < W64) : sub64 a b = a - b := by unfold sub64; omega

/-- blocklist.cpp 306-325. -/
theorem splitEntryT_safe {s : Nat} (h : J (Over Q) R (j + 1) f) (hR : ∀ i b t, R i b t → b < s) (hj : j < f.n) :
    Safe (J (Over Q) R (j + 1)) (splitEntryT f j s) (fun r => J (Over Q) R (j + 1) r.1 ∧ r.2 = j ∧ r.1.n = f.n + 1 ∧
      ∃ a, f.slots[j]? = some a ∧ r.1.slots[j + 1]? = some ⟨s, a.start + a.count - s, a.state⟩) := by
  unfold splitEntryT
  refine Safe.bind (Q := fun e => f.slots[j]? = some e) (Safe.quiet (fun _ => deref_inv)) (fun a _ ha => ?_)
  refine Safe.chk (fun h1 => Safe.chk (fun h2 => ?_))
  obtain ⟨oa, ca⟩ := h.all _ _ hj ha
  have hfin := oa.fin_eq
  have hr := oa.range
  have hcount := oa.count
  rw [hfin] at h2
  simp only [hfin]
  have e1 : u16 (sub64 (a.start + a.count) s) = a.start + a.count - s := by
    rw [sub64_of (by omega) (by omega)]; unfold u16; omega
  have e2 : u16 (sub64 s a.start) = s - a.start := by
    rw [sub64_of (by omega) (by omega)]; unfold u16; omega
  rw [e1, e2]
  have n1 : Over Q { a with count := s - a.start } := by
    refine ⟨⟨by simp only; omega, by simp only; omega, oa.state⟩, fun b hb => ?_⟩
    unfold Entry.covers at hb
    simp only at hb
    exact ca b ⟨by omega, by omega⟩
  have n2 : Over Q ⟨s, a.start + a.count - s, a.state⟩ := by
    refine ⟨⟨by simp only; omega, by simp only; omega, oa.state⟩, fun b hb => ?_⟩
    unfold Entry.covers at hb
    simp only at hb
    exact ca b ⟨by omega, by omega⟩
  refine Safe.bind (Q := fun g => J (Over Q) R (j + 1) g ∧ g.n = f.n) (Safe.point (fun g hg => ?_)) (fun f1 _ ⟨j1, m1⟩ => ?_)
  · obtain ⟨x, y⟩ := store_inv hg
    subst y
    have : J (Over Q) R (j + 1) { f with slots := f.slots.set j { a with count := s - a.start } } := by
      refine h.grow1 rfl rfl rfl rfl ha (fun _ => n1) (fun b t hb hcb ht => ⟨⟨hcb.1, ?_⟩, ht⟩)
      have := hR j b t hb
      simp only; omega
    exact ⟨this, this, rfl⟩
  · refine Safe.bind (insertBeforeT_safe j1 (d := j + 1) (Nat.le_refl _) (by omega) n2) (fun r _ ⟨j2, r2, m2, s2, _⟩ => ?_)
    refine Safe.bind (Q := fun _ => True) (Safe.quiet (fun _ _ => trivial)) (fun x _ _ => ?_)
    refine Safe.bind (Q := fun _ => True) (Safe.quiet (fun _ _ => trivial)) (fun y _ _ => ?_)
    refine Safe.chk (fun _ => Safe.chk (fun _ => Safe.chk (fun _ => ?_)))
    exact Safe.pure ⟨j2, by simp only; omega, by simp only; omega, a, ha, s2⟩

/-- blocklist.cpp 482-491. -/
theorem trimEndT_safe (hQ : ∀ b t, Q b t → Q1 b t) (h : J (Over Q) R j f) {eo fin : Nat} {ec : Bool}
    (hec : ec = true → j ≤ eo ∧ eo < f.n ∧ 0 < fin ∧ fin < W64 ∧
      ∀ x : Entry, f.slots[eo]? = some x → x.start < fin ∧ fin < x.start + x.count) :
    Safe (CP Q Q1 R fin) (trimEndT f ec eo fin) (fun g => J (Over Q) R j g ∧ g.n = f.n) := by
  unfold trimEndT
  cases ec with
  | false => exact Safe.pure ⟨h, rfl⟩
  | true =>
    obtain ⟨h1, h2, h3, h4, h5⟩ := hec rfl
    simp only [if_true]
    refine Safe.bind (Q := fun e => f.slots[eo]? = some e) (Safe.quiet (fun _ => deref_inv)) (fun x _ hx => ?_)
    obtain ⟨h6, h7⟩ := h5 x hx
    obtain ⟨ox, cx⟩ := h.all _ _ h2 hx
    have hfin := ox.fin_eq
    have hr := ox.range
    have hcount := ox.count
    rw [hfin]
    have e1 : u16 (sub64 (x.start + x.count) fin) = x.start + x.count - fin := by
      rw [sub64_of (by omega) (by omega)]; unfold u16; omega
    rw [e1]
    have hlen := h.le
    have n1 : Over Q ⟨fin, x.start + x.count - fin, x.state⟩ := by
      refine ⟨⟨by simp only; omega, by simp only; omega, ox.state⟩, fun b hb => ?_⟩
      unfold Entry.covers at hb
      simp only at hb
      exact cx b ⟨by omega, by omega⟩
    refine Safe.bind (Q := fun g => g = { f with slots := f.slots.set eo { x with start := fin } })
      (Safe.point (fun g hg => ?_)) (fun f1 _ hf1 => ?_)
    · obtain ⟨_, y⟩ := store_inv hg
      refine ⟨?_, y⟩
      subst y
      refine .inr ⟨j, x.state, h3, cx _ ⟨by omega, by omega⟩, cx _ ⟨by omega, by omega⟩, ?_⟩
      have hm : J (Over2 Q fin x.state) R j f := h.mono (fun e he => .inl he)
      refine hm.slots rfl rfl rfl (by simp) (fun i => ?_)
      by_cases hie : eo = i
      · subst hie
        refine .inr ⟨h1, fun e _ he => ?_⟩
        simp only at he
        rw [List.getElem?_set_self (by omega)] at he
        injection he with he
        subst he
        exact .inr ⟨rfl, rfl, ox.state⟩
      · exact .inl (by simp only; rw [List.getElem?_set_ne hie])
    · subst hf1
      have hj2 : J (Over Q) R j { f with slots := f.slots.set eo ⟨fin, x.start + x.count - fin, x.state⟩ } := by
        refine h.slots rfl rfl rfl (by simp) (fun i => ?_)
        by_cases hie : eo = i
        · subst hie
          refine .inr ⟨h1, fun e _ he => ?_⟩
          simp only at he
          rw [List.getElem?_set_self (by omega)] at he
          injection he with he
          subst he
          exact n1
        · exact .inl (by simp only; rw [List.getElem?_set_ne hie])
      refine Safe.bind (Q := fun g => J (Over Q) R j g ∧ g.n = f.n) (Safe.point (fun g hg => ?_)) (fun f2 _ ⟨j2, m2⟩ => ?_)
      · obtain ⟨_, y⟩ := store_inv hg
        simp only [List.set_set] at y
        subst y
        exact ⟨CP.of hQ hj2, hj2, rfl⟩
      · refine Safe.bind (Q := fun _ => True) (Safe.quiet (fun _ _ => trivial)) (fun _ _ _ => ?_)
        refine Safe.chk (fun _ => ?_)
        exact (subCntT_safe j2 _ _ _).mono (fun g hg => CP.of hQ hg) (fun g _ hg => ⟨hg.1, hg.2.1.trans m2⟩)

/-- blocklist.cpp 493-531. -/
theorem finishMarkT_safe (hQ : ∀ b t, Q b t → Q1 b t) {p so eo : Nat} {x : Entry} {st : State}
    (h : J (Over Q) R (if so = f.n then 0 else so + 1) f) (hx : st ≠ .absent → Over Q1 x) :
    Safe (CP Q Q1 R p) (finishMarkT f so eo x st) (fun g => ∃ j, J (Over Q1) R j g) := by
  unfold finishMarkT
  simp only
  generalize hd : (if so = f.n then 0 else so + 1) = d at h
  refine Safe.bind ((deleteRangeT_safe h (Nat.le_refl _)).mono (fun g hg => CP.of hQ hg) (fun _ _ hr => hr)) (fun r _ ⟨j1, r1, hbe, hen, n1, _⟩ => ?_)
  have j1' : J (Over Q1) R d r.1 := j1.mono (fun _ he => he.mono hQ)
  by_cases hst : st = .absent
  · rw [if_pos hst]; exact Safe.pure ⟨d, j1'⟩
  rw [if_neg hst]
  refine Safe.mono (C := J (Over Q1) R d) (Q := J (Over Q1) R d) ?_ (fun g hg => .inl ⟨_, hg⟩) (fun _ _ h => ⟨d, h⟩)
  refine Safe.bind (insertBeforeT_safe j1' (d := r.2) (by omega) (by omega) (hx hst)) (fun r2 _ ⟨j2, r3, n2, _⟩ => ?_)
  refine Safe.bind (addCntT_safe j2 _ _ _) (fun f3 _ ⟨j3, n3, _⟩ => ?_)
  exact mergeAroundT_safe j3 (i := r2.2) (by omega) (by omega)

/-- What `find_overlapping_entries` (blocklist.cpp 356-385) finds. -/
theorem overlap_facts {L S : List Entry} {G : Nat → Int} {s c : Nat} (hr : Rep f L S G) (hw : W0 L) (he : s + c < W64)
    {so eo : Nat} (hf : findOverlapping f s c = .ok (so, eo))
    (hR : ∀ i b t, R i b t → b < s ∧ t < 4 ∧ bsem L b = dec t ∧ i = (lo b L).length) :
    so ≤ f.n ∧ eo ≤ f.n ∧ (so ≠ f.n → so ≤ eo) ∧
    (eo ≠ f.n → ∀ x : Entry, f.slots[eo]? = some x → s + c < x.start + x.count) ∧
    (∀ i b t, R i b t → so ≠ f.n ∧ i ≤ so ∧ ∃ e : Entry, f.slots[i]? = some e ∧ e.covers b ∧ e.state = t) := by
  have hslot : ∀ (i : Nat) (e : Entry), i < L.length → (f.slots[i]? = some e ↔ L[i]? = some e) := by
    intro i e hi
    rw [hr.slots, List.getElem?_append_left hi]
  have hfin : u64 (s + c) = s + c := by unfold u64; omega
  have hcover : ∀ i b t, R i b t → ∃ x : Entry, L[i]? = some x ∧ x.covers b ∧ x.state = t ∧ i < L.length := by
    intro i b t hb
    obtain ⟨_, ht, hbs, rfl⟩ := hR i b t hb
    have hL := lo_append_hi b L
    rw [← hL, bsem_skip (fun e he => lo_le e he)] at hbs
    cases hh : hi b L with
    | nil => rw [hh] at hbs; exact absurd hbs.symm (dec_ne_absent ht)
    | cons x B =>
      rw [hh] at hbs
      have hx := hw.hi_gt b x (by rw [hh]; simp)
      simp only [bsem, if_pos hx] at hbs
      by_cases hxs : x.start ≤ b
      · rw [if_pos hxs] at hbs
        have hxm : x ∈ L := by rw [← hL, hh]; simp
        have hxst := (hw.ok x hxm).state
        have : x.state = t := by rw [← code_dec hxst, ← code_dec ht, hbs]
        refine ⟨x, ?_, ⟨hxs, hx⟩, this, ?_⟩
        · have : L[(lo b L).length]? = (lo b L ++ hi b L)[(lo b L).length]? := by rw [hL]
          rw [this, List.getElem?_append_right (Nat.le_refl _), Nat.sub_self, hh]; rfl
        · have : L.length = (lo b L).length + (hi b L).length := by rw [← List.length_append, hL]
          rw [hh] at this; simp at this; omega
      · rw [if_neg hxs] at hbs
        exact absurd hbs.symm (dec_ne_absent ht)
  have hlolen : ∀ b, (lo b L).length ≤ L.length := fun b => (List.takeWhile_prefix _).length_le
  have hlomono : ∀ a b, a ≤ b → (lo a L).length ≤ (lo b L).length := by
    intro a b hab
    unfold lo
    clear hslot hcover hlolen hw hr hR
    induction L with
    | nil => simp
    | cons e L ih =>
      by_cases h1 : e.start + e.count ≤ a
      · rw [List.takeWhile_cons_of_pos (by simpa using h1), List.takeWhile_cons_of_pos (by simp; omega)]
        simpa using ih
      · rw [List.takeWhile_cons_of_neg (by simpa using h1)]; simp
  have hget : ∀ b (x : Entry), L[(lo b L).length]? = some x → b < x.start + x.count := by
    intro b x hx
    have hL := lo_append_hi b L
    have h2 : L[(lo b L).length]? = (hi b L)[0]? := by
      conv => lhs; rw [← hL]
      rw [List.getElem?_append_right (by rw [hL]; exact Nat.le_refl _)]
      rw [hL, Nat.sub_self]
    rw [h2] at hx
    exact hw.hi_gt b x (List.mem_of_getElem? hx)
  unfold findOverlapping at hf
  by_cases h0 : f.n = 0
  · rw [if_pos h0] at hf
    injection hf with hf
    injection hf with h1 h2
    subst h1; subst h2
    refine ⟨Nat.le_refl _, Nat.le_refl _, fun h => absurd rfl h, fun h => absurd rfl h, fun i b t hb => ?_⟩
    obtain ⟨x, _, _, _, hl⟩ := hcover i b t hb
    rw [← hr.n] at hl; omega
  rw [if_neg h0, searchEntry_rep hr hw, hfin] at hf
  simp only [bind_ok] at hf
  have hn := hr.n
  have hls := hlolen s
  have hle := hlolen (s + c)
  have hm := hlomono s (s + c) (by omega)
  by_cases h1 : (lo s L).length = f.n
  · rw [if_pos h1] at hf
    injection hf with hf
    injection hf with h2 h3
    subst h2; subst h3
    refine ⟨by omega, Nat.le_refl _, fun _ => by omega, fun h => absurd rfl h, fun i b t hb => ⟨by omega, ?_⟩⟩
    obtain ⟨x, hx, hc, ht, hl⟩ := hcover i b t hb
    exact ⟨by omega, x, (hslot _ _ hl).2 hx, hc, ht⟩
  rw [if_neg h1] at hf
  cases hd : deref f (lo s L).length 370 with
  | error e => rw [hd] at hf; cases hf
  | ok e =>
    rw [hd] at hf
    simp only [bind_ok, searchEntry_rep hr hw, pure_eq_ok] at hf
    injection hf with hf
    injection hf with h2 h3
    have hes := (hslot _ e (by omega)).1 (deref_inv hd)
    have hee := hget s e hes
    have hoe := hw.ok e (List.mem_of_getElem? hes)
    have hcon := hoe.contains_iff s
    have heo : eo ≤ f.n ∧ (eo ≠ f.n → ∀ x : Entry, f.slots[eo]? = some x → s + c < x.start + x.count) := by
      subst h3
      refine ⟨by omega, fun hne x hx => ?_⟩
      exact hget (s + c) x ((hslot _ x (by omega)).1 hx)
    by_cases hcs : e.contains s = true
    · rw [if_pos hcs] at h2
      subst h2
      refine ⟨by omega, heo.1, fun _ => by omega, heo.2, fun i b t hb => ⟨h1, ?_⟩⟩
      obtain ⟨x, hx, hc, ht, hl⟩ := hcover i b t hb
      obtain ⟨hb1, _, _, hi⟩ := hR i b t hb
      exact ⟨by rw [hi]; exact hlomono b s (by omega), x, (hslot _ _ hl).2 hx, hc, ht⟩
    · rw [if_neg hcs] at h2
      have hstart : s < e.start := by
        rw [hcon] at hcs; omega
      have hR2 : ∀ i b t, R i b t → i < (lo s L).length ∧ ∃ x : Entry, f.slots[i]? = some x ∧ x.covers b ∧ x.state = t := by
        intro i b t hb
        obtain ⟨x, hx, hc, ht, hl⟩ := hcover i b t hb
        obtain ⟨hbs, _, _, hi⟩ := hR i b t hb
        have := hlomono b s (by omega)
        refine ⟨?_, x, (hslot _ _ hl).2 hx, hc, ht⟩
        apply Classical.byContradiction
        intro hne
        have heq : i = (lo s L).length := by omega
        rw [heq, hes] at hx
        injection hx with hx
        subst hx
        have := hc.1
        omega
      by_cases hz : (lo s L).length = 0
      · rw [if_pos hz] at h2
        subst h2
        refine ⟨Nat.le_refl _, heo.1, fun h => absurd rfl h, heo.2, fun i b t hb => ?_⟩
        have := (hR2 i b t hb).1
        omega
      · rw [if_neg hz] at h2
        subst h2
        refine ⟨by omega, heo.1, fun _ => by omega, heo.2, fun i b t hb => ⟨by omega, ?_⟩⟩
        obtain ⟨hi, h⟩ := hR2 i b t hb
        exact ⟨by omega, h⟩

theorem lo_of_split {A B : List Entry} {x : Entry} {b : Nat} (hA : ∀ e ∈ A, e.start + e.count ≤ b)
    (hx : b < x.start + x.count) : lo b (A ++ x :: B) = A := by
  unfold lo
  induction A with
  | nil => rw [List.nil_append, List.takeWhile_cons_of_neg (by simp; omega)]
  | cons a A ih =>
    rw [List.cons_append, List.takeWhile_cons_of_pos (by simpa using hA a (by simp)), ih (fun e he => hA e (by simp [he]))]

/-- Merging does not touch what comes before the last entry. -/
theorem absorbPrev_split (A : List Entry) (x : Entry) (B X : List Entry) :
    ∃ x' B', absorbPrev (A ++ x :: B) X = A ++ x' :: B' ∧ x.start + x.count ≤ x'.start + x'.count := by
  induction A with
  | nil =>
    cases B with
    | nil =>
      cases X with
      | nil => exact ⟨x, [], rfl, Nat.le_refl _⟩
      | cons y X =>
        by_cases h : mergeable x y
        · exact ⟨⟨x.start, x.count + y.count, x.state⟩, X, by simp [absorbPrev, h], by simp only; omega⟩
        · exact ⟨x, y :: X, by simp [absorbPrev, h], Nat.le_refl _⟩
    | cons y B => exact ⟨x, absorbPrev (y :: B) X, by simp [absorbPrev], Nat.le_refl _⟩
  | cons a A ih =>
    obtain ⟨x', B', h1, h2⟩ := ih
    refine ⟨x', B', ?_, h2⟩
    cases A with
    | nil =>
      simp only [List.nil_append] at h1
      simp only [List.cons_append, List.nil_append, absorbPrev, h1]
    | cons a' A =>
      simp only [List.cons_append] at h1
      simp only [List.cons_append, absorbPrev, h1]

/-- An entry covering a block before the marked range stays where it is in the list. -/
theorem lo_outside {L : List Entry} {s c b t : Nat} {st : State} (hw : W0 L) (ht : t < 4) (hb : bsem L b = dec t) (hs : b < s) :
    (lo b (markL L s c st)).length = (lo b L).length := by
  have hL := lo_append_hi b L
  have hb2 := hb
  rw [← hL, bsem_skip (fun e he => lo_le e he)] at hb2
  cases hh : hi b L with
  | nil => rw [hh] at hb2; exact absurd hb2.symm (dec_ne_absent ht)
  | cons x B =>
    rw [hh] at hb2 hL
    have hx := hw.hi_gt b x (by rw [hh]; simp)
    simp only [bsem, if_pos hx] at hb2
    by_cases hxs : x.start ≤ b
    · have hA : ∀ e ∈ lo b L, e.start + e.count ≤ b := lo_le
      generalize lo b L = A at hL hA
      have key : ∃ x' B', (prePost L s (s + c)).1 = A ++ x' :: B' ∧ b < x'.start + x'.count := by
        unfold prePost
        by_cases hxe : x.start + x.count ≤ s
        · have hlo : ∃ B', lo s L = A ++ x :: B' := by
            refine ⟨lo s B, ?_⟩
            rw [← hL]
            unfold lo
            clear hL hh hb
            induction A with
            | nil => rw [List.nil_append, List.takeWhile_cons_of_pos (by simpa using hxe)]; rfl
            | cons a A ih =>
              rw [List.cons_append, List.takeWhile_cons_of_pos (by have := hA a (by simp); simp; omega),
                ih (fun e he => hA e (by simp [he]))]
              rfl
          obtain ⟨B', hlo⟩ := hlo
          cases hR : hi s L with
          | nil => exact ⟨x, B', hlo, hx⟩
          | cons r R =>
            simp only
            by_cases h1 : r.start ≤ s
            · rw [if_pos h1]
              by_cases h2 : r.start = s ∧ r.start + r.count ≤ s + c
              · rw [if_pos h2]; exact ⟨x, B', hlo, hx⟩
              · rw [if_neg h2]; exact ⟨x, B' ++ [leftOf s r], by rw [hlo]; simp, hx⟩
            · rw [if_neg h1]; exact ⟨x, B', hlo, hx⟩
        · have hloA : lo s L = A := by
            rw [← hL]
            exact lo_of_split (fun e he => by have := hA e he; omega) (by omega)
          have hhi : hi s L = x :: B := by
            have h1 := lo_append_hi s L
            rw [hloA] at h1
            conv at h1 => rhs; rw [← hL]
            exact List.append_cancel_left h1
          rw [hhi, hloA]
          simp only
          rw [if_pos (by omega), if_neg (by omega)]
          exact ⟨leftOf s x, [], rfl, by simp only [leftOf]; omega⟩
      obtain ⟨x', B', hp, hx'⟩ := key
      unfold markL
      simp only
      by_cases hst : st = .absent
      · rw [if_pos hst, hp, List.append_assoc, List.cons_append, lo_of_split hA hx']
      · rw [if_neg hst, hp]
        obtain ⟨x2, B2, h1, h2⟩ := absorbPrev_split A x' B' (absorbNext ⟨s, c, st.code⟩ (prePost L s (s + c)).2)
        rw [h1, lo_of_split hA (by omega)]
    · rw [if_neg hxs] at hb2
      exact absurd hb2.symm (dec_ne_absent ht)

/-- The entry covering a block is in its slot. -/
theorem rep_kept {L S : List Entry} {G : Nat → Int} {i b t : Nat} (hr : Rep f L S G) (hw : W0 L) (ht : t < 4)
    (ha : At L b (dec t)) (hi' : i = (lo b L).length) : i < f.n ∧ ∃ e : Entry, f.slots[i]? = some e ∧ e.covers b ∧ e.state = t := by
  subst hi'
  have hb := ha.2
  have hL := lo_append_hi b L
  rw [← hL, bsem_skip (fun e he => lo_le e he)] at hb
  cases hh : hi b L with
  | nil => rw [hh] at hb; exact absurd hb.symm (dec_ne_absent ht)
  | cons x B =>
    rw [hh] at hb hL
    have hx := hw.hi_gt b x (by rw [hh]; simp)
    simp only [bsem, if_pos hx] at hb
    by_cases hxs : x.start ≤ b
    · rw [if_pos hxs] at hb
      have hxm : x ∈ L := by rw [← hL]; simp
      have hxst := (hw.ok x hxm).state
      have hlen : L.length = (lo b L).length + (B.length + 1) := by
        conv => lhs; rw [← hL]
        rw [List.length_append, List.length_cons]
      have hlt : (lo b L).length < L.length := by omega
      refine ⟨by rw [hr.n]; exact hlt, x, ?_, ⟨hxs, hx⟩, by rw [← code_dec hxst, ← code_dec ht, hb]⟩
      rw [hr.slots, List.getElem?_append_left hlt]
      have : L[(lo b L).length]? = (lo b L ++ x :: B)[(lo b L).length]? := by rw [hL]
      rw [this, List.getElem?_append_right (Nat.le_refl _), Nat.sub_self]; rfl
    · rw [if_neg hxs] at hb
      exact absurd hb.symm (dec_ne_absent ht)

/-- Every crash point inside `mark_internal` (blocklist.cpp 387-531). -/
theorem markInternalT_safe {L S : List Entry} {G : Nat → Int} {s c : Nat} {st : State} (hr : Rep f L S G) (hw : W0 L)
    (hc0 : 0 < c) (hc : c ≤ 65535) (he : s + c < W64) (hL : ∀ e ∈ L, Over Q e) (hQ : ∀ b t, Q b t → Q1 b t)
    (hnew : st ≠ .absent → ∀ b, s ≤ b → b < s + c → Q1 b st.code)
    (hR : ∀ i b t, R i b t → b < s ∧ t < 4 ∧ bsem L b = dec t ∧ i = (lo b L).length) :
    Safe (CP Q Q1 R (s + c)) (markInternalT f s c st) (fun g => ∃ j, J (Over Q1) R j g) := by
  have hfin : u64 (s + c) = s + c := by unfold u64; omega
  have hn := hr.n
  have hx : st ≠ .absent → Over Q1 ⟨s, c, st.code⟩ := by
    intro hst
    refine ⟨⟨he, hc, ?_⟩, fun b hb => hnew hst b hb.1 hb.2⟩
    cases st <;> simp [State.code] at hst ⊢
  unfold markInternalT
  refine Safe.bind (Q := fun o => findOverlapping f s c = .ok o) (Safe.quiet (fun _ h => h)) (fun o _ ho => ?_)
  obtain ⟨so, eo⟩ := o
  obtain ⟨f1, f2, f3, f4, f5⟩ := overlap_facts hr hw he ho hR
  simp only [hfin]
  have hms : f.msize = 512 + 16 * f.slots.length := by rw [hr.msize, hr.slots]; simp
  have hj0 : J (Over Q) R (if so = f.n then 0 else so + 1) f := by
    refine ⟨hr.mapped, hms, by rw [hr.slots, hn]; simp, ?_, ?_, ?_⟩
    · by_cases h : so = f.n
      · rw [if_pos h]; omega
      · rw [if_neg h]; omega
    · intro i e hi hie
      rw [hr.slots, List.getElem?_append_left (by omega)] at hie
      exact hL e (List.mem_of_getElem? hie)
    · intro i b t hb
      obtain ⟨h, hi, h'⟩ := f5 i b t hb
      rw [if_neg h]
      exact ⟨by omega, h'⟩
  -- the split (case 5)
  refine Safe.bind (Q := fun r => J (Over Q) R (if r.2.1 = r.1.n then 0 else r.2.1 + 1) r.1 ∧ r.2.1 ≤ r.1.n ∧ r.2.2 ≤ r.1.n ∧
      (r.2.1 ≠ r.1.n → r.2.1 < r.2.2) ∧
      (r.2.2 ≠ r.1.n → ∀ x : Entry, r.1.slots[r.2.2]? = some x → s + c < x.start + x.count)) ?_ (fun r _ hrr => ?_)
  · unfold caseSplitT
    by_cases hsp : so ≠ f.n ∧ so = eo
    · rw [if_pos hsp]
      rw [if_neg hsp.1] at hj0
      refine Safe.bind ((splitEntryT_safe (s := s) hj0 (fun i b t hb => (hR i b t hb).1) (by omega)).mono
        (fun g hg => CP.of hQ hg) (fun _ _ h => h)) (fun r _ ⟨j1, r1, n1, a, ha, hb⟩ => ?_)
      have hne : r.2 ≠ r.1.n := by omega
      refine Safe.pure ⟨by simp only; rw [if_neg hne, r1]; exact j1, by simp only; omega, by simp only; omega,
        fun _ => by simp only; omega, fun _ x hx => ?_⟩
      simp only at hx
      rw [r1, hb] at hx
      injection hx with hx
      subst hx
      have hae := f4 (by omega) a (by rw [← hsp.2]; exact ha)
      have has : s ≤ a.start + a.count := by omega
      simp only; omega
    · rw [if_neg hsp]
      refine Safe.pure ⟨hj0, f1, f2, fun h => ?_, f4⟩
      have := f3 h
      simp only at h ⊢
      rcases Nat.lt_or_ge so eo with h' | h'
      · exact h'
      · exact absurd ⟨h, by omega⟩ hsp
  obtain ⟨fa, sa, ea⟩ := r
  obtain ⟨g1, g2, g3, g4, g5⟩ := hrr
  simp only at g1 g2 g3 g4 g5 ⊢
  have hcontains : ∀ (f : File) (i b l : Nat) (r : Bool), containsAt f i b l = .ok r →
      (r = true → i ≠ f.n ∧ ∃ x : Entry, f.slots[i]? = some x ∧ x.contains b = true) := by
    intro f i b l r h hr
    unfold containsAt at h
    by_cases hi : i ≠ f.n
    · rw [if_pos hi] at h
      cases hd : deref f i l with
      | error e => rw [hd] at h; cases h
      | ok x =>
        rw [hd] at h
        injection h with h
        exact ⟨hi, x, deref_inv hd, h.trans hr⟩
    · rw [if_neg hi] at h
      injection h with h
      rw [← h] at hr; cases hr
  refine Safe.bind (Q := fun b => b = true → sa ≠ fa.n ∧ ∃ x : Entry, fa.slots[sa]? = some x ∧ x.contains s = true)
    (Safe.quiet (fun b h => hcontains _ _ _ _ _ h)) (fun sc _ hsc => ?_)
  refine Safe.bind (Q := fun b => b = true → ea ≠ fa.n ∧ ∃ x : Entry, fa.slots[ea]? = some x ∧ x.contains (s + c - 1) = true)
    (Safe.quiet (fun b h => by
      have := hcontains _ _ _ _ _ h
      rw [sub64_of (by omega) (by omega)] at this
      exact this)) (fun ec _ hec => ?_)
  -- trimming at the end and finishing
  have hrest : ∀ fb : File, J (Over Q) R (if sa = fb.n then 0 else sa + 1) fb → fb.n = fa.n →
      (∀ i : Nat, i ≠ sa → fb.slots[i]? = fa.slots[i]?) →
      Safe (CP Q Q1 R (s + c)) (trimEndT fb ec ea (s + c) >>= fun f => finishMarkT f sa ea ⟨s, c, st.code⟩ st) (fun g => ∃ j, J (Over Q1) R j g) := by
    intro fb jb nb sb
    refine Safe.bind (trimEndT_safe hQ jb (fun h => ?_)) (fun fc _ ⟨jc, nc⟩ => ?_)
    · obtain ⟨h1, y, hy, hyc⟩ := hec h
      have hlt : ea < fa.n := by omega
      have hne : ea ≠ sa := by
        intro hh
        by_cases hs : sa = fa.n
        · omega
        · have := g4 hs; omega
      refine ⟨?_, by omega, by omega, he, ?_⟩
      · by_cases hs : sa = fb.n
        · rw [if_pos hs]; omega
        · rw [if_neg hs]
          have := g4 (by omega); omega
      · intro x hx
        rw [sb ea hne, hy] at hx
        injection hx with hx
        subst hx
        have hoy := (g1.all ea y hlt hy).1
        rw [hoy.contains_iff] at hyc
        exact ⟨by omega, g5 h1 y hy⟩
    · rw [← nc] at jc
      exact finishMarkT_safe hQ jc hx
  by_cases hsct : sc = true
  · rw [if_pos hsct]
    obtain ⟨hs1, x0, hx0, hxc⟩ := hsc hsct
    refine Safe.bind (Q := fun e => fa.slots[sa]? = some e) (Safe.quiet (fun _ => deref_inv)) (fun x _ hxs => ?_)
    rw [hx0] at hxs
    injection hxs with hxs
    subst hxs
    rw [if_neg hs1] at g1
    have hsl : sa < fa.n := by omega
    obtain ⟨ox, cx⟩ := g1.all sa x0 hsl hx0
    rw [ox.contains_iff] at hxc
    have hro := ox.range
    have hco := ox.count
    by_cases hex : x0.start = s ∧ x0.count ≤ c
    · rw [if_pos hex]
      have g1' : J (Over Q) R sa fa := by
        refine g1.less (by omega) (fun i b t hb e hi1 hi2 hie hcov _ => ?_)
        have hia : i = sa := by omega
        subst hia
        rw [hx0] at hie
        injection hie with hie
        subst hie
        have := (hR _ b t hb).1
        have := hcov.1
        omega
      by_cases hst : st = .absent
      · rw [if_pos hst]
        refine Safe.bind ((deleteRangeT_safe g1' (Nat.le_refl _)).mono (fun g hg => CP.of hQ hg) (fun _ _ h => h)) (fun r _ hr1 => ?_)
        exact Safe.pure ⟨sa, hr1.1.mono (fun _ he => he.mono hQ)⟩
      · rw [if_neg hst]
        have g1'' : J (Over Q1) R sa fa := g1'.mono (fun _ h => h.mono hQ)
        refine Safe.mono (C := J (Over Q1) R sa) (Q := J (Over Q1) R sa) ?_ (fun g hg => .inl ⟨_, hg⟩) (fun _ _ h => ⟨sa, h⟩)
        refine Safe.bind (subCntT_safe g1'' _ _ _) (fun fb _ ⟨jb, nb, sb⟩ => ?_)
        have hlen := jb.le
        refine Safe.bind (Q := fun g => J (Over Q1) R sa g ∧ g.n = fa.n) (Safe.point (fun g hg => ?_)) (fun fc _ ⟨jc, nc⟩ => ?_)
        · obtain ⟨_, y⟩ := store_inv hg
          subst y
          have : J (Over Q1) R sa { fb with slots := fb.slots.set sa ⟨s, c, st.code⟩ } := by
            refine jb.slots rfl rfl rfl (by simp) (fun i => ?_)
            by_cases hie : sa = i
            · subst hie
              refine .inr ⟨Nat.le_refl _, fun e _ hee => ?_⟩
              simp only at hee
              rw [List.getElem?_set_self (by omega)] at hee
              injection hee with hee
              subst hee
              exact hx hst
            · exact .inl (by simp only; rw [List.getElem?_set_ne hie])
          exact ⟨this, this, nb⟩
        · refine Safe.bind (addCntT_safe jc _ _ _) (fun fd _ ⟨jd, nd, _⟩ => ?_)
          refine Safe.bind (deleteRangeT_safe jd (b := sa + 1) (by omega)) (fun r _ ⟨je, r1, hbe, hen, ne, _⟩ => ?_)
          exact mergeAroundT_safe je (i := r.2 - 1) (by omega) (by omega)
    · rw [if_neg hex]
      have e2 : u16 (sub64 s x0.start) = s - x0.start := by
        rw [sub64_of (by omega) (by omega)]; unfold u16; omega
      simp only [e2]
      have n1 : Over Q { x0 with count := s - x0.start } := by
        refine ⟨⟨by simp only; omega, by simp only; omega, ox.state⟩, fun b hb => ?_⟩
        unfold Entry.covers at hb
        simp only at hb
        exact cx b ⟨by omega, by omega⟩
      refine Safe.bind (Q := fun g => J (Over Q) R (sa + 1) g ∧ g.n = fa.n ∧ ∀ i : Nat, i ≠ sa → g.slots[i]? = fa.slots[i]?)
        (Safe.point (fun g hg => ?_)) (fun fb _ ⟨jb, nb, sb⟩ => ?_)
      · obtain ⟨_, y⟩ := store_inv hg
        subst y
        have : J (Over Q) R (sa + 1) { fa with slots := fa.slots.set sa { x0 with count := s - x0.start } } := by
          refine g1.grow1 rfl rfl rfl rfl hx0 (fun _ => n1) (fun b t hb hcb ht => ⟨⟨hcb.1, ?_⟩, ht⟩)
          have := (hR _ b t hb).1
          simp only; omega
        exact ⟨CP.of hQ this, this, rfl, fun i hi => by simp only; rw [List.getElem?_set_ne (Ne.symm hi)]⟩
      · refine Safe.chk (fun _ => Safe.chk (fun _ => Safe.chk (fun _ => ?_)))
        refine Safe.bind ((subCntT_safe jb _ _ _).mono (fun g hg => CP.of hQ hg) (fun _ _ h => h)) (fun fc _ ⟨jc, nc, sc'⟩ => ?_)
        exact hrest fc (by rw [if_neg (by omega)]; exact jc) (by omega) (fun i hi => by rw [sc', sb i hi])
  · rw [if_neg hsct]
    exact hrest fa g1 rfl (fun _ _ => rfl)

/-- A mark of the range `[s, s + c)` is carried out in pieces of 65535 blocks; `p` is the end of
one. -/
def PieceEnd (s c p : Nat) : Prop := ∃ k, k * 65535 < c ∧ p = s + min ((k + 1) * 65535) c

/-- `Q` and the new state in `[s, s + n)`. -/
def Plus (Q : Nat → Nat → Prop) (st : State) (s n : Nat) (b t : Nat) : Prop :=
  Q b t ∨ (st ≠ .absent ∧ t = st.code ∧ s ≤ b ∧ b < s + n)

/-- What may be found after a crash inside a mark. -/
def CL (Q : Nat → Nat → Prop) (R : Nat → Nat → Nat → Prop) (st : State) (s c : Nat) (g : File) : Prop :=
  (∃ j, J (Over (Plus Q st s c)) R j g) ∨
  ∃ j t p, PieceEnd s c p ∧ Q (p - 1) t ∧ Q p t ∧ J (Over2 (Plus Q st s c) p t) R j g

theorem Over2.mono {p t : Nat} {e : Entry} (h : Over2 Q p t e) (hq : ∀ b t, Q b t → Q1 b t) : Over2 Q1 p t e :=
  h.imp (fun h => h.mono hq) id

theorem CP.toCL {st : State} {s c p n m : Nat} (h : CP (Plus Q st s n) (Plus Q st s m) R p g) (hn : n ≤ c) (hm : m ≤ c)
    (hp : PieceEnd s c p) (hs : s + n < p) : CL Q R st s c g := by
  have mono : ∀ {n}, n ≤ c → ∀ b t, Plus Q st s n b t → Plus Q st s c b t := by
    intro n hn b t h
    rcases h with h | ⟨h1, h2, h3, h4⟩
    · exact .inl h
    · exact .inr ⟨h1, h2, h3, by omega⟩
  rcases h with ⟨j, h⟩ | ⟨j, t, h0, h1, h2, h3⟩
  · exact .inl ⟨j, h.mono (fun _ he => he.mono (mono hm))⟩
  · refine .inr ⟨j, t, p, hp, ?_, ?_, h3.mono (fun _ he => he.mono (mono hn))⟩
    · rcases h1 with h | h
      · exact h
      · omega
    · rcases h2 with h | h
      · exact h
      · omega

theorem chunk_step {k d c : Nat} (h : 65535 < d) (hd : k * 65535 + d = c) : (k + 1) * 65535 + (d - 65535) = c := by
  rw [Nat.succ_mul]
  generalize k * 65535 = x at *
  omega

/-- Every crash point inside the loop of `mark` (blocklist.cpp 537-544). -/
theorem markLoopT_safe (st : State) (fuel : Nat) : ∀ {f : File} {L S : List Entry} {G : Nat → Int} {s c k d : Nat},
    d / 65535 < fuel → Rep f L S G → W0 L → s + c < W64 → k * 65535 + d = c →
    (∀ e ∈ L, Over (Plus Q st s (k * 65535)) e) →
    (∀ i b t, R i b t → b < s ∧ t < 4 ∧ At L b (dec t) ∧ i = (lo b L).length) →
    Safe (CL Q R st s c) (markLoopT st fuel f (s + k * 65535) d) (fun g => ∃ j, J (Over (Plus Q st s c)) R j g) := by
  induction fuel with
  | zero => intro f L S G s c k d h; omega
  | succ n ih =>
    intro f L S G s c k d hf hr hw hsc hd hL hR
    unfold markLoopT
    have hQ : ∀ m, k * 65535 ≤ m → ∀ b t, Plus Q st s (k * 65535) b t → Plus Q st s m b t := by
      intro m hm b t h
      rcases h with h | ⟨h1, h2, h3, h4⟩
      · exact .inl h
      · exact .inr ⟨h1, h2, h3, by omega⟩
    have hnew : ∀ c', st ≠ .absent → ∀ b, s + k * 65535 ≤ b → b < s + k * 65535 + c' → Plus Q st s (k * 65535 + c') b st.code :=
      fun c' hst b h1 h2 => .inr ⟨hst, rfl, by omega, by omega⟩
    have hR' : ∀ i b t, R i b t → b < s + k * 65535 ∧ t < 4 ∧ bsem L b = dec t ∧ i = (lo b L).length := fun i b t hb => by
      obtain ⟨h1, h2, h3, h4⟩ := hR i b t hb
      exact ⟨by omega, h2, h3.2, h4⟩
    by_cases h1 : d > limit
    · rw [if_pos h1]
      simp only [limit] at h1
      have hs := markInternalT_safe (R := R) (st := st) hr hw (s := s + k * 65535) (c := 65535) (by omega) (by omega) (by omega) hL
        (hQ (k * 65535 + 65535) (by omega)) (hnew 65535) hR'
      obtain ⟨f', S', e1, r1⟩ := markInternal_rep (st := st) hr hw (s := s + k * 65535) (c := 65535) (by omega) (by omega) (by omega)
      have hw' := markL_w0 (st := st) hw (s := s + k * 65535) (c := 65535) (by omega) (by omega)
      refine Safe.bind (hs.mono (fun g hg => hg.toCL (by omega) (by omega) ⟨k, by omega, ?_⟩ (by omega)) (fun _ _ h => h)) (fun f2 hf2 _ => ?_)
      · rw [Nat.add_mul, Nat.min_eq_left (by omega)]; omega
      · rw [markInternalT_res] at hf2
        have : f2 = f' := by rw [e1] at hf2; injection hf2 with hf2; exact hf2.symm
        subst this
        have hu : u64 (s + k * 65535 + limit) = s + (k + 1) * 65535 := by
          unfold u64; simp only [limit]; omega
        rw [hu]
        have hd2 : (k + 1) * 65535 + (d - 65535) = c := chunk_step h1 hd
        refine ih (by simp only [limit]; omega) r1 hw' hsc hd2 ?_ ?_
        · intro e he
          refine ⟨hw'.ok e he, fun b hb => ?_⟩
          rcases markL_cov_sub hw ⟨e, he, hb, rfl⟩ with ⟨e0, he0, hb0, hs0⟩ | ⟨h2, h3, h4, h5⟩
          · rw [← hs0]
            exact hQ _ (by omega) _ _ ((hL e0 he0).2 b hb0)
          · exact .inr ⟨h2, h3, by omega, by omega⟩
        · intro i b t hb
          obtain ⟨h2, h3, h4, h5⟩ := hR i b t hb
          exact ⟨h2, h3, At.outside hw h4 (by omega), by rw [h5, lo_outside hw h3 h4.2 (by omega)]⟩
    · rw [if_neg h1]
      simp only [limit] at h1
      by_cases h2 : d > 0
      · rw [if_pos h2]
        have hs := markInternalT_safe (R := R) (st := st) hr hw (s := s + k * 65535) (c := d) (by omega) (by omega) (by omega) hL
          (hQ (k * 65535 + d) (by omega)) (hnew d) hR'
        rw [hd] at hs
        refine hs.mono (fun g hg => hg.toCL (by omega) (by omega) ⟨k, by omega, ?_⟩ (by omega)) (fun _ _ h => h)
        rw [Nat.add_mul, Nat.min_eq_right (by omega)]; omega
      · rw [if_neg h2]
        have h0 : d = 0 := by omega
        subst h0
        refine Safe.pure ⟨f.n, hr.mapped, by rw [hr.msize, hr.slots]; simp, by rw [hr.slots, hr.n]; simp, Nat.le_refl _, ?_, ?_⟩
        · intro i e hi hie
          rw [hr.n] at hi
          rw [hr.slots, List.getElem?_append_left hi] at hie
          exact (hL e (List.mem_of_getElem? hie)).mono (hQ c (by omega))
        · intro i b t hb
          obtain ⟨h3, h4, h5, h6⟩ := hR i b t hb
          exact rep_kept hr hw h4 h5 h6

/-- Every crash point inside `mark`. -/
theorem markT_crash {L : List Entry} {s c : Nat} {st : State} (hi : Inv f L) (hsc : s + c < W64)
    (hR : ∀ i b t, R i b t → b < s ∧ t < 4 ∧ At L b (dec t) ∧ i = (lo b L).length) (hg : (markT f s c st).crash g) :
    CL (Cov L) R st s c g := by
  obtain ⟨S, hr⟩ := hi.rep
  have hL : ∀ e ∈ L, Over (Plus (Cov L) st s (0 * 65535)) e :=
    fun e he => ⟨hi.w0.ok e he, fun b hb => .inl ⟨e, he, hb, rfl⟩⟩
  have hloop := markLoopT_safe (Q := Cov L) (R := R) st (c / 65535 + 1) (s := s) (c := c) (k := 0) (d := c) (by omega) hr hi.w0 hsc
    (by omega) hL hR
  rw [Nat.zero_mul, Nat.add_zero] at hloop
  rcases hg with hg | ⟨a, ha, hg⟩
  · -- before the first store
    injection hg with hg
    subst hg
    refine .inl ⟨L.length, hr.mapped, by rw [hr.msize, hr.slots]; simp, by rw [hr.slots, hr.n]; simp, by rw [hr.n]; exact Nat.le_refl _, ?_, ?_⟩
    · intro i e hi' hie
      rw [hr.n] at hi'
      rw [hr.slots, List.getElem?_append_left hi'] at hie
      exact (hL e (List.mem_of_getElem? hie)).mono (fun b t h => by
        rcases h with h | h
        · exact .inl h
        · omega)
    · intro i b t hb
      obtain ⟨_, h2, h3, h4⟩ := hR i b t hb
      obtain ⟨h5, h6⟩ := rep_kept hr hi.w0 h2 h3 h4
      exact ⟨by rw [← hr.n]; exact h5, h6⟩
  · injection ha with ha
    subst ha
    exact hloop.crash g hg

/-- What `state()` can report about a file with sound live entries. -/
theorem scan_of {X : Nat → Nat → Prop} {g : File} (hm : g.mapped = true) (b : Nat) (k : Nat) : ∀ i, i + k ≤ g.slots.length →
    (∀ (m : Nat) (e : Entry), m < i + k → g.slots[m]? = some e → e.state < 4 ∧ (e.start ≤ b → b < e.fin → X b e.state)) →
    (stateScan g b i k = .ok .absent ∧ ∀ (m : Nat) (e : Entry), i ≤ m → m < i + k → g.slots[m]? = some e → ¬ (e.start ≤ b ∧ b < e.fin)) ∨
    ∃ t, t < 4 ∧ stateScan g b i k = .ok (dec t) ∧ X b t := by
  induction k with
  | zero => intro i _ _; exact .inl ⟨rfl, fun m e h1 h2 => by omega⟩
  | succ k ih =>
    intro i hl hx
    have hlt : i < g.slots.length := by omega
    have hd : deref g i 551 = .ok g.slots[i] := by
      unfold deref; rw [if_pos hm, List.getElem?_eq_getElem hlt]
    unfold stateScan
    rw [hd]
    simp only [bind_ok]
    obtain ⟨h1, h2⟩ := hx i _ (by omega) (List.getElem?_eq_getElem hlt)
    by_cases hc : g.slots[i].start ≤ b ∧ g.slots[i].fin > b
    · rw [if_pos hc]
      exact .inr ⟨_, h1, ofCode_dec h1, h2 hc.1 hc.2⟩
    · rw [if_neg hc]
      rcases ih (i + 1) (by omega) (fun m e hm => hx m e (by omega)) with ⟨h3, h4⟩ | h3
      · refine .inl ⟨h3, fun m e hm1 hm2 he => ?_⟩
        by_cases hmi : m = i
        · subst hmi
          rw [List.getElem?_eq_getElem hlt] at he
          injection he with he
          subst he
          exact hc
        · exact h4 m e (by omega) (by omega) he
      · exact .inr h3

/-- The file as the next process sees it. -/
theorem reopen_of {g : File} (hm : g.mapped = true) (hs : g.msize = 512 + 16 * g.slots.length) : reopen g = g := by
  unfold reopen ensureUnmapped
  rw [if_pos hm]
  show ({ g with mapped := true, msize := 512 + 16 * g.slots.length } : File) = g
  rw [← hs, ← hm]

theorem CL.read {Q : Nat → Nat → Prop} {R : Nat → Nat → Nat → Prop} {st : State} {s c : Nat} {g : File} (h : CL Q R st s c g) (b : Nat) :
    stateAt (reopen g) b = .ok .absent ∨ ∃ t, t < 4 ∧ stateAt (reopen g) b = .ok (dec t) ∧
      (Plus Q st s c b t ∨ ∃ p, PieceEnd s c p ∧ p ≤ b ∧ Q (p - 1) t ∧ Q p t) := by
  rcases h with ⟨j, h⟩ | ⟨j, t, p, hp, h1, h2, h⟩
  · rw [reopen_of h.mapped h.ms]
    unfold stateAt
    rw [ensureMapped_of h.mapped]
    rcases scan_of (X := Plus Q st s c) h.mapped b g.n 0 (by have := h.le; omega) (fun m e hm he => by
      obtain ⟨a, b'⟩ := h.all m e (by omega) he
      exact ⟨a.state, fun h1 h2 => b' b ⟨h1, by rw [← a.fin_eq]; exact h2⟩⟩) with h' | ⟨t, h1, h2, h3⟩
    · exact .inl h'.1
    · exact .inr ⟨t, h1, h2, .inl h3⟩
  · rw [reopen_of h.mapped h.ms]
    unfold stateAt
    rw [ensureMapped_of h.mapped]
    rcases scan_of (X := fun b' t' => Plus Q st s c b' t' ∨ (t' = t ∧ p ≤ b')) h.mapped b g.n 0 (by have := h.le; omega) (fun m e hm he => by
      rcases h.all m e (by omega) he with ⟨a, b'⟩ | ⟨h3, h4, h5⟩
      · exact ⟨a.state, fun h1 h2 => .inl (b' b ⟨h1, by rw [← a.fin_eq]; exact h2⟩)⟩
      · exact ⟨by omega, fun h1 _ => .inr ⟨h4, by omega⟩⟩) with h' | ⟨t', h3, h4, h5⟩
    · exact .inl h'.1
    · rcases h5 with h5 | ⟨rfl, h5⟩
      · exact .inr ⟨t', h3, h4, .inl h5⟩
      · exact .inr ⟨t', h3, h4, .inr ⟨p, hp, h5, h1, h2⟩⟩

/-- What has to be kept is still there. -/
theorem CL.kept {Q : Nat → Nat → Prop} {R : Nat → Nat → Nat → Prop} {st : State} {s c : Nat} {g : File} (h : CL Q R st s c g) {i b t : Nat}
    (hb : R i b t) (ht : t < 4) (hbs : b < s) (hb64 : ∀ u, Q b u → u = t) : stateAt (reopen g) b = .ok (dec t) := by
  have key : ∀ {P : Entry → Prop} {j : Nat}, J P R j g → (∀ e : Entry, P e → e.state < 4 ∧ (e.start ≤ b → b < e.fin → e.state = t)) →
      (∀ e : Entry, P e → e.covers b → e.start ≤ b ∧ b < e.fin) → stateAt (reopen g) b = .ok (dec t) := by
    intro P j h hP hcov
    rw [reopen_of h.mapped h.ms]
    unfold stateAt
    rw [ensureMapped_of h.mapped]
    rcases scan_of (X := fun _ u => u = t) h.mapped b g.n 0 (by have := h.le; omega) (fun m e hm he =>
      hP e (h.all m e (by omega) he)) with ⟨_, h'⟩ | ⟨u, h1, h2, h3⟩
    · obtain ⟨h1, e, h2, h3, h4⟩ := h.kept i b t hb
      have := h.jn
      exact absurd (hcov e (h.all i e (by omega) h2) h3) (h' i e (by omega) (by omega) h2)
    · rw [h2, h3]
  have hplus : ∀ u, Plus Q st s c b u → u = t := by
    intro u hu
    rcases hu with hu | hu
    · exact hb64 u hu
    · omega
  rcases h with ⟨j, h⟩ | ⟨j, t', p, hp, h1, h2, h⟩
  · refine key h (fun e he => ⟨he.1.state, fun h1 h2 => hplus _ (he.2 b ⟨h1, ?_⟩)⟩) (fun e he hc => ⟨hc.1, ?_⟩)
    · rw [← he.1.fin_eq]; exact h2
    · rw [he.1.fin_eq]; exact hc.2
  · obtain ⟨k, hk, hpk⟩ := hp
    have hsp : s < p := by omega
    refine key h (fun e he => ?_) (fun e he hc => ?_)
    · rcases he with he | ⟨h3, h4, h5⟩
      · exact ⟨he.1.state, fun h1 h2 => hplus _ (he.2 b ⟨h1, by rw [← he.1.fin_eq]; exact h2⟩)⟩
      · exact ⟨by omega, fun h6 _ => by omega⟩
    · rcases he with he | ⟨h3, h4, h5⟩
      · exact ⟨hc.1, by rw [he.1.fin_eq]; exact hc.2⟩
      · have := hc.1; omega

end Dragonstash.Blocklist
