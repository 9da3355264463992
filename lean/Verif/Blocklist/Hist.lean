import Verif.Blocklist.Sem
/-
  Histories of calls on a block list: marks (of any length), maintenance and reopening.
-/
namespace Dragonstash.Blocklist

open Spec (setRange CleanChunk Clean)

/-- blocklist.cpp 96-102 (destructor), 104-150 (`open` of a non-empty file with the right magic
number), 82-87 (constructor): close the block list and open the same file again. -/
def reopen (f : File) : File := ensureMapped (ensureUnmapped f)

/-- The mutating calls of the public interface, and reopening. -/
inductive Call where
  | mark (start count : Nat) (state : State)
  | shrink
  | fsck
  | reopen
  deriving DecidableEq, Repr

/-- One call.  An exception thrown by `fsck` is caught by the caller; `fsck` has not modified
anything but the mapping then. -/
def step (f : File) : Call → M File
  | .mark s c st => mark f s c st
  | .shrink => shrink f
  | .fsck =>
    match fsck f with
    | .error (.thrown _) => .ok (ensureMapped f)
    | r => r
  | .reopen => .ok (reopen f)

/-- A history of calls. -/
def calls (f : File) : List Call → M File
  | [] => .ok f
  | c :: cs => do
    let f ← step f c
    calls f cs

/-! ### The number of slots -/

/-- The fields of an entry fit into 64, 16 and 8 bits. -/
structure EntryFits (e : Entry) : Prop where
  start : e.start < W64
  count : e.count ≤ 65535
  state : e.state < 256

/-- All slots, also those behind the live entries, have fields which fit. -/
def Small (f : File) : Prop := ∀ e ∈ f.slots, EntryFits e

/-- `x` is `f` up to changes which keep the number of slots modulo 256, and counts small. -/
def SameLen (f x : File) : Prop :=
  Small f → x.slots.length % 256 = f.slots.length % 256 ∧ Small x

theorem SameLen.of_slots {f x : File} (h : x.slots = f.slots) : SameLen f x :=
  fun hs => ⟨by rw [h], by unfold Small; rw [h]; exact hs⟩
theorem SameLen.trans {f g h : File} (a : SameLen f g) (b : SameLen g h) : SameLen f h :=
  fun hs => ⟨(b (a hs).2).1.trans (a hs).1, (b (a hs).2).2⟩

theorem u16_le (x : Nat) : u16 x ≤ 65535 := by unfold u16; omega

theorem bind_inv {α β : Type} {m : M α} {k : α → M β} {r : β} (h : (m >>= k) = .ok r) :
    ∃ a, m = .ok a ∧ k a = .ok r := by
  cases m with
  | error e => cases h
  | ok a => exact ⟨a, rfl, h⟩

theorem map_inv {α β : Type} {m : M α} {k : α → β} {r : β} (h : m.map k = .ok r) :
    ∃ a, m = .ok a ∧ k a = r := by
  cases m with
  | error e => cases h
  | ok a => exact ⟨a, rfl, by injection h⟩

theorem deref_fits {f : File} {i line} {e : Entry} (h : deref f i line = .ok e) (hs : Small f) : EntryFits e := by
  unfold deref at h
  split at h
  · split at h
    · rename_i h'; injection h with h; subst h; exact hs _ (List.mem_of_getElem? h')
    · cases h
  · cases h

theorem store_len {f f' : File} {i e line} (he : EntryFits e) (h : store f i e line = .ok f') :
    SameLen f f' := by
  unfold store at h
  split at h
  · injection h with h; subst h
    refine fun hs => ⟨by simp, fun x hx => ?_⟩
    rcases List.mem_or_eq_of_mem_set hx with hx | rfl
    · exact hs x hx
    · exact he
  · cases h

theorem addCnt_len {f f' : File} {s d line} (h : addCnt f s d line = .ok f') : SameLen f f' := by
  unfold addCnt at h
  split at h
  · injection h with h; subst h; exact .of_slots rfl
  · cases h

theorem subCnt_len {f f' : File} {s d line} (h : subCnt f s d line = .ok f') : SameLen f f' := by
  unfold subCnt at h
  split at h
  · injection h with h; subst h; exact .of_slots rfl
  · cases h

theorem memmove_len {f f' : File} {a b c line} (h : memmove f a b c line = .ok f') : SameLen f f' := by
  unfold memmove at h
  split at h
  · rename_i hc
    injection h with h; subst h
    simp only [Bool.and_eq_true, decide_eq_true_eq] at hc
    refine fun hs => ⟨?_, fun x hx => ?_⟩
    · simp only [List.length_append, List.length_take, List.length_drop]
      apply congrArg (· % 256)
      omega
    · simp only [List.mem_append] at hx
      rcases hx with (hx | hx) | hx
      · exact hs x (List.mem_of_mem_take hx)
      · exact hs x (List.mem_of_mem_drop (List.mem_of_mem_take hx))
      · exact hs x (List.mem_of_mem_drop hx)
  · cases h

theorem ensureMapped_slots (f : File) : (ensureMapped f).slots = f.slots := by
  unfold ensureMapped; split <;> rfl

theorem ensureUnmapped_slots (f : File) : (ensureUnmapped f).slots = f.slots := by
  unfold ensureUnmapped; split <;> rfl

theorem uncount_len (k : Nat) : ∀ {f f' : File} {i}, uncount f i k = .ok f' → SameLen f f' := by
  induction k with
  | zero => intro f f' i h; injection h with h; subst h; exact .of_slots rfl
  | succ k ih =>
    intro f f' i h
    unfold uncount at h
    obtain ⟨e, _, h⟩ := bind_inv h
    obtain ⟨g, hg, h⟩ := bind_inv h
    exact (subCnt_len hg).trans (ih h)

theorem deleteRange_len {f : File} {a b} {r : File × Nat} (h : deleteRange f a b = .ok r) : SameLen f r.1 := by
  unfold deleteRange at h
  obtain ⟨_, _, h⟩ := bind_inv h
  obtain ⟨_, _, h⟩ := bind_inv h
  obtain ⟨_, _, h⟩ := bind_inv h
  obtain ⟨g, hg, h⟩ := bind_inv h
  obtain ⟨g', hg', h⟩ := bind_inv h
  injection h with h
  subst h
  have h1 := memmove_len hg'
  exact (uncount_len _ hg).trans h1

theorem deleteEntry_len {f : File} {i} {r : File × Nat} (h : deleteEntry f i = .ok r) : SameLen f r.1 := by
  unfold deleteEntry at h
  have h0 : SameLen f (ensureMapped f) := .of_slots (ensureMapped_slots f)
  simp only at h
  split at h
  · injection h with h; subst h; exact h0
  · exact h0.trans (deleteRange_len h)

theorem tryMerge_len {f : File} {i} {r : File × Bool × Nat} (h : tryMerge f i = .ok r) : SameLen f r.1 := by
  intro hs
  unfold tryMerge at h
  split at h
  · injection h with h; subst h; exact SameLen.of_slots rfl hs
  · obtain ⟨_, hp, h⟩ := bind_inv h
    obtain ⟨_, _, h⟩ := bind_inv h
    split at h
    · injection h with h; subst h; exact SameLen.of_slots rfl hs
    · split at h
      · injection h with h; subst h; exact SameLen.of_slots rfl hs
      · simp only at h
        split at h
        · injection h with h; subst h; exact SameLen.of_slots rfl hs
        · obtain ⟨g, hg, h⟩ := bind_inv h
          obtain ⟨g', hg', h⟩ := bind_inv h
          obtain ⟨r', hr', h⟩ := bind_inv h
          injection h with h
          subst h
          exact ((store_len (by exact ⟨(deref_fits hp hs).start, u16_le _, (deref_fits hp hs).state⟩) hg).trans
            ((addCnt_len hg').trans (deleteEntry_len hr'))) hs

theorem requireSpace_len {f f' : File} (h : requireSpace f = .ok f') : SameLen f f' := by
  unfold requireSpace at h
  obtain ⟨_, _, h⟩ := bind_inv h
  injection h with h
  subst h
  split
  · refine fun hs => ⟨?_, fun x hx => ?_⟩
    · rw [ensureMapped_slots]; unfold grow; simp only [List.length_append, List.length_replicate, ensureUnmapped_slots, growSize, entrySize]
      omega
    · rw [ensureMapped_slots] at hx
      unfold grow at hx
      simp only [ensureUnmapped_slots, List.mem_append] at hx
      rcases hx with hx | hx
      · exact hs x hx
      · rw [List.eq_of_mem_replicate hx]; exact ⟨by decide, by decide, by decide⟩
  · exact .of_slots (ensureMapped_slots f)

theorem insertBefore_len {f : File} {d e} {r : File × Nat} (he : EntryFits e)
    (h : insertBefore f d e = .ok r) : SameLen f r.1 := by
  unfold insertBefore at h
  simp only at h
  obtain ⟨g, hg, h⟩ := bind_inv h
  refine (requireSpace_len hg).trans ?_
  split at h
  · obtain ⟨g1, hg1, h⟩ := bind_inv h
    obtain ⟨g2, hg2, h⟩ := bind_inv h
    injection h with h
    subst h
    have h1 := memmove_len hg1
    have h2 := store_len he hg2
    exact h1.trans h2
  · obtain ⟨g1, hg1, h⟩ := bind_inv h
    obtain ⟨g2, hg2, h⟩ := bind_inv h
    injection h with h
    subst h
    injection hg1 with hg1
    subst hg1
    have h2 := store_len he hg2
    exact h2

theorem splitEntry_len {f : File} {a s} (hs' : s < W64) {r : File × Nat} (h : splitEntry f a s = .ok r) : SameLen f r.1 := by
  intro hs
  unfold splitEntry at h
  obtain ⟨_, hp, h⟩ := bind_inv h
  have hf := deref_fits hp hs
  obtain ⟨_, _, h⟩ := bind_inv h
  obtain ⟨_, _, h⟩ := bind_inv h
  obtain ⟨g, hg, h⟩ := bind_inv h
  obtain ⟨g1, hg1, h⟩ := bind_inv h
  obtain ⟨_, _, h⟩ := bind_inv h
  obtain ⟨_, _, h⟩ := bind_inv h
  obtain ⟨_, _, h⟩ := bind_inv h
  obtain ⟨_, _, h⟩ := bind_inv h
  obtain ⟨_, _, h⟩ := bind_inv h
  injection h with h
  subst h
  have h1 := insertBefore_len (by exact ⟨hs', u16_le _, hf.state⟩) hg1
  exact ((store_len (by exact ⟨hf.start, u16_le _, hf.state⟩) hg).trans h1) hs

theorem mergeNext_len {f : File} {i} {r : File × Nat} (h : mergeNext f i = .ok r) : SameLen f r.1 := by
  unfold mergeNext at h
  split at h
  · obtain ⟨a, ha, rfl⟩ := map_inv h
    exact tryMerge_len ha
  · injection h with h; subst h; exact .of_slots rfl

theorem mergeAround_len {f f' : File} {i} (h : mergeAround f i = .ok f') : SameLen f f' := by
  unfold mergeAround at h
  obtain ⟨_, h1, h⟩ := bind_inv h
  obtain ⟨_, h2, h⟩ := bind_inv h
  injection h with h
  subst h
  exact (mergeNext_len h1).trans (tryMerge_len h2)

theorem trimEnd_len {f f' : File} {b i e} (he : e < W64) (h : trimEnd f b i e = .ok f') : SameLen f f' := by
  intro hs
  unfold trimEnd at h
  split at h
  · obtain ⟨_, hp, h⟩ := bind_inv h
    have hf := deref_fits hp hs
    obtain ⟨_, h1, h⟩ := bind_inv h
    obtain ⟨_, _, h⟩ := bind_inv h
    obtain ⟨_, _, h⟩ := bind_inv h
    exact ((store_len (by exact ⟨he, u16_le _, hf.state⟩) h1).trans (subCnt_len h)) hs
  · injection h with h; subst h; exact SameLen.of_slots rfl hs

theorem finishMark_len {f f' : File} {a b e st} (he : EntryFits e)
    (h : finishMark f a b e st = .ok f') : SameLen f f' := by
  unfold finishMark at h
  obtain ⟨_, h1, h⟩ := bind_inv h
  refine (deleteRange_len h1).trans ?_
  simp only at h
  split at h
  · injection h with h; subst h; exact .of_slots rfl
  · obtain ⟨_, h2, h⟩ := bind_inv h
    obtain ⟨_, h3, h⟩ := bind_inv h
    exact (insertBefore_len he h2).trans ((addCnt_len h3).trans (mergeAround_len h))

theorem caseSplit_len {f : File} {a b s} {r} (hs : s < W64) (h : caseSplit f a b s = .ok r) : SameLen f r.1 := by
  unfold caseSplit at h
  split at h
  · obtain ⟨_, h1, rfl⟩ := map_inv h
    exact splitEntry_len hs h1
  · injection h with h; subst h; exact .of_slots rfl

theorem markInternal_len {f f' : File} {s c st} (hs : s < W64) (hc : c ≤ 65535)
    (h : markInternal f s c st = .ok f') : SameLen f f' := by
  have hcode : st.code < 256 := by cases st <;> decide
  have hnew : EntryFits ⟨s, c, st.code⟩ := ⟨hs, hc, hcode⟩
  have hfin : u64 (s + c) < W64 := by unfold u64; omega
  unfold markInternal at h
  simp only at h
  obtain ⟨_, _, h⟩ := bind_inv h
  obtain ⟨_, h1, h⟩ := bind_inv h
  refine (caseSplit_len hs h1).trans ?_
  obtain ⟨_, _, h⟩ := bind_inv h
  obtain ⟨_, _, h⟩ := bind_inv h
  split at h
  · obtain ⟨_, hp, h⟩ := bind_inv h
    split at h
    · split at h
      · obtain ⟨_, h2, h⟩ := bind_inv h
        injection h with h; subst h
        exact deleteRange_len h2
      · obtain ⟨_, h2, h⟩ := bind_inv h
        obtain ⟨_, h3, h⟩ := bind_inv h
        obtain ⟨_, h4, h⟩ := bind_inv h
        obtain ⟨_, h5, h⟩ := bind_inv h
        exact (subCnt_len h2).trans ((store_len hnew h3).trans ((addCnt_len h4).trans
          ((deleteRange_len h5).trans (mergeAround_len h))))
    · intro hsm
      obtain ⟨_, h2, h⟩ := bind_inv h
      obtain ⟨_, _, h⟩ := bind_inv h
      obtain ⟨_, _, h⟩ := bind_inv h
      obtain ⟨_, _, h⟩ := bind_inv h
      obtain ⟨_, h3, h⟩ := bind_inv h
      obtain ⟨_, h4, h⟩ := bind_inv h
      have hf := deref_fits hp hsm
      exact ((store_len (by exact ⟨hf.start, u16_le _, hf.state⟩) h2).trans ((subCnt_len h3).trans
        ((trimEnd_len hfin h4).trans (finishMark_len hnew h)))) hsm
  · obtain ⟨_, h4, h⟩ := bind_inv h
    exact (trimEnd_len hfin h4).trans (finishMark_len hnew h)

theorem markLoop_len (fuel : Nat) : ∀ {f f' : File} {s c st}, s < W64 → markLoop st fuel f s c = .ok f' → SameLen f f' := by
  induction fuel with
  | zero => intro f f' s c st hsw h; cases h
  | succ k ih =>
    intro f f' s c st hsw h
    unfold markLoop at h
    split at h
    · obtain ⟨_, h1, h⟩ := bind_inv h
      exact (markInternal_len hsw (Nat.le_refl _) h1).trans (ih (by unfold u64; omega) h)
    · split at h
      · rename_i h1 _; exact markInternal_len hsw (by simp only [limit] at h1; omega) h
      · injection h with h; subst h; exact .of_slots rfl

/-! ### Marks of any length, on the list of entries -/

/-- The chunked mark on the list of entries. -/
def chunkL (st : State) : (fuel : Nat) → List Entry → (s c : Nat) → List Entry
  | 0, L, _, _ => L
  | fuel + 1, L, s, c =>
    if c > 65535 then chunkL st fuel (markL L s 65535 st) (s + 65535) (c - 65535)
    else if c > 0 then markL L s c st
    else L

theorem markLoop_rep (st : State) (fuel : Nat) : ∀ {f : File} {L S : List Entry} {g : Nat → Int} {s c : Nat},
    c / 65535 < fuel → Rep f L S g → W0 L → s + c < W64 →
    ∃ f' S', markLoop st fuel f s c = .ok f' ∧
      Rep f' (chunkL st fuel L s c) S' (fun t => g t + total t (chunkL st fuel L s c) - total t L) ∧
      W0 (chunkL st fuel L s c) := by
  induction fuel with
  | zero => intro f L S g s c h; omega
  | succ k ih =>
    intro f L S g s c hk hr hw hsc
    unfold markLoop chunkL
    by_cases h1 : c > 65535
    · simp only [limit, h1, if_true]
      obtain ⟨f1, S1, e1, r1⟩ := markInternal_rep (st := st) hr hw (s := s) (c := 65535) (by omega) (by omega) (by omega)
      have w1 : W0 (markL L s 65535 st) := markL_w0 hw (by omega) (by omega)
      have hu : u64 (s + 65535) = s + 65535 := by unfold u64; omega
      obtain ⟨f2, S2, e2, r2, w2⟩ := ih (s := s + 65535) (c := c - 65535) (by omega) r1 w1 (by omega)
      refine ⟨f2, S2, ?_, r2.congrG (fun t => by omega), w2⟩
      rw [e1, bind_ok, hu]; exact e2
    · simp only [limit, h1, if_false]
      by_cases h2 : c > 0
      · simp only [h2, if_true]
        obtain ⟨f1, S1, e1, r1⟩ := markInternal_rep (st := st) hr hw (s := s) (c := c) (by omega) (by omega) (by omega)
        exact ⟨f1, S1, e1, r1, markL_w0 hw (by omega) (by omega)⟩
      · simp only [h2, if_false]
        exact ⟨f, S, rfl, hr.congrG (fun t => by omega), hw⟩

/-- Cleanliness is a matter of the blocks at and behind the start. -/
theorem clean_tail {m : Spec.Map} {s c : Nat} {st : State} (hc : c > 65535) (h : Clean m s c) :
    Clean (setRange m s 65535 st) (s + 65535) (c - 65535) := by
  intro k hk
  have hk1 : (k + 1) * 65535 = k * 65535 + 65535 := Nat.succ_mul k 65535
  rw [Nat.lt_sub_iff_add_lt] at hk
  have hk2 : (k + 1) * 65535 < c := by rw [Nat.add_mul, Nat.one_mul]; exact hk
  have h1 := h (k + 1) hk2
  have e1 : s + 65535 + k * 65535 = s + (k + 1) * 65535 := by omega
  have e2 : s + 65535 + min ((k + 1) * 65535) (c - 65535) = s + min ((k + 1 + 1) * 65535) c := by omega
  rw [e1, e2]
  have hge : s + 65535 ≤ s + (k + 1) * 65535 := by omega
  have hlt : s + (k + 1) * 65535 < s + min ((k + 1 + 1) * 65535) c := by omega
  generalize hx : s + (k + 1) * 65535 = x at *
  generalize hy : s + min ((k + 1 + 1) * 65535) c = y at *
  have fix : ∀ b, s + 65535 ≤ b → setRange m s 65535 st b = m b := by
    intro b hb; unfold setRange; rw [if_neg (by omega)]
  unfold CleanChunk
  rw [fix x (by omega), fix (y - 1) (by omega), fix y (by omega)]
  exact h1

theorem clean_head {m : Spec.Map} {s c : Nat} (hc : c > 65535) (h : Clean m s c) :
    CleanChunk m s (s + 65535) := by
  have h1 := h 0 (by omega)
  have e : min ((0 + 1) * 65535) c = 65535 := by omega
  rw [e] at h1
  simpa using h1

theorem clean_only {m : Spec.Map} {s c : Nat} (h0 : 0 < c) (hc : ¬ c > 65535) (h : Clean m s c) :
    CleanChunk m s (s + c) := by
  have h1 := h 0 (by omega)
  have e : min ((0 + 1) * 65535) c = c := by omega
  rw [e] at h1
  simpa using h1

theorem setRange_split (m : Spec.Map) (s c : Nat) (st : State) (hc : c > 65535) :
    setRange (setRange m s 65535 st) (s + 65535) (c - 65535) st = setRange m s c st := by
  funext b
  unfold setRange
  by_cases h1 : s + 65535 ≤ b ∧ b < s + 65535 + (c - 65535)
  · rw [if_pos h1, if_pos (by omega)]
  · rw [if_neg h1]
    by_cases h2 : s ≤ b ∧ b < s + 65535
    · rw [if_pos h2, if_pos (by omega)]
    · rw [if_neg h2, if_neg (by omega)]

theorem setRange_zero (m : Spec.Map) (s : Nat) (st : State) : setRange m s 0 st = m := by
  funext b; unfold setRange; rw [if_neg (by omega)]

theorem chunkL_sem (st : State) (fuel : Nat) : ∀ {L : List Entry} {s c : Nat},
    c / 65535 < fuel → Wf L → s + c < W64 → (c = 1 ∨ Clean (sem L) s c) →
    Wf (chunkL st fuel L s c) ∧ sem (chunkL st fuel L s c) = setRange (sem L) s c st := by
  induction fuel with
  | zero => intro L s c h; omega
  | succ k ih =>
    intro L s c hk hw hsc hcl
    unfold chunkL
    by_cases h1 : c > 65535
    · simp only [h1, if_true]
      have hcl : Clean (sem L) s c := by rcases hcl with h | h; omega; exact h
      have hns := not_straddle_of_clean hw (s := s) (e := s + 65535) (by omega) (.inr (clean_head h1 hcl))
      have hm := markL_sem (st := st) hw (by omega) (by omega) hns
      have hw1 := markL_wf (st := st) hw (by omega) (by omega) hns
      obtain ⟨a, b⟩ := ih (s := s + 65535) (c := c - 65535) (by omega) hw1 (by omega)
        (.inr (by rw [hm]; exact clean_tail h1 hcl))
      exact ⟨a, by rw [b, hm, setRange_split _ _ _ _ h1]⟩
    · simp only [h1, if_false]
      by_cases h2 : c > 0
      · simp only [h2, if_true]
        have hns := not_straddle_of_clean hw (s := s) (e := s + c) (by omega)
          (by rcases hcl with h | h
              · left; omega
              · exact .inr (clean_only h2 h1 h))
        exact ⟨markL_wf hw (by omega) (by omega) hns, markL_sem hw (by omega) (by omega) hns⟩
      · simp only [h2, if_false]
        have : c = 0 := by omega
        subst this
        exact ⟨hw, (setRange_zero _ _ _).symm⟩

theorem chunkL_swf (st : State) (fuel : Nat) : ∀ {L : List Entry} {s c : Nat},
    c / 65535 < fuel → SWf L → s + c < W64 → Clean (sem L) s c → SWf (chunkL st fuel L s c) := by
  induction fuel with
  | zero => intro L s c h; omega
  | succ k ih =>
    intro L s c hk hw hsc hcl
    unfold chunkL
    by_cases h1 : c > 65535
    · simp only [h1, if_true]
      have hns := not_straddle_of_clean hw.toWf (s := s) (e := s + 65535) (by omega) (.inr (clean_head h1 hcl))
      have hm := markL_sem (st := st) hw.toWf (by omega) (by omega) hns
      have hw1 := markL_swf (st := st) hw (by omega) (by omega) (by omega) (clean_head h1 hcl)
      exact ih (s := s + 65535) (c := c - 65535) (by omega) hw1 (by omega)
        (by rw [hm]; exact clean_tail h1 hcl)
    · simp only [h1, if_false]
      by_cases h2 : c > 0
      · simp only [h2, if_true]
        exact markL_swf hw (by omega) (by omega) (by omega) (clean_only h2 h1 hcl)
      · simp only [h2, if_false]; exact hw

/-! ### The invariant of block lists driven through the public interface -/

structure Inv (f : File) (L : List Entry) : Prop where
  slots : ∃ S, f.slots = L ++ S
  n : f.n = L.length
  cnt : ∀ t, f.cnt t = wrapI (total t L)
  len : f.slots.length % 256 = 224
  msize : f.msize % 4096 = 0
  msize_le : f.fileSize ≤ f.msize
  msize_eq : f.mapped = true → f.msize = f.fileSize
  w0 : W0 L
  small : Small f

theorem Inv.rep {f : File} {L : List Entry} (h : Inv f L) :
    ∃ S, Rep (ensureMapped f) L S (fun t => total t L) := by
  obtain ⟨S, hS⟩ := h.slots
  refine ⟨S, ?_⟩
  by_cases hm : f.mapped = true
  · have : ensureMapped f = f := by unfold ensureMapped; rw [if_pos hm]
    rw [this]
    refine ⟨hS, h.n, hm, ?_, h.cnt⟩
    rw [h.msize_eq hm, File.fileSize, hS]; simp [superblockSize, entrySize]
  · have : ensureMapped f = { f with mapped := true, msize := f.fileSize } := by
      unfold ensureMapped; rw [if_neg hm]
    rw [this]
    refine ⟨hS, h.n, rfl, ?_, h.cnt⟩
    simp [File.fileSize, hS, superblockSize, entrySize]

theorem Inv.of_rep {f : File} {L S : List Entry} (h : Rep f L S (fun t => total t L))
    (hl : f.slots.length % 256 = 224) (hs : Small f) (hw : W0 L) : Inv f L := by
  have hsz : f.msize = f.fileSize := by
    rw [h.msize, File.fileSize, h.slots]; simp [superblockSize, entrySize]
  refine ⟨⟨S, h.slots⟩, h.n, h.cnt, hl, ?_, by omega, fun _ => hsz, hw, hs⟩
  rw [hsz]; simp only [File.fileSize, superblockSize, entrySize]; omega

theorem ensureMapped_n (f : File) : (ensureMapped f).n = f.n := by unfold ensureMapped; split <;> rfl
theorem ensureMapped_cnt (f : File) : (ensureMapped f).cnt = f.cnt := by unfold ensureMapped; split <;> rfl
theorem ensureMapped_mapped (f : File) : (ensureMapped f).mapped = true := by
  unfold ensureMapped; split
  · assumption
  · rfl
theorem ensureMapped_idem (f : File) : ensureMapped (ensureMapped f) = ensureMapped f := by
  rw [ensureMapped, if_pos (ensureMapped_mapped f)]
theorem ensureMapped_fileSize (f : File) : (ensureMapped f).fileSize = f.fileSize := by
  simp only [File.fileSize, ensureMapped_slots]

theorem Inv.mapped {f : File} {L : List Entry} (h : Inv f L) : Inv (ensureMapped f) L := by
  obtain ⟨S, hr⟩ := h.rep
  exact Inv.of_rep hr (by rw [ensureMapped_slots]; exact h.len)
    (by unfold Small; rw [ensureMapped_slots]; exact h.small) h.w0

theorem Inv.mark {f : File} {L : List Entry} (h : Inv f L) {s c : Nat} (st : State) (hsc : s + c < W64) :
    ∃ f', Blocklist.mark f s c st = .ok f' ∧ Inv f' (chunkL st (c / 65535 + 1) L s c) := by
  obtain ⟨S, hr⟩ := h.rep
  obtain ⟨f', S', e, r, w⟩ := markLoop_rep st (c / 65535 + 1) (s := s) (c := c) (by omega) hr h.w0 hsc
  have hl := markLoop_len _ (by omega) e (by unfold Small; rw [ensureMapped_slots]; exact h.small)
  refine ⟨f', e, Inv.of_rep (r.congrG (fun t => by omega)) ?_ hl.2 w⟩
  rw [hl.1, ensureMapped_slots, h.len]

theorem take_append_of_le {L S : List Entry} {k : Nat} (h : L.length ≤ k) :
    (L ++ S).take k = L ++ S.take (k - L.length) := by
  rw [List.take_append, List.take_of_length_le h]

theorem Inv.n_le {f : File} {L : List Entry} (h : Inv f L) : L.length ≤ f.slots.length := by
  obtain ⟨S, hS⟩ := h.slots
  rw [hS]; simp

/-- What `shrink` does to a block list reached through the interface. -/
theorem Inv.shrink {f : File} {L : List Entry} (h : Inv f L) :
    ∃ f', Blocklist.shrink f = .ok f' ∧ Inv f' L ∧ f'.n = f.n ∧ f'.cnt = f.cnt ∧
      (f.mapped = true →
        f'.fileSize = max 1 ((512 + 16 * L.length + 4095) / 4096) * 4096) := by
  have hn := h.n_le
  have hlen := h.len
  have hms := h.msize
  have hle := h.msize_le
  have hnn := h.n
  have heq := h.msize_eq
  unfold File.fileSize at hle heq
  simp only [superblockSize, entrySize] at hle heq
  unfold Blocklist.shrink
  simp only [growSize, superblockSize, entrySize]
  by_cases h1 : f.msize / 4096 ≤ 1
  · rw [if_pos h1]
    refine ⟨f, rfl, h, rfl, rfl, fun hm => ?_⟩
    simp only [File.fileSize, superblockSize, entrySize]
    omega
  · rw [if_neg h1]
    by_cases h2 : (512 + f.n * 16 + 4096 - 1) / 4096 = f.msize / 4096
    · rw [if_pos h2]
      refine ⟨f, rfl, h, rfl, rfl, fun hm => ?_⟩
      have := heq hm
      simp only [File.fileSize, superblockSize, entrySize]
      omega
    · rw [if_neg h2]
      have hreq : (512 + f.n * 16 + 4096 - 1) / 4096 * 4096 ≤ 512 + 16 * f.slots.length := by omega
      rw [chk_of (decide_eq_true (by omega)), bind_ok,
        chk_of (decide_eq_true (by omega)), bind_ok]
      refine ⟨_, rfl, ?_, ?_, ?_, ?_⟩
      · obtain ⟨S, hS⟩ := h.slots
        generalize hk : (((512 + f.n * 16 + 4096 - 1) / 4096) * 4096 - 512) / 16 = k
        have hkl : L.length ≤ k := by omega
        have hks : k ≤ f.slots.length := by omega
        have hkm : k % 256 = 224 := by omega
        refine ⟨⟨S.take (k - L.length), ?_⟩, ?_, ?_, ?_, ?_, ?_, ?_, h.w0, ?_⟩
        · simp only [ensureUnmapped_slots, hS]; exact take_append_of_le hkl
        · simp only [ensureUnmapped]; split <;> exact h.n
        · simp only [ensureUnmapped]; split <;> exact h.cnt
        · simp only [ensureUnmapped_slots, List.length_take]; omega
        · simp only [ensureUnmapped]; split <;> exact h.msize
        · simp only [File.fileSize, ensureUnmapped_slots, List.length_take, superblockSize, entrySize]
          have : (ensureUnmapped f).msize = f.msize := by unfold ensureUnmapped; split <;> rfl
          rw [this]; omega
        · intro hmm
          exfalso
          unfold ensureUnmapped at hmm
          split at hmm
          · exact absurd hmm (by simp)
          · rename_i hx; exact hx hmm
        · intro x hx
          simp only [ensureUnmapped_slots] at hx
          exact h.small x (List.mem_of_mem_take hx)
      · unfold ensureUnmapped; split <;> rfl
      · unfold ensureUnmapped; split <;> rfl
      · intro _
        simp only [File.fileSize, ensureUnmapped_slots, List.length_take, superblockSize, entrySize]
        omega

theorem Inv.reopen {f : File} {L : List Entry} (h : Inv f L) : Inv (Blocklist.reopen f) L := by
  have : Inv (ensureUnmapped f) L := by
    unfold ensureUnmapped
    split
    · exact ⟨h.slots, h.n, h.cnt, h.len, h.msize, h.msize_le, fun hh => absurd hh (by simp), h.w0, h.small⟩
    · exact h
  exact this.mapped

/-! ### fsck -/

/-- fsck's walk over the entries. -/
def fsckL : List Entry → (prevEnd prevStart : Nat) → (acc : Nat → Nat) → M (Nat → Nat)
  | [], _, _, acc => .ok acc
  | e :: L, pe, ps, acc =>
    if e.start < pe then .error (.thrown 643)
    else if e.start < ps then .error (.thrown 651)
    else if e.count = 0 then .error (.thrown 659)
    else if e.state < 4 then
      fsckL L e.fin e.start (fun t => if t = e.state then u64 (acc t + e.count) else acc t)
    else .error (.ub 664)

theorem fsckLoop_rep {f : File} {S : List Entry} {g : Nat → Int} (B : List Entry) :
    ∀ A pe ps acc, Rep f (A ++ B) S g → fsckLoop f B.length A.length pe ps acc = fsckL B pe ps acc := by
  induction B with
  | nil => intro A pe ps acc _; rfl
  | cons e B ih =>
    intro A pe ps acc h
    have h2 : Rep f ((A ++ [e]) ++ B) S g := h.congrL (by simp)
    have := fun pe ps acc => ih (A ++ [e]) pe ps acc h2
    simp only [List.length_append, List.length_singleton] at this
    simp only [List.length_cons, fsckLoop, deref_rep h, bind_ok, fsckL, this]

/-- With valid state bytes the walk either completes or throws. -/
theorem fsckL_no_ub (L : List Entry) : ∀ pe ps acc, (∀ e ∈ L, e.state < 4) →
    (∃ a, fsckL L pe ps acc = .ok a) ∨ (∃ l, fsckL L pe ps acc = .error (.thrown l)) := by
  induction L with
  | nil => intro pe ps acc _; exact .inl ⟨_, rfl⟩
  | cons e L ih =>
    intro pe ps acc h
    unfold fsckL
    split
    · exact .inr ⟨_, rfl⟩
    · split
      · exact .inr ⟨_, rfl⟩
      · split
        · exact .inr ⟨_, rfl⟩
        · rw [if_pos (h e (by simp))]
          exact ih _ _ _ (fun x hx => h x (by simp [hx]))

/-- `fsck` on a reachable block list: passes (and shrinks), or throws. -/
theorem Inv.fsck {f : File} {L : List Entry} (h : Inv f L) :
    (Blocklist.fsck f = Blocklist.shrink (ensureMapped f)) ∨ (∃ l, Blocklist.fsck f = .error (.thrown l)) := by
  obtain ⟨S, hr⟩ := h.rep
  unfold Blocklist.fsck
  have e1 : fsckLoop (ensureMapped f) (ensureMapped f).n 0 0 0 (fun _ => 0) = fsckL L 0 0 (fun _ => 0) := by
    rw [hr.n]; exact fsckLoop_rep L [] 0 0 _ (by simpa using hr)
  simp only [e1]
  rcases fsckL_no_ub L 0 0 (fun _ => 0) (fun e he => (h.w0.ok e he).state) with ⟨a, ha⟩ | ⟨l, hl⟩
  · rw [ha, bind_ok]
    split
    · exact .inl rfl
    · exact .inr ⟨_, rfl⟩
  · rw [hl, bind_err]; exact .inr ⟨_, rfl⟩

/-! ### Histories -/

/-- The ranges of the marks in a history end below 2^64. -/
def CallsInRange (cs : List Call) : Prop :=
  ∀ s c st, Call.mark s c st ∈ cs → s + c < W64

/-- The entries after a history. -/
def callL (L : List Entry) : Call → List Entry
  | .mark s c st => chunkL st (c / 65535 + 1) L s c
  | _ => L

theorem Inv.step {f : File} {L : List Entry} (h : Inv f L) (c : Call)
    (hc : ∀ s n st, c = .mark s n st → s + n < W64) :
    ∃ f', Blocklist.step f c = .ok f' ∧ Inv f' (callL L c) := by
  cases c with
  | mark s n st => exact h.mark st (hc s n st rfl)
  | shrink =>
    obtain ⟨f', e, i, _⟩ := h.shrink
    exact ⟨f', e, i⟩
  | fsck =>
    unfold Blocklist.step
    rcases h.fsck with e | ⟨l, e⟩
    · obtain ⟨f', e', i, _⟩ := h.mapped.shrink
      simp only [e, e']
      exact ⟨f', rfl, i⟩
    · simp only [e]
      exact ⟨_, rfl, h.mapped⟩
  | reopen => exact ⟨_, rfl, h.reopen⟩

theorem Inv.calls (cs : List Call) : ∀ {f : File} {L : List Entry}, Inv f L → CallsInRange cs →
    ∃ f', Blocklist.calls f cs = .ok f' ∧ Inv f' (cs.foldl callL L) := by
  induction cs with
  | nil => intro f L h _; exact ⟨f, rfl, h⟩
  | cons c cs ih =>
    intro f L h hr
    obtain ⟨f1, e1, i1⟩ := h.step c (fun s n st e => hr s n st (by simp [e]))
    obtain ⟨f2, e2, i2⟩ := ih i1 (fun s n st hm => hr s n st (by simp [hm]))
    refine ⟨f2, ?_, i2⟩
    rw [Blocklist.calls, e1, bind_ok]; exact e2

theorem fresh_len : fresh.slots.length = 224 := List.length_replicate

theorem Inv.fresh : Inv fresh [] where
  slots := ⟨List.replicate 224 zeroEntry, rfl⟩
  n := rfl
  cnt := fun t => rfl
  len := fresh_len.symm ▸ rfl
  msize := rfl
  msize_le := by rw [File.fileSize, fresh_len]; exact Nat.le_refl _
  msize_eq := by intro _; rw [File.fileSize, fresh_len]; rfl
  w0 := ⟨by simp, by simp⟩
  small := fun x hx => by rw [List.eq_of_mem_replicate hx]; exact ⟨by decide, by decide, by decide⟩

theorem Inv.state {f : File} {L : List Entry} (h : Inv f L) (b : Nat) : stateAt f b = .ok (sem L b) := by
  obtain ⟨S, hr⟩ := h.rep
  have := stateAt_rep hr h.w0.ok b
  unfold stateAt at this ⊢
  rw [ensureMapped_idem, ensureMapped_n] at this
  exact this

end Dragonstash.Blocklist
