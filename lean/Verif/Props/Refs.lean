/-
  C13, C14: the in-memory reference counter.
-/
import Verif.Cache.Refs
namespace Dragonstash.RefMap

/-! ### Specification -/

/-- Sum of the amounts of the successful increments of `i` in a history with results. -/
def incs (i : Ino) : List (Op × Out) → Nat
  | [] => 0
  | (.inc j n, .ok _) :: t => (if j = i then n else 0) + incs i t
  | _ :: t => incs i t

/-- Sum of the amounts of the successful decrements of `i`. -/
def decs (i : Ino) : List (Op × Out) → Nat
  | [] => 0
  | (.dec j n, .ok _) :: t => (if j = i then n else 0) + decs i t
  | _ :: t => decs i t

/-- Some call successfully doomed `i`. -/
def hasDoom (i : Ino) (h : List (Op × Out)) : Prop := ∃ o, (Op.doom i, Out.ok o) ∈ h

/-- The calls of a history paired with their results. -/
def hist (m : RefMap) (ops : List Op) : List (Op × Out) := ops.zip (run m ops).2

/-- The inode a call is about. -/
def Op.ino : Op → Ino
  | .inc i _ => i
  | .dec i _ => i
  | .doom i => i

theorem hist_cons (m : RefMap) (op : Op) (ops : List Op) :
    hist m (op :: ops) = (op, (step m op).2) :: hist (step m op).1 ops := by
  unfold hist; simp [run]

theorem run_cons (m : RefMap) (op : Op) (ops : List Op) :
    (run m (op :: ops)).1 = (run (step m op).1 ops).1 := by simp [run]

/-! Each call in terms of counts and dooms. -/

theorem step_inc (m : RefMap) (i n : Nat) :
    (doomed m i = true ∧ step m (.inc i n) = (m, .err ESTALE)) ∨
    (doomed m i = false ∧ (step m (.inc i n)).2 = .ok (u64 (refcount m i + n))
      ∧ (∀ j, refcount (step m (.inc i n)).1 j = if j = i then u64 (refcount m i + n) else refcount m j)
      ∧ (∀ j, doomed (step m (.inc i n)).1 j = doomed m j)) := by
  cases hm : m i with
  | none =>
    refine .inr ⟨by simp [doomed, hm], by simp [step, incref, refcount, hm], ?_, ?_⟩ <;> intro j <;>
      by_cases h : j = i <;> simp [step, incref, refcount, doomed, hm, set, h]
  | some r =>
    by_cases hd : r.doomed = true
    · exact .inl ⟨by simp [doomed, hm, hd], by simp [step, incref, hm, hd]⟩
    · refine .inr ⟨by simpa [doomed, hm] using hd, by simp [step, incref, refcount, hm, hd], ?_, ?_⟩ <;> intro j <;>
        by_cases h : j = i <;> simp [step, incref, refcount, doomed, hm, hd, set, h]

theorem step_dec (m : RefMap) (i n : Nat) :
    (n = 0 ∧ step m (.dec i n) = (m, .err EINVAL)) ∨
    (n ≠ 0 ∧ refcount m i < n ∧ step m (.dec i n) = (m, .threw)) ∨
    (n ≠ 0 ∧ n ≤ refcount m i ∧ (step m (.dec i n)).2 = .ok (refcount m i - n)
      ∧ (∀ j, refcount (step m (.dec i n)).1 j = if j = i then refcount m i - n else refcount m j)
      ∧ (∀ j, doomed (step m (.dec i n)).1 j = doomed m j)) := by
  by_cases hn : n = 0
  · exact .inl ⟨hn, by simp [step, decref, hn]⟩
  · cases hm : m i with
    | none => exact .inr (.inl ⟨hn, by simp [refcount, hm]; omega, by simp [step, decref, hn, hm]⟩)
    | some r =>
      by_cases hd : r.nrefs < n
      · exact .inr (.inl ⟨hn, by simpa [refcount, hm] using hd, by simp [step, decref, hn, hm, hd]⟩)
      · refine .inr (.inr ⟨hn, by simp [refcount, hm]; omega, by simp [step, decref, refcount, hn, hm, hd], ?_, ?_⟩) <;>
          intro j <;> by_cases h : j = i <;> simp [step, decref, refcount, doomed, hn, hm, hd, set, h]

theorem step_doom (m : RefMap) (i : Nat) :
    (0 < refcount m i ∧ step m (.doom i) = (m, .err EBUSY)) ∨
    (refcount m i = 0 ∧ (step m (.doom i)).2 = .ok 0
      ∧ (∀ j, refcount (step m (.doom i)).1 j = refcount m j)
      ∧ (∀ j, doomed (step m (.doom i)).1 j = if j = i then true else doomed m j)) := by
  cases hm : m i with
  | none =>
    refine .inr ⟨by simp [refcount, hm], by simp [step, doom, hm], ?_, ?_⟩ <;> intro j <;>
      by_cases h : j = i <;> simp [step, doom, refcount, doomed, hm, set, h]
  | some r =>
    by_cases hd : r.nrefs > 0
    · exact .inl ⟨by simpa [refcount, hm] using hd, by simp [step, doom, hm, hd]⟩
    · have h0 : r.nrefs = 0 := by omega
      refine .inr ⟨by simp [refcount, hm, h0], by simp [step, doom, hm, h0], ?_, ?_⟩ <;> intro j <;>
        by_cases h : j = i <;> simp [step, doom, refcount, doomed, hm, h0, set, h]

/-- Effect of one call on the counter. -/
theorem step_count (m : RefMap) (op : Op) (i : Ino)
    (hb : refcount m i + incs i [(op, (step m op).2)] < W64) :
    refcount (step m op).1 i + decs i [(op, (step m op).2)]
      = refcount m i + incs i [(op, (step m op).2)] := by
  cases op with
  | inc j n =>
    rcases step_inc m j n with ⟨-, h⟩ | ⟨-, h1, h2, -⟩
    · rw [h]; simp [incs, decs]
    · rw [h1] at hb ⊢
      rw [h2]
      simp only [incs, decs] at hb ⊢
      by_cases hj : i = j
      · subst hj; simp only [if_true, u64] at hb ⊢; rw [Nat.mod_eq_of_lt (by omega)]; omega
      · simp [hj, Ne.symm hj]
  | dec j n =>
    rcases step_dec m j n with ⟨-, h⟩ | ⟨-, -, h⟩ | ⟨-, h0, h1, h2, -⟩
    · rw [h]; simp [incs, decs]
    · rw [h]; simp [incs, decs]
    · rw [h1, h2]
      simp only [incs, decs]
      by_cases hj : i = j
      · subst hj; simp only [if_true]; omega
      · simp [hj, Ne.symm hj]
  | doom j =>
    rcases step_doom m j with ⟨-, h⟩ | ⟨-, h1, h2, -⟩
    · rw [h]; simp [incs, decs]
    · rw [h1, h2]; simp [incs, decs]

theorem incs_cons (i : Ino) (x : Op × Out) (t : List (Op × Out)) : incs i (x :: t) = incs i [x] + incs i t := by
  obtain ⟨op, o⟩ := x
  cases op <;> cases o <;> simp [incs]
theorem decs_cons (i : Ino) (x : Op × Out) (t : List (Op × Out)) : decs i (x :: t) = decs i [x] + decs i t := by
  obtain ⟨op, o⟩ := x
  cases op <;> cases o <;> simp [decs]

theorem run_count (ops : List Op) (m : RefMap) (i : Ino)
    (hb : refcount m i + incs i (hist m ops) < W64) :
    refcount (run m ops).1 i + decs i (hist m ops) = refcount m i + incs i (hist m ops) := by
  induction ops generalizing m with
  | nil => rfl
  | cons op ops ih =>
    rw [run_cons, hist_cons, incs_cons, decs_cons]
    rw [hist_cons, incs_cons] at hb
    have h1 := step_count m op i (by omega)
    have h2 := ih (step m op).1 (by omega)
    omega

/-- C13. Over any sequence of calls on a fresh object (including calls which throw), the count of
every inode is the sum of its successful increments minus the sum of its successful decrements,
as long as the increments stay below 2^64. -/
theorem C13_count (ops : List Op) (i : Ino) (hb : incs i (hist empty ops) < W64) :
    refcount (run empty ops).1 i = incs i (hist empty ops) - decs i (hist empty ops)
    ∧ decs i (hist empty ops) ≤ incs i (hist empty ops) := by
  have h := run_count ops empty i (by simpa [refcount, empty] using hb)
  have h0 : refcount empty i = 0 := rfl
  omega

/-- C13. A decrement succeeds exactly if it is positive and at most the count; a larger one
throws, a zero one is EINVAL, and both change nothing. A decrement reports the new count. -/
theorem C13_decrement (m : RefMap) (i n : Nat) :
    (n = 0 → step m (.dec i n) = (m, .err EINVAL)) ∧
    (n ≠ 0 → refcount m i < n → step m (.dec i n) = (m, .threw)) ∧
    (n ≠ 0 → n ≤ refcount m i → (step m (.dec i n)).2 = .ok (refcount m i - n)
      ∧ refcount (step m (.dec i n)).1 i = refcount m i - n
      ∧ doomed (step m (.dec i n)).1 i = doomed m i) := by
  rcases step_dec m i n with ⟨h, h'⟩ | ⟨h, h0, h'⟩ | ⟨h, h0, h1, h2, h3⟩
  · exact ⟨fun _ => h', fun hn => absurd h hn, fun hn => absurd h hn⟩
  · exact ⟨fun hn => absurd hn h, fun _ _ => h', fun _ hn => by omega⟩
  · exact ⟨fun hn => absurd hn h, fun _ hn => by omega, fun _ _ => ⟨h1, by rw [h2]; simp, h3 i⟩⟩

/-- C13. A call about one inode changes neither count nor doom of any other. -/
theorem C13_others (m : RefMap) (op : Op) (j : Ino) (hj : j ≠ op.ino) :
    refcount (step m op).1 j = refcount m j ∧ doomed (step m op).1 j = doomed m j := by
  cases op with
  | inc i n =>
    rcases step_inc m i n with ⟨-, h⟩ | ⟨-, -, h2, h3⟩
    · rw [h]; exact ⟨rfl, rfl⟩
    · exact ⟨by rw [h2]; exact if_neg hj, h3 j⟩
  | dec i n =>
    rcases step_dec m i n with ⟨-, h⟩ | ⟨-, -, h⟩ | ⟨-, -, -, h2, h3⟩
    · rw [h]; exact ⟨rfl, rfl⟩
    · rw [h]; exact ⟨rfl, rfl⟩
    · exact ⟨by rw [h2]; exact if_neg hj, h3 j⟩
  | doom i =>
    rcases step_doom m i with ⟨-, h⟩ | ⟨-, -, h2, h3⟩
    · rw [h]; exact ⟨rfl, rfl⟩
    · exact ⟨h2 j, by rw [h3]; exact if_neg hj⟩

/-- C13. An increment succeeds exactly if the inode is not doomed, and reports the new count. -/
theorem C13_increment (m : RefMap) (i n : Nat) (hb : refcount m i + n < W64) :
    (doomed m i = true → step m (.inc i n) = (m, .err ESTALE)) ∧
    (doomed m i = false → (step m (.inc i n)).2 = .ok (refcount m i + n)
      ∧ refcount (step m (.inc i n)).1 i = refcount m i + n ∧ doomed (step m (.inc i n)).1 i = false) := by
  rcases step_inc m i n with ⟨h, h'⟩ | ⟨h, h1, h2, h3⟩
  · exact ⟨fun _ => h', fun hd => (by rw [h] at hd; cases hd)⟩
  · refine ⟨fun hd => (by rw [h] at hd; cases hd), fun _ => ⟨?_, ?_, by rw [h3, h]⟩⟩
    · rw [h1]; simp [u64, Nat.mod_eq_of_lt hb]
    · rw [h2]; simp [u64, Nat.mod_eq_of_lt hb]

/-- A history as in `C13_count`; its calls are instances of `C13_increment`, `C13_decrement` and `C13_others` (which with `C13_table` hold for any table). -/
example : incs 5 (hist empty [.inc 5 3, .inc 5 4, .dec 5 2, .dec 5 9, .inc 6 1, .dec 5 5, .doom 5, .inc 5 1]) = 7
    ∧ (run empty [.inc 5 3, .inc 5 4, .dec 5 2, .dec 5 9, .inc 6 1, .dec 5 5, .doom 5, .inc 5 1]).2
      = [.ok 3, .ok 7, .ok 5, .threw, .ok 1, .ok 0, .ok 0, .err ESTALE] := by decide +kernel

/-! ### C14 -/

/-- A doomed inode has count zero. -/
def Excl (m : RefMap) : Prop := ∀ i, doomed m i = true → refcount m i = 0

theorem step_excl (m : RefMap) (op : Op) (h : Excl m) : Excl (step m op).1 := by
  intro j
  have hj := h j
  cases op with
  | inc i n =>
    rcases step_inc m i n with ⟨-, h⟩ | ⟨h0, -, h2, h3⟩
    · rw [h]; exact hj
    · rw [h2, h3]
      intro hd
      by_cases hji : j = i
      · subst hji; rw [h0] at hd; cases hd
      · rw [if_neg hji]; exact hj hd
  | dec i n =>
    rcases step_dec m i n with ⟨-, h⟩ | ⟨-, -, h⟩ | ⟨-, -, -, h2, h3⟩
    · rw [h]; exact hj
    · rw [h]; exact hj
    · rw [h2, h3]; intro hd; have := hj hd
      split
      · subst_vars; omega
      · exact this
  | doom i =>
    rcases step_doom m i with ⟨-, h⟩ | ⟨h0, -, h2, h3⟩
    · rw [h]; exact hj
    · rw [h2, h3]
      by_cases hji : j = i
      · subst hji; intro _; exact h0
      · rw [if_neg hji]; exact hj

theorem run_excl (ops : List Op) (m : RefMap) (h : Excl m) : Excl (run m ops).1 := by
  induction ops generalizing m with
  | nil => exact h
  | cons op ops ih => rw [run_cons]; exact ih _ (step_excl m op h)

theorem step_doomed (m : RefMap) (op : Op) (i : Ino) :
    doomed (step m op).1 i = true ↔
      doomed m i = true ∨ ∃ o, (op, (step m op).2) = (Op.doom i, Out.ok o) := by
  cases op with
  | inc j n =>
    rcases step_inc m j n with ⟨-, h⟩ | ⟨-, -, -, h3⟩
    · rw [h]; simp
    · rw [h3]; simp
  | dec j n =>
    rcases step_dec m j n with ⟨-, h⟩ | ⟨-, -, h⟩ | ⟨-, -, -, -, h3⟩
    · rw [h]; simp
    · rw [h]; simp
    · rw [h3]; simp
  | doom j =>
    rcases step_doom m j with ⟨-, h⟩ | ⟨-, h1, -, h3⟩
    · rw [h]; simp
    · rw [h1, h3]
      by_cases hj : i = j
      · subst hj; simp
      · simp [hj, Ne.symm hj]

theorem step_doomed_mono (m : RefMap) (op : Op) (i : Ino) (h : doomed m i = true) :
    doomed (step m op).1 i = true := (step_doomed m op i).mpr (.inl h)

theorem run_doomed_mono (ops : List Op) (m : RefMap) (i : Ino) (h : doomed m i = true) :
    doomed (run m ops).1 i = true := by
  induction ops generalizing m with
  | nil => exact h
  | cons op ops ih => rw [run_cons]; exact ih _ (step_doomed_mono m op i h)

/-- C14. In every state reachable by calls, a doomed inode has count zero, so an inode with a
positive count is not doomed. -/
theorem C14_exclusive (ops : List Op) (i : Ino) :
    ¬ (doomed (run empty ops).1 i = true ∧ 0 < refcount (run empty ops).1 i) := by
  intro ⟨h1, h2⟩
  have := run_excl ops empty (by intro i h; simp [doomed, empty] at h) i h1
  omega

/-- C14. Dooming fails with EBUSY, changing nothing, exactly if the count is positive; otherwise
it succeeds and the inode is doomed. -/
theorem C14_doom (m : RefMap) (i : Ino) :
    (0 < refcount m i → step m (.doom i) = (m, .err EBUSY)) ∧
    (refcount m i = 0 → (step m (.doom i)).2 = .ok 0 ∧ doomed (step m (.doom i)).1 i = true
      ∧ refcount (step m (.doom i)).1 i = 0) := by
  rcases step_doom m i with ⟨h, h'⟩ | ⟨h, h1, h2, h3⟩
  · exact ⟨fun _ => h', fun hn => by omega⟩
  · exact ⟨fun hn => by omega, fun _ => ⟨h1, by rw [h3]; simp, by rw [h2]; exact h⟩⟩

/-- C14. Once doomed, an inode stays doomed with count zero over any further calls, every
increment of it fails with ESTALE, every positive decrement throws, and neither changes anything. -/
theorem C14_doomed_forever (ops ops' : List Op) (i : Ino)
    (h : doomed (run empty ops).1 i = true) :
    let m := (run (run empty ops).1 ops').1
    doomed m i = true ∧ refcount m i = 0 ∧ (∀ n, step m (.inc i n) = (m, .err ESTALE))
      ∧ (∀ n, 0 < n → step m (.dec i n) = (m, .threw)) := by
  intro m
  have h1 : doomed m i = true := run_doomed_mono ops' _ i h
  have h2 : Excl m := run_excl ops' _ (run_excl ops empty (by intro i h; simp [doomed, empty] at h))
  have h3 := h2 i h1
  refine ⟨h1, h3, ?_, ?_⟩
  · intro n
    rcases step_inc m i n with ⟨-, h'⟩ | ⟨h0, -⟩
    · exact h'
    · rw [h1] at h0; cases h0
  · intro n hn
    exact (C13_decrement m i n).2.1 (by omega) (by omega)

/-- Exactly the inodes doomed by a successful call are doomed. -/
theorem C14_doomed_iff (ops : List Op) (i : Ino) :
    doomed (run empty ops).1 i = true ↔ hasDoom i (hist empty ops) := by
  suffices ∀ m : RefMap, doomed (run m ops).1 i = true ↔ doomed m i = true ∨ hasDoom i (hist m ops) by
    rw [this]; simp [doomed, empty]
  induction ops with
  | nil => intro m; simp [run, hist, hasDoom]
  | cons op ops ih =>
    intro m
    rw [run_cons, hist_cons, ih]
    rw [step_doomed]
    unfold hasDoom
    constructor
    · rintro ((h | ⟨o, h⟩) | ⟨o, h⟩)
      · exact .inl h
      · exact .inr ⟨o, by rw [h]; simp⟩
      · exact .inr ⟨o, List.mem_cons_of_mem _ h⟩
    · rintro (h | ⟨o, h⟩)
      · exact .inl (.inl h)
      · rcases List.mem_cons.mp h with h | h
        · exact .inl (.inr ⟨o, h.symm⟩)
        · exact .inr ⟨o, h⟩

/-- A history as in `C14_doomed_forever`, with both cases of `C14_doom` (`C14_exclusive` and `C14_doomed_iff` have no hypotheses). -/
example : doomed (run empty [.inc 2 1, .doom 2, .dec 2 1, .doom 2]).1 2 = true
    ∧ (run empty [.inc 2 1, .doom 2, .dec 2 1, .doom 2, .inc 2 1]).2
      = [.ok 1, .err EBUSY, .ok 0, .ok 0, .err ESTALE] := by decide +kernel

end Dragonstash.RefMap

/-! The table of the cache model is this object. -/
namespace Dragonstash.Refs

/-- The table a map stands for. -/
def ofMap (m : RefMap.RefMap) : Refs := fun i => (m i).getD ⟨0, false⟩

theorem ofMap_set (m : RefMap.RefMap) (i : Ino) (x : Rec) :
    ofMap (RefMap.set m i x) = (ofMap m).set i x := by
  funext j; unfold ofMap RefMap.set set; split <;> rfl

theorem incref_ofMap (m : RefMap.RefMap) (i n : Nat) :
    (ofMap m).incref i n = (ofMap (RefMap.incref m i n).1, (RefMap.incref m i n).2) := by
  unfold incref RefMap.incref
  cases hm : m i with
  | none =>
    have : ofMap m i = ⟨0, false⟩ := by simp [ofMap, hm]
    simp [this, ofMap_set]
  | some r =>
    have : ofMap m i = r := by simp [ofMap, hm]
    simp only [this]
    by_cases hd : r.doomed = true <;> simp [hd, ofMap_set]

theorem decref_ofMap (m : RefMap.RefMap) (i n : Nat) :
    (ofMap m).decref i n = (RefMap.decref m i n).map (fun p => (ofMap p.1, p.2)) := by
  unfold decref RefMap.decref
  by_cases hn : n = 0
  · simp [hn, Except.map]
  · simp only [hn, if_false]
    cases hm : m i with
    | none =>
      have : ofMap m i = ⟨0, false⟩ := by simp [ofMap, hm]
      simp [this, Except.map, Nat.pos_of_ne_zero hn]
    | some r =>
      have : ofMap m i = r := by simp [ofMap, hm]
      simp only [this]
      by_cases hd : r.nrefs < n <;> simp [hd, ofMap_set, Except.map]

theorem doom_ofMap (m : RefMap.RefMap) (i : Nat) :
    (ofMap m).doom i = (ofMap (RefMap.doom m i).1, (RefMap.doom m i).2) := by
  unfold doom RefMap.doom
  cases hm : m i with
  | none =>
    have : ofMap m i = ⟨0, false⟩ := by simp [ofMap, hm]
    simp [this, ofMap_set]
  | some r =>
    have : ofMap m i = r := by simp [ofMap, hm]
    simp only [this]
    by_cases hd : r.nrefs > 0 <;> simp [hd, ofMap_set]

/-- C13, C14. The table which the cache model uses (absent records identified with the record of
count zero) answers every call as the object does, and goes on standing for it. -/
theorem C13_table (m : RefMap.RefMap) (i n : Nat) :
    (ofMap m).incref i n = (ofMap (RefMap.incref m i n).1, (RefMap.incref m i n).2)
    ∧ (ofMap m).decref i n = (RefMap.decref m i n).map (fun p => (ofMap p.1, p.2))
    ∧ (ofMap m).doom i = (ofMap (RefMap.doom m i).1, (RefMap.doom m i).2)
    ∧ (ofMap m i).nrefs = RefMap.refcount m i ∧ (ofMap m i).doomed = RefMap.doomed m i := by
  refine ⟨incref_ofMap m i n, decref_ofMap m i n, doom_ofMap m i, ?_, ?_⟩ <;>
    unfold ofMap <;> first | unfold RefMap.refcount | unfold RefMap.doomed
  all_goals cases m i <;> rfl

end Dragonstash.Refs
