/-
  LMDB databases: ordered maps from byte strings (ordered like `memcmp`, shorter first) to values.
  LMDB itself is outside the code base; this is the assumed behaviour of `get`, `put`, `del`,
  `mdb_cursor_get(MDB_SET_RANGE)` (`lower_bound`), `MDB_FIRST` and `MDB_NEXT`.
-/
import Verif.Bytes
namespace Dragonstash

/-- `memcmp` order on byte strings, a proper prefix being smaller. -/
def blt : Bytes → Bytes → Bool
  | _, [] => false
  | [], _ :: _ => true
  | a :: as, b :: bs => decide (a < b) || (a == b && blt as bs)

theorem blt_irrefl (a : Bytes) : blt a a = false := by
  induction a with
  | nil => rfl
  | cons x xs ih => simp [blt, ih, UInt8.lt_irrefl]

theorem blt_trans {a b c : Bytes} (h1 : blt a b = true) (h2 : blt b c = true) : blt a c = true := by
  induction a generalizing b c with
  | nil =>
    cases c with
    | nil => cases b <;> simp [blt] at h2
    | cons => rfl
  | cons x xs ih =>
    cases b with
    | nil => simp [blt] at h1
    | cons y ys =>
      cases c with
      | nil => simp [blt] at h2
      | cons z zs =>
        simp only [blt, Bool.or_eq_true, decide_eq_true_eq, Bool.and_eq_true, beq_iff_eq] at *
        rcases h1 with h1 | ⟨rfl, h1⟩
        · rcases h2 with h2 | ⟨rfl, h2⟩
          · exact .inl (UInt8.lt_trans h1 h2)
          · exact .inl h1
        · rcases h2 with h2 | ⟨rfl, h2⟩
          · exact .inl h2
          · exact .inr ⟨rfl, ih h1 h2⟩

theorem blt_total (a b : Bytes) : blt a b = true ∨ a = b ∨ blt b a = true := by
  induction a generalizing b with
  | nil => cases b <;> simp [blt]
  | cons x xs ih =>
    cases b with
    | nil => simp [blt]
    | cons y ys =>
      simp only [blt, Bool.or_eq_true, decide_eq_true_eq, Bool.and_eq_true, beq_iff_eq, List.cons.injEq]
      rcases UInt8.lt_or_lt_of_ne (a := x) (b := y) |> fun f => Classical.em (x = y) |>.elim
          (fun h => Or.inl h) (fun h => Or.inr (f h)) with h | h | h
      · subst h
        rcases ih ys with h | h | h
        · exact .inl (.inr ⟨rfl, h⟩)
        · exact .inr (.inl ⟨rfl, h⟩)
        · exact .inr (.inr (.inr ⟨rfl, h⟩))
      · exact .inl (.inl h)
      · exact .inr (.inr (.inl h))

theorem blt_asymm {a b : Bytes} (h : blt a b = true) : blt b a = false := by
  cases hb : blt b a with
  | false => rfl
  | true => have := blt_trans h hb; rw [blt_irrefl] at this; cases this

theorem blt_ne {a b : Bytes} (h : blt a b = true) : a ≠ b := by
  rintro rfl; rw [blt_irrefl] at h; cases h

theorem blt_append_left (p a b : Bytes) : blt (p ++ a) (p ++ b) = blt a b := by
  induction p with
  | nil => rfl
  | cons x xs ih => simp [blt, ih, UInt8.lt_irrefl]

/-- Strings with prefix `p` come before every larger string without that prefix, if that one is at
least as long as `p`. -/
theorem blt_prefix_gap {p k s : Bytes} (hge : blt k p = false) (hlen : p.length ≤ k.length)
    (hne : k.take p.length ≠ p) : blt (p ++ s) k = true := by
  induction p generalizing k with
  | nil => simp at hne
  | cons x xs ih =>
    cases k with
    | nil => simp at hlen
    | cons y ys =>
      simp only [List.cons_append, blt, Bool.or_eq_true, decide_eq_true_eq, Bool.and_eq_true, beq_iff_eq]
      simp only [blt, Bool.or_eq_false_iff, decide_eq_false_iff_not, Bool.and_eq_false_iff] at hge
      by_cases hxy : x = y
      · subst hxy
        refine .inr ⟨rfl, ih ?_ (by simpa using hlen) ?_⟩
        · rcases hge.2 with h | h
          · simp at h
          · exact h
        · intro h; apply hne; simp [h]
      · left
        rcases UInt8.lt_or_lt_of_ne hxy with h | h
        · exact h
        · exact absurd h hge.1

theorem blt_prefix_self (p s : Bytes) : blt (p ++ s) p = false := by
  induction p with
  | nil => cases s <;> rfl
  | cons x xs ih => simp [blt, ih, UInt8.lt_irrefl]

/-- A database: entries in key order, keys distinct. -/
structure Tab (V : Type) where
  entries : List (Bytes × V)
  sorted : entries.Pairwise (fun a b => blt a.1 b.1 = true)

namespace Tab
variable {V : Type}

/-- No entries. -/
def empty : Tab V := ⟨[], .nil⟩

/-- `get` / `cursor.find`: the value at a key. -/
def findL : List (Bytes × V) → Bytes → Option V
  | [], _ => none
  | e :: t, k => if e.1 = k then some e.2 else findL t k

def find (t : Tab V) (k : Bytes) : Option V := findL t.entries k

/-- Insertion into the ordered list. -/
def insL (k : Bytes) (v : V) : List (Bytes × V) → List (Bytes × V)
  | [] => [(k, v)]
  | e :: t => if blt k e.1 then (k, v) :: e :: t else if e.1 = k then (k, v) :: t else e :: insL k v t

theorem insL_mem {k : Bytes} {v : V} {l : List (Bytes × V)} {e : Bytes × V} (h : e ∈ insL k v l) :
    e = (k, v) ∨ e ∈ l := by
  induction l with
  | nil => simp [insL] at h; exact .inl h
  | cons x xs ih =>
    unfold insL at h
    split at h
    · rcases List.mem_cons.mp h with h | h
      · exact .inl h
      · exact .inr h
    · split at h
      · rcases List.mem_cons.mp h with h | h
        · exact .inl h
        · exact .inr (List.mem_cons_of_mem _ h)
      · rcases List.mem_cons.mp h with h | h
        · exact .inr (h ▸ List.mem_cons_self ..)
        · rcases ih h with h | h
          · exact .inl h
          · exact .inr (List.mem_cons_of_mem _ h)

theorem insL_sorted {k : Bytes} {v : V} {l : List (Bytes × V)}
    (h : l.Pairwise (fun a b => blt a.1 b.1 = true)) :
    (insL k v l).Pairwise (fun a b => blt a.1 b.1 = true) := by
  induction l with
  | nil => simp [insL]
  | cons x xs ih =>
    have hx := List.pairwise_cons.mp h
    unfold insL
    split
    · rename_i hlt
      refine List.pairwise_cons.mpr ⟨?_, h⟩
      intro e he
      rcases List.mem_cons.mp he with rfl | he
      · exact hlt
      · exact blt_trans hlt (hx.1 e he)
    · split
      · rename_i heq
        refine List.pairwise_cons.mpr ⟨?_, hx.2⟩
        intro e he; simp only; rw [← heq]; exact hx.1 e he
      · rename_i hlt hne
        refine List.pairwise_cons.mpr ⟨?_, ih hx.2⟩
        intro e he
        rcases insL_mem he with rfl | he
        · simp only
          rcases blt_total x.1 k with h | h | h
          · exact h
          · exact absurd h hne
          · exact absurd h hlt
        · exact hx.1 e he

/-- `put`: insert or overwrite. -/
def put (t : Tab V) (k : Bytes) (v : V) : Tab V := ⟨insL k v t.entries, insL_sorted t.sorted⟩

/-- `del`: remove a key (no effect if absent). -/
def del (t : Tab V) (k : Bytes) : Tab V :=
  ⟨t.entries.filter (fun e => decide (e.1 ≠ k)), t.sorted.filter _⟩

/-- Position of `lower_bound(k)`: the entries from the first key not below `k` on; `next` moves to
the tail. -/
def lower (t : Tab V) (k : Bytes) : List (Bytes × V) := t.entries.dropWhile (fun e => blt e.1 k)

/-- Number of entries. -/
def size (t : Tab V) : Nat := t.entries.length

theorem findL_some_mem {l : List (Bytes × V)} {k : Bytes} {v : V} (h : findL l k = some v) : (k, v) ∈ l := by
  induction l with
  | nil => cases h
  | cons x xs ih =>
    unfold findL at h
    split at h
    · rename_i he; cases h; rw [← he]; exact List.mem_cons_self ..
    · exact List.mem_cons_of_mem _ (ih h)

theorem findL_mem {l : List (Bytes × V)} (hs : l.Pairwise (fun a b => blt a.1 b.1 = true)) {k : Bytes} {v : V}
    (h : (k, v) ∈ l) : findL l k = some v := by
  induction l with
  | nil => cases h
  | cons x xs ih =>
    have hx := List.pairwise_cons.mp hs
    unfold findL
    rcases List.mem_cons.mp h with h | h
    · rw [← h]; simp
    · rw [if_neg]
      · exact ih hx.2 h
      · exact fun he => blt_ne (hx.1 _ h) he

theorem mem_iff (t : Tab V) (k : Bytes) (v : V) : (k, v) ∈ t.entries ↔ t.find k = some v :=
  ⟨findL_mem t.sorted, findL_some_mem⟩

theorem findL_insL {l : List (Bytes × V)} (hs : l.Pairwise (fun a b => blt a.1 b.1 = true)) (k k' : Bytes) (v : V) :
    findL (insL k v l) k' = if k = k' then some v else findL l k' := by
  induction l with
  | nil => simp [insL, findL]
  | cons x xs ih =>
    have hx := List.pairwise_cons.mp hs
    unfold insL
    split
    · simp only [findL]
    · split
      · rename_i heq
        simp only [findL, heq]
        split <;> rfl
      · rename_i hne
        simp only [findL, ih hx.2]
        by_cases h1 : x.1 = k'
        · rw [if_pos h1, if_neg (by rintro rfl; exact hne h1), if_pos h1]
        · rw [if_neg h1, if_neg h1]

theorem find_put (t : Tab V) (k k' : Bytes) (v : V) :
    (t.put k v).find k' = if k = k' then some v else t.find k' := findL_insL t.sorted k k' v

@[simp] theorem find_put_self (t : Tab V) (k : Bytes) (v : V) : (t.put k v).find k = some v := by
  rw [find_put, if_pos rfl]
theorem find_put_ne (t : Tab V) {k k' : Bytes} (v : V) (h : k ≠ k') : (t.put k v).find k' = t.find k' := by
  rw [find_put, if_neg h]

theorem find_del (t : Tab V) (k k' : Bytes) : (t.del k).find k' = if k = k' then none else t.find k' := by
  unfold del find
  simp only
  induction t.entries with
  | nil => simp [findL]
  | cons x xs ih =>
    by_cases h : x.1 = k
    · simp only [List.filter_cons, h, ne_eq, not_true, decide_false, Bool.false_eq_true, if_false, ih, findL]
      split <;> rfl
    · simp only [List.filter_cons, ne_eq, h, not_false_eq_true, decide_true, if_true, findL, ih]
      by_cases h1 : x.1 = k'
      · rw [if_pos h1, if_pos h1, if_neg (by rintro rfl; exact h h1)]
      · rw [if_neg h1, if_neg h1]

@[simp] theorem find_del_self (t : Tab V) (k : Bytes) : (t.del k).find k = none := by rw [find_del, if_pos rfl]
theorem find_del_ne (t : Tab V) {k k' : Bytes} (h : k ≠ k') : (t.del k).find k' = t.find k' := by
  rw [find_del, if_neg h]
@[simp] theorem find_empty (k : Bytes) : (empty : Tab V).find k = none := rfl

/-- A database is determined by its contents. -/
theorem ext {t t' : Tab V} (h : ∀ k, t.find k = t'.find k) : t = t' := by
  have hm : ∀ e, e ∈ t.entries ↔ e ∈ t'.entries := by
    intro ⟨k, v⟩; rw [mem_iff, mem_iff, h]
  obtain ⟨l, hl⟩ := t
  obtain ⟨l', hl'⟩ := t'
  simp only at hm
  clear h
  have : l = l' := by
    induction l generalizing l' with
    | nil =>
      cases l' with
      | nil => rfl
      | cons y ys => exact absurd ((hm y).mpr (List.mem_cons_self ..)) (by simp)
    | cons x xs ih =>
      cases l' with
      | nil => exact absurd ((hm x).mp (List.mem_cons_self ..)) (by simp)
      | cons y ys =>
        have hx := List.pairwise_cons.mp hl
        have hy := List.pairwise_cons.mp hl'
        have hxy : x = y := by
          rcases List.mem_cons.mp ((hm x).mp (List.mem_cons_self ..)) with h | h
          · exact h
          · rcases List.mem_cons.mp ((hm y).mpr (List.mem_cons_self ..)) with h' | h'
            · exact h'.symm
            · have := blt_trans (hy.1 x h) (hx.1 y h')
              rw [blt_irrefl] at this; cases this
        subst hxy
        congr 1
        apply ih hx.2 ys hy.2
        intro e
        constructor
        · intro he
          rcases List.mem_cons.mp ((hm e).mp (List.mem_cons_of_mem _ he)) with h | h
          · subst h; have := hx.1 _ he; rw [blt_irrefl] at this; cases this
          · exact h
        · intro he
          rcases List.mem_cons.mp ((hm e).mpr (List.mem_cons_of_mem _ he)) with h | h
          · subst h; have := hy.1 _ he; rw [blt_irrefl] at this; cases this
          · exact h
  subst this
  rfl

theorem size_del {t : Tab V} {k : Bytes} {v : V} (h : t.find k = some v) : (t.del k).size + 1 = t.size := by
  obtain ⟨l, hl⟩ := t
  unfold find at h
  unfold size del
  simp only at *
  induction l with
  | nil => cases h
  | cons x xs ih =>
    have hx := List.pairwise_cons.mp hl
    by_cases hk : x.1 = k
    · have : xs.filter (fun e => decide (e.1 ≠ k)) = xs := by
        rw [List.filter_eq_self]
        intro e he
        have := blt_ne (hx.1 e he)
        rw [hk] at this
        exact decide_eq_true (Ne.symm this)
      rw [List.filter_cons_of_neg (by simp [hk]), this]; rfl
    · unfold findL at h
      rw [if_neg hk] at h
      have := ih hx.2 h
      simp [List.filter_cons, hk]
      simpa using this

theorem size_put {t : Tab V} {k : Bytes} {v : V} (v' : V) (h : t.find k = some v) : (t.put k v').size = t.size := by
  obtain ⟨l, hl⟩ := t
  unfold find at h
  unfold size put
  simp only at *
  induction l with
  | nil => cases h
  | cons x xs ih =>
    have hx := List.pairwise_cons.mp hl
    unfold insL
    unfold findL at h
    by_cases hk : x.1 = k
    · rw [if_neg (by rw [hk, blt_irrefl]; simp), if_pos hk]; rfl
    · rw [if_neg hk] at h
      rw [if_neg, if_neg hk]
      · simp [ih hx.2 h]
      · intro hb
        have := blt_trans hb (hx.1 _ (findL_some_mem h))
        rw [blt_irrefl] at this; cases this

theorem size_pos {t : Tab V} {k : Bytes} {v : V} (h : t.find k = some v) : 0 < t.size := by
  have := size_del h; omega

theorem lower_sublist (t : Tab V) (k : Bytes) : (t.lower k).Sublist t.entries :=
  List.dropWhile_sublist _

theorem lower_sorted (t : Tab V) (k : Bytes) : (t.lower k).Pairwise (fun a b => blt a.1 b.1 = true) :=
  t.sorted.sublist (lower_sublist t k)

theorem mem_lower_iff (t : Tab V) (k : Bytes) (e : Bytes × V) :
    e ∈ t.lower k ↔ e ∈ t.entries ∧ blt e.1 k = false := by
  unfold lower
  obtain ⟨l, hs⟩ := t
  simp only
  induction l with
  | nil => simp
  | cons x xs ih =>
    have hx := List.pairwise_cons.mp hs
    by_cases h : blt x.1 k = true
    · rw [List.dropWhile_cons_of_pos (p := fun e : Bytes × V => blt e.1 k) h, ih hx.2]
      constructor
      · exact fun ⟨h1, h2⟩ => ⟨List.mem_cons_of_mem _ h1, h2⟩
      · intro ⟨h1, h2⟩
        rcases List.mem_cons.mp h1 with rfl | h1
        · rw [h] at h2; cases h2
        · exact ⟨h1, h2⟩
    · rw [List.dropWhile_cons_of_neg (p := fun e : Bytes × V => blt e.1 k) h]
      constructor
      · intro h1
        refine ⟨h1, ?_⟩
        rcases List.mem_cons.mp h1 with rfl | h1
        · simpa using h
        · cases hb : blt e.1 k with
          | false => rfl
          | true => exact absurd (blt_trans (hx.1 e h1) hb) h
      · exact fun h1 => h1.1

/-- The head of `lower k` is the smallest entry not below `k`. -/
theorem lower_head {t : Tab V} {k : Bytes} {e : Bytes × V} {r : List (Bytes × V)} (h : t.lower k = e :: r) :
    t.find e.1 = some e.2 ∧ blt e.1 k = false ∧
      ∀ k' v', t.find k' = some v' → blt k' k = false → k' = e.1 ∨ blt e.1 k' = true := by
  have he : e ∈ t.lower k := by rw [h]; exact List.mem_cons_self ..
  rw [mem_lower_iff] at he
  refine ⟨(mem_iff _ _ _).mp he.1, he.2, ?_⟩
  intro k' v' hf hb
  have : (k', v') ∈ t.lower k := (mem_lower_iff _ _ _).mpr ⟨(mem_iff _ _ _).mpr hf, hb⟩
  rw [h] at this
  rcases List.mem_cons.mp this with h' | h'
  · left; rw [← h']
  · right
    have hs := lower_sorted t k
    rw [h] at hs
    exact (List.pairwise_cons.mp hs).1 _ h'

theorem lower_nil {t : Tab V} {k : Bytes} (h : t.lower k = []) {k' : Bytes} {v' : V} (hf : t.find k' = some v') :
    blt k' k = true := by
  cases hb : blt k' k with
  | true => rfl
  | false =>
    have : (k', v') ∈ t.lower k := (mem_lower_iff _ _ _).mpr ⟨(mem_iff _ _ _).mpr hf, hb⟩
    rw [h] at this; cases this

end Tab
end Dragonstash
