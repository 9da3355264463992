import Verif.Blocklist.Sane
/-
  `Blocklist::dump`, as text.
-/
namespace Dragonstash.Blocklist

/-- A number as an `std::ostream` writes it.  Simplification: the stream has the default format
(decimal, no grouping). -/
def num (n : Nat) : List Char := Nat.toDigits 10 n

/-- blocklist.cpp 730-732: one entry; the fields are 64, 16 and 8 bits wide (blocklist.hpp 116-121). -/
def entryText (e : Entry) : List Char :=
  "    Entry{.start = ".toList ++ (num e.start ++ (", .count = ".toList ++ (num e.count ++ (" (end: ".toList ++
    (num e.fin ++ ("), .state = ".toList ++ (num e.state ++ "},\n".toList)))))))

/-- blocklist.cpp 725-733: the loop over the entries. -/
def dumpEntries (f : File) (i : Nat) : Nat → M (List Char)
  | 0 => .ok []
  | k + 1 => do
    let e ← deref f i 729
    let r ← dumpEntries f (i + 1) k
    .ok (entryText e ++ r)

/-- blocklist.cpp 718-723: the counters. -/
def countText (c : Nat → Nat) : List Char :=
  "    [0] = ".toList ++ (num (c 0) ++ ("\n    [1] = ".toList ++ (num (c 1) ++ ("\n    [2] = ".toList ++
    (num (c 2) ++ ("\n    [3] = ".toList ++ (num (c 3) ++ "\n".toList)))))))

/-- blocklist.cpp 713-736 `dump`. -/
def dump (f : File) : M (List Char) := do
  let f := ensureMapped f
  let es ← dumpEntries f 0 f.n
  .ok ("Blocklist!{\n  blocks_by_state = {\n".toList ++ (countText f.cnt ++ ("  };\n  {\n".toList ++ (es ++ "  }\n}\n".toList))))

/-! ### Reading numbers back -/

theorem num_inj {a b : Nat} (h : num a = num b) : a = b := by
  have : Nat.ofDigitChars 10 (Nat.toDigits 10 a) 0 = Nat.ofDigitChars 10 (Nat.toDigits 10 b) 0 := by
    unfold num at h; rw [h]
  rw [Nat.ofDigitChars_ten_toDigits, Nat.ofDigitChars_ten_toDigits] at this
  exact this

theorem num_digit {n : Nat} {c : Char} (h : c ∈ num n) : c.isDigit = true :=
  Nat.isDigit_of_mem_toDigits (by decide) (by decide) h

theorem split_digits {x : List Char} : ∀ {y r s : List Char} {c d : Char}, (∀ a ∈ x, a.isDigit = true) → (∀ a ∈ y, a.isDigit = true) →
    c.isDigit = false → d.isDigit = false → x ++ c :: r = y ++ d :: s → x = y ∧ c :: r = d :: s := by
  induction x with
  | nil =>
    intro y r s c d _ hy hc _ h
    cases y with
    | nil => exact ⟨rfl, h⟩
    | cons z y =>
      have : c = z := by injection h
      have hz := hy z (by simp)
      rw [← this, hc] at hz
      cases hz
  | cons z x ih =>
    intro y r s c d hx hy hc hd h
    cases y with
    | nil =>
      have : z = d := by injection h
      have hz := hx z (by simp)
      rw [this, hd] at hz
      cases hz
    | cons w y =>
      injection h with h1 h2
      obtain ⟨a, b⟩ := ih (fun a ha => hx a (by simp [ha])) (fun a ha => hy a (by simp [ha])) hc hd h2
      exact ⟨by rw [h1, a], b⟩

/-- A number is followed by a character which is no digit: the number can be read back. -/
theorem num_split {a b : Nat} {r s : List Char} {c d : Char} (hc : c.isDigit = false) (hd : d.isDigit = false)
    (h : num a ++ c :: r = num b ++ d :: s) : a = b ∧ c :: r = d :: s := by
  obtain ⟨h1, h2⟩ := split_digits (fun _ => num_digit) (fun _ => num_digit) hc hd h
  exact ⟨num_inj h1, h2⟩

theorem num_app {a b : Nat} {t r s : List Char} (ht : ∃ c t', t = c :: t' ∧ c.isDigit = false)
    (h : num a ++ (t ++ r) = num b ++ (t ++ s)) : a = b ∧ r = s := by
  obtain ⟨c, t', rfl, hc⟩ := ht
  obtain ⟨h1, h2⟩ := num_split hc hc h
  injection h2 with _ h2
  exact ⟨h1, List.append_cancel_left h2⟩

theorem entryText_inj {x y : Entry} {r s : List Char} (h : entryText x ++ r = entryText y ++ s) : x = y ∧ r = s := by
  unfold entryText at h
  simp only [List.append_assoc] at h
  have h := List.append_cancel_left h
  obtain ⟨h1, h⟩ := num_app ⟨_, _, rfl, by decide⟩ h
  obtain ⟨h2, h⟩ := num_app ⟨_, _, rfl, by decide⟩ h
  obtain ⟨_, h⟩ := num_app ⟨_, _, rfl, by decide⟩ h
  obtain ⟨h3, h⟩ := num_app ⟨_, _, rfl, by decide⟩ h
  refine ⟨?_, h⟩
  cases x; cases y
  simp only at h1 h2 h3
  rw [h1, h2, h3]

theorem countText_inj {c d : Nat → Nat} {r s : List Char} (h : countText c ++ r = countText d ++ s) :
    (∀ t, t < 4 → c t = d t) ∧ r = s := by
  unfold countText at h
  simp only [List.append_assoc] at h
  have h := List.append_cancel_left h
  obtain ⟨h0, h⟩ := num_app ⟨_, _, rfl, by decide⟩ h
  obtain ⟨h1, h⟩ := num_app ⟨_, _, rfl, by decide⟩ h
  obtain ⟨h2, h⟩ := num_app ⟨_, _, rfl, by decide⟩ h
  obtain ⟨h3, h⟩ := num_app ⟨_, _, rfl, by decide⟩ h
  refine ⟨fun t ht => ?_, h⟩
  match t, ht with
  | 0, _ => exact h0
  | 1, _ => exact h1
  | 2, _ => exact h2
  | 3, _ => exact h3

theorem entries_inj {L : List Entry} : ∀ {M : List Entry}, L.flatMap entryText ++ "  }\n}\n".toList = M.flatMap entryText ++ "  }\n}\n".toList →
    L = M := by
  have no : ∀ (x : Entry) (r : List Char), "  }\n}\n".toList ≠ entryText x ++ r := by
    intro x r h
    unfold entryText at h
    simp only [List.append_assoc] at h
    have := congrArg (fun l : List Char => l[2]?) h
    simp at this
  induction L with
  | nil =>
    intro M h
    cases M with
    | nil => rfl
    | cons y M =>
      rw [List.flatMap_cons, List.append_assoc] at h
      exact absurd h (no y _)
  | cons x L ih =>
    intro M h
    cases M with
    | nil =>
      rw [List.flatMap_cons, List.append_assoc] at h
      exact absurd h.symm (no x _)
    | cons y M =>
      rw [List.flatMap_cons, List.flatMap_cons, List.append_assoc, List.append_assoc] at h
      obtain ⟨h1, h2⟩ := entryText_inj h
      rw [h1, ih h2]

/-! ### What is printed -/

theorem dumpEntries_inv {f : File} (k : Nat) : ∀ {i : Nat} {t : List Char}, dumpEntries f i k = .ok t →
    i + k ≤ f.slots.length ∨ k = 0 := by
  induction k with
  | zero => intro i t _; exact .inr rfl
  | succ k ih =>
    intro i t h
    unfold dumpEntries at h
    obtain ⟨e, hd, h⟩ := bind_inv h
    obtain ⟨r, hr, h⟩ := bind_inv h
    have hi : i < f.slots.length := by
      have := deref_inv hd
      apply Classical.byContradiction
      intro hn
      rw [List.getElem?_eq_none (by omega)] at this
      cases this
    rcases ih hr with h | h
    · left; omega
    · left; omega

theorem dumpEntries_text {f : File} (hm : f.mapped = true) (k : Nat) : ∀ {i : Nat}, i + k ≤ f.slots.length →
    dumpEntries f i k = .ok (((f.slots.drop i).take k).flatMap entryText) := by
  induction k with
  | zero => intro i _; simp [dumpEntries]
  | succ k ih =>
    intro i hi
    have hl : i < f.slots.length := by omega
    unfold dumpEntries
    have hd : deref f i 729 = .ok f.slots[i] := by
      unfold deref
      rw [if_pos hm, List.getElem?_eq_getElem hl]
    rw [hd, bind_ok, ih (by omega), bind_ok, List.drop_eq_getElem_cons hl, List.take_succ_cons, List.flatMap_cons]

/-- `dump` succeeds iff the entries are inside of the file, and then prints exactly them and the counters. -/
theorem dump_text {f : File} {t : List Char} : dump f = .ok t ↔ f.n ≤ f.slots.length ∧
    t = "Blocklist!{\n  blocks_by_state = {\n".toList ++ (countText f.cnt ++ ("  };\n  {\n".toList ++
      ((f.slots.take f.n).flatMap entryText ++ "  }\n}\n".toList))) := by
  have key : f.n ≤ f.slots.length → dumpEntries (ensureMapped f) 0 f.n = .ok ((f.slots.take f.n).flatMap entryText) := by
    intro h
    have := dumpEntries_text (ensureMapped_mapped f) f.n (i := 0) (by rw [ensureMapped_slots]; omega)
    rw [this, List.drop_zero, ensureMapped_slots]
  unfold dump
  simp only [ensureMapped_n, ensureMapped_cnt]
  constructor
  · intro h
    obtain ⟨es, he, h⟩ := bind_inv h
    have hn : f.n ≤ f.slots.length := by
      rcases dumpEntries_inv _ he with h' | h'
      · rw [ensureMapped_slots] at h'; omega
      · omega
    rw [key hn] at he
    injection he with he
    injection h with h
    rw [← h, he]
    exact ⟨hn, rfl⟩
  · rintro ⟨hn, ht⟩
    rw [key hn, bind_ok, ht]

end Dragonstash.Blocklist
