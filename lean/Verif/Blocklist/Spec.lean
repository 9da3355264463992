import Verif.Blocklist.Model
/-
  Specification of a block list, independent of entries, files and counters:
  a map from block numbers to states.
-/
namespace Dragonstash.Blocklist.Spec

/-- A block map: the state of every block. -/
abbrev Map := Nat → State

/-- The empty block map. -/
def empty : Map := fun _ => .absent

/-- Marking blocks `s, ..., s + c - 1` with `st`. -/
def setRange (m : Map) (s c : Nat) (st : State) : Map :=
  fun b => if s ≤ b ∧ b < s + c then st else m b

/-- A call `mark(start, count, state)`. -/
abbrev Op := Nat × Nat × State

/-- The block map after a sequence of marks. -/
def run (m : Map) : List Op → Map
  | [] => m
  | (s, c, st) :: rest => run (setRange m s c st) rest

/-- How many numbers below `n` satisfy `p`. -/
def countBelow (p : Nat → Bool) : Nat → Nat
  | 0 => 0
  | n + 1 => countBelow p n + (if p n then 1 else 0)

/-- All ranges end below 2^64. -/
def InRange (h : List Op) : Prop := ∀ o ∈ h, o.1 + o.2.1 < W64

/-- A mark `[s, s + c)` (one chunk of at most 65535 blocks) is *clean* on `m`: its first or its
last block is absent, or there is a change of state right at its end. -/
def CleanChunk (m : Map) (s e : Nat) : Prop :=
  m s = .absent ∨ m (e - 1) = .absent ∨ m (e - 1) ≠ m e

/-- Every chunk of 65535 blocks of the mark is clean. -/
def Clean (m : Map) (s c : Nat) : Prop :=
  ∀ k, k * 65535 < c → CleanChunk m (s + k * 65535) (s + min ((k + 1) * 65535) c)

/-- Histories in which every mark is clean. -/
def CleanHist : Map → List Op → Prop
  | _, [] => True
  | m, (s, c, st) :: rest => s + c < W64 ∧ Clean m s c ∧ CleanHist (setRange m s c st) rest

/-- Histories in which every mark is clean or marks a single block. -/
def GoodHist : Map → List Op → Prop
  | _, [] => True
  | m, (s, c, st) :: rest => s + c < W64 ∧ (c = 1 ∨ Clean m s c) ∧ GoodHist (setRange m s c st) rest

/-- The last block of every chunk of 65535 blocks of the mark is absent. -/
def LastAbsent (m : Map) (s c : Nat) : Prop :=
  ∀ k, k * 65535 < c → m (s + min ((k + 1) * 65535) c - 1) = .absent

/-- Histories in which every mark is clean or marks a single block (as in `GoodHist`) up to some
point; from there on, marks with a state other than ABSENT may be any, and marks with ABSENT end
at a block which is absent already.  The flag says whether the first phase still lasts. -/
def SoundHist : Bool → Map → List Op → Prop
  | _, _, [] => True
  | first, m, (s, c, st) :: rest => s + c < W64 ∧
    ((first = true ∧ (c = 1 ∨ Clean m s c) ∧ SoundHist true (setRange m s c st) rest) ∨
     ((st ≠ .absent ∨ LastAbsent m s c) ∧ SoundHist false (setRange m s c st) rest))

end Dragonstash.Blocklist.Spec
