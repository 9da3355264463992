/-
  Little-endian byte strings (x86-64 layout of the on-disk structures; also `htole64` keys).
-/
namespace Dragonstash

/-- A byte string. -/
abbrev Bytes := List UInt8

/-- The `k` low-order bytes of `x`, least significant first. -/
def leEnc : (k x : Nat) → Bytes
  | 0, _ => []
  | k + 1, x => UInt8.ofNat x :: leEnc k (x / 256)

/-- The number with the given little-endian bytes. -/
def leDec : Bytes → Nat
  | [] => 0
  | b :: bs => b.toNat + 256 * leDec bs

@[simp] theorem leEnc_length (k x : Nat) : (leEnc k x).length = k := by
  induction k generalizing x with
  | zero => rfl
  | succ k ih => simp [leEnc, ih]

theorem leDec_leEnc (k x : Nat) (h : x < 256 ^ k) : leDec (leEnc k x) = x := by
  induction k generalizing x with
  | zero => simp at h; simp [leEnc, leDec, h]
  | succ k ih =>
    simp only [leEnc, leDec]
    rw [ih (x / 256) (by rw [Nat.pow_succ] at h; omega)]
    rw [UInt8.toNat_ofNat']
    omega

theorem leDec_lt (bs : Bytes) : leDec bs < 256 ^ bs.length := by
  induction bs with
  | nil => simp [leDec]
  | cons b bs ih =>
    simp only [leDec, List.length_cons, Nat.pow_succ]
    have := b.toNat_lt
    omega

theorem leEnc_leDec (bs : Bytes) : leEnc bs.length (leDec bs) = bs := by
  induction bs with
  | nil => rfl
  | cons b bs ih =>
    simp only [List.length_cons, leEnc, leDec]
    have h1 : (b.toNat + 256 * leDec bs) / 256 = leDec bs := by have := b.toNat_lt; omega
    have h2 : UInt8.ofNat (b.toNat + 256 * leDec bs) = b := by
      apply UInt8.toNat.inj
      rw [UInt8.toNat_ofNat']
      have := b.toNat_lt; omega
    rw [h1, h2, ih]

theorem leEnc_inj {k x y : Nat} (hx : x < 256 ^ k) (hy : y < 256 ^ k) (h : leEnc k x = leEnc k y) : x = y := by
  rw [← leDec_leEnc k x hx, h, leDec_leEnc k y hy]

/-- The field of `k` bytes at offset `o`. -/
def fieldAt (bs : Bytes) (o k : Nat) : Nat := leDec ((bs.drop o).take k)

theorem fieldAt_append {a b : Bytes} {o k : Nat} (h : a.length = o) :
    fieldAt (a ++ b) o k = fieldAt b 0 k := by
  unfold fieldAt; subst h; simp

theorem fieldAt_enc {k x : Nat} {b : Bytes} (h : x < 256 ^ k) : fieldAt (leEnc k x ++ b) 0 k = x := by
  unfold fieldAt
  rw [List.drop_zero, List.take_append_of_le_length (by simp), List.take_of_length_le (by simp)]
  exact leDec_leEnc k x h

/-- Field after a prefix of known length. -/
theorem fieldAt_at {a b : Bytes} {o k x : Nat} (ha : a.length = o) (h : x < 256 ^ k) :
    fieldAt (a ++ (leEnc k x ++ b)) o k = x := by
  rw [fieldAt_append ha, fieldAt_enc h]

end Dragonstash
