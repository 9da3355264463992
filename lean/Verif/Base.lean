/-
  Common base of all models: fault outcomes and machine arithmetic.
-/
namespace Dragonstash

/-- Ways in which a call can go wrong other than by returning an error code.
The number is the source line which would misbehave.
`assertFail`: a failing `assert`; `ub`: undefined behaviour (out-of-bounds or null access,
bad enum conversion); `thrown`: an uncaught C++ exception; `diverge`: a loop which does not
end within the fuel the model gives it. -/
inductive Fault where
  | assertFail (line : Nat)
  | ub (line : Nat)
  | thrown (line : Nat)
  | diverge (line : Nat)
  deriving DecidableEq, Repr

/-- Outcome of a modelled call. -/
abbrev M (α : Type) := Except Fault α

instance {α ε : Type} [DecidableEq α] [DecidableEq ε] : DecidableEq (Except ε α) := fun a b =>
  match a, b with
  | .ok x, .ok y => if h : x = y then .isTrue (by rw [h]) else .isFalse (fun h' => by cases h'; exact h rfl)
  | .error x, .error y => if h : x = y then .isTrue (by rw [h]) else .isFalse (fun h' => by cases h'; exact h rfl)
  | .ok _, .error _ => .isFalse (fun h => by cases h)
  | .error _, .ok _ => .isFalse (fun h => by cases h)

/-- `assert(b)` (assertions are compiled in). -/
def chk (line : Nat) (b : Bool) : M Unit := if b then .ok () else .error (.assertFail line)

/-- 2^64. -/
notation "W64" => (18446744073709551616 : Nat)

/-- Conversion to `uint64_t`. -/
def u64 (x : Nat) : Nat := x % W64

/-- Unsigned 64-bit subtraction `a - b` (operands below 2^64). -/
def sub64 (a b : Nat) : Nat := (a + W64 - b) % W64

/-- Conversion to `uint16_t`. -/
def u16 (x : Nat) : Nat := x % 65536

@[simp] theorem bind_ok {α β : Type} (x : α) (f : α → M β) : (Except.ok x >>= f) = f x := rfl
@[simp] theorem bind_err {α β : Type} (e : Fault) (f : α → M β) :
    ((Except.error e : M α) >>= f) = .error e := rfl
@[simp] theorem pure_eq_ok {α : Type} (x : α) : (pure x : M α) = .ok x := rfl
@[simp] theorem chk_true {line : Nat} : chk line true = .ok () := rfl
@[simp] theorem chk_false {line : Nat} : chk line false = .error (.assertFail line) := rfl

theorem chk_of {line : Nat} {b : Bool} (h : b = true) : chk line b = .ok () := by subst h; rfl

end Dragonstash
