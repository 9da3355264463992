/-
  include/dragonstash/debug_mutex.hpp: `std::mutex` and the thread which has it, kept in an atomic
  variable which is only read and written with `memory_order_relaxed`.

  A relaxed load may return an outdated value: any value in the modification order of the variable which
  is not older than what this thread itself stored last. (The C++ memory model excludes more; all that
  it admits is covered.) `try_lock`, which nobody calls, behaves like `lock` except that it gives up
  instead of waiting.
-/
import Mathlib.Tactic.Common
namespace Dragonstash.DebugMutex

/-- Where a thread is: outside; in `lock` after the check (debug_mutex.hpp 52-58), in front of
`m_mutex.lock()`; after it (61), in front of the store (63); having the mutex; in `unlock` after the
store (68). -/
inductive PC where
  | idle | waiting | locking | holds | unlocking
  deriving DecidableEq

/-- The owner of `m_mutex`, the modification order of `m_current_owner` (newest first; `none` is the
id of no thread, which is also the initial value), and for each thread where it is and how many values
had been stored when it last stored one. -/
structure State where
  held : Option Nat := none
  mo : List (Option Nat) := [none]
  pc : Nat → PC := fun _ => .idle
  seen : Nat → Nat := fun _ => 1

def State.store (s : State) (th : Nat) (v : Option Nat) : State :=
  { s with mo := v :: s.mo, seen := fun j => if j = th then s.mo.length + 1 else s.seen j }

def State.goto (s : State) (th : Nat) (p : PC) : State := { s with pc := fun j => if j = th then p else s.pc j }

/-- `v` can be what thread `th` loads: it is among the values which were not yet older than its own last
store. -/
def State.CanLoad (s : State) (th : Nat) (v : Option Nat) : Prop :=
  ∃ newer older, s.mo = newer ++ v :: older ∧ s.seen th ≤ older.length + 1

/-- What happened in a step. -/
inductive Event where
  | quiet
  | edeadlk (th : Nat)

/-- One step of thread `th`. `lock` may be called by any thread at any time, also by the one which has
the mutex; `unlock` only by the one which has it. -/
inductive Step : State → Event → State → Prop
  | lockThrow {s th} : (s.pc th = .idle ∨ s.pc th = .holds) → s.CanLoad th (some th) → Step s (.edeadlk th) s
  | lockCheck {s th v} : (s.pc th = .idle ∨ s.pc th = .holds) → s.CanLoad th v → v ≠ some th → Step s .quiet (s.goto th .waiting)
  | acquire {s th} : s.pc th = .waiting → s.held = none → Step s .quiet { s.goto th .locking with held := some th }
  | setOwner {s th} : s.pc th = .locking → Step s .quiet ((s.goto th .holds).store th (some th))
  | clearOwner {s th} : s.pc th = .holds → Step s .quiet ((s.goto th .unlocking).store th none)
  | release {s th} : s.pc th = .unlocking → Step s .quiet { s.goto th .idle with held := none }

inductive Reach : State → Prop
  | init : Reach {}
  | step {s e s'} : Reach s → Step s e s' → Reach s'

/-- Does the thread own `m_mutex`? -/
def owns : PC → Bool
  | .locking | .holds | .unlocking => true
  | _ => false

structure Inv (s : State) : Prop where
  own : ∀ th, owns (s.pc th) = true ↔ s.held = some th
  len : ∀ th, 1 ≤ s.seen th ∧ s.seen th ≤ s.mo.length
  holds : ∀ th, s.pc th = .holds → ∃ l, s.mo = some th :: l ∧ s.seen th = l.length + 1
  other : ∀ th, s.pc th ≠ .holds → ¬ s.CanLoad th (some th)

theorem canLoad_store_other {s : State} {th j : Nat} {v x : Option Nat} (hj : j ≠ th) (hx : x ≠ v) (h : (s.store th v).CanLoad j x) : s.CanLoad j x := by
  obtain ⟨nw, od, h1, h2⟩ := h
  simp only [State.store, if_neg hj] at h1 h2
  cases nw with
  | nil => simp only [List.nil_append, List.cons.injEq] at h1; exact absurd h1.1.symm hx
  | cons a nw =>
    simp only [List.cons_append, List.cons.injEq] at h1
    exact ⟨nw, od, h1.2, h2⟩

/-- A thread which has just stored a value only loads this one. -/
theorem canLoad_store_self {s : State} {th : Nat} {v x : Option Nat} (h : (s.store th v).CanLoad th x) : x = v := by
  obtain ⟨nw, od, h1, h2⟩ := h
  simp only [State.store, if_true] at h1 h2
  cases nw with
  | nil => simp only [List.nil_append, List.cons.injEq] at h1; exact h1.1.symm
  | cons a nw =>
    simp only [List.cons_append, List.cons.injEq] at h1
    rw [h1.2] at h2
    simp at h2
    omega

theorem Inv.loads {s : State} (h : Inv s) {th : Nat} (hp : s.pc th = .holds) {v} (hv : s.CanLoad th v) : v = some th := by
  obtain ⟨l, h1, h2⟩ := h.holds th hp
  obtain ⟨nw, od, h3, h4⟩ := hv
  rw [h1] at h3
  cases nw with
  | nil => simp only [List.nil_append, List.cons.injEq] at h3; exact h3.1.symm
  | cons a nw =>
    simp only [List.cons_append, List.cons.injEq] at h3
    rw [h2, h3.2] at h4
    simp at h4
    omega

theorem Inv.step {s s' : State} {e : Event} (h : Inv s) (hs : Step s e s') : Inv s' := by
  cases hs with
  | lockThrow => exact h
  | @lockCheck th v hp hv hne =>
    have hp' : s.pc th = .idle := by
      rcases hp with hp | hp
      · exact hp
      · exact absurd (h.loads hp hv) hne
    refine ⟨fun j => ?_, h.len, fun j hj => ?_, fun j hj => ?_⟩
    · simp only [State.goto]
      by_cases e : j = th
      · subst e; rw [if_pos rfl]
        have := h.own j
        rw [hp'] at this
        exact this
      · rw [if_neg e]; exact h.own j
    · simp only [State.goto] at hj
      by_cases e : j = th
      · rw [if_pos e] at hj; cases hj
      · rw [if_neg e] at hj; exact h.holds j hj
    · simp only [State.goto] at hj
      by_cases e : j = th
      · subst e; exact h.other j (by rw [hp']; decide)
      · rw [if_neg e] at hj; exact h.other j hj
  | @acquire th hp hh =>
    refine ⟨fun j => ?_, h.len, fun j hj => ?_, fun j hj => ?_⟩
    · simp only [State.goto]
      by_cases e : j = th
      · subst e; simp [owns]
      · rw [if_neg e]
        have := h.own j
        rw [hh] at this
        constructor
        · intro h1; have := this.mp h1; cases this
        · intro h1; cases h1; exact absurd rfl e
    · simp only [State.goto] at hj
      by_cases e : j = th
      · rw [if_pos e] at hj; cases hj
      · rw [if_neg e] at hj; exact h.holds j hj
    · simp only [State.goto] at hj
      by_cases e : j = th
      · subst e; exact h.other j (by rw [hp]; decide)
      · rw [if_neg e] at hj; exact h.other j hj
  | @setOwner th hp =>
    have hown : s.held = some th := (h.own th).mp (by rw [hp]; rfl)
    refine ⟨fun j => ?_, fun j => ?_, fun j hj => ?_, fun j hj => ?_⟩
    · simp only [State.goto, State.store]
      by_cases e : j = th
      · subst e; simp [owns, hown]
      · rw [if_neg e]; exact h.own j
    · simp only [State.goto, State.store]
      by_cases e : j = th
      · rw [if_pos e]; simp
      · rw [if_neg e]; have := h.len j; simp; omega
    · simp only [State.goto, State.store] at hj ⊢
      by_cases e : j = th
      · subst e; exact ⟨s.mo, rfl, by simp⟩
      · rw [if_neg e] at hj
        have := (h.own j).mp (by rw [hj]; rfl)
        rw [hown] at this; cases this; exact absurd rfl e
    · simp only [State.goto, State.store] at hj
      by_cases e : j = th
      · rw [if_pos e] at hj; exact absurd rfl hj
      · rw [if_neg e] at hj
        intro hc
        exact h.other j hj (canLoad_store_other (s := s.goto th .holds) e (by simp [e]) hc)
  | @clearOwner th hp =>
    have hown : s.held = some th := (h.own th).mp (by rw [hp]; rfl)
    refine ⟨fun j => ?_, fun j => ?_, fun j hj => ?_, fun j hj => ?_⟩
    · simp only [State.goto, State.store]
      by_cases e : j = th
      · subst e; simp [owns, hown]
      · rw [if_neg e]; exact h.own j
    · simp only [State.goto, State.store]
      by_cases e : j = th
      · rw [if_pos e]; simp
      · rw [if_neg e]; have := h.len j; simp; omega
    · simp only [State.goto, State.store] at hj ⊢
      by_cases e : j = th
      · rw [if_pos e] at hj; cases hj
      · rw [if_neg e] at hj
        have := (h.own j).mp (by rw [hj]; rfl)
        rw [hown] at this; cases this; exact absurd rfl e
    · simp only [State.goto, State.store] at hj
      intro hc
      by_cases e : j = th
      · subst e; have := canLoad_store_self (s := s.goto j .unlocking) hc; cases this
      · rw [if_neg e] at hj
        exact h.other j hj (canLoad_store_other (s := s.goto th .unlocking) e (by simp) hc)
  | @release th hp =>
    have hown : s.held = some th := (h.own th).mp (by rw [hp]; rfl)
    refine ⟨fun j => ?_, h.len, fun j hj => ?_, fun j hj => ?_⟩
    · simp only [State.goto]
      by_cases e : j = th
      · subst e; simp [owns]
      · rw [if_neg e]
        constructor
        · intro h1; have := (h.own j).mp h1; rw [hown] at this; cases this; exact absurd rfl e
        · intro h1; cases h1
    · simp only [State.goto] at hj
      by_cases e : j = th
      · rw [if_pos e] at hj; cases hj
      · rw [if_neg e] at hj; exact h.holds j hj
    · simp only [State.goto] at hj
      by_cases e : j = th
      · subst e; exact h.other j (by rw [hp]; decide)
      · rw [if_neg e] at hj; exact h.other j hj

theorem Reach.inv {s : State} (h : Reach s) : Inv s := by
  induction h with
  | init =>
    refine ⟨fun th => (by simp [owns]), fun th => (by simp), fun th h => (by cases h), fun th _ hc => ?_⟩
    obtain ⟨nw, od, h1, -⟩ := hc
    have : (some th) ∈ ([none] : List (Option Nat)) := by
      have h1' : [none] = nw ++ some th :: od := h1
      rw [h1']; simp
    simp at this
  | step _ hs ih => exact ih.step hs

end Dragonstash.DebugMutex
