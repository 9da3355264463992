/-
  Model of transaction hooks: `TransactionHook` (include/dragonstash/cache/cache.hpp 391-470)
  and `CacheTransactionRO::commit` / `abort` (src/cache/cache.cpp 741-808).
-/
import Verif.Errno
namespace Dragonstash.Hooks

/-- The four callbacks of a hook. -/
inductive Stage where
  | s1commit | s1rollback | s2commit | rollback
  deriving DecidableEq, Repr

/-- `TransactionHook` (cache.hpp 391-470): four optional callbacks, here acting on an arbitrary
outside state `σ`, and the flag `m_stage_1_ran`. `id` names the hook in the call log. -/
structure Hook (σ : Type) where
  id : Nat
  s1commit : Option (σ → σ × Res Unit) := none
  s1rollback : Option (σ → σ) := none
  s2commit : Option (σ → σ) := none
  rollback : Option (σ → σ) := none
  ran : Bool := false

/-- The outside state together with the log of callbacks executed so far (oldest first). -/
structure Env (σ : Type) where
  st : σ
  log : List (Nat × Stage)

variable {σ : Type}

/-- `TransactionHook::stage_1_commit` (cache.hpp 441-450). -/
def Hook.doS1 (h : Hook σ) (e : Env σ) : Env σ × Hook σ × Res Unit :=
  match h.s1commit with
  | none => (e, h, .ok ())
  | some f =>
    let (s, r) := f e.st
    let e' : Env σ := ⟨s, e.log ++ [(h.id, .s1commit)]⟩
    match r with
    | .ok () => (e', { h with ran := true }, .ok ())
    | .error x => (e', h, .error x)

/-- Run an optional callback without result. -/
def callOpt (e : Env σ) (id : Nat) (st : Stage) : Option (σ → σ) → Env σ
  | none => e
  | some f => ⟨f e.st, e.log ++ [(id, st)]⟩

/-- `TransactionHook::stage_1_rollback` (cache.hpp 452-456). -/
def Hook.doS1rb (h : Hook σ) (e : Env σ) : Env σ :=
  if h.ran then callOpt e h.id .s1rollback h.s1rollback else e

/-- `TransactionHook::stage_2_commit` (cache.hpp 458-462). -/
def Hook.doS2 (h : Hook σ) (e : Env σ) : Env σ := callOpt e h.id .s2commit h.s2commit

/-- `TransactionHook::rollback` (cache.hpp 464-468). -/
def Hook.doRb (h : Hook σ) (e : Env σ) : Env σ := callOpt e h.id .rollback h.rollback

/-- The stage 1 loop of `commit` (cache.cpp 771-779): stops at the first failure; returns the
hooks with their flags updated. -/
def s1loop : List (Hook σ) → Env σ → Env σ × List (Hook σ) × Res Unit
  | [], e => (e, [], .ok ())
  | h :: hs, e =>
    match h.doS1 e with
    | (e', h', .error x) => (e', h' :: hs, .error x)
    | (e', h', .ok ()) =>
      match s1loop hs e' with
      | (e'', hs', r) => (e'', h' :: hs', r)

/-- The two loops of `abort` (cache.cpp 745-756), both over the reversed hook list. -/
def abortHooks (hs : List (Hook σ)) (e : Env σ) : Env σ :=
  let e1 := hs.reverse.foldl (fun e h => h.doS1rb e) e
  hs.reverse.foldl (fun e h => h.doRb e) e1

/-- Hooks and outside state of a stack of open transactions, innermost first; the last element is
the top-level transaction. The database part of commit/abort is in `Verif.Cache.Txn`. -/
structure World (σ : Type) where
  env : Env σ
  stack : List (List (Hook σ))

/-- Calls on the innermost open transaction (`begin` without an open one: `Cache::begin_rw`). -/
inductive Call (σ : Type) where
  | begin
  | add (h : Hook σ)
  | commit
  | abort

/-- One call (cache.cpp 741-808, cache.hpp 517-540). `commit` and `abort` without an open
transaction: not possible through the API (commit on a finished transaction is a no-op,
abort a null dereference), modelled as a fault. -/
def step (w : World σ) : Call σ → M (World σ × Res Unit)
  | .begin => .ok ({ w with stack := [] :: w.stack }, .ok ())
  | .add h => match w.stack with
    | [] => .error (.ub 517)
    | hs :: rest => .ok ({ w with stack := (hs ++ [h]) :: rest }, .ok ())
  | .abort => match w.stack with
    | [] => .error (.ub 757)
    | hs :: rest => .ok (⟨abortHooks hs w.env, rest⟩, .ok ())
  | .commit => match w.stack with
    | [] => .error (.ub 766)
    | [hs] =>
      match s1loop hs w.env with
      | (e, hs', .error x) => .ok (⟨abortHooks hs' e, []⟩, .error x)
      | (e, hs', .ok ()) => .ok (⟨hs'.foldl (fun e h => h.doS2 e) e, []⟩, .ok ())
    | hs :: p :: rest => .ok ({ w with stack := (p ++ hs) :: rest }, .ok ())

/-- A sequence of calls with their results. -/
def run (w : World σ) : List (Call σ) → M (World σ × List (Res Unit))
  | [] => .ok (w, [])
  | c :: cs => do
    let (w1, r) ← step w c
    let (w2, rs) ← run w1 cs
    pure (w2, r :: rs)

end Dragonstash.Hooks
