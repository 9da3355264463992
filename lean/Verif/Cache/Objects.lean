/-
  Model of the objects of class `CacheTransactionRO` / `CacheTransactionRW` (include/dragonstash/cache/
  cache.hpp 477-509, 694-733; src/cache/cache.cpp 405-432, 741-808): construction, nested transactions,
  moves, move assignments, destruction. An object is a place in memory; what it holds can be moved to
  another place. The database operations are left out (they are in Cache/Model and Cache/Txn); what
  remains of them is that they add hooks and need the mutex of the reference table. One thread.
-/
import Verif.Cache.Hooks
namespace Dragonstash.Objs
open Hooks
variable {σ : Type}

/-- The members of a transaction object (cache.hpp 490-494): `m_txn` (the number of an LMDB transaction,
or null), the pointer `m_parent`, `m_transaction_hooks`, and whether `m_inode_counter_lock` has the
mutex. (`m_rewrite_inode_set` moves along with them.) -/
structure Obj (σ : Type) where
  txn : Option Nat
  parent : Option Nat
  hooks : List (Hook σ)
  lock : Bool

/-- The objects by address; the outside state on which the hooks act, with the log of their calls; the open
LMDB transactions (with the transaction in which they are nested); how LMDB transactions have ended
(`true`: committed); whether the mutex is locked; how many LMDB transactions were begun. -/
structure World (σ : Type) where
  obj : Nat → Option (Obj σ)
  env : Env σ
  lmdb : Nat → Option (Option Nat)
  ended : List (Nat × Bool)
  mutex : Bool
  next : Nat

def World.start (s : σ) : World σ := ⟨fun _ => none, ⟨s, []⟩, fun _ => none, [], false, 0⟩

def World.put (w : World σ) (k : Nat) (o : Option (Obj σ)) : World σ := { w with obj := fun x => if x = k then o else w.obj x }

/-- Whether LMDB transaction `t` has an open nested one. -/
def World.hasChild (w : World σ) (t : Nat) : Bool := (List.range w.next).any (fun c => w.lmdb c == some (some t))

/-- `mdb_txn_commit`, `mdb_txn_abort`. (If there is an open nested transaction LMDB ends it as well, and
the object which holds it is left with a dangling handle; the model stops there.) -/
def World.endTxn (w : World σ) (t : Nat) (committed : Bool) : M (World σ) :=
  if w.hasChild t then .error (.ub 757)
  else .ok { w with lmdb := fun x => if x = t then none else w.lmdb x, ended := w.ended ++ [(t, committed)] }

/-- Calls; addresses are chosen by the caller. -/
inductive Call (σ : Type) where
  /-- `begin_ro`, `begin_rw` (cache.cpp 335-343), the result being put at `k`. -/
  | begin (k : Nat)
  /-- `begin_nested` (cache.hpp 726-729) of the object at `p`. -/
  | nested (k p : Nat)
  /-- `add_transaction_hook` (cache.hpp 517-521). -/
  | add (k : Nat) (h : Hook σ)
  /-- `inode_in_memory_locks` (cache.cpp 415-432), as `lock`, `release`, ... do. -/
  | useTable (k : Nat)
  | commit (k : Nat)
  | abort (k : Nat)
  /-- The move constructor (cache.hpp 484, 701): a new object at `k'`, from the one at `k`. -/
  | move (k' k : Nat)
  /-- Move assignment (cache.hpp 486, 703) to the object at `k'`. -/
  | assign (k' k : Nat)
  /-- The destructor (cache.hpp 487, 704). -/
  | destroy (k : Nat)

/-- The search for the mutex among the outer transactions (cache.cpp 420-426). An acyclic chain of
`m_parent` pointers is not longer than the number of nested transactions begun. -/
def holdsLock (w : World σ) : Nat → Option Nat → M Bool
  | _, none => .ok false
  | 0, some _ => .error (.diverge 421)
  | f + 1, some p => match w.obj p with
    | none => .error (.ub 422)
    | some o => if o.lock then .ok true else holdsLock w f o.parent

/-- The object at `k`; a call on no object is the caller's fault. -/
def World.at (w : World σ) (k : Nat) : M (Obj σ) := match w.obj k with
  | none => .error (.ub 0)
  | some o => .ok o

/-- There is no object at `k`: an object can be constructed there. -/
def World.free (w : World σ) (k : Nat) : M Unit := match w.obj k with
  | none => .ok ()
  | some _ => .error (.ub 0)

/-- `unlock` of the mutex, if the object has it. -/
def World.unlock (w : World σ) (o : Obj σ) : World σ := { w with mutex := w.mutex && !o.lock }

/-- `abort` (cache.cpp 741-762); the hooks stay where they are. -/
def doAbort (w : World σ) (k : Nat) (o : Obj σ) : M (World σ) :=
  match o.txn with
  | none => .error (.ub 757)
  | some t => do
    let w ← { w with env := abortHooks o.hooks w.env }.endTxn t false
    pure ((w.unlock o).put k (some { o with txn := none, lock := false }))

/-- `commit` (cache.cpp 764-808). -/
def doCommit (w : World σ) (k : Nat) (o : Obj σ) : M (World σ × Res Unit) :=
  match o.txn with
  | none => .ok (w, .ok ())
  | some t =>
    match o.parent with
    | none =>
      match s1loop o.hooks w.env with
      | (e, hs, .error x) => do
        let w ← doAbort { w with env := e } k { o with hooks := hs }
        pure (w, .error x)
      | (e, hs, .ok ()) => do
        let w ← { w with env := hs.foldl (fun e (h : Hook σ) => h.doS2 e) e }.endTxn t true
        pure ((w.unlock o).put k (some { o with txn := none, hooks := [], lock := false }), .ok ())
    | some p => do
      let w ← w.endTxn t true
      if p = k then .error (.ub 792)
      else match w.obj p with
        | none => .error (.ub 794)
        | some q =>
          if q.lock && o.lock then .error (.ub 800)
          else .ok ((w.put p (some { q with hooks := q.hooks ++ o.hooks, lock := q.lock || o.lock })).put k
            (some { o with txn := none, hooks := [], lock := false }), .ok ())

/-- The destruction of what an object holds: the mutex is unlocked, LMDB's transaction aborted (by the
destructor of lmdb-safe's transaction class, which `m_txn` points to); the hooks are not called. -/
def release (w : World σ) (o : Obj σ) : M (World σ) :=
  match o.txn with
  | none => .ok (w.unlock o)
  | some t => (w.unlock o).endTxn t false

/-- One call, with its result (functions without a result: `ok`). -/
def step (w : World σ) : Call σ → M (World σ × Res Unit)
  | .begin k => do
    w.free k
    pure ({ w with lmdb := fun x => if x = w.next then some none else w.lmdb x, next := w.next + 1 }.put k (some ⟨some w.next, none, [], false⟩), .ok ())
  | .nested k p => do
    let o ← w.at p
    match o.txn with
    | none => .error (.ub 728)
    | some t =>
      if w.hasChild t then .error (.thrown 728)
      else do
        w.free k
        pure ({ w with lmdb := fun x => if x = w.next then some (some t) else w.lmdb x, next := w.next + 1 }.put k (some ⟨some w.next, some p, [], false⟩), .ok ())
  | .add k h => do
    let o ← w.at k
    pure (w.put k (some { o with hooks := o.hooks ++ [h] }), .ok ())
  | .useTable k => do
    let o ← w.at k
    if o.lock then pure (w, .ok ())
    else do
      let held ← holdsLock w w.next o.parent
      if held then pure (w, .ok ())
      else if w.mutex then pure (w, .error EDEADLK)
      else pure ({ w with mutex := true }.put k (some { o with lock := true }), .ok ())
  | .commit k => do
    let o ← w.at k
    doCommit w k o
  | .abort k => do
    let o ← w.at k
    let w ← doAbort w k o
    pure (w, .ok ())
  | .move k' k => do
    let o ← w.at k
    w.free k'
    pure ((w.put k' (some o)).put k (some { o with txn := none, hooks := [], lock := false }), .ok ())
  | .assign k' k => do
    let o ← w.at k
    let o' ← w.at k'
    if k' = k then .error (.ub 0)
    else do
      let w ← release w o'
      pure ((w.put k' (some o)).put k (some { o with txn := none, hooks := [], lock := false }), .ok ())
  | .destroy k => do
    let o ← w.at k
    let w ← release w o
    pure (w.put k none, .ok ())

/-- A sequence of calls with their results. -/
def run (w : World σ) : List (Call σ) → M (World σ × List (Res Unit))
  | [] => .ok (w, [])
  | c :: cs => do
    let (w1, r) ← step w c
    let (w2, rs) ← run w1 cs
    pure (w2, r :: rs)

end Dragonstash.Objs
