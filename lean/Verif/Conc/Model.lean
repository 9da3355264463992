/-
  Several threads using one cache: transactions of all threads interleave.
  src/cache/cache.cpp 335-343 (begin), 415-432 (inode_in_memory_locks), 741-808 (abort, commit),
  include/dragonstash/cache/cache.hpp 170-236, 472-500, 726-733, include/dragonstash/debug_mutex.hpp.

  LMDB: any number of read-only transactions, each working on the state committed when it began;
  one write transaction at a time, beginning another one waits; a commit makes its state the
  committed one at once.

  A step is one call on a transaction. A call works on the private state of its transaction (the
  snapshot of a read-only transaction, the uncommitted pages of the write transaction) until it first
  asks for the reference table, where it waits for the mutex if it does not have it yet; from then on
  it has the mutex. So other threads cannot distinguish a call from one indivisible step at the moment
  it gets the mutex, and this is how it is modelled. The ends of transactions, where two locks are
  given back one after the other, are two steps (`finish`).

  Crashes and the construction of the cache object are in `Verif.Cache.Txn`.
-/
import Verif.Cache.Txn
namespace Dragonstash.Conc
open Cache Codec

/-- Does the call ask for the reference table (`inode_in_memory_locks`)? `lock` (cache.cpp 693),
`release` (708-712), `clean_orphans` (1026), and those which reach `clean_orphans`: `emplace` unless
the name is rejected or an inode of the same kind is updated (894-936, 982), `unlink` if the inode
can be taken out of its directory (987-994, 1001-1022). -/
def asksRefs (d : DB) : Op → Bool
  | .lock _ => true
  | .release _ n => n != 0
  | .clean => true
  | .emplace p n a => match checkName n true with
    | .error _ => false
    | .ok () => match d.treen.find (keyN p n) with
      | none => true
      | some e => match d.inodes.find (key8 e.ino) with
        | none => false
        | some old => fmt old.attr.mode != fmt a.mode
  | .unlinkIno i => (makeOrphan d i).2.isOk
  | .unlinkName p n => match d.treen.find (keyN p n) with
    | none => false
    | some e => (makeOrphan d e.ino).2.isOk
  | _ => false

/-- A transaction object: as in `Cache.Frame`, and whether `m_inode_counter_lock` owns the mutex
(cache.hpp 494). -/
structure CFrame where
  fr : Frame
  mx : Bool := false

/-- A top-level transaction and the nested ones inside it, innermost first; the thread it belongs to.
When the top-level transaction ended, `frames` is empty, and `wr` and `tailM` tell whether LMDB's
writer lock or the mutex is still to be given back. -/
structure CTxn where
  thread : Nat
  frames : List CFrame
  wr : Bool
  tailM : Bool := false

/-- Does the transaction hold the mutex? -/
def CTxn.hasMutex (t : CTxn) : Bool := t.tailM || t.frames.any (·.mx)

/-- The committed databases, the reference table, the transactions by name, and which transactions
have LMDB's writer lock and `m_in_memory_lock_mutex`. -/
structure CWorld where
  disk : DB
  refs : Refs
  txns : Nat → Option CTxn
  writer : Option Nat
  mutex : Option Nat

/-- Calls on a transaction. `drop`: its destructor runs before commit or abort. `finish`: the rest of
commit, abort or destructor of the top-level transaction. -/
inductive Act where
  | op (o : Op)
  | nested
  | commit
  | abort
  | drop
  | finish
  deriving DecidableEq

/-- What a thread can do. -/
inductive CCall where
  | beginRO (k thread : Nat)
  | beginRW (k thread : Nat)
  | on (k : Nat) (a : Act)
  deriving DecidableEq

/-- What becomes of a call: it returns; it has to wait; the mutex throws EDEADLK; or it is a fault
(not possible by the types, or ends the process). -/
inductive Outcome where
  | done (w : CWorld) (out : Out)
  | blocked
  | deadlk
  | fault

def CWorld.set (w : CWorld) (k : Nat) (t : Option CTxn) : CWorld :=
  { w with txns := fun j => if j = k then t else w.txns j }

/-- The thread which has the mutex (`m_current_owner`, debug_mutex.hpp 47-49). -/
def CWorld.owner (w : CWorld) : Option Nat :=
  match w.mutex with
  | none => none
  | some k => (w.txns k).map (·.thread)

/-- What `inode_in_memory_locks` does (cache.cpp 415-432): nothing if this transaction or a parent has
the mutex already, else `debug_mutex::lock` (debug_mutex.hpp 52-65). -/
inductive Acquire where
  | have_ | got | wait | deadlk
  deriving DecidableEq

def CWorld.acquire (w : CWorld) (t : CTxn) : Acquire :=
  if t.frames.any (·.mx) then .have_
  else if w.owner = some t.thread then .deadlk
  else if w.mutex.isSome then .wait
  else .got

/-- An operation on the innermost transaction, when the mutex is there if it is needed. `mx`: it has
just been locked. -/
def CWorld.runOp (w : CWorld) (k : Nat) (t : CTxn) (f : CFrame) (r : List CFrame) (o : Op) (mx : Bool) : Outcome :=
  match doOp (f.fr.txn w.refs) o with
  | .error _ => .fault
  | .ok (x, out) =>
    .done { w.set k (some { t with frames := ⟨⟨x.db, x.rewrite, x.hooks, f.fr.ro⟩, f.mx || mx⟩ :: r }) with
      refs := x.refs
      mutex := if mx then some k else w.mutex } out

/-- One call. -/
def CWorld.act (w : CWorld) (k : Nat) (t : CTxn) : Act → Outcome
  | .op o => match t.frames with
    | [] => .fault
    | f :: r =>
      if f.fr.ro && !o.isRO then .fault
      else if asksRefs f.fr.db o then
        match w.acquire t with
        | .have_ => w.runOp k t f r o false
        | .got => w.runOp k t f r o true
        | .wait => .blocked
        | .deadlk => .deadlk
      else w.runOp k t f r o false
  | .nested => match t.frames with          -- cache.hpp 726-729
    | [] => .fault
    | f :: r => if f.fr.ro then .fault
      else .done (w.set k (some { t with frames := ⟨{ db := f.fr.db }, false⟩ :: f :: r })) (.unit (.ok ()))
  | .commit => match t.frames with          -- cache.cpp 764-808
    | [] => .fault
    | [f] => .done { w.set k (some { t with frames := [], wr := false, tailM := f.mx }) with
        disk := if f.fr.ro then w.disk else f.fr.db
        writer := if t.wr then none else w.writer } (.unit (.ok ()))
    | f :: g :: r => .done (w.set k (some { t with
        frames := ⟨{ g.fr with db := f.fr.db, hooks := g.fr.hooks ++ f.fr.hooks }, g.mx || f.mx⟩ :: r })) (.unit (.ok ()))
  | .abort => match t.frames with           -- cache.cpp 741-762
    | [] => .fault
    | f :: r => match undoAll w.refs f.fr.hooks.reverse with
      | .error _ => .fault
      | .ok refs => match r with
        | [] => .done { w.set k (some { t with frames := [], wr := false, tailM := f.mx }) with
            refs := refs, writer := if t.wr then none else w.writer } (.unit (.ok ()))
        | _ :: _ => .done { w.set k (some { t with frames := r }) with
            refs := refs, mutex := if f.mx then none else w.mutex } (.unit (.ok ()))
  | .drop => match t.frames with            -- members are destroyed in reverse order, cache.hpp 489-494
    | [] => .fault
    | f :: r => .done { w.set k (some { t with frames := r }) with
        mutex := if f.mx then none else w.mutex } (.unit (.ok ()))
  | .finish => match t.frames with
    | _ :: _ => .fault
    | [] => .done { w.set k none with
        writer := if t.wr then none else w.writer
        mutex := if t.tailM then none else w.mutex } (.unit (.ok ()))

def CWorld.step (w : CWorld) : CCall → Outcome
  | .beginRO k th => match w.txns k with    -- cache.cpp 335-338
    | some _ => .fault
    | none => .done (w.set k (some ⟨th, [⟨{ db := w.disk, ro := true }, false⟩], false, false⟩)) (.unit (.ok ()))
  | .beginRW k th => match w.txns k with    -- cache.cpp 340-343
    | some _ => .fault
    | none => if w.writer.isSome then .blocked
      else .done { w.set k (some ⟨th, [⟨{ db := w.disk }, false⟩], true, false⟩) with writer := some k } (.unit (.ok ()))
  | .on k a => match w.txns k with
    | none => .fault
    | some t => w.act k t a

/-- What callers have to respect (as `Cache.Allowed`): arguments in range; `emplace` gets a valid
inode number as parent and there are inode numbers left; lock counts do not exceed 64 bits. -/
def CAllowed (w : CWorld) : CCall → Prop
  | .on k (.op o) => o.inRange ∧ ∀ t f r, w.txns k = some t → t.frames = f :: r → match o with
    | .emplace p _ _ => p ≠ 0 ∧ ∀ n, f.fr.db.next = some n → n + 1 < W64
    | .lock i => (w.refs i).nrefs + 1 < W64
    | _ => True
  | _ => True

/-- The process after the cache was opened: a database which a previous history of the cache left
behind, no transactions. -/
def CWorld.start (d : DB) (r : Refs) : CWorld := ⟨d, r, fun _ => none, none, none⟩

/-- All interleavings: any thread may make any call at any time. Calls which have to wait are not
steps; nor are exceptions (after which the transaction is destroyed: `drop`) and faults. -/
inductive CRun : CWorld → CWorld → Prop
  | refl {w} : CRun w w
  | step {w w1 w2 c out} : CRun w w1 → CAllowed w1 c → w1.step c = .done w2 out → CRun w w2

/-- Reachable from an opened cache. -/
def CReach (w : CWorld) : Prop := ∃ w0 : World, Reach w0 ∧ w0.phase = .up ∧ w0.stack = [] ∧ CRun (CWorld.start w0.disk w0.refs) w

theorem CReach.step {w w' : CWorld} {c out} (h : CReach w) (ha : CAllowed w c) (hs : w.step c = .done w' out) : CReach w' := by
  obtain ⟨w0, h1, h2, h3, h4⟩ := h
  exact ⟨w0, h1, h2, h3, .step h4 ha hs⟩

theorem CReach.run {w w' : CWorld} (h : CReach w) (hr : CRun w w') : CReach w' := by
  induction hr with
  | refl => exact h
  | step _ ha hs ih => exact ih.step ha hs

end Dragonstash.Conc
