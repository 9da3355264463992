/-
  Several threads using one cache whose databases hold bytes: `Verif.Conc.Model` with the calls executed
  by `Verif.Cache.ByteModel`. src/cache/cache.cpp 335-343 (begin), 415-432 (inode_in_memory_locks),
  741-808 (abort, commit), include/dragonstash/cache/cache.hpp 170-236, 472-500, 726-733.
-/
import Verif.Conc.Model
import Verif.Cache.ByteModel
namespace Dragonstash.ConcB
open Cache Codec Conc

/-- Does the call ask for the reference table (`inode_in_memory_locks`)? As `Conc.asksRefs`: `lock` (cache.cpp
693), `release` (708-712), `clean_orphans` (1026), `emplace` unless the name is rejected, a record does not
parse or an inode of the same kind is updated (894-936, 982), `unlink` if the inode can be taken out of its
directory (987-994, 1001-1022). -/
def asksRefs (pad : Ino → Nat) (d : Cache.B.DB) : Op → Bool
  | .lock _ => true
  | .release _ n => n != 0
  | .clean => true
  | .emplace p n a => match checkName n true with
    | .error _ => false
    | .ok () => match d.treen.find (keyN p n) with
      | none => true
      | some v => match parseDirEnt v with
        | .ok (.ok e) => match d.inodes.find (key8 e.ino) with
          | none => false
          | some w => match parseInode w with
            | .ok (.ok old) => fmt old.attr.mode != fmt a.mode
            | _ => false
        | _ => false
  | .unlinkIno i => match Cache.B.makeOrphan pad d i with
    | .ok r => r.2.isOk
    | .error _ => false
  | .unlinkName p n => match d.treen.find (keyN p n) with
    | none => false
    | some v => match parseDirEnt v with
      | .ok (.ok e) => match Cache.B.makeOrphan pad d e.ino with
        | .ok r => r.2.isOk
        | .error _ => false
      | _ => false
  | _ => false

/-- A transaction object, and whether `m_inode_counter_lock` owns the mutex (cache.hpp 494). -/
structure CFrame where
  fr : Cache.B.Frame
  mx : Bool := false

/-- A top-level transaction and the nested ones inside it (as `Conc.CTxn`). -/
structure CTxn where
  thread : Nat
  frames : List CFrame
  wr : Bool
  tailM : Bool := false

/-- The database file, the reference table, the transactions, LMDB's writer lock and the mutex. -/
structure CWorld where
  disk : Cache.B.DB
  refs : Refs
  txns : Nat → Option CTxn
  writer : Option Nat
  mutex : Option Nat

/-- What becomes of a call (as `Conc.Outcome`). -/
inductive Outcome where
  | done (w : CWorld) (out : Out)
  | blocked
  | deadlk
  | fault

def CWorld.set (w : CWorld) (k : Nat) (t : Option CTxn) : CWorld :=
  { w with txns := fun j => if j = k then t else w.txns j }

/-- The thread which has the mutex (debug_mutex.hpp 47-49). -/
def CWorld.owner (w : CWorld) : Option Nat :=
  match w.mutex with
  | none => none
  | some k => (w.txns k).map (·.thread)

/-- What `inode_in_memory_locks` does (cache.cpp 415-432, debug_mutex.hpp 52-65). -/
def CWorld.acquire (w : CWorld) (t : CTxn) : Acquire :=
  if t.frames.any (·.mx) then .have_
  else if w.owner = some t.thread then .deadlk
  else if w.mutex.isSome then .wait
  else .got

/-- An operation on the innermost transaction, when the mutex is there if it is needed. -/
def CWorld.runOp (w : CWorld) (pad : Ino → Nat) (k : Nat) (t : CTxn) (f : CFrame) (r : List CFrame) (o : Op) (mx : Bool) : Outcome :=
  match Cache.B.doOp pad (f.fr.txn w.refs) o with
  | .error _ => .fault
  | .ok (x, out) =>
    .done { w.set k (some { t with frames := ⟨⟨x.db, x.rewrite, x.hooks, f.fr.ro⟩, f.mx || mx⟩ :: r }) with
      refs := x.refs
      mutex := if mx then some k else w.mutex } out

/-- One call (as `Conc.CWorld.act`; cache.cpp 741-808, cache.hpp 489-494, 726-729). -/
def CWorld.act (w : CWorld) (pad : Ino → Nat) (k : Nat) (t : CTxn) : Act → Outcome
  | .op o => match t.frames with
    | [] => .fault
    | f :: r =>
      if f.fr.ro && !o.isRO then .fault
      else if asksRefs pad f.fr.db o then
        match w.acquire t with
        | .have_ => w.runOp pad k t f r o false
        | .got => w.runOp pad k t f r o true
        | .wait => .blocked
        | .deadlk => .deadlk
      else w.runOp pad k t f r o false
  | .nested => match t.frames with
    | [] => .fault
    | f :: r => if f.fr.ro then .fault
      else .done (w.set k (some { t with frames := ⟨{ db := f.fr.db }, false⟩ :: f :: r })) (.unit (.ok ()))
  | .commit => match t.frames with
    | [] => .fault
    | [f] => .done { w.set k (some { t with frames := [], wr := false, tailM := f.mx }) with
        disk := if f.fr.ro then w.disk else f.fr.db
        writer := if t.wr then none else w.writer } (.unit (.ok ()))
    | f :: g :: r => .done (w.set k (some { t with
        frames := ⟨{ g.fr with db := f.fr.db, hooks := g.fr.hooks ++ f.fr.hooks }, g.mx || f.mx⟩ :: r })) (.unit (.ok ()))
  | .abort => match t.frames with
    | [] => .fault
    | f :: r => match undoAll w.refs f.fr.hooks.reverse with
      | .error _ => .fault
      | .ok refs => match r with
        | [] => .done { w.set k (some { t with frames := [], wr := false, tailM := f.mx }) with
            refs := refs, writer := if t.wr then none else w.writer } (.unit (.ok ()))
        | _ :: _ => .done { w.set k (some { t with frames := r }) with
            refs := refs, mutex := if f.mx then none else w.mutex } (.unit (.ok ()))
  | .drop => match t.frames with
    | [] => .fault
    | f :: r => .done { w.set k (some { t with frames := r }) with
        mutex := if f.mx then none else w.mutex } (.unit (.ok ()))
  | .finish => match t.frames with
    | _ :: _ => .fault
    | [] => .done { w.set k none with
        writer := if t.wr then none else w.writer
        mutex := if t.tailM then none else w.mutex } (.unit (.ok ()))

/-- One call (cache.cpp 335-343). `pad`: the padding bytes of the records which are written. -/
def CWorld.step (w : CWorld) (pad : Ino → Nat) : CCall → Outcome
  | .beginRO k th => match w.txns k with
    | some _ => .fault
    | none => .done (w.set k (some ⟨th, [⟨{ db := w.disk, ro := true }, false⟩], false, false⟩)) (.unit (.ok ()))
  | .beginRW k th => match w.txns k with
    | some _ => .fault
    | none => if w.writer.isSome then .blocked
      else .done { w.set k (some ⟨th, [⟨{ db := w.disk }, false⟩], true, false⟩) with writer := some k } (.unit (.ok ()))
  | .on k a => match w.txns k with
    | none => .fault
    | some t => w.act pad k t a

/-- The process after the cache was opened. -/
def CWorld.start (d : Cache.B.DB) (r : Refs) : CWorld := ⟨d, r, fun _ => none, none, none⟩

end Dragonstash.ConcB
