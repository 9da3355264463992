/-
  Transactions, commit, abort, crash and reopening: Cache::Cache, Cache::begin_ro/begin_rw,
  CacheTransactionRO::commit/abort and the destructors (src/cache/cache.cpp 278-413, 741-808,
  include/dragonstash/cache/cache.hpp 472-700).

  LMDB transactions are modelled as private copies of the databases: a commit replaces the parent's
  copy (or the file contents), an abort discards the copy. One thread; for several see `Verif.Conc`.
-/
import Verif.Cache.Model
namespace Dragonstash.Cache
open Codec

/-- Operations on an open transaction (public methods of CacheTransactionRO and CacheTransactionRW,
cache.hpp 540-700). -/
inductive Op where
  | lookup (p : Ino) (n : Bytes)
  | getattr (i : Ino)
  | readlink (i : Ino)
  | readdir (dir prev : Ino)
  | path (i : Ino)
  | name (i : Ino)
  | parent (i : Ino)
  | testFlag (i : Ino) (f : Flag)
  | lock (i : Ino)
  | release (i : Ino) (n : Nat)
  | emplace (p : Ino) (n : Bytes) (a : Attrs)
  | unlinkIno (i : Ino)
  | unlinkName (p : Ino) (n : Bytes)
  | clean
  | writelink (i : Ino) (dest : Bytes)
  | updateFlags (i : Ino) (toSet toClear : List Flag)
  | startRewrite (dir : Ino)
  | finishRewrite
  deriving DecidableEq

/-- Available on read-only transactions. -/
def Op.isRO : Op → Bool
  | .lookup .. | .getattr .. | .readlink .. | .readdir .. | .path .. | .name .. | .parent .. | .testFlag ..
  | .lock .. | .release .. => true
  | _ => false

/-- Results of operations. -/
inductive Out where
  | unit (r : Res Unit)
  | ino (r : Res Ino)
  | attr (r : Res (Ino × Attrs))
  | bytes (r : Res Bytes)
  | ent (r : Res (Ino × Bytes))
  | bool (r : Res Bool)
  deriving DecidableEq

/-- One operation on an open transaction. -/
def doOp (t : Txn) : Op → M (Txn × Out)
  | .lookup p n => do let r ← lookup t.db p n; pure (t, .ino r)
  | .getattr i => .ok (t, .attr (getattr t.db i))
  | .readlink i => .ok (t, .bytes (readlink t.db i))
  | .readdir dir prev => do let r ← readdir t.db dir prev; pure (t, .ent r)
  | .path i => do let r ← path t.db i; pure (t, .bytes r)
  | .name i => .ok (t, .bytes (name t.db i))
  | .parent i => .ok (t, .ino (parent t.db i))
  | .testFlag i f => .ok (t, .bool (testFlag t.db i f))
  | .lock i => .ok ((lock t i).1, .unit (lock t i).2)
  | .release i n => do let (t', r) ← release t i n; pure (t', .unit r)
  | .emplace p n a => do let (t', r) ← emplace t p n a; pure (t', .ino r)
  | .unlinkIno i => do let (t', r) ← unlinkIno t i; pure (t', .unit r)
  | .unlinkName p n => do let (t', r) ← unlinkName t p n; pure (t', .unit r)
  | .clean => do let (t', r) ← clean t; pure (t', .unit r)
  | .writelink i dest => .ok ((writelink t i dest).1, .unit (writelink t i dest).2)
  | .updateFlags i a b => .ok ((updateFlags t i a b).1, .unit (updateFlags t i a b).2)
  | .startRewrite dir => do let (t', r) ← startRewrite t dir; pure (t', .unit r)
  | .finishRewrite => .ok ((finishRewrite t).1, .unit (finishRewrite t).2)

/-- A transaction object. -/
structure Frame where
  db : DB
  rewrite : Option (List Ino) := none
  hooks : List Undo := []
  ro : Bool := false

/-- State of the process which has the cache open: not running, databases created, or up. -/
inductive Phase where
  | down | inited | up
  deriving DecidableEq

/-- File contents, reference table (in memory) and open transactions, innermost first. -/
structure World where
  phase : Phase
  disk : DB
  refs : Refs
  stack : List Frame

/-- Calls: construction of the Cache object in two steps (as there are two write transactions in it),
transactions, operations on the innermost transaction, process death. `drop` is the destruction of a
transaction object without commit or abort. -/
inductive Call where
  | openInit (uid gid : Nat) (now : Timespec)
  | openClean
  | beginRO
  | beginRW
  | nested
  | op (o : Op)
  | commit
  | abort
  | drop
  | crash
  deriving DecidableEq

/-- Empty databases. -/
def emptyDB : DB := ⟨none, Tab.empty, Tab.empty, Tab.empty, Tab.empty, Tab.empty⟩

/-- Attributes of the root inode (cache.cpp 313-324). -/
def rootAttrs (uid gid : Nat) (now : Timespec) : Attrs :=
  { size := 0, nblocks := 0, uid := uid, gid := gid, atime := now, mtime := now, ctime := now, mode := S_IFDIR }

/-- First transaction of the constructor (cache.cpp 301-328): creates the root inode unless the
database is already initialised. -/
def initDB (d : DB) (uid gid : Nat) (now : Timespec) : DB :=
  match d.next with
  | some _ => d
  | none => { d with
      next := some (ROOT + 1)
      inodes := d.inodes.put (key8 ROOT) (mkInode (rootAttrs uid gid now) 0) }

/-- Second transaction of the constructor (cache.cpp 330-332): `clean_orphans` inside `with_rw_txn`,
which calls it once more (cache.cpp 286). -/
def openCleanDB (d : DB) (r : Refs) : M (DB × Refs) := do
  let (d1, r1) ← cleanOrphans d r
  cleanOrphans d1 r1

/-- The innermost transaction with the reference table. -/
def Frame.txn (f : Frame) (r : Refs) : Txn := ⟨f.db, r, f.rewrite, f.hooks⟩

/-- One call. Calls which the type system or LMDB excludes are faults. -/
def World.step (w : World) : Call → M (World × Out)
  | .crash => .ok ({ w with phase := .down, refs := Refs.empty, stack := [] }, .unit (.ok ()))
  | .openInit uid gid now =>
    if w.phase = .down then .ok ({ w with phase := .inited, disk := initDB w.disk uid gid now }, .unit (.ok ()))
    else .error (.ub 298)
  | .openClean =>
    if w.phase = .inited then do
      let (d, r) ← openCleanDB w.disk w.refs
      pure ({ w with phase := .up, disk := d, refs := r }, .unit (.ok ()))
    else .error (.ub 330)
  | .beginRO =>
    if w.phase = .up ∧ w.stack = [] then .ok ({ w with stack := [{ db := w.disk, ro := true }] }, .unit (.ok ()))
    else .error (.ub 335)
  | .beginRW =>
    if w.phase = .up ∧ w.stack = [] then .ok ({ w with stack := [{ db := w.disk }] }, .unit (.ok ()))
    else .error (.ub 340)
  | .nested => match w.stack with
    | [] => .error (.ub 600)
    | f :: r => if f.ro then .error (.ub 600) else .ok ({ w with stack := { db := f.db } :: f :: r }, .unit (.ok ()))
  | .op o => match w.stack with
    | [] => .error (.ub 0)
    | f :: r =>
      if f.ro && !o.isRO then .error (.ub 0)
      else do
        let (t, out) ← doOp (f.txn w.refs) o
        pure ({ w with refs := t.refs, stack := ⟨t.db, t.rewrite, t.hooks, f.ro⟩ :: r }, out)
  | .commit => match w.stack with
    | [] => .error (.ub 766)
    | [f] => .ok ({ w with disk := if f.ro then w.disk else f.db, stack := [] }, .unit (.ok ()))
    | f :: g :: r => .ok ({ w with stack := { g with db := f.db, hooks := g.hooks ++ f.hooks } :: r }, .unit (.ok ()))
  | .abort => match w.stack with
    | [] => .error (.ub 757)
    | f :: r => do
      let refs ← undoAll w.refs f.hooks.reverse
      pure ({ w with refs := refs, stack := r }, .unit (.ok ()))
  | .drop => match w.stack with
    | [] => .error (.ub 0)
    | _ :: r => .ok ({ w with stack := r }, .unit (.ok ()))

/-- A sequence of calls. -/
def World.run (w : World) : List Call → M (World × List Out)
  | [] => .ok (w, [])
  | c :: cs => do
    let (w1, o) ← w.step c
    let (w2, os) ← w1.run cs
    pure (w2, o :: os)

/-- Before anything was done: no process, empty database file. -/
def World.init : World := ⟨.down, emptyDB, Refs.empty, []⟩

/-- Arguments of inode type are 64 bit numbers. -/
def Op.inRange : Op → Prop
  | .lookup p _ => p < W64
  | .getattr i => i < W64
  | .readlink i => i < W64
  | .readdir dir prev => dir < W64 ∧ prev < W64
  | .path i => i < W64
  | .name i => i < W64
  | .parent i => i < W64
  | .testFlag i f => i < W64 ∧ f < 16
  | .lock i => i < W64
  | .release i n => i < W64 ∧ n < W64
  | .emplace p _ _ => p < W64
  | .unlinkIno i => i < W64
  | .unlinkName p _ => p < W64
  | .clean => True
  | .writelink i _ => i < W64
  | .updateFlags i a b => i < W64 ∧ (∀ f ∈ a, f < 16) ∧ ∀ f ∈ b, f < 16
  | .startRewrite dir => dir < W64
  | .finishRewrite => True

/-- What callers have to respect: arguments in range; `emplace` gets a valid inode number as parent
and there are inode numbers left; lock counts do not exceed 64 bits. -/
def Allowed (w : World) : Call → Prop
  | .op o => o.inRange ∧ ∀ f r, w.stack = f :: r → match o with
    | .emplace p _ _ => p ≠ 0 ∧ ∀ n, f.db.next = some n → n + 1 < W64
    | .lock i => (w.refs i).nrefs + 1 < W64
    | _ => True
  | _ => True

/-- Additionally, the parent given to `emplace` is an existing directory. -/
def Proper (w : World) : Call → Prop
  | .op (.emplace p _ _) => ∀ f r, w.stack = f :: r → ∃ a, getattr f.db p = .ok (p, a) ∧ fmt a.mode = S_IFDIR
  | _ => True

/-- Worlds which can be reached by allowed calls. -/
inductive Reach : World → Prop
  | init : Reach World.init
  | step {w c w' o} : Reach w → Allowed w c → w.step c = .ok (w', o) → Reach w'

/-- Worlds which can be reached by allowed and proper calls. -/
inductive ReachP : World → Prop
  | init : ReachP World.init
  | step {w c w' o} : ReachP w → Allowed w c → Proper w c → w.step c = .ok (w', o) → ReachP w'

theorem ReachP.reach {w : World} (h : ReachP w) : Reach w := by
  induction h with
  | init => exact .init
  | step _ h1 _ h3 ih => exact .step ih h1 h3

end Dragonstash.Cache
