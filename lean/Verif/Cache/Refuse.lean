/-
  Model of the cache on a database which may refuse to be written: the map is full, or the disk is, and
  LMDB's functions fail. The wrapper lmdb-safe (a submodule, not part of /repo) turns this into an exception;
  src/cache/cache.cpp catches none, so the exception leaves the call.

  The functions of `Verif.Cache.Model` which write, with every write to LMDB as a step of its own. (Where the
  program deletes a key which may be missing, LMDB may not need to write; the model lets it fail there too.)
  An exception leaves the reference table, which is in memory, as it is at this moment. The data written in the transaction
  is lost in any case: LMDB refuses to commit it, so all that can be done with the transaction object is to call `abort` or to
  destroy it.
-/
import Verif.Cache.Txn
namespace Dragonstash.Cache
open Codec

/-- The databases as the transaction sees them, the reference table, and how many writes succeed before one is refused. -/
structure WS where
  db : DB
  refs : Refs
  left : Nat

/-- How a function ends: it returns, or LMDB throws. -/
inductive Ended (α : Type) where
  | done (a : α) (s : WS)
  | refused (r : Refs)

/-- Functions which write. -/
def X (α : Type) := WS → M (Ended α)

def X.pure {α : Type} (a : α) : X α := fun s => .ok (.done a s)

def X.bind {α β : Type} (x : X α) (f : α → X β) : X β := fun s =>
  match x s with
  | .error e => .error e
  | .ok (.refused r) => .ok (.refused r)
  | .ok (.done a s') => f a s'

instance : Monad X where
  pure := X.pure
  bind := X.bind

namespace X

/-- Reading the databases. -/
def db : X DB := fun s => .ok (.done s.db s)
/-- Reading the reference table. -/
def refs : X Refs := fun s => .ok (.done s.refs s)
/-- Changing the reference table. -/
def setRefs (r : Refs) : X Unit := fun s => .ok (.done () { s with refs := r })
/-- Failing otherwise. -/
def fault {α : Type} (e : Fault) : X α := fun _ => .error e
/-- One write to LMDB. -/
def write (g : DB → DB) : X Unit := fun s =>
  if s.left = 0 then .ok (.refused s.refs) else .ok (.done () { s with db := g s.db, left := s.left - 1 })

/-- `make_orphan(ino)` (cache.cpp 829-890). -/
def makeOrphan (i : Ino) : X (Res Unit) := do
  let d ← db
  match parent d i with
  | .error e => pure (.error e)
  | .ok p =>
    if p = INVALID then pure (.ok ())
    else match d.treei.find (key16 p i) with
    | none => pure (.error EIO)
    | some e => do
      write (fun d => { d with treei := d.treei.del (key16 p i) })
      write (fun d => { d with treen := d.treen.del (keyN p e.name) })
      write (fun d => { d with orphans := d.orphans.put (key8 i) () })
      let d ← db
      match d.inodes.find (key8 i) with
      | none => pure (.ok ())
      | some n => do
        write (fun d => { d with inodes := d.inodes.put (key8 i) { n with parent := 0 } })
        pure (.ok ())

/-- The loop of `clean_orphans` over the children of a removed directory (cache.cpp 1061-1075). -/
def orphanKids : Nat → Ino → X Unit
  | 0, _ => fault (.diverge 1062)
  | f + 1, i => do
    let d ← db
    match d.treei.lower (key8 i) with
    | [] => pure ()
    | e :: _ =>
      if leDec (e.1.take 8) ≠ i then pure ()
      else do
        let _ ← makeOrphan e.2.ino
        orphanKids f i

/-- cache.cpp 1051-1077. -/
def removeData (i : Ino) (n : Inode) : X Unit := do
  if fmt n.attr.mode = S_IFLNK then write (fun d => { d with links := d.links.del (key8 i) })
  else if fmt n.attr.mode = S_IFDIR then do
    let d ← db
    orphanKids (d.treei.size + 1) i
  else pure ()

/-- Removal of one doomed inode (cache.cpp 1040-1083). -/
def removeOne (i : Ino) : X Unit := do
  let d ← db
  match d.inodes.find (key8 i) with
  | none => write (fun d => { d with orphans := d.orphans.del (key8 i) })
  | some n => do
    removeData i n
    write (fun d => { d with inodes := d.inodes.del (key8 i) })
    write (fun d => { d with orphans := d.orphans.del (key8 i) })

/-- Main loop of `clean_orphans` (cache.cpp 1030-1087): the inode is doomed before anything of it is removed. -/
def cleanLoop : Nat → X Unit
  | 0 => fault (.diverge 1031)
  | f + 1 => do
    let d ← db
    let r ← refs
    match firstFree d.orphans.entries r with
    | none => pure ()
    | some (i, r') => do
      setRefs r'
      removeOne i
      cleanLoop f

/-- `clean_orphans()` (cache.cpp 1024-1090). -/
def cleanOrphans : X Unit := do
  let d ← db
  cleanLoop (d.inodes.size + d.treei.size + d.orphans.size + 1)

/-- `allocate_next_inode` (cache.cpp 815-827): one write, in a nested LMDB transaction. -/
def allocNext : X Ino := do
  let d ← db
  match d.next with
  | none => fault (.thrown 820)
  | some i => do
    write (fun d => { d with next := some (u64 (i + 1)) })
    pure i

/-- Second half of `emplace` (cache.cpp 938-984). -/
def emplaceNew (p : Ino) (n : Bytes) (a : Attrs) : X (Res Ino) := do
  let i ← allocNext
  write (fun d => { d with inodes := d.inodes.put (key8 i) (mkInode a p) })
  write (fun d => { d with treen := d.treen.put (keyN p n) (mkEnt i n) })
  write (fun d => { d with treei := d.treei.put (key16 p i) (mkEnt i n) })
  cleanOrphans
  pure (.ok i)

/-- `emplace(parent, name, attrs)` (cache.cpp 892-985); the first part of the result is `m_rewrite_inode_set`. -/
def emplace (rw : Option (List Ino)) (p : Ino) (n : Bytes) (a : Attrs) : X (Option (List Ino) × Res Ino) :=
  match checkName n true with
  | .error e => pure (rw, .error e)
  | .ok () => do
    let d ← db
    match d.treen.find (keyN p n) with
    | none => do
      let r ← emplaceNew p n a
      pure (rw, r)
    | some e =>
      match d.inodes.find (key8 e.ino) with
      | none => fault (.assertFail 923)
      | some old =>
        if fmt old.attr.mode = fmt a.mode then do
          write (fun d => { d with inodes := d.inodes.put (key8 e.ino) (mkInode a p) })
          pure (rw.map (fun s => s.filter (· ≠ e.ino)), .ok e.ino)
        else do
          let _ ← makeOrphan e.ino
          let r ← emplaceNew p n a
          pure (rw, r)

/-- `unlink(ino)` (cache.cpp 987-994). -/
def unlinkIno (i : Ino) : X (Res Unit) := do
  match ← makeOrphan i with
  | .error e => pure (.error e)
  | .ok () => do
    cleanOrphans
    pure (.ok ())

/-- `unlink(parent, name)` (cache.cpp 1001-1022). -/
def unlinkName (p : Ino) (n : Bytes) : X (Res Unit) := do
  let d ← db
  match d.treen.find (keyN p n) with
  | none => pure (.error ENOENT)
  | some e => unlinkIno e.ino

/-- `writelink(ino, dest)` (cache.cpp 1092-1115). -/
def writelink (i : Ino) (dest : Bytes) : X (Res Unit) := do
  let d ← db
  match d.inodes.find (key8 i) with
  | none => pure (.error ENOENT)
  | some n =>
    if fmt n.attr.mode ≠ S_IFLNK then pure (.error EINVAL)
    else do
      write (fun d => { d with inodes := d.inodes.put (key8 i) { n with attr := { n.attr with size := dest.length } } })
      write (fun d => { d with links := d.links.put (key8 i) dest })
      pure (.ok ())

/-- `update_flags(ino, to_set, to_clear)` (cache.cpp 1117-1144). -/
def updateFlags (i : Ino) (toSet toClear : List Flag) : X (Res Unit) := do
  let d ← db
  match d.inodes.find (key8 i) with
  | none => pure (.error ENOENT)
  | some n => do
    let fl := toSet.foldl (fun x f => setFlag x f true) n.flags
    let fl := toClear.foldl (fun x f => setFlag x f false) fl
    write (fun d => { d with inodes := d.inodes.put (key8 i) { n with flags := fl } })
    pure (.ok ())

/-- The loop of `finish_dir_rewrite` (cache.cpp 1187-1189). -/
def orphanAll : List Ino → X Unit
  | [] => pure ()
  | i :: l => do
    let _ ← makeOrphan i
    orphanAll l

/-- `finish_dir_rewrite()` (cache.cpp 1180-1192). -/
def finishRewrite : Option (List Ino) → X (Option (List Ino) × Res Unit)
  | none => pure (none, .error EBADFD)
  | some s => do
    orphanAll s
    pure (none, .ok ())

end X

/-- How a call on an open transaction ends. -/
inductive OpEnd where
  | done (t : Txn) (out : Out)
  | refused (r : Refs)

/-- Runs a function on an open transaction, if `n` writes succeed. -/
def Txn.exec (t : Txn) (n : Nat) (x : X (Option (List Ino) × Out)) : M OpEnd :=
  match x ⟨t.db, t.refs, n⟩ with
  | .error e => .error e
  | .ok (.refused r) => .ok (.refused r)
  | .ok (.done (rw, out) s) => .ok (.done { t with db := s.db, refs := s.refs, rewrite := rw } out)

/-- One call on an open transaction, if `n` writes succeed. Calls which write nothing do not fail. -/
def doOpX (t : Txn) (n : Nat) : Op → M OpEnd
  | .emplace p m a => t.exec n (do let (rw, r) ← X.emplace t.rewrite p m a; pure (rw, .ino r))
  | .unlinkIno i => t.exec n (do let r ← X.unlinkIno i; pure (t.rewrite, .unit r))
  | .unlinkName p m => t.exec n (do let r ← X.unlinkName p m; pure (t.rewrite, .unit r))
  | .clean => t.exec n (do X.cleanOrphans; pure (t.rewrite, .unit (.ok ())))
  | .writelink i dest => t.exec n (do let r ← X.writelink i dest; pure (t.rewrite, .unit r))
  | .updateFlags i a b => t.exec n (do let r ← X.updateFlags i a b; pure (t.rewrite, .unit r))
  | .finishRewrite => t.exec n (do let (rw, r) ← X.finishRewrite t.rewrite; pure (rw, .unit r))
  | o => do let (t', out) ← doOp t o; pure (.done t' out)

/-- What can happen to a cache whose database refuses to be written: the calls of `Verif.Cache.Txn`; a call on the innermost
transaction during which write `n` (counted from 0) is refused, after which the transaction object is aborted or, as when an exception
passes it, destroyed; the same for `commit` (LMDB gives the transaction up, the object is destroyed); for the constructor of the `Cache` object. -/
inductive CallX where
  | call (c : Call)
  | refused (o : Op) (n : Nat) (abort : Bool)
  | commitRefused
  | openRefused
  deriving DecidableEq

/-- One such event. `abort` is cache.cpp 741-762: it runs the hooks before it gives the LMDB transaction up (which does not fail).
`commit` throws at cache.cpp 787, after the hooks of stage 2, which `lock` and `release` do not have (699-701, 715-717). The constructor of
`Cache` writes at cache.cpp 301-332, in transactions which leave the file as it is when they are not committed. -/
def World.stepX (w : World) : CallX → M World
  | .call c => do let (w', _) ← w.step c; pure w'
  | .refused o n ab => match w.stack with
    | [] => .error (.ub 0)
    | f :: r =>
      if f.ro && !o.isRO then .error (.ub 0)
      else do
        match ← doOpX (f.txn w.refs) n o with
        | .done .. => .error (.ub 0)
        | .refused refs =>
          if ab then do
            let refs ← undoAll refs f.hooks.reverse
            pure { w with refs := refs, stack := r }
          else pure { w with refs := refs, stack := r }
  | .commitRefused => match w.stack with
    | [] => .error (.ub 766)
    | f :: r => if f.ro then .error (.ub 766) else pure { w with stack := r }
  | .openRefused =>
    if w.phase = .up then .error (.ub 298) else pure { w with phase := .down, refs := Refs.empty, stack := [] }

/-- What callers have to respect. -/
def AllowedX (w : World) : CallX → Prop
  | .call c => Allowed w c
  | .refused o _ _ => Allowed w (.op o)
  | _ => True

/-- As in `Proper`. -/
def ProperX (w : World) : CallX → Prop
  | .call c => Proper w c
  | .refused o _ _ => Proper w (.op o)
  | _ => True

/-- Worlds which can be reached if writes may be refused. -/
inductive ReachX : World → Prop
  | init : ReachX World.init
  | step {w c w'} : ReachX w → AllowedX w c → w.stepX c = .ok w' → ReachX w'

/-- The same with proper calls. -/
inductive ReachPX : World → Prop
  | init : ReachPX World.init
  | step {w c w'} : ReachPX w → AllowedX w c → ProperX w c → w.stepX c = .ok w' → ReachPX w'

end Dragonstash.Cache
