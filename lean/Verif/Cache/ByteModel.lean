/-
  The cache once more, with databases whose values are byte strings: CacheDatabase, Cache,
  CacheTransactionRO, CacheTransactionRW (src/cache/cache.cpp). Every record is parsed when it is read
  (`Inode::parse`, `DirEntry::parse`) and serialised when it is written, and the branches for records
  which do not parse are there. `Verif.Cache.Bytewise` relates it to `Verif.Cache.Model`, in which
  values are the records themselves.

  `pad` gives the contents of the four bytes of padding behind `mode` when the record of an inode is
  written; the language does not specify them. Reference table, hooks and cursors are as in
  `Verif.Cache.Model`.
-/
import Verif.Cache.Txn
namespace Dragonstash.Cache.B
open Codec

/-- The six LMDB databases (cache.cpp 65-72, 230-239) with their values as bytes; `next` is the value
at key `next_ino` of the meta database. -/
structure DB where
  next : Option Bytes
  inodes : Tab Bytes
  treei : Tab Bytes
  treen : Tab Bytes
  orphans : Tab Bytes
  links : Tab Bytes

/-- `serialize_as<char>(inode)` (inode.hpp 183-205) of an inode made by `mkinode` (inode.hpp 174-181)
or parsed from the database: reserved fields are zero. -/
def ser (pad : Ino → Nat) (i : Ino) (n : Inode) : Bytes := encInode 0 0 (pad i) n

/-! ### Reading -/

/-- `name(parent, ino)` (cache.cpp 434-460). -/
def name2 (d : DB) (p i : Ino) : M (Res Bytes) :=
  if i = ROOT ∨ p = INVALID then .ok (.ok [])
  else match d.treei.find (key16 p i) with
  | none => .ok (.error ENOENT)
  | some v => do
    match ← parseDirEnt v with
    | .error e => pure (.error e)
    | .ok e => pure (.ok e.name)

/-- `parent(ino)` (cache.cpp 478-496). -/
def parent (d : DB) (i : Ino) : M (Res Ino) :=
  if i = ROOT then .ok (.ok i)
  else match d.inodes.find (key8 i) with
  | none => .ok (.error ENOENT)
  | some v => do
    match ← parseInode v with
    | .error e => pure (.error e)
    | .ok n => pure (.ok n.parent)

/-- `name(ino)` (cache.cpp 462-476). -/
def name (d : DB) (i : Ino) : M (Res Bytes) :=
  if i = ROOT then .ok (.ok [])
  else do
    match ← parent d i with
    | .error e => pure (.error e)
    | .ok p => if p = INVALID then pure (.ok []) else name2 d p i

/-- The cursor loop of `lookup` (cache.cpp 513-543): every entry passed is parsed, and asserted to
parse (line 519). -/
def lookupScan (p : Ino) (n : Bytes) : List (Bytes × Bytes) → M (Res Ino)
  | [] => .ok (.error ENOENT)
  | e :: t => do
    chk 517 (decide (8 ≤ e.1.length))
    match ← parseDirEnt e.2 with
    | .error _ => .error (.assertFail 519)
    | .ok ent =>
      if e.1.length - 8 ≠ n.length then lookupScan p n t
      else if leDec (e.1.take 8) ≠ p then pure (.error ENOENT)
      else if e.1.drop 8 = n then pure (.ok ent.ino)
      else lookupScan p n t

/-- `lookup(parent, name)` (cache.cpp 498-546). -/
def lookup (d : DB) (p : Ino) (n : Bytes) : M (Res Ino) :=
  match checkName n false with
  | .error e => .ok (.error e)
  | .ok () =>
    if p = INVALID then .ok (.error EINVAL)
    else lookupScan p n (d.treen.lower (key8 p))

/-- `getattr(ino)` (cache.cpp 548-564). -/
def getattr (d : DB) (i : Ino) : M (Res (Ino × Attrs)) :=
  match d.inodes.find (key8 i) with
  | none => .ok (.error ENOENT)
  | some v => do
    match ← parseInode v with
    | .error e => pure (.error e)
    | .ok n => pure (.ok (i, n.attr))

/-- `readlink(ino)` (cache.cpp 566-580); the inode record is not parsed. -/
def readlink (d : DB) (i : Ino) : M (Res Bytes) :=
  match d.links.find (key8 i) with
  | some t => .ok (.ok t)
  | none => match d.inodes.find (key8 i) with
    | none => .ok (.error ENOENT)
    | some _ => .ok (.error EINVAL)

/-- End of `readdir` (cache.cpp 647-658). -/
def readdirEnt (i : Ino) (v : Bytes) : M (Res (Ino × Bytes)) := do
  match ← parseDirEnt v with
  | .error _ => pure (.error EIO)
  | .ok e => pure (.ok (i, e.name))

/-- Second half of `readdir` (cache.cpp 609-658). -/
def readdirAt (dir prev : Ino) (l : List (Bytes × Bytes)) : M (Res (Ino × Bytes)) :=
  match l with
  | [] => .ok (.error EOF_)
  | e :: t => do
    chk 624 (decide (e.1.length = 16))
    if leDec (e.1.take 8) ≠ dir then pure (.error EOF_)
    else if prev ≠ 0 ∧ leDec (e.1.drop 8) = prev then
      match t with
      | [] => pure (.error EOF_)
      | e' :: _ => do
        chk 638 (decide (e'.1.length = 16))
        if leDec (e'.1.take 8) ≠ dir then pure (.error EOF_)
        else readdirEnt (leDec (e'.1.drop 8)) e'.2
    else readdirEnt (leDec (e.1.drop 8)) e.2

/-- `readdir(dir, prev_end)` (cache.cpp 582-658). -/
def readdir (d : DB) (dir prev : Ino) : M (Res (Ino × Bytes)) :=
  if prev = 0 then .ok (.ok (dir, [0x2e]))
  else do
    match ← parent d dir with
    | .error _ => pure (.error EIO)
    | .ok p =>
      if prev ≠ p ∧ prev = dir then pure (.ok (p, [0x2e, 0x2e]))
      else readdirAt dir prev (d.treei.lower (key16 dir (if prev = p then 0 else prev)))

/-- The loop of `path` (cache.cpp 667-685). -/
def pathLoop (d : DB) : Nat → Ino → Bytes → M (Res Bytes)
  | 0, _, _ => .error (.diverge 667)
  | f + 1, i, buf => do
    match ← parent d i with
    | .error e => pure (.error e)
    | .ok p =>
      match ← name2 d p i with
      | .error e => pure (.error e)
      | .ok n =>
        let buf := buf ++ n.reverse ++ [0x2f]
        if p = ROOT then pure (.ok buf.reverse) else pathLoop d f p buf

/-- `path(ino)` (cache.cpp 660-689). -/
def path (d : DB) (i : Ino) : M (Res Bytes) :=
  if i = ROOT then .ok (.ok []) else pathLoop d (d.inodes.size + 1) i []

/-- `test_flag(ino, flag)` (cache.cpp 722-739). -/
def testFlag (d : DB) (i : Ino) (f : Flag) : M (Res Bool) :=
  match d.inodes.find (key8 i) with
  | none => .ok (.error ENOENT)
  | some v => do
    match ← parseInode v with
    | .error e => pure (.error e)
    | .ok n => pure (.ok (hasFlag n.flags f))

/-! ### Writing -/

/-- The end of `make_orphan`: the parent in the inode record becomes 0 if there is a record and it
parses (cache.cpp 873-887). -/
def clearParent (pad : Ino → Nat) (d : DB) (i : Ino) : M (Tab Bytes) :=
  match d.inodes.find (key8 i) with
  | none => .ok d.inodes
  | some v => do
    match ← parseInode v with
    | .error _ => pure d.inodes
    | .ok n => pure (d.inodes.put (key8 i) (ser pad i { n with parent := 0 }))

/-- `make_orphan(ino)` (cache.cpp 829-890). The value in the orphan database is one zero byte
(line 868). -/
def makeOrphan (pad : Ino → Nat) (d : DB) (i : Ino) : M (DB × Res Unit) := do
  match ← parent d i with
  | .error e => pure (d, .error e)
  | .ok p =>
    if p = INVALID then pure (d, .ok ())
    else match d.treei.find (key16 p i) with
    | none => pure (d, .error EIO)
    | some v =>
      match ← parseDirEnt v with
      | .error _ => .error (.assertFail 859)
      | .ok e => do
        let inodes ← clearParent pad d i
        pure ({ d with
          treei := d.treei.del (key16 p i)
          treen := d.treen.del (keyN p e.name)
          orphans := d.orphans.put (key8 i) [0]
          inodes := inodes }, .ok ())

/-- The loop of `clean_orphans` over the children of a removed directory (cache.cpp 1061-1075);
copying the parent out of a shorter key would be undefined behaviour. -/
def orphanKids (pad : Ino → Nat) : Nat → DB → Ino → M DB
  | 0, _, _ => .error (.diverge 1062)
  | f + 1, d, i =>
    match d.treei.lower (key8 i) with
    | [] => .ok d
    | e :: _ =>
      if e.1.length < 8 then .error (.ub 1064)
      else if leDec (e.1.take 8) ≠ i then .ok d
      else do
        match ← parseDirEnt e.2 with
        | .error _ => .error (.assertFail 1071)
        | .ok ent => do
          let r ← makeOrphan pad d ent.ino
          orphanKids pad f r.1 i

/-- Cleanup depending on the kind of a doomed inode (cache.cpp 1051-1077). -/
def removeData (pad : Ino → Nat) (d : DB) (i : Ino) (n : Inode) : M DB :=
  if fmt n.attr.mode = S_IFLNK then .ok { d with links := d.links.del (key8 i) }
  else if fmt n.attr.mode = S_IFDIR then orphanKids pad (d.treei.size + 1) d i
  else .ok d

/-- Removal of one doomed inode (cache.cpp 1040-1083); a record which does not parse is removed
without further cleanup. -/
def removeOne (pad : Ino → Nat) (d : DB) (i : Ino) : M DB :=
  match d.inodes.find (key8 i) with
  | none => .ok { d with orphans := d.orphans.del (key8 i) }
  | some v => do
    let d' ← (do
      match ← parseInode v with
      | .error _ => pure d
      | .ok n => removeData pad d i n)
    pure { d' with inodes := d'.inodes.del (key8 i), orphans := d'.orphans.del (key8 i) }

/-- Walk from the first orphan to the first one which can be doomed (cache.cpp 1030-1038);
`key_out.get<ino_t>()` throws unless the key has eight bytes. -/
def firstFree : List (Bytes × Bytes) → Refs → M (Option (Ino × Refs))
  | [], _ => .ok none
  | e :: t, r =>
    if e.1.length ≠ 8 then .error (.thrown 1033)
    else match r.doom (leDec e.1) with
    | (r', .ok ()) => .ok (some (leDec e.1, r'))
    | (_, .error _) => firstFree t r

/-- Main loop of `clean_orphans` (cache.cpp 1031-1087). -/
def cleanLoop (pad : Ino → Nat) : Nat → DB → Refs → M (DB × Refs)
  | 0, _, _ => .error (.diverge 1031)
  | f + 1, d, r => do
    match ← firstFree d.orphans.entries r with
    | none => pure (d, r)
    | some (i, r') => do
      let d' ← removeOne pad d i
      cleanLoop pad f d' r'

/-- `clean_orphans()` (cache.cpp 1024-1090). -/
def cleanOrphans (pad : Ino → Nat) (d : DB) (r : Refs) : M (DB × Refs) :=
  cleanLoop pad (d.inodes.size + d.treei.size + d.orphans.size + 1) d r

/-- An open transaction. -/
structure Txn where
  db : DB
  refs : Refs
  rewrite : Option (List Ino) := none
  hooks : List Undo := []

/-- `allocate_next_inode` (cache.cpp 815-827): `value.get<ino_t>()` throws unless the value has eight
bytes. -/
def allocNext (d : DB) : M (DB × Ino) :=
  match d.next with
  | none => .error (.thrown 820)
  | some v =>
    if v.length ≠ 8 then .error (.thrown 822)
    else .ok ({ d with next := some (leEnc 8 (u64 (leDec v + 1))) }, leDec v)

/-- Second half of `emplace` (cache.cpp 938-984). -/
def emplaceNew (pad : Ino → Nat) (t : Txn) (d : DB) (p : Ino) (n : Bytes) (a : Attrs) : M (Txn × Res Ino) := do
  let (d, i) ← allocNext d
  let d := { d with
    inodes := d.inodes.put (key8 i) (ser pad i (mkInode a p))
    treen := d.treen.put (keyN p n) (encDirEnt 0 (mkEnt i n))
    treei := d.treei.put (key16 p i) (encDirEnt 0 (mkEnt i n)) }
  let (d, r) ← cleanOrphans pad d t.refs
  pure ({ t with db := d, refs := r }, .ok i)

/-- `emplace(parent, name, attrs)` (cache.cpp 892-985). -/
def emplace (pad : Ino → Nat) (t : Txn) (p : Ino) (n : Bytes) (a : Attrs) : M (Txn × Res Ino) :=
  match checkName n true with
  | .error e => .ok (t, .error e)
  | .ok () =>
    match t.db.treen.find (keyN p n) with
    | none => emplaceNew pad t t.db p n a
    | some v => do
      match ← parseDirEnt v with
      | .error _ => .error (.assertFail 918)
      | .ok e =>
        match t.db.inodes.find (key8 e.ino) with
        | none => .error (.assertFail 923)
        | some w =>
          match ← parseInode w with
          | .error _ => .error (.assertFail 925)
          | .ok old =>
            if fmt old.attr.mode = fmt a.mode then
              pure ({ t with
                      db := { t.db with inodes := t.db.inodes.put (key8 e.ino) (ser pad e.ino (mkInode a p)) }
                      rewrite := t.rewrite.map (fun s => s.filter (· ≠ e.ino)) }, .ok e.ino)
            else do
              let r ← makeOrphan pad t.db e.ino
              emplaceNew pad t r.1 p n a

/-- `clean_orphans` on an open transaction. -/
def clean (pad : Ino → Nat) (t : Txn) : M (Txn × Res Unit) := do
  let (d, r) ← cleanOrphans pad t.db t.refs
  pure ({ t with db := d, refs := r }, .ok ())

/-- `unlink(ino)` (cache.cpp 987-994). -/
def unlinkIno (pad : Ino → Nat) (t : Txn) (i : Ino) : M (Txn × Res Unit) := do
  match ← makeOrphan pad t.db i with
  | (_, .error e) => pure (t, .error e)
  | (d, .ok ()) => clean pad { t with db := d }

/-- `unlink(parent, name)` (cache.cpp 1001-1022). -/
def unlinkName (pad : Ino → Nat) (t : Txn) (p : Ino) (n : Bytes) : M (Txn × Res Unit) :=
  match t.db.treen.find (keyN p n) with
  | none => .ok (t, .error ENOENT)
  | some v => do
    match ← parseDirEnt v with
    | .error _ => .error (.assertFail 1016)
    | .ok e => unlinkIno pad t e.ino

/-- `writelink(ino, dest)` (cache.cpp 1092-1115). -/
def writelink (pad : Ino → Nat) (t : Txn) (i : Ino) (dest : Bytes) : M (Txn × Res Unit) :=
  match t.db.inodes.find (key8 i) with
  | none => .ok (t, .error ENOENT)
  | some v => do
    match ← parseInode v with
    | .error _ => pure (t, .error EIO)
    | .ok n =>
      if fmt n.attr.mode ≠ S_IFLNK then pure (t, .error EINVAL)
      else pure ({ t with db := { t.db with
              inodes := t.db.inodes.put (key8 i) (ser pad i { n with attr := { n.attr with size := dest.length } })
              links := t.db.links.put (key8 i) dest } }, .ok ())

/-- `update_flags(ino, to_set, to_clear)` (cache.cpp 1117-1144). -/
def updateFlags (pad : Ino → Nat) (t : Txn) (i : Ino) (toSet toClear : List Flag) : M (Txn × Res Unit) :=
  match t.db.inodes.find (key8 i) with
  | none => .ok (t, .error ENOENT)
  | some v => do
    match ← parseInode v with
    | .error e => pure (t, .error e)
    | .ok n =>
      let fl := toSet.foldl (fun x f => setFlag x f true) n.flags
      let fl := toClear.foldl (fun x f => setFlag x f false) fl
      pure ({ t with db := { t.db with
        inodes := t.db.inodes.put (key8 i) (ser pad i { n with flags := fl }) } }, .ok ())

/-- The loop of `start_dir_rewrite` collecting children (cache.cpp 1168-1176); values are not read. -/
def collectKids (dir : Ino) : List (Bytes × Bytes) → List Ino → M (List Ino)
  | [], s => .ok s
  | e :: t, s => do
    chk 1168 (decide (e.1.length = 16))
    if leDec (e.1.take 8) = dir then collectKids dir t (setInsert (leDec (e.1.drop 8)) s)
    else pure s

/-- `start_dir_rewrite(dir)` (cache.cpp 1146-1178). -/
def startRewrite (t : Txn) (dir : Ino) : M (Txn × Res Unit) :=
  match t.rewrite with
  | some _ => .ok (t, .error EALREADY)
  | none =>
    match t.db.treei.lower (key8 dir) with
    | [] => .ok (t, .ok ())
    | e :: l => do
      let s ← collectKids dir (e :: l) []
      pure ({ t with rewrite := some s }, .ok ())

/-- The loop of `finish_dir_rewrite` (cache.cpp 1187-1189). -/
def orphanAll (pad : Ino → Nat) : DB → List Ino → M DB
  | d, [] => .ok d
  | d, i :: t => do
    let r ← makeOrphan pad d i
    orphanAll pad r.1 t

/-- `finish_dir_rewrite()` (cache.cpp 1180-1192). -/
def finishRewrite (pad : Ino → Nat) (t : Txn) : M (Txn × Res Unit) :=
  match t.rewrite with
  | none => .ok (t, .error EBADFD)
  | some s => do
    let d ← orphanAll pad t.db s
    pure ({ t with db := d, rewrite := none }, .ok ())

/-- `lock(ino)` (cache.cpp 691-704). -/
def lock (t : Txn) (i : Ino) : Txn × Res Unit :=
  match t.refs.incref i 1 with
  | (_, .error e) => (t, .error e)
  | (r, .ok _) => ({ t with refs := r, hooks := t.hooks ++ [.unlock i] }, .ok ())

/-- `release(ino, nlocks)` (cache.cpp 706-720). -/
def release (t : Txn) (i : Ino) (n : Nat) : M (Txn × Res Unit) :=
  if n = 0 then .ok (t, .ok ())
  else do
    let (r, res) ← t.refs.decref i n
    match res with
    | .error _ => .error (.assertFail 713)
    | .ok _ => pure ({ t with refs := r, hooks := t.hooks ++ [.relock i n] }, .ok ())

/-- One operation on an open transaction. -/
def doOp (pad : Ino → Nat) (t : Txn) : Op → M (Txn × Out)
  | .lookup p n => do let r ← lookup t.db p n; pure (t, .ino r)
  | .getattr i => do let r ← getattr t.db i; pure (t, .attr r)
  | .readlink i => do let r ← readlink t.db i; pure (t, .bytes r)
  | .readdir dir prev => do let r ← readdir t.db dir prev; pure (t, .ent r)
  | .path i => do let r ← path t.db i; pure (t, .bytes r)
  | .name i => do let r ← name t.db i; pure (t, .bytes r)
  | .parent i => do let r ← parent t.db i; pure (t, .ino r)
  | .testFlag i f => do let r ← testFlag t.db i f; pure (t, .bool r)
  | .lock i => .ok ((lock t i).1, .unit (lock t i).2)
  | .release i n => do let (t', r) ← release t i n; pure (t', .unit r)
  | .emplace p n a => do let (t', r) ← emplace pad t p n a; pure (t', .ino r)
  | .unlinkIno i => do let (t', r) ← unlinkIno pad t i; pure (t', .unit r)
  | .unlinkName p n => do let (t', r) ← unlinkName pad t p n; pure (t', .unit r)
  | .clean => do let (t', r) ← clean pad t; pure (t', .unit r)
  | .writelink i dest => do let (t', r) ← writelink pad t i dest; pure (t', .unit r)
  | .updateFlags i a b => do let (t', r) ← updateFlags pad t i a b; pure (t', .unit r)
  | .startRewrite dir => do let (t', r) ← startRewrite t dir; pure (t', .unit r)
  | .finishRewrite => do let (t', r) ← finishRewrite pad t; pure (t', .unit r)

/-- A transaction object. -/
structure Frame where
  db : DB
  rewrite : Option (List Ino) := none
  hooks : List Undo := []
  ro : Bool := false

/-- File contents, reference table (in memory) and open transactions, innermost first. -/
structure World where
  phase : Phase
  disk : DB
  refs : Refs
  stack : List Frame

/-- Empty databases. -/
def emptyDB : DB := ⟨none, Tab.empty, Tab.empty, Tab.empty, Tab.empty, Tab.empty⟩

/-- First transaction of the constructor (cache.cpp 301-328). -/
def initDB (pad : Ino → Nat) (d : DB) (uid gid : Nat) (now : Timespec) : DB :=
  match d.next with
  | some _ => d
  | none => { d with
      next := some (leEnc 8 (ROOT + 1))
      inodes := d.inodes.put (key8 ROOT) (ser pad ROOT (mkInode (rootAttrs uid gid now) 0)) }

/-- Second transaction of the constructor (cache.cpp 330-332, 286). -/
def openCleanDB (pad : Ino → Nat) (d : DB) (r : Refs) : M (DB × Refs) := do
  let (d1, r1) ← cleanOrphans pad d r
  cleanOrphans pad d1 r1

/-- The innermost transaction with the reference table. -/
def Frame.txn (f : Frame) (r : Refs) : Txn := ⟨f.db, r, f.rewrite, f.hooks⟩

/-- One call (cache.cpp 298-413, 741-808), as in `Cache.World.step`. -/
def World.step (w : World) (pad : Ino → Nat) : Call → M (World × Out)
  | .crash => .ok ({ w with phase := .down, refs := Refs.empty, stack := [] }, .unit (.ok ()))
  | .openInit uid gid now =>
    if w.phase = .down then .ok ({ w with phase := .inited, disk := initDB pad w.disk uid gid now }, .unit (.ok ()))
    else .error (.ub 298)
  | .openClean =>
    if w.phase = .inited then do
      let (d, r) ← openCleanDB pad w.disk w.refs
      pure ({ w with phase := .up, disk := d, refs := r }, .unit (.ok ()))
    else .error (.ub 330)
  | .beginRO =>
    if w.phase = .up ∧ w.stack = [] then .ok ({ w with stack := [{ db := w.disk, ro := true }] }, .unit (.ok ()))
    else .error (.ub 335)
  | .beginRW =>
    if w.phase = .up ∧ w.stack = [] then .ok ({ w with stack := [{ db := w.disk }] }, .unit (.ok ()))
    else .error (.ub 340)
  | .nested => match w.stack with
    | [] => .error (.ub 600)
    | f :: r => if f.ro then .error (.ub 600) else .ok ({ w with stack := { db := f.db } :: f :: r }, .unit (.ok ()))
  | .op o => match w.stack with
    | [] => .error (.ub 0)
    | f :: r =>
      if f.ro && !o.isRO then .error (.ub 0)
      else do
        let (t, out) ← doOp pad (f.txn w.refs) o
        pure ({ w with refs := t.refs, stack := ⟨t.db, t.rewrite, t.hooks, f.ro⟩ :: r }, out)
  | .commit => match w.stack with
    | [] => .error (.ub 766)
    | [f] => .ok ({ w with disk := if f.ro then w.disk else f.db, stack := [] }, .unit (.ok ()))
    | f :: g :: r => .ok ({ w with stack := { g with db := f.db, hooks := g.hooks ++ f.hooks } :: r }, .unit (.ok ()))
  | .abort => match w.stack with
    | [] => .error (.ub 757)
    | f :: r => do
      let refs ← undoAll w.refs f.hooks.reverse
      pure ({ w with refs := refs, stack := r }, .unit (.ok ()))
  | .drop => match w.stack with
    | [] => .error (.ub 0)
    | _ :: r => .ok ({ w with stack := r }, .unit (.ok ()))

/-- A sequence of calls, each with the padding the serialised records get during it. -/
def World.run (w : World) : List (Call × (Ino → Nat)) → M (World × List Out)
  | [] => .ok (w, [])
  | c :: cs => do
    let (w1, o) ← w.step c.2 c.1
    let (w2, os) ← w1.run cs
    pure (w2, o :: os)

/-- Before anything was done: no process, empty database file. -/
def World.init : World := ⟨.down, emptyDB, Refs.empty, []⟩

end Dragonstash.Cache.B
