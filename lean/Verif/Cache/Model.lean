/-
  Model of the cache: CacheDatabase, Cache, CacheTransactionRO, CacheTransactionRW
  (src/cache/cache.cpp, include/dragonstash/cache/cache.hpp).

  Simplifications, used throughout:
  * values in the databases are the records themselves, not their bytes (the byte level is in
    `Verif.Cache.Records`; by C35 parsing what was serialised gives it back, so the error paths for
    unparsable records are not reachable and not modelled);
  * keys are byte strings, databases are ordered maps (`Tab`), cursors are positions in them;
  * LMDB calls do not fail for lack of space or memory (see `Verif.Cache.Refuse` for writes which do);
  * the mutex which protects the reference table is in `Verif.Conc`, one thread is modelled here.
-/
import Verif.Cache.Records
import Verif.Cache.Tab
namespace Dragonstash.Cache
open Codec

/-- include/dragonstash/cache/inode.hpp 46-47. -/
def INVALID : Ino := 0
def ROOT : Ino := 1

/-- `mode & S_IFMT`. -/
def fmt (mode : Nat) : Nat := mode &&& 0o170000
def S_IFDIR : Nat := 0o040000
def S_IFLNK : Nat := 0o120000
def S_IFREG : Nat := 0o100000

/-- The six LMDB databases (cache.cpp 65-72, 230-239); `next` is the value at key `next_ino` of
the meta database. -/
structure DB where
  next : Option Ino
  inodes : Tab Inode
  treei : Tab DirEnt
  treen : Tab DirEnt
  orphans : Tab Unit
  links : Tab Bytes

/-- `m_max_name_length` (cache.cpp 245-252): LMDB's default maximum key size is 511. -/
def maxName : Nat := 503

/-- `CacheDatabase::check_name` (cache.cpp 254-273). -/
def checkName (n : Bytes) (forWriting : Bool) : Res Unit :=
  if n.length > maxName then .error ENAMETOOLONG
  else if !forWriting then .ok ()
  else if n.any (fun c => c == 0 || c == 0x2f) then .error EINVAL
  else .ok ()

/-- `mkinode` (inode.hpp 174-181): flags and reserved fields are zero. -/
def mkInode (a : Attrs) (parent : Ino) : Inode := ⟨0, parent, a⟩

/-- Directory entry record as `emplace` writes it (direntry.hpp 61-73, cache.cpp 946-955). -/
def mkEnt (i : Ino) (n : Bytes) : DirEnt := ⟨0, 0, i, n⟩

/-! ### Reading (CacheTransactionRO) -/

/-- `name(parent, ino)` (cache.cpp 434-460). -/
def name2 (d : DB) (p i : Ino) : Res Bytes :=
  if i = ROOT ∨ p = INVALID then .ok []
  else match d.treei.find (key16 p i) with
  | none => .error ENOENT
  | some e => .ok e.name

/-- `parent(ino)` (cache.cpp 478-496). -/
def parent (d : DB) (i : Ino) : Res Ino :=
  if i = ROOT then .ok i
  else match d.inodes.find (key8 i) with
  | none => .error ENOENT
  | some n => .ok n.parent

/-- `name(ino)` (cache.cpp 462-476). -/
def name (d : DB) (i : Ino) : Res Bytes :=
  if i = ROOT then .ok []
  else match parent d i with
  | .error e => .error e
  | .ok p => if p = INVALID then .ok [] else name2 d p i

/-- The cursor loop of `lookup` (cache.cpp 513-543). -/
def lookupScan (p : Ino) (n : Bytes) : List (Bytes × DirEnt) → M (Res Ino)
  | [] => .ok (.error ENOENT)
  | e :: t => do
    chk 517 (decide (8 ≤ e.1.length))
    if e.1.length - 8 ≠ n.length then lookupScan p n t
    else if leDec (e.1.take 8) ≠ p then pure (.error ENOENT)
    else if e.1.drop 8 = n then pure (.ok e.2.ino)
    else lookupScan p n t

/-- `lookup(parent, name)` (cache.cpp 498-546). -/
def lookup (d : DB) (p : Ino) (n : Bytes) : M (Res Ino) :=
  match checkName n false with
  | .error e => .ok (.error e)
  | .ok () =>
    if p = INVALID then .ok (.error EINVAL)
    else lookupScan p n (d.treen.lower (key8 p))

/-- `getattr(ino)` (cache.cpp 548-564); the inode number in the `Stat` is the argument. -/
def getattr (d : DB) (i : Ino) : Res (Ino × Attrs) :=
  match d.inodes.find (key8 i) with
  | none => .error ENOENT
  | some n => .ok (i, n.attr)

/-- `readlink(ino)` (cache.cpp 566-580). -/
def readlink (d : DB) (i : Ino) : Res Bytes :=
  match d.links.find (key8 i) with
  | some t => .ok t
  | none => match d.inodes.find (key8 i) with
    | none => .error ENOENT
    | some _ => .error EINVAL

/-- Second half of `readdir` (cache.cpp 609-658): the entry at or behind the cursor position `l`;
`prev` is skipped. End of file is the error 0. -/
def readdirAt (dir prev : Ino) (l : List (Bytes × DirEnt)) : M (Res (Ino × Bytes)) :=
  match l with
  | [] => .ok (.error EOF_)
  | e :: t => do
    chk 624 (decide (e.1.length = 16))
    if leDec (e.1.take 8) ≠ dir then pure (.error EOF_)
    else if prev ≠ 0 ∧ leDec (e.1.drop 8) = prev then
      match t with
      | [] => pure (.error EOF_)
      | e' :: _ => do
        chk 638 (decide (e'.1.length = 16))
        if leDec (e'.1.take 8) ≠ dir then pure (.error EOF_)
        else pure (.ok (leDec (e'.1.drop 8), e'.2.name))
    else pure (.ok (leDec (e.1.drop 8), e.2.name))

/-- `readdir(dir, prev_end)` (cache.cpp 582-658): inode number and name of the entry after
`prev`. -/
def readdir (d : DB) (dir prev : Ino) : M (Res (Ino × Bytes)) :=
  if prev = 0 then .ok (.ok (dir, [0x2e]))
  else match parent d dir with
  | .error _ => .ok (.error EIO)
  | .ok p =>
    if prev ≠ p ∧ prev = dir then .ok (.ok (p, [0x2e, 0x2e]))
    else readdirAt dir prev (d.treei.lower (key16 dir (if prev = p then 0 else prev)))

/-- The loop of `path` (cache.cpp 667-685). `fuel` bounds the iterations: the loop reads the record
of a new inode in every iteration, or it repeats one and never ends (`diverge`). -/
def pathLoop (d : DB) : Nat → Ino → Bytes → M (Res Bytes)
  | 0, _, _ => .error (.diverge 667)
  | f + 1, i, buf =>
    match parent d i with
    | .error e => .ok (.error e)
    | .ok p =>
      match name2 d p i with
      | .error e => .ok (.error e)
      | .ok n =>
        let buf := buf ++ n.reverse ++ [0x2f]
        if p = ROOT then .ok (.ok buf.reverse) else pathLoop d f p buf

/-- `path(ino)` (cache.cpp 660-689). -/
def path (d : DB) (i : Ino) : M (Res Bytes) :=
  if i = ROOT then .ok (.ok []) else pathLoop d (d.inodes.size + 1) i []

/-- Inode flags by bit number; `SYNCED` is the only one in use (inode.hpp 106-121). -/
notation "Flag" => Nat
def SYNCED : Flag := 0

/-- `InodeV1::test_flag` (inode.hpp 157-159). -/
def hasFlag (flags : Nat) (f : Flag) : Bool := (flags &&& (1 <<< f)) != 0

/-- `InodeV1::set_flag` (inode.hpp 161-167); `flags` is a `uint16_t`. -/
def setFlag (flags : Nat) (f : Flag) (on : Bool) : Nat :=
  if on then u16 (flags ||| (1 <<< f)) else flags &&& (65535 ^^^ u16 (1 <<< f))

/-- `test_flag(ino, flag)` (cache.cpp 722-739). -/
def testFlag (d : DB) (i : Ino) (f : Flag) : Res Bool :=
  match d.inodes.find (key8 i) with
  | none => .error ENOENT
  | some n => .ok (hasFlag n.flags f)

/-! ### Writing (CacheTransactionRW) -/

/-- `make_orphan(ino)` (cache.cpp 829-890). The key is built from the bytes of the `Result<ino_t>`
object itself (line 847), whose first eight bytes are the value with libstdc++'s `std::optional`. -/
def makeOrphan (d : DB) (i : Ino) : DB × Res Unit :=
  match parent d i with
  | .error e => (d, .error e)
  | .ok p =>
    if p = INVALID then (d, .ok ())
    else match d.treei.find (key16 p i) with
    | none => (d, .error EIO)
    | some e =>
      ({ d with
          treei := d.treei.del (key16 p i)
          treen := d.treen.del (keyN p e.name)
          orphans := d.orphans.put (key8 i) ()
          inodes := match d.inodes.find (key8 i) with
            | none => d.inodes
            | some n => d.inodes.put (key8 i) { n with parent := 0 } }, .ok ())

/-- The loop of `clean_orphans` over the children of a removed directory (cache.cpp 1061-1075).
Every iteration removes an entry or changes nothing and repeats forever, so a fuel of the number of
entries plus one is exact. -/
def orphanKids : Nat → DB → Ino → M DB
  | 0, _, _ => .error (.diverge 1062)
  | f + 1, d, i =>
    match d.treei.lower (key8 i) with
    | [] => .ok d
    | e :: _ =>
      if leDec (e.1.take 8) ≠ i then .ok d
      else orphanKids f (makeOrphan d e.2.ino).1 i

/-- What depends on the kind of a doomed inode: the target of a symbolic link is removed, the entries
of a directory are unlinked (cache.cpp 1051-1077). -/
def removeData (d : DB) (i : Ino) (n : Inode) : M DB :=
  if fmt n.attr.mode = S_IFLNK then .ok { d with links := d.links.del (key8 i) }
  else if fmt n.attr.mode = S_IFDIR then orphanKids (d.treei.size + 1) d i
  else .ok d

/-- Removal of one doomed inode (cache.cpp 1040-1083). -/
def removeOne (d : DB) (i : Ino) : M DB :=
  match d.inodes.find (key8 i) with
  | none => .ok { d with orphans := d.orphans.del (key8 i) }
  | some n => do
    let d' ← removeData d i n
    pure { d' with inodes := d'.inodes.del (key8 i), orphans := d'.orphans.del (key8 i) }

/-- Walk from the first orphan to the first one which can be doomed (cache.cpp 1030-1038); a failing
`doom` changes nothing. -/
def firstFree : List (Bytes × Unit) → Refs → Option (Ino × Refs)
  | [], _ => none
  | e :: t, r =>
    match r.doom (leDec e.1) with
    | (r', .ok ()) => some (leDec e.1, r')
    | (_, .error _) => firstFree t r

/-- Main loop of `clean_orphans`: after each removal the walk restarts (cache.cpp 1086). -/
def cleanLoop : Nat → DB → Refs → M (DB × Refs)
  | 0, _, _ => .error (.diverge 1031)
  | f + 1, d, r =>
    match firstFree d.orphans.entries r with
    | none => .ok (d, r)
    | some (i, r') => do
      let d' ← removeOne d i
      cleanLoop f d' r'

/-- `clean_orphans()` (cache.cpp 1024-1090). Every iteration removes an inode record, or an orphan
record without inode, so the fuel suffices. -/
def cleanOrphans (d : DB) (r : Refs) : M (DB × Refs) :=
  cleanLoop (d.inodes.size + d.treei.size + d.orphans.size + 1) d r

/-- Rollback hooks registered by `lock` and `release` (cache.cpp 699-701, 715-717). -/
inductive Undo where
  | unlock (i : Ino)
  | relock (i : Ino) (n : Nat)
  deriving DecidableEq, Repr

/-- An open transaction: its view of the database, the process-wide reference table, the set of
inodes marked by `start_dir_rewrite` and the hooks. -/
structure Txn where
  db : DB
  refs : Refs
  rewrite : Option (List Ino) := none
  hooks : List Undo := []

/-- `allocate_next_inode` (cache.cpp 815-827). -/
def allocNext (d : DB) : M (DB × Ino) :=
  match d.next with
  | none => .error (.thrown 820)
  | some i => .ok ({ d with next := some (u64 (i + 1)) }, i)

/-- Second half of `emplace` (cache.cpp 938-984): a new inode under a free name. -/
def emplaceNew (t : Txn) (d : DB) (p : Ino) (n : Bytes) (a : Attrs) : M (Txn × Res Ino) := do
  let (d, i) ← allocNext d
  let d := { d with
    inodes := d.inodes.put (key8 i) (mkInode a p)
    treen := d.treen.put (keyN p n) (mkEnt i n)
    treei := d.treei.put (key16 p i) (mkEnt i n) }
  let (d, r) ← cleanOrphans d t.refs
  pure ({ t with db := d, refs := r }, .ok i)

/-- `emplace(parent, name, attrs)` (cache.cpp 892-985). -/
def emplace (t : Txn) (p : Ino) (n : Bytes) (a : Attrs) : M (Txn × Res Ino) :=
  match checkName n true with
  | .error e => .ok (t, .error e)
  | .ok () =>
    match t.db.treen.find (keyN p n) with
    | none => emplaceNew t t.db p n a
    | some e =>
      match t.db.inodes.find (key8 e.ino) with
      | none => .error (.assertFail 923)
      | some old =>
        if fmt old.attr.mode = fmt a.mode then
          .ok ({ t with
                  db := { t.db with inodes := t.db.inodes.put (key8 e.ino) (mkInode a p) }
                  rewrite := t.rewrite.map (fun s => s.filter (· ≠ e.ino)) }, .ok e.ino)
        else emplaceNew t (makeOrphan t.db e.ino).1 p n a

/-- `clean_orphans` on an open transaction. -/
def clean (t : Txn) : M (Txn × Res Unit) := do
  let (d, r) ← cleanOrphans t.db t.refs
  pure ({ t with db := d, refs := r }, .ok ())

/-- `unlink(ino)` (cache.cpp 987-994); `unlink(parent, child)` is the same (cache.cpp 996-999). -/
def unlinkIno (t : Txn) (i : Ino) : M (Txn × Res Unit) :=
  match makeOrphan t.db i with
  | (_, .error e) => .ok (t, .error e)
  | (d, .ok ()) => clean { t with db := d }

/-- `unlink(parent, name)` (cache.cpp 1001-1022). -/
def unlinkName (t : Txn) (p : Ino) (n : Bytes) : M (Txn × Res Unit) :=
  match t.db.treen.find (keyN p n) with
  | none => .ok (t, .error ENOENT)
  | some e => unlinkIno t e.ino

/-- `writelink(ino, dest)` (cache.cpp 1092-1115). -/
def writelink (t : Txn) (i : Ino) (dest : Bytes) : Txn × Res Unit :=
  match t.db.inodes.find (key8 i) with
  | none => (t, .error ENOENT)
  | some n =>
    if fmt n.attr.mode ≠ S_IFLNK then (t, .error EINVAL)
    else ({ t with db := { t.db with
              inodes := t.db.inodes.put (key8 i) { n with attr := { n.attr with size := dest.length } }
              links := t.db.links.put (key8 i) dest } }, .ok ())

/-- `update_flags(ino, to_set, to_clear)` (cache.cpp 1117-1144). -/
def updateFlags (t : Txn) (i : Ino) (toSet toClear : List Flag) : Txn × Res Unit :=
  match t.db.inodes.find (key8 i) with
  | none => (t, .error ENOENT)
  | some n =>
    let fl := toSet.foldl (fun x f => setFlag x f true) n.flags
    let fl := toClear.foldl (fun x f => setFlag x f false) fl
    ({ t with db := { t.db with inodes := t.db.inodes.put (key8 i) { n with flags := fl } } }, .ok ())

/-- Insertion into a `std::set<ino_t>`, as an ascending list. -/
def setInsert (i : Ino) : List Ino → List Ino
  | [] => [i]
  | j :: t => if i < j then i :: j :: t else if i = j then j :: t else j :: setInsert i t

/-- The loop of `start_dir_rewrite` collecting children (cache.cpp 1168-1176). `get_struct` requires
16-byte keys. -/
def collectKids (dir : Ino) : List (Bytes × DirEnt) → List Ino → M (List Ino)
  | [], s => .ok s
  | e :: t, s => do
    chk 1168 (decide (e.1.length = 16))
    if leDec (e.1.take 8) = dir then collectKids dir t (setInsert (leDec (e.1.drop 8)) s)
    else pure s

/-- `start_dir_rewrite(dir)` (cache.cpp 1146-1178). -/
def startRewrite (t : Txn) (dir : Ino) : M (Txn × Res Unit) :=
  match t.rewrite with
  | some _ => .ok (t, .error EALREADY)
  | none =>
    match t.db.treei.lower (key8 dir) with
    | [] => .ok (t, .ok ())
    | e :: l => do
      let s ← collectKids dir (e :: l) []
      pure ({ t with rewrite := some s }, .ok ())

/-- `finish_dir_rewrite()` (cache.cpp 1180-1192). -/
def finishRewrite (t : Txn) : Txn × Res Unit :=
  match t.rewrite with
  | none => (t, .error EBADFD)
  | some s => ({ t with db := s.foldl (fun d i => (makeOrphan d i).1) t.db, rewrite := none }, .ok ())

/-- `lock(ino)` (cache.cpp 691-704). -/
def lock (t : Txn) (i : Ino) : Txn × Res Unit :=
  match t.refs.incref i 1 with
  | (_, .error e) => (t, .error e)
  | (r, .ok _) => ({ t with refs := r, hooks := t.hooks ++ [.unlock i] }, .ok ())

/-- `release(ino, nlocks)` (cache.cpp 706-720). Releasing more than is held throws. -/
def release (t : Txn) (i : Ino) (n : Nat) : M (Txn × Res Unit) :=
  if n = 0 then .ok (t, .ok ())
  else do
    let (r, res) ← t.refs.decref i n
    match res with
    | .error _ => .error (.assertFail 713)
    | .ok _ => pure ({ t with refs := r, hooks := t.hooks ++ [.relock i n] }, .ok ())

/-- Running one rollback hook (cache.cpp 700, 716). -/
def undo (r : Refs) : Undo → M Refs
  | .unlock i => do
    let (r', res) ← r.decref i 1
    match res with
    | .error _ => .error (.assertFail 700)
    | .ok _ => pure r'
  | .relock i n =>
    match r.incref i n with
    | (_, .error _) => .error (.assertFail 716)
    | (r', .ok _) => .ok r'

/-- The rollback loop of `abort` over the hooks in reverse order (cache.cpp 751-756); the hooks
`lock` and `release` register have no stage 1 (see `Verif.Cache.Hooks` for the general case). -/
def undoAll (r : Refs) : List Undo → M Refs
  | [] => .ok r
  | h :: t => do
    let r' ← undo r h
    undoAll r' t

end Dragonstash.Cache
