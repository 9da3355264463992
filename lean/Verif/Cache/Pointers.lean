/-
  Model of the cache with pointers into the database (src/cache/cache.cpp, include/dragonstash/cache/common.hpp 38-91).

  What LMDB returns are addresses in its pages. "Values returned from the database are valid only until a subsequent update
  operation, or the end of the transaction" (lmdb.h, `mdb_get`, `mdb_cursor_get`). `MDBOutVal`, `copyfree_wrap` and the views made
  of them are such addresses; the model says where the program follows one. The functions of `Verif.Cache.Model`, once more, in
  the order of the statements of the program.

  The wrapper lmdb-safe is a submodule of the program and not part of /repo. What the program can observe of it here is a
  parameter (`Lib`):
  * `find` may ask LMDB for the key it has found (`MDB_SET_KEY`), or not (`MDB_SET`): then the address of the key remains the one
    which was passed. An integer which is passed as key is converted to a temporary object, which is destroyed at the end of the
    statement (`MDBInVal`);
  * `put` of a cursor may overwrite what is at the cursor (`MDB_CURRENT`), or look up the key.

  LMDB's cursors stay valid when something is written; a cursor at an entry stays at this entry.
-/
import Verif.Cache.Txn
namespace Dragonstash.Cache.Ptrs
open Codec

/-- The two properties of lmdb-safe. -/
structure Lib where
  setKey : Bool
  current : Bool

/-- Databases as the transaction sees them, and the number of writes so far in this transaction. -/
structure PS where
  db : DB
  gen : Nat

/-- What an address refers to: a page of the database, with the number of writes when it was returned; or an
object of the function, which still exists or does not. -/
inductive Life where
  | page (gen : Nat)
  | local_ (alive : Bool)
  deriving DecidableEq

/-- An address, with what is there if it is valid. -/
structure Ref (α : Type) where
  val : α
  life : Life

/-- Whether an address can be followed. -/
def Ref.valid {α : Type} (r : Ref α) (s : PS) : Prop := match r.life with
  | .page g => g = s.gen
  | .local_ a => a = true

/-- Following an address (`none` is the null pointer of `MDBOutVal{}`) in line `line`. -/
def follow {α : Type} (line : Nat) (s : PS) : Option (Ref α) → M α
  | none => .error (.ub line)
  | some r => match r.life with
    | .page g => if g = s.gen then .ok r.val else .error (.ub line)
    | .local_ a => if a then .ok r.val else .error (.ub line)

/-- Reading a number at the beginning of a key with `memcpy`, without regard to its size. -/
def readIno (line : Nat) (k : Bytes) : M Ino := if 8 ≤ k.length then .ok (leDec (k.take 8)) else .error (.ub line)

/-- `MDBOutVal::get<ino_t>()` (lmdb-safe): throws if the size is different. -/
def getIno (line : Nat) (k : Bytes) : M Ino := if k.length = 8 then .ok (leDec k) else .error (.thrown line)

/-- One of the databases. -/
structure Fld (V : Type) where
  get : DB → Tab V
  set : DB → Tab V → DB

def inodes : Fld Inode := ⟨fun d => d.inodes, fun d t => { d with inodes := t }⟩
def treei : Fld DirEnt := ⟨fun d => d.treei, fun d t => { d with treei := t }⟩
def treen : Fld DirEnt := ⟨fun d => d.treen, fun d t => { d with treen := t }⟩
def orphans : Fld Unit := ⟨fun d => d.orphans, fun d t => { d with orphans := t }⟩
def links : Fld Bytes := ⟨fun d => d.links, fun d t => { d with links := t }⟩

/-- The result of a search: whether something was found, `key_out`, `value_out`, and the position of the cursor. -/
structure Found (V : Type) where
  rc : Bool
  key : Option (Ref Bytes)
  val : Option (Ref V)
  pos : Option Bytes

def notFound {V : Type} : Found V := ⟨false, none, none, none⟩

/-- The cursor is at the entry `e`; the addresses are in the page. -/
def foundAt {V : Type} (s : PS) (e : Bytes × V) : Found V := ⟨true, some ⟨e.1, .page s.gen⟩, some ⟨e.2, .page s.gen⟩, some e.1⟩

/-- `get` of a transaction (`mdb_get`), only the value is returned. -/
def get {V : Type} (f : Fld V) (s : PS) (k : Bytes) : Found V := match (f.get s.db).find k with
  | none => notFound
  | some v => ⟨true, none, some ⟨v, .page s.gen⟩, none⟩

/-- `find` of a cursor. `named`: the key which was passed is in an object which outlives the statement. -/
def find {V : Type} (L : Lib) (f : Fld V) (s : PS) (k : Bytes) (named : Bool) : Found V := match (f.get s.db).find k with
  | none => notFound
  | some v => ⟨true, some ⟨k, if L.setKey then .page s.gen else .local_ named⟩, some ⟨v, .page s.gen⟩, some k⟩

/-- What a cursor finds at an entry of the list, if there is one. -/
def foundIn {V : Type} (s : PS) : Option (Bytes × V) → Found V
  | none => notFound
  | some e => foundAt s e

/-- `lower_bound` of a cursor (`MDB_SET_RANGE`): the first entry not below `k`. -/
def lower {V : Type} (f : Fld V) (s : PS) (k : Bytes) : Found V := foundIn s ((f.get s.db).entries.find? (fun e => !blt e.1 k))

/-- `nextprev(…, MDB_FIRST)`. -/
def first {V : Type} (f : Fld V) (s : PS) : Found V := foundIn s (f.get s.db).entries.head?

/-- `next`, `nextprev(…, MDB_NEXT)`: the first entry behind the position of the cursor. -/
def next {V : Type} (f : Fld V) (s : PS) (o : Found V) : Found V := match o.pos with
  | none => first f s
  | some k => foundIn s ((f.get s.db).entries.find? (fun e => blt k e.1))

/-- `put` of a transaction. -/
def put {V : Type} (f : Fld V) (s : PS) (k : Bytes) (v : V) : PS := ⟨f.set s.db ((f.get s.db).put k v), s.gen + 1⟩

/-- `del` of a transaction. -/
def del {V : Type} (f : Fld V) (s : PS) (k : Bytes) : PS := ⟨f.set s.db ((f.get s.db).del k), s.gen + 1⟩

/-- The key of the entry at which a cursor is. It must be at one. -/
def atCursor {V : Type} (line : Nat) (f : Fld V) (s : PS) (o : Found V) : M Bytes := match o.pos with
  | none => .error (.ub line)
  | some k => match (f.get s.db).find k with
    | none => .error (.ub line)
    | some _ => .ok k

/-- `del()` of a cursor. -/
def delAt {V : Type} (line : Nat) (f : Fld V) (s : PS) (o : Found V) : M PS := do
  let k ← atCursor line f s o
  pure (del f s k)

/-- `put(key_out, value)` of a cursor. -/
def putAt {V : Type} (L : Lib) (line : Nat) (f : Fld V) (s : PS) (o : Found V) (v : V) : M PS :=
  if L.current then do
    let k ← atCursor line f s o
    pure (put f s k v)
  else do
    let k ← follow line s o.key
    pure (put f s k v)

/-! ### Reading -/

/-- `name(parent, ino)` (cache.cpp 434-460). -/
def name2 (L : Lib) (s : PS) (p i : Ino) : M (Res Bytes) :=
  if i = ROOT ∨ p = INVALID then .ok (.ok [])
  else
    let o := find L treei s (key16 p i) true
    if !o.rc then .ok (.error ENOENT)
    else do
      let e ← follow 455 s o.val
      pure (.ok e.name)

/-- `parent(ino)` (cache.cpp 478-496). -/
def parent (s : PS) (i : Ino) : M (Res Ino) :=
  if i = ROOT then .ok (.ok i)
  else
    let o := get inodes s (key8 i)
    if !o.rc then .ok (.error ENOENT)
    else do
      let n ← follow 490 s o.val
      pure (.ok n.parent)

/-- `name(ino)` (cache.cpp 462-476). -/
def name (L : Lib) (s : PS) (i : Ino) : M (Res Bytes) :=
  if i = ROOT then .ok (.ok [])
  else do
    let r ← parent s i
    match r with
    | .error e => pure (.error e)
    | .ok p => if p = INVALID then pure (.ok []) else name2 L s p i

/-- The loop of `lookup` (cache.cpp 513-543). Every iteration moves the cursor, the fuel is exact. -/
def lookupLoop (s : PS) (p : Ino) (n : Bytes) : Nat → Found DirEnt → M (Res Ino)
  | 0, _ => .error (.diverge 513)
  | f + 1, o =>
    if !o.rc then .ok (.error ENOENT)
    else do
      let k ← follow 520 s o.key
      chk 517 (decide (8 ≤ k.length))
      let e ← follow 521 s o.val
      if k.length - 8 ≠ n.length then lookupLoop s p n f (next treen s o)
      else do
        let q ← readIno 530 k
        if q ≠ p then pure (.error ENOENT)
        else if k.drop 8 = n then pure (.ok e.ino)
        else lookupLoop s p n f (next treen s o)

/-- `lookup(parent, name)` (cache.cpp 498-546). -/
def lookup (s : PS) (p : Ino) (n : Bytes) : M (Res Ino) :=
  match checkName n false with
  | .error e => .ok (.error e)
  | .ok () =>
    if p = INVALID then .ok (.error EINVAL)
    else lookupLoop s p n (s.db.treen.size + 1) (lower treen s (key8 p))

/-- `getattr(ino)` (cache.cpp 548-564). -/
def getattr (s : PS) (i : Ino) : M (Res (Ino × Attrs)) :=
  let o := get inodes s (key8 i)
  if !o.rc then .ok (.error ENOENT)
  else do
    let n ← follow 555 s o.val
    pure (.ok (i, n.attr))

/-- `readlink(ino)` (cache.cpp 566-580). -/
def readlink (s : PS) (i : Ino) : M (Res Bytes) :=
  let o := get links s (key8 i)
  if !o.rc then
    if !(get inodes s (key8 i)).rc then .ok (.error ENOENT) else .ok (.error EINVAL)
  else do
    let t ← follow 578 s o.val
    pure (.ok t)

/-- The end of `readdir` (cache.cpp 648-657): the entry at the cursor, with the number which has been read from its key. -/
def readdirEnd (s : PS) (o : Found DirEnt) (child : Ino) : M (Res (Ino × Bytes)) := do
  let e ← follow 647 s o.val
  pure (.ok (child, e.name))

/-- `readdir(dir, prev_end)` (cache.cpp 582-658). -/
def readdir (s : PS) (dir prev : Ino) : M (Res (Ino × Bytes)) :=
  if prev = 0 then .ok (.ok (dir, [0x2e]))
  else do
    let r ← parent s dir
    match r with
    | .error _ => pure (.error EIO)
    | .ok p =>
      if prev ≠ p ∧ prev = dir then pure (.ok (p, [0x2e, 0x2e]))
      else do
        let o := lower treei s (key16 dir (if prev = p then 0 else prev))
        if !o.rc then pure (.error EOF_)
        else do
          let k ← follow 624 s o.key
          chk 624 (decide (k.length = 16))
          if leDec (k.take 8) ≠ dir then pure (.error EOF_)
          else if prev ≠ 0 ∧ leDec (k.drop 8) = prev then do
            let o := next treei s o
            if !o.rc then pure (.error EOF_)
            else do
              let k ← follow 638 s o.key
              chk 638 (decide (k.length = 16))
              if leDec (k.take 8) ≠ dir then pure (.error EOF_)
              else readdirEnd s o (leDec (k.drop 8))
          else readdirEnd s o (leDec (k.drop 8))

/-- The loop of `path` (cache.cpp 667-685), see `Cache.pathLoop`. -/
def pathLoop (L : Lib) (s : PS) : Nat → Ino → Bytes → M (Res Bytes)
  | 0, _, _ => .error (.diverge 667)
  | f + 1, i, buf => do
    let r ← parent s i
    match r with
    | .error e => pure (.error e)
    | .ok p => do
      let r ← name2 L s p i
      match r with
      | .error e => pure (.error e)
      | .ok n =>
        let buf := buf ++ n.reverse ++ [0x2f]
        if p = ROOT then pure (.ok buf.reverse) else pathLoop L s f p buf

/-- `path(ino)` (cache.cpp 660-689). -/
def path (L : Lib) (s : PS) (i : Ino) : M (Res Bytes) :=
  if i = ROOT then .ok (.ok []) else pathLoop L s (s.db.inodes.size + 1) i []

/-- `test_flag(ino, flag)` (cache.cpp 722-739). -/
def testFlag (L : Lib) (s : PS) (i : Ino) (f : Flag) : M (Res Bool) :=
  let o := find L inodes s (key8 i) true
  if !o.rc then .ok (.error ENOENT)
  else do
    let n ← follow 731 s o.val
    pure (.ok (hasFlag n.flags f))

/-! ### Writing -/

/-- The end of `make_orphan` (cache.cpp 874-887): the parent of the inode is set to the invalid inode. -/
def unparent (L : Lib) (s : PS) (i : Ino) : M PS :=
  let o := find L inodes s (key8 i) false
  if !o.rc then .ok s
  else do
    let n ← follow 880 s o.val
    putAt L 884 inodes s o { n with parent := 0 }

/-- `make_orphan(ino)` (cache.cpp 829-890). The entry, with its name, is copied before it is deleted. -/
def makeOrphan (L : Lib) (s : PS) (i : Ino) : M (PS × Res Unit) := do
  let r ← parent s i
  match r with
  | .error e => pure (s, .error e)
  | .ok p =>
    if p = INVALID then pure (s, .ok ())
    else
      let o := find L treei s (key16 p i) true
      if !o.rc then pure (s, .error EIO)
      else do
        let e ← follow 859 s o.val
        let s ← delAt 864 treei s o
        let s := del treen s (keyN p e.name)
        let s := put orphans s (key8 i) ()
        let s ← unparent L s i
        pure (s, .ok ())

/-- The loop of `clean_orphans` over the children of a removed directory (cache.cpp 1061-1075). -/
def orphanKids (L : Lib) : Nat → PS → Ino → M PS
  | 0, _, _ => .error (.diverge 1062)
  | f + 1, s, i =>
    let o := lower treei s (key8 i)
    if !o.rc then .ok s
    else do
      let k ← follow 1066 s o.key
      let q ← readIno 1066 k
      if q ≠ i then pure s
      else do
        let e ← follow 1072 s o.val
        let (s, _) ← makeOrphan L s e.ino
        orphanKids L f s i

/-- cache.cpp 1051-1077. -/
def removeData (L : Lib) (s : PS) (i : Ino) (n : Inode) : M PS :=
  if fmt n.attr.mode = S_IFLNK then .ok (del links s (key8 i))
  else if fmt n.attr.mode = S_IFDIR then orphanKids L (s.db.treei.size + 1) s i
  else .ok s

/-- What belongs to a doomed inode is removed, and its record (cache.cpp 1045-1082). -/
def removeInode (L : Lib) (s : PS) (i : Ino) : M PS :=
  let o := find L inodes s (key8 i) false
  if !o.rc then .ok s
  else do
    let n ← follow 1051 s o.val
    let s ← removeData L s i n
    delAt 1081 inodes s o

/-- Walk to the first orphan which can be doomed (cache.cpp 1031-1038), with the cursor; every iteration moves the cursor. -/
def skip (s : PS) : Nat → Found Unit → Refs → M (Option (Ino × Found Unit × Refs))
  | 0, _, _ => .error (.diverge 1031)
  | f + 1, o, r =>
    if !o.rc then .ok none
    else do
      let k ← follow 1033 s o.key
      let i ← getIno 1033 k
      match r.doom i with
      | (r', .ok ()) => pure (some (i, o, r'))
      | (_, .error _) => skip s f (next orphans s o) r

/-- The loop of `clean_orphans` (cache.cpp 1030-1087). -/
def cleanLoop (L : Lib) : Nat → PS → Refs → M (PS × Refs)
  | 0, _, _ => .error (.diverge 1031)
  | f + 1, s, r => do
    let x ← skip s (s.db.orphans.size + 1) (first orphans s) r
    match x with
    | none => pure (s, r)
    | some (i, o, r') => do
      let s ← removeInode L s i
      let s ← delAt 1084 orphans s o
      cleanLoop L f s r'

/-- `clean_orphans()` (cache.cpp 1024-1090). -/
def cleanOrphans (L : Lib) (s : PS) (r : Refs) : M (PS × Refs) :=
  cleanLoop L (s.db.inodes.size + s.db.treei.size + s.db.orphans.size + 1) s r

/-- `allocate_next_inode` (cache.cpp 815-827): the number is read before the new one is written; the commit of the nested
transaction counts as a write in the outer one. -/
def allocNext (s : PS) : M (PS × Ino) :=
  match s.db.next with
  | none => .error (.thrown 820)
  | some v => do
    let i ← follow 822 s (some ⟨v, .page s.gen⟩)
    pure (⟨{ s.db with next := some (u64 (i + 1)) }, s.gen + 1⟩, i)

/-- Second half of `emplace` (cache.cpp 938-984). -/
def emplaceNew (L : Lib) (s : PS) (r : Refs) (p : Ino) (n : Bytes) (a : Attrs) : M (PS × Refs × Ino) := do
  let (s, i) ← allocNext s
  let s := put inodes s (key8 i) (mkInode a p)
  let s := put treen s (keyN p n) (mkEnt i n)
  let s := put treei s (key16 p i) (mkEnt i n)
  let (s, r) ← cleanOrphans L s r
  pure (s, r, i)

/-- An open transaction: like `Txn`, with the number of writes. -/
structure PT where
  s : PS
  refs : Refs
  rewrite : Option (List Ino) := none
  hooks : List Undo := []

/-- `emplace(parent, name, attrs)` (cache.cpp 892-985). -/
def emplace (L : Lib) (t : PT) (p : Ino) (n : Bytes) (a : Attrs) : M (PT × Res Ino) :=
  match checkName n true with
  | .error e => .ok (t, .error e)
  | .ok () =>
    let o := find L treen t.s (keyN p n) true
    if !o.rc then do
      let (s, r, i) ← emplaceNew L t.s t.refs p n a
      pure ({ t with s := s, refs := r }, .ok i)
    else do
      let e ← follow 919 t.s o.val
      let o := find L inodes t.s (key8 e.ino) false
      chk 923 o.rc
      let old ← follow 926 t.s o.val
      if fmt old.attr.mode = fmt a.mode then do
        let s ← putAt L 929 inodes t.s o (mkInode a p)
        pure ({ t with s := s, rewrite := t.rewrite.map (fun l => l.filter (· ≠ e.ino)) }, .ok e.ino)
      else do
        let (s, _) ← makeOrphan L t.s e.ino
        let (s, r, i) ← emplaceNew L s t.refs p n a
        pure ({ t with s := s, refs := r }, .ok i)

/-- `clean_orphans` on an open transaction. -/
def clean (L : Lib) (t : PT) : M (PT × Res Unit) := do
  let (s, r) ← cleanOrphans L t.s t.refs
  pure ({ t with s := s, refs := r }, .ok ())

/-- `unlink(ino)` (cache.cpp 987-994). -/
def unlinkIno (L : Lib) (t : PT) (i : Ino) : M (PT × Res Unit) := do
  let (s, res) ← makeOrphan L t.s i
  match res with
  | .error e => pure ({ t with s := s }, .error e)
  | .ok () => clean L { t with s := s }

/-- `unlink(parent, name)` (cache.cpp 1001-1022). -/
def unlinkName (L : Lib) (t : PT) (p : Ino) (n : Bytes) : M (PT × Res Unit) :=
  let o := find L treen t.s (keyN p n) true
  if !o.rc then .ok (t, .error ENOENT)
  else do
    let e ← follow 1017 t.s o.val
    unlinkIno L t e.ino

/-- `writelink(ino, dest)` (cache.cpp 1092-1115). -/
def writelink (L : Lib) (t : PT) (i : Ino) (dest : Bytes) : M (PT × Res Unit) :=
  let o := find L inodes t.s (key8 i) false
  if !o.rc then .ok (t, .error ENOENT)
  else do
    let n ← follow 1102 t.s o.val
    if fmt n.attr.mode ≠ S_IFLNK then pure (t, .error EINVAL)
    else do
      let s ← putAt L 1112 inodes t.s o { n with attr := { n.attr with size := dest.length } }
      pure ({ t with s := put links s (key8 i) dest }, .ok ())

/-- `update_flags(ino, to_set, to_clear)` (cache.cpp 1117-1144); the key is in a named object (1120). -/
def updateFlags (L : Lib) (t : PT) (i : Ino) (toSet toClear : List Flag) : M (PT × Res Unit) :=
  let o := find L inodes t.s (key8 i) true
  if !o.rc then .ok (t, .error ENOENT)
  else do
    let n ← follow 1128 t.s o.val
    let fl := toSet.foldl (fun x f => setFlag x f true) n.flags
    let fl := toClear.foldl (fun x f => setFlag x f false) fl
    let s ← putAt L 1141 inodes t.s o { n with flags := fl }
    pure ({ t with s := s }, .ok ())

/-- The loop of `start_dir_rewrite` (cache.cpp 1168-1175). -/
def collectKids (s : PS) (dir : Ino) : Nat → Found DirEnt → List Ino → M (List Ino)
  | 0, _, _ => .error (.diverge 1168)
  | f + 1, o, l => do
    let k ← follow 1169 s o.key
    chk 1168 (decide (k.length = 16))
    if leDec (k.take 8) = dir then
      let l := setInsert (leDec (k.drop 8)) l
      let o := next treei s o
      if !o.rc then pure l else collectKids s dir f o l
    else pure l

/-- `start_dir_rewrite(dir)` (cache.cpp 1146-1178). -/
def startRewrite (t : PT) (dir : Ino) : M (PT × Res Unit) :=
  match t.rewrite with
  | some _ => .ok (t, .error EALREADY)
  | none =>
    let o := lower treei t.s (key8 dir)
    if !o.rc then .ok (t, .ok ())
    else do
      let l ← collectKids t.s dir (t.s.db.treei.size + 1) o []
      pure ({ t with rewrite := some l }, .ok ())

/-- The loop of `finish_dir_rewrite` (cache.cpp 1187-1189). -/
def orphanAll (L : Lib) : List Ino → PS → M PS
  | [], s => .ok s
  | i :: l, s => do
    let (s, _) ← makeOrphan L s i
    orphanAll L l s

/-- `finish_dir_rewrite()` (cache.cpp 1180-1192). -/
def finishRewrite (L : Lib) (t : PT) : M (PT × Res Unit) :=
  match t.rewrite with
  | none => .ok (t, .error EBADFD)
  | some l => do
    let s ← orphanAll L l t.s
    pure ({ t with s := s, rewrite := none }, .ok ())

/-- The transaction without the number of writes. -/
def PT.txn (t : PT) : Txn := ⟨t.s.db, t.refs, t.rewrite, t.hooks⟩
/-- A transaction in which `g` writes have been made. -/
def ofTxn (t : Txn) (g : Nat) : PT := ⟨⟨t.db, g⟩, t.refs, t.rewrite, t.hooks⟩

/-- One operation on an open transaction (`Cache.doOp`); `lock` and `release` do not read the database. -/
def doOp (L : Lib) (t : PT) : Op → M (PT × Out)
  | .lookup p n => do let r ← lookup t.s p n; pure (t, .ino r)
  | .getattr i => do let r ← getattr t.s i; pure (t, .attr r)
  | .readlink i => do let r ← readlink t.s i; pure (t, .bytes r)
  | .readdir dir prev => do let r ← readdir t.s dir prev; pure (t, .ent r)
  | .path i => do let r ← path L t.s i; pure (t, .bytes r)
  | .name i => do let r ← name L t.s i; pure (t, .bytes r)
  | .parent i => do let r ← parent t.s i; pure (t, .ino r)
  | .testFlag i f => do let r ← testFlag L t.s i f; pure (t, .bool r)
  | .lock i => let x := lock t.txn i; .ok (ofTxn x.1 t.s.gen, .unit x.2)
  | .release i n => do let (t', r) ← release t.txn i n; pure (ofTxn t' t.s.gen, .unit r)
  | .emplace p n a => do let (t', r) ← emplace L t p n a; pure (t', .ino r)
  | .unlinkIno i => do let (t', r) ← unlinkIno L t i; pure (t', .unit r)
  | .unlinkName p n => do let (t', r) ← unlinkName L t p n; pure (t', .unit r)
  | .clean => do let (t', r) ← clean L t; pure (t', .unit r)
  | .writelink i dest => do let (t', r) ← writelink L t i dest; pure (t', .unit r)
  | .updateFlags i a b => do let (t', r) ← updateFlags L t i a b; pure (t', .unit r)
  | .startRewrite dir => do let (t', r) ← startRewrite t dir; pure (t', .unit r)
  | .finishRewrite => do let (t', r) ← finishRewrite L t; pure (t', .unit r)

/-- The second transaction of the constructor (cache.cpp 330-332, 286). -/
def openClean (L : Lib) (s : PS) (r : Refs) : M (PS × Refs) := do
  let (s, r) ← cleanOrphans L s r
  cleanOrphans L s r

end Dragonstash.Cache.Ptrs
