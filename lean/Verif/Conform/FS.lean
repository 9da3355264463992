/-
  The tests of tests/fs.cpp on the model of the filesystem, with the model of the in-memory backend.
  See Conform/Basic.lean. THEN blocks which only look at the result of the same WHEN block are taken
  together.
-/
import Verif.Conform.InMemory
import Verif.Cache.Inv
namespace Dragonstash.Conform
open Cache FS InMem

/-- `TestEnvironment` (35-120). -/
structure Env where
  disk : DB
  refs : Refs
  mem : MemFS

abbrev E := T Env

def stamp : Timespec := ⟨1536390000, 20180908⟩
/-- 90-106: rw-r----- and rwxr-x---, owned by user 1000, group 100. -/
def fileAttr : BStat := ⟨0o640, 0, 0, 1000, 100, stamp, stamp, stamp⟩
def dirAttr : BStat := ⟨0o750, 0, 0, 1000, 100, stamp, stamp, stamp⟩
def guide : Bytes := b!"Hitchhiker's Guide To The Galaxy.epub"

/-- 89-117. -/
def defaultContents : InMem.Node :=
  let n := mem0.emplaceAt [] b!"README.md" (newFile.updateAttr fileAttr)
  let n := n.emplaceAt [] b!"books" (newDir.updateAttr dirAttr)
  let n := n.emplaceAt [b!"books"] guide (newFile.updateAttr fileAttr)
  let n := n.emplaceAt [b!"books"] b!"The Elements of Style.epub" (newFile.updateAttr fileAttr)
  n.emplaceAt [b!"books"] b!"best.epub" ((newLink guide).updateAttr fileAttr)

/-- The test runs on a new cache with the default contents in the backend. -/
def passesFS {α : Type} (t : E α) : Bool :=
  match openCleanDB (initDB emptyDB 1000 100 stamp) Refs.empty with
  | .ok (d, r) => passes ⟨d, r, memOf defaultContents⟩ t
  | .error _ => false

/-- A request and its reply; the request object is destroyed at the end. -/
def request (rq : Req) : E Reply := fun e =>
  match dispatch e.mem.backend e.disk e.refs rq with
  | .ok ⟨d, r, [x], none⟩ => .ok (x, { e with disk := d, refs := r })
  | .ok _ => .error (.thrown 94)
  | .error f => .error f

def setConnected (b : Bool) : E Unit := fun e => .ok ((), { e with mem := { e.mem with connected := b } })
def editMem (f : InMem.Node → InMem.Node) : E Unit := fun e => .ok ((), { e with mem := { memOf (f e.mem.root) with connected := e.mem.connected } })
def cacheLookup (p : Ino) (n : Bytes) : E (Res Ino) := fun e => (Cache.lookup e.disk p n).map fun x => (x, e)
def cacheFlag (i : Ino) (f : Flag) : E (Res Bool) := fun e => .ok (testFlag e.disk i f, e)

/-- `check_reply_type(req, ENTRY)`. -/
def entryAt (line : Nat) (r : Reply) : E OsStat := match r with | .entry s => pure s | _ => throw (.assertFail line)
def openedAt (line : Nat) (r : Reply) : E Unit := check line (r = .opened)
def replyErr (line : Nat) (r : Reply) (e : Errno) : E Unit := check line (r = .err e)
def isErr (r : Reply) : Bool := match r with | .err _ => true | _ => false

def README : Bytes := b!"README.md"
def books : Bytes := b!"books"

/-! ### lookup (154-313) -/

/-- 160-199: an existing file. -/
example : passesFS (do
    let s ← entryAt 165 (← request (.lookup ROOT README))
    check 169 (s.ino ≠ ROOT ∧ s.ino ≠ 0 ∧ fmt s.mode = S_IFREG)
    check 176 (s.uid = 1000 ∧ s.gid = 100 ∧ s.mode &&& 0o777 = 0o640 ∧ s.mtime = stamp)
    let s2 ← entryAt 194 (← request (.lookup ROOT README))
    check 197 (s.ino = s2.ino)) = true := by decide +kernel

/-- 202-209: a nonexistent file. -/
example : passesFS (do replyErr 207 (← request (.lookup ROOT b!"random name")) ENOENT) = true := by decide +kernel

/-- 211-245: a directory. -/
example : passesFS (do
    let s ← entryAt 216 (← request (.lookup ROOT books))
    check 220 (s.ino ≠ ROOT ∧ s.ino ≠ 0 ∧ fmt s.mode = S_IFDIR)
    check 227 (s.uid = 1000 ∧ s.gid = 100 ∧ s.mode &&& 0o777 = 0o750 ∧ s.mtime = stamp)
    let s2 ← entryAt 240 (← request (.lookup ROOT README))
    check 243 (s.ino ≠ s2.ino)) = true := by decide +kernel

/-- 247-279: Setting the backend to be disconnected. -/
example : passesFS (do
    let _ ← entryAt 252 (← request (.lookup ROOT README))
    setConnected false
    replyErr 262 (← request (.lookup ROOT books)) EIO) = true := by decide +kernel
example : passesFS (do
    let _ ← entryAt 252 (← request (.lookup ROOT README))
    setConnected false
    let s ← entryAt 271 (← request (.lookup ROOT README))
    check 274 (s.mode = S_IFREG ||| 0o640 ∧ s.uid = 1000 ∧ s.gid = 100)) = true := by decide +kernel

/-- 281-314: looking up a file again after removing it from the backend. -/
example : passesFS (do
    let _ ← entryAt 284 (← request (.lookup ROOT README))
    editMem (·.removeAt [] README)
    replyErr 293 (← request (.lookup ROOT README)) ENOENT
    errAt 297 (← cacheLookup ROOT README) ENOENT
    setConnected false
    replyErr 307 (← request (.lookup ROOT README)) EIO) = true := by decide +kernel

/-! ### opendir and readdir (315-513) -/

/-- 323-329: the root directory is not marked as synced. -/
example : passesFS (do check 326 (!(← okAt 325 (← cacheFlag ROOT SYNCED)))) = true := by decide +kernel

/-- 331-365: Opening the root directory. -/
example : passesFS (do
    openedAt 336 (← request (.opendir ROOT))
    check 342 (← okAt 341 (← cacheFlag ROOT SYNCED))
    let i ← okAt 348 (← cacheLookup ROOT books)
    check 352 (!(← okAt 351 (← cacheFlag i SYNCED)))
    errAt 356 (← cacheLookup ROOT b!".") ENOENT
    errAt 360 (← cacheLookup ROOT b!"..") ENOENT) = true := by decide +kernel

/-- 364-376: then disconnected, looking up an existing entry. -/
example : passesFS (do
    openedAt 336 (← request (.opendir ROOT))
    setConnected false
    let s ← entryAt 371 (← request (.lookup ROOT README))
    check 373 (s.mode = S_IFREG ||| 0o640)) = true := by decide +kernel

/-- 378-403: opening the root directory again and iterating it from behind dotdot. -/
example : passesFS (do
    openedAt 336 (← request (.opendir ROOT))
    setConnected false
    openedAt 383 (← request (.opendir ROOT))
    let r ← request (.readdir ROOT 4096 ROOT)
    check 400 (match r with | .buf l _ => decide (l.map (·.name) = [README, books]) | _ => false)) = true := by decide +kernel

/-- 405-436: an uncached directory. -/
example : passesFS (do
    openedAt 336 (← request (.opendir ROOT))
    setConnected false
    let s ← entryAt 408 (← request (.lookup ROOT books))
    openedAt 421 (← request (.opendir s.ino))
    replyErr 434 (← request (.readdir s.ino 4096 ROOT)) EIO) = true := by decide +kernel

/-- 439-460: Calling opendir again: inode numbers do not change. -/
example : passesFS (do
    openedAt 336 (← request (.opendir ROOT))
    let i ← okAt 442 (← cacheLookup ROOT README)
    let j ← okAt 444 (← cacheLookup ROOT books)
    openedAt 449 (← request (.opendir ROOT))
    check 457 ((← okAt 453 (← cacheLookup ROOT README)) = i)
    check 458 ((← okAt 455 (← cacheLookup ROOT books)) = j)) = true := by decide +kernel

/-- 462-487: Removing a file from the backend and calling opendir again. -/
example : passesFS (do
    openedAt 336 (← request (.opendir ROOT))
    editMem (·.removeAt [] README)
    let i ← okAt 466 (← cacheLookup ROOT books)
    let _ ← request (.opendir ROOT)
    setConnected false
    replyErr 478 (← request (.lookup ROOT README)) ENOENT
    check 485 ((← okAt 483 (← cacheLookup ROOT books)) = i)) = true := by decide +kernel

/-- 490-509: Removing a file from the backend and calling lookup. -/
example : passesFS (do
    openedAt 336 (← request (.opendir ROOT))
    editMem (·.removeAt [] README)
    replyErr 495 (← request (.lookup ROOT README)) ENOENT
    errAt 498 (← cacheLookup ROOT README) ENOENT
    setConnected false
    replyErr 507 (← request (.lookup ROOT README)) ENOENT) = true := by decide +kernel

/-! ### readlink (515-596) -/

/-- 518-529: the inodes of /books and /books/best.epub. -/
def linkSetup : E (Ino × Ino) := do
  let d ← entryAt 523 (← request (.lookup ROOT books))
  let l ← entryAt 527 (← request (.lookup d.ino b!"best.epub"))
  pure (d.ino, l.ino)

/-- 530-537: on a directory. -/
example : passesFS (do let (d, _) ← linkSetup; replyErr 535 (← request (.readlink d)) EINVAL) = true := by decide +kernel
/-- 539-549: on a file. -/
example : passesFS (do
    let _ ← linkSetup
    let s ← entryAt 541 (← request (.lookup ROOT README))
    replyErr 547 (← request (.readlink s.ino)) EINVAL) = true := by decide +kernel
/-- 551-572: on a link, connected and disconnected. -/
example : passesFS (do
    let (_, l) ← linkSetup
    check 558 ((← request (.readlink l)) = .readlink guide)
    setConnected false
    check 570 ((← request (.readlink l)) = .readlink guide)) = true := by decide +kernel
/-- 574-594: the link is replaced. -/
example : passesFS (do
    let (_, l) ← linkSetup
    check 558 ((← request (.readlink l)) = .readlink guide)
    editMem fun n => (n.removeAt [books] b!"best.epub").emplaceAt [books] b!"best.epub" newFile
    replyErr 584 (← request (.readlink l)) EINVAL
    setConnected false
    check 591 (isErr (← request (.readlink l)))) = true := by decide +kernel

end Dragonstash.Conform
