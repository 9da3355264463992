/-
  The tests of tests/cache/cache.cpp on the model of the cache. See Conform/Basic.lean. THEN blocks
  which only look at the result of the same WHEN block are taken together, so that one number may stand
  for several neighbouring checks.
-/
import Verif.Cache.OneCall
import Verif.Cache.Hooks
import Verif.Conc.Model
import Verif.Conform.Basic
namespace Dragonstash.Conform
open Cache Codec

abbrev W := T Cache.World

def stepW (c : Call) : W Out := fun w => (w.step c).map fun x => (x.2, x.1)
def callW (f : Fn) : W Out := fun w => (w.call f).map fun x => (x.2, x.1)

def unitOf (o : Out) : W (Res Unit) := match o with | .unit r => pure r | _ => throw (.ub 0)
def inoOf (o : Out) : W (Res Ino) := match o with | .ino r => pure r | _ => throw (.ub 0)
def attrOf (o : Out) : W (Res (Ino × Attrs)) := match o with | .attr r => pure r | _ => throw (.ub 0)
def bytesOf (o : Out) : W (Res Bytes) := match o with | .bytes r => pure r | _ => throw (.ub 0)
def entOf (o : Out) : W (Res (Ino × Bytes)) := match o with | .ent r => pure r | _ => throw (.ub 0)
def boolOf (o : Out) : W (Res Bool) := match o with | .bool r => pure r | _ => throw (.ub 0)

/-- The functions of `Cache` itself. -/
def cLookup (p : Ino) (n : Bytes) : W (Res Ino) := do inoOf (← callW (.lookup p n))
def cEmplace (p : Ino) (n : Bytes) (a : Attrs) : W (Res Ino) := do inoOf (← callW (.emplace p n a))
def cName (i : Ino) : W (Res Bytes) := do bytesOf (← callW (.name i))
def cParent (i : Ino) : W (Res Ino) := do inoOf (← callW (.parent i))
def cGetattr (i : Ino) : W (Res (Ino × Attrs)) := do attrOf (← callW (.getattr i))
def cLock (i : Ino) : W (Res Unit) := do unitOf (← callW (.lock i))
def cRelease (i : Ino) : W (Res Unit) := do unitOf (← callW (.release i))
def cReadlink (i : Ino) : W (Res Bytes) := do bytesOf (← callW (.readlink i))
def cWritelink (i : Ino) (d : Bytes) : W (Res Unit) := do unitOf (← callW (.writelink i d))
def cPath (i : Ino) : W (Res Bytes) := do bytesOf (← callW (.path i))

/-- Operations on the open transaction. -/
def tEmplace (p : Ino) (n : Bytes) (a : Attrs) : W (Res Ino) := do inoOf (← stepW (.op (.emplace p n a)))
def tUnit (o : Op) : W (Res Unit) := do unitOf (← stepW (.op o))
def tReaddir (d p : Ino) : W (Res (Ino × Bytes)) := do entOf (← stepW (.op (.readdir d p)))
def tFlag (i : Ino) (f : Flag) : W (Res Bool) := do boolOf (← stepW (.op (.testFlag i f)))
def begin_rw : W Unit := do let _ ← stepW .beginRW
def begin_ro : W Unit := do let _ ← stepW .beginRO
def begin_nested : W Unit := do let _ ← stepW .nested
def commit (line : Nat) : W Unit := do okAt line (← unitOf (← stepW .commit))
def abort : W Unit := do let _ ← stepW .abort
/-- The transaction object goes out of scope. -/
def dropTxn : W Unit := do let _ ← stepW .drop

/-- `InodeAttributes{.mode = m}`. -/
def withMode (m : Nat) : Attrs := ⟨0, 0, 0, 0, ⟨0, 0⟩, ⟨0, 0⟩, ⟨0, 0⟩, m⟩
def dirA : Attrs := withMode S_IFDIR
def regA : Attrs := withMode S_IFREG
def lnkA : Attrs := withMode S_IFLNK

/-- Line 66. -/
def nonexistent : Ino := (ROOT ||| 2) ^^^ 1

/-- `TestSetup`: a new cache, owned by user 1000, group 100. -/
def setup : W Unit := do
  let _ ← stepW (.openInit 1000 100 ⟨1536390000, 20180908⟩)
  let _ ← stepW .openClean

/-- A test on a new cache. -/
def testW (t : W Unit) : Bool := passes World.init (do setup; t)

/-! ### 68-134 Inode cache behaviour -/

/-- 72-97. -/
example : testW (do
    errAt 79 (← cLookup ROOT b!"foo") ENOENT
    errAt 87 (← cLookup INVALID b!"foo") EINVAL
    errAt 95 (← cLookup nonexistent b!"foo") ENOENT) = true := by decide +kernel

/-- 100-127. -/
example : testW (do
    let i ← okAt 111 (← cEmplace ROOT b!"foo" dirA)
    check 112 (i ≠ ROOT)
    check 113 (i ≠ INVALID)
    let j ← okAt 121 (← cLookup ROOT b!"foo")
    check 122 (i = j)
    errAt 129 (← cLookup ROOT b!"bar") ENOENT) = true := by decide +kernel

/-! ### 135-197 Directory entry replacement -/

/-- Same format. -/
example : testW (do
    let e ← okAt 150 (← cEmplace ROOT b!"entry" dirA)
    let _ ← okAt 156 (← cEmplace ROOT b!"other" dirA)
    let n ← okAt 164 (← cEmplace ROOT b!"entry" dirA)
    check 165 (n = e)) = true := by decide +kernel

/-- Other format. -/
example : testW (do
    let e ← okAt 150 (← cEmplace ROOT b!"entry" dirA)
    let _ ← okAt 156 (← cEmplace ROOT b!"other" dirA)
    let n ← okAt 179 (← cEmplace ROOT b!"entry" regA)
    check 180 (n ≠ e)
    let l ← okAt 186 (← cLookup ROOT b!"entry")
    check 187 (l = n)
    let _ ← okAt 186 (← cLookup ROOT b!"other")) = true := by decide +kernel

/-! ### 198-240 Reverse lookup -/

example : testW (do
    let n ← okAt 210 (← cName ROOT)
    check 211 (n = [])
    errAt 218 (← cName nonexistent) ENOENT) = true := by decide +kernel

example : testW (do
    let e ← okAt 227 (← cEmplace ROOT b!"entry" dirA)
    let n ← okAt 234 (← cName e)
    check 235 (n = b!"entry")) = true := by decide +kernel

/-! ### 241-351 Attributes retrieval and storage -/

example : testW (do
    errAt 251 (← cGetattr nonexistent) ENOENT
    let (_, a) ← okAt 259 (← cGetattr ROOT)
    check 264 (fmt a.mode = S_IFDIR)
    check 270 (a.uid = 1000)
    check 270 (a.gid = 100)
    check 278 (a.atime.sec = 1536390000)
    check 278 (a.mtime.sec = 1536390000)
    check 278 (a.ctime.sec = 1536390000)
    check 284 (a.size = 0)
    check 284 (a.nblocks = 0)) = true := by decide +kernel

example : testW (do
    let e ← okAt 295 (← cEmplace ROOT b!"entry" dirA)
    let (i, a) ← okAt 299 (← cGetattr e)
    check 304 (a = dirA)
    check 316 (i = e)) = true := by decide +kernel

example : testW (do
    let e ← okAt 295 (← cEmplace ROOT b!"entry" dirA)
    let e2 ← okAt 325 (← cEmplace ROOT b!"entry" regA)
    check 326 (e2 ≠ e)
    errAt 330 (← cGetattr e) ENOENT
    let (_, a) ← okAt 335 (← cGetattr e2)
    check 338 (a = regA)) = true := by decide +kernel

/-! ### 352-541 Locked inodes -/

example : testW (do
    let e ← okAt 361 (← cEmplace ROOT b!"entry" dirA)
    okAt 365 (← cLock e)
    let o ← okAt 372 (← cEmplace ROOT b!"entry" regA)
    check 373 (o ≠ e)
    let _ ← okAt 376 (← cGetattr e)
    let p ← okAt 387 (← cParent e)
    check 388 (p = INVALID)
    let n ← okAt 399 (← cName e)
    check 400 (n = [])) = true := by decide +kernel

/-- An inode is locked in the same transaction as its removal. -/
example : testW (do
    let e ← okAt 361 (← cEmplace ROOT b!"entry" dirA)
    begin_rw
    okAt 407 (← tUnit (.lock e))
    let o ← okAt 414 (← tEmplace ROOT b!"entry" regA)
    check 415 (o ≠ e)
    commit 417
    let _ ← okAt 420 (← cGetattr e)) = true := by decide +kernel

/-- A lock is rolled back. -/
example : testW (do
    let e ← okAt 361 (← cEmplace ROOT b!"entry" dirA)
    begin_rw
    okAt 427 (← tUnit (.lock e))
    abort
    let o ← okAt 435 (← cEmplace ROOT b!"entry" regA)
    check 436 (o ≠ e)
    errAt 439 (← cGetattr e) ENOENT) = true := by decide +kernel

/-- A removed, locked inode is unlocked. -/
example : testW (do
    let e ← okAt 361 (← cEmplace ROOT b!"entry" dirA)
    okAt 445 (← cLock e)
    let o ← okAt 451 (← cEmplace ROOT b!"entry" regA)
    check 452 (o ≠ e)
    okAt 455 (← cRelease e)
    errAt 459 (← cGetattr e) ENOENT) = true := by decide +kernel

/-- A removed, locked inode is unlocked and the transaction is aborted. -/
example : testW (do
    let e ← okAt 361 (← cEmplace ROOT b!"entry" dirA)
    okAt 465 (← cLock e)
    let o ← okAt 471 (← cEmplace ROOT b!"entry" regA)
    check 472 (o ≠ e)
    begin_rw
    okAt 476 (← tUnit (.release e 1))
    abort
    let _ ← okAt 481 (← cGetattr e)) = true := by decide +kernel

/-- A locked inode is unlocked but not removed. -/
example : testW (do
    let e ← okAt 361 (← cEmplace ROOT b!"entry" dirA)
    okAt 487 (← cLock e)
    okAt 490 (← cRelease e)
    let _ ← okAt 494 (← cGetattr e)) = true := by decide +kernel

/-- A locked inode is unlocked and then replaced. -/
example : testW (do
    let e ← okAt 361 (← cEmplace ROOT b!"entry" dirA)
    okAt 500 (← cLock e)
    okAt 503 (← cRelease e)
    let o ← okAt 509 (← cEmplace ROOT b!"entry" regA)
    check 510 (o ≠ e)
    errAt 514 (← cGetattr e) ENOENT) = true := by decide +kernel

/-- A locked inode is unlocked, but rolled back, and then replaced. -/
example : testW (do
    let e ← okAt 361 (← cEmplace ROOT b!"entry" dirA)
    okAt 520 (← cLock e)
    begin_rw
    okAt 520 (← tUnit (.release e 1))
    abort
    let o ← okAt 531 (← cEmplace ROOT b!"entry" regA)
    check 532 (o ≠ e)
    let _ ← okAt 536 (← cGetattr e)) = true := by decide +kernel

/-! ### 542-577 Cross-process cache -/

example : testW (do
    let e ← okAt 555 (← cEmplace ROOT b!"entry" dirA)
    okAt 559 (← cLock e)
    let o ← okAt 565 (← cEmplace ROOT b!"entry" regA)
    check 566 (o ≠ e)
    let _ ← stepW .crash
    setup
    errAt 572 (← cGetattr e) ENOENT) = true := by decide +kernel

/-! ### 578-683 Storage and retrieval of symlinks -/

example : testW (do
    errAt 587 (← cReadlink nonexistent) ENOENT
    errAt 595 (← cWritelink nonexistent b!"/foo") ENOENT) = true := by decide +kernel

example : testW (do
    let d ← okAt 616 (← cEmplace ROOT b!"dir" dirA)
    let l ← okAt 616 (← cEmplace ROOT b!"lnk" lnkA)
    okAt 623 (← cWritelink l b!"/foo")
    let (_, a) ← okAt 628 (← cGetattr l)
    check 631 (a.size = 4)
    errAt 640 (← cWritelink d b!"/foo") EINVAL
    errAt 648 (← cReadlink d) EINVAL
    let t ← okAt 658 (← cReadlink l)
    check 659 (t = b!"/foo")
    let f ← okAt 673 (← cEmplace ROOT b!"lnk" regA)
    check 674 (f ≠ l)
    errAt 678 (← cReadlink l) ENOENT) = true := by decide +kernel

/-! ### 684-738 Nested directories -/

example : testW (do
    let d ← okAt 694 (← cEmplace ROOT b!"dir" dirA)
    let d2 ← okAt 699 (← cEmplace d b!"subdir" dirA)
    errAt 704 (← cLookup ROOT b!"subdir") ENOENT
    let l ← okAt 710 (← cLookup d b!"subdir")
    check 711 (l = d2)
    let _ ← okAt 726 (← cEmplace ROOT b!"dir" regA)
    errAt 730 (← cLookup d b!"subdir") ENOENT
    errAt 733 (← cGetattr d2) ENOENT) = true := by decide +kernel

/-! ### 739-876 Reading directories -/

example : testW (do
    begin_ro
    let e ← okAt 751 (← tReaddir ROOT 0)
    check 752 (e = (ROOT, b!"."))
    errAt 756 (← tReaddir ROOT e.1) 0) = true := by decide +kernel

example : testW (do
    let d ← okAt 771 (← cEmplace ROOT b!"dir" dirA)
    begin_ro
    let e ← okAt 780 (← tReaddir d 0)
    check 782 (e = (d, b!"."))
    let e ← okAt 785 (← tReaddir d e.1)
    check 787 (e = (ROOT, b!".."))
    errAt 790 (← tReaddir d e.1) 0) = true := by decide +kernel

example : testW (do
    let d ← okAt 814 (← cEmplace ROOT b!"dir" dirA)
    let e1 ← okAt 818 (← cEmplace d b!"f1" dirA)
    let e2 ← okAt 822 (← cEmplace d b!"f2" regA)
    let e3 ← okAt 826 (← cEmplace d b!"f3" lnkA)
    begin_ro
    let e ← okAt 846 (← tReaddir d 0)
    check 848 (e = (d, b!"."))
    let e ← okAt 851 (← tReaddir d e.1)
    check 853 (e = (ROOT, b!".."))
    let e ← okAt 856 (← tReaddir d e.1)
    check 858 (e = (e1, b!"f1"))
    let e ← okAt 861 (← tReaddir d e.1)
    check 863 (e = (e2, b!"f2"))
    let e ← okAt 866 (← tReaddir d e.1)
    check 868 (e = (e3, b!"f3"))
    errAt 871 (← tReaddir d e.1) 0) = true := by decide +kernel

/-! ### 877-956 Path reconstruction -/

example : testW (do
    let d1 ← okAt 890 (← cEmplace ROOT b!"d1" dirA)
    let d2 ← okAt 893 (← cEmplace ROOT b!"d2" dirA)
    let f1 ← okAt 896 (← cEmplace ROOT b!"f1" regA)
    let _ ← okAt 899 (← cEmplace d1 b!"f1" regA)
    let d1d1 ← okAt 902 (← cEmplace d1 b!"d1" dirA)
    let d1d1f1 ← okAt 905 (← cEmplace d1d1 b!"f1" regA)
    let d2f1 ← okAt 908 (← cEmplace d2 b!"f1" regA)
    check 915 ((← okAt 914 (← cPath ROOT)) = [])
    check 924 ((← okAt 923 (← cPath d1)) = b!"/d1")
    check 933 ((← okAt 932 (← cPath f1)) = b!"/f1")
    check 942 ((← okAt 941 (← cPath d2f1)) = b!"/d2/f1")
    check 951 ((← okAt 950 (← cPath d1d1f1)) = b!"/d1/d1/f1")) = true := by decide +kernel

/-! ### Several transactions at once: 957-1038 Single-thread Concurrency, 1039-1129 Read-committed
isolation level for locks. All in one thread (0). -/

abbrev C := T Conc.CWorld

def stepC (c : Conc.CCall) : C Out := fun w =>
  match w.step c with
  | .done w o => .ok (o, w)
  | _ => .error (.ub 1)

/-- The call throws the exception of `debug_mutex`. -/
def deadlk (line : Nat) (c : Conc.CCall) : C Unit := fun w =>
  match w.step c with
  | .deadlk => .ok ((), w)
  | _ => .error (.assertFail line)

def xIno (k : Nat) (o : Op) : C (Res Ino) := do
  match ← stepC (.on k (.op o)) with | .ino r => pure r | _ => throw (.ub 0)
def xUnit (k : Nat) (o : Op) : C (Res Unit) := do
  match ← stepC (.on k (.op o)) with | .unit r => pure r | _ => throw (.ub 0)
def xAttr (k : Nat) (o : Op) : C (Res (Ino × Attrs)) := do
  match ← stepC (.on k (.op o)) with | .attr r => pure r | _ => throw (.ub 0)
def xRO (k : Nat) : C Unit := do let _ ← stepC (.beginRO k 0)
def xRW (k : Nat) : C Unit := do let _ ← stepC (.beginRW k 0)
def xCommit (k : Nat) : C Unit := do
  let _ ← stepC (.on k .commit)
  let _ ← stepC (.on k .finish)

/-- A preparation with the functions of `Cache`, then transactions. -/
def testC {α : Type} (p : W α) (t : α → C Unit) : Bool :=
  match (do setup; p : W α) World.init with
  | .ok (x, w) => passes (Conc.CWorld.start w.disk w.refs) (t x)
  | .error _ => false

/-- 971-978. -/
def threeEntries : W Ino := do
  let d1 ← okAt 970 (← cEmplace ROOT b!"d1" dirA)
  let _ ← okAt 970 (← cEmplace ROOT b!"d2" dirA)
  let _ ← okAt 973 (← cEmplace ROOT b!"f1" regA)
  pure d1

/-- Multiple readers concurrently. -/
example : testC threeEntries (fun _ => do
    xRO 1
    xRO 2
    let _ ← okAt 983 (← xIno 1 (.lookup ROOT b!"d1"))
    let _ ← okAt 983 (← xIno 2 (.lookup ROOT b!"d2"))) = true := by decide +kernel

/-- A reader and a writer concurrently. -/
example : testC threeEntries (fun _ => do
    xRO 1
    xRW 2
    let _ ← okAt 993 (← xIno 1 (.lookup ROOT b!"d1"))
    let _ ← okAt 993 (← xIno 2 (.lookup ROOT b!"d2"))) = true := by decide +kernel

/-- The reader is unaffected by the writer; not after commit either; a new reader sees the result. -/
example : testC threeEntries (fun d1 => do
    xRO 1
    xRW 2
    let e ← okAt 1004 (← xIno 2 (.emplace d1 b!"foo" regA))
    errAt 1007 (← xIno 1 (.lookup d1 b!"foo")) ENOENT
    xCommit 2
    errAt 1016 (← xIno 1 (.lookup d1 b!"foo")) ENOENT
    xRO 3
    let l ← okAt 1029 (← xIno 3 (.lookup d1 b!"foo"))
    check 1030 (l = e)
    errAt 1033 (← xIno 1 (.lookup d1 b!"foo")) ENOENT) = true := by decide +kernel

/-- 1041-1063. -/
def twoLocked : W (Ino × Ino) := do
  let d1 ← okAt 1053 (← cEmplace ROOT b!"d1" dirA)
  let d2 ← okAt 1053 (← cEmplace ROOT b!"d2" dirA)
  okAt 1056 (← cLock d1)
  okAt 1059 (← cLock d2)
  pure (d1, d2)

/-- A reader looks up the inode before commit; an attempt to lock fails with a deadlock. -/
example : testC twoLocked (fun (d1, d2) => do
    xRO 1
    xRW 2
    okAt 1062 (← xUnit 2 (.release d2 1))
    let e ← okAt 1069 (← xIno 2 (.emplace ROOT b!"d2" regA))
    let l ← okAt 1072 (← xIno 2 (.lookup ROOT b!"d2"))
    check 1076 (l = e)
    let r ← okAt 1075 (← xIno 1 (.lookup ROOT b!"d1"))
    check 1076 (r = d1)
    deadlk 1093 (.on 1 (.op (.lock r)))) = true := by decide +kernel

/-- A reader attempts to lock the inode after commit: ESTALE. -/
example : testC twoLocked (fun (_, d2) => do
    xRO 1
    xRW 2
    okAt 1103 (← xUnit 2 (.release d2 1))
    let e ← okAt 1103 (← xIno 2 (.emplace ROOT b!"d2" regA))
    okAt 1103 (← xUnit 2 .clean)
    let l ← okAt 1106 (← xIno 2 (.lookup ROOT b!"d2"))
    check 1111 (l = e)
    errAt 1114 (← xAttr 2 (.getattr d2)) ENOENT
    let r ← okAt 1110 (← xIno 1 (.lookup ROOT b!"d2"))
    xCommit 2
    check 1121 (r = d2)
    errAt 1124 (← xUnit 1 (.lock r)) ESTALE) = true := by decide +kernel

/-! ### 1130-1359 Transaction hooks -/

abbrev H := T (Hooks.World Unit)

def stepH (c : Hooks.Call Unit) : H (Res Unit) := fun w => (Hooks.step w c).map fun x => (x.2, x.1)
def hBegin : H Unit := do let _ ← stepH .begin
def hAdd (h : Hooks.Hook Unit) : H Unit := do let _ ← stepH (.add h)
def hAbort : H Unit := do let _ ← stepH .abort
/-- What was called so far. -/
def hLog : H (List (Nat × Hooks.Stage)) := do pure (← get).env.log
def hStart : Hooks.World Unit := ⟨⟨(), []⟩, []⟩

/-- A hook with all four callbacks. -/
def hook4 (id : Nat) (r : Res Unit) : Hooks.Hook Unit :=
  { id := id, s1commit := some fun s => (s, r), s1rollback := some id_, s2commit := some id_, rollback := some id_ }
where id_ : Unit → Unit := fun s => s
/-- `add_commit_hook`: no rollback. -/
def hook3 (id : Nat) (r : Res Unit) : Hooks.Hook Unit := { hook4 id r with rollback := none }
/-- `add_rollback_hook`. -/
def hook1 (id : Nat) : Hooks.Hook Unit := { id := id, rollback := some fun s => s }

/-- 1137-1184: A passing hook, commit: stages 1 and 2; abort: nothing. -/
example : passes hStart (do
    hBegin; hAdd (hook3 1 (.ok ()))
    check 1150 ((← hLog) = [])
    okAt 1153 (← stepH .commit)
    check 1161 ((← hLog) = [(1, .s1commit), (1, .s2commit)])) = true := by decide +kernel
example : passes hStart (do
    hBegin; hAdd (hook3 1 (.ok ())); hAbort
    check 1174 ((← hLog) = [])) = true := by decide +kernel

/-- 1186-1262: A failing hook, commit: stage 1 and rollback; abort: rollback. -/
example : passes hStart (do
    hBegin; hAdd (hook4 1 (.error 1234))
    errAt 1230 (← stepH .commit) 1234
    check 1223 ((← hLog) = [(1, .s1commit), (1, .rollback)])) = true := by decide +kernel
example : passes hStart (do
    hBegin; hAdd (hook4 1 (.error 1234)); hAbort
    check 1260 ((← hLog) = [(1, .rollback)])) = true := by decide +kernel

/-- 1266-1361: three hooks, the second fails. -/
example : passes hStart (do
    hBegin; hAdd (hook4 1 (.ok ())); hAdd (hook4 2 (.error EINVAL)); hAdd (hook4 3 (.ok ()))
    errAt 1318 (← stepH .commit) EINVAL
    check 1351 ((← hLog) = [(1, .s1commit), (2, .s1commit), (1, .s1rollback), (3, .rollback), (2, .rollback), (1, .rollback)])) = true := by
  decide +kernel

/-! ### 1360-1524 Transaction nesting -/

/-- Both locks succeed; the inode can be released twice from the inner transaction. -/
example : testW (do
    let d ← okAt 1374 (← cEmplace ROOT b!"d1" dirA)
    begin_rw
    okAt 1383 (← tUnit (.lock d))
    begin_nested
    okAt 1384 (← tUnit (.lock d))
    okAt 1388 (← tUnit (.release d 2))) = true := by decide +kernel

/-- Only once after the inner transaction has been aborted: the other call throws. -/
example : passes World.init (do
    setup
    let d ← okAt 1374 (← cEmplace ROOT b!"d1" dirA)
    begin_rw
    okAt 1383 (← tUnit (.lock d))
    begin_nested
    okAt 1384 (← tUnit (.lock d))
    abort
    let w ← get
    check 1393 (match w.step (.op (.release d 2)) with | .error (.thrown _) => true | _ => false)
    okAt 1396 (← tUnit (.release d 1))) = true := by decide +kernel

/-- Twice after the inner transaction has committed. -/
example : testW (do
    let d ← okAt 1374 (← cEmplace ROOT b!"d1" dirA)
    begin_rw
    okAt 1383 (← tUnit (.lock d))
    begin_nested
    okAt 1384 (← tUnit (.lock d))
    commit 1400
    okAt 1401 (← tUnit (.release d 2))) = true := by decide +kernel

/-- 1409-1458: A rollback hook in a nested transaction. -/
example : passes hStart (do
    hBegin; hBegin; hAdd (hook1 1)
    hAbort
    check 1417 ((← hLog) = [(1, .rollback)])
    hAbort
    check 1424 ((← hLog) = [(1, .rollback)])) = true := by decide +kernel
example : passes hStart (do
    hBegin; hBegin; hAdd (hook1 1)
    okAt 1430 (← stepH .commit)
    check 1433 ((← hLog) = [])
    okAt 1437 (← stepH .commit)
    check 1440 ((← hLog) = [])) = true := by decide +kernel
example : passes hStart (do
    hBegin; hBegin; hAdd (hook1 1)
    okAt 1430 (← stepH .commit)
    hAbort
    check 1448 ((← hLog) = [(1, .rollback)])) = true := by decide +kernel

/-- 1459-1528: A commit hook in a nested transaction. -/
example : passes hStart (do
    hBegin; hBegin; hAdd { hook3 1 (.ok ()) with s1rollback := none }
    hAbort
    check 1473 ((← hLog) = [])
    okAt 1477 (← stepH .commit)
    check 1481 ((← hLog) = [])) = true := by decide +kernel
example : passes hStart (do
    hBegin; hBegin; hAdd { hook3 1 (.ok ()) with s1rollback := none }
    hAbort; hAbort
    check 1490 ((← hLog) = [])) = true := by decide +kernel
example : passes hStart (do
    hBegin; hBegin; hAdd { hook3 1 (.ok ()) with s1rollback := none }
    okAt 1496 (← stepH .commit)
    check 1500 ((← hLog) = [])
    okAt 1504 (← stepH .commit)
    check 1508 ((← hLog) = [(1, .s1commit), (1, .s2commit)])) = true := by decide +kernel
example : passes hStart (do
    hBegin; hBegin; hAdd { hook3 1 (.ok ()) with s1rollback := none }
    okAt 1496 (← stepH .commit)
    hAbort
    check 1517 ((← hLog) = [])) = true := by decide +kernel

/-! ### 1525-1614 Inode flags -/

example : testW (do
    begin_ro
    check 1538 ((← okAt 1537 (← tFlag ROOT SYNCED)) = false)
    errAt 1548 (← tFlag nonexistent SYNCED) ENOENT
    dropTxn
    begin_rw
    errAt 1558 (← tUnit (.updateFlags nonexistent [SYNCED] [])) ENOENT
    dropTxn
    begin_rw
    okAt 1572 (← tUnit (.updateFlags ROOT [SYNCED] []))
    commit 1568
    begin_ro
    check 1582 ((← okAt 1581 (← tFlag ROOT SYNCED)) = true)
    dropTxn
    begin_rw
    okAt 1597 (← tUnit (.updateFlags ROOT [] [SYNCED]))
    commit 1593
    begin_ro
    check 1607 ((← okAt 1606 (← tFlag ROOT SYNCED)) = false)) = true := by decide +kernel

/-! ### 1615-1709 Directory rewriting -/

/-- 1635-1648, 1749-1761. -/
def e123 : W (Ino × Ino × Ino) := do
  begin_rw
  let e1 ← okAt 1632 (← tEmplace ROOT b!"e1" dirA)
  let e2 ← okAt 1632 (← tEmplace ROOT b!"e2" regA)
  let e3 ← okAt 1632 (← tEmplace ROOT b!"e3" regA)
  commit 1638
  pure (e1, e2, e3)

/-- Without re-emplacing entries. -/
example : testW (do
    let (e1, e2, e3) ← e123
    begin_rw
    okAt 1645 (← tUnit (.startRewrite ROOT))
    okAt 1648 (← tUnit .finishRewrite)
    okAt 1649 (← tUnit .clean)
    commit 1650
    errAt 1656 (← cGetattr e1) ENOENT
    errAt 1656 (← cGetattr e2) ENOENT
    errAt 1656 (← cGetattr e3) ENOENT
    begin_ro
    let e ← okAt 1663 (← tReaddir ROOT INVALID)
    check 1664 (e.2 = b!".")
    errAt 1667 (← tReaddir ROOT e.1) 0) = true := by decide +kernel

/-- With re-emplacing some entries. -/
example : testW (do
    let (e1, e2, e3) ← e123
    begin_rw
    okAt 1675 (← tUnit (.startRewrite ROOT))
    let x ← okAt 1678 (← tEmplace ROOT b!"e1" dirA)
    check 1679 (x = e1)
    let x ← okAt 1682 (← tEmplace ROOT b!"e3" regA)
    check 1683 (x = e3)
    okAt 1685 (← tUnit .finishRewrite)
    okAt 1686 (← tUnit .clean)
    commit 1687
    let _ ← okAt 1693 (← cGetattr e1)
    let _ ← okAt 1698 (← cGetattr e3)
    errAt 1704 (← cGetattr e2) ENOENT) = true := by decide +kernel

/-! ### 1710-1808 Unlinking -/

example : testW (do
    begin_rw
    errAt 1726 (← tUnit (.unlinkIno nonexistent)) ENOENT
    dropTxn
    begin_rw
    errAt 1735 (← tUnit (.unlinkName ROOT b!"ex")) ENOENT) = true := by decide +kernel

/-- By its inode. (The test 1783-1799 by parent and inode calls the function which `unlink(ino)` also
calls, cache.cpp 987-999.) -/
example : testW (do
    let (e1, e2, e3) ← e123
    begin_rw
    okAt 1760 (← tUnit (.unlinkIno e2))
    commit 1760
    errAt 1764 (← cGetattr e2) ENOENT
    let _ ← okAt 1769 (← cGetattr e1)
    let _ ← okAt 1769 (← cGetattr e3)) = true := by decide +kernel

/-- By parent and name. -/
example : testW (do
    let (e1, e2, e3) ← e123
    begin_rw
    okAt 1795 (← tUnit (.unlinkName ROOT b!"e2"))
    commit 1795
    errAt 1799 (← cGetattr e2) ENOENT
    let _ ← okAt 1804 (← cGetattr e1)
    let _ ← okAt 1804 (← cGetattr e3)) = true := by decide +kernel

end Dragonstash.Conform
