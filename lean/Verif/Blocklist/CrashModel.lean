import Verif.Blocklist.Hist
/-
  `mark` store by store.  The block list file is a shared memory mapping (blocklist.cpp 163-166,
  MAP_SHARED): if the process dies, the stores done so far are in the file.

  `T α` is a computation together with the set of files which a process that dies inside it can
  leave behind.  One store of a superblock field, one assignment to a field of an entry and one
  assignment of a whole 16-byte entry are taken to be indivisible; a dying `memmove` leaves an
  arbitrary mixture of moved and unmoved entries.
-/
namespace Dragonstash.Blocklist

/-- A computation and the files a process dying inside it may leave. -/
structure T (α : Type) where
  crash : File → Prop
  res : M α

/-- Nothing is stored. -/
def T.quiet {α : Type} (m : M α) : T α := ⟨fun _ => False, m⟩

/-- A single indivisible store: the process may die right after it. -/
def T.point (m : M File) : T File := ⟨fun g => m = .ok g, m⟩

def T.bind {α β : Type} (x : T α) (k : α → T β) : T β :=
  ⟨fun g => x.crash g ∨ ∃ a, x.res = .ok a ∧ (k a).crash g, x.res >>= fun a => (k a).res⟩

instance : Monad T where
  pure a := T.quiet (.ok a)
  bind := T.bind

/-- `g` is `f` with some of the slots as in `f'`. -/
structure Mixed (f f' g : File) : Prop where
  n : g.n = f.n
  cnt : g.cnt = f.cnt
  mapped : g.mapped = f.mapped
  msize : g.msize = f.msize
  length : g.slots.length = f.slots.length
  slot : ∀ i : Nat, g.slots[i]? = f.slots[i]? ∨ g.slots[i]? = f'.slots[i]?

/-- `memmove` of entries: any of them may have been stored when the process dies. -/
def memmoveT (f : File) (dst src len line : Nat) : T File :=
  ⟨fun g => ∃ f', memmove f dst src len line = .ok f' ∧ Mixed f f' g, memmove f dst src len line⟩

/-- One entry or one field of an entry. -/
def storeT (f : File) (i : Nat) (e : Entry) (line : Nat) : T File := .point (store f i e line)

def addCntT (f : File) (s d line : Nat) : T File := .point (addCnt f s d line)
def subCntT (f : File) (s d line : Nat) : T File := .point (subCnt f s d line)

/-- blocklist.cpp 239-241 (see `uncount`). -/
def uncountT (f : File) (i : Nat) : Nat → T File
  | 0 => pure f
  | k + 1 => do
    let e ← T.quiet (deref f i 240)
    let f ← subCntT f e.state e.count 240
    uncountT f (i + 1) k

/-- blocklist.cpp 220-249 `delete_range`. -/
def deleteRangeT (f : File) (b e : Nat) : T (File × Nat) := do
  T.quiet (chk 227 (decide (b ≤ e)))
  T.quiet (chk 228 (decide (e ≤ f.n)))
  T.quiet (chk 235 (decide ((f.n - e) + (e - b) ≤ f.n)))
  let toMove := f.n - e
  let f ← uncountT f b (e - b)
  let f ← memmoveT f b e toMove 243
  let f ← T.point (.ok { f with n := f.n - (e - b) })
  pure (f, b)

/-- blocklist.cpp 211-218 `delete_entry`. -/
def deleteEntryT (f : File) (i : Nat) : T (File × Nat) :=
  let f := ensureMapped f
  if i = f.n then pure (f, i) else deleteRangeT f i (i + 1)

/-- blocklist.cpp 251-285 `try_merge_with_previous`. -/
def tryMergeT (f : File) (i : Nat) : T (File × Bool × Nat) :=
  if i = 0 then pure (f, false, i)
  else do
    let prev ← T.quiet (deref f (i - 1) 262)
    let it ← T.quiet (deref f i 262)
    if prev.fin ≠ it.start then pure (f, false, i)
    else if prev.state ≠ it.state then pure (f, false, i)
    else
      let newCount := prev.count + it.count
      if newCount > limit then pure (f, false, i)
      else do
        let f ← storeT f (i - 1) { prev with count := u16 newCount } 280
        let f ← addCntT f prev.state it.count 283
        let r ← deleteEntryT f i
        pure (r.1, true, r.2 - 1)

/-- blocklist.cpp 202-209 `require_space`, with 186-200 `grow` (one `ftruncate`). -/
def requireSpaceT (f : File) : T File := .point (requireSpace f)

/-- blocklist.cpp 287-304 `insert_before`. -/
def insertBeforeT (f : File) (dest : Nat) (e : Entry) : T (File × Nat) := do
  let toMove := f.n - dest
  let f ← requireSpaceT f
  let f ← (if toMove ≠ 0 then memmoveT f (dest + 1) dest toMove 295 else pure f : T File)
  let f ← storeT f dest e 300
  let f ← T.point (.ok { f with n := f.n + 1 })
  pure (f, dest)

/-- blocklist.cpp 306-325 `split_entry`. -/
def splitEntryT (f : File) (at' splitPoint : Nat) : T (File × Nat) := do
  let a ← T.quiet (deref f at' 309)
  T.quiet (chk 309 (decide (a.start ≤ splitPoint)))
  T.quiet (chk 310 (decide (a.fin > splitPoint)))
  let oldEnd := a.fin
  let oldCount := a.count
  let newEntry : Entry := { a with start := splitPoint, count := u16 (sub64 oldEnd splitPoint) }
  let f ← storeT f at' { a with count := u16 (sub64 splitPoint a.start) } 317
  let r ← insertBeforeT f (at' + 1) newEntry
  let k := r.2 - 1
  let x ← T.quiet (deref r.1 k 320)
  let y ← T.quiet (deref r.1 (k + 1) 321)
  T.quiet (chk 320 (decide (x.fin = splitPoint)))
  T.quiet (chk 321 (decide (y.fin = oldEnd)))
  T.quiet (chk 322 (decide (x.count + y.count = oldCount)))
  pure (r.1, k)

/-- blocklist.cpp 462-470 and 517-525. -/
def mergeNextT (f : File) (item : Nat) : T (File × Nat) :=
  if item + 1 ≠ f.n then do
    let r ← tryMergeT f (item + 1)
    pure (r.1, if r.2.1 then r.2.2 else item)
  else pure (f, item)

/-- blocklist.cpp 461-472 and 516-530. -/
def mergeAroundT (f : File) (item : Nat) : T File := do
  let r ← mergeNextT f item
  let r ← tryMergeT r.1 r.2
  pure r.1

/-- blocklist.cpp 482-491: the start of the entry is stored (486) before its count (487). -/
def trimEndT (f : File) (endContains : Bool) (endOverlap fin : Nat) : T File :=
  if endContains then do
    let eo ← T.quiet (deref f endOverlap 484)
    let oldEnd := eo.fin
    let oldCount := eo.count
    let eo' : Entry := { eo with start := fin, count := u16 (sub64 oldEnd fin) }
    let f ← storeT f endOverlap { eo with start := fin } 486
    let f ← storeT f endOverlap eo' 486
    T.quiet (chk 488 (!eo'.contains (sub64 fin 1)))
    T.quiet (chk 489 (decide (oldCount > eo'.count)))
    subCntT f eo'.state (oldCount - eo'.count) 490
  else pure f

/-- blocklist.cpp 493-531. -/
def finishMarkT (f : File) (startOverlap endOverlap : Nat) (newEntry : Entry) (state : State) :
    T File := do
  let deleteBegin := if startOverlap = f.n then 0 else startOverlap + 1
  let r ← deleteRangeT f deleteBegin endOverlap
  if state = .absent then pure r.1
  else do
    let r ← insertBeforeT r.1 r.2 newEntry
    let f ← addCntT r.1 newEntry.state newEntry.count 514
    mergeAroundT f r.2

/-- blocklist.cpp 436-443. -/
def caseSplitT (f : File) (so eo start : Nat) : T (File × Nat × Nat) :=
  if so ≠ f.n ∧ so = eo then do
    let r ← splitEntryT f so start
    pure (r.1, r.2, r.2 + 1)
  else pure (f, so, eo)

/-- blocklist.cpp 387-531 `mark_internal`. -/
def markInternalT (f : File) (start count : Nat) (state : State) : T File := do
  let newEntry : Entry := ⟨start, count, state.code⟩
  let fin := u64 (start + count)
  let o ← T.quiet (findOverlapping f start count)
  let r ← caseSplitT f o.1 o.2 start
  let f := r.1
  let so := r.2.1
  let eo := r.2.2
  let startContains ← T.quiet (containsAt f so start 445)
  let endContains ← T.quiet (containsAt f eo (sub64 fin 1) 446)
  if startContains then do
    let s ← T.quiet (deref f so 451)
    if s.start = start ∧ s.count ≤ count then
      if state = .absent then do
        let r ← deleteRangeT f so eo
        pure r.1
      else do
        let f ← subCntT f s.state s.count 457
        let f ← storeT f so newEntry 458
        let f ← addCntT f state.code count 459
        let r ← deleteRangeT f (so + 1) eo
        mergeAroundT r.1 (r.2 - 1)
    else do
      let s' : Entry := { s with count := u16 (sub64 start s.start) }
      let f ← storeT f so s' 475
      T.quiet (chk 476 (decide (s'.fin = start)))
      T.quiet (chk 477 (decide (s.count > s'.count)))
      T.quiet (chk 478 (decide (s'.count > 0)))
      let f ← subCntT f s'.state (s.count - s'.count) 479
      let f ← trimEndT f endContains eo fin
      finishMarkT f so eo newEntry state
  else do
    let f ← trimEndT f endContains eo fin
    finishMarkT f so eo newEntry state

/-- blocklist.cpp 537-544. -/
def markLoopT (state : State) : (fuel : Nat) → File → (start count : Nat) → T File
  | 0, _, _, _ => .quiet (.error (.diverge 537))
  | fuel + 1, f, start, count =>
    if count > limit then do
      let f ← markInternalT f start limit state
      markLoopT state fuel f (u64 (start + limit)) (count - limit)
    else if count > 0 then markInternalT f start count state
    else pure f

/-- blocklist.cpp 533-545 `mark`, store by store; the process may also die before the first
store. -/
def markT (f : File) (start count : Nat) (state : State) : T File := do
  let f ← T.point (.ok (ensureMapped f))
  markLoopT state (count / limit + 1) f start count

/-! ### The result is that of `mark` -/

@[simp] theorem T.bind_res {α β : Type} (x : T α) (k : α → T β) :
    (x >>= k).res = (x.res >>= fun a => (k a).res) := rfl
@[simp] theorem T.pure_res {α : Type} (a : α) : (pure a : T α).res = .ok a := rfl
@[simp] theorem T.quiet_res {α : Type} (m : M α) : (T.quiet m).res = m := rfl
@[simp] theorem T.point_res (m : M File) : (T.point m).res = m := rfl

@[simp] theorem memmoveT_res (f : File) (a b c d : Nat) : (memmoveT f a b c d).res = memmove f a b c d := rfl
@[simp] theorem storeT_res (f : File) (i : Nat) (e : Entry) (l : Nat) : (storeT f i e l).res = store f i e l := rfl
@[simp] theorem addCntT_res (f : File) (a b c : Nat) : (addCntT f a b c).res = addCnt f a b c := rfl
@[simp] theorem subCntT_res (f : File) (a b c : Nat) : (subCntT f a b c).res = subCnt f a b c := rfl

@[simp] theorem uncountT_res (k : Nat) : ∀ (f : File) (i : Nat), (uncountT f i k).res = uncount f i k := by
  induction k with
  | zero => intro f i; rfl
  | succ k ih => intro f i; simp [uncountT, uncount, ih]

@[simp] theorem deleteRangeT_res (f : File) (b e : Nat) : (deleteRangeT f b e).res = deleteRange f b e := by
  simp [deleteRangeT, deleteRange]

theorem ite_res {α : Type} (p : Prop) [Decidable p] (x y : T α) : (if p then x else y).res = if p then x.res else y.res := by
  by_cases h : p <;> simp [h]

@[simp] theorem deleteEntryT_res (f : File) (i : Nat) : (deleteEntryT f i).res = deleteEntry f i := by
  simp [deleteEntryT, deleteEntry, ite_res]

@[simp] theorem tryMergeT_res (f : File) (i : Nat) : (tryMergeT f i).res = tryMerge f i := by
  simp only [tryMergeT, tryMerge, ite_res, T.bind_res, T.quiet_res, T.pure_res, storeT_res, addCntT_res,
    deleteEntryT_res, pure_eq_ok]

@[simp] theorem requireSpaceT_res (f : File) : (requireSpaceT f).res = requireSpace f := rfl

@[simp] theorem insertBeforeT_res (f : File) (d : Nat) (e : Entry) :
    (insertBeforeT f d e).res = insertBefore f d e := by
  simp only [insertBeforeT, insertBefore, ite_res, T.bind_res, requireSpaceT_res, T.pure_res, memmoveT_res, storeT_res,
    T.point_res, bind_ok, pure_eq_ok]
  congr 1
  funext a
  by_cases h : f.n - d ≠ 0 <;> simp [h]

@[simp] theorem splitEntryT_res (f : File) (a p : Nat) : (splitEntryT f a p).res = splitEntry f a p := by
  simp [splitEntryT, splitEntry]

theorem map_eq_bind {α β : Type} (m : M α) (g : α → β) : m.map g = (m >>= fun a => .ok (g a)) := by
  cases m <;> rfl

@[simp] theorem mergeNextT_res (f : File) (i : Nat) : (mergeNextT f i).res = mergeNext f i := by
  simp [mergeNextT, mergeNext, ite_res, map_eq_bind]

@[simp] theorem mergeAroundT_res (f : File) (i : Nat) : (mergeAroundT f i).res = mergeAround f i := by
  simp [mergeAroundT, mergeAround]

theorem store_store (f : File) (i : Nat) (x y : Entry) (l l' : Nat) (h : l = l') :
    (store f i x l >>= fun f => store f i y l') = store f i y l' := by
  subst h
  unfold store
  by_cases hc : (f.mapped && decide (i < f.slots.length)) = true
  · simp only [Bool.and_eq_true, decide_eq_true_eq] at hc
    simp [hc]
  · rw [if_neg hc, if_neg hc]; rfl

theorem bind_assoc' {α β γ : Type} (m : M α) (f : α → M β) (g : β → M γ) :
    (m >>= f >>= g) = (m >>= fun a => f a >>= g) := by cases m <;> rfl

@[simp] theorem trimEndT_res (f : File) (b : Bool) (eo fin : Nat) :
    (trimEndT f b eo fin).res = trimEnd f b eo fin := by
  simp only [trimEndT, trimEnd, ite_res, T.bind_res, T.quiet_res, T.pure_res, storeT_res, subCntT_res]
  congr 1
  congr 1
  funext e
  rw [← bind_assoc', store_store _ _ _ _ _ _ rfl]

@[simp] theorem finishMarkT_res (f : File) (a b : Nat) (e : Entry) (st : State) :
    (finishMarkT f a b e st).res = finishMark f a b e st := by
  simp only [finishMarkT, finishMark, ite_res, T.bind_res, T.pure_res, deleteRangeT_res, insertBeforeT_res,
    addCntT_res, mergeAroundT_res, pure_eq_ok]

@[simp] theorem caseSplitT_res (f : File) (a b s : Nat) : (caseSplitT f a b s).res = caseSplit f a b s := by
  simp [caseSplitT, caseSplit, ite_res, map_eq_bind]

@[simp] theorem markInternalT_res (f : File) (s c : Nat) (st : State) :
    (markInternalT f s c st).res = markInternal f s c st := by
  simp only [markInternalT, markInternal, ite_res, T.bind_res, T.quiet_res, T.pure_res, storeT_res, subCntT_res,
    addCntT_res, deleteRangeT_res, mergeAroundT_res, trimEndT_res, finishMarkT_res, caseSplitT_res, pure_eq_ok]

@[simp] theorem markLoopT_res (st : State) (k : Nat) : ∀ (f : File) (s c : Nat),
    (markLoopT st k f s c).res = markLoop st k f s c := by
  induction k with
  | zero => intro f s c; rfl
  | succ k ih =>
    intro f s c
    simp only [markLoopT, markLoop, ite_res, T.bind_res, T.pure_res, markInternalT_res, ih]

/-- The result of the call itself is that of `mark`. -/
theorem markT_res (f : File) (s c : Nat) (st : State) : (markT f s c st).res = mark f s c st := by
  simp [markT, mark]

end Dragonstash.Blocklist
