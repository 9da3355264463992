import Verif.Blocklist.Hist
/-
  `mark` on a disk which may be full: `grow` (blocklist.cpp 186-200) throws if `ftruncate` fails, and
  the exception leaves the list as it is at that moment.

  `X α` is a computation which may end with such an exception; `.full g` has the list which it
  leaves.  `room n` says whether the file can be made `n` bytes large.  Within one call of `mark` the
  sizes asked for increase, and the first failure ends the call, so that a function of the size stands
  for every behaviour of the disk.

  (That the disk is full may also show when a page of the file is first stored to, with SIGBUS; that is
  a crash, see `Verif.Blocklist.CrashModel`.)
-/
namespace Dragonstash.Blocklist

/-- How a call can end other than by returning. -/
inductive Stop where
  | fault (f : Fault)
  | full (g : File)

abbrev X (α : Type) := Except Stop α

/-- Code which does not make the file larger. -/
def up {α : Type} : M α → X α
  | .ok a => .ok a
  | .error e => .error (.fault e)

/-- The file has to grow and cannot. -/
def stuck (room : Nat → Bool) (f : File) : Bool :=
  decide (capacity f = nentries f) && !room (f.fileSize + growSize)

/-- blocklist.cpp 202-209 `require_space`, with 186-200 `grow`: unmapped, then `ftruncate`. -/
def requireSpaceX (room : Nat → Bool) (f : File) : X File :=
  if stuck room f then .error (.full (ensureUnmapped f)) else up (requireSpace f)

/-- blocklist.cpp 287-304 `insert_before`. -/
def insertBeforeX (room : Nat → Bool) (f : File) (dest : Nat) (e : Entry) : X (File × Nat) := do
  let toMove := f.n - dest
  let f ← requireSpaceX room f
  let f ← up (if toMove ≠ 0 then memmove f (dest + 1) dest toMove 295 else .ok f)
  let f ← up (store f dest e 300)
  pure ({ f with n := f.n + 1 }, dest)

/-- blocklist.cpp 306-325 `split_entry`. -/
def splitEntryX (room : Nat → Bool) (f : File) (at' splitPoint : Nat) : X (File × Nat) := do
  let a ← up (deref f at' 309)
  up (chk 309 (decide (a.start ≤ splitPoint)))
  up (chk 310 (decide (a.fin > splitPoint)))
  let oldEnd := a.fin
  let oldCount := a.count
  let newEntry : Entry := { a with start := splitPoint, count := u16 (sub64 oldEnd splitPoint) }
  let f ← up (store f at' { a with count := u16 (sub64 splitPoint a.start) } 317)
  let r ← insertBeforeX room f (at' + 1) newEntry
  let k := r.2 - 1
  let x ← up (deref r.1 k 320)
  let y ← up (deref r.1 (k + 1) 321)
  up (chk 320 (decide (x.fin = splitPoint)))
  up (chk 321 (decide (y.fin = oldEnd)))
  up (chk 322 (decide (x.count + y.count = oldCount)))
  pure (r.1, k)

/-- blocklist.cpp 493-531. -/
def finishMarkX (room : Nat → Bool) (f : File) (startOverlap endOverlap : Nat) (newEntry : Entry) (state : State) : X File := do
  let deleteBegin := if startOverlap = f.n then 0 else startOverlap + 1
  let r ← up (deleteRange f deleteBegin endOverlap)
  if state = .absent then pure r.1
  else do
    let r ← insertBeforeX room r.1 r.2 newEntry
    let f ← up (addCnt r.1 newEntry.state newEntry.count 514)
    up (mergeAround f r.2)

/-- blocklist.cpp 436-443. -/
def caseSplitX (room : Nat → Bool) (f : File) (so eo start : Nat) : X (File × Nat × Nat) :=
  if so ≠ f.n ∧ so = eo then do
    let r ← splitEntryX room f so start
    pure (r.1, r.2, r.2 + 1)
  else pure (f, so, eo)

/-- blocklist.cpp 387-531 `mark_internal`. -/
def markInternalX (room : Nat → Bool) (f : File) (start count : Nat) (state : State) : X File := do
  let newEntry : Entry := ⟨start, count, state.code⟩
  let fin := u64 (start + count)
  let o ← up (findOverlapping f start count)
  let r ← caseSplitX room f o.1 o.2 start
  let f := r.1
  let so := r.2.1
  let eo := r.2.2
  let startContains ← up (containsAt f so start 445)
  let endContains ← up (containsAt f eo (sub64 fin 1) 446)
  if startContains then do
    let s ← up (deref f so 451)
    if s.start = start ∧ s.count ≤ count then
      if state = .absent then do
        let r ← up (deleteRange f so eo)
        pure r.1
      else do
        let f ← up (subCnt f s.state s.count 457)
        let f ← up (store f so newEntry 458)
        let f ← up (addCnt f state.code count 459)
        let r ← up (deleteRange f (so + 1) eo)
        up (mergeAround r.1 (r.2 - 1))
    else do
      let s' : Entry := { s with count := u16 (sub64 start s.start) }
      let f ← up (store f so s' 475)
      up (chk 476 (decide (s'.fin = start)))
      up (chk 477 (decide (s.count > s'.count)))
      up (chk 478 (decide (s'.count > 0)))
      let f ← up (subCnt f s'.state (s.count - s'.count) 479)
      let f ← up (trimEnd f endContains eo fin)
      finishMarkX room f so eo newEntry state
  else do
    let f ← up (trimEnd f endContains eo fin)
    finishMarkX room f so eo newEntry state

/-- blocklist.cpp 537-544. -/
def markLoopX (room : Nat → Bool) (state : State) : (fuel : Nat) → File → (start count : Nat) → X File
  | 0, _, _, _ => .error (.fault (.diverge 537))
  | fuel + 1, f, start, count =>
    if count > limit then do
      let f ← markInternalX room f start limit state
      markLoopX room state fuel f (u64 (start + limit)) (count - limit)
    else if count > 0 then markInternalX room f start count state
    else pure f

/-- blocklist.cpp 533-545 `mark`, on a disk which may be full. -/
def markX (room : Nat → Bool) (f : File) (start count : Nat) (state : State) : X File :=
  markLoopX room state (count / limit + 1) (ensureMapped f) start count

end Dragonstash.Blocklist
