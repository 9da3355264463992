import Verif.Base
/-
  Model of `Blocklist` (include/dragonstash/cache/blocklist.hpp, src/cache/blocklist.cpp).

  The file is modelled with all its entry slots (live entries and the slack behind them),
  its superblock counters, and the state of the memory mapping.  Iterators (`Entry*`) are
  slot indices.  System calls (open, fstat, mmap, munmap, ftruncate) are assumed to succeed.
-/
namespace Dragonstash.Blocklist

/-- blocklist.hpp 84-90 `enum State`. -/
inductive State where
  | absent | readahead | read | pinned | written
  deriving DecidableEq, Repr

/-- blocklist.hpp 84-90: numeric value of a state converted to `uint8_t` (422). -/
def State.code : State → Nat
  | .absent => 255
  | .readahead => 0
  | .read => 1
  | .pinned => 2
  | .written => 3

/-- `State(entry.state)` (blocklist.cpp 555); values outside the enumeration's range are
undefined behaviour. -/
def State.ofCode : Nat → M State
  | 0 => .ok .readahead
  | 1 => .ok .read
  | 2 => .ok .pinned
  | 3 => .ok .written
  | _ => .error (.ub 555)

/-- blocklist.hpp 116-131 `struct Entry` (reserved fields omitted: never read, zero in every
entry written by `mark_internal`, which value-initialises them). -/
structure Entry where
  start : Nat
  count : Nat
  state : Nat
  deriving DecidableEq, Repr

/-- blocklist.hpp 124-126 `Entry::end()`, 64-bit wrap-around. -/
def Entry.fin (e : Entry) : Nat := u64 (e.start + e.count)

/-- blocklist.hpp 128-130 `Entry::contains`. -/
def Entry.contains (e : Entry) (b : Nat) : Bool := decide (e.start ≤ b) && decide (b < e.fin)

/-- blocklist.hpp 102-111 (superblock), 137-148 (file), 190-192 (mapping).  `n` is
`superblock.entries`, `cnt` is `superblock.blocks_by_state` (indices 0..3), `slots` is the
entry array up to the end of the file, `mapped`/`msize` are `m_mapping != nullptr` and
`m_mapped_size`.  `superblock.size` is never written by the code and omitted. -/
structure File where
  n : Nat
  cnt : Nat → Nat
  slots : List Entry
  mapped : Bool
  msize : Nat

/-- blocklist.hpp 94-98, 113, 133: sizes. -/
abbrev growSize : Nat := 4096
abbrev superblockSize : Nat := 512
abbrev entrySize : Nat := 16
/-- `std::numeric_limits<entry_block_count_type>::max()` (blocklist.cpp 274, 536). -/
abbrev limit : Nat := 65535

/-- `st_size` of the file. -/
def File.fileSize (f : File) : Nat := superblockSize + entrySize * f.slots.length

/-- blocklist.cpp 152-172 `ensure_mapped`. -/
def ensureMapped (f : File) : File :=
  if f.mapped then f else { f with mapped := true, msize := f.fileSize }

/-- blocklist.cpp 174-184 `ensure_unmapped`. -/
def ensureUnmapped (f : File) : File :=
  if f.mapped then { f with mapped := false } else f

/-- An all-zero slot (what `ftruncate` appends). -/
def zeroEntry : Entry := ⟨0, 0, 0⟩

/-- blocklist.cpp 593-597 `capacity` (after mapping). -/
def capacity (f : File) : Nat := ((ensureMapped f).msize - superblockSize) / entrySize

/-- blocklist.cpp 588-591 `nentries`. -/
def nentries (f : File) : Nat := f.n

/-- blocklist.cpp 186-200 `grow`: unmap, extend the file by `grow_size` zero bytes. -/
def grow (f : File) : File :=
  let f := ensureUnmapped f
  { f with slots := f.slots ++ List.replicate (growSize / entrySize) zeroEntry }

/-- blocklist.cpp 202-209 `require_space`. -/
def requireSpace (f : File) : M File := do
  let f := if capacity f = nentries f then ensureMapped (grow f) else ensureMapped f
  chk 208 (decide (capacity f > nentries f))
  pure f

/-- Read through an iterator: null mapping or a slot outside the mapping is UB. -/
def deref (f : File) (i : Nat) (line : Nat) : M Entry :=
  if f.mapped then
    match f.slots[i]? with
    | some e => .ok e
    | none => .error (.ub line)
  else .error (.ub line)

/-- Write through an iterator. -/
def store (f : File) (i : Nat) (e : Entry) (line : Nat) : M File :=
  if f.mapped && decide (i < f.slots.length) then .ok { f with slots := f.slots.set i e }
  else .error (.ub line)

/-- `blocks_by_state[s] += d` (wrapping). -/
def addCnt (f : File) (s d line : Nat) : M File :=
  if s < 4 then .ok { f with cnt := fun t => if t = s then u64 (f.cnt t + d) else f.cnt t }
  else .error (.ub line)

/-- `blocks_by_state[s] -= d` (wrapping). -/
def subCnt (f : File) (s d line : Nat) : M File :=
  if s < 4 then .ok { f with cnt := fun t => if t = s then sub64 (f.cnt t) d else f.cnt t }
  else .error (.ub line)

/-- `memmove(&entries[dst], &entries[src], len * sizeof(Entry))`. -/
def memmove (f : File) (dst src len line : Nat) : M File :=
  if f.mapped && decide (dst + len ≤ f.slots.length) && decide (src + len ≤ f.slots.length) then
    .ok { f with slots := f.slots.take dst ++ (f.slots.drop src).take len ++ f.slots.drop (dst + len) }
  else .error (.ub line)

/-- blocklist.cpp 239-241: the bookkeeping loop of `delete_range` over `k` entries from `i`. -/
def uncount (f : File) (i : Nat) : Nat → M File
  | 0 => .ok f
  | k + 1 => do
    let e ← deref f i 240
    let f ← subCnt f e.state e.count 240
    uncount f (i + 1) k

/-- blocklist.cpp 220-249 `delete_range`. (The `unsigned` truncation in line 235 can only
make the compared value smaller and is ignored.) -/
def deleteRange (f : File) (b e : Nat) : M (File × Nat) := do
  chk 227 (decide (b ≤ e))
  chk 228 (decide (e ≤ f.n))
  chk 235 (decide ((f.n - e) + (e - b) ≤ f.n))
  let toMove := f.n - e
  let f ← uncount f b (e - b)
  let f ← memmove f b e toMove 243
  pure ({ f with n := f.n - (e - b) }, b)

/-- blocklist.cpp 211-218 `delete_entry`. -/
def deleteEntry (f : File) (i : Nat) : M (File × Nat) :=
  let f := ensureMapped f
  if i = f.n then .ok (f, i) else deleteRange f i (i + 1)

/-- blocklist.cpp 251-285 `try_merge_with_previous`. -/
def tryMerge (f : File) (i : Nat) : M (File × Bool × Nat) :=
  if i = 0 then .ok (f, false, i)
  else do
    let prev ← deref f (i - 1) 262
    let it ← deref f i 262
    if prev.fin ≠ it.start then pure (f, false, i)
    else if prev.state ≠ it.state then pure (f, false, i)
    else
      let newCount := prev.count + it.count
      if newCount > limit then pure (f, false, i)
      else do
        let f ← store f (i - 1) { prev with count := u16 newCount } 280
        let f ← addCnt f prev.state it.count 283
        let (f, j) ← deleteEntry f i
        pure (f, true, j - 1)

/-- blocklist.cpp 287-304 `insert_before`. -/
def insertBefore (f : File) (dest : Nat) (e : Entry) : M (File × Nat) := do
  let toMove := f.n - dest
  let f ← requireSpace f
  let f ← if toMove ≠ 0 then memmove f (dest + 1) dest toMove 295 else .ok f
  let f ← store f dest e 300
  pure ({ f with n := f.n + 1 }, dest)

/-- blocklist.cpp 306-325 `split_entry`. -/
def splitEntry (f : File) (at' splitPoint : Nat) : M (File × Nat) := do
  let a ← deref f at' 309
  chk 309 (decide (a.start ≤ splitPoint))
  chk 310 (decide (a.fin > splitPoint))
  let oldEnd := a.fin
  let oldCount := a.count
  let newEntry : Entry := { a with start := splitPoint, count := u16 (sub64 oldEnd splitPoint) }
  let f ← store f at' { a with count := u16 (sub64 splitPoint a.start) } 317
  let (f, j) ← insertBefore f (at' + 1) newEntry
  let k := j - 1
  let x ← deref f k 320
  let y ← deref f (k + 1) 321
  chk 320 (decide (x.fin = splitPoint))
  chk 321 (decide (y.fin = oldEnd))
  chk 322 (decide (x.count + y.count = oldCount))
  pure (f, k)

/-- `std::upper_bound` as implemented by libstdc++ (`__upper_bound`) with the comparison of
blocklist.cpp 330-336.  `fuel` is at least `len`. -/
def upperBound (f : File) (block : Nat) : (fuel first len : Nat) → M Nat
  | _, first, 0 => .ok first
  | 0, _, _ + 1 => .error (.diverge 330)
  | fuel + 1, first, len@(_ + 1) => do
    let half := len / 2
    let mid := first + half
    let e ← deref f mid 335
    if block < e.fin then upperBound f block fuel first half
    else upperBound f block fuel (mid + 1) (len - half - 1)

/-- blocklist.cpp 327-342 `search_entry`. -/
def searchEntry (f : File) (block : Nat) : M Nat :=
  upperBound f block f.n 0 f.n

/-- blocklist.cpp 356-385 `find_overlapping_entries`. -/
def findOverlapping (f : File) (start count : Nat) : M (Nat × Nat) :=
  if f.n = 0 then .ok (f.n, f.n)
  else do
    let fin := u64 (start + count)
    let so ← searchEntry f start
    if so = f.n then pure (f.n - 1, f.n)
    else do
      let e ← deref f so 370
      let so := if e.contains start then so else if so = 0 then f.n else so - 1
      let eo ← searchEntry f fin
      pure (so, eo)

/-- blocklist.cpp 462-470 and 517-525: merge the item at `item` with its successor. -/
def mergeNext (f : File) (item : Nat) : M (File × Nat) :=
  if item + 1 ≠ f.n then
    (tryMerge f (item + 1)).map fun r => (r.1, if r.2.1 then r.2.2 else item)
  else .ok (f, item)

/-- blocklist.cpp 461-472 and 516-530: merge the item at `item` with its successor, then with
its predecessor. -/
def mergeAround (f : File) (item : Nat) : M File := do
  let r ← mergeNext f item
  let r ← tryMerge r.1 r.2
  pure r.1

/-- blocklist.cpp 482-491: `case 4: end overlaps`. -/
def trimEnd (f : File) (endContains : Bool) (endOverlap fin : Nat) : M File :=
  if endContains then do
    let eo ← deref f endOverlap 484
    let oldEnd := eo.fin
    let oldCount := eo.count
    let eo' : Entry := { eo with start := fin, count := u16 (sub64 oldEnd fin) }
    let f ← store f endOverlap eo' 486
    chk 488 (!eo'.contains (sub64 fin 1))
    chk 489 (decide (oldCount > eo'.count))
    subCnt f eo'.state (oldCount - eo'.count) 490
  else .ok f

/-- blocklist.cpp 493-531: delete what lies between, insert, merge. -/
def finishMark (f : File) (startOverlap endOverlap : Nat) (newEntry : Entry) (state : State) :
    M File := do
  let deleteBegin := if startOverlap = f.n then 0 else startOverlap + 1
  let (f, insertAt) ← deleteRange f deleteBegin endOverlap
  if state = .absent then pure f
  else do
    let (f, inserted) ← insertBefore f insertAt newEntry
    let f ← addCnt f newEntry.state newEntry.count 514
    mergeAround f inserted

/-- blocklist.cpp 445-446: `it != end() && it->contains(b)`. -/
def containsAt (f : File) (i b line : Nat) : M Bool :=
  if i ≠ f.n then (deref f i line).map (fun e => e.contains b) else .ok false

/-- blocklist.cpp 436-443: case 5, split if one entry contains both ends. -/
def caseSplit (f : File) (so eo start : Nat) : M (File × Nat × Nat) :=
  if so ≠ f.n ∧ so = eo then
    (splitEntry f so start).map fun r => (r.1, r.2, r.2 + 1)
  else .ok (f, so, eo)

/-- blocklist.cpp 387-531 `mark_internal`. -/
def markInternal (f : File) (start count : Nat) (state : State) : M File := do
  let newEntry : Entry := ⟨start, count, state.code⟩
  let fin := u64 (start + count)
  let (so, eo) ← findOverlapping f start count
  let (f, so, eo) ← caseSplit f so eo start
  let startContains ← containsAt f so start 445
  let endContains ← containsAt f eo (sub64 fin 1) 446
  if startContains then do
    let s ← deref f so 451
    if s.start = start ∧ s.count ≤ count then
      -- 451-473
      if state = .absent then do
        let (f, _) ← deleteRange f so eo
        pure f
      else do
        let f ← subCnt f s.state s.count 457
        let f ← store f so newEntry 458
        let f ← addCnt f state.code count 459
        let (f, j) ← deleteRange f (so + 1) eo
        mergeAround f (j - 1)
    else do
      -- 474-479
      let s' : Entry := { s with count := u16 (sub64 start s.start) }
      let f ← store f so s' 475
      chk 476 (decide (s'.fin = start))
      chk 477 (decide (s.count > s'.count))
      chk 478 (decide (s'.count > 0))
      let f ← subCnt f s'.state (s.count - s'.count) 479
      let f ← trimEnd f endContains eo fin
      finishMark f so eo newEntry state
  else do
    let f ← trimEnd f endContains eo fin
    finishMark f so eo newEntry state

/-- blocklist.cpp 537-544: the loop of `mark`. `fuel` bounds the number of full chunks. -/
def markLoop (state : State) : (fuel : Nat) → File → (start count : Nat) → M File
  | 0, _, _, _ => .error (.diverge 537)
  | fuel + 1, f, start, count =>
    if count > limit then do
      let f ← markInternal f start limit state
      markLoop state fuel f (u64 (start + limit)) (count - limit)
    else if count > 0 then markInternal f start count state
    else .ok f

/-- blocklist.cpp 533-545 `mark`. -/
def mark (f : File) (start count : Nat) (state : State) : M File :=
  markLoop state (count / limit + 1) (ensureMapped f) start count

/-- blocklist.cpp 550-559: linear scan of `state()` over the live entries from slot `i`. -/
def stateScan (f : File) (block : Nat) (i : Nat) : Nat → M State
  | 0 => .ok .absent
  | k + 1 => do
    let e ← deref f i 551
    if e.start ≤ block ∧ e.fin > block then State.ofCode e.state
    else stateScan f block (i + 1) k

/-- blocklist.cpp 547-560 `state`. -/
def stateAt (f : File) (block : Nat) : M State :=
  stateScan (ensureMapped f) block 0 f.n

/-- blocklist.cpp 562-569 `blocks`. -/
def blocks (f : File) (s : State) : Nat :=
  match s with
  | .absent => W64 - 1
  | s => f.cnt s.code

/-- blocklist.cpp 571-581 `present_blocks`. -/
def presentBlocks (f : File) : Nat :=
  u64 (u64 (u64 (u64 (0 + f.cnt 0) + f.cnt 1) + f.cnt 2) + f.cnt 3)

/-- common.hpp 33 `CACHE_PAGE_SIZE`. -/
abbrev pageSize : Nat := 4096

/-- blocklist.cpp 614-622: the loop of `truncate_access`. -/
def truncLoop (f : File) (req : Nat) : (fuel it avail : Nat) → M Nat
  | 0, _, _ => .error (.diverge 614)
  | fuel + 1, it, avail =>
    if it ≠ f.n ∧ avail < req then do
      let e ← deref f (it + 1) 618
      if e.start ≠ avail then pure avail
      else truncLoop f req fuel (it + 1) e.fin
    else pure avail

/-- blocklist.cpp 599-627 `truncate_access` (`start` is a signed 64-bit offset, `size` below
2^64). -/
def truncateAccess (f : File) (start : Int) (size : Nat) : M Nat :=
  if start < 0 then .ok 0
  else do
    let startBlock := start.toNat / pageSize
    let req := u64 (u64 (start.toNat + size) + pageSize - 1) / pageSize
    let f := ensureMapped f
    let it ← searchEntry f startBlock
    if it = f.n then pure 0
    else do
      let e ← deref f it 610
      if !e.contains startBlock then pure 0
      else do
        let avail ← truncLoop f req (f.n + 1) it e.fin
        let endBlock := min (req + 1) avail
        let maxLength := u64 (sub64 endBlock startBlock * pageSize)
        pure (min size maxLength)

/-- blocklist.cpp 678-711 `shrink`. -/
def shrink (f : File) : M File :=
  let cur := f.msize / growSize
  if cur ≤ 1 then .ok f
  else
    let req := (superblockSize + f.n * entrySize + growSize - 1) / growSize
    if req = cur then .ok f
    else do
      let newSize := req * growSize
      let newCap := (newSize - superblockSize) / entrySize
      chk 702 (decide (newSize < f.msize))
      chk 704 (decide (newCap ≥ f.n))
      let f := ensureUnmapped f
      -- `ftruncate` to `newSize`, which is at most the current size
      pure { f with slots := f.slots.take ((newSize - superblockSize) / entrySize) }

/-- blocklist.cpp 637-667: the loop of `fsck` from slot `i`; returns the recomputed counters.
The array access in line 664 is out of bounds for states above 3. -/
def fsckLoop (f : File) : (k i prevEnd prevStart : Nat) → (acc : Nat → Nat) → M (Nat → Nat)
  | 0, _, _, _, acc => .ok acc
  | k + 1, i, prevEnd, prevStart, acc => do
    let e ← deref f i 642
    if e.start < prevEnd then .error (.thrown 643)
    else if e.start < prevStart then .error (.thrown 651)
    else if e.count = 0 then .error (.thrown 659)
    else if e.state < 4 then
      fsckLoop f k (i + 1) e.fin e.start
        (fun t => if t = e.state then u64 (acc t + e.count) else acc t)
    else .error (.ub 664)

/-- blocklist.cpp 629-676 `fsck`. -/
def fsck (f : File) : M File := do
  let f := ensureMapped f
  let acc ← fsckLoop f f.n 0 0 0 (fun _ => 0)
  if acc 0 = f.cnt 0 ∧ acc 1 = f.cnt 1 ∧ acc 2 = f.cnt 2 ∧ acc 3 = f.cnt 3 then shrink f
  else .error (.thrown 671)

/-- blocklist.cpp 124-136: a newly initialised file (8 blocks of 512 bytes), then mapped by the
constructor (82-87). -/
def fresh : File :=
  { n := 0, cnt := fun _ => 0, slots := List.replicate 224 zeroEntry, mapped := true, msize := 4096 }

/-- A history of `mark` calls. -/
def marks (f : File) : List (Nat × Nat × State) → M File
  | [] => .ok f
  | (s, c, st) :: rest => do
    let f ← mark f s c st
    marks f rest

end Dragonstash.Blocklist
