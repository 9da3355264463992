/-
  Model of `CachedDir` (include/dragonstash/cache/cache.hpp 45-85, src/cache/cache.cpp 104-223): a stream
  over the values which a database with several values per key (`MDB_DUPSORT`) holds under one key. No
  other code of the project uses the class.
-/
import Verif.Cache.Records
namespace Dragonstash.CachedDir
open Codec

/-- What `parse_entry_v1` fills in of a `DirectoryEntry` (inode.hpp 107-110). -/
structure Ent where
  ino : Nat
  mode : Nat
  name : Bytes
  deriving DecidableEq, Repr

/-- `parse_entry`, `parse_entry_v1` (cache.cpp 134-168). -/
def parseEntry (b : Bytes) : M (Res Ent) :=
  if b.length < 1 then .ok (.error EIO)
  else do
    let version ← rd b 0 1
    if version ≠ 1 then pure (.error EIO)
    else if b.length - 1 ≤ 12 then pure (.error EIO)
    else do
      let ino ← rd b 1 8
      let mode ← rd b 9 4
      chk 164 (b.length - 13 ≥ 1)
      pure (.ok ⟨ino, mode, b.drop 13⟩)

/-- The object; `dups` are the values under the key, in their order, and `pos` is where the cursor stands. -/
structure St where
  dups : List Bytes
  pos : Nat
  eof : Bool
  size : Int
  off : Int
  deriving DecidableEq, Repr

/-- `mark_eof` (cache.cpp 123-132). -/
def markEof (s : St) : M St :=
  if s.eof then .ok s
  else do
    chk 130 (s.off + 1 = s.size || s.size = -1)
    pure { s with eof := true, size := s.off + 1 }

/-- The constructor (cache.cpp 104-121). `find` puts the cursor at the first value of the key. -/
def open_ (dups : List Bytes) : M St :=
  let s : St := ⟨dups, 0, false, -1, 0⟩
  match dups with
  | [] => markEof s
  | _ :: _ => .ok s

/-- What `ReadDir` returns: an entry and its offset, or an error code. -/
abbrev Ret := Res (Ent × Int)

/-- `ReadDir` (cache.cpp 170-199). `MDB_GET_CURRENT` fills in the value at the cursor (if there is none
the program throws); `MDB_NEXT_DUP` goes to the next value of the same key and overwrites `value`, or
returns `MDB_NOTFOUND` and leaves cursor and `value` as they are. (The keys are those of the cursor,
so the assertions of lines 180 and 187 hold.) -/
def readDir (s : St) : M (St × Ret) :=
  if s.eof then .ok (s, .error 0)
  else
    match s.dups[s.pos]? with
    | none => .error (.thrown 179)
    | some cur =>
      match s.dups[s.pos + 1]? with
      | none => do
        let s' ← markEof s
        let r ← parseEntry cur
        pure (s', r.map (fun e => (e, s.off)))
      | some next => do
        let r ← parseEntry next
        pure ({ s with pos := s.pos + 1, off := s.off + 1 }, r.map (fun e => (e, s.off)))

/-- The loop of `Seek`: `k` steps back. -/
def back : Nat → St → M St
  | 0, s => .ok s
  | k + 1, s =>
    if s.pos = 0 then .error (.assertFail 217)
    else back k { s with pos := s.pos - 1, off := s.off - 1 }

/-- `Seek` (cache.cpp 201-223). -/
def seek (o : Int) (s : St) : M (St × Res Unit) :=
  if o < 0 then .ok (s, .error EINVAL)
  else if o > s.off then .ok (s, .error EINVAL)
  else if o = s.off then .ok (s, .ok ())
  else do
    let s' ← back (s.off - o).toNat s
    pure (s', .ok ())

/-- Calls, and what they return. -/
inductive Op where
  | read
  | seek (o : Int)
  deriving DecidableEq, Repr

inductive Out where
  | read (r : Ret)
  | seek (r : Res Unit)
  deriving DecidableEq, Repr

def call (s : St) : Op → M (St × Out)
  | .read => do let (s, r) ← readDir s; pure (s, .read r)
  | .seek o => do let (s, r) ← seek o s; pure (s, .seek r)

def calls : St → List Op → M (List Out)
  | _, [] => .ok []
  | s, o :: l => do
    let (s, r) ← call s o
    let rs ← calls s l
    pure (r :: rs)

/-- A stream is opened and used. -/
def use (dups : List Bytes) (l : List Op) : M (List Out) := do
  let s ← open_ dups
  calls s l

end Dragonstash.CachedDir
