/-
  Model of the life of the mapping of a block list file (src/cache/blocklist.cpp): when it is made and
  given back, what happens if the host refuses, and through which pointer the entries are accessed.
  The contents of the file are in Blocklist/Model; here only system calls and the pointer `m_mapping`
  matter.
-/
import Verif.Base
namespace Dragonstash.BMap

/-- `m_mapping` (blocklist.hpp 191): null, what `mmap` returns when it fails (`MAP_FAILED`, which is
not null), or the address of a mapping. -/
inductive Ptr where
  | null
  | mapFailed
  | addr (a : Nat)
  deriving DecidableEq, Repr

/-- System calls with their arguments, and what came of them. The addresses which `mmap` gives are all
different (a simplification: the host may use an address again after `munmap`). -/
inductive Sys where
  | fstat (ok : Bool)
  | mmap (a : Nat) (size : Nat)
  | mmapFails (size : Nat)
  | munmap (a : Nat) (size : Nat)
  | munmapFails
  | ftruncate (ok : Bool) (size : Nat)
  | fsync
  | pread (ok : Bool)
  deriving DecidableEq, Repr

/-- How a function ends early: with a C++ exception; by an access through a pointer which is not a
mapping; or the process is terminated, because of an exception which leaves a destructor. -/
inductive Stop where
  | throws
  | crash
  | terminate
  deriving DecidableEq, Repr

/-- The host: whether the `n`-th system call succeeds, and which size `fstat` reports. -/
structure Host where
  ok : Nat → Bool
  size : Nat → Nat

/-- `m_mapping`, `m_mapped_size` (blocklist.hpp 191-192), and the system calls made so far. -/
structure St where
  ptr : Ptr
  size : Nat
  log : List Sys

abbrev Run (α : Type) := Except Stop α × St

variable (h : Host)

/-- The number of the next system call. -/
def St.n (s : St) : Nat := s.log.length

def St.say (s : St) (c : Sys) : St := { s with log := s.log ++ [c] }

/-- `ensure_mapped` (blocklist.cpp 152-172). The result of `mmap` is compared with null (168), which it
never is. (The assertion of line 163 holds: `open` has checked that the file is regular.) -/
def ensureMapped (s : St) : Run Unit :=
  match s.ptr with
  | .null =>
    if h.ok s.n then
      let z := h.size s.n
      let s := s.say (.fstat true)
      if h.ok s.n then (.ok (), { s.say (.mmap s.n z) with ptr := .addr s.n, size := z })
      else (.ok (), { s.say (.mmapFails z) with ptr := .mapFailed, size := z })
    else (.error .throws, s.say (.fstat false))
  | _ => (.ok (), s)

/-- `ensure_unmapped` (blocklist.cpp 174-184). `munmap` refuses an address which is no multiple of the
page size, such as `MAP_FAILED`. -/
def ensureUnmapped (s : St) : Run Unit :=
  match s.ptr with
  | .null => (.ok (), s)
  | .mapFailed => (.error .throws, s.say .munmapFails)
  | .addr a =>
    if h.ok s.n then (.ok (), { s.say (.munmap a s.size) with ptr := .null })
    else (.error .throws, s.say .munmapFails)

/-- Any access to the superblock or the entries through `m_mapping`. -/
def access (s : St) : Run Unit :=
  match s.ptr with
  | .addr _ => (.ok (), s)
  | _ => (.error .crash, s)

/-- `temporary_superblock` (blocklist.hpp 235-240) and `read_superblock` (blocklist.cpp 739-750): reads
through the mapping, or from the file if there is none. -/
def superblock (s : St) : Run Unit :=
  match s.ptr with
  | .null => if h.ok s.n then (.ok (), s.say (.pread true)) else (.error .throws, s.say (.pread false))
  | _ => access s

/-- One function after the other, until one stops. -/
def andThen (x : Run Unit) (f : St → Run Unit) : Run Unit :=
  match x with
  | (.ok (), s) => f s
  | (.error e, s) => (.error e, s)

/-- `grow` (blocklist.cpp 186-200); `fstat` reports the size of the file. -/
def grow (s : St) : Run Unit :=
  andThen (ensureUnmapped h s) fun s =>
    if h.ok s.n then
      let z := h.size s.n + 4096
      let s := s.say (.fstat true)
      if h.ok s.n then (.ok (), s.say (.ftruncate true z)) else (.error .throws, s.say (.ftruncate false z))
    else (.error .throws, s.say (.fstat false))

/-- `require_space` (blocklist.cpp 202-209): `full` says whether all slots are in use. `capacity` maps
(595), `nentries` reads the superblock. -/
def requireSpace (full : Bool) (s : St) : Run Unit :=
  andThen (ensureMapped h s) fun s => andThen (superblock h s) fun s =>
    if full then andThen (grow h s) fun s => andThen (ensureMapped h s) fun s => access s else access s

/-- `shrink` (blocklist.cpp 678-711): `new` is the size of the file which is needed, if it is smaller. -/
def shrink (new : Option Nat) (s : St) : Run Unit :=
  andThen (superblock h s) fun s =>
    match new with
    | none => (.ok (), s)
    | some z => andThen (ensureUnmapped h s) fun s =>
        if h.ok s.n then (.ok (), s.say (.ftruncate true z)) else (.error .throws, s.say (.ftruncate false z))

/-- What the public functions are made of, as far as the mapping is concerned. -/
inductive Micro where
  /-- `m_mapping->…`, after the `ensure_mapped` at the beginning. -/
  | access
  /-- `insert_before` (287-304), the only caller of `require_space`: `full` as the file happens to be. -/
  | space (full : Bool)
  deriving DecidableEq, Repr

def micro (m : Micro) (s : St) : Run Unit :=
  match m with
  | .access => access s
  | .space full => requireSpace h full s

def micros : List Micro → St → Run Unit
  | [], s => (.ok (), s)
  | m :: l, s => andThen (micro h m s) (micros l)

/-- The public functions. `mark` (533-545), `state` (547-560), `blocks` (562-569), `capacity` (593-597),
`truncate_access` (599-627, through `search_entry`, 327-348) and `dump` (713-737) map the file and then
work on it (`work l`; which accesses and insertions they make depends on the contents, so `l` is any
list); `present_blocks` (571-581), `size` (583-586) and `nentries` (588-591) read the superblock;
`fsck` (629-676) maps, accesses and ends with `shrink`, which is public, too. -/
inductive Api where
  | work (l : List Micro)
  | peek
  | fsck (new : Option Nat)
  | shrink (new : Option Nat)
  deriving DecidableEq, Repr

def api (c : Api) (s : St) : Run Unit :=
  match c with
  | .work l => andThen (ensureMapped h s) (micros h l)
  | .peek => superblock h s
  | .fsck new => andThen (ensureMapped h s) fun s => andThen (access s) fun s => shrink h new s
  | .shrink new => shrink h new s

/-- The constructor (blocklist.cpp 82-93), the file being open. If it throws there is no object. -/
def ctor : Run Unit := ensureMapped h ⟨.null, 0, []⟩

/-- The destructor (blocklist.cpp 95-101). Destructors are `noexcept`: an exception terminates. -/
def dtor (s : St) : Run Unit :=
  match ensureUnmapped h s with
  | (.ok (), s) => (.ok (), s.say .fsync)
  | (.error _, s) => (.error .terminate, s)

/-- A life: construction, calls of public functions (whose exceptions are caught), destruction. The
results of the calls. -/
def calls : List Api → St → List (Except Stop Unit) × St
  | [], s => ([], s)
  | c :: l, s =>
    match api h c s with
    | (.error .crash, s) => ([.error .crash], s)
    | (.error .terminate, s) => ([.error .terminate], s)
    | (r, s) => let (rs, s) := calls l s; (r :: rs, s)

/-- Results of the constructor, the calls and the destructor. -/
def life (l : List Api) : List (Except Stop Unit) × St :=
  match ctor h with
  | (.error e, s) => ([.error e], s)
  | (.ok (), s) =>
    let (rs, s) := calls h l s
    if (.error .crash) ∈ rs then (.ok () :: rs, s)
    else let (r, s) := dtor h s; (.ok () :: (rs ++ [r]), s)

end Dragonstash.BMap
