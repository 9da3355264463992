/-
  Specification: the kernel's caches of names and attributes, and time.

  As in Linux (fs/fuse/dir.c, fs/fuse/inode.c): a reply carries how long the kernel may use what it
  says; until then, the kernel answers programs by itself. Requests are sent one after the other here:
  if a getattr is answered between the sending and the answer of a lookup, Linux ignores the attributes
  of the lookup's answer (`attr_version`), which may be the newer ones.
-/
import Verif.FS.Said
namespace Dragonstash.FS
open Cache

/-! ### How long replies are valid (model of the code; in milliseconds) -/

/-- `Filesystem::lookup`: `entry_timeout` (fs.cpp 45). -/
def lookupEntryTimeout : Nat := 1000
/-- `Filesystem::lookup`: `attr_timeout` (fs.cpp 44). -/
def lookupAttrTimeout : Nat := 1000
/-- `Filesystem::getattr` (fs.cpp 155). -/
def getattrTimeout : Nat := 1000
/-- `Filesystem::readdirplus`: `entry_timeout` (fs.cpp 327). -/
def listEntryTimeout : Nat := 1000
/-- `Filesystem::readdirplus`: `attr_timeout` (fs.cpp 326). -/
def listAttrTimeout : Nat := 1000

/-! ### The kernel -/

/-- Where the kernel has an entry from. -/
inductive How where
  | lookup
  | listing
deriving DecidableEq

/-- An entry of a directory which the kernel has cached. `since` is only there to state properties: when the
lookup was sent; for an entry from a listing, when the directory was last opened. -/
structure KEntry where
  ino : Ino
  how : How
  since : Option Nat
  until_ : Nat

/-- Cached attributes. -/
structure KAttr where
  stat : OsStat
  until_ : Nat

/-- The filesystem, the time, and what the kernel has cached. Only to state properties: when each
directory was last opened, the longest time which a request has taken, and the longest time between the
opening of a directory and the end of a listing of it. -/
structure Kern where
  sys : Sys
  now : Nat
  ent : Ino → Bytes → Option KEntry
  attr : Ino → Option KAttr
  opened : Ino → Option Nat
  slow : Nat
  late : Nat

/-- Directly after mounting. -/
def Kern.fresh (y : Sys) (t : Nat) : Kern := ⟨y, t, fun _ _ => none, fun _ => none, fun _ => none, 0, 0⟩

/-- The kernel caches an entry and its attributes. -/
def Kern.enter (K : Kern) (p : Ino) (n : Bytes) (e : KEntry) (a : KAttr) : Kern :=
  { K with ent := fun q m => if q = p ∧ m = n then some e else K.ent q m
           attr := fun j => if j = e.ino then some a else K.attr j }

/-- The kernel caches the entries of a listing of `p`, except for `.` and `..`. -/
def Kern.enterAll (K : Kern) (p : Ino) : List DEnt → Kern
  | [] => K
  | e :: l =>
    if e.name = [0x2e] ∨ e.name = [0x2e, 0x2e] then K.enterAll p l
    else (K.enter p e.name ⟨e.stat.ino, .listing, K.opened p, K.now + listEntryTimeout⟩ ⟨e.stat, K.now + listAttrTimeout⟩).enterAll p l

/-- A reply arrives; the request was sent at `t0`. A failed lookup removes the entry. -/
def Kern.took (K : Kern) (t0 : Nat) : Req → Reply → Kern
  | .lookup p n, .entry st => K.enter p n ⟨st.ino, .lookup, some t0, K.now + lookupEntryTimeout⟩ ⟨st, K.now + lookupAttrTimeout⟩
  | .lookup p n, .err _ => { K with ent := fun q m => if q = p ∧ m = n then none else K.ent q m }
  | .getattr i, .attr st => { K with attr := fun j => if j = i then some ⟨st, K.now + getattrTimeout⟩ else K.attr j }
  | .readdirplus p _ _, .bufPlus l _ => { K with late := max K.late (K.now - (K.opened p).getD K.now) }.enterAll p l
  | .opendir p, .opened => { K with opened := fun q => if q = p then some t0 else K.opened q }
  | _, _ => K

/-- What the backend answers during a request is what the host `H` says at some moment between `t0` and `t1`
(not always the same moment). -/
structure Answers (H : Nat → Backend) (t0 t1 : Nat) (B : Backend) : Prop where
  lstat : ∀ c p, ∃ t, t0 ≤ t ∧ t ≤ t1 ∧ B.lstat c p = (H t).lstat c p
  readlink : ∀ p, ∃ t, t0 ≤ t ∧ t ≤ t1 ∧ B.readlink p = (H t).readlink p
  opendir : ∀ p, ∃ t, t0 ≤ t ∧ t ≤ t1 ∧ B.opendir p = (H t).opendir p
  names : ∀ p names e, B.opendir p = .ok (names, e) → [] ∉ names

/-- All histories, with a host which changes in time as `H` says. The kernel may drop what it has cached,
send any requests, and let any time pass. -/
inductive Timed (H : Nat → Backend) : Kern → Prop
  | mount {uid gid now d r t} : openCleanDB (initDB emptyDB uid gid now) Refs.empty = .ok (d, r) → Timed H (.fresh ⟨d, r, fun _ => 0⟩ t)
  | remount {K uid gid now d r t} : Timed H K → K.now ≤ t → openCleanDB (initDB K.sys.disk uid gid now) Refs.empty = .ok (d, r) →
      Timed H (.fresh ⟨d, r, fun _ => 0⟩ t)
  | wait {K t} : Timed H K → K.now ≤ t → Timed H { K with now := t }
  | drop {K ent attr} : Timed H K → (∀ p n, ent p n = none ∨ ent p n = K.ent p n) → (∀ i, attr i = none ∨ attr i = K.attr i) →
      Timed H { K with ent := ent, attr := attr }
  | ask {K B rq rep y t} : Timed H K → Valid K.sys B rq → rq.named → K.now ≤ t → Answers H K.now t B → Answered K.sys B rq rep y →
      Timed H ({ K with sys := y, now := t, slow := max K.slow (t - K.now) }.took K.now rq rep)

/-! ### What programs see -/

/-- By cached entries, which are still valid, the names `cs` lead from directory `p` to `i`. -/
inductive Kern.Walks (K : Kern) : Ino → List Bytes → Ino → Prop
  | here {p} : Walks K p [] p
  | down {p n e cs i} : K.ent p n = some e → K.now ≤ e.until_ → Walks K e.ino cs i → Walks K p (n :: cs) i

/-- `stat` of the path `cs` / `n` gives `x`: all cached entries on the way, and the cached attributes, are still
valid. (After it has sent requests for what was not, this is so.) `e` is the last entry. -/
def Kern.Stat (K : Kern) (cs : List Bytes) (n : Bytes) (e : KEntry) (x : OsStat) : Prop :=
  ∃ p a, K.Walks ROOT cs p ∧ K.ent p n = some e ∧ K.now ≤ e.until_ ∧ K.attr e.ino = some a ∧ K.now ≤ a.until_ ∧ x = a.stat

/-- The host reported the attributes `sr` for path `p` at some time between `lo` and `hi`. -/
def Reported (H : Nat → Backend) (lo hi : Nat) (p : Bytes) (sr : BStat) : Prop := ∃ t c, lo ≤ t ∧ t ≤ hi ∧ (H t).lstat c p = .ok sr

/-- The host reported the link target `d` for path `p` at some time between `lo` and `hi`. -/
def ReadAs (H : Nat → Backend) (lo hi : Nat) (p d : Bytes) : Prop := ∃ t, lo ≤ t ∧ t ≤ hi ∧ (H t).readlink p = .ok d

/-- The host was connected between `lo` and `hi`. -/
def Connected (H : Nat → Backend) (lo hi : Nat) : Prop :=
  ∀ t, lo ≤ t → t ≤ hi → (∀ c p, (H t).lstat c p ≠ .error ENOTCONN) ∧ ∀ p, (H t).opendir p ≠ .error ENOTCONN

end Dragonstash.FS
