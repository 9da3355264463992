/-
  The filesystem (src/fs.cpp) on the cache whose databases hold bytes: the handlers of `Verif.MT.Prog` with
  the calls on the transaction executed by `Verif.Cache.ByteModel`; and, as in `Verif.FS.Live`, the
  specification of the states which can occur. No properties of the implementation here.
-/
import Verif.MT.Prog
import Verif.FS.Confirm
import Verif.Cache.ByteModel
import Verif.Cache.Bytewise
namespace Dragonstash.FSB
open Cache FS

/-- A handler run on a transaction. `pads` is the content of padding bytes, which the program leaves
undefined, in each of the calls. -/
def runB (pads : Nat → Ino → Nat) : Nat → Cache.B.Txn → MT.Prog → M (Cache.B.Txn × Bool × List Reply)
  | c, t, .op o k => match Cache.B.doOp (pads c) t o with
    | .error e => .error e
    | .ok (t', out) => runB pads (c + 1) t' (k out)
  | _, t, .done c reps => .ok (t, c, reps)
  | _, _, .stuck f => .error f

/-- A mounted filesystem between two requests: the database file in bytes, the reference table in memory,
and the lookup counts which the kernel holds. -/
structure Sys where
  disk : Cache.B.DB
  refs : Refs
  held : Ino → Nat

/-- The calls of reply functions: only the first one succeeds, a second one throws; a request which is not
answered gets the default error (request.hpp 91-97, 138-150; request.cpp 100-110). -/
def answers : List Reply → M Reply
  | [] => .ok (.err ECANCELED)
  | [r] => .ok r
  | _ => .error (.thrown 94)

/-- A request is served (interface.hpp 37-41). The transaction begins on the committed database (fs.cpp
42, 135, ...), and changes it if it is read-write and commits. -/
def serve (pads : Nat → Ino → Nat) (B : Backend) (y : Sys) (rq : Req) : M (Sys × Reply) :=
  match MT.prog B (y.disk.treei.size + 4) rq with
  | none => .ok (⟨y.disk, y.refs, heldAfter y.held rq [MT.directReply rq]⟩, MT.directReply rq)
  | some P => do
    let (t, commit, reps) ← runB pads 0 ⟨y.disk, y.refs, none, []⟩ P
    let r ← answers reps
    pure (⟨if commit && !MT.readOnly rq then t.db else y.disk, t.refs, heldAfter y.held rq [r]⟩, r)

/-- The process starts, with the database file as it is (cache.cpp 298-333). -/
def mount (pad pad' : Ino → Nat) (d : Cache.B.DB) (uid gid : Nat) (now : Timespec) : M Sys := do
  let (d, r) ← Cache.B.openCleanDB pad' (Cache.B.initDB pad d uid gid now) Refs.empty
  pure ⟨d, r, fun _ => 0⟩

/-! ### Specification -/

/-- What the backend says fits into the types of C++: the fields of `Backend::Stat` (base.hpp 42-49) and
the length of link targets. -/
structure BackendFits (B : Backend) : Prop where
  lstat : ∀ k p sr, B.lstat k p = .ok sr → (fromBackend sr).Fits
  readlink : ∀ p t, B.readlink p = .ok t → t.length < W64

/-- The kernel asks for names, and opens directories, only where it has seen a directory (or where nothing
exists any more). -/
def onDir (d : Cache.B.DB) : Req → Prop
  | .lookup p _ => ∀ x, Cache.B.getattr d p = .ok (.ok x) → fmt x.2.mode = S_IFDIR
  | .opendir i => ∀ x, Cache.B.getattr d i = .ok (.ok x) → fmt x.2.mode = S_IFDIR
  | _ => True

/-- The kernel reads links only of links. -/
def onLink (d : Cache.B.DB) : Req → Prop
  | .readlink i => ∀ x, Cache.B.getattr d i = .ok (.ok x) → fmt x.2.mode = S_IFLNK
  | _ => True

/-- Requests which the kernel can send; 64 bit numbers do not run out; the backend's answers fit. -/
structure Valid (y : Sys) (B : Backend) (rq : Req) : Prop where
  inRange : rq.inRange
  dir : onDir y.disk rq
  returned : ∀ i, rq.returned i ≤ y.held i
  inodes : ∀ v, y.disk.next = some v → leDec v + 1 < W64 ∧ ∀ path names e, B.opendir path = .ok (names, e) → leDec v + names.length + 1 < W64
  counts : ∀ i, (y.refs i).nrefs + y.disk.treei.size + 4 < W64
  backend : BackendFits B

/-- States of the filesystem: mounted with a new cache file, mounted again, or after a request. -/
inductive Live : Sys → Prop
  | mount {pad pad' uid gid now y} : uid < 256 ^ 4 ∧ gid < 256 ^ 4 ∧ now.Fits → mount pad pad' Cache.B.emptyDB uid gid now = .ok y → Live y
  | remount {y pad pad' uid gid now y'} : Live y → uid < 256 ^ 4 ∧ gid < 256 ^ 4 ∧ now.Fits → FSB.mount pad pad' y.disk uid gid now = .ok y' → Live y'
  | serve {y pads B rq y' r} : Live y → Valid y B rq → serve pads B y rq = .ok (y', r) → Live y'

/-- Requests and restarts between two states during which a backend that is connected confirms the path
`fs` (as `FS.Between`). -/
inductive Between (fs : List Bytes) (P : Attrs → Prop) (y : Sys) : Sys → Prop
  | refl : Between fs P y y
  | step {y1 y2 pads B rq r} : Between fs P y y1 → Valid y1 B rq → onLink y1.disk rq → Confirms B (along fs P) fs → serve pads B y1 rq = .ok (y2, r) → Between fs P y y2
  | restart {y1 pad pad' uid gid now y2} : Between fs P y y1 → uid < 256 ^ 4 ∧ gid < 256 ^ 4 ∧ now.Fits → FSB.mount pad pad' y1.disk uid gid now = .ok y2 → Between fs P y y2

end Dragonstash.FSB
