/-
  Specification of runs of the filesystem: what the kernel has been given, what it may ask, and the
  states which can occur. No properties of the implementation here.
-/
import Verif.FS.Model
namespace Dragonstash.FS
open Cache

/-- A mounted filesystem between two requests: the database file, the reference table in memory, and
the lookup counts which the kernel holds, by inode number. -/
structure Sys where
  disk : DB
  refs : Refs
  held : Ino → Nat

/-- How often a reply hands inode `i` to the kernel with its lookup count being raised: entries
(fuse_lowlevel.h: fuse_reply_entry; readdirplus except for `.` and `..`). -/
def Reply.given (i : Ino) : Reply → Nat
  | .entry st => if st.ino = i then 1 else 0
  | .bufPlus l _ => (l.filter (fun e => e.name != [0x2e] && e.name != [0x2e, 0x2e] && e.stat.ino == i)).length
  | _ => 0

/-- The number of lookups of inode `i` which the kernel gives back by a request. -/
def Req.returned (i : Ino) : Req → Nat
  | .forget j n => if j = i then n else 0
  | .forgetMulti l => ((l.filter (fun x => x.1 == i)).map Prod.snd).sum
  | _ => 0

/-- The lookup counts after a request which was answered by `sent`. -/
def heldAfter (held : Ino → Nat) (rq : Req) (sent : List Reply) (i : Ino) : Nat :=
  held i + (sent.map (Reply.given i)).sum - rq.returned i

/-- After a request. -/
def Sys.after (y : Sys) (rq : Req) (st : St) : Sys := ⟨st.disk, st.refs, heldAfter y.held rq st.sent⟩

/-- Inode numbers and offsets are 64 bit numbers. -/
def Req.inRange : Req → Prop
  | .lookup p _ => p < W64
  | .forget i _ => i < W64
  | .getattr i => i < W64
  | .readlink i => i < W64
  | .opendir i => i < W64
  | .readdir i _ off => i < W64 ∧ off < W64
  | .releasedir i => i < W64
  | .readdirplus i _ off => i < W64 ∧ off < W64
  | .forgetMulti l => ∀ x ∈ l, x.1 < W64
  | .other => True

/-- The kernel looks up names, and opens directories, only where it has seen a directory. (An inode
which does not exist any more is allowed.) -/
def Req.onDir (d : DB) : Req → Prop
  | .lookup p _ => ∀ x, Cache.getattr d p = .ok x → fmt x.2.mode = S_IFDIR
  | .opendir i => ∀ x, Cache.getattr d i = .ok x → fmt x.2.mode = S_IFDIR
  | _ => True

/-- 64 bit numbers do not run out: inode numbers (one per name which the backend lists) and lock
counts. -/
def Room (y : Sys) (B : Backend) : Prop :=
  (∀ n, y.disk.next = some n → n + 1 < W64 ∧ ∀ path names e, B.opendir path = .ok (names, e) → n + names.length + 1 < W64) ∧
  ∀ i, (y.refs i).nrefs + y.disk.treei.size + 4 < W64

/-- Requests which the kernel can send: it does not give back more than it holds. -/
def Valid (y : Sys) (B : Backend) (rq : Req) : Prop :=
  rq.inRange ∧ rq.onDir y.disk ∧ (∀ i, rq.returned i ≤ y.held i) ∧ Room y B

/-- States of the filesystem: after mounting with a new cache, after mounting again (the process may
have died at any time: requests change the database in one commit), and after serving a request,
unless that ended with an exception. -/
inductive Live : Sys → Prop
  | mount {uid gid now d r} : openCleanDB (initDB emptyDB uid gid now) Refs.empty = .ok (d, r) → Live ⟨d, r, fun _ => 0⟩
  | remount {y uid gid now d r} : Live y → openCleanDB (initDB y.disk uid gid now) Refs.empty = .ok (d, r) → Live ⟨d, r, fun _ => 0⟩
  | serve {y B rq st} : Live y → Valid y B rq → dispatch B y.disk y.refs rq = .ok st → st.fault = none → Live (y.after rq st)

end Dragonstash.FS
