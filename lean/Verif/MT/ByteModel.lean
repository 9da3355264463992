/-
  The mounted filesystem with several threads (src/main.cpp: `fuse_session_loop_mt`) on the bytes of the
  database file: `Verif.MT.Model` with the cache calls executed by `Verif.Conc.ByteModel`. And, as there,
  the specification of the states which can occur. No properties of the implementation here.
-/
import Verif.MT.Model
import Verif.Conc.ByteModel
import Verif.FS.ByteModel
namespace Dragonstash.MTB
open Cache FS Conc
open MT (TState Done prog readOnly directReply)

/-- The database file and the transactions, the threads (`MT.TState`), the lookup counts which the kernel
holds, and, only to state properties: the requests which have ended, and the answers sent. -/
structure MSys where
  w : ConcB.CWorld
  th : List TState
  held : Ino → Nat
  hist : List Done
  sent : List (Req × Reply)

/-- A reply is sent (as `MT.MSys.send`). -/
def MSys.send (m : MSys) (rq : Req) (r : Reply) : MSys :=
  { m with held := fun i => m.held i + r.given i, sent := m.sent ++ [(rq, r)] }

def MSys.to (m : MSys) (k : Nat) (t : TState) : MSys := { m with th := m.th.set k t }

/-- Steps of the system (as `MT.Step`); `pad` is the content of padding bytes, which the program leaves
undefined. -/
inductive Step (m : MSys) (k : Nat) : MSys → Prop
  | issue {rq B} : m.th[k]? = some .idle →
      Step m k { m.to k (.recv rq B) with held := fun i => m.held i - rq.returned i }
  | direct {rq B} : m.th[k]? = some (.recv rq B) → prog B (m.w.disk.treei.size + 4) rq = none →
      Step m k { (m.to k .idle).send rq (directReply rq) with hist := m.hist ++ [⟨rq, B, m.hist.length, directReply rq⟩] }
  | begin_ {pad rq B P w' out} : m.th[k]? = some (.recv rq B) → prog B (m.w.disk.treei.size + 4) rq = some P →
      m.w.step pad (if readOnly rq then .beginRO k k else .beginRW k k) = .done w' out →
      Step m k { m.to k (.run rq B m.hist.length P) with w := w' }
  | call {pad rq B v o c w' out} : m.th[k]? = some (.run rq B v (.op o c)) → m.w.step pad (.on k (.op o)) = .done w' out →
      Step m k { m.to k (.run rq B v (c out)) with w := w' }
  | commit {pad rq B v r w' out} : m.th[k]? = some (.run rq B v (.done true [r])) → m.w.step pad (.on k .commit) = .done w' out →
      Step m k { m.to k (.committed rq r) with w := w', hist := m.hist ++ [⟨rq, B, v, r⟩] }
  | unlock {pad rq r w' out} : m.th[k]? = some (.committed rq r) → m.w.step pad (.on k .finish) = .done w' out →
      Step m k { m.to k (.answer rq r) with w := w' }
  | answer {rq r} : m.th[k]? = some (.answer rq r) → Step m k ((m.to k .idle).send rq r)
  | reply {rq B v r} : m.th[k]? = some (.run rq B v (.done false [r])) → Step m k ((m.to k (.leaving rq B v r)).send rq r)
  | leave {pad rq B v r w' out} : m.th[k]? = some (.leaving rq B v r) → m.w.step pad (.on k .drop) = .done w' out →
      Step m k { m.to k (.left rq) with w := w', hist := m.hist ++ [⟨rq, B, v, r⟩] }
  | finish {pad rq w' out} : m.th[k]? = some (.left rq) → m.w.step pad (.on k .finish) = .done w' out →
      Step m k { m.to k .idle with w := w' }

/-- After mounting, with `n` threads. -/
def MSys.start (d : Cache.B.DB) (r : Refs) (n : Nat) : MSys := ⟨ConcB.CWorld.start d r, List.replicate n .idle, fun _ => 0, [], []⟩

/-- The process starts, with the database file as it is (cache.cpp 298-333) and `n` threads. -/
def mount (pad pad' : Ino → Nat) (d : Cache.B.DB) (uid gid : Nat) (now : Timespec) (n : Nat) : M MSys := do
  let (d, r) ← Cache.B.openCleanDB pad' (Cache.B.initDB pad d uid gid now) Refs.empty
  pure (.start d r n)

/-! ### Specification -/

/-- 64 bit numbers do not run out (as `MT.Room`). -/
def Room (w : ConcB.CWorld) : Prop :=
  (∀ i, (w.refs i).nrefs < 2 ^ 63) ∧ w.disk.treei.size < 2 ^ 62 ∧ ∀ v, w.disk.next = some v → leDec v < 2 ^ 62

/-- What the kernel and the backend respect (as `MT.Proper`); and the backend's answers fit into the types of
C++. -/
inductive Proper (m : MSys) (k : Nat) (m' : MSys) : Prop
  | issue {rq B} : m'.th[k]? = some (.recv rq B) → rq.inRange → (∀ i, rq.returned i ≤ m.held i) →
      (∀ path names e, B.opendir path = .ok (names, e) → names.length < 2 ^ 62) → FSB.BackendFits B → Proper m k m'
  | begin_ {rq B} : m.th[k]? = some (.recv rq B) → FSB.onDir m.w.disk rq → Proper m k m'
  | other : (∀ rq B, m.th[k]? ≠ some (.recv rq B)) → (∀ rq B, m'.th[k]? ≠ some (.recv rq B)) → Proper m k m'

/-- Arguments of the constructor fit into the types of C++. -/
abbrev MountFits (uid gid : Nat) (now : Timespec) : Prop := uid < 256 ^ 4 ∧ gid < 256 ^ 4 ∧ now.Fits

/-- Reachable: mounted with a new file, or again after the process ended or died at any time; then any
interleaving. -/
inductive MReach : MSys → Prop
  | mount {pad pad' uid gid now n m} : MountFits uid gid now → mount pad pad' Cache.B.emptyDB uid gid now n = .ok m → Room m.w → MReach m
  | remount {m pad pad' uid gid now n m'} : MReach m → MountFits uid gid now → MTB.mount pad pad' m.w.disk uid gid now n = .ok m' → Room m'.w → MReach m'
  | step {m m' k} : MReach m → Step m k m' → Proper m k m' → Room m'.w → MReach m'

/-- As `MT.Later`: steps of any number of threads, and crashes and restarts at any moment, during which a
backend that is connected confirms the path `fs`. -/
inductive Later (fs : List Bytes) (P : Attrs → Prop) (m : MSys) : MSys → Prop
  | refl : Later fs P m m
  | step {m1 m2 k} : Later fs P m m1 → Step m1 k m2 → Proper m1 k m2 → Room m2.w →
      (∀ q, m2.hist = m1.hist ++ [q] → Confirms q.B (along fs P) fs ∧ FSB.onLink m1.w.disk q.rq) → Later fs P m m2
  | crash {m1 pad pad' uid gid now n m2} : Later fs P m m1 → MountFits uid gid now → mount pad pad' m1.w.disk uid gid now n = .ok m2 →
      Room m2.w → Later fs P m m2

/-- Thread `k` waits for a lock: the other write transaction has to end, or the mutex is taken. -/
inductive Waits (m : MSys) (k : Nat) : Prop
  | writer {rq B} : m.th[k]? = some (.recv rq B) → (∀ pad, m.w.step pad (.beginRW k k) = .blocked) → Waits m k
  | mutex {rq B v o c} : m.th[k]? = some (.run rq B v (.op o c)) → (∀ pad, m.w.step pad (.on k (.op o)) = .blocked) → Waits m k

/-- Thread `k` is about to reply twice to a `readdir` (missing `return`, fs.cpp 286): `reply_err` and then
`reply_buf`, which throws. -/
def TwoReplies (m : MSys) (k : Nat) : Prop :=
  ∃ i size off B v e r, m.th[k]? = some (.run (.readdir i size off) B v (.done false [.err e, r]))

end Dragonstash.MTB
