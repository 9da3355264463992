/-
  The mounted filesystem with several threads (src/main.cpp: `fuse_session_loop_mt`): each thread takes
  a request from the kernel, runs its handler, and answers; the threads interleave in any way. Cache
  calls are the steps of `Verif.Conc.Model`; a call which has to wait is not a step.
-/
import Verif.MT.Prog
import Verif.FS.Live
namespace Dragonstash.MT
open Cache FS Conc

/-- What a thread is doing. It uses its own number as the name of its transaction.
`recv`: it has got a request. `run`: the transaction is open, the rest of the handler. `committed`: the
commit is done but for giving back the mutex. `answer`: the reply is still to be sent. `leaving`: the
reply was sent, the transaction is still to be destroyed. `left`: destroyed but for giving back
LMDB's lock. `ver`: how many requests had ended when the transaction began (only to state properties). -/
inductive TState where
  | idle
  | recv (rq : Req) (B : Backend)
  | run (rq : Req) (B : Backend) (ver : Nat) (p : Prog)
  | committed (rq : Req) (r : Reply)
  | answer (rq : Req) (r : Reply)
  | leaving (rq : Req) (B : Backend) (ver : Nat) (r : Reply)
  | left (rq : Req)

/-- A request which has ended (its transaction has, if it used one): the answers of the backend, how
many requests had ended when it began, the reply. -/
structure Done where
  rq : Req
  B : Backend
  ver : Nat
  rep : Reply

/-- The cache, the threads, the lookup counts which the kernel holds (it gives them back when it sends
a forget request and gets them when a reply is sent), and, only to state properties: the requests
which have ended, and the answers sent to the kernel. -/
structure MSys where
  w : CWorld
  th : List TState
  held : Ino → Nat
  hist : List Done
  sent : List (Req × Reply)

/-- A reply function is called: libfuse sends the reply, and the kernel counts the lookups. -/
def MSys.send (m : MSys) (rq : Req) (r : Reply) : MSys :=
  { m with held := fun i => m.held i + r.given i, sent := m.sent ++ [(rq, r)] }

def MSys.to (m : MSys) (k : Nat) (t : TState) : MSys := { m with th := m.th.set k t }

/-- Steps of the system; thread `k` makes them. A second reply to a request is not a step: it throws. -/
inductive Step (m : MSys) (k : Nat) : MSys → Prop
  -- the kernel sends a request
  | issue {rq B} : m.th[k]? = some .idle →
      Step m k { m.to k (.recv rq B) with held := fun i => m.held i - rq.returned i }
  -- a request which does not use the cache
  | direct {rq B} : m.th[k]? = some (.recv rq B) → prog B (m.w.disk.treei.size + 4) rq = none →
      Step m k { (m.to k .idle).send rq (directReply rq) with hist := m.hist ++ [⟨rq, B, m.hist.length, directReply rq⟩] }
  | begin_ {rq B P w' out} : m.th[k]? = some (.recv rq B) → prog B (m.w.disk.treei.size + 4) rq = some P →
      m.w.step (if readOnly rq then .beginRO k k else .beginRW k k) = .done w' out →
      Step m k { m.to k (.run rq B m.hist.length P) with w := w' }
  | call {rq B v o c w' out} : m.th[k]? = some (.run rq B v (.op o c)) → m.w.step (.on k (.op o)) = .done w' out →
      Step m k { m.to k (.run rq B v (c out)) with w := w' }
  -- commit, then reply
  | commit {rq B v r w' out} : m.th[k]? = some (.run rq B v (.done true [r])) → m.w.step (.on k .commit) = .done w' out →
      Step m k { m.to k (.committed rq r) with w := w', hist := m.hist ++ [⟨rq, B, v, r⟩] }
  | unlock {rq r w' out} : m.th[k]? = some (.committed rq r) → m.w.step (.on k .finish) = .done w' out →
      Step m k { m.to k (.answer rq r) with w := w' }
  | answer {rq r} : m.th[k]? = some (.answer rq r) → Step m k ((m.to k .idle).send rq r)
  -- reply, then destruction of the transaction
  | reply {rq B v r} : m.th[k]? = some (.run rq B v (.done false [r])) → Step m k ((m.to k (.leaving rq B v r)).send rq r)
  | leave {rq B v r w' out} : m.th[k]? = some (.leaving rq B v r) → m.w.step (.on k .drop) = .done w' out →
      Step m k { m.to k (.left rq) with w := w', hist := m.hist ++ [⟨rq, B, v, r⟩] }
  | finish {rq w' out} : m.th[k]? = some (.left rq) → m.w.step (.on k .finish) = .done w' out →
      Step m k { m.to k .idle with w := w' }

/-- After mounting, with `n` threads: databases `d` and reference table `r`. -/
def MSys.start (d : DB) (r : Refs) (n : Nat) : MSys := ⟨CWorld.start d r, List.replicate n .idle, fun _ => 0, [], []⟩

/-- All interleavings, whatever the kernel sends. -/
inductive Steps : MSys → MSys → Prop
  | refl {m} : Steps m m
  | step {m m1 m2 k} : Steps m m1 → Step m1 k m2 → Steps m m2

/-- 64 bit numbers do not run out: lock counts, inode numbers, and the size of directories (generous
bounds). -/
def Room (w : CWorld) : Prop :=
  (∀ i, (w.refs i).nrefs < 2 ^ 63) ∧ w.disk.treei.size < 2 ^ 62 ∧ ∀ n, w.disk.next = some n → n < 2 ^ 62

/-- What the kernel respects. When it sends a request: inode numbers are 64 bit numbers, it does not
give back more lookups than it holds. When the handler begins: it looks up names, and lists, only
where there is a directory, or nothing any more. And a directory of the backend has less than
2^62 entries. -/
inductive Proper (m : MSys) (k : Nat) (m' : MSys) : Prop
  | issue {rq B} : m'.th[k]? = some (.recv rq B) → rq.inRange → (∀ i, rq.returned i ≤ m.held i) →
      (∀ path names e, B.opendir path = .ok (names, e) → names.length < 2 ^ 62) → Proper m k m'
  | begin_ {rq B} : m.th[k]? = some (.recv rq B) → rq.onDir m.w.disk → Proper m k m'
  | other : (∀ rq B, m.th[k]? ≠ some (.recv rq B)) → (∀ rq B, m'.th[k]? ≠ some (.recv rq B)) → Proper m k m'

/-- Reachable: a filesystem is mounted with a new cache, or again after the process ended or died at
any time; it has any number of threads; then any interleaving, if the kernel behaves. -/
inductive MReach : MSys → Prop
  | mount {uid gid now d r n} : openCleanDB (initDB emptyDB uid gid now) Refs.empty = .ok (d, r) → Room (CWorld.start d r) →
      MReach (MSys.start d r n)
  | remount {m uid gid now d r n} : MReach m → openCleanDB (initDB m.w.disk uid gid now) Refs.empty = .ok (d, r) →
      Room (CWorld.start d r) → MReach (MSys.start d r n)
  | step {m m' k} : MReach m → Step m k m' → Proper m k m' → Room m'.w → MReach m'

end Dragonstash.MT
