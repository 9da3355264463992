/-
  C117: requests which do not change the database can be served in any order.
-/
import Verif.Props.Twice
import Verif.Props.FSLeak
namespace Dragonstash.FS
open Cache Codec
variable {s s' s2 s2' : Tree} {d d' : DB} {r r' r2 r2' : Refs} {y y' y1 y2 : Sys} {B : Backend} {rq : Req} {rep rep' : Reply}

/-! ### Specification -/

/-- A request, with the backend as it is meanwhile, and the reply. -/
structure Task where
  B : Backend
  rq : Req
  rep : Reply

/-- The requests are served one after the other, each with this reply. -/
inductive Serves : Sys → List Task → Sys → Prop
  | nil {z} : Serves z [] z
  | cons {z z1 z2 x l} : Valid z x.B x.rq → Answered z x.B x.rq x.rep z1 → Serves z1 l z2 → Serves z (x :: l) z2

/-- Requests which read, or give back lookups. -/
def Req.reads : Req → Bool
  | .getattr _ | .readdir _ _ _ | .readdirplus _ _ _ | .forget _ _ | .forgetMulti _ | .releasedir _ | .other => true
  | .lookup _ _ | .readlink _ | .opendir _ => false

/-- A request which only reads, or any request while the backend is not connected. -/
def Task.still (x : Task) : Prop := x.rq.reads = true ∨ Offline x.B

/-- The kernel holds the lookups which are given back already at the beginning, and 64 bits suffice for the lock counts (a request takes at most
one lock for every name in the database). -/
def Enough (y : Sys) (l : List Task) : Prop :=
  (∀ i, (l.map (fun x => x.rq.returned i)).sum ≤ y.held i) ∧ ∀ i, (y.refs i).nrefs + (l.length + 1) * (y.disk.treei.size + 4) < W64

/-! ### Proofs -/

theorem off_lookup {p n} (hB : Offline B) (h : Abs B d s r (.lookup p n) rep s' r') :
    (¬ s.Conn p ∧ rep = .err ENOENT ∧ s' = s ∧ r' = r) ∨
    (s.Conn p ∧ ∃ i nd, s.nodes i = some nd ∧ nd.loc = some (p, n) ∧ rep = .entry (osStat i nd.attr) ∧ s' = s ∧ r' = addRef r i) ∨
    (s.Conn p ∧ (∀ i, ¬ s.At p n i) ∧ rep = .err (if 503 < n.length then ENAMETOOLONG else if testFlag d p SYNCED = .ok true then ENOENT else EIO) ∧ s' = s ∧ r' = r) := by
  cases h with
  | lkGone h1 => exact .inl ⟨h1, rfl, rfl, rfl⟩
  | lkBad h1 h2 => rw [hB.lstat] at h2; cases h2
  | lkPut h1 h2 => rw [hB.lstat] at h2; cases h2
  | lkHit h1 h2 h3 h4 => exact .inr (.inl ⟨⟨_, h1⟩, _, _, h3, h4, rfl, rfl, rfl⟩)
  | lkMiss h1 h2 h3 => exact .inr (.inr ⟨⟨_, h1⟩, h3, rfl, rfl, rfl⟩)
  | lkErr h1 h2 h3 => rw [hB.lstat] at h2; cases h2; exact absurd rfl h3
  | lkErrMiss h1 h2 h3 => rw [hB.lstat] at h2; cases h2; exact absurd rfl h3

theorem off_readlink {i} (hB : Offline B) (h : Abs B d s r (.readlink i) rep s' r') :
    ((¬ s.Conn i ∧ rep = .err ENOENT) ∨ (s.Conn i ∧ ∃ nd t, s.nodes i = some nd ∧ nd.target = some t ∧ rep = .readlink (cstr t)) ∨
    (s.Conn i ∧ ∃ nd, s.nodes i = some nd ∧ nd.target = none ∧ rep = .err EINVAL)) ∧ s' = s ∧ r' = r := by
  cases h with
  | rlGone h1 => exact ⟨.inl ⟨h1, rfl⟩, rfl, rfl⟩
  | rlPut h1 h2 => rw [hB.readlink] at h2; cases h2
  | rlOther h1 h2 => rw [hB.readlink] at h2; cases h2
  | rlHit h1 h2 h3 h4 => exact ⟨.inr (.inl ⟨⟨_, h1⟩, _, _, h3, h4, rfl⟩), rfl, rfl⟩
  | rlMiss h1 h2 h3 h4 => exact ⟨.inr (.inr ⟨⟨_, h1⟩, _, h3, h4, rfl⟩), rfl, rfl⟩
  | rlErr h1 h2 h3 => rw [hB.readlink] at h2; cases h2; exact absurd rfl h3
  | rlErrRoot h2 h3 => rw [hB.readlink] at h2; cases h2; exact absurd rfl h3

theorem off_opendir {i} (hB : Offline B) (h : Abs B d s r (.opendir i) rep s' r') :
    ((¬ s.Conn i ∧ rep = .err ENOENT) ∨ (s.Conn i ∧ rep = .opened)) ∧ s' = s ∧ r' = r := by
  cases h with
  | odGone h1 => exact ⟨.inl ⟨h1, rfl⟩, rfl, rfl⟩
  | odOff h1 => exact ⟨.inr ⟨⟨_, h1⟩, rfl⟩, rfl, rfl⟩
  | odErr h1 h2 h3 => rw [hB.opendir] at h2; cases h2; exact absurd rfl h3
  | odSync h1 h2 => rw [hB.opendir] at h2; cases h2

/-- Such a request leaves the tree, and what is doomed. -/
theorem abs_still (h : Abs B d s r rq rep s' r') (hs : rq.reads = true ∨ Offline B) : s' = s ∧ ∀ i, (r' i).doomed = (r i).doomed := by
  cases rq with
  | lookup p n =>
    rcases hs with hs | hB
    · cases hs
    rcases off_lookup hB h with ⟨-, -, rfl, rfl⟩ | ⟨-, i, nd, -, -, -, rfl, rfl⟩ | ⟨-, -, -, rfl, rfl⟩
    · exact ⟨rfl, fun _ => rfl⟩
    · exact ⟨rfl, fun _ => addRef_doomed _ _ _⟩
    · exact ⟨rfl, fun _ => rfl⟩
  | readlink i =>
    rcases hs with hs | hB
    · cases hs
    obtain ⟨-, rfl, rfl⟩ := off_readlink hB h
    exact ⟨rfl, fun _ => rfl⟩
  | opendir i =>
    rcases hs with hs | hB
    · cases hs
    obtain ⟨-, rfl, rfl⟩ := off_opendir hB h
    exact ⟨rfl, fun _ => rfl⟩
  | forget i n => cases h; exact ⟨rfl, fun _ => subRef_doomed _ _ _ _⟩
  | forgetMulti l => cases h; exact ⟨rfl, fun _ => foldl_subRef_doomed _ _ _⟩
  | getattr i => cases h <;> exact ⟨rfl, fun _ => rfl⟩
  | readdir i size off => cases h <;> exact ⟨rfl, fun _ => rfl⟩
  | readdirplus i size off =>
    cases h with
    | plAll => exact ⟨rfl, fun _ => plusRefs_doomed _ _ _⟩
    | plZero => exact ⟨rfl, fun _ => rfl⟩
    | plPart => exact ⟨rfl, fun _ => plusRefs_doomed _ _ _⟩
  | releasedir i => cases h; exact ⟨rfl, fun _ => rfl⟩
  | other => cases h; exact ⟨rfl, fun _ => rfl⟩

/-- The reply does not depend on the reference table. -/
theorem abs_reply (ok : s.OK) (h : Abs B d s r rq rep s' r') (h' : Abs B d s r2 rq rep' s2' r2') (hs : rq.reads = true ∨ Offline B) : rep' = rep := by
  cases rq with
  | lookup p n =>
    rcases hs with hs | hB
    · cases hs
    rcases off_lookup hB h with ⟨h1, rfl, -, -⟩ | ⟨h1, i, nd, h2, h3, rfl, -, -⟩ | ⟨h1, h2, rfl, -, -⟩ <;>
      rcases off_lookup hB h' with ⟨k1, rfl, -, -⟩ | ⟨k1, i', nd', k2, k3, rfl, -, -⟩ | ⟨k1, k2, rfl, -, -⟩
    all_goals first | rfl | exact absurd h1 k1 | exact absurd k1 h1 | skip
    · obtain rfl := at_unique ok ⟨_, h2, h3⟩ ⟨_, k2, k3⟩
      rw [h2] at k2; cases k2; rfl
    · exact absurd ⟨_, h2, h3⟩ (k2 i)
    · exact absurd ⟨_, k2, k3⟩ (h2 i')
  | readlink i =>
    rcases hs with hs | hB
    · cases hs
    rcases (off_readlink hB h).1 with ⟨h1, rfl⟩ | ⟨h1, nd, t, h2, h3, rfl⟩ | ⟨h1, nd, h2, h3, rfl⟩ <;>
      rcases (off_readlink hB h').1 with ⟨k1, rfl⟩ | ⟨k1, nd', t', k2, k3, rfl⟩ | ⟨k1, nd', k2, k3, rfl⟩
    all_goals first | rfl | exact absurd h1 k1 | exact absurd k1 h1 | skip
    all_goals (rw [h2] at k2; cases k2; rw [h3] at k3; cases k3 <;> rfl)
  | opendir i =>
    rcases hs with hs | hB
    · cases hs
    rcases (off_opendir hB h).1 with ⟨h1, rfl⟩ | ⟨h1, rfl⟩ <;> rcases (off_opendir hB h').1 with ⟨k1, rfl⟩ | ⟨k1, rfl⟩
    all_goals first | rfl | exact absurd h1 k1 | exact absurd k1 h1
  | forget i n => cases h; cases h'; rfl
  | forgetMulti l => cases h; cases h'; rfl
  | getattr i =>
    cases h with
    | gaHit h1 => cases h' with
      | gaHit k1 => rw [h1] at k1; cases k1; rfl
      | gaMiss k1 => rw [h1] at k1; cases k1
    | gaMiss h1 => cases h' with
      | gaHit k1 => rw [h1] at k1; cases k1
      | gaMiss k1 => rfl
  | readdir i size off =>
    cases h with
    | rdEof h1 => cases h' with
      | rdEof k1 => obtain ⟨rfl, -, -⟩ := stream_unique h1 k1; rfl
      | rdPart k0 k1 k2 => exact nomatch (stream_unique h1 k1).2.2
    | rdPart h0 h1 h2 => cases h' with
      | rdEof k1 => exact nomatch (stream_unique h1 k1).2.2
      | rdPart k0 k1 k2 => obtain ⟨rfl, -, -⟩ := stream_unique h1 k1; rfl
  | readdirplus i size off =>
    have len : ∀ {P Q : List Ent} {x : Ent}, P.map Ent.dent = (P ++ x :: Q).map Ent.dent → False := by
      intro P Q x he
      have := congrArg List.length he
      simp only [List.length_map, List.length_append, List.length_cons] at this
      omega
    cases h with
    | plAll h1 h2 h3 h4 h5 => cases h' with
      | plAll k1 k2 k3 k4 k5 => obtain ⟨rfl, rfl, -⟩ := stream_unique h1 k1; rfl
      | plZero => exact absurd h5 (by decide)
      | plPart k1 k2 k3 k4 k5 =>
        obtain ⟨rfl, rfl, -⟩ := stream_unique h1 k1
        rw [h2] at k2; exact (len k2.symm).elim
    | plZero => cases h' with
      | plAll k1 k2 k3 k4 k5 => exact absurd k5 (by decide)
      | plZero => rfl
      | plPart k1 k2 k3 k4 k5 => exact absurd k5 (by decide)
    | plPart h1 h2 h3 h4 h5 => cases h' with
      | plAll k1 k2 k3 k4 k5 =>
        obtain ⟨rfl, rfl, -⟩ := stream_unique h1 k1
        rw [h2] at k2; exact (len k2).elim
      | plZero => exact absurd h5 (by decide)
      | plPart k1 k2 k3 k4 k5 =>
        obtain ⟨e, -, -⟩ := stream_unique h1 k1
        rw [← e, h2] at k2
        rw [k2]
  | releasedir i => cases h; cases h'; rfl
  | other => cases h; cases h'; rfl

/-- `readdir` does not look at the reference table. -/
theorem answered_readdir {dir size off} (ha : Answered y B (.readdir dir size off) rep y1) (hd : y2.disk = y.disk) :
    ∃ y', Answered y2 B (.readdir dir size off) rep y' := by
  obtain ⟨st, h1, h2, h3, -⟩ := ha
  have key : ∃ st', dispatch B y2.disk y2.refs (.readdir dir size off) = .ok st' ∧ st'.fault = st.fault ∧ st'.sent = st.sent := by
    rw [hd]
    revert h1
    unfold dispatch
    simp only [handle]
    unfold readdir
    cases readdirLoop y.disk dir size (y.disk.treei.size + 4) off [] 0 with
    | error e => intro h; cases h
    | ok pg =>
      intro h1
      by_cases he : pg.error = 0 <;> by_cases hc : pg.atEof = true ∧ bufLen 24 pg.buf = 0 ∧ testFlag y.disk dir SYNCED ≠ .ok true
      all_goals
        simp [bind, Except.bind, pure, Except.pure, he, hc, St.reply, St.finish] at h1 ⊢
        subst h1
        exact ⟨rfl, rfl⟩
  obtain ⟨st', g1, g2, g3⟩ := key
  exact ⟨_, st', g1, g2.trans h2, g3.trans h3, rfl⟩

theorem still_step {x : Task} (hy : Live y) (hv : Valid y x.B x.rq) (ha : Answered y x.B x.rq x.rep y1) (hs : x.still) :
    y1.disk = y.disk ∧ (∀ i, (y1.refs i).doomed = (y.refs i).doomed) ∧ (∀ i, (y1.refs i).nrefs ≤ (y.refs i).nrefs + y.disk.treei.size + 2) ∧
    ∀ i, y1.held i = y.held i + x.rep.given i - x.rq.returned i := by
  obtain ⟨s, h1, -⟩ := live_inv hy
  obtain ⟨s1, h2, h3⟩ := ha.abs h1 hy hv
  obtain ⟨rfl, g2⟩ := abs_still h3 hs
  refine ⟨h2.rep.unique h1.rep, g2, fun i => abs_counts_le h3 i, fun i => ?_⟩
  obtain ⟨st, k1, k2, k3, rfl⟩ := ha
  show heldAfter _ _ _ _ = _
  unfold heldAfter
  rw [k3]; simp

/-- The same request in another state with the same database gets the same reply. -/
theorem still_elsewhere {x : Task} (hy : Live y) (hv : Valid y x.B x.rq) (ha : Answered y x.B x.rq x.rep y1) (hs : x.still)
    (hy2 : Live y2) (hv2 : Valid y2 x.B x.rq) (hd : y2.disk = y.disk) : ∃ y', Answered y2 x.B x.rq x.rep y' := by
  by_cases hrd : ∃ dir size off, x.rq = .readdir dir size off
  · obtain ⟨dir, size, off, e⟩ := hrd
    rw [e] at ha ⊢
    exact answered_readdir ha hd
  · obtain ⟨s, h1, -⟩ := live_inv hy
    obtain ⟨s1, h2, h3⟩ := ha.abs h1 hy hv
    obtain ⟨t, k1, -⟩ := live_inv hy2
    obtain ⟨rep', y', t', g1, g2, g3⟩ := answered_of k1 hy2 hv2 (fun dir size off e => absurd ⟨dir, size, off, e⟩ hrd)
    have hst : t = s := by
      have k2 := k1.rep
      rw [hd] at k2
      exact k2.inj k1.ok h1.rep h1.ok
    subst hst
    rw [hd] at g3
    have := abs_reply h1.ok h3 g3 hs
    subst this
    exact ⟨y', g1⟩

theorem valid_at {x : Task} (hv : Valid y1 x.B x.rq) (hd : y2.disk = y1.disk) (hr : ∀ i, x.rq.returned i ≤ y2.held i)
    (hc : ∀ i, (y2.refs i).nrefs + y2.disk.treei.size + 4 < W64) : Valid y2 x.B x.rq := by
  obtain ⟨h1, h2, -, h4, -⟩ := hv
  refine ⟨h1, by rw [hd]; exact h2, hr, by rw [hd]; exact h4, hc⟩

theorem lostBy_disk (hd : y2.disk = y1.disk) (rq : Req) (rep : Reply) (i : Ino) : lostBy y2 rq rep i = lostBy y1 rq rep i := by
  unfold lostBy; rw [hd]

theorem Enough.next {x : Task} {l : List Task} (h : Enough y (x :: l)) (h1 : y1.disk = y.disk) (h2 : ∀ i, (y1.refs i).nrefs ≤ (y.refs i).nrefs + y.disk.treei.size + 2)
    (h3 : ∀ i, y1.held i = y.held i + x.rep.given i - x.rq.returned i) : Enough y1 l := by
  refine ⟨fun i => ?_, fun i => ?_⟩
  · have := h.1 i
    rw [List.map_cons, List.sum_cons] at this
    rw [h3]; omega
  · have := h.2 i
    rw [List.length_cons, Nat.succ_mul] at this
    have := h2 i
    rw [h1]; omega

theorem Enough.room {l : List Task} (h : Enough y l) (i : Ino) : (y.refs i).nrefs + y.disk.treei.size + 4 < W64 := by
  have := h.2 i
  rw [Nat.succ_mul] at this
  omega

theorem Enough.perm {l l' : List Task} (h : Enough y l) (hp : l.Perm l') : Enough y l' :=
  ⟨fun i => by rw [← (hp.map (fun x => x.rq.returned i)).sum_nat]; exact h.1 i, fun i => by rw [← hp.length_eq]; exact h.2 i⟩

/-! ### C117 -/

/-- **C117.** Requests which only read or give back lookups, and while the backend is not connected all requests, can be served in any order:
each gets the same reply, and the filesystem ends up in the same state. -/
theorem C117_any_order {l l' : List Task} (hp : l.Perm l') (hy : Live y) (hs : ∀ x ∈ l, x.still) (he : Enough y l) (h : Serves y l y') : Serves y l' y' := by
  induction hp generalizing y y' with
  | nil => exact h
  | cons x hp ih =>
    cases h with
    | cons h1 h2 h3 =>
      obtain ⟨k1, k2, k3, k4⟩ := still_step hy h1 h2 (hs x (by simp))
      exact .cons h1 h2 (ih (h2.live hy h1) (fun z hz => hs z (by simp [hz])) (he.next k1 k3 k4) h3)
  | trans hp1 hp2 ih1 ih2 =>
    exact ih2 hy (fun x hx => hs x (hp1.mem_iff.mpr hx)) (he.perm hp1) (ih1 hy hs he h)
  | swap a b l =>
    cases h with
    | @cons _ y1 _ _ _ h1 h2 h3 => cases h3 with
    | @cons _ y2 _ _ _ h4 h5 h6 =>
      have sb : b.still := hs b (by simp)
      have sa : a.still := hs a (by simp)
      have hy1 := h2.live hy h1
      obtain ⟨k1, k2, k3, k4⟩ := still_step hy h1 h2 sb
      obtain ⟨l1, l2, l3, l4⟩ := still_step hy1 h4 h5 sa
      have hret : ∀ i, b.rq.returned i + a.rq.returned i ≤ y.held i := by
        intro i
        have := he.1 i
        simp only [List.map_cons, List.sum_cons] at this
        omega
      have hv1 : Valid y a.B a.rq := valid_at h4 k1.symm (fun i => by have := hret i; omega) he.room
      obtain ⟨z1, g1⟩ := still_elsewhere hy1 h4 h5 sa hy hv1 k1.symm
      have hz1 := g1.live hy hv1
      obtain ⟨m1, m2, m3, m4⟩ := still_step hy hv1 g1 sa
      have hv2 : Valid z1 b.B b.rq := valid_at h1 m1 (fun i => by have := hret i; rw [m4]; omega) (fun i => by
        have := he.2 i
        simp only [List.length_cons, Nat.succ_mul, Nat.add_mul] at this
        have := m3 i
        rw [m1]; omega)
      obtain ⟨z2, g2⟩ := still_elsewhere hy h1 h2 sb hz1 hv2 m1
      obtain ⟨n1, n2, n3, n4⟩ := still_step hz1 hv2 g2 sb
      have hz : z2 = y2 := by
        have e1 : z2.disk = y2.disk := by rw [n1, m1, l1, k1]
        have e2 : z2.refs = y2.refs := by
          funext i
          have c1 := C40_step_exact hy h1 h2 i
          have c2 := C40_step_exact hy1 h4 h5 i
          have c3 := C40_step_exact hy hv1 g1 i
          have c4 := C40_step_exact hz1 hv2 g2 i
          rw [lostBy_disk k1] at c2
          rw [lostBy_disk m1] at c4
          have d1 : (z2.refs i).nrefs = (y2.refs i).nrefs := by omega
          have d2 : (z2.refs i).doomed = (y2.refs i).doomed := by rw [n2, m2, l2, k2]
          generalize z2.refs i = u at d1 d2
          generalize y2.refs i = v at d1 d2
          cases u; cases v
          simp only at d1 d2
          rw [d1, d2]
        have e3 : z2.held = y2.held := by
          funext i
          have := hret i
          rw [n4, m4, l4, k4]; omega
        cases z2; cases y2
        simp only at e1 e2 e3
        rw [e1, e2, e3]
      rw [hz] at g2
      exact .cons hv1 g1 (.cons hv2 g2 h6)

/-- **C117.** Giving back lookups in one request is the same as giving them back one by one. -/
theorem C117_batch {l : List (Ino × Nat)} (hy : Live y) (hv : Valid y B (.forgetMulti l)) (ha : Answered y B (.forgetMulti l) rep y1) :
    rep = .none ∧ Serves y (l.map (fun x => ⟨B, .forget x.1 x.2, .none⟩)) y1 := by
  have one : ∀ {z : Sys} {i : Ino} {n : Nat}, Live z → Valid z B (.forget i n) →
      Answered z B (.forget i n) .none ⟨z.disk, subRef z.refs i n, fun j => z.held j - if i = j then n else 0⟩ := by
    intro z i n hz hvz
    obtain ⟨s, h1, -⟩ := live_inv hz
    obtain ⟨rep, z', s', g1, g2, g3⟩ := answered_of h1 hz hvz (fun _ _ _ h => by cases h)
    obtain ⟨st, k1, k2, k3, rfl⟩ := id g1
    have e : (Sys.after z (.forget i n) st).refs = st.refs := rfl
    have e' : (Sys.after z (.forget i n) st).disk = st.disk := rfl
    rw [e] at g3 g2; rw [e'] at g2
    have g4 : rep = .none ∧ s' = s ∧ st.refs = subRef z.refs i n := by
      generalize st.refs = r' at g3
      cases g3; exact ⟨rfl, rfl, rfl⟩
    obtain ⟨rfl, rfl, g4⟩ := g4
    refine ⟨st, k1, k2, k3, ?_⟩
    unfold Sys.after
    rw [g4, g2.rep.unique h1.rep]
    congr 1
    funext j
    unfold heldAfter
    rw [k3]
    rfl
  have all : ∀ (l : List (Ino × Nat)) (z : Sys), Live z → Valid z B (.forgetMulti l) →
      Serves z (l.map (fun x => ⟨B, .forget x.1 x.2, .none⟩)) ⟨z.disk, l.foldl (fun r x => subRef r x.1 x.2) z.refs, fun j => z.held j - Req.returned j (.forgetMulti l)⟩ := by
    intro l
    induction l with
    | nil => intro z hz hvz; exact .nil
    | cons x l ih =>
      intro z hz hvz
      obtain ⟨h1, h2, h3, h4, h5⟩ := hvz
      have hsum : ∀ j, Req.returned j (.forgetMulti (x :: l)) = (if x.1 = j then x.2 else 0) + Req.returned j (.forgetMulti l) := by
        intro j
        simp only [Req.returned, List.filter_cons]
        by_cases hj : x.1 = j
        · simp [hj]
        · simp [hj]
      have hvx : Valid z B (.forget x.1 x.2) := by
        refine ⟨h1 x (by simp), trivial, fun j => ?_, h4, h5⟩
        have := h3 j
        rw [hsum] at this
        show (if x.1 = j then x.2 else 0) ≤ _
        omega
      have h6 := one hz hvx
      refine .cons (x := ⟨B, .forget x.1 x.2, .none⟩) hvx h6 ?_
      have h7 := ih _ (h6.live hz hvx) (by
        refine ⟨fun w hw => h1 w (by simp [hw]), trivial, fun j => ?_, h4, fun j => ?_⟩
        · have := h3 j
          rw [hsum] at this
          show _ ≤ z.held j - if x.1 = j then x.2 else 0
          omega
        · have := h5 j
          show (subRef z.refs x.1 x.2 j).nrefs + _ + 4 < W64
          rw [subRef_count]
          show _ + z.disk.treei.size + 4 < W64
          omega)
      have e : (fun j => z.held j - Req.returned j (.forgetMulti (x :: l))) = fun j => (z.held j - if x.1 = j then x.2 else 0) - Req.returned j (.forgetMulti l) := by
        funext j; rw [hsum]; omega
      rw [e]
      exact h7
  obtain ⟨s, h1, -⟩ := live_inv hy
  obtain ⟨s1, h2, h3⟩ := ha.abs h1 hy hv
  have g : rep = .none ∧ s1 = s ∧ y1.refs = l.foldl (fun r x => subRef r x.1 x.2) y.refs := by
    generalize y1.refs = r' at h3
    cases h3; exact ⟨rfl, rfl, rfl⟩
  obtain ⟨rfl, rfl, g⟩ := g
  have := all l y hy hv
  refine ⟨rfl, ?_⟩
  have e : y1 = ⟨y.disk, l.foldl (fun r x => subRef r x.1 x.2) y.refs, fun j => y.held j - Req.returned j (.forgetMulti l)⟩ := by
    have e1 := h2.rep.unique h1.rep
    obtain ⟨st, k1, k2, k3, rfl⟩ := ha
    unfold Sys.after
    rw [← g, ← e1]
    show (⟨st.disk, st.refs, _⟩ : Sys) = ⟨st.disk, st.refs, _⟩
    congr 1
    funext j
    unfold heldAfter
    rw [k3]
    rfl
  rw [e]; exact this

/-! ### Examples -/

/-- Serves requests from a checked state; the tasks with their replies. -/
def orderB (y : Sys) (cap : Nat) : List (Tbl × Req) → Option (Sys × List Reply)
  | [] => some (y, [])
  | x :: l =>
    match demoFS y cap [] [.req x.1 x.2] with
    | some (y1, cap1, [rep]) => (orderB y1 cap1 l).map (fun z => (z.1, rep :: z.2))
    | _ => none

theorem orderB_serves : ∀ {l : List (Tbl × Req)} {y y' : Sys} {cap : Nat} {reps : List Reply}, Live y → (∀ i, (y.refs i).nrefs ≤ cap) →
    orderB y cap l = some (y', reps) → Serves y ((l.zip reps).map (fun x => ⟨x.1.1.backend, x.1.2, x.2⟩)) y' := by
  intro l
  induction l with
  | nil => intro y y' cap reps hy hc h; cases h; exact .nil
  | cons x l ih =>
    intro y y' cap reps hy hc h
    unfold orderB at h
    split at h
    · rename_i y1 cap1 rep h1
      obtain ⟨a1, a2, a3, a4⟩ := demoFS_once hy hc h1
      cases ho : orderB y1 cap1 l with
      | none => rw [ho] at h; cases h
      | some z =>
        obtain ⟨z1, z2⟩ := z
        rw [ho] at h; cases h
        exact .cons a1 a2 (ih a3 a4 ho)
    · cases h

theorem order_ex {a : List Act} {l : List (Tbl × Req)} {P : Sys → Nat → List Reply → Bool}
    (h : (match demoRun a with | some (y, cap, _) => (match orderB y cap l with | some (_, reps) => P y cap reps | none => false) | none => false) = true) :
    ∃ y y' cap reps, Live y ∧ (∀ i, (y.refs i).nrefs ≤ cap) ∧ Serves y ((l.zip reps).map (fun x => ⟨x.1.1.backend, x.1.2, x.2⟩)) y' ∧ P y cap reps = true := by
  cases hd : demoRun a with
  | none => rw [hd] at h; cases h
  | some x =>
    obtain ⟨y, cap, o⟩ := x
    rw [hd] at h
    simp only at h
    obtain ⟨hy, hc⟩ := demoRun_live hd
    cases ho : orderB y cap l with
    | none => rw [ho] at h; cases h
    | some z =>
      obtain ⟨y', reps⟩ := z
      rw [ho] at h
      exact ⟨y, y', cap, reps, hy, hc, orderB_serves hy hc ho, h⟩

/-- The hypotheses of `C117_any_order` can be met: a page of a listing, a lookup while the backend is not connected, a lookup which is given
back, and the attributes of a directory; the replies, and the same in another order. -/
example : ∃ y y' a b, Live y ∧ Serves y [⟨tblA.backend, .readdirplus 1 400 0, a⟩, ⟨Tbl.offline.backend, .lookup 1 [0x61], b⟩, ⟨tblA.backend, .forget 2 1, .none⟩] y' ∧
    Enough y [⟨tblA.backend, .readdirplus 1 400 0, a⟩, ⟨Tbl.offline.backend, .lookup 1 [0x61], b⟩, ⟨tblA.backend, .forget 2 1, .none⟩] ∧
    (∀ x ∈ [(⟨tblA.backend, .readdirplus 1 400 0, a⟩ : Task), ⟨Tbl.offline.backend, .lookup 1 [0x61], b⟩, ⟨tblA.backend, .forget 2 1, .none⟩], x.still) ∧
    (∃ l n, a = .bufPlus l n ∧ l ≠ []) ∧ (∃ st, b = .entry st) ∧
    Serves y [⟨tblA.backend, .forget 2 1, .none⟩, ⟨Tbl.offline.backend, .lookup 1 [0x61], b⟩, ⟨tblA.backend, .readdirplus 1 400 0, a⟩] y' := by
  obtain ⟨y, y', cap, reps, hy, hc, hs, hp⟩ := order_ex (a := [.req tblA (.opendir 1), .req tblA (.lookup 1 [0x61])])
    (l := [(tblA, .readdirplus 1 400 0), (Tbl.offline, .lookup 1 [0x61]), (tblA, .forget 2 1)])
    (P := fun y cap reps => decide (cap + 4 * (y.disk.treei.size + 4) < W64 ∧ y.held 2 = 1) && match reps with
      | [.bufPlus (_ :: _) _, .entry _, .none] => true
      | _ => false) (by decide +kernel)
  rw [Bool.and_eq_true, decide_eq_true_eq] at hp
  obtain ⟨⟨h1, h2⟩, h3⟩ := hp
  split at h3
  · rename_i e l n st
    have he : Enough y [⟨tblA.backend, .readdirplus 1 400 0, .bufPlus (e :: l) n⟩, ⟨Tbl.offline.backend, .lookup 1 [0x61], .entry st⟩, ⟨tblA.backend, .forget 2 1, .none⟩] := by
      refine ⟨fun i => ?_, fun i => ?_⟩
      · simp only [List.map_cons, List.map_nil, List.sum_cons, List.sum_nil, Req.returned]
        by_cases hi : 2 = i
        · subst hi; simp; omega
        · simp [hi]
      · have := hc i
        simp only [List.length_cons, List.length_nil]
        omega
    have hst : ∀ x ∈ [(⟨tblA.backend, .readdirplus 1 400 0, .bufPlus (e :: l) n⟩ : Task), ⟨Tbl.offline.backend, .lookup 1 [0x61], .entry st⟩, ⟨tblA.backend, .forget 2 1, .none⟩], x.still := by
      intro x hx
      simp only [List.mem_cons, List.not_mem_nil, or_false] at hx
      rcases hx with rfl | rfl | rfl
      · exact .inl rfl
      · exact .inr offline_tbl
      · exact .inl rfl
    refine ⟨y, y', _, _, hy, hs, he, hst, ⟨_, _, rfl, by simp⟩, ⟨_, rfl⟩, C117_any_order ?_ hy hst he hs⟩
    exact List.reverse_perm _ |>.symm
  · cases h3

/-- The hypotheses of `C117_batch` can be met. -/
example : ∃ y y1, Live y ∧ Valid y tblA.backend (.forgetMulti [(2, 1), (3, 2)]) ∧ Answered y tblA.backend (.forgetMulti [(2, 1), (3, 2)]) .none y1 ∧ y.held 2 = 2 ∧ y.held 3 = 2 := by
  obtain ⟨y, y', cap, reps, hy, hc, hs, hp⟩ := order_ex (a := [.req tblA (.opendir 1), .req tblA (.lookup 1 [0x61]), .req tblA (.lookup 1 [0x61]), .req tblA (.lookup 1 [0x6c]), .req tblA (.lookup 1 [0x6c])])
    (l := [(tblA, .forgetMulti [(2, 1), (3, 2)])])
    (P := fun y _ reps => decide (y.held 2 = 2 ∧ y.held 3 = 2) && match reps with | [.none] => true | _ => false) (by decide +kernel)
  rw [Bool.and_eq_true, decide_eq_true_eq] at hp
  obtain ⟨⟨h1, h2⟩, h3⟩ := hp
  split at h3
  · cases hs with
    | cons g1 g2 g3 => exact ⟨y, _, hy, g1, g2, h1, h2⟩
  · cases h3

end Dragonstash.FS
