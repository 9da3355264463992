/-
  C37, C38, C40, C41, C42: replies, offline operation, backend errors, lookup counts.
-/
import Verif.FS.Facts
namespace Dragonstash.FS
open Cache Codec
variable {y y' : Sys} {B : Backend} {rq : Req} {rep : Reply}

/-- A live system with a valid request and its answer, by a checked history (for examples only). -/
theorem demoFS_ask {l : List Act} {t : Tbl} {rq : Req} {rep : Reply} {P : Sys → Sys → Prop} [∀ y y', Decidable (P y y')]
    (h : (match demoRun l with
      | some (y, cap, _) => validB y cap t rq && (match dispatch t.backend y.disk y.refs rq with
        | .ok st => st.fault.isNone && decide (st.sent = [rep]) && decide (P y (y.after rq st))
        | .error _ => false)
      | none => false) = true) : ∃ y y', Live y ∧ Valid y t.backend rq ∧ Answered y t.backend rq rep y' ∧ P y y' := by
  split at h
  · rename_i y cap out hw
    rw [Bool.and_eq_true] at h
    obtain ⟨h0, h⟩ := h
    split at h
    · rename_i st hs
      simp only [Bool.and_eq_true, decide_eq_true_eq] at h
      exact ⟨y, y.after rq st, (demoRun_live hw).1, validB_iff (demoRun_live hw).2 h0, ⟨st, hs, by simpa using h.1.1, h.1.2, rfl⟩, h.2⟩
    · cases h
  · cases h

theorem offline_table : Offline Tbl.offline.backend := ⟨fun _ _ => rfl, fun _ => rfl, fun _ => rfl⟩

/-! ### C41 every request is answered exactly once -/

/-- Requests to which the kernel expects no answer (fuse_lowlevel.h: forget, forget_multi). -/
def Req.silent : Req → Prop
  | .forget _ _ => True
  | .forgetMulti _ => True
  | _ => False

/-- The full property: exactly one reply function is called, and it is `reply_none`, which sends
nothing, for just those requests which have no answer. -/
def C41_full : Prop := ∀ (y : Sys) (B : Backend) (rq : Req), Live y → Valid y B rq → ∃ rep y', Answered y B rq rep y' ∧ (rep = .none ↔ rq.silent)

/-- It is false: `readdir` on a directory which was removed while the kernel still holds it replies
twice; the second reply throws. -/
theorem C41_counterexample : ¬ C41_full := by
  intro h
  obtain ⟨y, h1, h2, h3⟩ := demoFS_valid (l := [.req tblA (.lookup 1 [0x61]), .req {} (.lookup 1 [0x61])]) (t := tblA) (rq := .readdir 2 4096 0)
    (P := fun y => (match dispatch tblA.backend y.disk y.refs (.readdir 2 4096 0) with | .ok st => st.fault.isSome | .error _ => false) = true)
    (by decide +kernel)
  obtain ⟨rep, y', ⟨st, k1, k2, -⟩, -⟩ := h y _ _ h1 h2
  rw [k1] at h3
  simp only [k2] at h3
  cases h3

/-- Also, `releasedir` is never answered. -/
theorem C41_releasedir_counterexample (y : Sys) (B : Backend) (i : Ino) : ∃ y', Answered y B (.releasedir i) .none y' :=
  ⟨_, done y.disk y.refs .none, rfl, rfl, rfl, rfl⟩

/-- Every request is answered exactly once, except `releasedir`, and `readdir` on a directory without a
parent (one which was unlinked or does not exist any more). -/
theorem C41_one_reply_partial (hl : Live y) (hv : Valid y B rq) (hd : ∀ i, rq ≠ .releasedir i)
    (hr : ∀ dir size off, rq = .readdir dir size off → ∃ p, Cache.parent y.disk dir = .ok p ∧ p ≠ 0) :
    ∃ rep y', Answered y B rq rep y' ∧ (rep = .none ↔ rq.silent) := by
  obtain ⟨s, h1, -⟩ := live_inv hl
  obtain ⟨rep, y', s', h2, -, h3⟩ := answered_of h1 hl hv hr
  refine ⟨rep, y', h2, ?_⟩
  generalize y'.refs = r' at h3
  cases h3 <;> simp only [Req.silent, iff_false, iff_true, reduceCtorEq, not_false_eq_true]
  · split <;> simp
  · split <;> simp
  · exact absurd rfl (hd _)

/-- In all cases exactly one reply function of the request is called. (For `releasedir` it is `reply_none`, which sends nothing; see the other theorems.) -/
theorem C41_sent (hl : Live y) (hv : Valid y B rq) : ∃ st rep, dispatch B y.disk y.refs rq = .ok st ∧ st.sent = [rep] := by
  obtain ⟨s, h1, h2⟩ := live_inv hl
  rcases dispatch_served h1 h2 hv with ⟨s', d', r', rep, g1, -⟩ | ⟨dir, size, off, e, -, -, g1⟩
  · exact ⟨_, rep, g1, rfl⟩
  · exact ⟨_, .err e, g1, rfl⟩

/-- The hypotheses of `C41_one_reply_partial` and of `C41_sent`: a listing of a directory which has a parent. -/
example : ∃ y, Live y ∧ Valid y tblA.backend (.readdir 2 4096 0) ∧ Cache.parent y.disk 2 = .ok 1 :=
  demoFS_valid (l := [.req tblA (.lookup 1 [0x61]), .req tblA (.opendir 2)]) (by decide +kernel)

/-! ### C42 inodes held by the kernel remain accessible -/

/-- `getattr` succeeds for every inode which the kernel holds, in every state. -/
theorem C42_held_exists (hl : Live y) {i : Ino} (hi : 0 < y.held i) (B : Backend) :
    ∃ a, a.ino = i ∧ Answered y B (.getattr i) (.attr a) y := by
  obtain ⟨s, h1, h2⟩ := live_inv hl
  obtain ⟨nd, hnd⟩ := h1.locked i (Nat.lt_of_lt_of_le hi (h2 i))
  refine ⟨osStat i nd.attr, rfl, ?_⟩
  refine ⟨done y.disk y.refs (.attr (osStat i nd.attr)), ?_, rfl, rfl, ?_⟩
  · unfold dispatch; simp only [handle, getattr]; rw [getattr_some h1 hnd]; rfl
  · show y = ⟨y.disk, y.refs, heldAfter y.held (.getattr i) [.attr (osStat i nd.attr)]⟩
    cases y
    simp only [Sys.mk.injEq, true_and]
    funext j; simp [heldAfter, Reply.given, Req.returned]

/-- An inode never changes its file type. -/
theorem C42_format (hl : Live y) (hv : Valid y B rq) (ha : Answered y B rq rep y') {i : Ino} (hi : i < W64) {j j' : Ino} {a a' : Attrs}
    (h1 : Cache.getattr y.disk i = .ok (j, a)) (h2 : Cache.getattr y'.disk i = .ok (j', a')) : fmt a'.mode = fmt a.mode := by
  obtain ⟨s, k1, k2⟩ := live_inv hl
  obtain ⟨s', k3, k4⟩ := ha.abs k1 hl hv
  obtain ⟨r1, k5⟩ := abs_eff k4 k1 hv.1 hv.2.1 (hv.2.2.2.1 _ k1.rep.next).1
  rw [k1.rep.getattr k1.ok hi] at h1
  rw [k3.rep.getattr k3.ok hi] at h2
  cases hn : s.nodes i with
  | none => rw [hn] at h1; cases h1
  | some nd =>
    cases hn' : s'.nodes i with
    | none => rw [hn'] at h2; cases h2
    | some nd' =>
      rw [hn] at h1; rw [hn'] at h2; cases h1; cases h2
      exact eff_fmt k5 k1.ok hn hn'

/-- The hypotheses of `C42_held_exists`: the kernel holds the directory, whose name has been removed meanwhile. -/
example : ∃ y, Live y ∧ y.held 2 = 1 ∧ Cache.parent y.disk 2 = .ok 0 :=
  demoFS_ex (l := [.req tblA (.lookup 1 [0x61]), .req {} (.lookup 1 [0x61])]) (by decide +kernel)

/-- The hypotheses of `C42_format`: the directory `a` is a file now, and the kernel still holds inode 2. -/
example : ∃ y y', Live y ∧ Valid y ({ stats := [([0x2f, 0x61], .ok (bFile 5))] } : Tbl).backend (.lookup 1 [0x61]) ∧
    Answered y ({ stats := [([0x2f, 0x61], .ok (bFile 5))] } : Tbl).backend (.lookup 1 [0x61]) (.entry (osStat 3 (fromBackend (bFile 5)))) y' ∧
    (Cache.getattr y.disk 2 = .ok (2, fromBackend bDir) ∧ Cache.getattr y'.disk 2 = .ok (2, fromBackend bDir) ∧ Cache.lookup y'.disk 1 [0x61] = .ok (.ok 3)) :=
  demoFS_ask (l := [.req tblA (.lookup 1 [0x61])]) (by decide +kernel)

/-! ### C40 lookup counts -/

/-- Locks are never fewer than the lookups the kernel holds. -/
theorem C40_at_least (hl : Live y) (i : Ino) : y.held i ≤ (y.refs i).nrefs := by
  obtain ⟨s, -, h⟩ := live_inv hl; exact h i

/-- The full property: the lock count is the number of lookups which the kernel holds. -/
def C40_full : Prop := ∀ (y : Sys), Live y → ∀ i, y.held i = (y.refs i).nrefs

/-- It is false: `readdirplus` takes a lock for an entry which does not fit into the reply. -/
theorem C40_counterexample : ¬ C40_full := by
  intro h
  obtain ⟨y, h1, h2⟩ := demoFS_ex (l := [.req tblA (.opendir 1), .req tblA (.readdirplus 1 200 0)])
    (P := fun y => y.held 2 = 0 ∧ (y.refs 2).nrefs = 1) (by decide +kernel)
  have := h y h1 2
  omega

/-- Every request other than `readdirplus` changes the lock counts by exactly what the reply gives to
the kernel and what the request gives back. -/
theorem C40_step (hl : Live y) (hv : Valid y B rq) (ha : Answered y B rq rep y') (hp : ∀ dir size off, rq ≠ .readdirplus dir size off) (i : Ino) :
    (y'.refs i).nrefs + rq.returned i = (y.refs i).nrefs + rep.given i := by
  obtain ⟨s, k1, k2⟩ := live_inv hl
  obtain ⟨s', k3, k4⟩ := ha.abs k1 hl hv
  exact (abs_counts k4 (fun j => Nat.le_trans (hv.2.2.1 j) (k2 j)) i).2 hp

/-- `readdirplus` on a directory which has a parent takes locks for the entries it returns, and at
most one lock for one further inode. -/
theorem C40_readdirplus {dir : Ino} {size off : Nat} (hl : Live y) (hv : Valid y B (.readdirplus dir size off))
    (hd : ∃ p, Cache.parent y.disk dir = .ok p ∧ p ≠ 0) (ha : Answered y B (.readdirplus dir size off) rep y') :
    (∀ i, (y'.refs i).nrefs = (y.refs i).nrefs + rep.given i) ∨
    ∃ x, ∀ i, (y'.refs i).nrefs = (y.refs i).nrefs + rep.given i + if i = x then 1 else 0 := by
  obtain ⟨s, k1, k2⟩ := live_inv hl
  obtain ⟨s', k3, k4⟩ := ha.abs k1 hl hv
  have hlk := (linked_iff k1 hv.1.1).mpr hd
  generalize hy : y'.refs = r' at *
  cases k4 with
  | @plAll _ _ _ l e b h1 h2 h3 h4 =>
    left
    intro i
    obtain ⟨l', e', b', g1, -, -, g4, -⟩ := stream_exists k1 (dir := dir) (c := off) hv.1.1
    have he : e = 0 := by
      have huniq : ∀ {c l e b l' e' b'}, Stream y.disk dir c l e b → Stream y.disk dir c l' e' b' → e = e' := by
        intro c l e b l' e' b' h h'
        induction h generalizing l' e' b' with
        | stop h =>
          cases h' with
          | stop g => rw [h] at g; cases g; rfl
          | noattr g => rw [h] at g; cases g
          | entry g => rw [h] at g; cases g
        | noattr h hg =>
          cases h' with
          | stop g => rw [h] at g; cases g
          | noattr g gg => rw [h] at g; cases g; rw [hg] at gg; cases gg; rfl
          | entry g gg => rw [h] at g; cases g; rw [hg] at gg; cases gg
        | entry h hg _ ih =>
          cases h' with
          | stop g => rw [h] at g; cases g
          | noattr g gg => rw [h] at g; cases g; rw [hg] at gg; cases gg
          | entry g gg g3 => rw [h] at g; cases g; exact ih g3
      rw [huniq h1 g1]; exact (g4 hlk).1
    subst he
    rw [plusRefs_count]
    simp only [ne_eq, not_true_eq_false, if_false]
    rw [given_buf i h3]
  | plZero => left; intro i; rfl
  | @plPart _ _ _ P x Q e b h1 h2 h3 h4 _ =>
    have hg : ∀ i, (plusRefs y.refs (P ++ [x]) i).nrefs = (y.refs i).nrefs + (Reply.bufPlus (P.map Ent.dent) (bufLen 152 (P.map Ent.dent))).given i + occurs i [x] := by
      intro i
      rw [plusRefs_count, occurs_append, given_buf i (fun z hz => h3 z (by simp [hz]))]; omega
    by_cases hx : isDot x.2.1 = true
    · left; intro i; rw [hg]; simp [occurs, hx]
    · right; refine ⟨x.1, fun i => ?_⟩
      rw [hg]
      unfold occurs
      simp only [List.filter_cons, List.filter_nil]
      by_cases hi : i = x.1
      · subst hi; simp [hx]
      · have : ¬ x.1 = i := fun hh => hi hh.symm
        simp [hi, this]

/-- Without `readdirplus` the lock counts are exact at all times. -/
theorem C40_exact_partial (h : NoPlus y) (i : Ino) : y.held i = (y.refs i).nrefs := by
  induction h with
  | @mount uid gid now d r ho =>
    obtain ⟨s, h1, h2, h3⟩ := root_rep uid gid now
    have h0 : SI s (initDB emptyDB uid gid now) Refs.empty := ⟨h1, h2, h3, fun i hi => (by cases hi), fun i hi => absurd hi (by simp [Refs.empty]), Refs.empty_ok⟩
    exact (open_counts h0 ho i).symm
  | @remount y uid gid now d r hy ho ih =>
    rw [init_same hy.live] at ho
    obtain ⟨s, h1, -⟩ := live_inv hy.live
    exact (open_counts h1 ho i).symm
  | @serve y B rq st hy hv hp hd hf ih =>
    obtain ⟨st', rep, g1, g2⟩ := C41_sent hy.live hv
    rw [hd] at g1; cases g1
    have := C40_step hy.live hv ⟨st, hd, hf, g2, rfl⟩ hp i
    have hr := hv.2.2.1 i
    show heldAfter y.held rq st.sent i = (st.refs i).nrefs
    have hst : (y.after rq st).refs = st.refs := rfl
    rw [hst] at this
    unfold heldAfter; rw [g2]
    simp only [List.map_cons, List.map_nil, List.sum_cons, List.sum_nil]
    omega

/-- An inode with no locks is removed as soon as the backend reports that its name is gone. -/
theorem C40_removed (hl : Live y) {p : Ino} {n b : Bytes} {e : Errno} (hv : Valid y B (.lookup p n)) {i : Ino}
    (hp : Cache.path y.disk p = .ok (.ok b)) (hi : Cache.lookup y.disk p n = .ok (.ok i)) (h0 : (y.refs i).nrefs = 0)
    (hB : B.lstat 0 (b ++ 0x2f :: n) = .error e) (he : e ≠ ENOTCONN) :
    ∃ y', Answered y B (.lookup p n) (.err e) y' ∧ Cache.getattr y'.disk i = .error ENOENT := by
  obtain ⟨s, k1, k2⟩ := live_inv hl
  obtain ⟨cs, hcs, rfl⟩ := k1.rep.path_iff k1.ok hv.1 hp
  rw [pathStr_snoc'] at hB
  have hat := (k1.rep.lookup_iff k1.ok hv.1).mp hi
  obtain ⟨rep, y', s', h1, h2, h3⟩ := answered_of k1 hl hv (by rintro _ _ _ h; cases h)
  have key : rep = .err e ∧ Removed s y.refs i s' y'.refs := by
    generalize y'.refs = r' at h3
    cases h3 with
    | lkGone hc => exact absurd ⟨cs, hcs⟩ hc
    | lkBad hc hb => have := PathTo.unique k1.ok hc hcs; subst this; rw [hB] at hb; cases hb
    | lkPut hc hb => have := PathTo.unique k1.ok hc hcs; subst this; rw [hB] at hb; cases hb
    | lkHit hc hb => have := PathTo.unique k1.ok hc hcs; subst this; rw [hB] at hb; cases hb; exact absurd rfl he
    | lkMiss hc hb => have := PathTo.unique k1.ok hc hcs; subst this; rw [hB] at hb; cases hb; exact absurd rfl he
    | lkErr hc hb _ ha hr =>
      have := PathTo.unique k1.ok hc hcs; subst this; rw [hB] at hb; cases hb
      have := At.unique k1.ok ha hat; subst this
      exact ⟨rfl, hr⟩
    | lkErrMiss hc hb _ ha => exact absurd hat (ha i)
  obtain ⟨rfl, hr⟩ := key
  refine ⟨y', h1, ?_⟩
  obtain ⟨nd, hnd, hloc⟩ := hat
  have hb := OK.lt k1.ok hnd
  rw [h2.rep.getattr h2.ok hb]
  have : s'.nodes i = none := by
    apply hr.coll.gone
    refine .orphan (Tree.orphan_self hnd) (OK.loc_ne_root k1.ok hnd hloc) rfl ?_
    unfold locked; omega
  rw [this]

/-- A restart removes every inode which is not in the tree any more. -/
theorem C40_restart (hl : Live y) {uid gid now d r} (ho : openCleanDB (initDB y.disk uid gid now) Refs.empty = .ok (d, r)) {i : Ino} (hb : i < W64)
    (hi : Cache.parent y.disk i = .ok 0) : Cache.getattr d i = .error ENOENT := by
  rw [init_same hl] at ho
  obtain ⟨s, k1, -⟩ := live_inv hl
  obtain ⟨s1, s2, h1, h2, h3⟩ := open_SI k1.rep k1.ok k1.wf ho
  rw [h1.rep.getattr h1.ok hb]
  rw [k1.rep.parent k1.ok hb] at hi
  have hr : i ≠ ROOT := by rintro rfl; rw [if_pos rfl] at hi; cases hi
  rw [if_neg hr] at hi
  cases hn : s.nodes i with
  | none =>
    have a1 : s1.nodes i = none := by
      cases hx : s1.nodes i with
      | none => rfl
      | some x => obtain ⟨-, z, g, -⟩ := h2.back hx; rw [hn] at g; cases g
    cases hx : s2.nodes i with
    | none => rfl
    | some x => obtain ⟨-, z, g, -⟩ := h3.back hx; rw [a1] at g; cases g
  | some nd =>
    rw [hn] at hi
    simp only [Except.ok.injEq] at hi
    have hloc : nd.loc = none := by
      cases hlc : nd.loc with
      | none => rfl
      | some l => obtain ⟨p, m⟩ := l; have := (k1.ok.loc i nd p m hn hlc).1; rw [Node.par, hlc] at hi; simp at hi; omega
    have a1 : s1.nodes i = none := h2.gone i (.orphan hn hr hloc (fun h => h))
    cases hx : s2.nodes i with
    | none => rfl
    | some x => obtain ⟨-, z, g, -⟩ := h3.back hx; rw [a1] at g; cases g

/-- The hypotheses of `C40_removed`: nobody holds inode 2, and the backend says that `a` does not exist. -/
example : ∃ y, Live y ∧ Valid y ({} : Tbl).backend (.lookup 1 [0x61]) ∧
    (Cache.lookup y.disk 1 [0x61] = .ok (.ok 2) ∧ (y.refs 2).nrefs = 0 ∧ Cache.path y.disk 1 = .ok (.ok [])) :=
  demoFS_valid (l := [.req tblA (.lookup 1 [0x61]), .req tblA (.forget 2 1)]) (by decide +kernel)

/-- The hypotheses of `C40_restart`: inode 2 has been removed while the kernel held it. -/
example : ∃ y, Live y ∧ Cache.parent y.disk 2 = .ok 0 :=
  demoFS_ex (l := [.req tblA (.lookup 1 [0x61]), .req {} (.lookup 1 [0x61])]) (by decide +kernel)

/-- The hypotheses of `C40_step`, for a lookup and for `forget` (see also `C40_at_least`, which holds in all these
states). -/
example : (∃ y y', Live y ∧ Valid y tblA.backend (.lookup 1 [0x61]) ∧ Answered y tblA.backend (.lookup 1 [0x61]) (.entry (osStat 2 (fromBackend bDir))) y' ∧
      ((y.refs 2).nrefs = 1 ∧ (y'.refs 2).nrefs = 2)) ∧
    ∃ y y', Live y ∧ Valid y tblA.backend (.forget 2 1) ∧ Answered y tblA.backend (.forget 2 1) .none y' ∧ ((y.refs 2).nrefs = 1 ∧ (y'.refs 2).nrefs = 0) :=
  ⟨demoFS_ask (l := [.req tblA (.lookup 1 [0x61])]) (by decide +kernel), demoFS_ask (l := [.req tblA (.lookup 1 [0x61])]) (by decide +kernel)⟩

/-- The hypotheses of `C40_readdirplus`, in its second case: the entry `a` does not fit in 200 bytes, and its lock is
lost. -/
example : ∃ y y', Live y ∧ Valid y tblA.backend (.readdirplus 1 200 0) ∧
    Answered y tblA.backend (.readdirplus 1 200 0) (.bufPlus [mkDEnt 1 [0x2e] (rootAttrs 0 0 ⟨0, 0⟩)] 160) y' ∧
    (Cache.parent y.disk 1 = .ok 1 ∧ (y.refs 2).nrefs = 0 ∧ (y'.refs 2).nrefs = 1) :=
  demoFS_ask (l := [.req tblA (.opendir 1)]) (by decide +kernel)

/-- A state for `C40_exact_partial`: a lookup, no `readdirplus`. -/
example : ∃ y', NoPlus y' ∧ y'.held 2 = 1 := by
  have key : (match openCleanDB (initDB emptyDB 0 0 ⟨0, 0⟩) Refs.empty with
      | .ok (d, r) => validB ⟨d, r, fun _ => 0⟩ 0 tblA (.lookup 1 [0x61]) && (match dispatch tblA.backend d r (.lookup 1 [0x61]) with
        | .ok st => st.fault.isNone && decide (((⟨d, r, fun _ => 0⟩ : Sys).after (.lookup 1 [0x61]) st).held 2 = 1)
        | .error _ => false)
      | .error _ => false) = true := by decide +kernel
  split at key
  · rename_i d r ho
    rw [Bool.and_eq_true] at key
    obtain ⟨h1, h2⟩ := key
    have hl : demoRun [] = some (⟨d, r, fun _ => 0⟩, 0, []) := by unfold demoRun; rw [ho]; rfl
    split at h2
    · rename_i st hs
      simp only [Bool.and_eq_true, decide_eq_true_eq] at h2
      exact ⟨_, .serve (.mount ho) (validB_iff (demoRun_live hl).2 h1) (by simp) hs (by simpa using h2.1), h2.2⟩
    · cases h2
  · cases key

/-! ### C37 offline -/

/-- While the backend is not connected nothing in the database changes. -/
theorem C37_nothing_changes (hB : Offline B) (ha : Answered y B rq rep y') : y'.disk = y.disk := by
  obtain ⟨st, h1, -, -, rfl⟩ := ha
  exact offline_disk hB h1

/-- A cached name is found, with its cached inode and attributes. -/
theorem C37_found (hl : Live y) (hB : Offline B) {p : Ino} {n b : Bytes} (hv : Valid y B (.lookup p n)) {i j : Ino} {a : Attrs}
    (hp : Cache.path y.disk p = .ok (.ok b)) (hi : Cache.lookup y.disk p n = .ok (.ok i)) (ha : Cache.getattr y.disk i = .ok (j, a)) :
    ∃ y', Answered y B (.lookup p n) (.entry (osStat i a)) y' := by
  obtain ⟨s, k1, k2⟩ := live_inv hl
  obtain ⟨cs, hcs, rfl⟩ := k1.rep.path_iff k1.ok hv.1 hp
  have hat := (k1.rep.lookup_iff k1.ok hv.1).mp hi
  obtain ⟨rep, y', s', h1, h2, h3⟩ := answered_of k1 hl hv (by rintro _ _ _ h; cases h)
  have key : rep = .entry (osStat i a) := by
    generalize y'.refs = r' at h3
    have off := hB.lstat 0
    cases h3 with
    | lkGone hc => exact absurd ⟨cs, hcs⟩ hc
    | lkBad hc hb => rw [off] at hb; cases hb
    | lkPut hc hb => rw [off] at hb; cases hb
    | lkHit hc hb g1 g2 =>
      have := At.unique k1.ok ⟨_, g1, g2⟩ hat; subst this
      rw [getattr_some k1 g1] at ha; cases ha; rfl
    | lkMiss _ _ g => exact absurd hat (g i)
    | lkErr hc hb g => rw [off] at hb; cases hb; exact absurd rfl g
    | lkErrMiss hc hb g => rw [off] at hb; cases hb; exact absurd rfl g
  rw [← key]
  exact ⟨y', h1⟩

/-- A name which is not cached: ENOENT if the directory counts as synchronised, and EIO otherwise. -/
theorem C37_absent (hl : Live y) (hB : Offline B) {p : Ino} {n b : Bytes} (hv : Valid y B (.lookup p n))
    (hp : Cache.path y.disk p = .ok (.ok b)) (hi : Cache.lookup y.disk p n = .ok (.error ENOENT)) :
    ∃ y', Answered y B (.lookup p n) (.err (if testFlag y.disk p SYNCED = .ok true then ENOENT else EIO)) y' := by
  obtain ⟨s, k1, k2⟩ := live_inv hl
  obtain ⟨cs, hcs, rfl⟩ := k1.rep.path_iff k1.ok hv.1 hp
  have hno : ∀ i, ¬ s.At p n i := by
    intro i hat; rw [k1.rep.lookup_found k1.ok hat] at hi; cases hi
  have hlen : ¬ 503 < n.length := by
    intro h; rw [lookup_too_long h] at hi; cases hi
  obtain ⟨rep, y', s', h1, h2, h3⟩ := answered_of k1 hl hv (by rintro _ _ _ h; cases h)
  have key : rep = .err (if testFlag y.disk p SYNCED = .ok true then ENOENT else EIO) := by
    generalize y'.refs = r' at h3
    have off := hB.lstat 0
    cases h3 with
    | lkGone hc => exact absurd ⟨cs, hcs⟩ hc
    | lkBad hc hb => rw [off] at hb; cases hb
    | lkPut hc hb => rw [off] at hb; cases hb
    | lkHit hc hb g1 g2 => exact absurd ⟨_, g1, g2⟩ (hno _)
    | lkMiss _ _ g => rw [if_neg hlen]
    | lkErr hc hb g => rw [off] at hb; cases hb; exact absurd rfl g
    | lkErrMiss hc hb g => rw [off] at hb; cases hb; exact absurd rfl g
  rw [← key]
  exact ⟨y', h1⟩

/-- A directory only becomes synchronised by an `opendir` of it which the backend answered. -/
theorem C37_synced_by_opendir (hl : Live y) (hv : Valid y B rq) (ha : Answered y B rq rep y') {p : Ino} (hp : p < W64)
    (h0 : testFlag y.disk p SYNCED ≠ .ok true) (h1 : testFlag y'.disk p SYNCED = .ok true) :
    rq = .opendir p ∧ rep = .opened ∧ ∃ b x, Cache.path y.disk p = .ok (.ok b) ∧ B.opendir (backendPath b) = .ok x := by
  obtain ⟨s, k1, k2⟩ := live_inv hl
  obtain ⟨s', k3, k4⟩ := ha.abs k1 hl hv
  rw [k3.rep.testFlag k3.ok hp] at h1
  cases hn : s'.nodes p with
  | none => rw [hn] at h1; cases h1
  | some nd' =>
    rw [hn] at h1
    simp only [Except.ok.injEq] at h1
    rcases abs_flags k4 hn h1 with ⟨nd, g1, g2⟩ | ⟨g1, g2, cs, x, g3, g4⟩
    · rw [k1.rep.testFlag k1.ok hp, g1] at h0
      exact absurd (by simp only [g2]) h0
    · exact ⟨g1, g2, pathStr cs, x, k1.rep.path_found k1.ok g3, g4⟩

/-- Links are read from the cache. -/
theorem C37_readlink (hl : Live y) (hB : Offline B) {i : Ino} {b : Bytes} (hv : Valid y B (.readlink i)) {t : Bytes}
    (hp : Cache.path y.disk i = .ok (.ok b)) (ht : Cache.readlink y.disk i = .ok t) :
    ∃ y', Answered y B (.readlink i) (.readlink (cstr t)) y' := by
  obtain ⟨s, k1, k2⟩ := live_inv hl
  obtain ⟨cs, hcs, rfl⟩ := k1.rep.path_iff k1.ok hv.1 hp
  rw [k1.rep.readlink k1.ok hv.1] at ht
  obtain ⟨rep, y', s', h1, h2, h3⟩ := answered_of k1 hl hv (by rintro _ _ _ h; cases h)
  have key : rep = .readlink (cstr t) := by
    generalize y'.refs = r' at h3
    have off := hB.readlink
    cases h3 with
    | rlGone hc => exact absurd ⟨cs, hcs⟩ hc
    | rlPut hc hb => rw [off] at hb; cases hb
    | rlOther hc hb => rw [off] at hb; cases hb
    | rlHit hc hb g1 g2 => rw [g1] at ht; simp only [g2] at ht; cases ht; rfl
    | rlMiss hc hb g1 g2 => rw [g1] at ht; simp only [g2] at ht; cases ht
    | rlErr hc hb g => rw [off] at hb; cases hb; exact absurd rfl g
    | rlErrRoot hb g => rw [off] at hb; cases hb; exact absurd rfl g
  rw [← key]
  exact ⟨y', h1⟩

theorem offline_tbl : Offline Tbl.offline.backend := ⟨fun _ _ => rfl, fun _ => rfl, fun _ => rfl⟩

/-- The hypotheses of `C37_absent` (`offline_table`: the backend is offline) for a synchronised directory … -/
example : ∃ y, Live y ∧ Valid y Tbl.offline.backend (.lookup 1 [0x62]) ∧
    (Cache.path y.disk 1 = .ok (.ok []) ∧ Cache.lookup y.disk 1 [0x62] = .ok (.error ENOENT) ∧ testFlag y.disk 1 SYNCED = .ok true) :=
  demoFS_valid (l := [.req tblA (.opendir 1)]) (by decide +kernel)

/-- … and for one which is not. -/
example : ∃ y, Live y ∧ Valid y Tbl.offline.backend (.lookup 1 [0x62]) ∧
    (Cache.lookup y.disk 1 [0x62] = .ok (.error ENOENT) ∧ testFlag y.disk 1 SYNCED = .ok false) :=
  demoFS_valid (l := [.req tblA (.lookup 1 [0x61])]) (by decide +kernel)

/-- The hypotheses of `C37_found`, after a restart. -/
example : ∃ y, Live y ∧ Valid y Tbl.offline.backend (.lookup 1 [0x61]) ∧
    (Cache.lookup y.disk 1 [0x61] = .ok (.ok 2) ∧ Cache.getattr y.disk 2 = .ok (2, fromBackend bDir)) :=
  demoFS_valid (l := [.req tblA (.lookup 1 [0x61]), .restart]) (by decide +kernel)

/-- The hypotheses of `C37_readlink`. -/
example : ∃ y, Live y ∧ Valid y Tbl.offline.backend (.readlink 2) ∧ Cache.readlink y.disk 2 = .ok [0x61] :=
  demoFS_valid (l := [.req tblA (.lookup 1 [0x6c]), .req tblA (.readlink 2)]) (by decide +kernel)

/-- The hypotheses of `C37_nothing_changes`, for a request which reads all of a directory … -/
example : ∃ y y', Live y ∧ Valid y Tbl.offline.backend (.opendir 1) ∧ Answered y Tbl.offline.backend (.opendir 1) .opened y' ∧ Cache.lookup y.disk 1 [0x61] = .ok (.ok 2) :=
  demoFS_ask (l := [.req tblA (.opendir 1)]) (by decide +kernel)

/-- … and of `C37_synced_by_opendir`. -/
example : ∃ y y', Live y ∧ Valid y tblA.backend (.opendir 1) ∧ Answered y tblA.backend (.opendir 1) .opened y' ∧
    (testFlag y.disk 1 SYNCED = .ok false ∧ testFlag y'.disk 1 SYNCED = .ok true) :=
  demoFS_ask (l := [.req tblA (.lookup 1 [0x61])]) (by decide +kernel)

/-! ### C38 a backend error removes the cached entry -/

/-- If the connected backend reports an error for a name, the reply is this error and the name is not
cached any more; all other names in the directory stay as they are. -/
theorem C38_lookup (hl : Live y) {p : Ino} {n b : Bytes} {e : Errno} (hv : Valid y B (.lookup p n))
    (hp : Cache.path y.disk p = .ok (.ok b)) (hB : B.lstat 0 (b ++ 0x2f :: n) = .error e) (he : e ≠ ENOTCONN) :
    ∃ y', Answered y B (.lookup p n) (.err e) y' ∧ (∀ i, Cache.lookup y'.disk p n ≠ .ok (.ok i)) ∧
      Cache.path y'.disk p = .ok (.ok b) ∧
      ∀ m i, m ≠ n → (Cache.lookup y'.disk p m = .ok (.ok i) ↔ Cache.lookup y.disk p m = .ok (.ok i)) := by
  obtain ⟨s, k1, k2⟩ := live_inv hl
  obtain ⟨cs, hcs, rfl⟩ := k1.rep.path_iff k1.ok hv.1 hp
  rw [pathStr_snoc'] at hB
  obtain ⟨rep, y', s', h1, h2, h3⟩ := answered_of k1 hl hv (by rintro _ _ _ h; cases h)
  have key : rep = .err e ∧ ((∃ i, s.At p n i ∧ Removed s y.refs i s' y'.refs) ∨ (s' = s ∧ ∀ i, ¬ s.At p n i)) := by
    generalize y'.refs = r' at h3
    cases h3 with
    | lkGone hc => exact absurd ⟨cs, hcs⟩ hc
    | lkBad hc hb => have := PathTo.unique k1.ok hc hcs; subst this; rw [hB] at hb; cases hb
    | lkPut hc hb => have := PathTo.unique k1.ok hc hcs; subst this; rw [hB] at hb; cases hb
    | lkHit hc hb => have := PathTo.unique k1.ok hc hcs; subst this; rw [hB] at hb; cases hb; exact absurd rfl he
    | lkMiss hc hb => have := PathTo.unique k1.ok hc hcs; subst this; rw [hB] at hb; cases hb; exact absurd rfl he
    | lkErr hc hb _ ha hr =>
      have := PathTo.unique k1.ok hc hcs; subst this; rw [hB] at hb; cases hb
      exact ⟨rfl, .inl ⟨_, ha, hr⟩⟩
    | lkErrMiss hc hb _ ha =>
      have := PathTo.unique k1.ok hc hcs; subst this; rw [hB] at hb; cases hb
      exact ⟨rfl, .inr ⟨rfl, ha⟩⟩
  obtain ⟨rfl, hr⟩ := key
  refine ⟨y', h1, ?_⟩
  rcases hr with ⟨i, hat, hr⟩ | ⟨rfl, hno⟩
  · have hpath : (s.orphan i).PathTo p cs := by
      obtain ⟨ds, hds⟩ := Conn.orphan k1.ok ⟨cs, hcs⟩ hat
      have : s.PathTo p ds := by
        clear hcs hp hB hat h1 hv h3
        induction hds with
        | root => exact .root
        | child ha _ ih => exact .child (at_orphan.mp ha).1 ih
      rw [PathTo.unique k1.ok hcs this]; exact hds
    have hng : ¬ Gone (s.orphan i) (locked y.refs) p := Conn.not_gone (OK.orphan k1.ok i) ⟨cs, hpath⟩
    have hAt : ∀ m j, s'.At p m j ↔ s.At p m j ∧ j ≠ i := by
      intro m j
      rw [at_collected hr.coll, at_orphan]
      exact ⟨fun h => h.1, fun h => ⟨h, fun hh => hng hh.1⟩⟩
    refine ⟨?_, ?_, ?_⟩
    · intro j hj
      obtain ⟨g1, g2⟩ := (hAt n j).mp ((h2.rep.lookup_iff h2.ok hv.1).mp hj)
      exact g2 (At.unique k1.ok g1 hat)
    · exact h2.rep.path_found h2.ok (PathTo.collected (OK.orphan k1.ok i) hr.coll hpath)
    · intro m j hm
      rw [h2.rep.lookup_iff h2.ok hv.1, k1.rep.lookup_iff k1.ok hv.1, hAt]
      refine ⟨fun h => h.1, fun h => ⟨h, ?_⟩⟩
      rintro rfl
      obtain ⟨nd, g1, g2⟩ := h; obtain ⟨nd', g3, g4⟩ := hat
      rw [g1] at g3; cases g3; rw [g2] at g4; cases g4; exact hm rfl
  · refine ⟨?_, h2.rep.path_found h2.ok hcs, ?_⟩
    · intro j hj; exact hno j ((h2.rep.lookup_iff h2.ok hv.1).mp hj)
    · intro m j _
      rw [h2.rep.lookup_iff h2.ok hv.1, k1.rep.lookup_iff k1.ok hv.1]

/-- A lookup while not connected then also fails. -/
theorem C38_offline (hl : Live y) {p : Ino} {n b : Bytes} (hp : Cache.path y.disk p = .ok (.ok b)) (hi : ∀ i, Cache.lookup y.disk p n ≠ .ok (.ok i))
    (hB : Offline B) (hv : Valid y B (.lookup p n)) : ∃ e y', Answered y B (.lookup p n) (.err e) y' := by
  obtain ⟨s, k1, k2⟩ := live_inv hl
  obtain ⟨cs, hcs, rfl⟩ := k1.rep.path_iff k1.ok hv.1 hp
  have hno : ∀ i, ¬ s.At p n i := fun i hat => hi i (k1.rep.lookup_found k1.ok hat)
  obtain ⟨rep, y', s', h1, h2, h3⟩ := answered_of k1 hl hv (by rintro _ _ _ h; cases h)
  have key : ∃ e, rep = .err e := by
    generalize y'.refs = r' at h3
    have off := hB.lstat 0
    cases h3 with
    | lkPut hc hb => rw [off] at hb; cases hb
    | lkHit hc hb g1 g2 => exact absurd ⟨_, g1, g2⟩ (hno _)
    | _ => exact ⟨_, rfl⟩
  obtain ⟨e, rfl⟩ := key
  exact ⟨e, y', h1⟩

/-- The same for `readlink`: the reply is the error, and the inode is not in the tree any more. -/
theorem C38_readlink (hl : Live y) {i : Ino} {b : Bytes} {e : Errno} (hv : Valid y B (.readlink i)) (hi : i ≠ ROOT)
    (hp : Cache.path y.disk i = .ok (.ok b)) (hB : B.readlink (backendPath b) = .error e) (he : e ≠ ENOTCONN) :
    ∃ y', Answered y B (.readlink i) (.err e) y' ∧ (∀ p n, p < W64 → Cache.lookup y'.disk p n ≠ .ok (.ok i)) ∧ Cache.path y'.disk i = .ok (.error ENOENT) := by
  obtain ⟨s, k1, k2⟩ := live_inv hl
  obtain ⟨cs, hcs, rfl⟩ := k1.rep.path_iff k1.ok hv.1 hp
  obtain ⟨rep, y', s', h1, h2, h3⟩ := answered_of k1 hl hv (by rintro _ _ _ h; cases h)
  have key : rep = .err e ∧ Removed s y.refs i s' y'.refs := by
    generalize y'.refs = r' at h3
    cases h3 with
    | rlGone hc => exact absurd ⟨cs, hcs⟩ hc
    | rlPut hc hb => have := PathTo.unique k1.ok hc hcs; subst this; rw [hB] at hb; cases hb
    | rlOther hc hb => have := PathTo.unique k1.ok hc hcs; subst this; rw [hB] at hb; cases hb
    | rlHit hc hb => have := PathTo.unique k1.ok hc hcs; subst this; rw [hB] at hb; cases hb; exact absurd rfl he
    | rlMiss hc hb => have := PathTo.unique k1.ok hc hcs; subst this; rw [hB] at hb; cases hb; exact absurd rfl he
    | rlErr hc hb _ _ hr => have := PathTo.unique k1.ok hc hcs; subst this; rw [hB] at hb; cases hb; exact ⟨rfl, hr⟩
    | rlErrRoot => exact absurd rfl hi
  obtain ⟨rfl, hr⟩ := key
  have hno : ∀ p n, ¬ s'.At p n i := by
    intro p n h
    exact (at_orphan.mp ((at_collected hr.coll).mp h).1).2 rfl
  refine ⟨y', h1, ?_, ?_⟩
  · intro p n hpb h; exact hno p n ((h2.rep.lookup_iff h2.ok hpb).mp h)
  · apply h2.rep.path_missing h2.ok h2.wf hv.1
    rintro ⟨ds, h⟩
    cases h with
    | root => exact hi rfl
    | child ha => exact hno _ _ ha

/-- `opendir`: the reply is the error, and nothing is changed. -/
theorem C38_opendir (hl : Live y) {i : Ino} {b : Bytes} {e : Errno} (hv : Valid y B (.opendir i))
    (hp : Cache.path y.disk i = .ok (.ok b)) (hB : B.opendir (backendPath b) = .error e) (he : e ≠ ENOTCONN) :
    ∃ y', Answered y B (.opendir i) (.err e) y' ∧ y'.disk = y.disk := by
  refine ⟨_, ⟨done y.disk y.refs (.err e), ?_, rfl, rfl, rfl⟩, rfl⟩
  unfold dispatch
  simp only [handle, opendir, St.txn]
  rw [hp]
  simp only [bind_ok]
  rw [hB]
  simp only
  rw [if_neg he]
  rfl

/-- The hypotheses of `C38_lookup`: `a` has been removed from the host. -/
example : ∃ y, Live y ∧ Valid y ({} : Tbl).backend (.lookup 1 [0x61]) ∧
    (Cache.path y.disk 1 = .ok (.ok []) ∧ Cache.lookup y.disk 1 [0x61] = .ok (.ok 2) ∧ Cache.lookup y.disk 1 [0x6c] = .ok (.ok 3)) :=
  demoFS_valid (l := [.req tblA (.opendir 1)]) (by decide +kernel)

/-- The hypotheses of `C38_readlink`: the link has been removed. -/
example : ∃ y, Live y ∧ Valid y ({} : Tbl).backend (.readlink 3) ∧ Cache.path y.disk 3 = .ok (.ok [0x2f, 0x6c]) :=
  demoFS_valid (l := [.req tblA (.opendir 1)]) (by decide +kernel)

/-- The hypotheses of `C38_offline`: afterwards the host cannot be reached. -/
example : ∃ y, Live y ∧ Valid y Tbl.offline.backend (.lookup 1 [0x61]) ∧
    (Cache.path y.disk 1 = .ok (.ok []) ∧ Cache.lookup y.disk 1 [0x61] = .ok (.error ENOENT) ∧ Cache.lookup y.disk 1 [0x6c] = .ok (.ok 3)) :=
  demoFS_valid (l := [.req tblA (.opendir 1), .req {} (.lookup 1 [0x61])]) (by decide +kernel)

/-- The hypotheses of `C38_opendir`: the directory has been removed. -/
example : ∃ y, Live y ∧ Valid y ({} : Tbl).backend (.opendir 2) ∧ (Cache.path y.disk 2 = .ok (.ok [0x2f, 0x61]) ∧
    (match ({} : Tbl).backend.opendir (backendPath [0x2f, 0x61]) with | .error e => decide (e = ENOENT) | .ok _ => false) = true) :=
  demoFS_valid (l := [.req tblA (.lookup 1 [0x61])]) (by decide +kernel)

end Dragonstash.FS
