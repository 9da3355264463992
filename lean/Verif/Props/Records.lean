/-
  C118: the records which the reference table keeps in memory.
-/
import Verif.Props.FSReply
namespace Dragonstash

namespace RefMap

/-- **C118.** A record is never erased: whatever is called, an inode which has one keeps one. -/
theorem C118_never_erased (m : RefMap) (ops : List Op) (i : Ino) (h : (m i).isSome = true) : ((run m ops).1 i).isSome = true := by
  have set_some : ∀ (m : RefMap) (j : Ino) (x : Rec), (m i).isSome = true → ((set m j x) i).isSome = true := by
    intro m j x h
    unfold set
    by_cases hj : i = j
    · rw [if_pos hj]; rfl
    · rw [if_neg hj]; exact h
  have one : ∀ (m : RefMap) (op : Op), (m i).isSome = true → ((step m op).1 i).isSome = true := by
    intro m op h
    cases op with
    | inc j n =>
      simp only [step, incref]
      cases hj : m j with
      | none => exact set_some m j _ h
      | some r =>
        simp only
        by_cases hd : r.doomed = true
        · simp only [hd, if_true]; exact h
        · simp only [hd]; exact set_some m j _ h
    | dec j n =>
      simp only [step, decref]
      by_cases hn : n = 0
      · simp only [hn, if_true]; exact h
      · simp only [hn, if_false]
        cases hj : m j with
        | none => exact h
        | some r =>
          simp only
          by_cases hr : r.nrefs < n
          · simp only [hr, if_true]; exact h
          · simp only [hr, if_false]; exact set_some m j _ h
    | doom j =>
      simp only [step, doom]
      cases hj : m j with
      | none => exact set_some m j _ h
      | some r =>
        simp only
        by_cases hr : r.nrefs > 0
        · simp only [hr, if_true]; exact h
        · simp only [hr, if_false]; exact set_some m j _ h
  induction ops generalizing m with
  | nil => exact h
  | cons op ops ih => exact ih _ (one m op h)

/-- Locking an inode and giving the lock back leaves a record. -/
example : ((run empty [.inc 5 1, .dec 5 1]).1 5) = some ⟨0, false⟩ := by decide

end RefMap

namespace FS
open Cache Codec
variable {s s' : Tree} {d d' : DB} {r r' : Refs} {y y' : Sys} {B : Backend}

/-! ### Specification -/

/-- Inode `i` has a record in the reference table which differs from having none. -/
def Recorded (y : Sys) (i : Ino) : Prop := y.refs i ≠ ⟨0, false⟩

/-- The full claim: the table has records only of inodes which exist, or which the kernel holds. -/
def C118_full : Prop := ∀ y, Live y → ∀ i, Recorded y i → 0 < y.held i ∨ ∃ x, Cache.getattr y.disk i = .ok x

/-! ### Proofs -/

/-- **C118.** What can be said: a record is of an inode which exists, or it is the mark of one which was removed, without locks; the inode number
was given out. -/
theorem C118_records_partial (hy : Live y) {i : Ino} (h : Recorded y i) :
    (∃ n, y.disk.next = some n ∧ (i < n)) ∧ ((∃ x, Cache.getattr y.disk i = .ok x) ∨ ((y.refs i).doomed = true ∧ (y.refs i).nrefs = 0 ∧ y.held i = 0)) := by
  obtain ⟨s, h1, h2⟩ := live_inv hy
  by_cases hn : 0 < (y.refs i).nrefs
  · obtain ⟨nd, hnd⟩ := h1.locked i hn
    exact ⟨⟨_, h1.rep.next, (h1.ok.bound i nd hnd).2⟩, .inl ⟨_, getattr_some h1 hnd⟩⟩
  · have h0 : (y.refs i).nrefs = 0 := by omega
    have hd : (y.refs i).doomed = true := by
      unfold Recorded at h
      generalize y.refs i = x at h h0
      obtain ⟨a, b⟩ := x
      simp only at h0
      subst h0
      cases b with
      | true => rfl
      | false => exact absurd rfl h
    have := h2 i
    exact ⟨⟨_, h1.rep.next, (h1.fresh i hd).1⟩, .inr ⟨hd, h0, by omega⟩⟩

/-- One entry at most. -/
theorem tab_le_one {V : Type} {t : Tab V} {k0 : Bytes} (h : ∀ k v, t.find k = some v → k = k0) : t.size ≤ 1 := by
  have hm : ∀ e ∈ t.entries, e.1 = k0 := fun e he => h e.1 e.2 ((t.mem_iff e.1 e.2).mp he)
  have hs := t.sorted
  unfold Tab.size
  match hl : t.entries with
  | [] => simp
  | [_] => simp
  | a :: b :: l =>
    rw [hl] at hs hm
    have hab := (List.pairwise_cons.mp hs).1 b (by simp)
    rw [hm a (by simp), hm b (by simp), blt_irrefl] at hab
    cases hab

theorem treei_le_one (h : Rep s d) {j : Ino} (hj : ∀ i nd l, s.nodes i = some nd → nd.loc = some l → i = j ∧ l = (ROOT, [0x61])) : d.treei.size ≤ 1 := by
  refine tab_le_one (k0 := key16 ROOT j) fun k v hk => ?_
  obtain ⟨i, nd, p, n, rfl, h1, h2, -⟩ := (h.treei k v).mp hk
  obtain ⟨rfl, e⟩ := hj i nd _ h1 h2
  cases e; rfl

/-- A file `/a`. -/
def tblF : Tbl where
  stats := [([0x2f, 0x61], .ok (bFile 5))]

/-- Nothing exists. -/
def tblNo : Tbl := {}

/-- There is only the root directory, nothing is locked, and `k` removed inodes have a record. -/
structure Bare (y : Sys) (s : Tree) (k : Nat) : Prop where
  live : Live y
  si : SI s y.disk y.refs
  only : ∀ i nd, s.nodes i = some nd → i = ROOT
  free : ∀ i, (y.refs i).nrefs = 0
  recs : ∃ l : List Ino, l.Nodup ∧ l.length = k ∧ ∀ i ∈ l, (y.refs i).doomed = true

theorem valid_root (h : SI s y.disk y.refs) (hn : s.next + 1 < W64) (hsz : y.disk.treei.size ≤ 1) (hc : ∀ i, (y.refs i).nrefs ≤ 1) {t : Tbl} (ht : t.dirs = []) {n : Bytes} :
    Valid y t.backend (.lookup ROOT n) := by
  refine ⟨by show ROOT < W64; decide, ?_, fun i => Nat.zero_le _, ?_, ?_⟩
  · intro x hx
    obtain ⟨nd, h1, h2, -⟩ := h.ok.root
    rw [getattr_some h h1] at hx
    cases hx
    exact h2
  · intro m hm
    rw [h.rep.next] at hm
    cases hm
    refine ⟨hn, fun path names e ho => ?_⟩
    simp only [Tbl.backend, ht] at ho
    cases ho
  · intro i
    have := hc i
    have : (8 : Nat) < W64 := by decide
    omega

theorem valid_forget (h : SI s y.disk y.refs) (hn : s.next + 1 < W64) (hsz : y.disk.treei.size ≤ 1) (hc : ∀ i, (y.refs i).nrefs ≤ 1) {i n : Nat} (hi : i < W64)
    (hh : n ≤ y.held i) : Valid y tblNo.backend (.forget i n) := by
  refine ⟨hi, trivial, fun j => ?_, ?_, ?_⟩
  · show (if i = j then n else 0) ≤ _
    by_cases hj : i = j
    · subst hj; rw [if_pos rfl]; exact hh
    · rw [if_neg hj]; omega
  · intro m hm
    rw [h.rep.next] at hm
    cases hm
    exact ⟨hn, fun path names e ho => by cases ho⟩
  · intro i
    have := hc i
    have : (8 : Nat) < W64 := by decide
    omega

theorem gone_none {L : Ino → Prop} (h : ∀ i nd, s.nodes i = some nd → i ≠ ROOT → nd.loc ≠ none) {i} : ¬ Gone s L i := by
  intro hg
  induction hg with
  | orphan h1 h2 h3 => exact h _ _ h1 h2 h3
  | child _ _ _ _ _ ih => exact ih

/-- A file appears and disappears again; nothing is left of it but a record. -/
theorem Bare.round {k : Nat} (hb : Bare y s k) (hn : s.next + 3 < W64) : ∃ y' s', Bare y' s' (k + 1) ∧ s'.next = s.next + 1 := by
  obtain ⟨hy, hsi, honly, hfree, l, hl1, hl2, hl3⟩ := hb
  have okr := hsi.ok.root
  obtain ⟨rn, hr1, hr2, hr3⟩ := okr
  have noloc : ∀ i nd x, s.nodes i = some nd → nd.loc ≠ some x := by
    intro i nd x hi hx
    have := honly i nd hi
    subst this
    rw [hr1] at hi; cases hi
    rw [hr3] at hx; cases hx
  have ha : GoodName [0x61] := ⟨by decide, by decide, by decide⟩
  have hpath : s.PathTo ROOT [] := .root
  -- the file is looked up
  have sz0 : y.disk.treei.size ≤ 1 := treei_le_one hsi.rep (j := 0) (fun i nd x h1 h2 => absurd h2 (noloc i nd x h1))
  have v1 : Valid y tblF.backend (.lookup ROOT [0x61]) := valid_root hsi (by omega) sz0 (fun i => by rw [hfree]; omega) rfl
  obtain ⟨rep1, y1, s1, a1, si1, t1⟩ := answered_of hsi hy v1 (fun _ _ _ h => by cases h)
  have hl1' := a1.live hy v1
  have key1 : s1 = s.add ROOT [0x61] (fromBackend (bFile 5)) ∧ rep1 = .entry (osStat s.next (fromBackend (bFile 5))) ∧
      (∀ i, (y1.refs i).nrefs = if i = s.next then 1 else 0) ∧ (∀ i, (y.refs i).doomed = true → (y1.refs i).doomed = true) := by
    have hst : tblF.backend.lstat 0 (pathStr ([] ++ [[0x61]])) = .ok (bFile 5) := rfl
    generalize y1.refs = r1 at t1
    cases t1 with
    | lkGone h1 => exact absurd ⟨_, hpath⟩ h1
    | lkBad h1 h2 h3 =>
      cases h3 with
      | bad h4 => exact absurd ha h4
    | @lkPut _ _ cs sr i s' r' h1 h2 h3 =>
      have := PathTo.root_nil hsi.ok h1
      subst this
      rw [hst] at h2; cases h2
      cases h3 with
      | same h4 h5 => exact absurd h5 (noloc _ _ _ h4)
      | @new s2 _ _ h4 h5 h6 h7 h8 =>
        have e : s2 = s := by
          rcases h5 with ⟨e, -⟩ | ⟨i, nd, -, g1, g2, -⟩
          · exact e
          · exact absurd g2 (noloc _ _ _ g1)
        subst e
        have ng : ∀ i, ¬ Gone (s2.add ROOT [0x61] (fromBackend (bFile 5))) (locked y.refs) i := by
          intro i
          refine gone_none fun j nd h9 h10 => ?_
          by_cases hj : j = s2.next
          · subst hj
            rw [Tree.add_self] at h9; cases h9
            simp
          · rw [Tree.add_ne hj] at h9
            exact absurd (honly _ _ h9) h10
        refine ⟨?_, rfl, fun i => ?_, fun i hi => ?_⟩
        · have e1 : s1.nodes = (s2.add ROOT [0x61] (fromBackend (bFile 5))).nodes := by
            funext i
            exact h7.keep i (ng i) (fun nd p n _ _ h => ng p h.1)
          have e2 := h7.next
          cases s1
          simp only at e1 e2
          subst e1; subst e2; rfl
        · rw [addRef_count, (h8 i).1, hfree]; simp
        · rw [addRef_doomed]; exact (h8 i).2.mpr (.inl hi)
    | lkHit h1 h2 h3 h4 => exact absurd h4 (noloc _ _ _ h3)
    | lkMiss h1 h2 h3 =>
      have := PathTo.root_nil hsi.ok h1
      subst this
      rw [hst] at h2; cases h2
    | lkErr h1 h2 h3 h4 => obtain ⟨nd, g1, g2⟩ := h4; exact absurd g2 (noloc _ _ _ g1)
    | lkErrMiss h1 h2 h3 =>
      have := PathTo.root_nil hsi.ok h1
      subst this
      rw [hst] at h2; cases h2
  obtain ⟨rfl, rfl, c1, d1⟩ := key1
  have nx : s.next < W64 := hsi.ok.next_lt
  have held1 : y1.held s.next = 1 := by
    have h0 : y.held s.next = 0 := by
      obtain ⟨-, -, hh⟩ := live_inv hy
      have := hh s.next
      rw [hfree] at this
      omega
    obtain ⟨st, k1, k2, k3, rfl⟩ := a1
    show heldAfter _ _ _ _ = 1
    unfold heldAfter
    rw [k3, h0]
    simp [Reply.given, osStat, Req.returned]
  have sz1 : ∀ {e}, Rep (s.add ROOT [0x61] (fromBackend (bFile 5))) e → e.treei.size ≤ 1 := by
    intro e he
    refine treei_le_one he (j := s.next) fun i nd x h1 h2 => ?_
    by_cases hi : i = s.next
    · subst hi
      rw [Tree.add_self] at h1; cases h1
      cases h2; exact ⟨rfl, rfl⟩
    · rw [Tree.add_ne hi] at h1
      exact absurd h2 (noloc _ _ _ h1)
  -- the kernel forgets it
  have v2 : Valid y1 tblNo.backend (.forget s.next 1) := by
    refine valid_forget si1 ?_ (sz1 si1.rep) (fun i => ?_) nx (by omega)
    · show s.next + 1 + 1 < W64; omega
    · rw [c1]; split <;> omega
  obtain ⟨rep2, y2, s2, a2, si2, t2⟩ := answered_of si1 hl1' v2 (fun _ _ _ h => by cases h)
  have hl2' := a2.live hl1' v2
  have key2 : s2 = s.add ROOT [0x61] (fromBackend (bFile 5)) ∧ y2.refs = subRef y1.refs s.next 1 := by
    generalize y2.refs = r2 at t2
    cases t2; exact ⟨rfl, rfl⟩
  obtain ⟨rfl, e2⟩ := key2
  have c2 : ∀ i, (y2.refs i).nrefs = 0 := by
    intro i
    rw [e2, subRef_count, c1]
    split <;> omega
  have d2 : ∀ i, (y.refs i).doomed = true → (y2.refs i).doomed = true := by
    intro i hi
    rw [e2, subRef_doomed]; exact d1 i hi
  -- it is gone
  have v3 : Valid y2 tblNo.backend (.lookup ROOT [0x61]) := by
    refine valid_root si2 ?_ (sz1 si2.rep) (fun i => by rw [c2]; omega) rfl
    show s.next + 1 + 1 < W64; omega
  obtain ⟨rep3, y3, s3, a3, si3, t3⟩ := answered_of si2 hl2' v3 (fun _ _ _ h => by cases h)
  have hl3' := a3.live hl2' v3
  have hat : (s.add ROOT [0x61] (fromBackend (bFile 5))).At ROOT [0x61] s.next := ⟨_, Tree.add_self, rfl⟩
  have hst : ∀ cs, tblNo.backend.lstat 0 (pathStr (cs ++ [[0x61]])) = .error ENOENT := fun _ => rfl
  have key3 : s3.next = s.next + 1 ∧ (∀ i nd, s3.nodes i = some nd → i = ROOT) ∧ (∀ i, (y3.refs i).nrefs = 0) ∧
      (∀ i, (y2.refs i).doomed = true → (y3.refs i).doomed = true) ∧ (y3.refs s.next).doomed = true := by
    generalize y3.refs = r3 at t3
    cases t3 with
    | lkGone h1 => exact absurd ⟨_, .root⟩ h1
    | lkBad h1 h2 => rw [hst] at h2; cases h2
    | lkPut h1 h2 => rw [hst] at h2; cases h2
    | lkHit h1 h2 => rw [hst] at h2; exact absurd h2 (by decide)
    | lkMiss h1 h2 => rw [hst] at h2; exact absurd h2 (by decide)
    | lkErrMiss h1 h2 h3 h4 => exact absurd hat (h4 _)
    | @lkErr _ _ cs be i s' r' h1 h2 h3 h4 h5 =>
      have hi : i = s.next := by
        obtain ⟨nd, g1, g2⟩ := h4
        by_cases hi : i = s.next
        · exact hi
        · rw [Tree.add_ne hi] at g1
          exact absurd g2 (noloc _ _ _ g1)
      subst hi
      have hor : ((s.add ROOT [0x61] (fromBackend (bFile 5))).orphan s.next).nodes s.next = some ⟨fromBackend (bFile 5), 0, none, none⟩ := by
        simp only [Tree.orphan, if_true]
        rw [Tree.add_self]; rfl
      have hroot : s.next ≠ ROOT := by
        have := (hsi.ok.bound ROOT rn hr1).2
        intro h; rw [h] at this; exact absurd this (Nat.lt_irrefl _)
      have hg : Gone ((s.add ROOT [0x61] (fromBackend (bFile 5))).orphan s.next) (locked y2.refs) s.next :=
        .orphan hor hroot rfl (by unfold locked; rw [c2]; omega)
      refine ⟨h5.coll.next, fun j nd hj => ?_, fun j => by rw [h5.counts, c2], fun j hj => (h5.refs j).2.mpr (.inl hj), (h5.refs _).2.mpr (.inr hg)⟩
      by_cases hjn : j = s.next
      · subst hjn
        rw [h5.coll.gone _ hg] at hj; cases hj
      · obtain ⟨-, x, g1, -⟩ := h5.coll.back hj
        simp only [Tree.orphan, if_neg hjn] at g1
        rw [Tree.add_ne hjn] at g1
        exact honly _ _ g1
  obtain ⟨k1, k2, k3, k4, k5⟩ := key3
  refine ⟨y3, s3, ⟨hl3', si3, k2, k3, s.next :: l, List.nodup_cons.mpr ⟨fun hm => ?_, hl1⟩, by simp [hl2], ?_⟩, k1⟩
  · have := (hsi.fresh _ (hl3 _ hm)).1
    exact Nat.lt_irrefl _ this
  · intro i hi
    rcases List.mem_cons.mp hi with rfl | hi
    · exact k5
    · exact k4 _ (d2 _ (hl3 _ hi))

theorem bare_start : ∃ y s, Bare y s 0 ∧ s.next = 2 := by
  obtain ⟨y, hy, h1, h2, h3⟩ := demoFS_ex (l := []) (P := fun y => y.disk.inodes.entries.map Prod.fst = [key8 ROOT] ∧ y.disk.next = some 2 ∧ (y.refs ROOT).nrefs = 0) (by decide +kernel)
  obtain ⟨s, g1, g2⟩ := live_inv hy
  have only : ∀ i nd, s.nodes i = some nd → i = ROOT := by
    intro i nd hi
    have hf : y.disk.inodes.find (key8 i) = some (recOf nd) := (g1.rep.inodes _ _).mpr ⟨i, nd, rfl, hi, rfl⟩
    have hm := List.mem_map_of_mem (f := Prod.fst) ((Tab.mem_iff _ _ _).mpr hf)
    rw [h1] at hm
    simp only [List.mem_cons, List.not_mem_nil, or_false] at hm
    exact (key8_inj (OK.lt g1.ok hi) (by decide)).mp hm
  refine ⟨y, s, ⟨hy, g1, only, fun i => ?_, [], List.nodup_nil, rfl, by simp⟩, ?_⟩
  · by_cases h : 0 < (y.refs i).nrefs
    · obtain ⟨nd, hnd⟩ := g1.locked i h
      rw [only i nd hnd, h3]
    · omega
  · have := g1.rep.next
    rw [h2] at this
    exact (Option.some.inj this).symm

/-- **C118.** The table grows without bound: for every number there is a history after which the database holds only the root directory, the
kernel holds nothing, and the table has that many records. -/
theorem C118_grows (N : Nat) (hN : N + 5 < W64) : ∃ y, Live y ∧ (∀ i, y.held i = 0) ∧ (∀ i x, i < W64 → Cache.getattr y.disk i = .ok x → i = ROOT) ∧
    ∃ l : List Ino, l.Nodup ∧ l.length = N ∧ ∀ i ∈ l, Recorded y i ∧ Cache.getattr y.disk i = .error ENOENT := by
  have all : ∀ k, k + 5 < W64 → ∃ y s, Bare y s k ∧ s.next = k + 2 := by
    intro k
    induction k with
    | zero => intro _; exact bare_start
    | succ k ih =>
      intro hk
      obtain ⟨y, s, h1, h2⟩ := ih (by omega)
      obtain ⟨y', s', h3, h4⟩ := h1.round (by omega)
      exact ⟨y', s', h3, by omega⟩
  obtain ⟨y, s, ⟨h1, h2, h3, h4, l, h5, h6, h7⟩, -⟩ := all N hN
  obtain ⟨-, -, hh⟩ := live_inv h1
  refine ⟨y, h1, fun i => ?_, fun i x hi hx => ?_, l, h5, h6, fun i hi => ⟨fun hr => ?_, ?_⟩⟩
  · have := hh i
    rw [h4] at this
    omega
  · cases hnd : s.nodes i with
    | none => rw [getattr_none h2 hi hnd] at hx; cases hx
    | some nd => exact h3 i nd hnd
  · have := h7 i hi
    rw [hr] at this
    cases this
  · obtain ⟨g1, g2⟩ := h2.fresh i (h7 i hi)
    exact getattr_none h2 (Nat.lt_trans g1 h2.ok.next_lt) g2

/-- So the full claim is false. -/
theorem C118_counterexample : ¬ C118_full := by
  intro h
  obtain ⟨y, h1, h2, -, l, -, h5, h6⟩ := C118_grows 1 (by decide)
  match l, h5 with
  | [i], _ =>
    obtain ⟨k1, k2⟩ := h6 i (by simp)
    rcases h y h1 i k1 with hc | ⟨x, hx⟩
    · rw [h2] at hc; exact absurd hc (Nat.lt_irrefl _)
    · rw [k2] at hx; cases hx

/-- The hypotheses of `C118_records_partial` can be met, by an inode which exists and is locked. -/
example : ∃ y, Live y ∧ Recorded y 2 ∧ 0 < y.held 2 ∧ ∃ x, Cache.getattr y.disk 2 = .ok x := by
  obtain ⟨y, h1, h2, h3⟩ := demoFS_ex (l := [.req tblF (.lookup 1 [0x61])]) (P := fun y => (y.refs 2).nrefs = 1 ∧ y.held 2 = 1) (by decide +kernel)
  have hr : Recorded y 2 := by intro h; rw [h] at h2; cases h2
  refine ⟨y, h1, hr, by omega, ?_⟩
  rcases (C118_records_partial h1 hr).2 with h | ⟨-, h, -⟩
  · exact h
  · omega

end FS
end Dragonstash
