import Verif.Props.FSCrash
import Verif.FS.Demo
/-
  C115: what the database keeps.
-/
namespace Dragonstash.FS
open Cache Codec

/-! ### Specification -/

/-- The database has a record of inode `i`. -/
def Stored (d : DB) (i : Ino) : Prop := ∃ a, Cache.getattr d i = .ok (i, a)

/-- Inode `i` is needed: it has a path, or it is, or is below, an inode which is locked. -/
def Used (d : DB) (locks : Ino → Nat) (i : Ino) : Prop :=
  (∃ b, path d i = .ok (.ok b)) ∨ ∃ q, q ≠ 1 ∧ 0 < locks q ∧ Cache.Below d q i

/-- The lock counts in memory. -/
def Sys.locks (y : Sys) (i : Ino) : Nat := (y.refs i).nrefs

/-- Only what is needed is stored. -/
def Neat (y : Sys) : Prop := ∀ i, i < W64 → Stored y.disk i → Used y.disk y.locks i

/-- `q` was in directory `i` before the request, and has been taken out of the tree. -/
def Dropped (y y' : Sys) (i q : Ino) : Prop := (∃ n, Cache.lookup y.disk i n = .ok (.ok q)) ∧ parent y'.disk q = .ok 0

/-- `i` is in the database although it is not needed any more, because the request dropped it, or something
above it, from the directory which it opened. -/
def LeftOver (y y' : Sys) (rq : Req) (i : Ino) : Prop := ∃ dir q, rq = .opendir dir ∧ Dropped y y' dir q ∧ Cache.Below y'.disk q i

/-! ### Trees -/

section trees
variable {s s' : Tree} {d d' : DB} {r r' : Refs}

/-- What is in no directory is locked, or in `D`. -/
def Swept (s : Tree) (r : Refs) (D : Ino → Prop) : Prop :=
  ∀ i nd, s.nodes i = some nd → i ≠ ROOT → nd.loc = none → 0 < (r i).nrefs ∨ D i

theorem coll_swept {L : Ino → Prop} (h : Collected s L s') {i nd} (hi : s'.nodes i = some nd) (h1 : i ≠ ROOT) (hl : nd.loc = none) : L i := by
  by_cases hg : Gone s L i
  · rw [h.gone i hg] at hi; cases hi
  · by_cases hc : ∃ nd0 p n, s.nodes i = some nd0 ∧ nd0.loc = some (p, n) ∧ Gone s L p ∧ s.IsDir p
    · obtain ⟨nd0, p, n, a, b, c, e⟩ := hc
      exact Classical.byContradiction fun hL => hg (.child a b c e hL)
    · rw [h.keep i hg (fun nd0 p n a b c => hc ⟨nd0, p, n, a, b, c.1, c.2⟩)] at hi
      exact Classical.byContradiction fun hL => hg (.orphan hi h1 hl hL)

theorem Put.swept {p n a res} (h : Put p n a s r res s' r') {D : Ino → Prop} :
    (Swept s r D → Swept s' r' D) ∧ (Swept s' r' (fun _ => False) ∨ ∀ j, s.nodes j = none → s'.nodes j = none) := by
  have hc := h.counts
  cases h with
  | bad => exact ⟨id, .inr fun _ h => h⟩
  | @same i nd h1 h2 h3 =>
    refine ⟨fun hs j ndj hj h0 hl => ?_, .inr fun j hj => ?_⟩
    · by_cases e : j = i
      · subst e
        rw [Tree.set_self] at hj
        cases hj
        simp only at hl
        rw [h2] at hl; cases hl
      · rw [Tree.set_ne e] at hj; exact hs j ndj hj h0 hl
    · have e : j ≠ i := fun e => by subst e; rw [hj] at h1; cases h1
      rw [Tree.set_ne e]; exact hj
  | @new s1 _ _ _ h1 h2 h3 h4 =>
    have key : ∀ i nd, s'.nodes i = some nd → i ≠ ROOT → nd.loc = none → 0 < (r' i).nrefs := by
      intro i nd hi h0 hl
      have := coll_swept h3 hi h0 hl
      unfold locked at this
      rw [hc]; exact this
    exact ⟨fun _ i nd hi h0 hl => .inl (key i nd hi h0 hl), .inl fun i nd hi h0 hl => .inl (key i nd hi h0 hl)⟩

theorem Puts.swept {B base dir k l} (h : Puts B base dir k l s r s' r') {D : Ino → Prop} :
    (Swept s r D → Swept s' r' D) ∧ (Swept s' r' (fun _ => False) ∨ ∀ j, s.nodes j = none → s'.nodes j = none) := by
  induction h generalizing D with
  | nil => exact ⟨id, .inr fun _ h => h⟩
  | skip _ _ ih => exact ih
  | @put k n l s r s1 r1 s' r' sr res _ h1 _ ih =>
    refine ⟨fun hs => (ih (D := D)).1 (h1.swept.1 hs), ?_⟩
    rcases (h1.swept (D := D)).2 with h2 | h2
    · exact .inl ((ih (D := fun _ => False)).1 h2)
    · rcases (ih (D := D)).2 with h3 | h3
      · exact .inl h3
      · exact .inr fun j hj => h3 j (h2 j hj)

theorem SyncTo.swept {B base dir l} (h : SyncTo B base dir l s r s' r') :
    (Swept s r (fun _ => False) ∨ ¬ ∀ j, s.nodes j = none → s'.nodes j = none) → Swept s' r' (fun q => ∃ n, s.At dir n q) := by
  cases h with
  | @mk s1 _ nd rw hp hs hn hok hm he =>
    intro hyp
    have h1 : Swept s1 r' (fun _ => False) := by
      rcases hyp with h1 | h1
      · exact hp.swept.1 h1
      · rcases (hp.swept (D := fun _ => False)).2 with h2 | h2
        · exact h2
        · refine absurd (fun j hj => ?_) h1
          apply orphans_none
          have hj := h2 j hj
          have e : j ≠ dir := fun e => by subst e; rw [hj] at hn; cases hn
          rw [Tree.set_ne e]; exact hj
    obtain ⟨lst, hw, -, -⟩ := hs.rewr
    intro j ndj hj h0 hl
    have hex : ∃ nd1, s1.nodes j = some nd1 := by
      cases hj1 : s1.nodes j with
      | some nd1 => exact ⟨nd1, rfl⟩
      | none =>
        have : (s1.set dir { nd with flags := newFlags nd.flags [SYNCED] [] }).nodes j = none := by
          have e : j ≠ dir := fun e => by subst e; rw [hj1] at hn; cases hn
          rw [Tree.set_ne e]; exact hj1
        rw [orphans_none this] at hj; cases hj
    obtain ⟨nd1, hj1⟩ := hex
    have hset : ∃ nd2, (s1.set dir { nd with flags := newFlags nd.flags [SYNCED] [] }).nodes j = some nd2 ∧ nd2.loc = nd1.loc := by
      by_cases e : j = dir
      · subst e
        rw [hn] at hj1
        cases hj1
        exact ⟨_, Tree.set_self, rfl⟩
      · exact ⟨nd1, by rw [Tree.set_ne e]; exact hj1, rfl⟩
    obtain ⟨nd2, g1, g2⟩ := hset
    obtain ⟨nd3, k1, -, -, -, -, k2⟩ := orphans_nodes (l := marks rw) g1
    rw [hj] at k1
    injection k1 with k1
    subst k1
    cases hloc : nd1.loc with
    | none => rcases h1 j nd1 hj1 h0 hloc with h | h
              · exact .inl h
              · exact h.elim
    | some x =>
      obtain ⟨q, m⟩ := x
      by_cases hmk : j ∈ marks rw
      · right
        have hrw : ∃ L, rw = some L ∧ j ∈ L := by
          cases hx : rw with
          | none => rw [hx] at hmk; cases hmk
          | some L => rw [hx] at hmk; exact ⟨L, rfl, hmk⟩
        obtain ⟨L, hL, hjL⟩ := hrw
        have hat : s1.At q m j := ⟨nd1, hj1, hloc⟩
        have hq := (hw.own L j hL hjL).2 q m hat
        subst hq
        have hnone := (hw.mark m j hat).1 ⟨L, hL, hjL⟩
        rcases (hw.at_ m j).1 hat with h | ⟨-, h⟩
        · rw [hnone] at h; cases h
        · exact ⟨m, h⟩
      · rw [k2 hmk, g2, hloc] at hl; cases hl

theorem walk_snoc {d : DB} : ∀ {cs : List Bytes} {q p n i}, Walk d q cs p → Cache.lookup d p n = .ok (.ok i) → Walk d q (cs ++ [n]) i := by
  intro cs
  induction cs with
  | nil => intro q p n i h h1; cases h; exact ⟨i, h1, rfl⟩
  | cons c cs ih => intro q p n i h h1; obtain ⟨j, a, b⟩ := h; exact ⟨j, a, ih b h1⟩

/-- Every inode is in the tree or below one which is in no directory. -/
theorem top_of (ok : s.OK) (wf : s.WF) (h : Rep s d) : ∀ (k i : Nat) nd, i < k → s.nodes i = some nd →
    s.Conn i ∨ ∃ q ndq, s.nodes q = some ndq ∧ q ≠ ROOT ∧ ndq.loc = none ∧ Cache.Below d q i := by
  intro k
  induction k with
  | zero => intro i nd h; omega
  | succ k ih =>
    intro i nd hk hi
    by_cases h0 : i = ROOT
    · subst h0; exact .inl ⟨[], .root⟩
    cases hl : nd.loc with
    | none => exact .inr ⟨i, nd, hi, h0, hl, [], rfl⟩
    | some x =>
      obtain ⟨p, n⟩ := x
      obtain ⟨h1, ndp, h2, -⟩ := wf i nd p n hi hl
      have hat : s.At p n i := ⟨nd, hi, hl⟩
      rcases ih p ndp (by omega) h2 with ⟨cs, hc⟩ | ⟨q, ndq, a, b, c, cs, e⟩
      · exact .inl ⟨cs ++ [n], .child hat hc⟩
      · exact .inr ⟨q, ndq, a, b, c, cs ++ [n], walk_snoc e (h.lookup_found ok hat)⟩

theorem stored_node (ok : s.OK) (h : Rep s d) {i} (hb : i < W64) : Stored d i ↔ ∃ nd, s.nodes i = some nd := by
  unfold Stored
  rw [h.getattr ok hb]
  cases s.nodes i <;> simp

theorem Swept.used {D : Ino → Prop} (hs : Swept s r D) (h : SI s d r) {i} (hb : i < W64) (hi : Stored d i) :
    Used d (fun j => (r j).nrefs) i ∨ ∃ q, D q ∧ parent d q = .ok 0 ∧ Cache.Below d q i := by
  obtain ⟨nd, hn⟩ := (stored_node h.ok h.rep hb).1 hi
  rcases top_of h.ok h.wf h.rep (i + 1) i nd (by omega) hn with ⟨cs, hc⟩ | ⟨q, ndq, a, b, c, e⟩
  · exact .inl (.inl ⟨_, h.rep.path_found h.ok hc⟩)
  · rcases hs q ndq a b c with h1 | h1
    · exact .inl (.inr ⟨q, b, h1, e⟩)
    · refine .inr ⟨q, h1, ?_, e⟩
      rw [h.rep.parent h.ok (OK.lt h.ok a), if_neg b, a]
      simp [Node.par, c]

theorem opened_neat (h : Rep s d) (ok : s.OK) (wf : s.WF) (ho : openCleanDB d Refs.empty = .ok (d', r')) :
    ∀ i, i < W64 → Stored d' i → ∃ b, path d' i = .ok (.ok b) := by
  obtain ⟨s1, s2, h1, h2, h3⟩ := open_SI h ok wf ho
  intro i hb hi
  obtain ⟨nd, hn⟩ := (stored_node h1.ok h1.rep hb).1 hi
  rcases top_of h1.ok h1.wf h1.rep (i + 1) i nd (by omega) hn with ⟨cs, hc⟩ | ⟨q, ndq, a, b, c, e⟩
  · exact ⟨_, h1.rep.path_found h1.ok hc⟩
  · exact (coll_swept h3 a b c).elim

theorem neat_swept (h : SI s d r) (hu : ∀ i, i < W64 → Stored d i → Used d (fun j => (r j).nrefs) i) : Swept s r (fun _ => False) := by
  intro i nd hi h0 hl
  have hb := OK.lt h.ok hi
  have noAt : ∀ p n, p < W64 → Cache.lookup d p n ≠ .ok (.ok i) := by
    intro p n hp hlk
    obtain ⟨nd', a, b⟩ := (h.rep.lookup_iff h.ok hp).1 hlk
    rw [hi] at a; cases a; rw [hl] at b; cases b
  rcases hu i hb ((stored_node h.ok h.rep hb).2 ⟨nd, hi⟩) with ⟨b, hp⟩ | ⟨q, h1, h2, cs, hw⟩
  · obtain ⟨cs, hc, -⟩ := h.rep.path_iff h.ok hb hp
    cases hc with
    | root => exact absurd rfl h0
    | child hat _ => obtain ⟨nd', a, b⟩ := hat; rw [hi] at a; cases a; rw [hl] at b; cases b
  · left
    have hqb : q < W64 := by obtain ⟨ndq, hq⟩ := h.locked q h2; exact OK.lt h.ok hq
    have key : ∀ (cs : List Bytes) q, q < W64 → Walk d q cs i → i = q := by
      intro cs
      induction cs with
      | nil => intro q _ h; exact h
      | cons c cs ih =>
        intro q hq hw
        obtain ⟨j, a, b⟩ := hw
        obtain ⟨ndj, e, -⟩ := (h.rep.lookup_iff h.ok hq).1 a
        have := ih j (OK.lt h.ok e) b
        subst this
        exact absurd a (noAt q c hq)
    rw [key cs q hqb hw]; exact h2

theorem Removed.swept {i} (h : Removed s r i s' r') : Swept s' r' (fun _ => False) := by
  intro j nd hj h0 hl
  have := coll_swept h.coll hj h0 hl
  unfold locked at this
  exact .inl (by rw [h.counts]; exact this)

theorem swept_mono {D D' : Ino → Prop} (h : Swept s r D) (hr : ∀ i, (r i).nrefs ≤ (r' i).nrefs ∨ D' i) (hD : ∀ i, D i → D' i) : Swept s r' D' := by
  intro i nd hi h0 hl
  rcases hr i with h1 | h1
  · rcases h i nd hi h0 hl with h2 | h2
    · exact .inl (by omega)
    · exact .inr (hD i h2)
  · exact .inr h1

theorem set_swept {D : Ino → Prop} {i nd nd'} (hi : s.nodes i = some nd) (hl : nd'.loc = nd.loc) (h : Swept s r D) : Swept (s.set i nd') r D := by
  intro j ndj hj h0 hlj
  by_cases e : j = i
  · subst e
    rw [Tree.set_self] at hj
    cases hj
    exact h j nd hi h0 (by rw [← hl]; exact hlj)
  · rw [Tree.set_ne e] at hj; exact h j ndj hj h0 hlj

theorem abs_less {B rq rep} (h : Abs B d s r rq rep s' r') (hr : ∀ i, rq.returned i ≤ (r i).nrefs) (i : Ino) :
    (r i).nrefs ≤ (r' i).nrefs ∨ 0 < rq.returned i := by
  have := (abs_counts h hr i).1
  by_cases h0 : 0 < rq.returned i
  · exact .inr h0
  · left; omega

/-- What one request leaves. -/
theorem abs_swept {B rq rep} (h : Abs B d s r rq rep s' r') (ok : s.OK) (hc : ∀ i, (r i).nrefs ≤ (r' i).nrefs ∨ 0 < rq.returned i) :
    (Swept s r (fun _ => False) → Swept s' r' (fun q => 0 < rq.returned q ∨ ∃ i n, rq = .opendir i ∧ s.At i n q)) ∧
    (((∃ j, s.nodes j = none ∧ ∃ nd, s'.nodes j = some nd) ∨ ((∀ i, rq ≠ .opendir i) ∧ ∃ p n i, ¬ (s.At p n i ↔ s'.At p n i))) →
      Swept s' r' (fun q => ∃ i n, rq = .opendir i ∧ s.At i n q)) := by
  have same : ∀ {P : Prop}, (s' = s) → (((∃ j, s.nodes j = none ∧ ∃ nd, s'.nodes j = some nd) ∨ ((∀ i, rq ≠ .opendir i) ∧ ∃ p n i, ¬ (s.At p n i ↔ s'.At p n i))) → P) := by
    intro P e hx
    subst e
    rcases hx with ⟨j, a, nd, b⟩ | ⟨-, p, n, i, h⟩
    · rw [a] at b; cases b
    · exact absurd Iff.rfl h
  have keep : Swept s r (fun _ => False) → Swept s r' (fun q => 0 < rq.returned q ∨ ∃ i n, rq = .opendir i ∧ s.At i n q) := by
    intro hs
    refine swept_mono hs (fun i => ?_) (fun i hi => hi.elim)
    rcases hc i with h1 | h1
    · exact .inl h1
    · exact .inr (.inl h1)
  have idle : s' = s → (Swept s r (fun _ => False) → Swept s' r' (fun q => 0 < rq.returned q ∨ ∃ i n, rq = .opendir i ∧ s.At i n q)) ∧
    (((∃ j, s.nodes j = none ∧ ∃ nd, s'.nodes j = some nd) ∨ ((∀ i, rq ≠ .opendir i) ∧ ∃ p n i, ¬ (s.At p n i ↔ s'.At p n i))) →
      Swept s' r' (fun q => ∃ i n, rq = .opendir i ∧ s.At i n q)) := by
    intro e
    exact ⟨by subst e; exact keep, same e⟩
  have all : Swept s' r' (fun _ => False) → (Swept s r (fun _ => False) → Swept s' r' (fun q => 0 < rq.returned q ∨ ∃ i n, rq = .opendir i ∧ s.At i n q)) ∧
    (((∃ j, s.nodes j = none ∧ ∃ nd, s'.nodes j = some nd) ∨ ((∀ i, rq ≠ .opendir i) ∧ ∃ p n i, ¬ (s.At p n i ↔ s'.At p n i))) →
      Swept s' r' (fun q => ∃ i n, rq = .opendir i ∧ s.At i n q)) := by
    intro hs
    exact ⟨fun _ => swept_mono hs (fun i => .inl (Nat.le_refl _)) (fun i hi => hi.elim), fun _ => swept_mono hs (fun i => .inl (Nat.le_refl _)) (fun i hi => hi.elim)⟩
  have setc : ∀ {i nd nd'}, s.nodes i = some nd → nd'.loc = nd.loc → s' = s.set i nd' →
      (Swept s r (fun _ => False) → Swept s' r' (fun q => 0 < rq.returned q ∨ ∃ i n, rq = .opendir i ∧ s.At i n q)) ∧
    (((∃ j, s.nodes j = none ∧ ∃ nd, s'.nodes j = some nd) ∨ ((∀ i, rq ≠ .opendir i) ∧ ∃ p n i, ¬ (s.At p n i ↔ s'.At p n i))) →
      Swept s' r' (fun q => ∃ i n, rq = .opendir i ∧ s.At i n q)) := by
    intro i nd nd' hi hl e
    subst e
    refine ⟨fun hs => set_swept hi hl (keep hs), fun hx => ?_⟩
    rcases hx with ⟨j, a, ndj, b⟩ | ⟨-, p, n, j, h⟩
    · have e : j ≠ i := fun e => by subst e; rw [hi] at a; cases a
      rw [Tree.set_ne e, a] at b; cases b
    · exact absurd (at_set hi hl).symm h
  cases h with
  | @lkBad p n cs sr e _ _ h1 h2 h3 => cases h3; exact idle rfl
  | @lkPut p n cs sr i _ r1 h1 h2 h3 =>
    cases h3 with
    | same a b c => refine setc a ?_ rfl; rfl
    | @new s1 _ _ g1 g2 g3 g4 g5 =>
      apply all
      intro j nd hj h0 hl
      have := coll_swept g4 hj h0 hl
      unfold locked at this
      left
      rw [addRef_count, (g5 j).1]
      omega
  | lkErr h1 h2 h3 h4 h5 => exact all h5.swept
  | rlPut h1 h2 h3 h4 => refine setc h3 ?_ rfl; rfl
  | rlErr h1 h2 h3 h4 h5 => exact all h5.swept
  | @odSync i cs names e _ _ h1 h2 h3 =>
    have hD : ∀ q, (∃ n, s.At i n q) → ∃ i' n, Req.opendir i = Req.opendir i' ∧ s.At i' n q := fun q ⟨n, hq⟩ => ⟨i, n, rfl, hq⟩
    refine ⟨fun hs => swept_mono (h3.swept (.inl hs)) (fun i => .inl (Nat.le_refl _)) (fun q hq => .inr (hD q hq)), fun hx => ?_⟩
    refine swept_mono (h3.swept (.inr ?_)) (fun i => .inl (Nat.le_refl _)) hD
    rcases hx with ⟨j, a, nd, b⟩ | ⟨h, -⟩
    · intro hall; rw [hall j a] at b; cases b
    · exact absurd rfl (h i)
  | _ => exact idle rfl

end trees

/-! ### C115 -/

/-- C115, opening: what remains when a cache is opened, by a process which was started after any number of others
ended or died, is exactly what has a path. -/
theorem C115_mount_partial {y : Sys} (hy : Live y) {uid gid now d r} (ho : openCleanDB (initDB y.disk uid gid now) Refs.empty = .ok (d, r)) :
    ∀ i, i < W64 → Stored d i → ∃ b, path d i = .ok (.ok b) := by
  obtain ⟨s, h1, -⟩ := live_inv hy
  rw [init_same hy] at ho
  exact opened_neat h1.rep h1.ok h1.wf ho

/-- C115: if a lookup or the reading of a link adds, removes or replaces an entry, or opening a directory adds
something, then only what is needed remains, except for what this very request dropped from the directory it opened. -/
theorem C115_swept_partial {y : Sys} {B : Backend} {rq : Req} {st : St} (hy : Live y) (hv : Valid y B rq) (hd : dispatch B y.disk y.refs rq = .ok st)
    (hf : st.fault = none)
    (hch : (∃ j, j < W64 ∧ ¬ Stored y.disk j ∧ Stored st.disk j) ∨
      ((∀ i, rq ≠ .opendir i) ∧ ∃ p n i, p < W64 ∧ ¬ (Cache.lookup y.disk p n = .ok (.ok i) ↔ Cache.lookup st.disk p n = .ok (.ok i)))) :
    ∀ i, i < W64 → Stored st.disk i → Used st.disk (y.after rq st).locks i ∨ LeftOver y (y.after rq st) rq i := by
  obtain ⟨s, h1, h2⟩ := live_inv hy
  rcases dispatch_served h1 h2 hv with ⟨s', d', r', rep, g1, g2, g3⟩ | ⟨dir, size, off, e, -, -, g1⟩
  · rw [g1] at hd; cases hd
    have hs := (abs_swept g3 h1.ok (abs_less g3 (fun j => Nat.le_trans (hv.2.2.1 j) (h2 j)))).2 (by
      rcases hch with ⟨j, hj, a, b⟩ | ⟨a, p, n, i, hp, b⟩
      · left
        refine ⟨j, ?_, (stored_node g2.ok g2.rep hj).1 b⟩
        cases hn : s.nodes j with
        | none => rfl
        | some nd => exact absurd ((stored_node h1.ok h1.rep hj).2 ⟨nd, hn⟩) a
      · right
        refine ⟨a, p, n, i, fun h => b ?_⟩
        rw [h1.rep.lookup_iff h1.ok hp]
        exact h.trans (g2.rep.lookup_iff g2.ok hp).symm)
    intro i hb hi
    rcases hs.used g2 hb hi with h | ⟨q, ⟨dir, n, e, hat⟩, hq, hbl⟩
    · exact .inl h
    · exact .inr ⟨dir, q, e, ⟨⟨n, h1.rep.lookup_found h1.ok hat⟩, hq⟩, hbl⟩
  · rw [g1] at hd; cases hd; cases hf

/-- C115: something which is not needed comes into being in two ways only: a directory is opened in which an entry is
missing now, or the kernel gives back the last reference to something which was removed earlier. -/
theorem C115_only_partial {y : Sys} {B : Backend} {rq : Req} {st : St} (hy : Live y) (hv : Valid y B rq) (hd : dispatch B y.disk y.refs rq = .ok st)
    (hf : st.fault = none) (hn : Neat y) :
    ∀ i, i < W64 → Stored st.disk i → Used st.disk (y.after rq st).locks i ∨ LeftOver y (y.after rq st) rq i ∨
      ∃ q, 0 < rq.returned q ∧ parent st.disk q = .ok 0 ∧ Cache.Below st.disk q i := by
  obtain ⟨s, h1, h2⟩ := live_inv hy
  rcases dispatch_served h1 h2 hv with ⟨s', d', r', rep, g1, g2, g3⟩ | ⟨dir, size, off, e, -, -, g1⟩
  · rw [g1] at hd; cases hd
    have hs := (abs_swept g3 h1.ok (abs_less g3 (fun j => Nat.le_trans (hv.2.2.1 j) (h2 j)))).1 (neat_swept h1 hn)
    intro i hb hi
    rcases hs.used g2 hb hi with h | ⟨q, hD, hq, hbl⟩
    · exact .inl h
    · rcases hD with hr | ⟨dir, n, e, hat⟩
      · exact .inr (.inr ⟨q, hr, hq, hbl⟩)
      · exact .inr (.inl ⟨dir, q, e, ⟨⟨n, h1.rep.lookup_found h1.ok hat⟩, hq⟩, hbl⟩)
  · rw [g1] at hd; cases hd; cases hf

/-- The same for a process with several threads, however the one before died. -/
theorem C115_mount_threads_partial {m : MT.MSys} (hm : MT.MReach m) {uid gid now d r} (ho : openCleanDB (initDB m.w.disk uid gid now) Refs.empty = .ok (d, r)) :
    ∀ i, i < W64 → Stored d i → ∃ b, path d i = .ok (.ok b) := by
  obtain ⟨_, _, _, _, _, _, _, _, s, -, -, h⟩ := hm.inv
  have hi : initDB m.w.disk uid gid now = m.w.disk := by unfold initDB; rw [h.si.rep.next]
  rw [hi] at ho
  exact opened_neat h.si.rep h.si.ok h.si.wf ho

/-- C115 in full: after every request only what is needed is stored. -/
def C115_full : Prop := ∀ y, Live y → Neat y

theorem neat_locked {y : Sys} (hy : Live y) (hn : Neat y) {i : Ino} (hb : i < W64) (h0 : i ≠ 1) (hi : Stored y.disk i) (hp : parent y.disk i = .ok 0) :
    0 < y.locks i := by
  obtain ⟨s, h1, -⟩ := live_inv hy
  obtain ⟨nd, hnd⟩ := (stored_node h1.ok h1.rep hb).1 hi
  rw [h1.rep.parent h1.ok hb, if_neg (show i ≠ ROOT from h0), hnd] at hp
  have hl : nd.loc = none := by
    cases hl : nd.loc with
    | none => rfl
    | some x =>
      obtain ⟨p, n⟩ := x
      simp [Node.par, hl] at hp
      have := (h1.ok.loc i nd p n hnd hl).1
      omega
  rcases neat_swept h1 hn i nd hnd h0 hl with h | h
  · exact h
  · exact h.elim

theorem stored_dec {d : DB} {i : Ino} (h : (Cache.getattr d i).map Prod.fst = .ok i) : Stored d i := by
  unfold Stored
  cases hg : Cache.getattr d i with
  | error e => rw [hg] at h; cases h
  | ok x =>
    rw [hg] at h
    obtain ⟨a, b⟩ := x
    injection h with h
    simp only at h
    exact ⟨b, by rw [h]⟩

theorem not_stored_dec {d : DB} {i : Ino} (h : (Cache.getattr d i).map Prod.fst = .error ENOENT) : ¬ Stored d i := by
  rintro ⟨a, ha⟩
  rw [ha] at h; cases h

/-- The backend of `tblA`, from which everything has been removed. -/
def tblNone : Tbl where
  stats := []
  links := []
  dirs := [([0x2f], .ok ([], 0))]

/-- It is false: what is missing when a directory is opened again is taken out of the tree, but stays in the database,
(`finish_dir_rewrite` does not call `clean_orphans`). -/
theorem C115_counterexample : ¬ C115_full := by
  intro h
  obtain ⟨y, hy, h1, h2, h3⟩ := demoFS_ex (l := [.req tblA (.opendir 1), .req tblNone (.opendir 1)])
    (P := fun y => parent y.disk 2 = .ok 0 ∧ (Cache.getattr y.disk 2).map Prod.fst = .ok 2 ∧ (y.refs 2).nrefs = 0) (by decide +kernel)
  have hs := stored_dec h2
  have := neat_locked hy (h y hy) (by decide) (by decide) hs h1
  unfold Sys.locks at this
  omega

/-- The same after the kernel has given back its last reference to something which had been removed. -/
theorem C115_forget_counterexample : ¬ C115_full := by
  intro h
  obtain ⟨y, hy, h1, h2, h3⟩ := demoFS_ex (l := [.req tblA (.lookup 1 [0x61]), .req tblNone (.lookup 1 [0x61]), .req tblNone (.forget 2 1)])
    (P := fun y => parent y.disk 2 = .ok 0 ∧ (Cache.getattr y.disk 2).map Prod.fst = .ok 2 ∧ (y.refs 2).nrefs = 0) (by decide +kernel)
  have hs := stored_dec h2
  have := neat_locked hy (h y hy) (by decide) (by decide) hs h1
  unfold Sys.locks at this
  omega

/-- The hypotheses of `C115_swept_partial` are met: what the opening of the root directory had left, inode 2, is removed by the
next lookup which adds something. -/
example : ∃ y st, Live y ∧ Valid y tblA.backend (.lookup 1 [0x61]) ∧ dispatch tblA.backend y.disk y.refs (.lookup 1 [0x61]) = .ok st ∧ st.fault = none ∧
    ¬ Stored y.disk 4 ∧ Stored st.disk 4 ∧ Stored y.disk 2 ∧ ¬ Stored st.disk 2 := by
  obtain ⟨y, hy, hv, h1, h2, h3⟩ := demoFS_valid (l := [.req tblA (.opendir 1), .req tblNone (.opendir 1)]) (t := tblA) (rq := .lookup 1 [0x61])
    (P := fun y => (Cache.getattr y.disk 2).map Prod.fst = .ok 2 ∧ (Cache.getattr y.disk 4).map Prod.fst = .error ENOENT ∧
      (dispatch tblA.backend y.disk y.refs (.lookup 1 [0x61])).map (fun st => (st.fault.isNone, (Cache.getattr st.disk 2).map Prod.fst, (Cache.getattr st.disk 4).map Prod.fst)) =
        .ok (true, .error ENOENT, .ok 4)) (by decide +kernel)
  cases hd : dispatch tblA.backend y.disk y.refs (.lookup 1 [0x61]) with
  | error e => rw [hd] at h3; cases h3
  | ok st =>
    rw [hd] at h3
    injection h3 with h3
    simp only [Prod.mk.injEq] at h3
    exact ⟨y, st, hy, hv, hd, Option.isNone_iff_eq_none.1 h3.1, not_stored_dec h2, stored_dec h3.2.2, stored_dec h1, not_stored_dec h3.2.1⟩

/-- The hypotheses of `C115_mount_partial` are met: inode 2, left over, is gone when the cache is opened again. -/
example : ∃ y d r, Live y ∧ openCleanDB (initDB y.disk 0 0 ⟨0, 0⟩) Refs.empty = .ok (d, r) ∧ Stored y.disk 2 ∧ ¬ Stored d 2 := by
  obtain ⟨y, hy, h1, h2⟩ := demoFS_ex (l := [.req tblA (.opendir 1), .req tblNone (.opendir 1)])
    (P := fun y => (Cache.getattr y.disk 2).map Prod.fst = .ok 2 ∧
      (openCleanDB (initDB y.disk 0 0 ⟨0, 0⟩) Refs.empty).map (fun x => (Cache.getattr x.1 2).map Prod.fst) = .ok (.error ENOENT)) (by decide +kernel)
  cases ho : openCleanDB (initDB y.disk 0 0 ⟨0, 0⟩) Refs.empty with
  | error e => rw [ho] at h2; cases h2
  | ok x =>
    rw [ho] at h2
    injection h2 with h2
    exact ⟨y, x.1, x.2, hy, by rw [ho], stored_dec h1, not_stored_dec h2⟩

/-- The hypotheses of `C115_only_partial` are met: after the mount only what is needed is stored. -/
example {uid gid now d r} (ho : openCleanDB (initDB emptyDB uid gid now) Refs.empty = .ok (d, r)) : Live ⟨d, r, fun _ => 0⟩ ∧ Neat ⟨d, r, fun _ => 0⟩ := by
  obtain ⟨s, h1, h2, h3⟩ := root_rep uid gid now
  exact ⟨.mount ho, fun i hb hi => .inl (opened_neat h1 h2 h3 ho i hb hi)⟩

end Dragonstash.FS
