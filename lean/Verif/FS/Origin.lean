/-
  Attributes and link targets in the cache come from the backend: invariant.
-/
import Verif.FS.Keep
import Verif.FS.Said
namespace Dragonstash.FS
open Cache Codec
variable {s s' s'' : Tree} {d d' : DB} {r r' : Refs} {S : Bytes → BStat → Prop} {T : Bytes → Bytes → Prop}

/-- The inode with path `cs` is as the backend said. -/
def NodeFrom (S : Bytes → BStat → Prop) (T : Bytes → Bytes → Prop) (cs : List Bytes) (a : Attrs) (t : Option Bytes) : Prop :=
  (∃ sr, S (pathStr cs) sr ∧ (a = fromBackend sr ∨ fmt sr.mode = S_IFLNK ∧ ∃ t, T (pathStr cs) t ∧ a = { fromBackend sr with size := t.length })) ∧
  ∀ x, t = some x → T (pathStr cs) x

def Orig (S : Bytes → BStat → Prop) (T : Bytes → Bytes → Prop) (s : Tree) : Prop :=
  ∀ i nd, s.nodes i = some nd → i ≠ ROOT → ∃ cs, cs ≠ [] ∧ (∀ c ∈ cs, c ≠ []) ∧ (∀ ds, s.PathTo i ds → ds = cs) ∧ NodeFrom S T cs nd.attr nd.target

theorem Orig.named (h : Orig S T s) (ok : s.OK) {i ds} (hp : s.PathTo i ds) : ∀ c ∈ ds, c ≠ [] := by
  by_cases hi : i = ROOT
  · subst hi; rw [PathTo.root_nil ok hp]; simp
  · obtain ⟨nd, hn⟩ := conn_exists ok ⟨ds, hp⟩
    obtain ⟨cs, -, h1, h2, -⟩ := h i nd hn hi
    rw [h2 ds hp]; exact h1

theorem Orig.back (h : Orig S T s) (hat : ∀ p n i, s'.At p n i → s.At p n i)
    (hn : ∀ i nd', s'.nodes i = some nd' → ∃ nd, s.nodes i = some nd ∧ nd'.attr = nd.attr ∧ nd'.target = nd.target) : Orig S T s' := by
  have path : ∀ {i ds}, s'.PathTo i ds → s.PathTo i ds := by
    intro i ds hp
    induction hp with
    | root => exact .root
    | child h1 _ ih => exact .child (hat _ _ _ h1) ih
  intro i nd' h1 h2
  obtain ⟨nd, g1, g2, g3⟩ := hn i nd' h1
  obtain ⟨cs, k1, k2, k3, k4⟩ := h i nd g1 h2
  exact ⟨cs, k1, k2, fun ds hp => k3 ds (path hp), by rw [g2, g3]; exact k4⟩

theorem Orig.orphan (h : Orig S T s) (i : Ino) : Orig S T (s.orphan i) := by
  refine h.back (fun p n j hj => (at_orphan.mp hj).1) ?_
  intro j nd' hj
  by_cases hji : j = i
  · subst hji
    cases hn : s.nodes j with
    | none => rw [orphan_none hn] at hj; cases hj
    | some x => rw [Tree.orphan_self hn] at hj; cases hj; exact ⟨x, rfl, rfl, rfl⟩
  · rw [Tree.orphan_ne hji] at hj; exact ⟨nd', hj, rfl, rfl⟩

theorem Orig.orphans {l : List Ino} : ∀ {s : Tree}, Orig S T s → Orig S T (s.orphans l) := by
  induction l with
  | nil => intro s h; exact h
  | cons i l ih => intro s h; exact ih (h.orphan i)

theorem Orig.collected {L : Ino → Prop} (h : Orig S T s) (hc : Collected s L s') : Orig S T s' := by
  refine h.back (fun p n j hj => ((at_collected hc).mp hj).1) ?_
  intro j nd' hj
  obtain ⟨-, nd, h1, h2, -, h3, -⟩ := hc.back hj
  exact ⟨nd, h1, h2, h3⟩

theorem Orig.set (h : Orig S T s) (ok : s.OK) {i nd nd' cs} (hi : s.nodes i = some nd) (hl : nd'.loc = nd.loc) (hp : s.PathTo i cs)
    (hf : i ≠ ROOT → NodeFrom S T cs nd.attr nd.target → NodeFrom S T cs nd'.attr nd'.target) : Orig S T (s.set i nd') := by
  have path : ∀ {j ds}, (s.set i nd').PathTo j ds → s.PathTo j ds := by
    intro j ds hp
    induction hp with
    | root => exact .root
    | child h1 _ ih => exact .child ((at_set hi hl).mp h1) ih
  intro j x hj hr
  by_cases hji : j = i
  · subst hji
    rw [Tree.set_self] at hj; cases hj
    obtain ⟨es, k1, k2, k3, k4⟩ := h j nd hi hr
    have := k3 cs hp; subst this
    exact ⟨cs, k1, k2, fun ds hd => k3 ds (path hd), hf hr k4⟩
  · rw [Tree.set_ne hji] at hj
    obtain ⟨es, k1, k2, k3, k4⟩ := h j x hj hr
    exact ⟨es, k1, k2, fun ds hd => k3 ds (path hd), k4⟩

theorem Orig.add (h : Orig S T s) (ok : s.OK) (wf : s.WF) {p n sr cs} (hp : s.PathTo p cs) (hn : n ≠ []) (hs : S (pathStr (cs ++ [n])) sr) :
    Orig S T (s.add p n (fromBackend sr)) := by
  have path : ∀ {j ds}, (s.add p n (fromBackend sr)).PathTo j ds → j ≠ s.next → s.PathTo j ds := by
    intro j ds hp
    induction hp with
    | root => intro _; exact .root
    | @child q m j es h1 _ ih =>
      intro hj
      rcases (at_add ok).mp h1 with h2 | ⟨-, -, h2⟩
      · refine .child h2 (ih ?_)
        rintro rfl
        obtain ⟨x, h3, h4⟩ := h2
        obtain ⟨-, y, h5, -⟩ := wf j x _ m h3 h4
        rw [OK.fresh ok] at h5; cases h5
      · exact absurd h2 hj
  intro j x hj hr
  by_cases hji : j = s.next
  · subst hji
    rw [Tree.add_self] at hj; cases hj
    refine ⟨cs ++ [n], by simp, ?_, ?_, ⟨sr, hs, .inl rfl⟩, fun x hx => by cases hx⟩
    · intro c hc
      rcases List.mem_append.mp hc with hc | hc
      · exact h.named ok hp c hc
      · rw [List.mem_singleton.mp hc]; exact hn
    · intro ds hd
      generalize hk : s.next = k at hd
      cases hd with
      | root => exact absurd hk hr
      | @child q m _ es h1 h2 =>
        subst hk
        rcases (at_add ok).mp h1 with ⟨x, h3, -⟩ | ⟨rfl, rfl, -⟩
        · rw [OK.fresh ok] at h3; cases h3
        · obtain ⟨y, hy⟩ := conn_exists ok ⟨cs, hp⟩
          have hq : q ≠ s.next := by rintro rfl; rw [OK.fresh ok] at hy; cases hy
          rw [PathTo.unique ok (path h2 hq) hp]
  · rw [Tree.add_ne hji] at hj
    obtain ⟨es, k1, k2, k3, k4⟩ := h j x hj hr
    exact ⟨es, k1, k2, fun ds hd => k3 ds (path hd hji), k4⟩

theorem OK.wf_orphan (wf : s.WF) (i : Ino) : (s.orphan i).WF := by
  intro j nd p n hj hl
  by_cases hji : j = i
  · subst hji
    cases hn : s.nodes j with
    | none => rw [orphan_none hn] at hj; cases hj
    | some x => rw [Tree.orphan_self hn] at hj; cases hj; cases hl
  · rw [Tree.orphan_ne hji] at hj
    obtain ⟨h1, h2⟩ := wf j nd p n hj hl
    exact ⟨h1, IsDir.orphan i h2⟩

theorem Put.orig {p n sr res cs} (h : Put p n (fromBackend sr) s r res s' r') (ho : Orig S T s) (ok : s.OK) (wf : s.WF) (hp : s.PathTo p cs)
    (hn : n ≠ []) (hs : S (pathStr (cs ++ [n])) sr) (hd : s.IsDir p) : Orig S T s' := by
  cases h with
  | bad => exact ho
  | @same i nd h1 h2 h3 =>
    refine ho.set ok h1 rfl (.child ⟨nd, h1, h2⟩ hp) (fun _ hf => ⟨⟨sr, hs, .inl rfl⟩, hf.2⟩)
  | @new s1 _ _ hn' h1 h2 h3 h4 =>
    refine Orig.collected ?_ h3
    rcases h1 with ⟨rfl, -⟩ | ⟨i, nd, rfl, k1, k2, -⟩
    · exact ho.add ok wf hp hn hs
    · refine (ho.orphan i).add (OK.orphan ok i) (OK.wf_orphan wf i) (hp.orphan fun ds hds hi => ?_) hn hs
      have h5 : s.PathTo i (cs ++ [n]) := .child ⟨nd, k1, k2⟩ hp
      have := PathTo.unique ok hi h5
      subst this
      have := hds.length_le
      simp at this; omega

theorem Put.path {p n a res cs} (h : Put p n a s r res s' r') (ok : s.OK) (hd : s.IsDir p) (hnext : s.next + 1 < W64) (hp : s.PathTo p cs) : s'.PathTo p cs := by
  refine (h.stay (A := fun _ a => fmt a.mode = S_IFDIR) (fs := []) ok hd hnext hp (fun h => by simp at h) (fun _ a b h1 h2 => h1.trans h2.symm) ⟨⟨ROOT, .root⟩, ?_⟩).2
  intro ds k nd hds hk hn
  rw [List.prefix_nil] at hds; subst hds
  have : k = ROOT := PathTo.inj ok hk .root
  subst this
  obtain ⟨x, h1, h2, -⟩ := ok.root
  rw [h1] at hn; cases hn; exact h2

theorem Puts.orig {B : Backend} {i k names cs} (h : Puts B (backendPath (pathStr cs)) i k names s r s' r') (hB : Said S T B) (hne : [] ∉ names) (ho : Orig S T s) (ok : s.OK)
    (wf : s.WF) (hd : s.IsDir i) (hlen : s.next + names.length < W64) (hp : s.PathTo i cs) : Orig S T s' ∧ s'.PathTo i cs := by
  induction h with
  | nil => exact ⟨ho, hp⟩
  | skip _ _ ih => exact ih (fun h => hne (by simp [h])) ho ok wf hd (by simp at hlen; omega) hp
  | @put k n l s r s1 r1 s' r' sr res h1 h2 h3 ih =>
    simp only [List.length_cons] at hlen
    have hn : n ≠ [] := by rintro rfl; exact hne (by simp)
    rw [entryPath_eq (ho.named ok hp)] at h1
    have e := h2.eff ok hd (by omega)
    have hp1 := Put.path h2 ok hd (by omega) hp
    exact ih (fun h => hne (by simp [h])) (h2.orig ho ok wf hp hn (hB.lstat _ _ _ h1) hd) (e.1.ok ok) (e.2.wf ok wf) (eff_dir e.1 ok ⟨cs, hp1⟩ hd)
      (by have := h2.next; omega) hp1

theorem SyncTo.orig {B : Backend} {i names cs} (h : SyncTo B (backendPath (pathStr cs)) i names s r s' r') (hB : Said S T B) (hne : [] ∉ names) (ho : Orig S T s) (ok : s.OK)
    (wf : s.WF) (hd : s.IsDir i) (hlen : s.next + names.length < W64) (hp : s.PathTo i cs) : Orig S T s' := by
  cases h with
  | @mk s1 _ nd rw h1 h2 h3 h4 h5 h6 =>
    obtain ⟨g1, g2⟩ := h1.orig hB hne ho ok wf hd hlen hp
    exact Orig.orphans (g1.set (nd' := { nd with flags := newFlags nd.flags [SYNCED] [] }) h4 h3 rfl g2 (fun _ h => h))

theorem backendPath_ne {cs : List Bytes} (h : cs ≠ []) : backendPath (pathStr cs) = pathStr cs := by
  unfold backendPath; rw [if_neg]
  cases cs with
  | nil => exact absurd rfl h
  | cons c cs => simp [pathStr]

theorem abs_orig {B : Backend} {rq rep} (h : Abs B d s r rq rep s' r') (hI : SI s d r) (hr : rq.inRange) (hd : rq.onDir d) (hm : rq.named)
    (hn2 : ∀ p names e, B.opendir p = .ok (names, e) → s.next + names.length + 1 < W64) (hB : Said S T B) (ho : Orig S T s) : Orig S T s' := by
  have dir : ∀ {p cs}, p < W64 → s.PathTo p cs → (∀ x, Cache.getattr d p = .ok x → fmt x.2.mode = S_IFDIR) → s.IsDir p := by
    intro p cs hb hp hd
    obtain ⟨nd, hnd⟩ := conn_exists hI.ok ⟨cs, hp⟩
    exact isDir_of hI hb hd hnd
  cases h with
  | lkBad h1 h2 h3 => exact h3.orig ho hI.ok hI.wf h1 hm (hB.lstat _ _ _ h2) (dir hr h1 hd)
  | lkPut h1 h2 h3 => exact h3.orig ho hI.ok hI.wf h1 hm (hB.lstat _ _ _ h2) (dir hr h1 hd)
  | lkErr _ _ _ _ h3 => exact (ho.orphan _).collected h3.coll
  | rlErr _ _ _ _ h3 => exact (ho.orphan _).collected h3.coll
  | @rlPut i cs dest nd h1 h2 h3 h4 =>
    refine ho.set hI.ok h3 rfl h1 (fun hi hf => ?_)
    have hcs : cs ≠ [] := by
      rintro rfl
      exact hi (PathTo.inj hI.ok h1 .root)
    rw [backendPath_ne hcs] at h2
    have ht := hB.readlink _ _ h2
    refine ⟨?_, fun x hx => by cases hx; exact ht⟩
    obtain ⟨⟨sr, g1, g2⟩, -⟩ := hf
    refine ⟨sr, g1, .inr ?_⟩
    rcases g2 with g2 | ⟨g2, t, -, g3⟩
    · rw [g2] at h4 ⊢; exact ⟨h4, dest, ht, rfl⟩
    · rw [g3]; exact ⟨g2, dest, ht, rfl⟩
  | odSync h1 h2 h3 => exact h3.orig hB (hB.names _ _ _ h2) ho hI.ok hI.wf (dir hr h1 hd) (by have := hn2 _ _ _ h2; omega) h1
  | _ => exact ho

theorem root_only {uid gid : Nat} {now : Timespec} {s : Tree} (h : Rep s (initDB emptyDB uid gid now)) (ok : s.OK) {i nd} (hi : s.nodes i = some nd) : i = ROOT := by
  have hb := OK.lt ok hi
  have hg := h.ino_some hi
  by_cases hir : i = ROOT
  · exact hir
  · exfalso
    have : (initDB emptyDB uid gid now).inodes.find (key8 i) = none := by
      show (Tab.empty.put (key8 ROOT) _).find (key8 i) = none
      rw [Tab.find_put, if_neg, Tab.find_empty]
      intro hk
      exact hir ((key8_inj (by decide) hb).mp hk).symm
    rw [this] at hg; cases hg

theorem liveS_inv {y : Sys} (h : LiveS S T y) : ∃ s, SI s y.disk y.refs ∧ (∀ i, y.held i ≤ (y.refs i).nrefs) ∧ Orig S T s := by
  induction h with
  | @mount uid gid now d r ho =>
    obtain ⟨s, h1, h2, h3⟩ := root_rep uid gid now
    obtain ⟨s1, s2, h4, h5, h6, -⟩ := open_SI' h1 h2 h3 ho
    refine ⟨s2, h4, fun i => Nat.zero_le _, Orig.collected (Orig.collected ?_ h5) h6⟩
    intro i nd hi hr
    exact absurd (root_only h1 h2 hi) hr
  | @remount y uid gid now d r _ ho ih =>
    obtain ⟨s, h1, -, h2⟩ := ih
    have hi : initDB y.disk uid gid now = y.disk := by
      unfold initDB; rw [h1.rep.next]
    rw [hi] at ho
    obtain ⟨s1, s2, h4, h5, h6, -⟩ := open_SI' h1.rep h1.ok h1.wf ho
    exact ⟨s2, h4, fun i => Nat.zero_le _, (h2.collected h5).collected h6⟩
  | @serve y B rq st hl hv hm hB hd hf ih =>
    obtain ⟨s, h1, h2, h3⟩ := ih
    rcases dispatch_served h1 h2 hv with ⟨s', d', r', rep, g1, g2, g3⟩ | ⟨dir, size, off, e, -, -, g1⟩
    · obtain ⟨s0, k1, k2⟩ := live_inv (.serve hl.live hv hd hf)
      rw [g1] at hd; cases hd
      refine ⟨s', g2, k2, abs_orig g3 h1 hv.1 hv.2.1 hm ?_ hB h3⟩
      intro p names e hB'
      have := (hv.2.2.2.1 s.next h1.rep.next).2 p names e hB'
      omega
    · rw [g1] at hd; cases hd; cases hf

end Dragonstash.FS
