/-
  Paths which requests keep: as long as the backend confirms a path, the inodes along it stay where
  they are.
-/
import Verif.Props.FSDir
import Verif.FS.Confirm
namespace Dragonstash.FS
open Cache Codec
variable {s s' s'' : Tree} {d d' : DB} {r r' : Refs} {A : List Bytes → Attrs → Prop} {fs : List Bytes}

theorem PathTo.inj (ok : s.OK) {i j cs} (h : s.PathTo i cs) (h' : s.PathTo j cs) : i = j := by
  induction h generalizing j with
  | root =>
    generalize hx : ([] : List Bytes) = x at h'
    cases h' with
    | root => rfl
    | child => simp at hx
  | @child p n i cs hat _ ih =>
    generalize hx : cs ++ [n] = x at h'
    cases h' with
    | root => simp at hx
    | @child q m _ ds hat' hp =>
      obtain ⟨h1, h2⟩ := List.append_inj' hx rfl
      cases h2; subst h1
      have := ih hp; subst this
      exact At.unique ok hat hat'

/-- The inodes along a path. -/
theorem _root_.Dragonstash.Cache.Tree.PathTo.take {i cs} (h : s.PathTo i cs) : ∀ {ds}, ds <+: cs → ∃ j, s.PathTo j ds := by
  induction h with
  | root => intro ds hd; rw [List.prefix_nil] at hd; subst hd; exact ⟨_, .root⟩
  | @child p n i cs hat hp ih =>
    intro ds hd
    rcases List.prefix_concat_iff.mp hd with rfl | hd
    · exact ⟨i, .child hat hp⟩
    · exact ih hd

theorem _root_.Dragonstash.Cache.Tree.PathTo.snoc {i cs n} (h : s.PathTo i (cs ++ [n])) : ∃ p, s.PathTo p cs ∧ s.At p n i := by
  generalize hx : cs ++ [n] = x at h
  cases h with
  | root => simp at hx
  | @child q m _ ds hat hp =>
    obtain ⟨h1, h2⟩ := List.append_inj' hx rfl
    cases h2; subst h1; exact ⟨q, hp, hat⟩

theorem _root_.Dragonstash.Cache.Tree.PathTo.orphans {l : List Ino} {j cs} (h : s.PathTo j cs) (hno : ∀ ds k, ds <+: cs → s.PathTo k ds → k ∈ l → ds = []) :
    (s.orphans l).PathTo j cs := by
  induction h with
  | root => exact .root
  | @child p n i cs hat hp ih =>
    refine .child (orphans_At.mpr ⟨hat, fun hi => ?_⟩) (ih (fun ds k h1 h2 h3 => hno ds k (h1.trans (List.prefix_append ..)) h2 h3))
    have := hno _ i (List.prefix_refl _) (.child hat hp) hi
    simp at this

theorem _root_.Dragonstash.Cache.Tree.PathTo.orphan {i j cs} (h : s.PathTo j cs) (hno : ∀ ds, ds <+: cs → s.PathTo i ds → ds = []) : (s.orphan i).PathTo j cs :=
  h.orphans (l := [i]) (fun ds k h1 h2 h3 => by rw [List.mem_singleton] at h3; subst h3; exact hno ds h1 h2)

theorem _root_.Dragonstash.Cache.Tree.PathTo.set {i j cs nd nd'} (h : s.PathTo j cs) (h1 : s.nodes i = some nd) (h2 : nd'.loc = nd.loc) : (s.set i nd').PathTo j cs := by
  induction h with
  | root => exact .root
  | child hat _ ih => exact .child ((at_set h1 h2).mpr hat) ih

theorem _root_.Dragonstash.Cache.Tree.PathTo.add (ok : s.OK) {p n a j cs} (h : s.PathTo j cs) : (s.add p n a).PathTo j cs := by
  induction h with
  | root => exact .root
  | child hat _ ih => exact .child ((at_add ok).mpr (.inl hat)) ih

/-- The inodes along the path `fs` have the attributes `A`. -/
def Holds (A : List Bytes → Attrs → Prop) (fs : List Bytes) (s : Tree) : Prop :=
  (∃ j, s.PathTo j fs) ∧ ∀ ds k nd, ds <+: fs → s.PathTo k ds → s.nodes k = some nd → A ds nd.attr

/-- The inodes along the path stay. -/
def Stay (A : List Bytes → Attrs → Prop) (fs : List Bytes) (s s' : Tree) : Prop :=
  (∀ ds k, ds <+: fs → s.PathTo k ds → s'.PathTo k ds) ∧ Holds A fs s'

theorem stay_of (ok' : s'.OK) (h : Holds A fs s) (h1 : ∀ ds k, ds <+: fs → s.PathTo k ds → s'.PathTo k ds)
    (h2 : ∀ ds k nd nd', ds <+: fs → s.PathTo k ds → s.nodes k = some nd → s'.nodes k = some nd' → A ds nd.attr → A ds nd'.attr) (ok : s.OK) : Stay A fs s s' := by
  refine ⟨h1, ⟨h.1.imp fun j hj => h1 _ _ (List.prefix_refl _) hj, ?_⟩⟩
  intro ds k nd' hd hp hn
  obtain ⟨j, hj⟩ := h.1
  obtain ⟨k0, hk0⟩ := hj.take hd
  have := PathTo.inj ok' (h1 ds k0 hd hk0) hp
  subst this
  obtain ⟨nd, hnd⟩ := conn_exists ok ⟨ds, hk0⟩
  exact h2 ds k0 nd nd' hd hk0 hnd hn (h.2 ds k0 nd hd hk0 hnd)

theorem Stay.refl (h : Holds A fs s) : Stay A fs s s := ⟨fun _ _ _ h => h, h⟩

theorem Stay.trans (h1 : Stay A fs s s') (h2 : Stay A fs s' s'') : Stay A fs s s'' :=
  ⟨fun ds k hd hp => h2.1 ds k hd (h1.1 ds k hd hp), h2.2⟩

/-- `A` fixes the type of the inode. -/
def Typed (A : List Bytes → Attrs → Prop) : Prop := ∀ ds a b, A ds a → A ds b → fmt a.mode = fmt b.mode

theorem Put.stay {p n a res cs} (h : Put p n a s r res s' r') (ok : s.OK) (hd : s.IsDir p) (hnext : s.next + 1 < W64) (hp : s.PathTo p cs)
    (hA : cs ++ [n] <+: fs → A (cs ++ [n]) a) (ht : Typed A) (hs : Holds A fs s) : Stay A fs s s' ∧ s'.PathTo p cs := by
  have ok' := (h.eff ok hd hnext).1.ok ok
  cases h with
  | bad => exact ⟨.refl hs, hp⟩
  | @same i nd h1 h2 h3 =>
    have hi : s.PathTo i (cs ++ [n]) := .child ⟨nd, h1, h2⟩ hp
    refine ⟨stay_of ok' hs (fun ds k _ hk => hk.set h1 rfl) ?_ ok, hp.set h1 rfl⟩
    intro ds k x x' hpre hk hx hx' hax
    by_cases hki : k = i
    · subst hki
      rw [Tree.set_self] at hx'; cases hx'
      have := PathTo.unique ok hk hi; subst this
      exact hA hpre
    · rw [Tree.set_ne hki, hx] at hx'; cases hx'; exact hax
  | @new s1 _ _ hn h1 h2 h3 h4 =>
    have ok1 : s1.OK := by rcases h1 with ⟨rfl, -⟩ | ⟨i, nd, rfl, -⟩; exact ok; exact OK.orphan ok i
    have hn1 : s1.next = s.next := by rcases h1 with ⟨rfl, -⟩ | ⟨i, nd, rfl, -⟩ <;> rfl
    obtain ⟨pn, hpn, -⟩ := hd
    have hb := OK.lt ok hpn
    have h0 := (ok.bound p pn hpn).1
    have ok2 : (s1.add p n a).OK := by
      rcases h1 with ⟨rfl, k⟩ | ⟨i, nd, rfl, k5, k6, -⟩
      · exact OK.addNode ok h0 hb hn hnext k
      · exact OK.addNode (OK.orphan ok i) h0 hb hn hnext (orphan_free ok ⟨nd, k5, k6⟩)
    have nodes1 : ∀ k x, s.nodes k = some x → ∃ x', s1.nodes k = some x' ∧ x'.attr = x.attr := by
      intro k x hx
      rcases h1 with ⟨rfl, -⟩ | ⟨i, nd, rfl, -⟩
      · exact ⟨x, hx, rfl⟩
      · by_cases hki : k = i
        · subst hki; exact ⟨_, Tree.orphan_self hx, rfl⟩
        · exact ⟨x, by rw [Tree.orphan_ne hki]; exact hx, rfl⟩
    have path1 : ∀ ds k, ds <+: fs ∨ ds = cs → s.PathTo k ds → s1.PathTo k ds := by
      intro ds k hpre hk
      rcases h1 with ⟨rfl, -⟩ | ⟨i, nd, rfl, k5, k6, k7⟩
      · exact hk
      · have hi : s.PathTo i (cs ++ [n]) := .child ⟨nd, k5, k6⟩ hp
        refine hk.orphan (fun es he hie => ?_)
        have := PathTo.unique ok hie hi; subst this
        rcases hpre with hpre | rfl
        · exact absurd (ht _ _ _ (hs.2 _ i nd (he.trans hpre) hi k5) (hA (he.trans hpre))) k7
        · have := he.length_le; simp at this; omega
    have path' : ∀ ds k, ds <+: fs ∨ ds = cs → s.PathTo k ds → s'.PathTo k ds := fun ds k hpre hk =>
      PathTo.collected ok2 h3 ((path1 ds k hpre hk).add ok1)
    refine ⟨stay_of ok' hs (fun ds k hpre => path' ds k (.inl hpre)) ?_ ok, path' cs p (.inr rfl) hp⟩
    intro ds k x x' hpre hk hx hx' hax
    obtain ⟨-, z, g1, g2, -⟩ := h3.back hx'
    rw [Tree.add_ne (by rw [hn1]; have := (ok.bound k x hx).2; omega)] at g1
    obtain ⟨w, g3, g4⟩ := nodes1 k x hx
    rw [g3] at g1; cases g1
    rw [g2, g4]; exact hax

theorem entryPath_eq {cs : List Bytes} {n : Bytes} (h : ∀ c ∈ cs, c ≠ []) : entryPath (backendPath (pathStr cs)) n = pathStr (cs ++ [n]) := by
  rw [pathStr_snoc]
  apply C39_paths
  cases cs with
  | nil => simp [pathStr]
  | cons c cs =>
    have : 0 < c.length := List.length_pos_iff.mpr (h c (by simp))
    simp only [pathStr, List.map_cons, List.flatten_cons, List.length_append, List.length_cons]; omega

theorem Puts.stay {B : Backend} {base : Bytes} {i : Ino} {k : Nat} {names : List Bytes} {cs : List Bytes} (h : Puts B base i k names s r s' r') (ok : s.OK) (hd : s.IsDir i)
    (hlen : s.next + names.length < W64) (hp : s.PathTo i cs)
    (hA : ∀ q n sr, B.lstat q (entryPath base n) = .ok sr → cs ++ [n] <+: fs → A (cs ++ [n]) (fromBackend sr)) (ht : Typed A) (hs : Holds A fs s) :
    Stay A fs s s' ∧ s'.PathTo i cs := by
  induction h with
  | nil => exact ⟨.refl hs, hp⟩
  | skip _ _ ih => exact ih ok hd (by simp at hlen; omega) hp hs
  | @put k n l s r s1 r1 s' r' sr res h1 h2 h3 ih =>
    simp only [List.length_cons] at hlen
    obtain ⟨g1, g2⟩ := h2.stay ok hd (by omega) hp (hA k n sr h1) ht hs
    have e := (h2.eff ok hd (by omega)).1
    obtain ⟨g3, g4⟩ := ih (e.ok ok) (eff_dir e ok ⟨cs, g2⟩ hd) (by have := h2.next; omega) g2 g1.2
    exact ⟨g1.trans g3, g4⟩

theorem SyncTo.stay {B : Backend} {i : Ino} {names : List Bytes} {e : Errno} {cs : List Bytes} (h : SyncTo B (backendPath (pathStr cs)) i names s r s' r') (ok : s.OK) (ok' : s'.OK) (hd : s.IsDir i)
    (hlen : s.next + names.length < W64) (hp : s.PathTo i cs) (hB : B.opendir (backendPath (pathStr cs)) = .ok (names, e)) (hc : Confirms B A fs)
    (hne : ∀ c ∈ fs, c ≠ []) (ht : Typed A) (hs : Holds A fs s) : Stay A fs s s' := by
  have hpath : ∀ n, cs ++ [n] <+: fs → entryPath (backendPath (pathStr cs)) n = pathStr (cs ++ [n]) := by
    intro n hpre
    exact entryPath_eq (fun c hc => hne c (hpre.subset (by simp [hc])))
  cases h with
  | @mk s1 _ nd rw h1 h2 h3 h4 h5 h6 =>
    obtain ⟨g1, g2⟩ := h1.stay ok hd hlen hp (A := A) (fs := fs) (by
      intro q n sr hl hpre
      rw [hpath n hpre] at hl
      rcases hc.lstat _ q hpre (by simp) with ⟨sr', k1, k2⟩ | k
      · rw [hl] at k1; cases k1; exact k2
      · rw [hl] at k; cases k) ht hs
    refine g1.trans ?_
    obtain ⟨l, r1, r2, -⟩ := h2.rewr
    have hmark : ∀ j, j ∈ marks rw ↔ ∃ L, rw = some L ∧ j ∈ L := by
      intro j; unfold marks; cases rw <;> simp
    have free : ∀ ds k, ds <+: fs → s1.PathTo k ds → k ∈ marks rw → ds = [] := by
      intro ds k hpre hk hm
      obtain ⟨L, m1, m2⟩ := (hmark k).mp hm
      cases hk with
      | root => rfl
      | @child q m _ es hat hq =>
        exfalso
        have := (r1.own L k m1 m2).2 q m hat; subst this
        have := PathTo.unique h4 hq g2; subst this
        have hlook := (r1.mark m k hat).mp ⟨L, m1, m2⟩
        obtain ⟨x, hx, hxl⟩ := hat
        have hgood := (h4.loc k x q m hx hxl).2.2
        obtain ⟨kk, sr, b1, b2⟩ := hc.opendir es m names e hpre hB
        rw [← hpath m hpre] at b2
        have : m ∈ l.map Prod.fst := by
          rw [r2]
          by_cases hex : ∃ sr, SeenFrom B (backendPath (pathStr es)) 0 names m sr
          · obtain ⟨sr, hsn⟩ := hex
            have := (listed_lookup (B := B) (base := backendPath (pathStr es)) (m := m) (a := fromBackend sr) names 0 []).mpr (.inl ⟨hgood, sr, hsn, rfl⟩)
            exact List.mem_map.mpr ⟨_, lookup_mem this, rfl⟩
          · exfalso
            have last : ∀ (f k : Nat) sr, names.length ≤ k + f → names[k]? = some m → B.lstat k (entryPath (backendPath (pathStr es)) m) = .ok sr → False := by
              intro f
              induction f with
              | zero => intro k sr hlen hk; have := (List.getElem?_eq_some_iff.mp hk).1; omega
              | succ f ih =>
                intro k sr hlen hk hsr
                refine hex ⟨sr, k, hk, by rw [Nat.zero_add]; exact hsr, ?_⟩
                intro k' sr' hkk hk' hl
                rw [Nat.zero_add] at hl
                exact ih k' sr' (by omega) hk' hl
            exact last names.length kk sr (by omega) b1 b2
        exact absurd this (lookup_none_iff.mp hlook)
    refine stay_of ok' g1.2 (fun ds k hpre hk => ?_) ?_ h4
    · refine (hk.set (nd' := { nd with flags := newFlags nd.flags [SYNCED] [] }) h3 rfl).orphans ?_
      intro es k' he hk' hm
      have : s1.PathTo k' es := by
        clear hpre hk he hm
        induction hk' with
        | root => exact .root
        | child hat _ ih => exact .child ((at_set (nd' := { nd with flags := newFlags nd.flags [SYNCED] [] }) h3 rfl).mp hat) ih
      exact free es k' (he.trans hpre) this hm
    · intro ds k x x' hpre hk hx hx' hax
      obtain ⟨z, k1, -, k2⟩ := orphans_flags hx'
      rw [← k2]
      by_cases hki : k = i
      · subst hki; rw [Tree.set_self] at k1; cases k1; rw [h3] at hx; cases hx; exact hax
      · rw [Tree.set_ne hki, hx] at k1; cases k1; exact hax

theorem Removed.stay {i cs} (h : Removed s r i s' r') (ok : s.OK) (hi : s.PathTo i cs) (hno : cs <+: fs → cs = []) (hs : Holds A fs s) : Stay A fs s s' := by
  refine stay_of h.ok hs (fun ds k hpre hk => PathTo.collected (OK.orphan ok i) h.coll (hk.orphan fun es he hie => ?_)) ?_ ok
  · have := PathTo.unique ok hie hi; subst this
    exact hno (he.trans hpre)
  · intro ds k x x' hpre hk hx hx' hax
    obtain ⟨-, z, k1, k2, -⟩ := h.coll.back hx'
    obtain ⟨w, k3, -, k4⟩ := orphan_flags k1
    rw [hx] at k3; cases k3
    rw [k2, ← k4]; exact hax

theorem abs_stay {B : Backend} {rq rep} (h : Abs B d s r rq rep s' r') (hI : SI s d r) (ok' : s'.OK) (hr : rq.inRange) (hd : rq.onDir d) (hl : rq.onLink d)
    (hn : s.next + 1 < W64) (hn2 : ∀ p names e, B.opendir p = .ok (names, e) → s.next + names.length + 1 < W64)
    (hc : Confirms B A fs) (hne : ∀ c ∈ fs, c ≠ []) (ht : Typed A) (hs : Holds A fs s) : Stay A fs s s' := by
  have dir : ∀ {p cs}, p < W64 → s.PathTo p cs → (∀ x, Cache.getattr d p = .ok x → fmt x.2.mode = S_IFDIR) → s.IsDir p := by
    intro p cs hb hp hd
    obtain ⟨nd, hnd⟩ := conn_exists hI.ok ⟨cs, hp⟩
    exact isDir_of hI hb hd hnd
  have ok := hI.ok
  have lk : ∀ {cs n sr}, B.lstat 0 (pathStr (cs ++ [n])) = .ok sr → cs ++ [n] <+: fs → A (cs ++ [n]) (fromBackend sr) := by
    intro cs n sr h1 hpre
    rcases hc.lstat _ 0 hpre (by simp) with ⟨sr', k1, k2⟩ | k
    · rw [h1] at k1; cases k1; exact k2
    · rw [h1] at k; cases k
  have pathB : ∀ {cs}, cs <+: fs → cs ≠ [] → backendPath (pathStr cs) = pathStr cs := by
    intro cs _ hcs
    unfold backendPath
    rw [if_neg]
    cases cs with
    | nil => exact absurd rfl hcs
    | cons c cs => simp [pathStr]
  cases h with
  | lkBad h1 h2 h3 => exact (h3.stay ok (dir hr h1 hd) hn h1 (lk h2) ht hs).1
  | lkPut h1 h2 h3 => exact (h3.stay ok (dir hr h1 hd) hn h1 (lk h2) ht hs).1
  | @lkErr p n cs be i _ _ h1 h2 h3 h4 h5 =>
    refine h5.stay ok (.child h4 h1) (fun hpre => ?_) hs
    rcases hc.lstat _ 0 hpre (by simp) with ⟨sr, k, -⟩ | k
    · rw [h2] at k; cases k
    · rw [h2] at k; cases k; exact absurd rfl h3
  | @rlPut i cs dest nd h1 h2 h3 h4 =>
    refine stay_of ok' hs (fun ds k _ hk => hk.set h3 rfl) ?_ ok
    intro ds k x x' hpre hk hx hx' hax
    by_cases hki : k = i
    · subst hki
      rw [Tree.set_self] at hx'; cases hx'
      rw [h3] at hx; cases hx
      have := PathTo.unique ok hk h1; subst this
      have hne' : ds ≠ [] := by
        rintro rfl
        have := PathTo.inj ok hk .root; subst this
        obtain ⟨z, k1, k2, -⟩ := ok.root
        rw [h3] at k1; cases k1
        rw [h4] at k2; cases k2
      rcases hc.readlink ds nd.attr hpre hax h4 with ⟨dest', k1, k2⟩ | k
      · rw [pathB hpre hne'] at h2; rw [h2] at k1; cases k1; exact k2
      · rw [pathB hpre hne'] at h2; rw [h2] at k; cases k
    · rw [Tree.set_ne hki, hx] at hx'; cases hx'; exact hax
  | @rlErr i cs be _ _ h1 h2 h3 h4 h5 =>
    refine h5.stay ok h1 (fun hpre => ?_) hs
    obtain ⟨nd, hnd⟩ := conn_exists ok ⟨cs, h1⟩
    by_cases hcs : cs = []
    · exact hcs
    · exfalso
      rw [pathB hpre hcs] at h2
      rcases hc.readlink cs nd.attr hpre (hs.2 cs i nd hpre h1 hnd) (hl _ (getattr_some hI hnd)) with ⟨dest, k, -⟩ | k
      · rw [h2] at k; cases k
      · rw [h2] at k; cases k; exact h3 rfl
  | odSync h1 h2 h3 => exact h3.stay ok ok' (dir hr h1 hd) (by have := hn2 _ _ _ h2; omega) h1 h2 hc hne ht hs
  | _ => exact .refl hs

end Dragonstash.FS
