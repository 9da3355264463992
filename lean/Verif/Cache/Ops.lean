/-
  The writing operations under the representation relation.
-/
import Verif.Cache.Rep
namespace Dragonstash.Cache
open Codec
variable {s : Tree} {d : DB}

/-! ### make_orphan -/

theorem Tree.orphan_self {i nd} (h : s.nodes i = some nd) : (s.orphan i).nodes i = some { nd with loc := none } := by
  simp [Tree.orphan, h]
theorem Tree.orphan_ne {i j} (h : j ≠ i) : (s.orphan i).nodes j = s.nodes j := by
  simp [Tree.orphan, h]

theorem OK.orphan (ok : s.OK) (i : Ino) : (s.orphan i).OK := by
  have back : ∀ {j nd'}, (s.orphan i).nodes j = some nd' →
      ∃ nd, s.nodes j = some nd ∧ nd'.attr = nd.attr ∧ nd'.target = nd.target ∧ (nd'.loc = nd.loc ∨ nd'.loc = none) := by
    intro j nd' h
    by_cases hj : j = i
    · subst hj
      cases hn : s.nodes j with
      | none => simp [Tree.orphan, hn] at h
      | some nd =>
        rw [Tree.orphan_self hn] at h; cases h
        exact ⟨nd, rfl, rfl, rfl, .inr rfl⟩
    · rw [Tree.orphan_ne hj] at h
      exact ⟨nd', h, rfl, rfl, .inl rfl⟩
  refine ⟨ok.next_ge, ok.next_lt, ?_, ?_, ?_, ?_, ?_⟩
  · intro j nd' h
    obtain ⟨nd, h1, -⟩ := back h
    exact ok.bound j nd h1
  · obtain ⟨nd, h1, h2, h3⟩ := ok.root
    by_cases hr : ROOT = i
    · subst hr
      exact ⟨_, Tree.orphan_self h1, h2, rfl⟩
    · exact ⟨nd, by rw [Tree.orphan_ne hr]; exact h1, h2, h3⟩
  · intro j nd' p n h hl
    obtain ⟨nd, h1, -, -, h4⟩ := back h
    rcases h4 with h4 | h4
    · exact ok.loc j nd p n h1 (h4 ▸ hl)
    · rw [h4] at hl; cases hl
  · intro j k a b l ha hb hla hlb
    obtain ⟨na, h1, -, -, h4⟩ := back ha
    obtain ⟨nb, g1, -, -, g4⟩ := back hb
    rcases h4 with h4 | h4
    · rcases g4 with g4 | g4
      · exact ok.uniq j k na nb l h1 g1 (h4 ▸ hla) (g4 ▸ hlb)
      · rw [g4] at hlb; cases hlb
    · rw [h4] at hla; cases hla
  · intro j nd' t h ht
    obtain ⟨nd, h1, h2, h3, -⟩ := back h
    rw [h2]; exact ok.target j nd t h1 (h3 ▸ ht)

/-- Unlinking a linked inode. -/
theorem Rep.makeOrphan (h : Rep s d) (ok : s.OK) {i nd p n} (hi : s.nodes i = some nd) (hl : nd.loc = some (p, n)) :
    ∃ d', makeOrphan d i = (d', .ok ()) ∧ Rep (s.orphan i) d' ∧ d'.inodes.size = d.inodes.size
      ∧ d'.treei.size + 1 = d.treei.size := by
  have hb := OK.lt ok hi
  have hloc := ok.loc i nd p n hi hl
  have hroot := OK.loc_ne_root ok hi hl
  refine ⟨{ d with
      treei := d.treei.del (key16 p i)
      treen := d.treen.del (keyN p n)
      orphans := d.orphans.put (key8 i) ()
      inodes := d.inodes.put (key8 i) { recOf nd with parent := 0 } }, ?_, ?_,
    Tab.size_put (v := recOf nd) _ (h.ino_some hi), Tab.size_del (v := mkEnt i n) (k := key16 p i) (h.ti_some hi hl)⟩
  · unfold Cache.makeOrphan
    rw [h.parent ok hb, if_neg hroot, hi]
    simp only [Node.par, hl]
    rw [if_neg (by simp only [INVALID]; omega), h.ti_some hi hl]
    simp only [h.ino_some hi]
    rfl
  · have hself := Tree.orphan_self hi
    refine ⟨h.next, ?_, ?_, ?_, ?_, ?_⟩
    · intro k r
      simp only
      rw [Tab.find_put]
      by_cases hk : key8 i = k
      · rw [if_pos hk]
        subst hk
        constructor
        · intro he; cases he
          exact ⟨i, _, rfl, hself, rfl⟩
        · rintro ⟨j, nd', hj, hj', hr⟩
          obtain rfl := (key8_inj hb (OK.lt (OK.orphan ok i) hj')).mp hj
          rw [hself] at hj'; cases hj'; rw [hr]; rfl
      · rw [if_neg hk, h.inodes]
        constructor
        · rintro ⟨j, nd', hj, hj', hr⟩
          refine ⟨j, nd', hj, ?_, hr⟩
          rw [Tree.orphan_ne (by rintro rfl; exact hk hj.symm)]; exact hj'
        · rintro ⟨j, nd', hj, hj', hr⟩
          refine ⟨j, nd', hj, ?_, hr⟩
          rw [Tree.orphan_ne (by rintro rfl; exact hk hj.symm)] at hj'; exact hj'
    · intro k e
      simp only
      rw [Tab.find_del]
      by_cases hk : key16 p i = k
      · rw [if_pos hk]
        subst hk
        constructor
        · intro he; cases he
        · rintro ⟨j, nd', q, m, hj, hj', hlj, -⟩
          have hlocj := (OK.orphan ok i).loc j nd' q m hj' hlj
          obtain ⟨rfl, rfl⟩ := (key16_inj hloc.2.1 hb hlocj.2.1 (OK.lt (OK.orphan ok i) hj')).mp hj
          rw [hself] at hj'; cases hj'; cases hlj
      · rw [if_neg hk, h.treei]
        constructor
        · rintro ⟨j, nd', q, m, hj, hj', hlj, he⟩
          refine ⟨j, nd', q, m, hj, ?_, hlj, he⟩
          rw [Tree.orphan_ne]
          · exact hj'
          · rintro rfl
            rw [hi] at hj'; cases hj'
            rw [hl] at hlj; cases hlj
            exact hk hj.symm
        · rintro ⟨j, nd', q, m, hj, hj', hlj, he⟩
          refine ⟨j, nd', q, m, hj, ?_, hlj, he⟩
          rw [Tree.orphan_ne] at hj'
          · exact hj'
          · rintro rfl
            rw [hself] at hj'; cases hj'; cases hlj
    · intro k e
      simp only [mkEnt]
      rw [Tab.find_del]
      by_cases hk : keyN p n = k
      · rw [if_pos hk]
        subst hk
        constructor
        · intro he; cases he
        · rintro ⟨j, nd', q, m, hj, hj', hlj, -⟩
          have hlocj := (OK.orphan ok i).loc j nd' q m hj' hlj
          obtain ⟨rfl, rfl⟩ := (keyN_inj hloc.2.1 hlocj.2.1).mp hj
          by_cases hji : j = i
          · subst hji; rw [hself] at hj'; cases hj'; cases hlj
          · rw [Tree.orphan_ne hji] at hj'
            exact absurd (ok.uniq j i nd' nd _ hj' hi hlj hl) hji
      · rw [if_neg hk, h.treen]
        constructor
        · rintro ⟨j, nd', q, m, hj, hj', hlj, he⟩
          refine ⟨j, nd', q, m, hj, ?_, hlj, he⟩
          rw [Tree.orphan_ne]
          · exact hj'
          · rintro rfl
            rw [hi] at hj'; cases hj'
            rw [hl] at hlj; cases hlj
            exact hk hj.symm
        · rintro ⟨j, nd', q, m, hj, hj', hlj, he⟩
          refine ⟨j, nd', q, m, hj, ?_, hlj, he⟩
          rw [Tree.orphan_ne] at hj'
          · exact hj'
          · rintro rfl
            rw [hself] at hj'; cases hj'; cases hlj
    · intro k u
      simp only
      rw [Tab.find_put]
      by_cases hk : key8 i = k
      · rw [if_pos hk]
        subst hk
        constructor
        · intro _; exact ⟨i, _, rfl, hself, rfl, hroot⟩
        · intro _; rfl
      · rw [if_neg hk, h.orphans]
        constructor
        · rintro ⟨j, nd', hj, hj', hr⟩
          refine ⟨j, nd', hj, ?_, hr⟩
          rw [Tree.orphan_ne (by rintro rfl; exact hk hj.symm)]; exact hj'
        · rintro ⟨j, nd', hj, hj', hr⟩
          refine ⟨j, nd', hj, ?_, hr⟩
          rw [Tree.orphan_ne (by rintro rfl; exact hk hj.symm)] at hj'; exact hj'
    · intro k t
      simp only
      rw [h.links]
      constructor
      · rintro ⟨j, nd', hj, hj', hr⟩
        by_cases hji : j = i
        · subst hji; rw [hi] at hj'; cases hj'
          exact ⟨j, _, hj, hself, hr⟩
        · exact ⟨j, nd', hj, by rw [Tree.orphan_ne hji]; exact hj', hr⟩
      · rintro ⟨j, nd', hj, hj', hr⟩
        by_cases hji : j = i
        · subst hji; rw [hself] at hj'; cases hj'
          exact ⟨j, nd, hj, hi, hr⟩
        · exact ⟨j, nd', hj, by rw [Tree.orphan_ne hji] at hj'; exact hj', hr⟩

theorem Rep.makeOrphan_missing (h : Rep s d) (ok : s.OK) {i} (hb : i < W64) (hr : i ≠ ROOT) (hi : s.nodes i = none) :
    Cache.makeOrphan d i = (d, .error ENOENT) := by
  unfold Cache.makeOrphan
  rw [h.parent ok hb, if_neg hr, hi]

theorem Rep.makeOrphan_orphan (h : Rep s d) (ok : s.OK) {i nd} (hr : i ≠ ROOT) (hi : s.nodes i = some nd)
    (hl : nd.loc = none) : Cache.makeOrphan d i = (d, .ok ()) := by
  unfold Cache.makeOrphan
  rw [h.parent ok (OK.lt ok hi), if_neg hr, hi]
  simp only [Node.par, hl]
  rfl

theorem Rep.makeOrphan_root (h : Rep s d) (ok : s.OK) : Cache.makeOrphan d ROOT = (d, .error EIO) := by
  obtain ⟨nd, h1, -, h3⟩ := ok.root
  unfold Cache.makeOrphan
  rw [h.parent ok (OK.lt ok h1), if_pos rfl]
  simp only
  rw [if_neg (by decide), h.ti_none ok (by decide) (by decide)]
  intro nd' n h' hl
  rw [h1] at h'; cases h'; rw [h3] at hl; cases hl

theorem Tree.orphan_noop {i} (h : ∀ nd, s.nodes i = some nd → nd.loc = none) : s.orphan i = s := by
  obtain ⟨nodes, next⟩ := s
  simp only [Tree.orphan, Tree.mk.injEq, and_true]
  funext j
  by_cases hj : j = i
  · subst hj
    simp only [if_true]
    cases hn : nodes j with
    | none => rfl
    | some nd =>
      have := h nd hn
      obtain ⟨a, b, c, e⟩ := nd
      simp only at this; subst this; rfl
  · simp [hj]

/-- Whatever `i` is, after `make_orphan` the databases hold the state with `i` unlinked. -/
theorem Rep.makeOrphan_any (h : Rep s d) (ok : s.OK) {i} (hb : i < W64) :
    Rep (s.orphan i) (Cache.makeOrphan d i).1 := by
  by_cases hr : i = ROOT
  · subst hr
    rw [h.makeOrphan_root ok]
    obtain ⟨nd, h1, -, h3⟩ := ok.root
    rw [Tree.orphan_noop (by intro nd' h'; rw [h1] at h'; cases h'; exact h3)]
    exact h
  · cases hi : s.nodes i with
    | none =>
      rw [h.makeOrphan_missing ok hb hr hi, Tree.orphan_noop (by intro nd' h'; rw [hi] at h'; cases h')]
      exact h
    | some nd =>
      cases hl : nd.loc with
      | none =>
        rw [h.makeOrphan_orphan ok hr hi hl, Tree.orphan_noop (by intro nd' h'; rw [hi] at h'; cases h'; exact hl)]
        exact h
      | some l =>
        obtain ⟨d', h1, h2, -⟩ := h.makeOrphan (p := l.1) (n := l.2) ok hi hl
        rw [h1]; exact h2

/-! ### clean_orphans -/

/-- All entries of directory `i` unlinked. -/
def Tree.cutKids (s : Tree) (i : Ino) : Tree :=
  { s with nodes := fun j => (s.nodes j).map (fun nd => if nd.loc.any (fun l => l.1 == i) then { nd with loc := none } else nd) }

theorem Tree.cutKids_noop {i} (h : ∀ j nd n, s.nodes j = some nd → nd.loc ≠ some (i, n)) : s.cutKids i = s := by
  obtain ⟨nodes, next⟩ := s
  simp only [Tree.cutKids, Tree.mk.injEq, and_true]
  funext j
  cases hn : nodes j with
  | none => rfl
  | some nd =>
    simp only [Option.map_some, Option.some.injEq]
    rw [if_neg]
    cases hl : nd.loc with
    | none => simp
    | some l =>
      simp only [Option.any_some, beq_iff_eq]
      rintro rfl
      exact h j nd l.2 hn hl

theorem Tree.cutKids_orphan {i c nd n} (h : s.nodes c = some nd) (hl : nd.loc = some (i, n)) :
    (s.orphan c).cutKids i = s.cutKids i := by
  simp only [Tree.cutKids, Tree.orphan, Tree.mk.injEq, and_true]
  funext j
  by_cases hj : j = c
  · subst hj
    simp [h, hl]
  · simp [hj]

theorem Rep.orphanKids (f : Nat) : ∀ {s : Tree} {d : DB} {i : Ino}, Rep s d → s.OK → i < W64 → d.treei.size < f →
    ∃ d', orphanKids f d i = .ok d' ∧ Rep (s.cutKids i) d' ∧ (s.cutKids i).OK ∧ d'.inodes.size = d.inodes.size := by
  induction f with
  | zero => intro s d i _ _ _ hf; omega
  | succ f ih =>
    intro s d i h ok hb hf
    unfold Cache.orphanKids
    cases hlow : d.treei.lower (key8 i) with
    | nil =>
      have : s.cutKids i = s := Tree.cutKids_noop (by
        intro j nd n hj hl
        have := Tab.lower_nil hlow (h.ti_some hj hl)
        unfold key16 key8 at this
        rw [blt_prefix_self] at this; cases this)
      rw [this]
      exact ⟨d, rfl, h, ok, rfl⟩
    | cons e r =>
      obtain ⟨h1, h2, h3⟩ := Tab.lower_head hlow
      obtain ⟨c, nd, p, n, hk, hc, hl, he⟩ := (h.treei _ _).mp h1
      have hloc := ok.loc c nd p n hc hl
      simp only
      rw [hk, key16_take, leDec_key8 hloc.2.1]
      by_cases hp : p = i
      · subst hp
        rw [if_neg (by simp)]
        obtain ⟨d1, e1, r1, s1, t1⟩ := h.makeOrphan ok hc hl
        rw [he]
        simp only [mkEnt]
        rw [e1]
        obtain ⟨d', g1, g2, g3, g4⟩ := ih r1 (OK.orphan ok c) hb (by omega)
        rw [Tree.cutKids_orphan hc hl] at g2 g3
        exact ⟨d', g1, g2, g3, by rw [g4, s1]⟩
      · rw [if_pos hp]
        have : s.cutKids i = s := Tree.cutKids_noop (by
          intro j nd' m hj hlj
          have hlocj := ok.loc j nd' i m hj hlj
          have hf := h.ti_some hj hlj
          have hgap : blt (key16 i j) e.1 = true := by
            unfold key16
            apply blt_prefix_gap
            · exact h2
            · rw [hk]; simp
            · rw [hk]; simp only [leEnc_length]
              rw [key16_take]
              intro he
              exact hp ((key8_inj hloc.2.1 hb).mp he)
          rcases h3 _ _ hf (by unfold key16 key8; exact blt_prefix_self _ _) with h' | h'
          · rw [h', blt_irrefl] at hgap; cases hgap
          · rw [blt_asymm hgap] at h'; cases h')
        rw [this]
        exact ⟨d, rfl, h, ok, rfl⟩

/-- `i` is a directory, as a Boolean. -/
def Tree.dirB (s : Tree) (i : Ino) : Bool := match s.nodes i with | none => false | some nd => fmt nd.attr.mode == S_IFDIR

theorem Tree.dirB_iff {i} : s.dirB i = true ↔ s.IsDir i := by
  unfold Tree.dirB Tree.IsDir
  cases s.nodes i with
  | none => simp
  | some nd => simp

/-- Remove inode `i`, unlinking its entries if it is a directory. -/
def Tree.remove (s : Tree) (i : Ino) : Tree :=
  { s with nodes := fun j => if j = i then none else (s.nodes j).map (fun nd =>
      if s.dirB i && nd.loc.any (fun l => l.1 == i) then { nd with loc := none } else nd) }

theorem Rep.removeRecord (h : Rep s d) (ok : s.OK) {i nd} (hi : s.nodes i = some nd) (hl : nd.loc = none)
    (ht : d.links.find (key8 i) = none → nd.target = none) (L : Tab Bytes)
    (hL : ∀ k t, L.find k = some t ↔ k ≠ key8 i ∧ d.links.find k = some t) :
    Rep { s with nodes := fun j => if j = i then none else s.nodes j }
      { d with inodes := d.inodes.del (key8 i), orphans := d.orphans.del (key8 i), links := L } := by
  have hb := OK.lt ok hi
  refine ⟨h.next, ?_, ?_, ?_, ?_, ?_⟩
  · intro k r
    simp only
    rw [Tab.find_del]
    by_cases hk : key8 i = k
    · rw [if_pos hk]; subst hk
      constructor
      · intro he; cases he
      · rintro ⟨j, nd', hj, hj', -⟩
        by_cases hji : j = i
        · simp [hji] at hj'
        · simp only [hji, if_false] at hj'
          exact absurd ((key8_inj hb (OK.lt ok hj')).mp hj).symm hji
    · rw [if_neg hk, h.inodes]
      constructor
      · rintro ⟨j, nd', hj, hj', hr⟩
        exact ⟨j, nd', hj, by rw [if_neg (by rintro rfl; exact hk hj.symm)]; exact hj', hr⟩
      · rintro ⟨j, nd', hj, hj', hr⟩
        by_cases hji : j = i
        · simp [hji] at hj'
        · simp only [hji, if_false] at hj'
          exact ⟨j, nd', hj, hj', hr⟩
  · intro k e
    simp only
    rw [h.treei]
    constructor
    · rintro ⟨j, nd', q, m, hj, hj', hlj, he⟩
      refine ⟨j, nd', q, m, hj, ?_, hlj, he⟩
      rw [if_neg]
      · exact hj'
      · rintro rfl; rw [hi] at hj'; cases hj'; rw [hl] at hlj; cases hlj
    · rintro ⟨j, nd', q, m, hj, hj', hlj, he⟩
      refine ⟨j, nd', q, m, hj, ?_, hlj, he⟩
      by_cases hji : j = i
      · simp [hji] at hj'
      · simpa only [hji, if_false] using hj'
  · intro k e
    simp only
    rw [h.treen]
    constructor
    · rintro ⟨j, nd', q, m, hj, hj', hlj, he⟩
      refine ⟨j, nd', q, m, hj, ?_, hlj, he⟩
      rw [if_neg]
      · exact hj'
      · rintro rfl; rw [hi] at hj'; cases hj'; rw [hl] at hlj; cases hlj
    · rintro ⟨j, nd', q, m, hj, hj', hlj, he⟩
      refine ⟨j, nd', q, m, hj, ?_, hlj, he⟩
      by_cases hji : j = i
      · simp [hji] at hj'
      · simpa only [hji, if_false] using hj'
  · intro k u
    simp only
    rw [Tab.find_del]
    by_cases hk : key8 i = k
    · rw [if_pos hk]; subst hk
      constructor
      · intro he; cases he
      · rintro ⟨j, nd', hj, hj', -⟩
        by_cases hji : j = i
        · simp [hji] at hj'
        · simp only [hji, if_false] at hj'
          exact absurd ((key8_inj hb (OK.lt ok hj')).mp hj).symm hji
    · rw [if_neg hk, h.orphans]
      constructor
      · rintro ⟨j, nd', hj, hj', hr⟩
        exact ⟨j, nd', hj, by rw [if_neg (by rintro rfl; exact hk hj.symm)]; exact hj', hr⟩
      · rintro ⟨j, nd', hj, hj', hr⟩
        by_cases hji : j = i
        · simp [hji] at hj'
        · simp only [hji, if_false] at hj'
          exact ⟨j, nd', hj, hj', hr⟩
  · intro k t
    simp only
    rw [hL, h.links]
    constructor
    · rintro ⟨hk, j, nd', hj, hj', hr⟩
      exact ⟨j, nd', hj, by rw [if_neg (by rintro rfl; exact hk hj)]; exact hj', hr⟩
    · rintro ⟨j, nd', hj, hj', hr⟩
      by_cases hji : j = i
      · simp [hji] at hj'
      · simp only [hji, if_false] at hj'
        refine ⟨?_, j, nd', hj, hj', hr⟩
        rintro rfl
        exact hji ((key8_inj hb (OK.lt ok hj')).mp hj).symm

theorem OK.removeNode (ok : s.OK) {i} (hr : i ≠ ROOT) :
    Tree.OK { s with nodes := fun j => if j = i then none else s.nodes j } := by
  have back : ∀ {j nd}, (if j = i then none else s.nodes j) = some nd → s.nodes j = some nd := by
    intro j nd h; by_cases hj : j = i
    · simp [hj] at h
    · simpa only [hj, if_false] using h
  refine ⟨ok.next_ge, ok.next_lt, fun j nd h => ok.bound j nd (back h), ?_, fun j nd p n h => ok.loc j nd p n (back h),
    fun j k a b l ha hb => ok.uniq j k a b l (back ha) (back hb), fun j nd t h => ok.target j nd t (back h)⟩
  obtain ⟨nd, h1, h2⟩ := ok.root
  exact ⟨nd, by simp only [if_neg (Ne.symm hr)]; exact h1, h2⟩

/-- Removal of an unlinked inode other than the root. -/
theorem Rep.removeOne (h : Rep s d) (ok : s.OK) {i nd} (hi : s.nodes i = some nd) (hl : nd.loc = none) (hr : i ≠ ROOT) :
    ∃ d', removeOne d i = .ok d' ∧ Rep (s.remove i) d' ∧ (s.remove i).OK ∧ d'.inodes.size + 1 = d.inodes.size := by
  have hb := OK.lt ok hi
  have hrec := h.ino_some hi
  unfold Cache.removeOne
  rw [hrec]
  have hdata : removeData d i (recOf nd) = if fmt nd.attr.mode = S_IFLNK then .ok { d with links := d.links.del (key8 i) }
      else if fmt nd.attr.mode = S_IFDIR then Cache.orphanKids (d.treei.size + 1) d i else .ok d := rfl
  simp only
  by_cases hdir : fmt nd.attr.mode = S_IFDIR
  · rw [hdata, if_neg (by rw [hdir]; decide), if_pos hdir]
    obtain ⟨d1, e1, r1, ok1, s1⟩ := Rep.orphanKids (d.treei.size + 1) h ok hb (by omega)
    rw [e1]
    simp only [bind_ok, pure_eq_ok]
    have hi1 : (s.cutKids i).nodes i = some nd := by simp [Tree.cutKids, hi, hl]
    have hrem : s.remove i = { s.cutKids i with nodes := fun j => if j = i then none else (s.cutKids i).nodes j } := by
      unfold Tree.remove Tree.cutKids
      have : s.dirB i = true := Tree.dirB_iff.mpr ⟨nd, hi, hdir⟩
      simp only [this, Bool.true_and]
    have hlink : d1.links.find (key8 i) = none := by
      rw [r1.link ok1 hb, hi1]
      cases ht : nd.target with
      | none => simp [ht]
      | some t => have := ok.target i nd t hi ht; rw [hdir] at this; cases this
    refine ⟨_, rfl, ?_, ?_, ?_⟩
    · rw [hrem]
      refine r1.removeRecord ok1 hi1 hl ?_ _ ?_
      · intro _
        cases ht : nd.target with
        | none => rfl
        | some t => have := ok.target i nd t hi ht; rw [hdir] at this; cases this
      · intro k t
        constructor
        · intro hk; exact ⟨(by rintro rfl; rw [hlink] at hk; cases hk), hk⟩
        · exact fun hk => hk.2
    · rw [hrem]; exact OK.removeNode ok1 hr
    · rw [← s1]; exact Tab.size_del (r1.ino_some hi1)
  · have hrem : s.remove i = { s with nodes := fun j => if j = i then none else s.nodes j } := by
      unfold Tree.remove
      have : s.dirB i = false := by
        cases hd : s.dirB i with
        | false => rfl
        | true => obtain ⟨nd', h1, h2⟩ := Tree.dirB_iff.mp hd; rw [hi] at h1; cases h1; exact absurd h2 hdir
      simp only [this, Bool.false_and, Tree.mk.injEq, and_true]
      funext j
      split
      · rfl
      · simp
    by_cases hlnk : fmt nd.attr.mode = S_IFLNK
    · rw [hdata, if_pos hlnk]
      simp only [bind_ok, pure_eq_ok]
      refine ⟨_, rfl, ?_, ?_, ?_⟩
      · rw [hrem]
        refine h.removeRecord ok hi hl ?_ _ ?_
        · intro hn
          rw [h.link ok hb, hi] at hn; simpa using hn
        · intro k t
          rw [Tab.find_del]
          by_cases hk : key8 i = k
          · subst hk; simp
          · simp [hk, Ne.symm hk]
      · rw [hrem]; exact OK.removeNode ok hr
      · exact Tab.size_del hrec
    · rw [hdata, if_neg hlnk, if_neg hdir]
      simp only [bind_ok, pure_eq_ok]
      have htn : nd.target = none := by
        cases ht : nd.target with
        | none => rfl
        | some t => exact absurd (ok.target i nd t hi ht) hlnk
      have hlink : d.links.find (key8 i) = none := by
        rw [h.link ok hb, hi]; simp [htn]
      refine ⟨_, rfl, ?_, ?_, ?_⟩
      · rw [hrem]
        refine h.removeRecord ok hi hl (fun _ => htn) _ ?_
        intro k t
        constructor
        · intro hk; exact ⟨(by rintro rfl; rw [hlink] at hk; cases hk), hk⟩
        · exact fun hk => hk.2
      · rw [hrem]; exact OK.removeNode ok hr
      · exact Tab.size_del hrec

/-! #### Collection -/

theorem Tree.remove_self {i} : (s.remove i).nodes i = none := by simp [Tree.remove]

/-- What is left of a node after removing another one. -/
theorem Tree.remove_some {i j nd} (hj : j ≠ i) (h : s.nodes j = some nd) :
    (s.remove i).nodes j = some nd ∧ (∀ n, nd.loc = some (i, n) → ¬ s.IsDir i) ∨
    (∃ n, nd.loc = some (i, n)) ∧ s.IsDir i ∧ (s.remove i).nodes j = some { nd with loc := none } := by
  simp only [Tree.remove, hj, if_false, h, Option.map_some, Option.some.injEq]
  by_cases hc : (s.dirB i && nd.loc.any (fun l => l.1 == i)) = true
  · right
    rw [if_pos hc]
    simp only [Bool.and_eq_true] at hc
    refine ⟨?_, Tree.dirB_iff.mp hc.1, rfl⟩
    cases hl : nd.loc with
    | none => rw [hl] at hc; simp at hc
    | some l =>
      rw [hl] at hc
      simp only [Option.any_some, beq_iff_eq] at hc
      exact ⟨l.2, by rw [← hc.2]⟩
  · left
    rw [if_neg hc]
    refine ⟨rfl, ?_⟩
    intro n hl hd
    apply hc
    rw [Tree.dirB_iff.mpr hd, hl]
    simp

theorem Tree.remove_none {i j} (h : s.nodes j = none) : (s.remove i).nodes j = none := by
  simp [Tree.remove, h]

theorem Tree.remove_inv {i j nd'} (h : (s.remove i).nodes j = some nd') :
    j ≠ i ∧ ∃ nd, s.nodes j = some nd := by
  by_cases hj : j = i
  · subst hj; rw [Tree.remove_self] at h; cases h
  · refine ⟨hj, ?_⟩
    cases hn : s.nodes j with
    | none => rw [Tree.remove_none hn] at h; cases h
    | some nd => exact ⟨nd, rfl⟩

theorem Tree.remove_dir {i j} (hj : j ≠ i) : (s.remove i).IsDir j ↔ s.IsDir j := by
  unfold Tree.IsDir
  constructor
  · rintro ⟨nd', h1, h2⟩
    obtain ⟨-, nd, hn⟩ := Tree.remove_inv h1
    refine ⟨nd, hn, ?_⟩
    rcases Tree.remove_some hj hn with ⟨h, -⟩ | ⟨-, -, h⟩ <;> rw [h] at h1 <;> cases h1 <;> exact h2
  · rintro ⟨nd, h1, h2⟩
    rcases Tree.remove_some hj h1 with ⟨h, -⟩ | ⟨-, -, h⟩
    · exact ⟨nd, h, h2⟩
    · exact ⟨_, h, h2⟩

theorem gone_remove {L : Ino → Prop} {i nd} (hi : s.nodes i = some nd) (hl : nd.loc = none) (hr : i ≠ ROOT) (hL : ¬ L i)
    (ok : s.OK) (j : Ino) : Gone s L j ↔ j = i ∨ Gone (s.remove i) L j := by
  constructor
  · intro hg
    induction hg with
    | @orphan j ndj h1 h2 h3 h4 =>
      by_cases hj : j = i
      · exact .inl hj
      · right
        rcases Tree.remove_some hj h1 with ⟨h, -⟩ | ⟨⟨n, h⟩, -⟩
        · exact .orphan h h2 h3 h4
        · rw [h3] at h; cases h
    | @child j ndj p n h1 h2 h3 h4 h5 ih =>
      by_cases hj : j = i
      · exact .inl hj
      · right
        rcases Tree.remove_some hj h1 with ⟨h, hnd⟩ | ⟨-, -, h⟩
        · have hpi : p ≠ i := by rintro rfl; exact hnd n h2 h4
          rcases ih with ih | ih
          · exact absurd ih hpi
          · exact .child h h2 ih ((Tree.remove_dir hpi).mpr h4) h5
        · exact .orphan h (OK.loc_ne_root ok h1 h2) rfl h5
  · rintro (hj | hg)
    · subst hj; exact .orphan hi hr hl hL
    · induction hg with
      | @orphan j ndj h1 h2 h3 h4 =>
        obtain ⟨hj, nd0, hn⟩ := Tree.remove_inv h1
        rcases Tree.remove_some hj hn with ⟨h, -⟩ | ⟨⟨n, h⟩, hd, -⟩
        · rw [h] at h1; cases h1; exact .orphan hn h2 h3 h4
        · exact .child hn h (.orphan hi hr hl hL) hd h4
      | @child j ndj p n h1 h2 h3 h4 h5 ih =>
        obtain ⟨hj, nd0, hn⟩ := Tree.remove_inv h1
        rcases Tree.remove_some hj hn with ⟨h, -⟩ | ⟨-, -, h⟩
        · rw [h] at h1; cases h1
          have hpi : p ≠ i := by
            rintro rfl
            obtain ⟨x, hx, -⟩ := h4
            rw [Tree.remove_self] at hx; cases hx
          exact .child hn h2 ih ((Tree.remove_dir hpi).mp h4) h5
        · rw [h] at h1; cases h1; cases h2

theorem Collected.step {L : Ino → Prop} {i nd} {s' : Tree} (hi : s.nodes i = some nd) (hl : nd.loc = none) (hr : i ≠ ROOT)
    (hL : ¬ L i) (ok : s.OK) (h : Collected (s.remove i) L s') : Collected s L s' := by
  have hg := gone_remove hi hl hr hL ok
  refine ⟨h.next, ?_, ?_, ?_⟩
  · intro j hj
    rcases (hg j).mp hj with rfl | hj
    · rw [h.keep j]
      · exact Tree.remove_self
      · intro hj
        cases hj with
        | orphan h1 => rw [Tree.remove_self] at h1; cases h1
        | child h1 => rw [Tree.remove_self] at h1; cases h1
      · intro nd' p n h1; rw [Tree.remove_self] at h1; cases h1
    · exact h.gone j hj
  · intro j ndj p n h1 h2 h3 h4 h5
    have hj : j ≠ i := by rintro rfl; exact hL h5
    rcases Tree.remove_some hj h1 with ⟨h6, hnd⟩ | ⟨-, -, h6⟩
    · have hpi : p ≠ i := by rintro rfl; exact hnd n h2 h4
      rcases (hg p).mp h3 with h3 | h3
      · exact absurd h3 hpi
      · exact h.cut j ndj p n h6 h2 h3 ((Tree.remove_dir hpi).mpr h4) h5
    · rw [h.keep j, h6]
      · intro hgj
        cases hgj with
        | orphan _ _ _ h7 => exact h7 h5
        | child _ _ _ _ h7 => exact h7 h5
      · intro nd' q m h7 h8; rw [h6] at h7; cases h7; cases h8
  · intro j h1 h2
    have hj : j ≠ i := by rintro rfl; exact h1 ((hg j).mpr (.inl rfl))
    have hg' : ¬ Gone (s.remove i) L j := fun h' => h1 ((hg j).mpr (.inr h'))
    cases hn : s.nodes j with
    | none =>
      rw [h.keep j hg', Tree.remove_none hn]
      intro nd' p n h3; rw [Tree.remove_none hn] at h3; cases h3
    | some ndj =>
      rcases Tree.remove_some hj hn with ⟨h6, -⟩ | ⟨⟨n, h6⟩, hd, -⟩
      · rw [h.keep j hg', h6]
        intro nd' p n h3 h4 ⟨h5, h7⟩
        rw [h6] at h3; cases h3
        have hpi : p ≠ i := by
          rintro rfl
          obtain ⟨x, hx, -⟩ := h7
          rw [Tree.remove_self] at hx; cases hx
        exact h2 ndj p n hn h4 ⟨(hg p).mpr (.inr h5), (Tree.remove_dir hpi).mp h7⟩
      · exact absurd ⟨(hg i).mpr (.inl rfl), hd⟩ (h2 ndj i n hn h6)

theorem Collected.refl {L : Ino → Prop} (h : ∀ i nd, s.nodes i = some nd → i ≠ ROOT → nd.loc = none → L i) : Collected s L s := by
  have hg : ∀ i, ¬ Gone s L i := by
    intro i hi
    induction hi with
    | orphan h1 h2 h3 h4 => exact h4 (h _ _ h1 h2 h3)
    | child _ _ _ _ _ ih => exact ih
  exact ⟨rfl, fun i hi => absurd hi (hg i), fun i nd p n _ _ hp => absurd hp (hg p), fun i _ _ => rfl⟩

/-- The inodes which are locked. -/
def locked (r : Refs) (i : Ino) : Prop := 0 < (r i).nrefs

theorem firstFree_none {l : List (Bytes × Unit)} {r : Refs} (h : firstFree l r = none) :
    ∀ e ∈ l, 0 < (r (leDec e.1)).nrefs := by
  induction l with
  | nil => simp
  | cons x xs ih =>
    unfold firstFree Refs.doom at h
    by_cases hx : (r (leDec x.1)).nrefs > 0
    · rw [if_pos hx] at h
      intro e he
      rcases List.mem_cons.mp he with rfl | he
      · exact hx
      · exact ih h e he
    · rw [if_neg hx] at h; cases h

theorem firstFree_some {l : List (Bytes × Unit)} {r r' : Refs} {i : Ino} (h : firstFree l r = some (i, r')) :
    ∃ e ∈ l, i = leDec e.1 ∧ (r i).nrefs = 0 ∧ r' = r.set i { r i with doomed := true } := by
  induction l with
  | nil => cases h
  | cons x xs ih =>
    unfold firstFree Refs.doom at h
    by_cases hx : (r (leDec x.1)).nrefs > 0
    · rw [if_pos hx] at h
      obtain ⟨e, he, hh⟩ := ih h
      exact ⟨e, List.mem_cons_of_mem _ he, hh⟩
    · rw [if_neg hx] at h
      cases h
      exact ⟨x, List.mem_cons_self .., rfl, by omega, rfl⟩

/-- The reference table after a collection: counts are unchanged, exactly the removed inodes are
additionally doomed. -/
def DoomedBy (r r' : Refs) (G : Ino → Prop) : Prop :=
  ∀ i, (r' i).nrefs = (r i).nrefs ∧ ((r' i).doomed = true ↔ (r i).doomed = true ∨ G i)

theorem Rep.cleanLoop (f : Nat) : ∀ {s : Tree} {d : DB} {r : Refs}, Rep s d → s.OK → d.inodes.size < f →
    ∃ s' d' r', cleanLoop f d r = .ok (d', r') ∧ Rep s' d' ∧ s'.OK ∧ Collected s (locked r) s'
      ∧ DoomedBy r r' (Gone s (locked r))
      ∧ (∀ i nd, s'.nodes i = some nd → i ≠ ROOT → nd.loc = none → 0 < (r i).nrefs) := by
  induction f with
  | zero => intro s d r _ _ hf; omega
  | succ f ih =>
    intro s d r h ok hf
    unfold Cache.cleanLoop
    cases hff : firstFree d.orphans.entries r with
    | none =>
      have hall : ∀ i nd, s.nodes i = some nd → i ≠ ROOT → nd.loc = none → locked r i := by
        intro i nd h1 h2 h3
        have := firstFree_none hff (key8 i, ()) ((Tab.mem_iff _ _ _).mpr ((h.orphans _ _).mpr ⟨i, nd, rfl, h1, h3, h2⟩))
        unfold locked
        simpa only [leDec_key8 (OK.lt ok h1)] using this
      have hc := Collected.refl hall
      refine ⟨s, d, r, rfl, h, ok, hc, ?_, hall⟩
      intro i
      refine ⟨rfl, ?_⟩
      have : ¬ Gone s (locked r) i := by
        intro hg
        induction hg with
        | orphan h1 h2 h3 h4 => exact h4 (hall _ _ h1 h2 h3)
        | child _ _ _ _ _ ih => exact ih
      simp [this]
    | some p =>
      obtain ⟨i, r1⟩ := p
      obtain ⟨e, he, hie, h0, hr1⟩ := firstFree_some hff
      obtain ⟨j, nd, hk, hj, hl, hrt⟩ := (h.orphans _ _).mp ((Tab.mem_iff _ _ _).mp he)
      rw [hk, leDec_key8 (OK.lt ok hj)] at hie
      subst hie
      obtain ⟨d1, e1, r1', ok1, s1⟩ := h.removeOne ok hj hl hrt
      have hlk : ∀ k, (r1 k).nrefs = (r k).nrefs := by
        intro k; rw [hr1]; unfold Refs.set; split
        · subst_vars; rfl
        · rfl
      have hleq : locked r1 = locked r := by funext k; unfold locked; rw [hlk]
      obtain ⟨s', d', r', g1, g2, g3, g4, g5, g6⟩ := ih (r := r1) r1' ok1 (by omega)
      simp only
      rw [e1, bind_ok, g1]
      rw [hleq] at g4 g5
      have hnl : ¬ locked r i := by unfold locked; omega
      refine ⟨s', d', r', rfl, g2, g3, Collected.step hj hl hrt hnl ok g4, ?_, ?_⟩
      · intro k
        obtain ⟨a, b⟩ := g5 k
        refine ⟨by rw [a, hlk], ?_⟩
        rw [b, gone_remove hj hl hrt hnl ok k, hr1]
        unfold Refs.set
        by_cases hki : k = i
        · simp [hki]
        · simp [hki]
      · intro k nd' h1 h2 h3
        rw [← hlk]; exact g6 k nd' h1 h2 h3

/-- `clean_orphans` terminates without fault and performs the garbage collection. -/
theorem Rep.cleanOrphans (h : Rep s d) (ok : s.OK) (r : Refs) :
    ∃ s' d' r', cleanOrphans d r = .ok (d', r') ∧ Rep s' d' ∧ s'.OK ∧ Collected s (locked r) s'
      ∧ DoomedBy r r' (Gone s (locked r))
      ∧ (∀ i nd, s'.nodes i = some nd → i ≠ ROOT → nd.loc = none → 0 < (r i).nrefs) :=
  Rep.cleanLoop _ h ok (by omega)

end Dragonstash.Cache
