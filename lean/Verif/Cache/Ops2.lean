/-
  The remaining writing operations under the representation relation: emplace, unlink, writelink,
  update_flags.
-/
import Verif.Cache.Ops
namespace Dragonstash.Cache
open Codec
variable {s : Tree} {d : DB}

theorem Tree.set_self {i nd} : (s.set i nd).nodes i = some nd := by simp [Tree.set]
theorem Tree.set_ne {i j nd} (h : j ≠ i) : (s.set i nd).nodes j = s.nodes j := by simp [Tree.set, h]

/-- Overwriting an inode without moving it keeps the state consistent. -/
theorem OK.setNode (ok : s.OK) {i nd nd'} (hi : s.nodes i = some nd) (hl : nd'.loc = nd.loc)
    (hf : fmt nd'.attr.mode = fmt nd.attr.mode) (ht : ∀ t, nd'.target = some t → fmt nd'.attr.mode = S_IFLNK) :
    (s.set i nd').OK := by
  have back : ∀ {j x}, (s.set i nd').nodes j = some x → ∃ y, s.nodes j = some y ∧ x.loc = y.loc := by
    intro j x h
    by_cases hj : j = i
    · subst hj; rw [Tree.set_self] at h; cases h; exact ⟨nd, hi, hl⟩
    · rw [Tree.set_ne hj] at h; exact ⟨x, h, rfl⟩
  refine ⟨ok.next_ge, ok.next_lt, ?_, ?_, ?_, ?_, ?_⟩
  · intro j x h; obtain ⟨y, h1, -⟩ := back h; exact ok.bound j y h1
  · obtain ⟨x, h1, h2, h3⟩ := ok.root
    by_cases hr : ROOT = i
    · subst hr
      rw [hi] at h1; cases h1
      exact ⟨nd', Tree.set_self, by rw [hf]; exact h2, by rw [hl]; exact h3⟩
    · exact ⟨x, by rw [Tree.set_ne hr]; exact h1, h2, h3⟩
  · intro j x p n h h'; obtain ⟨y, h1, h2⟩ := back h; exact ok.loc j y p n h1 (h2 ▸ h')
  · intro j k a b l ha hb hla hlb
    obtain ⟨y, h1, h2⟩ := back ha
    obtain ⟨z, g1, g2⟩ := back hb
    exact ok.uniq j k y z l h1 g1 (h2 ▸ hla) (g2 ▸ hlb)
  · intro j x t h h'
    by_cases hj : j = i
    · subst hj; rw [Tree.set_self] at h; cases h; exact ht t h'
    · rw [Tree.set_ne hj] at h; exact ok.target j x t h h'

theorem Rep.setNode (h : Rep s d) (ok : s.OK) {i nd nd'} (hi : s.nodes i = some nd) (hl : nd'.loc = nd.loc)
    (L : Tab Bytes) (hL : ∀ k, L.find k = if key8 i = k then nd'.target else d.links.find k) :
    Rep (s.set i nd') { d with inodes := d.inodes.put (key8 i) (recOf nd'), links := L } := by
  have hb := OK.lt ok hi
  have iff1 : ∀ (P : Ino → Node → Prop), (P i nd ↔ P i nd') →
      ((∃ j x, s.nodes j = some x ∧ P j x) ↔ ∃ j x, (s.set i nd').nodes j = some x ∧ P j x) := by
    intro P hP
    constructor
    · rintro ⟨j, x, h1, h2⟩
      by_cases hj : j = i
      · subst hj; rw [hi] at h1; cases h1; exact ⟨j, nd', Tree.set_self, hP.mp h2⟩
      · exact ⟨j, x, by rw [Tree.set_ne hj]; exact h1, h2⟩
    · rintro ⟨j, x, h1, h2⟩
      by_cases hj : j = i
      · subst hj; rw [Tree.set_self] at h1; cases h1; exact ⟨j, nd, hi, hP.mpr h2⟩
      · exact ⟨j, x, by rw [Tree.set_ne hj] at h1; exact h1, h2⟩
  refine ⟨h.next, ?_, ?_, ?_, ?_, ?_⟩
  · intro k r
    simp only
    rw [Tab.find_put]
    by_cases hk : key8 i = k
    · rw [if_pos hk]; subst hk
      constructor
      · intro he; cases he; exact ⟨i, nd', rfl, Tree.set_self, rfl⟩
      · rintro ⟨j, x, hj, hj', hr⟩
        by_cases hji : j = i
        · subst hji; rw [Tree.set_self] at hj'; cases hj'; rw [hr]
        · rw [Tree.set_ne hji] at hj'
          exact absurd ((key8_inj hb (OK.lt ok hj')).mp hj).symm hji
    · rw [if_neg hk, h.inodes]
      constructor
      · rintro ⟨j, x, hj, hj', hr⟩
        exact ⟨j, x, hj, by rw [Tree.set_ne (by rintro rfl; exact hk hj.symm)]; exact hj', hr⟩
      · rintro ⟨j, x, hj, hj', hr⟩
        exact ⟨j, x, hj, by rw [Tree.set_ne (by rintro rfl; exact hk hj.symm)] at hj'; exact hj', hr⟩
  · intro k e
    simp only
    rw [h.treei]
    have := iff1 (fun j x => ∃ p n, k = key16 p j ∧ x.loc = some (p, n) ∧ e = mkEnt j n) (by simp only [hl])
    constructor
    · rintro ⟨j, x, p, n, a, b, c, e⟩
      obtain ⟨j, x, h1, p, n, h2, h3, h4⟩ := this.mp ⟨j, x, b, p, n, a, c, e⟩
      exact ⟨j, x, p, n, h2, h1, h3, h4⟩
    · rintro ⟨j, x, p, n, a, b, c, e⟩
      obtain ⟨j, x, h1, p, n, h2, h3, h4⟩ := this.mpr ⟨j, x, b, p, n, a, c, e⟩
      exact ⟨j, x, p, n, h2, h1, h3, h4⟩
  · intro k e
    simp only
    rw [h.treen]
    have := iff1 (fun j x => ∃ p n, k = keyN p n ∧ x.loc = some (p, n) ∧ e = mkEnt j n) (by simp only [hl])
    constructor
    · rintro ⟨j, x, p, n, a, b, c, e⟩
      obtain ⟨j, x, h1, p, n, h2, h3, h4⟩ := this.mp ⟨j, x, b, p, n, a, c, e⟩
      exact ⟨j, x, p, n, h2, h1, h3, h4⟩
    · rintro ⟨j, x, p, n, a, b, c, e⟩
      obtain ⟨j, x, h1, p, n, h2, h3, h4⟩ := this.mpr ⟨j, x, b, p, n, a, c, e⟩
      exact ⟨j, x, p, n, h2, h1, h3, h4⟩
  · intro k u
    simp only
    rw [h.orphans]
    have := iff1 (fun j x => k = key8 j ∧ x.loc = none ∧ j ≠ ROOT) (by simp only [hl])
    constructor
    · rintro ⟨j, x, a, b, c, e⟩
      obtain ⟨j, x, h1, h2, h3, h4⟩ := this.mp ⟨j, x, b, a, c, e⟩
      exact ⟨j, x, h2, h1, h3, h4⟩
    · rintro ⟨j, x, a, b, c, e⟩
      obtain ⟨j, x, h1, h2, h3, h4⟩ := this.mpr ⟨j, x, b, a, c, e⟩
      exact ⟨j, x, h2, h1, h3, h4⟩
  · intro k t
    simp only
    rw [hL]
    by_cases hk : key8 i = k
    · rw [if_pos hk]; subst hk
      constructor
      · intro he; exact ⟨i, nd', rfl, Tree.set_self, he⟩
      · rintro ⟨j, x, hj, hj', hr⟩
        by_cases hji : j = i
        · subst hji; rw [Tree.set_self] at hj'; cases hj'; rw [hr]
        · rw [Tree.set_ne hji] at hj'
          exact absurd ((key8_inj hb (OK.lt ok hj')).mp hj).symm hji
    · rw [if_neg hk, h.links]
      constructor
      · rintro ⟨j, x, hj, hj', hr⟩
        exact ⟨j, x, hj, by rw [Tree.set_ne (by rintro rfl; exact hk hj.symm)]; exact hj', hr⟩
      · rintro ⟨j, x, hj, hj', hr⟩
        exact ⟨j, x, hj, by rw [Tree.set_ne (by rintro rfl; exact hk hj.symm)] at hj'; exact hj', hr⟩

/-- A new inode with the next free number, under a free name. -/
def Tree.add (s : Tree) (p : Ino) (n : Bytes) (a : Attrs) : Tree :=
  { nodes := fun j => if j = s.next then some ⟨a, 0, some (p, n), none⟩ else s.nodes j, next := s.next + 1 }

theorem Tree.add_self {p n a} : (s.add p n a).nodes s.next = some ⟨a, 0, some (p, n), none⟩ := by simp [Tree.add]
theorem Tree.add_ne {p n a j} (h : j ≠ s.next) : (s.add p n a).nodes j = s.nodes j := by simp [Tree.add, h]

theorem OK.fresh (ok : s.OK) : s.nodes s.next = none := by
  cases h : s.nodes s.next with
  | none => rfl
  | some nd => have := (ok.bound _ _ h).2; omega

theorem OK.ne_next (ok : s.OK) {j nd} (h : s.nodes j = some nd) : j ≠ s.next := by
  rintro rfl; rw [OK.fresh ok] at h; cases h

theorem OK.addNode (ok : s.OK) {p n a} (hp0 : 0 < p) (hp : p < W64) (hn : GoodName n) (hnext : s.next + 1 < W64)
    (hfree : ∀ i, ¬ s.At p n i) : (s.add p n a).OK := by
  refine ⟨by have := ok.next_ge; simp only [Tree.add]; omega, hnext, ?_, ?_, ?_, ?_, ?_⟩
  · intro j x h
    by_cases hj : j = s.next
    · have := ok.next_ge; simp only [Tree.add]; omega
    · rw [Tree.add_ne hj] at h; have := ok.bound j x h; simp only [Tree.add]; omega
  · obtain ⟨x, h1, h2⟩ := ok.root
    exact ⟨x, by rw [Tree.add_ne (OK.ne_next ok h1)]; exact h1, h2⟩
  · intro j x q m h hl
    by_cases hj : j = s.next
    · subst hj; rw [Tree.add_self] at h; cases h; cases hl; exact ⟨hp0, hp, hn⟩
    · rw [Tree.add_ne hj] at h; exact ok.loc j x q m h hl
  · intro j k x y l hx hy hlx hly
    by_cases hj : j = s.next
    · by_cases hk : k = s.next
      · rw [hj, hk]
      · subst hj; rw [Tree.add_self] at hx; cases hx; cases hlx
        rw [Tree.add_ne hk] at hy
        exact absurd ⟨y, hy, hly⟩ (hfree k)
    · rw [Tree.add_ne hj] at hx
      by_cases hk : k = s.next
      · subst hk; rw [Tree.add_self] at hy; cases hy; cases hly
        exact absurd ⟨x, hx, hlx⟩ (hfree j)
      · rw [Tree.add_ne hk] at hy; exact ok.uniq j k x y l hx hy hlx hly
  · intro j x t h ht
    by_cases hj : j = s.next
    · subst hj; rw [Tree.add_self] at h; cases h; cases ht
    · rw [Tree.add_ne hj] at h; exact ok.target j x t h ht

theorem Rep.addNode (h : Rep s d) (ok : s.OK) {p n a} (hp0 : 0 < p) (hp : p < W64) (hn : GoodName n)
    (hnext : s.next + 1 < W64) (hfree : ∀ i, ¬ s.At p n i) :
    Rep (s.add p n a) { d with
      next := some (s.next + 1)
      inodes := d.inodes.put (key8 s.next) (mkInode a p)
      treen := d.treen.put (keyN p n) (mkEnt s.next n)
      treei := d.treei.put (key16 p s.next) (mkEnt s.next n) } := by
  have ok' := OK.addNode (a := a) ok hp0 hp hn hnext hfree
  have hb : s.next < W64 := ok.next_lt
  have old : ∀ {j x}, s.nodes j = some x → (s.add p n a).nodes j = some x := by
    intro j x hx; rw [Tree.add_ne (OK.ne_next ok hx)]; exact hx
  refine ⟨rfl, ?_, ?_, ?_, ?_, ?_⟩
  · intro k r
    simp only
    rw [Tab.find_put]
    by_cases hk : key8 s.next = k
    · rw [if_pos hk]; subst hk
      constructor
      · intro he; cases he; exact ⟨s.next, _, rfl, Tree.add_self, rfl⟩
      · rintro ⟨j, x, hj, hj', hr⟩
        obtain rfl := (key8_inj hb (OK.lt ok' hj')).mp hj
        rw [Tree.add_self] at hj'; cases hj'; rw [hr]; rfl
    · rw [if_neg hk, h.inodes]
      constructor
      · rintro ⟨j, x, hj, hj', hr⟩; exact ⟨j, x, hj, old hj', hr⟩
      · rintro ⟨j, x, hj, hj', hr⟩
        exact ⟨j, x, hj, by rw [Tree.add_ne (by rintro rfl; exact hk hj.symm)] at hj'; exact hj', hr⟩
  · intro k e
    simp only
    rw [Tab.find_put]
    by_cases hk : key16 p s.next = k
    · rw [if_pos hk]; subst hk
      constructor
      · intro he; cases he; exact ⟨s.next, _, p, n, rfl, Tree.add_self, rfl, rfl⟩
      · rintro ⟨j, x, q, m, hj, hj', hl, hr⟩
        obtain ⟨rfl, rfl⟩ := (key16_inj hp hb (ok'.loc _ _ _ _ hj' hl).2.1 (OK.lt ok' hj')).mp hj
        rw [Tree.add_self] at hj'; cases hj'; cases hl; rw [hr]
    · rw [if_neg hk, h.treei]
      constructor
      · rintro ⟨j, x, q, m, hj, hj', hr⟩; exact ⟨j, x, q, m, hj, old hj', hr⟩
      · rintro ⟨j, x, q, m, hj, hj', hl, hr⟩
        refine ⟨j, x, q, m, hj, ?_, hl, hr⟩
        rw [Tree.add_ne] at hj'
        · exact hj'
        · rintro rfl
          rw [Tree.add_self] at hj'; cases hj'; cases hl; exact hk hj.symm
  · intro k e
    simp only
    rw [Tab.find_put]
    by_cases hk : keyN p n = k
    · rw [if_pos hk]; subst hk
      constructor
      · intro he; cases he; exact ⟨s.next, _, p, n, rfl, Tree.add_self, rfl, rfl⟩
      · rintro ⟨j, x, q, m, hj, hj', hl, hr⟩
        obtain ⟨rfl, rfl⟩ := (keyN_inj hp (ok'.loc _ _ _ _ hj' hl).2.1).mp hj
        by_cases hji : j = s.next
        · subst hji; rw [hr]
        · rw [Tree.add_ne hji] at hj'
          exact absurd ⟨x, hj', hl⟩ (hfree j)
    · rw [if_neg hk, h.treen]
      constructor
      · rintro ⟨j, x, q, m, hj, hj', hr⟩; exact ⟨j, x, q, m, hj, old hj', hr⟩
      · rintro ⟨j, x, q, m, hj, hj', hl, hr⟩
        refine ⟨j, x, q, m, hj, ?_, hl, hr⟩
        rw [Tree.add_ne] at hj'
        · exact hj'
        · rintro rfl
          rw [Tree.add_self] at hj'; cases hj'; cases hl; exact hk hj.symm
  · intro k u
    simp only
    rw [h.orphans]
    constructor
    · rintro ⟨j, x, hj, hj', hr⟩; exact ⟨j, x, hj, old hj', hr⟩
    · rintro ⟨j, x, hj, hj', hl, hr⟩
      refine ⟨j, x, hj, ?_, hl, hr⟩
      rw [Tree.add_ne] at hj'
      · exact hj'
      · rintro rfl; rw [Tree.add_self] at hj'; cases hj'; cases hl
  · intro k t
    simp only
    rw [h.links]
    constructor
    · rintro ⟨j, x, hj, hj', hr⟩; exact ⟨j, x, hj, old hj', hr⟩
    · rintro ⟨j, x, hj, hj', hl⟩
      refine ⟨j, x, hj, ?_, hl⟩
      rw [Tree.add_ne] at hj'
      · exact hj'
      · rintro rfl; rw [Tree.add_self] at hj'; cases hj'; cases hl

/-! ### Transactions -/

/-- An open transaction whose database holds the consistent state `s`. -/
def TRep (s : Tree) (t : Txn) : Prop := Rep s t.db ∧ s.OK

/-- Result of an operation which ends with a garbage collection: state `s1` before it, `s'` after. -/
structure CollectedTo (s1 : Tree) (t : Txn) (s' : Tree) (t' : Txn) : Prop where
  rep : TRep s' t'
  coll : Collected s1 (locked t.refs) s'
  refs : DoomedBy t.refs t'.refs (Gone s1 (locked t.refs))
  clean : ∀ i nd, s'.nodes i = some nd → i ≠ ROOT → nd.loc = none → 0 < (t.refs i).nrefs
  rewrite : t'.rewrite = t.rewrite
  hooks : t'.hooks = t.hooks

theorem clean_spec {t : Txn} (h : TRep s t) : ∃ s' t', clean t = .ok (t', .ok ()) ∧ CollectedTo s t s' t' := by
  obtain ⟨s', d', r', e1, e2, e3, e4, e5, e6⟩ := h.1.cleanOrphans h.2 t.refs
  refine ⟨s', { t with db := d', refs := r' }, ?_, ⟨e2, e3⟩, e4, e5, e6, rfl, rfl⟩
  unfold clean
  rw [e1]; rfl

theorem checkName_good {n : Bytes} : checkName n true = .ok () ↔ GoodName n := by
  unfold checkName GoodName maxName
  by_cases h1 : n.length > 503
  · rw [if_pos h1]; constructor
    · intro h; cases h
    · intro h; omega
  · rw [if_neg h1]
    simp only [Bool.not_true, Bool.false_eq_true, if_false]
    by_cases h2 : (n.any (fun c => c == 0 || c == 0x2f)) = true
    · rw [if_pos h2]
      constructor
      · intro h; cases h
      · rintro ⟨-, h3, h4⟩
        obtain ⟨c, hc, h5⟩ := List.any_eq_true.mp h2
        simp only [Bool.or_eq_true, beq_iff_eq] at h5
        rcases h5 with rfl | rfl
        · exact absurd hc h3
        · exact absurd hc h4
    · rw [if_neg h2]
      simp only [true_iff]
      refine ⟨by omega, ?_, ?_⟩
      · intro hc; apply h2; exact List.any_eq_true.mpr ⟨_, hc, by decide⟩
      · intro hc; apply h2; exact List.any_eq_true.mpr ⟨_, hc, by decide⟩

theorem emplace_badname {t : Txn} {p n a} (hn : ¬ GoodName n) : ∃ e, emplace t p n a = .ok (t, .error e)
    ∧ e = (if n.length > 503 then ENAMETOOLONG else EINVAL) := by
  unfold emplace
  cases hc : checkName n true with
  | ok u => cases u; exact absurd (checkName_good.mp hc) hn
  | error e =>
    refine ⟨e, rfl, ?_⟩
    unfold checkName maxName at hc
    by_cases h1 : n.length > 503
    · rw [if_pos h1] at hc ⊢; cases hc; rfl
    · rw [if_neg h1] at hc ⊢
      simp only [Bool.not_true, Bool.false_eq_true, if_false] at hc
      split at hc
      · cases hc; rfl
      · cases hc

/-- `emplace` on an existing entry of the same format. -/
theorem emplace_same {t : Txn} (h : TRep s t) {p n a i nd} (hi : s.nodes i = some nd) (hl : nd.loc = some (p, n))
    (hf : fmt nd.attr.mode = fmt a.mode) :
    ∃ t', emplace t p n a = .ok (t', .ok i) ∧ TRep (s.set i { nd with attr := a, flags := 0 }) t'
      ∧ t'.refs = t.refs ∧ t'.hooks = t.hooks ∧ t'.rewrite = t.rewrite.map (fun l => l.filter (· ≠ i)) := by
  have hloc := h.2.loc i nd p n hi hl
  refine ⟨{ t with
              db := { t.db with inodes := t.db.inodes.put (key8 i) (mkInode a p) }
              rewrite := t.rewrite.map (fun s => s.filter (· ≠ i)) }, ?_, ⟨?_, ?_⟩, rfl, rfl, rfl⟩
  · unfold emplace
    rw [checkName_good.mpr hloc.2.2]
    simp only
    rw [h.1.tn_some hi hl]
    simp only [mkEnt]
    rw [h.1.ino_some hi]
    simp only
    rw [if_pos (show fmt (recOf nd).attr.mode = fmt a.mode from hf)]
    rfl
  · have := h.1.setNode (nd' := { nd with attr := a, flags := 0 }) h.2 hi rfl t.db.links (by
      intro k
      by_cases hk : key8 i = k
      · rw [if_pos hk, ← hk, h.1.link h.2 (OK.lt h.2 hi), hi]; rfl
      · rw [if_neg hk])
    have he : mkInode a p = recOf { nd with attr := a, flags := 0 } := by
      unfold mkInode recOf Node.par; simp only [hl]
    rw [he]; exact this
  · exact OK.setNode h.2 hi rfl hf.symm (by
      intro t ht
      have := h.2.target i nd t hi ht
      simp only; rw [← hf]; exact this)

theorem emplaceNew_spec {t : Txn} {d : DB} (h : Rep s d) (ok : s.OK) {p n a} (hp0 : 0 < p) (hp : p < W64) (hn : GoodName n)
    (hnext : s.next + 1 < W64) (hfree : ∀ i, ¬ s.At p n i) :
    ∃ s' t', emplaceNew t d p n a = .ok (t', .ok s.next) ∧ CollectedTo (s.add p n a) t s' t' := by
  have hr := h.addNode (a := a) ok hp0 hp hn hnext hfree
  have hok := OK.addNode (a := a) ok hp0 hp hn hnext hfree
  obtain ⟨s', d', r', e1, e2, e3, e4, e5, e6⟩ := hr.cleanOrphans hok t.refs
  refine ⟨s', { t with db := d', refs := r' }, ?_, ⟨e2, e3⟩, e4, e5, e6, rfl, rfl⟩
  unfold emplaceNew allocNext
  rw [h.next]
  have : u64 (s.next + 1) = s.next + 1 := Nat.mod_eq_of_lt hnext
  simp only [bind_ok, this]
  rw [e1]; rfl

/-- `emplace` under a free name. -/
theorem emplace_free {t : Txn} (h : TRep s t) {p n a} (hp0 : 0 < p) (hp : p < W64) (hn : GoodName n)
    (hnext : s.next + 1 < W64) (hfree : ∀ i, ¬ s.At p n i) :
    ∃ s' t', emplace t p n a = .ok (t', .ok s.next) ∧ CollectedTo (s.add p n a) t s' t' := by
  unfold emplace
  rw [checkName_good.mpr hn]
  simp only
  rw [h.1.tn_none h.2 hp hfree]
  exact emplaceNew_spec h.1 h.2 hp0 hp hn hnext hfree

theorem orphan_free (ok : s.OK) {p n i} (hat : s.At p n i) : ∀ j, ¬ (s.orphan i).At p n j := by
  obtain ⟨nd, hi, hl⟩ := hat
  rintro j ⟨x, h1, h2⟩
  by_cases hj : j = i
  · subst hj; rw [Tree.orphan_self hi] at h1; cases h1; cases h2
  · rw [Tree.orphan_ne hj] at h1
    exact hj (ok.uniq j i x nd _ h1 hi h2 hl)

/-- `emplace` on an existing entry of another format: the old inode is unlinked, a new one created. -/
theorem emplace_replace {t : Txn} (h : TRep s t) {p n a i nd} (hi : s.nodes i = some nd)
    (hl : nd.loc = some (p, n)) (hf : fmt nd.attr.mode ≠ fmt a.mode) (hnext : s.next + 1 < W64) :
    ∃ s' t', emplace t p n a = .ok (t', .ok s.next) ∧ CollectedTo ((s.orphan i).add p n a) t s' t' := by
  have hloc := h.2.loc i nd p n hi hl
  obtain ⟨d1, e1, r1, -⟩ := h.1.makeOrphan h.2 hi hl
  unfold emplace
  rw [checkName_good.mpr hloc.2.2]
  simp only
  rw [h.1.tn_some hi hl]
  simp only [mkEnt]
  rw [h.1.ino_some hi]
  simp only
  rw [if_neg (show ¬ fmt (recOf nd).attr.mode = fmt a.mode from hf), e1]
  exact emplaceNew_spec (s := s.orphan i) r1 (OK.orphan h.2 i) hloc.1 hloc.2.1 hloc.2.2 hnext (orphan_free h.2 ⟨nd, hi, hl⟩)

theorem unlinkIno_missing {t : Txn} (h : TRep s t) {i} (hb : i < W64) (hr : i ≠ ROOT) (hi : s.nodes i = none) :
    unlinkIno t i = .ok (t, .error ENOENT) := by
  unfold unlinkIno; rw [h.1.makeOrphan_missing h.2 hb hr hi]

theorem unlinkIno_root {t : Txn} (h : TRep s t) : unlinkIno t ROOT = .ok (t, .error EIO) := by
  unfold unlinkIno; rw [h.1.makeOrphan_root h.2]

/-- `unlink` of an existing inode: it is taken out of its directory, then garbage is collected. -/
theorem unlinkIno_spec {t : Txn} (h : TRep s t) {i nd} (hr : i ≠ ROOT) (hi : s.nodes i = some nd) :
    ∃ s' t', unlinkIno t i = .ok (t', .ok ()) ∧ CollectedTo (s.orphan i) t s' t' := by
  have hm := h.1.makeOrphan_any h.2 (OK.lt h.2 hi)
  unfold unlinkIno
  have hok : (Cache.makeOrphan t.db i).2 = .ok () := by
    cases hl : nd.loc with
    | none => rw [h.1.makeOrphan_orphan h.2 hr hi hl]
    | some l => obtain ⟨d', e, -⟩ := h.1.makeOrphan (p := l.1) (n := l.2) h.2 hi hl; rw [e]
  cases hmo : Cache.makeOrphan t.db i with
  | mk d1 r1 =>
    rw [hmo] at hm hok
    simp only at hm hok
    subst hok
    obtain ⟨s', t', e1, e2⟩ := clean_spec (t := { t with db := d1 }) ⟨hm, OK.orphan h.2 i⟩
    exact ⟨s', t', e1, e2.rep, e2.coll, e2.refs, e2.clean, e2.rewrite, e2.hooks⟩

theorem unlinkName_missing {t : Txn} (h : TRep s t) {p n} (hp : p < W64) (hn : ∀ i, ¬ s.At p n i) :
    unlinkName t p n = .ok (t, .error ENOENT) := by
  unfold unlinkName; rw [h.1.tn_none h.2 hp hn]

theorem unlinkName_spec {t : Txn} (h : TRep s t) {p n i} (hat : s.At p n i) :
    ∃ s' t', unlinkName t p n = .ok (t', .ok ()) ∧ CollectedTo (s.orphan i) t s' t' := by
  obtain ⟨nd, hi, hl⟩ := hat
  unfold unlinkName
  rw [h.1.tn_some hi hl]
  exact unlinkIno_spec h (OK.loc_ne_root h.2 hi hl) hi

/-! writelink, update_flags -/

theorem writelink_missing {t : Txn} (h : TRep s t) {i dest} (hb : i < W64) (hi : s.nodes i = none) :
    writelink t i dest = (t, .error ENOENT) := by
  unfold writelink; rw [h.1.ino_none h.2 hb hi]

theorem writelink_notlink {t : Txn} (h : TRep s t) {i dest nd} (hi : s.nodes i = some nd) (hf : fmt nd.attr.mode ≠ S_IFLNK) :
    writelink t i dest = (t, .error EINVAL) := by
  unfold writelink; rw [h.1.ino_some hi]
  simp only
  rw [if_pos (show fmt (recOf nd).attr.mode ≠ S_IFLNK from hf)]

theorem writelink_spec {t : Txn} (h : TRep s t) {i dest nd} (hi : s.nodes i = some nd) (hf : fmt nd.attr.mode = S_IFLNK) :
    ∃ t', writelink t i dest = (t', .ok ())
      ∧ TRep (s.set i { nd with attr := { nd.attr with size := dest.length }, target := some dest }) t'
      ∧ t'.refs = t.refs ∧ t'.hooks = t.hooks ∧ t'.rewrite = t.rewrite := by
  refine ⟨{ t with db := { t.db with
      inodes := t.db.inodes.put (key8 i) { recOf nd with attr := { nd.attr with size := dest.length } }
      links := t.db.links.put (key8 i) dest } }, ?_, ⟨?_, ?_⟩, rfl, rfl, rfl⟩
  · unfold writelink; rw [h.1.ino_some hi]
    simp only
    rw [if_neg (show ¬ fmt (recOf nd).attr.mode ≠ S_IFLNK from fun hh => hh hf)]
    rfl
  · exact h.1.setNode (nd' := { nd with attr := { nd.attr with size := dest.length }, target := some dest }) h.2 hi rfl _ (by
      intro k; rw [Tab.find_put])
  · exact OK.setNode h.2 hi rfl rfl (fun _ _ => hf)

theorem updateFlags_missing {t : Txn} (h : TRep s t) {i a b} (hb : i < W64) (hi : s.nodes i = none) :
    updateFlags t i a b = (t, .error ENOENT) := by
  unfold updateFlags; rw [h.1.ino_none h.2 hb hi]

/-- New flag word of `update_flags`. -/
def newFlags (fl : Nat) (toSet toClear : List Flag) : Nat :=
  toClear.foldl (fun x f => setFlag x f false) (toSet.foldl (fun x f => setFlag x f true) fl)

theorem updateFlags_spec {t : Txn} (h : TRep s t) {i a b nd} (hi : s.nodes i = some nd) :
    ∃ t', updateFlags t i a b = (t', .ok ()) ∧ TRep (s.set i { nd with flags := newFlags nd.flags a b }) t'
      ∧ t'.refs = t.refs ∧ t'.hooks = t.hooks ∧ t'.rewrite = t.rewrite := by
  refine ⟨{ t with db := { t.db with
      inodes := t.db.inodes.put (key8 i) { recOf nd with flags := newFlags nd.flags a b } } }, ?_, ⟨?_, ?_⟩, rfl, rfl, rfl⟩
  · unfold updateFlags; rw [h.1.ino_some hi]; rfl
  · exact h.1.setNode (nd' := { nd with flags := newFlags nd.flags a b }) h.2 hi rfl t.db.links (by
      intro k
      by_cases hk : key8 i = k
      · rw [if_pos hk, ← hk, h.1.link h.2 (OK.lt h.2 hi), hi]; rfl
      · rw [if_neg hk])
  · exact OK.setNode h.2 hi rfl rfl (fun t ht => h.2.target i nd t hi ht)

end Dragonstash.Cache
