/-
  The possible effects of an operation on the abstract state, and what they preserve.
-/
import Verif.Cache.Path
import Verif.Cache.Txn
namespace Dragonstash.Cache
open Codec
variable {s s' : Tree}

/-- Effects of operations: overwriting an inode in place, unlinking, adding, collecting garbage,
changing lock counts; and sequences of those. -/
inductive Eff : Tree → Refs → Tree → Refs → Prop
  | refl {s r} : Eff s r s r
  | set {s : Tree} {r i nd nd'} : s.nodes i = some nd → nd'.loc = nd.loc → fmt nd'.attr.mode = fmt nd.attr.mode →
      (∀ t, nd'.target = some t → fmt nd'.attr.mode = S_IFLNK) → Eff s r (s.set i nd') r
  | orphan {s : Tree} {r} (i) : Eff s r (s.orphan i) r
  | add {s : Tree} {r p n a} : 0 < p → p < W64 → GoodName n → s.next + 1 < W64 → (∀ i, ¬ s.At p n i) →
      Eff s r (s.add p n a) r
  | collect {s s' : Tree} {r r'} : s'.OK → Collected s (locked r) s' → DoomedBy r r' (Gone s (locked r)) → Eff s r s' r'
  | trans {s1 r1 s2 r2 s3 r3} : Eff s1 r1 s2 r2 → Eff s2 r2 s3 r3 → Eff s1 r1 s3 r3

theorem Gone.exists_ {L : Ino → Prop} {i} (h : Gone s L i) : ∃ nd, s.nodes i = some nd := by
  cases h with
  | orphan h => exact ⟨_, h⟩
  | child h => exact ⟨_, h⟩

theorem Gone.not_locked {L : Ino → Prop} {i} (h : Gone s L i) : ¬ L i := by
  cases h with
  | orphan _ _ _ h => exact h
  | child _ _ _ _ h => exact h

theorem Gone.not_root (ok : s.OK) {L : Ino → Prop} {i} (h : Gone s L i) : i ≠ ROOT := by
  cases h with
  | orphan _ h => exact h
  | child h1 h2 => exact OK.loc_ne_root ok h1 h2

/-- After a collection an inode is gone, unchanged, or unlinked but otherwise unchanged. -/
theorem Collected.cases {L : Ino → Prop} (h : Collected s L s') (i : Ino) :
    (Gone s L i ∧ s'.nodes i = none) ∨
    (¬ Gone s L i ∧ s'.nodes i = s.nodes i) ∨
    (¬ Gone s L i ∧ L i ∧ ∃ nd p n, s.nodes i = some nd ∧ nd.loc = some (p, n) ∧ Gone s L p ∧ s.IsDir p
      ∧ s'.nodes i = some { nd with loc := none }) := by
  by_cases hg : Gone s L i
  · exact .inl ⟨hg, h.gone i hg⟩
  · by_cases hc : ∃ nd p n, s.nodes i = some nd ∧ nd.loc = some (p, n) ∧ Gone s L p ∧ s.IsDir p
    · obtain ⟨nd, p, n, h1, h2, h3, h4⟩ := hc
      have hl : L i := Classical.byContradiction fun hl => hg (.child h1 h2 h3 h4 hl)
      exact .inr (.inr ⟨hg, hl, nd, p, n, h1, h2, h3, h4, h.cut i nd p n h1 h2 h3 h4 hl⟩)
    · refine .inr (.inl ⟨hg, h.keep i hg ?_⟩)
      intro nd p n h1 h2 h3
      exact hc ⟨nd, p, n, h1, h2, h3⟩

/-- What exists after a collection existed before, with the same contents and place, or was unlinked. -/
theorem Collected.back {L : Ino → Prop} (h : Collected s L s') {i nd'} (hi : s'.nodes i = some nd') :
    ¬ Gone s L i ∧ ∃ nd, s.nodes i = some nd ∧ nd'.attr = nd.attr ∧ nd'.flags = nd.flags ∧ nd'.target = nd.target ∧
      (nd'.loc = nd.loc ∨ nd'.loc = none) := by
  rcases h.cases i with ⟨-, h1⟩ | ⟨h0, h1⟩ | ⟨h0, -, nd, p, n, h1, -, -, -, h2⟩
  · rw [h1] at hi; cases hi
  · rw [h1] at hi; exact ⟨h0, nd', hi, rfl, rfl, rfl, .inl rfl⟩
  · rw [h2] at hi; cases hi; exact ⟨h0, nd, h1, rfl, rfl, rfl, .inr rfl⟩

theorem Collected.fwd {L : Ino → Prop} (h : Collected s L s') {i nd} (hi : s.nodes i = some nd) (hg : ¬ Gone s L i) :
    ∃ nd', s'.nodes i = some nd' ∧ nd'.attr = nd.attr ∧ nd'.flags = nd.flags ∧ nd'.target = nd.target ∧
      (nd'.loc = nd.loc ∨ nd'.loc = none) := by
  rcases h.cases i with ⟨h1, -⟩ | ⟨-, h1⟩ | ⟨-, -, nd1, p, n, h1, -, -, -, h2⟩
  · exact absurd h1 hg
  · exact ⟨nd, by rw [h1]; exact hi, rfl, rfl, rfl, .inl rfl⟩
  · rw [hi] at h1; cases h1; exact ⟨_, h2, rfl, rfl, rfl, .inr rfl⟩

theorem Collected.dir {L : Ino → Prop} (h : Collected s L s') {p} (hd : s.IsDir p) (hg : ¬ Gone s L p) : s'.IsDir p := by
  obtain ⟨nd, h1, h2⟩ := hd
  obtain ⟨nd', h3, h4, -⟩ := h.fwd h1 hg
  exact ⟨nd', h3, by rw [h4]; exact h2⟩

/-! ### What effects preserve -/

theorem Eff.ok {r r'} (h : Eff s r s' r') (ok : s.OK) : s'.OK := by
  induction h with
  | refl => exact ok
  | set h1 h2 h3 h4 => exact OK.setNode ok h1 h2 h3 h4
  | orphan i => exact OK.orphan ok i
  | add h1 h2 h3 h4 h5 => exact OK.addNode ok h1 h2 h3 h4 h5
  | collect h => exact h
  | trans _ _ ih1 ih2 => exact ih2 (ih1 ok)

theorem Eff.next {r r'} (h : Eff s r s' r') : s.next ≤ s'.next := by
  induction h with
  | refl => exact Nat.le_refl _
  | set => exact Nat.le_refl _
  | orphan => exact Nat.le_refl _
  | add => exact Nat.le_succ _
  | collect _ h => exact Nat.le_of_eq h.next.symm
  | trans _ _ ih1 ih2 => exact Nat.le_trans ih1 ih2

theorem Eff.counts {r r'} (h : Eff s r s' r') : ∀ i, (r' i).nrefs = (r i).nrefs := by
  induction h with
  | refl => exact fun _ => rfl
  | set => exact fun _ => rfl
  | orphan => exact fun _ => rfl
  | add => exact fun _ => rfl
  | collect _ _ h => exact fun i => (h i).1
  | trans _ _ ih1 ih2 => exact fun i => (ih2 i).trans (ih1 i)

theorem Eff.locked {r r'} (h : Eff s r s' r') : locked r' = locked r := by
  funext i; unfold Cache.locked; rw [h.counts i]

/-- Locked inodes survive, and keep their format. -/
theorem Eff.survive {r r'} (h : Eff s r s' r') (ok : s.OK) {i nd} (hl : Cache.locked r i) (hi : s.nodes i = some nd) :
    ∃ nd', s'.nodes i = some nd' ∧ fmt nd'.attr.mode = fmt nd.attr.mode := by
  induction h generalizing nd with
  | refl => exact ⟨nd, hi, rfl⟩
  | @set s r j x x' h1 h2 h3 h4 =>
    by_cases hj : i = j
    · subst hj; rw [h1] at hi; cases hi; exact ⟨x', Tree.set_self, h3⟩
    · exact ⟨nd, by rw [Tree.set_ne hj]; exact hi, rfl⟩
  | orphan j =>
    by_cases hj : i = j
    · subst hj; exact ⟨_, Tree.orphan_self hi, rfl⟩
    · exact ⟨nd, by rw [Tree.orphan_ne hj]; exact hi, rfl⟩
  | add => exact ⟨nd, by rw [Tree.add_ne (OK.ne_next ok hi)]; exact hi, rfl⟩
  | collect _ h =>
    obtain ⟨nd', h1, h2, -⟩ := h.fwd hi (fun hg => hg.not_locked hl)
    exact ⟨nd', h1, by rw [h2]⟩
  | trans e1 e2 ih1 ih2 =>
    obtain ⟨nd1, h1, h2⟩ := ih1 ok hl hi
    obtain ⟨nd2, h3, h4⟩ := ih2 (e1.ok ok) (by rw [e1.locked]; exact hl) h1
    exact ⟨nd2, h3, h4.trans h2⟩

/-- Effects under which new entries are only made in directories. -/
inductive EffP : Tree → Refs → Tree → Refs → Prop
  | refl {s r} : EffP s r s r
  | set {s : Tree} {r i nd nd'} : s.nodes i = some nd → nd'.loc = nd.loc → fmt nd'.attr.mode = fmt nd.attr.mode →
      EffP s r (s.set i nd') r
  | orphan {s : Tree} {r} (i) : EffP s r (s.orphan i) r
  | add {s : Tree} {r p n a} : s.IsDir p → EffP s r (s.add p n a) r
  | collect {s s' : Tree} {r r'} : Collected s (locked r) s' → EffP s r s' r'
  | trans {s1 r1 s2 r2 s3 r3} : EffP s1 r1 s2 r2 → Eff s1 r1 s2 r2 → EffP s2 r2 s3 r3 → EffP s1 r1 s3 r3

theorem IsDir.orphan {p} (i) (h : s.IsDir p) : (s.orphan i).IsDir p := by
  obtain ⟨nd, h1, h2⟩ := h
  by_cases hp : p = i
  · subst hp; exact ⟨_, Tree.orphan_self h1, h2⟩
  · exact ⟨nd, by rw [Tree.orphan_ne hp]; exact h1, h2⟩

theorem EffP.wf {r r'} (h : EffP s r s' r') (ok : s.OK) (wf : s.WF) : s'.WF := by
  induction h with
  | refl => exact wf
  | @set s r j x x' h1 h2 h3 =>
    have hdir : ∀ {q}, s.IsDir q → (s.set j x').IsDir q := by
      rintro q ⟨y, h4, h5⟩
      by_cases hq : q = j
      · subst hq; rw [h1] at h4; cases h4; exact ⟨x', Tree.set_self, by rw [h3]; exact h5⟩
      · exact ⟨y, by rw [Tree.set_ne hq]; exact h4, h5⟩
    intro i nd p n hi hl
    by_cases hj : i = j
    · subst hj; rw [Tree.set_self] at hi; cases hi
      obtain ⟨a, b⟩ := wf i x p n h1 (h2 ▸ hl); exact ⟨a, hdir b⟩
    · rw [Tree.set_ne hj] at hi
      obtain ⟨a, b⟩ := wf i nd p n hi hl; exact ⟨a, hdir b⟩
  | @orphan s r j =>
    intro i nd p n hi hl
    by_cases hj : i = j
    · subst hj
      cases hn : s.nodes i with
      | none => simp [Tree.orphan, hn] at hi
      | some x => rw [Tree.orphan_self hn] at hi; cases hi; cases hl
    · rw [Tree.orphan_ne hj] at hi
      obtain ⟨a, b⟩ := wf i nd p n hi hl; exact ⟨a, IsDir.orphan j b⟩
  | @add s r q0 m a hq =>
    have hdir : ∀ {q}, s.IsDir q → (s.add q0 m a).IsDir q := by
      rintro q ⟨y, h4, h5⟩
      exact ⟨y, by rw [Tree.add_ne (OK.ne_next ok h4)]; exact h4, h5⟩
    intro i nd p n hi hl
    by_cases hj : i = s.next
    · subst hj; rw [Tree.add_self] at hi; cases hi; cases hl
      obtain ⟨y, h4, h5⟩ := hq
      exact ⟨(ok.bound _ _ h4).2, hdir ⟨y, h4, h5⟩⟩
    · rw [Tree.add_ne hj] at hi
      obtain ⟨a, b⟩ := wf i nd p n hi hl; exact ⟨a, hdir b⟩
  | @collect s s' r r' h =>
    intro i nd p n hi hl
    obtain ⟨hg, nd0, h1, -, -, -, h5⟩ := h.back hi
    rcases h5 with h5 | h5
    · rw [h5] at hl
      obtain ⟨a, b⟩ := wf i nd0 p n h1 hl
      refine ⟨a, h.dir b ?_⟩
      intro hgp
      rcases h.cases i with ⟨h6, -⟩ | ⟨-, h6⟩ | ⟨-, -, nd1, q, m, h6, -, -, -, h7⟩
      · exact hg h6
      · by_cases hL : Cache.locked r i
        · have := h.cut i nd0 p n h1 hl hgp b hL
          rw [this] at hi; cases hi; simp [hl] at h5
        · exact hg (.child h1 hl hgp b hL)
      · rw [h7] at hi; cases hi; simp [hl] at h5
    · rw [h5] at hl; cases hl
  | trans _ e1 _ ih1 ih2 => exact ih2 (e1.ok ok) (ih1 ok wf)

theorem Eff.root {r r'} (h : Eff s r s' r') (ok : s.OK) : ∃ nd, s'.nodes ROOT = some nd ∧ fmt nd.attr.mode = S_IFDIR ∧ nd.loc = none :=
  (h.ok ok).root

end Dragonstash.Cache
