/-
  `path` under the representation relation.
-/
import Verif.Cache.Dir
namespace Dragonstash.Cache
open Codec
variable {s : Tree} {d : DB}

theorem PathTo.root_nil (ok : s.OK) {cs} (h : s.PathTo ROOT cs) : cs = [] := by
  cases h with
  | root => rfl
  | child hat =>
    obtain ⟨nd, h1, h2⟩ := hat
    exact absurd rfl (OK.loc_ne_root ok h1 h2)

theorem PathTo.unique (ok : s.OK) {i cs cs'} (h : s.PathTo i cs) (h' : s.PathTo i cs') : cs = cs' := by
  induction h generalizing cs' with
  | root => exact (PathTo.root_nil ok h').symm
  | @child p n i cs hat _ ih =>
    obtain ⟨nd, h1, h2⟩ := hat
    cases h' with
    | root => exact absurd rfl (OK.loc_ne_root ok h1 h2)
    | child hat' hp =>
      obtain ⟨nd', g1, g2⟩ := hat'
      rw [h1] at g1; cases g1
      rw [h2] at g2; cases g2
      rw [ih hp]

/-- Distinct existing inodes are at most as many as there are inode records. -/
theorem Rep.count (h : Rep s d) (ok : s.OK) {l : List Ino} (hn : l.Nodup) (he : ∀ j ∈ l, ∃ nd, s.nodes j = some nd) :
    l.length ≤ d.inodes.size := by
  have key : ∀ (l : List Ino) (t : List Bytes), l.Nodup → (∀ j ∈ l, j < W64) → (∀ j ∈ l, key8 j ∈ t) → l.length ≤ t.length := by
    intro l
    induction l with
    | nil => intro t _ _ _; simp
    | cons x xs ih =>
      intro t hn hb hm
      have hx := List.nodup_cons.mp hn
      have := ih (t.erase (key8 x)) hx.2 (fun j hj => hb j (by simp [hj])) (by
        intro j hj
        rw [List.mem_erase_of_ne]
        · exact hm j (by simp [hj])
        · intro he
          have := (key8_inj (hb j (by simp [hj])) (hb x (by simp))).mp he
          subst this; exact hx.1 hj)
      have hlen := List.length_erase_of_mem (hm x (by simp))
      have : 0 < t.length := List.length_pos_of_mem (hm x (by simp))
      simp only [List.length_cons]; omega
  have := key l (d.inodes.entries.map Prod.fst) hn (fun j hj => by obtain ⟨nd, h1⟩ := he j hj; exact OK.lt ok h1) (by
    intro j hj
    obtain ⟨nd, h1⟩ := he j hj
    exact List.mem_map.mpr ⟨_, (Tab.mem_iff _ _ _).mpr (h.ino_some h1), rfl⟩)
  simpa [Tab.size] using this

theorem PathTo.chain (ok : s.OK) {i cs} (h : s.PathTo i cs) :
    ∃ l : List Ino, l.Nodup ∧ l.length = cs.length ∧ ∀ j ∈ l, (∃ nd, s.nodes j = some nd) ∧ ∃ cs', s.PathTo j cs' ∧ cs'.length ≤ cs.length := by
  induction h with
  | root => exact ⟨[], by simp, rfl, by simp⟩
  | @child p n i cs hat hp ih =>
    obtain ⟨l, h1, h2, h3⟩ := ih
    refine ⟨i :: l, List.nodup_cons.mpr ⟨?_, h1⟩, by simp [h2], ?_⟩
    · intro hi
      obtain ⟨-, cs', h4, h5⟩ := h3 i hi
      have := PathTo.unique ok h4 (.child hat hp)
      rw [this] at h5; simp at h5; omega
    · intro j hj
      rcases List.mem_cons.mp hj with rfl | hj
      · obtain ⟨nd, h4, -⟩ := id hat
        exact ⟨⟨nd, h4⟩, _, .child hat hp, by simp⟩
      · obtain ⟨h4, cs', h5, h6⟩ := h3 j hj
        exact ⟨h4, cs', h5, by simp; omega⟩

theorem pathStr_snoc (cs : List Bytes) (n : Bytes) : pathStr (cs ++ [n]) = pathStr cs ++ (0x2f : UInt8) :: n := by
  simp [pathStr]

theorem Rep.pathLoop_found (h : Rep s d) (ok : s.OK) {i cs} (hp : s.PathTo i cs) :
    ∀ f buf, i ≠ ROOT → cs.length ≤ f → pathLoop d f i buf = .ok (.ok (pathStr cs ++ buf.reverse)) := by
  induction hp with
  | root => intro f buf hi; exact absurd rfl hi
  | @child p n i cs hat hp ih =>
    intro f buf hi hf
    obtain ⟨nd, h1, h2⟩ := hat
    cases f with
    | zero => simp at hf
    | succ f =>
      unfold pathLoop
      rw [h.parent ok (OK.lt ok h1), if_neg hi, h1]
      simp only [Node.par, h2]
      rw [h.name2 h1 h2 ok]
      simp only
      by_cases hpr : p = ROOT
      · rw [if_pos hpr]
        subst hpr
        rw [PathTo.root_nil ok hp, pathStr_snoc]
        simp [pathStr]
      · rw [if_neg hpr, ih f _ hpr (by simp at hf; omega), pathStr_snoc]
        simp

/-- `path` of an inode which can be reached from the root. -/
theorem Rep.path_found (h : Rep s d) (ok : s.OK) {i cs} (hp : s.PathTo i cs) : path d i = .ok (.ok (pathStr cs)) := by
  unfold path
  by_cases hi : i = ROOT
  · subst hi; rw [PathTo.root_nil ok hp]; rfl
  · rw [if_neg hi]
    obtain ⟨l, h1, h2, h3⟩ := PathTo.chain ok hp
    have := h.count ok h1 (fun j hj => (h3 j hj).1)
    rw [h.pathLoop_found ok hp _ _ hi (by omega)]
    simp

theorem Rep.pathLoop_cases (h : Rep s d) (ok : s.OK) (wf : s.WF) : ∀ f i buf, i < W64 → i ≠ ROOT →
    (∃ cs, s.PathTo i cs ∧ pathLoop d f i buf = .ok (.ok (pathStr cs ++ buf.reverse))) ∨
    pathLoop d f i buf = .ok (.error ENOENT) ∨
    (pathLoop d f i buf = .error (.diverge 667) ∧ ∃ l : List Ino, l.Nodup ∧ l.length = f ∧ ∀ j ∈ l, j ≤ i ∧ ∃ nd, s.nodes j = some nd) := by
  intro f
  induction f with
  | zero => intro i buf _ _; exact .inr (.inr ⟨rfl, [], by simp, rfl, by simp⟩)
  | succ f ih =>
    intro i buf hb hr
    unfold pathLoop
    rw [h.parent ok hb, if_neg hr]
    cases hi : s.nodes i with
    | none => exact .inr (.inl rfl)
    | some nd =>
      simp only
      cases hl : nd.loc with
      | none =>
        have : nd.par = 0 := by simp [Node.par, hl]
        rw [this]
        simp only [Cache.name2, INVALID, or_true, if_true]
        rw [if_neg (by decide)]
        cases f with
        | zero => exact .inr (.inr ⟨rfl, [i], by simp, rfl, by simp [hi]⟩)
        | succ f =>
          unfold pathLoop
          rw [h.parent ok (by decide), if_neg (by decide)]
          cases h0 : s.nodes 0 with
          | none => exact .inr (.inl rfl)
          | some nd0 => have := (ok.bound 0 nd0 h0).1; omega
      | some l =>
        obtain ⟨p, n⟩ := l
        have : nd.par = p := by simp [Node.par, hl]
        rw [this, h.name2 hi hl ok]
        simp only
        obtain ⟨hlt, -⟩ := wf i nd p n hi hl
        by_cases hpr : p = ROOT
        · rw [if_pos hpr]; subst hpr
          left
          exact ⟨[] ++ [n], .child ⟨nd, hi, hl⟩ .root, by simp [pathStr]⟩
        · rw [if_neg hpr]
          rcases ih p (buf ++ n.reverse ++ [0x2f]) (by omega) hpr with ⟨cs, h1, h2⟩ | h1 | ⟨h1, l, h2, h3, h4⟩
          · left
            refine ⟨cs ++ [n], .child ⟨nd, hi, hl⟩ h1, ?_⟩
            rw [h2, pathStr_snoc]; simp
          · exact .inr (.inl h1)
          · refine .inr (.inr ⟨h1, i :: l, List.nodup_cons.mpr ⟨?_, h2⟩, by simp [h3], ?_⟩)
            · intro hm; have := (h4 i hm).1; omega
            · intro j hj
              rcases List.mem_cons.mp hj with rfl | hj
              · exact ⟨by omega, nd, hi⟩
              · exact ⟨by have := (h4 j hj).1; omega, (h4 j hj).2⟩

/-- `path` of an inode which cannot be reached from the root, in a tree without cycles. -/
theorem Rep.path_missing (h : Rep s d) (ok : s.OK) (wf : s.WF) {i} (hb : i < W64) (hc : ¬ s.Conn i) :
    path d i = .ok (.error ENOENT) := by
  have hr : i ≠ ROOT := by rintro rfl; exact hc ⟨[], .root⟩
  unfold path
  rw [if_neg hr]
  rcases h.pathLoop_cases ok wf (d.inodes.size + 1) i [] hb hr with ⟨cs, h1, -⟩ | h1 | ⟨-, l, h2, h3, h4⟩
  · exact absurd ⟨cs, h1⟩ hc
  · exact h1
  · have := h.count ok h2 (fun j hj => (h4 j hj).2)
    omega

end Dragonstash.Cache
