/-
  One step of `readdir` from any position: the next entry in the order of the keys. This order does not
  depend on the state of the directory.
-/
import Verif.Cache.Dir
namespace Dragonstash.Cache
open Codec
variable {s : Tree} {d : DB}

/-- The order in which entries are listed: that of the little endian inode numbers as byte strings. -/
def Before (i j : Ino) : Prop := blt (key8 i) (key8 j) = true

theorem Before.trans {i j k : Ino} (h1 : Before i j) (h2 : Before j k) : Before i k := blt_trans h1 h2
theorem Before.irrefl (i : Ino) : ¬ Before i i := by unfold Before; rw [blt_irrefl]; simp
theorem Before.total {i j : Ino} (hi : i < W64) (hj : j < W64) : Before i j ∨ i = j ∨ Before j i := by
  rcases blt_total (key8 i) (key8 j) with h | h | h
  · exact .inl h
  · exact .inr (.inl (by rw [← leDec_key8 hi, ← leDec_key8 hj, h]))
  · exact .inr (.inr h)

theorem Rep.mem_from (h : Rep s d) (ok : s.OK) {dir : Ino} (hd : dir < W64) {q c : Ino} {n : Bytes} :
    (c, n) ∈ kidsOf dir (d.treei.lower (key16 dir q)) ↔ s.At dir n c ∧ ¬ Before c q := by
  unfold kidsOf
  constructor
  · intro hm
    obtain ⟨e, he, hce⟩ := List.mem_map.mp hm
    have hin := takeWhile_imp he
    have hmem := (Tab.mem_lower_iff _ _ _).mp ((List.takeWhile_sublist _).subset he)
    obtain ⟨i, nd, p, m, hx, hi, hloc, hp, hb⟩ := h.treei_key ok hmem.1
    unfold isIn at hin; rw [hx] at hin
    simp only [key16_take, leDec_key8 hp, decide_eq_true_eq] at hin
    unfold entOf at hce; rw [hx] at hce
    simp only [key16_drop, leDec_key8 hb, Prod.mk.injEq, mkEnt] at hce
    obtain ⟨rfl, rfl⟩ := hce
    refine ⟨⟨nd, hi, by rw [hloc, hin]⟩, ?_⟩
    have := hmem.2
    rw [hx, hin] at this
    unfold key16 at this
    rw [blt_append_left] at this
    show ¬ blt (leEnc 8 i) (leEnc 8 q) = true
    rw [this]; simp
  · rintro ⟨⟨nd, hi, hl⟩, hq⟩
    have hb := OK.lt ok hi
    have hq' : blt (key16 dir c) (key16 dir q) = false := by
      unfold key16; rw [blt_append_left]; unfold Before key8 at hq; simpa using hq
    refine List.mem_map.mpr ⟨(key16 dir c, mkEnt c n), ?_, by unfold entOf; simp [key16_drop, leDec_key8 hb, mkEnt]⟩
    refine mem_takeWhile_in (q := key16 dir q) ?_ ?_ ?_ (Tab.lower_sorted _ _) hd ?_ ?_
    · left
      unfold key16 key8
      have : blt (leEnc 8 dir ++ leEnc 8 q) (leEnc 8 dir) = false := blt_prefix_self _ _
      rcases blt_total (leEnc 8 dir) (leEnc 8 dir ++ leEnc 8 q) with h | h | h
      · exact h
      · have := congrArg List.length h; simp at this
      · rw [this] at h; cases h
    · intro x hx
      obtain ⟨i, nd, p, m, hx, -⟩ := h.treei_key ok ((Tab.mem_lower_iff _ _ _).mp hx).1
      rw [hx]; simp
    · intro x hx; exact ((Tab.mem_lower_iff _ _ _).mp hx).2
    · exact (Tab.mem_lower_iff _ _ _).mpr ⟨(Tab.mem_iff _ _ _).mpr (h.ti_some hi hl), hq'⟩
    · unfold isIn; simp [key16_take, leDec_key8 hd]

theorem Rep.from_sorted (h : Rep s d) (ok : s.OK) {dir : Ino} (q : Ino) :
    (kidsOf dir (d.treei.lower (key16 dir q))).Pairwise (fun x y => Before x.1 y.1) := by
  have hs : ((d.treei.lower (key16 dir q)).takeWhile (isIn dir)).Pairwise (fun a b => blt a.1 b.1 = true) :=
    (Tab.lower_sorted _ _).sublist (List.takeWhile_sublist _)
  unfold kidsOf
  rw [List.pairwise_map]
  apply List.Pairwise.imp_of_mem _ hs
  intro a b ha hb hlt
  have ha1 := ((Tab.mem_lower_iff _ _ _).mp ((List.takeWhile_sublist _).subset ha)).1
  have hb1 := ((Tab.mem_lower_iff _ _ _).mp ((List.takeWhile_sublist _).subset hb)).1
  have ha2 := takeWhile_imp ha
  have hb2 := takeWhile_imp hb
  obtain ⟨i, nd, p, m, hx, -, -, hp, hi⟩ := h.treei_key ok ha1
  obtain ⟨j, nd', q, m', hy, -, -, hq, hj⟩ := h.treei_key ok hb1
  rw [hx, hy] at hlt
  rw [hx] at ha2; rw [hy] at hb2
  simp only [isIn, key16_take, leDec_key8 hp, leDec_key8 hq, decide_eq_true_eq] at ha2 hb2
  rw [hx, hy]
  simp only [entOf, key16_drop, leDec_key8 hi, leDec_key8 hj]
  unfold key16 at hlt
  rw [ha2, hb2, blt_append_left] at hlt
  exact hlt

/-- Entries which come behind position `c` in directory `dir` with parent `p`: all of them, if `c` is
the position of `..` (`.` in the root directory). -/
def Behind (p c j : Ino) : Prop := c = p ∨ Before c j

/-- One step of `readdir` behind the dots. -/
theorem Rep.readdir_cursor (h : Rep s d) (ok : s.OK) {dir p c : Ino} (hd : dir < W64) (hp : Cache.parent d dir = .ok p) (hc0 : c ≠ 0) (hcb : c < W64)
    (hc : ¬ (c ≠ p ∧ c = dir)) (hpk : ∀ n, ¬ s.At dir n p) :
    (Cache.readdir d dir c = .ok (.error EOF_) ∧ ∀ n j, s.At dir n j → ¬ Behind p c j) ∨
    ∃ n i, Cache.readdir d dir c = .ok (.ok (i, n)) ∧ s.At dir n i ∧ Behind p c i ∧
      ∀ m j, s.At dir m j → Behind p c j → j = i ∨ Before i j := by
  have hlt : ∀ {n j}, s.At dir n j → j < W64 := fun ⟨nd, hi, _⟩ => OK.lt ok hi
  have hread : Cache.readdir d dir c = readdirAt dir c (d.treei.lower (key16 dir (if c = p then 0 else c))) := by
    unfold Cache.readdir
    rw [if_neg hc0, hp]
    simp only
    rw [if_neg hc]
  rw [hread, readdirAt_eq (h.len16 ok _)]
  by_cases hcp : c = p
  · subst hcp
    rw [if_pos rfl]
    have hm := @Rep.mem_from s d h ok dir hd 0
    have hs := @Rep.from_sorted s d h ok dir 0
    have hall : ∀ {n j}, s.At dir n j → (j, n) ∈ kidsOf dir (d.treei.lower (key16 dir 0)) := by
      intro n j hj
      refine hm.mpr ⟨hj, ?_⟩
      unfold Before
      rw [show key8 0 = leEnc 8 0 from rfl, blt_zeros 8 _ (by simp)]; simp
    cases hk : kidsOf dir (d.treei.lower (key16 dir 0)) with
    | nil =>
      left
      exact ⟨rfl, fun n j hj _ => by have := hall hj; rw [hk] at this; cases this⟩
    | cons x rest =>
      right
      obtain ⟨i, n⟩ := x
      have hi : s.At dir n i := (hm.mp (by rw [hk]; simp)).1
      have hne : i ≠ c := by rintro rfl; exact hpk n hi
      simp only
      rw [if_neg (fun hh => hne hh.2)]
      refine ⟨n, i, rfl, hi, .inl rfl, fun m j hj _ => ?_⟩
      have := hall hj
      rw [hk] at this
      rcases List.mem_cons.mp this with hh | hh
      · cases hh; exact .inl rfl
      · rw [hk] at hs; exact .inr ((List.pairwise_cons.mp hs).1 _ hh)
  · rw [if_neg hcp]
    have hm := @Rep.mem_from s d h ok dir hd c
    have hs := @Rep.from_sorted s d h ok dir c
    have hin : ∀ {n j}, s.At dir n j → Behind p c j → (j, n) ∈ kidsOf dir (d.treei.lower (key16 dir c)) := by
      intro n j hj hb
      rcases hb with hb | hb
      · exact absurd hb hcp
      · exact hm.mpr ⟨hj, fun hh => Before.irrefl _ (hb.trans hh)⟩
    have hout : ∀ {n j}, (j, n) ∈ kidsOf dir (d.treei.lower (key16 dir c)) → j ≠ c → s.At dir n j ∧ Behind p c j := by
      intro n j hj hne
      obtain ⟨h1, h2⟩ := hm.mp hj
      refine ⟨h1, .inr ?_⟩
      rcases Before.total hcb (hlt h1) with hh | hh | hh
      · exact hh
      · exact absurd hh.symm hne
      · exact absurd hh h2
    cases hk : kidsOf dir (d.treei.lower (key16 dir c)) with
    | nil =>
      left
      exact ⟨rfl, fun n j hj hb => by have := hin hj hb; rw [hk] at this; cases this⟩
    | cons x rest =>
      obtain ⟨i, n⟩ := x
      rw [hk] at hs
      obtain ⟨hs1, hs2⟩ := List.pairwise_cons.mp hs
      simp only
      by_cases hic : i = c
      · subst hic
        rw [if_pos ⟨hc0, rfl⟩]
        cases rest with
        | nil =>
          left
          refine ⟨rfl, fun m j hj hb => ?_⟩
          have := hin hj hb
          rw [hk] at this
          rcases List.mem_cons.mp this with hh | hh
          · cases hh
            rcases hb with hb | hb
            · exact hcp hb
            · exact Before.irrefl _ hb
          · cases hh
        | cons y rest =>
          right
          obtain ⟨i', n'⟩ := y
          have hb' : Before i i' := hs1 (i', n') (by simp)
          have hne : i' ≠ i := by rintro rfl; exact Before.irrefl _ hb'
          obtain ⟨g1, g2⟩ := hout (n := n') (j := i') (by rw [hk]; simp) hne
          refine ⟨n', i', rfl, g1, g2, fun m j hj hb => ?_⟩
          have := hin hj hb
          rw [hk] at this
          rcases List.mem_cons.mp this with hh | hh
          · cases hh
            rcases hb with hb | hb
            · exact absurd hb hcp
            · exact absurd hb (Before.irrefl _)
          · rcases List.mem_cons.mp hh with hh | hh
            · cases hh; exact .inl rfl
            · exact .inr ((List.pairwise_cons.mp hs2).1 _ hh)
      · rw [if_neg (fun hh => hic hh.2)]
        right
        obtain ⟨g1, g2⟩ := hout (n := n) (j := i) (by rw [hk]; simp) hic
        refine ⟨n, i, rfl, g1, g2, fun m j hj hb => ?_⟩
        have := hin hj hb
        rw [hk] at this
        rcases List.mem_cons.mp this with hh | hh
        · cases hh; exact .inl rfl
        · exact .inr (hs1 _ hh)

end Dragonstash.Cache
