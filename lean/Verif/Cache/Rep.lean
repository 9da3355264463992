/-
  Relation between databases and abstract states, and the reading operations under it.
-/
import Verif.Cache.Spec
namespace Dragonstash.Cache
open Codec

theorem w64_eq : (256 : Nat) ^ 8 = W64 := by decide

theorem key8_inj {i j : Ino} (hi : i < W64) (hj : j < W64) : key8 i = key8 j ↔ i = j :=
  ⟨fun h => leEnc_inj (k := 8) (by rw [w64_eq]; exact hi) (by rw [w64_eq]; exact hj) h, fun h => by rw [h]⟩

theorem key16_inj {p i q j : Ino} (hp : p < W64) (hi : i < W64) (hq : q < W64) (hj : j < W64) :
    key16 p i = key16 q j ↔ p = q ∧ i = j := by
  unfold key16
  constructor
  · intro h
    obtain ⟨h1, h2⟩ := List.append_inj h (by simp)
    exact ⟨(key8_inj hp hq).mp h1, (key8_inj hi hj).mp h2⟩
  · rintro ⟨rfl, rfl⟩; rfl

theorem keyN_inj {p q : Ino} {n m : Bytes} (hp : p < W64) (hq : q < W64) :
    keyN p n = keyN q m ↔ p = q ∧ n = m := by
  unfold keyN
  constructor
  · intro h
    obtain ⟨h1, h2⟩ := List.append_inj h (by simp)
    exact ⟨(key8_inj hp hq).mp h1, h2⟩
  · rintro ⟨rfl, rfl⟩; rfl

theorem leDec_key8 {i : Ino} (hi : i < W64) : leDec (key8 i) = i :=
  leDec_leEnc 8 i (by rw [w64_eq]; exact hi)

@[simp] theorem key8_length (i : Ino) : (key8 i).length = 8 := by simp [key8]
@[simp] theorem key16_length (p i : Ino) : (key16 p i).length = 16 := by simp [key16]
theorem key16_take {p i : Ino} : (key16 p i).take 8 = key8 p := by
  unfold key16 key8; rw [List.take_left' (by simp)]
theorem key16_drop {p i : Ino} : (key16 p i).drop 8 = key8 i := by
  unfold key16 key8; rw [List.drop_left' (by simp)]
theorem keyN_take {p : Ino} {n : Bytes} : (keyN p n).take 8 = key8 p := by
  unfold keyN key8; rw [List.take_left' (by simp)]
theorem keyN_drop {p : Ino} {n : Bytes} : (keyN p n).drop 8 = n := by
  unfold keyN; rw [List.drop_left' (by simp)]
theorem keyN_length {p : Ino} {n : Bytes} : (keyN p n).length = 8 + n.length := by simp [keyN]

/-- Parent field stored for a node: 0 for unlinked inodes and the root. -/
def Node.par (nd : Node) : Ino := match nd.loc with | none => 0 | some (p, _) => p

/-- The inode record which stores a node. -/
def recOf (nd : Node) : Inode := ⟨nd.flags, nd.par, nd.attr⟩

/-- The databases hold exactly the abstract state `s`. -/
structure Rep (s : Tree) (d : DB) : Prop where
  next : d.next = some s.next
  inodes : ∀ k r, d.inodes.find k = some r ↔ ∃ i nd, k = key8 i ∧ s.nodes i = some nd ∧ r = recOf nd
  treei : ∀ k e, d.treei.find k = some e ↔
    ∃ i nd p n, k = key16 p i ∧ s.nodes i = some nd ∧ nd.loc = some (p, n) ∧ e = mkEnt i n
  treen : ∀ k e, d.treen.find k = some e ↔
    ∃ i nd p n, k = keyN p n ∧ s.nodes i = some nd ∧ nd.loc = some (p, n) ∧ e = mkEnt i n
  orphans : ∀ k u, d.orphans.find k = some u ↔ ∃ i nd, k = key8 i ∧ s.nodes i = some nd ∧ nd.loc = none ∧ i ≠ ROOT
  links : ∀ k t, d.links.find k = some t ↔ ∃ i nd, k = key8 i ∧ s.nodes i = some nd ∧ nd.target = some t

/-- The databases are determined by the abstract state. -/
theorem Rep.unique {s : Tree} {d d' : DB} (h : Rep s d) (h' : Rep s d') : d = d' := by
  obtain ⟨a1, a2, a3, a4, a5, a6⟩ := h
  obtain ⟨b1, b2, b3, b4, b5, b6⟩ := h'
  have e {V : Type} {x y : Tab V} {P : Bytes → V → Prop} (hx : ∀ k v, x.find k = some v ↔ P k v)
      (hy : ∀ k v, y.find k = some v ↔ P k v) : x = y := by
    apply Tab.ext
    intro k
    cases hk : x.find k with
    | some v => exact ((hy k v).mpr ((hx k v).mp hk)).symm
    | none =>
      cases hk' : y.find k with
      | none => rfl
      | some v => rw [(hx k v).mpr ((hy k v).mp hk')] at hk; cases hk
  obtain ⟨_, _, _, _, _, _⟩ := d
  obtain ⟨_, _, _, _, _, _⟩ := d'
  simp only at *
  rw [e a2 b2, e a3 b3, e a4 b4, e a5 b5, e a6 b6, a1, b1]

variable {s : Tree} {d : DB}

theorem OK.lt (ok : s.OK) {i nd} (h : s.nodes i = some nd) : i < W64 :=
  Nat.lt_trans (ok.bound i nd h).2 ok.next_lt

theorem OK.loc_ne_root (ok : s.OK) {i nd l} (h : s.nodes i = some nd) (hl : nd.loc = some l) : i ≠ ROOT := by
  rintro rfl
  obtain ⟨nd', h1, -, h3⟩ := ok.root
  rw [h] at h1; cases h1; rw [h3] at hl; cases hl

theorem Rep.ino_some (h : Rep s d) {i nd} (hi : s.nodes i = some nd) : d.inodes.find (key8 i) = some (recOf nd) :=
  (h.inodes _ _).mpr ⟨i, nd, rfl, hi, rfl⟩

theorem Rep.ino_none (h : Rep s d) (ok : s.OK) {i} (hb : i < W64) (hi : s.nodes i = none) :
    d.inodes.find (key8 i) = none := by
  cases hf : d.inodes.find (key8 i) with
  | none => rfl
  | some r =>
    obtain ⟨j, nd, h1, h2, -⟩ := (h.inodes _ _).mp hf
    rw [key8_inj hb (OK.lt ok h2)] at h1
    subst h1; rw [hi] at h2; cases h2

theorem Rep.ino (h : Rep s d) (ok : s.OK) {i} (hb : i < W64) :
    d.inodes.find (key8 i) = (s.nodes i).map recOf := by
  cases hi : s.nodes i with
  | none => rw [h.ino_none ok hb hi]; rfl
  | some nd => rw [h.ino_some hi]; rfl

theorem Rep.ti_some (h : Rep s d) {i nd p n} (hi : s.nodes i = some nd) (hl : nd.loc = some (p, n)) :
    d.treei.find (key16 p i) = some (mkEnt i n) :=
  (h.treei _ _).mpr ⟨i, nd, p, n, rfl, hi, hl, rfl⟩

theorem Rep.tn_some (h : Rep s d) {i nd p n} (hi : s.nodes i = some nd) (hl : nd.loc = some (p, n)) :
    d.treen.find (keyN p n) = some (mkEnt i n) :=
  (h.treen _ _).mpr ⟨i, nd, p, n, rfl, hi, hl, rfl⟩

theorem Rep.ti_none (h : Rep s d) (ok : s.OK) {p i} (hp : p < W64) (hb : i < W64)
    (hi : ∀ nd n, s.nodes i = some nd → nd.loc ≠ some (p, n)) : d.treei.find (key16 p i) = none := by
  cases hf : d.treei.find (key16 p i) with
  | none => rfl
  | some r =>
    obtain ⟨j, nd, q, n, h1, h2, h3, -⟩ := (h.treei _ _).mp hf
    obtain ⟨rfl, rfl⟩ := (key16_inj hp hb (ok.loc j nd q n h2 h3).2.1 (OK.lt ok h2)).mp h1
    exact absurd h3 (hi nd n h2)

theorem Rep.tn_none (h : Rep s d) (ok : s.OK) {p n} (hp : p < W64) (hi : ∀ i, ¬ s.At p n i) :
    d.treen.find (keyN p n) = none := by
  cases hf : d.treen.find (keyN p n) with
  | none => rfl
  | some r =>
    obtain ⟨j, nd, q, m, h1, h2, h3, -⟩ := (h.treen _ _).mp hf
    obtain ⟨rfl, rfl⟩ := (keyN_inj hp (ok.loc j nd q m h2 h3).2.1).mp h1
    exact absurd ⟨nd, h2, h3⟩ (hi j)

theorem Rep.link (h : Rep s d) (ok : s.OK) {i} (hb : i < W64) :
    d.links.find (key8 i) = (s.nodes i).bind (·.target) := by
  cases hf : d.links.find (key8 i) with
  | some t =>
    obtain ⟨j, nd, h1, h2, h3⟩ := (h.links _ _).mp hf
    rw [key8_inj hb (OK.lt ok h2)] at h1
    subst h1; rw [h2]; simp [h3]
  | none =>
    cases hi : s.nodes i with
    | none => rfl
    | some nd =>
      cases ht : nd.target with
      | none => simp [ht]
      | some t => rw [(h.links _ _).mpr ⟨i, nd, rfl, hi, ht⟩] at hf; cases hf

/-! ### Reading operations -/

theorem Rep.parent (h : Rep s d) (ok : s.OK) {i} (hb : i < W64) :
    parent d i = if i = ROOT then .ok ROOT else match s.nodes i with
      | none => .error ENOENT
      | some nd => .ok nd.par := by
  unfold Cache.parent
  by_cases hr : i = ROOT
  · simp [hr]
  · rw [if_neg hr, if_neg hr, h.ino ok hb]
    cases s.nodes i <;> rfl

theorem Rep.name2 (h : Rep s d) {i nd p n} (hi : s.nodes i = some nd) (hl : nd.loc = some (p, n))
    (ok : s.OK) : name2 d p i = .ok n := by
  unfold Cache.name2
  have := ok.loc i nd p n hi hl
  rw [if_neg (by
    rintro (h | h)
    · exact OK.loc_ne_root ok hi hl h
    · simp only [INVALID] at h; omega), h.ti_some hi hl]
  rfl

theorem Rep.getattr (h : Rep s d) (ok : s.OK) {i} (hb : i < W64) :
    getattr d i = match s.nodes i with | none => .error ENOENT | some nd => .ok (i, nd.attr) := by
  unfold Cache.getattr
  rw [h.ino ok hb]
  cases s.nodes i <;> rfl

theorem Rep.readlink (h : Rep s d) (ok : s.OK) {i} (hb : i < W64) :
    readlink d i = match s.nodes i with
      | none => .error ENOENT
      | some nd => match nd.target with | none => .error EINVAL | some t => .ok t := by
  unfold Cache.readlink
  rw [h.link ok hb, h.ino ok hb]
  cases s.nodes i with
  | none => rfl
  | some nd => cases hnd : nd.target <;> simp [hnd]

theorem Rep.testFlag (h : Rep s d) (ok : s.OK) {i f} (hb : i < W64) :
    testFlag d i f = match s.nodes i with | none => .error ENOENT | some nd => .ok (hasFlag nd.flags f) := by
  unfold Cache.testFlag
  rw [h.ino ok hb]
  cases s.nodes i <;> rfl

/-! `lookup` -/

theorem lookupScan_found {p : Ino} {n : Bytes} {l : List (Bytes × DirEnt)} {e : DirEnt} (hp : p < W64)
    (hlen : ∀ x ∈ l, 8 ≤ x.1.length) (hge : ∀ x ∈ l, blt x.1 (key8 p) = false)
    (hs : l.Pairwise (fun a b => blt a.1 b.1 = true)) (hm : (keyN p n, e) ∈ l) :
    lookupScan p n l = .ok (.ok e.ino) := by
  induction l with
  | nil => cases hm
  | cons x xs ih =>
    have hx := List.pairwise_cons.mp hs
    unfold lookupScan
    rw [chk_of (decide_eq_true (hlen x (List.mem_cons_self ..)))]
    simp only [bind_ok]
    rcases List.mem_cons.mp hm with hm | hm
    · subst hm
      simp only [keyN_length, keyN_take, keyN_drop, leDec_key8 hp]
      simp
    · have ih := ih (fun y hy => hlen y (List.mem_cons_of_mem _ hy)) (fun y hy => hge y (List.mem_cons_of_mem _ hy)) hx.2 hm
      have hlt := hx.1 _ hm
      simp only at hlt
      split
      · exact ih
      · have htake : x.1.take 8 = key8 p := by
          apply Classical.byContradiction
          intro hne
          have := blt_prefix_gap (s := n) (hge x (List.mem_cons_self ..)) (by simpa using hlen x (List.mem_cons_self ..))
            (by simpa using hne)
          have := blt_trans this hlt
          unfold keyN key8 at this
          rw [blt_irrefl] at this; cases this
        rw [htake, leDec_key8 hp]
        rw [if_neg (by simp)]
        split
        · rename_i hdrop
          exfalso
          have : x.1 = keyN p n := by
            rw [← List.take_append_drop 8 x.1, htake, hdrop]; rfl
          rw [this, blt_irrefl] at hlt; cases hlt
        · exact ih

theorem lookupScan_missing {p : Ino} {n : Bytes} {l : List (Bytes × DirEnt)}
    (hlen : ∀ x ∈ l, 8 ≤ x.1.length) (hm : ∀ x ∈ l, x.1 ≠ keyN p n) :
    lookupScan p n l = .ok (.error ENOENT) := by
  induction l with
  | nil => rfl
  | cons x xs ih =>
    have ih := ih (fun y hy => hlen y (List.mem_cons_of_mem _ hy)) (fun y hy => hm y (List.mem_cons_of_mem _ hy))
    unfold lookupScan
    rw [chk_of (decide_eq_true (hlen x (List.mem_cons_self ..)))]
    simp only [bind_ok]
    split
    · exact ih
    · split
      · rfl
      · split
        · rename_i h1 h2
          exfalso
          apply hm x (List.mem_cons_self ..)
          have h8 : (x.1.take 8).length = 8 := by
            have := hlen x (List.mem_cons_self ..); simp; omega
          have : x.1.take 8 = key8 p := by
            have h1 : leDec (x.1.take 8) = p := by omega
            unfold key8
            rw [← h1]
            have := leEnc_leDec (x.1.take 8)
            rw [h8] at this; exact this.symm
          rw [← List.take_append_drop 8 x.1, this, h2]; rfl
        · exact ih

theorem Rep.treen_len (h : Rep s d) {k e} (hf : d.treen.find k = some e) : 8 ≤ k.length := by
  obtain ⟨i, nd, p, n, rfl, -⟩ := (h.treen _ _).mp hf
  rw [keyN_length]; omega

theorem Rep.lookup_found (h : Rep s d) (ok : s.OK) {p n i} (hat : s.At p n i) : lookup d p n = .ok (.ok i) := by
  obtain ⟨nd, h1, h2⟩ := hat
  have hl := ok.loc i nd p n h1 h2
  unfold lookup checkName
  rw [if_neg (by unfold maxName; have := hl.2.2.1; omega)]
  simp only [Bool.not_false, if_true]
  rw [if_neg (by simp only [INVALID]; omega)]
  refine lookupScan_found (e := mkEnt i n) hl.2.1 ?_ ?_ ?_ ?_
  · intro x hx
    exact h.treen_len ((Tab.mem_iff _ _ _).mp ((Tab.mem_lower_iff _ _ _).mp hx).1)
  · intro x hx; exact ((Tab.mem_lower_iff _ _ _).mp hx).2
  · exact Tab.lower_sorted _ _
  · exact (Tab.mem_lower_iff _ _ _).mpr ⟨(Tab.mem_iff _ _ _).mpr (h.tn_some h1 h2), blt_prefix_self _ _⟩

theorem Rep.lookup_missing (h : Rep s d) (ok : s.OK) {p n} (hp : p < W64) (hp0 : p ≠ 0) (hn : n.length ≤ 503)
    (hat : ∀ i, ¬ s.At p n i) : lookup d p n = .ok (.error ENOENT) := by
  unfold lookup checkName
  rw [if_neg (by unfold maxName; omega)]
  simp only [Bool.not_false, if_true]
  rw [if_neg (by simpa only [INVALID] using hp0)]
  apply lookupScan_missing
  · intro x hx
    exact h.treen_len ((Tab.mem_iff _ _ _).mp ((Tab.mem_lower_iff _ _ _).mp hx).1)
  · intro x hx he
    have := (Tab.mem_iff _ _ _).mp ((Tab.mem_lower_iff _ _ _).mp hx).1
    rw [he, h.tn_none ok hp hat] at this; cases this

theorem lookup_too_long {p n} (hn : 503 < n.length) : lookup d p n = .ok (.error ENAMETOOLONG) := by
  unfold lookup checkName
  rw [if_pos (by unfold maxName; omega)]

theorem lookup_invalid {n} (hn : n.length ≤ 503) : lookup d 0 n = .ok (.error EINVAL) := by
  unfold lookup checkName
  rw [if_neg (by unfold maxName; omega)]
  rfl

/-- `lookup` as a function of the abstract state. -/
theorem Rep.lookup_iff (h : Rep s d) (ok : s.OK) {p n i} (hp : p < W64) :
    lookup d p n = .ok (.ok i) ↔ s.At p n i := by
  constructor
  · intro hl
    by_cases hn : 503 < n.length
    · rw [lookup_too_long hn] at hl; cases hl
    · by_cases h0 : p = 0
      · subst h0; rw [lookup_invalid (by omega)] at hl; cases hl
      · by_cases hex : ∃ j, s.At p n j
        · obtain ⟨j, hj⟩ := hex
          rw [h.lookup_found ok hj] at hl; cases hl; exact hj
        · rw [h.lookup_missing ok hp h0 (by omega) (fun j hj => hex ⟨j, hj⟩)] at hl; cases hl
  · exact h.lookup_found ok

end Dragonstash.Cache
