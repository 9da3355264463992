/-
  C84: writing to, opening and serving a damaged database.
-/
import Verif.Props.FSBytes
namespace Dragonstash.Damaged
open Cache Codec FS

/-! ### Specification -/

/-- The keys of all databases have the right lengths. Values are arbitrary bytes. -/
structure Keyed (d : Cache.B.DB) : Prop where
  inodes : ∀ e ∈ d.inodes.entries, e.1.length = 8
  treei : ∀ e ∈ d.treei.entries, e.1.length = 16
  treen : ∀ e ∈ d.treen.entries, 8 ≤ e.1.length
  orphans : ∀ e ∈ d.orphans.entries, e.1.length = 8
  links : ∀ e ∈ d.links.entries, e.1.length = 8

/-- The ways in which calls fail on a damaged database. None of them is undefined behaviour: there are
assertions that a directory entry (519, 859, 918, 1016, 1071) or the record of an inode (923, 925) is valid;
exceptions if the counter of inode numbers is missing or has not eight bytes; and two loops which may not end:
`path`, and the loop of `clean_orphans` over the entries of a directory. -/
inductive Known : Fault → Prop
  | entry {n} : n ∈ [519, 859, 918, 1016, 1071] → Known (.assertFail n)
  | record {n} : n ∈ [923, 925] → Known (.assertFail n)
  | counter {n} : n ∈ [820, 822] → Known (.thrown n)
  | path : Known (.diverge 667)
  | clean : Known (.diverge 1062)

/-- The outcome is a result with `P`, or a known failure. -/
def Tame {α : Type} (P : α → Prop) : M α → Prop
  | .ok a => P a
  | .error f => Known f

/-! ### Proofs -/

theorem Tame.bind {α β : Type} {P : α → Prop} {Q : β → Prop} {m : M α} {f : α → M β} (h : Tame P m) (hf : ∀ a, P a → Tame Q (f a)) : Tame Q (m >>= f) := by
  cases m with
  | ok a => exact hf a h
  | error e => exact h

theorem Tame.mono {α : Type} {P Q : α → Prop} {m : M α} (h : Tame P m) (hf : ∀ a, P a → Q a) : Tame Q m := by
  cases m with
  | ok a => exact hf a h
  | error e => exact h

theorem put_keys {l : Nat → Prop} {t : Tab Bytes} (h : ∀ e ∈ t.entries, l e.1.length) {k v : Bytes} (hk : l k.length) : ∀ e ∈ (t.put k v).entries, l e.1.length := by
  intro e he
  have := (Tab.mem_iff (t.put k v) e.1 e.2).mp he
  rw [Tab.find_put] at this
  by_cases hh : k = e.1
  · rw [← hh]; exact hk
  · rw [if_neg hh] at this
    exact h e ((Tab.mem_iff t e.1 e.2).mpr this)

theorem del_keys {l : Nat → Prop} {t : Tab Bytes} (h : ∀ e ∈ t.entries, l e.1.length) {k : Bytes} : ∀ e ∈ (t.del k).entries, l e.1.length := by
  intro e he
  have := (Tab.mem_iff (t.del k) e.1 e.2).mp he
  rw [Tab.find_del] at this
  by_cases hh : k = e.1
  · rw [if_pos hh] at this; cases this
  · rw [if_neg hh] at this
    exact h e ((Tab.mem_iff t e.1 e.2).mpr this)

theorem Keyed.empty : Keyed Cache.B.emptyDB := ⟨by simp [Cache.B.emptyDB, Tab.empty], by simp [Cache.B.emptyDB, Tab.empty], by simp [Cache.B.emptyDB, Tab.empty], by simp [Cache.B.emptyDB, Tab.empty], by simp [Cache.B.emptyDB, Tab.empty]⟩

variable {pad : Ino → Nat} {d : Cache.B.DB}

theorem parseRec_total (v : Bytes) : (∃ n, parseInode v = .ok (.ok n)) ∨ parseInode v = .ok (.error EINVAL) := by
  by_cases hg : v.head? = some 1 ∧ 96 ≤ v.length
  · obtain ⟨e, he⟩ := (C35_inode_total v).1 hg
    exact .inl ⟨e, he⟩
  · exact .inr ((C35_inode_total v).2 hg)

/-- Sizes of a table with an entry more. -/
theorem size_put_le (t : Tab Bytes) (k v : Bytes) : (t.put k v).size ≤ t.size + 1 := by
  cases h : t.find k with
  | some x => rw [Tab.size_put v h]; omega
  | none =>
    have h1 : (t.put k v).find k = some v := Tab.find_put_self ..
    have h2 := Tab.size_del h1
    have h3 : (t.put k v).del k = t := Tab.ext fun k' => by
      rw [Tab.find_del, Tab.find_put]
      by_cases hk : k = k'
      · subst hk; simp [h]
      · simp [hk]
    rw [h3] at h2; omega

/-- What `make_orphan` does. -/
theorem makeOrphan_tame (hk : Keyed d) (i : Ino) : Tame (fun x => Keyed x.1 ∧ x.1.treei.size + x.1.orphans.size ≤ d.treei.size + d.orphans.size ∧
    ∀ j, d.orphans.find (key8 j) ≠ none → x.1.orphans.find (key8 j) ≠ none) (Cache.B.makeOrphan pad d i) := by
  unfold Cache.B.makeOrphan
  obtain ⟨r, hr⟩ := parent_total d i
  rw [hr, bind_ok]
  cases r with
  | error e => exact ⟨hk, Nat.le_refl _, fun j h => h⟩
  | ok p =>
    simp only
    by_cases hp : p = INVALID
    · rw [if_pos hp]; exact ⟨hk, Nat.le_refl _, fun j h => h⟩
    rw [if_neg hp]
    cases hf : d.treei.find (key16 p i) with
    | none => exact ⟨hk, Nat.le_refl _, fun j h => h⟩
    | some v =>
      simp only
      rcases parseEnt_total v with ⟨e, he⟩ | he
      · rw [he, bind_ok]
        simp only
        have hc : Tame (fun t : Tab Bytes => ∀ e ∈ t.entries, e.1.length = 8) (Cache.B.clearParent pad d i) := by
          unfold Cache.B.clearParent
          cases hg : d.inodes.find (key8 i) with
          | none => exact hk.inodes
          | some w =>
            simp only
            rcases parseRec_total w with ⟨n, hn⟩ | hn
            · rw [hn, bind_ok]
              exact put_keys (l := (· = 8)) hk.inodes (key8_length i)
            · rw [hn, bind_ok]; exact hk.inodes
        refine hc.bind fun t ht => ?_
        refine ⟨⟨ht, del_keys (l := (· = 16)) hk.treei, del_keys (l := (8 ≤ ·)) hk.treen, put_keys (l := (· = 8)) hk.orphans (key8_length i), hk.links⟩, ?_, ?_⟩
        · have h1 := Tab.size_del hf
          have h2 := size_put_le d.orphans (key8 i) [0]
          show (d.treei.del (key16 p i)).size + (d.orphans.put (key8 i) [0]).size ≤ _
          omega
        · intro j hj
          show (d.orphans.put (key8 i) [0]).find (key8 j) ≠ none
          rw [Tab.find_put]
          split
          · simp
          · exact hj
      · rw [he, bind_ok]; exact Known.entry (by decide)

theorem orphanKids_tame (f : Nat) : ∀ {d : Cache.B.DB}, Keyed d → ∀ i, Tame (fun x => Keyed x ∧ x.treei.size + x.orphans.size ≤ d.treei.size + d.orphans.size ∧
    ∀ j, d.orphans.find (key8 j) ≠ none → x.orphans.find (key8 j) ≠ none) (Cache.B.orphanKids pad f d i) := by
  induction f with
  | zero => intro d hk i; exact Known.clean
  | succ f ih =>
    intro d hk i
    unfold Cache.B.orphanKids
    cases hl : d.treei.lower (key8 i) with
    | nil => exact ⟨hk, Nat.le_refl _, fun j h => h⟩
    | cons e l =>
      simp only
      have he : e.1.length = 16 := hk.treei e (((Tab.mem_lower_iff _ _ _).mp (by rw [hl]; simp)).1)
      rw [if_neg (by omega)]
      by_cases hi : leDec (e.1.take 8) ≠ i
      · rw [if_pos hi]; exact ⟨hk, Nat.le_refl _, fun j h => h⟩
      rw [if_neg hi]
      rcases parseEnt_total e.2 with ⟨x, hx⟩ | hx
      · rw [hx, bind_ok]
        simp only
        refine (makeOrphan_tame hk x.ino).bind fun r hr => ?_
        refine (ih hr.1 i).mono fun y hy => ⟨hy.1, Nat.le_trans hy.2.1 hr.2.1, fun j hj => hy.2.2 j (hr.2.2 j hj)⟩
      · rw [hx, bind_ok]; exact Known.entry (by decide)

theorem removeOne_tame (hk : Keyed d) {i : Ino} (hi : d.orphans.find (key8 i) ≠ none) :
    Tame (fun x => Keyed x ∧ x.treei.size + x.orphans.size < d.treei.size + d.orphans.size) (Cache.B.removeOne pad d i) := by
  have fin : ∀ {x : Cache.B.DB}, Keyed x → x.treei.size + x.orphans.size ≤ d.treei.size + d.orphans.size → x.orphans.find (key8 i) ≠ none →
      x.treei.size + (x.orphans.del (key8 i)).size < d.treei.size + d.orphans.size := by
    intro x _ h1 h2
    cases hf : x.orphans.find (key8 i) with
    | none => exact absurd hf h2
    | some v => have := Tab.size_del hf; omega
  unfold Cache.B.removeOne
  cases hf : d.inodes.find (key8 i) with
  | none => exact ⟨⟨hk.inodes, hk.treei, hk.treen, del_keys (l := (· = 8)) hk.orphans, hk.links⟩, fin hk (Nat.le_refl _) hi⟩
  | some v =>
    simp only
    have hd : Tame (fun x => Keyed x ∧ x.treei.size + x.orphans.size ≤ d.treei.size + d.orphans.size ∧ x.orphans.find (key8 i) ≠ none) (do
      match ← parseInode v with
      | .error _ => pure d
      | .ok n => Cache.B.removeData pad d i n) := by
      rcases parseRec_total v with ⟨n, hn⟩ | hn
      · rw [hn, bind_ok]
        simp only
        unfold Cache.B.removeData
        by_cases h1 : fmt n.attr.mode = S_IFLNK
        · rw [if_pos h1]; exact ⟨⟨hk.inodes, hk.treei, hk.treen, hk.orphans, del_keys (l := (· = 8)) hk.links⟩, Nat.le_refl _, hi⟩
        rw [if_neg h1]
        by_cases h2 : fmt n.attr.mode = S_IFDIR
        · rw [if_pos h2]; exact (orphanKids_tame _ hk i).mono fun x hx => ⟨hx.1, hx.2.1, hx.2.2 i hi⟩
        · rw [if_neg h2]; exact ⟨hk, Nat.le_refl _, hi⟩
      · rw [hn, bind_ok]; exact ⟨hk, Nat.le_refl _, hi⟩
    exact hd.bind fun x hx => ⟨⟨del_keys (l := (· = 8)) hx.1.inodes, hx.1.treei, hx.1.treen, del_keys (l := (· = 8)) hx.1.orphans, hx.1.links⟩, fin hx.1 hx.2.1 hx.2.2⟩

theorem firstFree_tame {P : Ino → Prop} : ∀ (l : List (Bytes × Bytes)) (r : Refs), (∀ e ∈ l, e.1.length = 8) → (∀ e ∈ l, P (leDec e.1)) →
    Tame (fun x => ∀ y, x = some y → P y.1) (Cache.B.firstFree l r) := by
  intro l
  induction l with
  | nil => intro r _ _; exact fun y h => by cases h
  | cons e l ih =>
    intro r h1 h2
    unfold Cache.B.firstFree
    rw [if_neg (by simp [h1 e (by simp)])]
    rcases hd : r.doom (leDec e.1) with ⟨r', x⟩
    cases x with
    | ok u => intro y hy; cases hy; exact h2 e (by simp)
    | error er => exact ih r (fun e he => h1 e (by simp [he])) (fun e he => h2 e (by simp [he]))

theorem key8_leDec {k : Bytes} (h : k.length = 8) : key8 (leDec k) = k := by
  unfold key8; rw [← h]; exact leEnc_leDec k

theorem cleanLoop_tame (f : Nat) : ∀ {d : Cache.B.DB} (r : Refs), Keyed d → d.treei.size + d.orphans.size < f → Tame (fun x => Keyed x.1) (Cache.B.cleanLoop pad f d r) := by
  induction f with
  | zero => intro d r _ h; omega
  | succ f ih =>
    intro d r hk hf
    unfold Cache.B.cleanLoop
    refine (firstFree_tame (P := fun i => d.orphans.find (key8 i) ≠ none) d.orphans.entries r hk.orphans ?_).bind fun x hx => ?_
    · intro e he
      rw [key8_leDec (hk.orphans e he), (Tab.mem_iff d.orphans e.1 e.2).mp he]; simp
    · cases x with
      | none => exact hk
      | some y =>
        obtain ⟨i, r'⟩ := y
        simp only
        refine (removeOne_tame hk (hx (i, r') rfl)).bind fun d' hd => ih r' hd.1 (by omega)

theorem cleanOrphans_tame (hk : Keyed d) (r : Refs) : Tame (fun x => Keyed x.1) (Cache.B.cleanOrphans pad d r) :=
  cleanLoop_tame _ r hk (by omega)

theorem Tame.of_ok {α : Type} {P : α → Prop} {m : M α} (h : ∃ r, m = .ok r) (hp : ∀ a, P a) : Tame P m := by
  obtain ⟨r, hr⟩ := h; rw [hr]; exact hp r

theorem lookupScan_tame (p : Ino) (n : Bytes) : ∀ (l : List (Bytes × Bytes)), (∀ e ∈ l, 8 ≤ e.1.length) → Tame (fun _ => True) (Cache.B.lookupScan p n l) := by
  intro l
  induction l with
  | nil => intro _; trivial
  | cons e l ih =>
    intro h
    have ih := ih (fun e he => h e (by simp [he]))
    unfold Cache.B.lookupScan
    rw [chk_of (decide_eq_true (h e (by simp))), bind_ok]
    rcases parseEnt_total e.2 with ⟨x, hx⟩ | hx
    · rw [hx, bind_ok]
      simp only
      split
      · exact ih
      · split
        · trivial
        · split
          · trivial
          · exact ih
    · rw [hx, bind_ok]; exact Known.entry (by decide)

theorem lookup_tame (hk : Keyed d) (p : Ino) (n : Bytes) : Tame (fun _ => True) (Cache.B.lookup d p n) := by
  unfold Cache.B.lookup
  split
  · trivial
  · split
    · trivial
    · exact lookupScan_tame p n _ (fun e he => hk.treen e ((Tab.mem_lower_iff _ _ _).mp he).1)

theorem name2_total (d : Cache.B.DB) (p i : Ino) : ∃ r, Cache.B.name2 d p i = .ok r := by
  unfold Cache.B.name2
  by_cases hc : i = ROOT ∨ p = INVALID
  · rw [if_pos hc]; exact ⟨_, rfl⟩
  rw [if_neg hc]
  cases d.treei.find (key16 p i) with
  | none => exact ⟨_, rfl⟩
  | some v =>
    rcases parseEnt_total v with ⟨e, he⟩ | he
    · simp only [he, bind_ok]; exact ⟨_, rfl⟩
    · simp only [he, bind_ok]; exact ⟨_, rfl⟩

theorem pathLoop_tame (d : Cache.B.DB) : ∀ f i b, Tame (fun _ => True) (Cache.B.pathLoop d f i b) := by
  intro f
  induction f with
  | zero => intro i b; exact Known.path
  | succ f ih =>
    intro i b
    unfold Cache.B.pathLoop
    obtain ⟨r, hr⟩ := parent_total d i
    rw [hr, bind_ok]
    cases r with
    | error e => trivial
    | ok p =>
      obtain ⟨r, hr⟩ := name2_total d p i
      simp only
      rw [hr, bind_ok]
      cases r with
      | error e => trivial
      | ok n =>
        simp only
        split
        · trivial
        · exact ih _ _

theorem path_tame (d : Cache.B.DB) (i : Ino) : Tame (fun _ => True) (Cache.B.path d i) := by
  unfold Cache.B.path
  split
  · trivial
  · exact pathLoop_tame d _ _ _

theorem allocNext_tame (hk : Keyed d) : Tame (fun x => Keyed x.1) (Cache.B.allocNext d) := by
  unfold Cache.B.allocNext
  cases d.next with
  | none => exact Known.counter (by decide)
  | some v =>
    simp only
    split
    · exact Known.counter (by decide)
    · exact ⟨hk.inodes, hk.treei, hk.treen, hk.orphans, hk.links⟩

variable {t : Cache.B.Txn}

theorem emplaceNew_tame (hk : Keyed d) (p : Ino) (n : Bytes) (a : Attrs) : Tame (fun x => Keyed x.1.db) (Cache.B.emplaceNew pad t d p n a) := by
  unfold Cache.B.emplaceNew
  refine (allocNext_tame hk).bind ?_
  rintro ⟨d, i⟩ hd
  simp only at hd ⊢
  refine (cleanOrphans_tame (d := { d with
    inodes := d.inodes.put (key8 i) (Cache.B.ser pad i (mkInode a p))
    treen := d.treen.put (keyN p n) (encDirEnt 0 (mkEnt i n))
    treei := d.treei.put (key16 p i) (encDirEnt 0 (mkEnt i n)) })
    ⟨put_keys (l := (· = 8)) hd.inodes (key8_length i), put_keys (l := (· = 16)) hd.treei (key16_length p i),
      put_keys (l := (8 ≤ ·)) hd.treen (by rw [keyN_length]; omega), hd.orphans, hd.links⟩ t.refs).bind ?_
  rintro ⟨d, r⟩ hd
  exact hd

theorem emplace_tame (hk : Keyed t.db) (p : Ino) (n : Bytes) (a : Attrs) : Tame (fun x => Keyed x.1.db) (Cache.B.emplace pad t p n a) := by
  unfold Cache.B.emplace
  split
  · exact hk
  · cases hf : t.db.treen.find (keyN p n) with
    | none => exact emplaceNew_tame hk p n a
    | some v =>
      simp only
      rcases parseEnt_total v with ⟨e, he⟩ | he
      · rw [he, bind_ok]
        simp only
        cases hg : t.db.inodes.find (key8 e.ino) with
        | none => exact Known.record (by decide)
        | some w =>
          simp only
          rcases parseRec_total w with ⟨o, ho⟩ | ho
          · rw [ho, bind_ok]
            simp only
            split
            · exact ⟨put_keys (l := (· = 8)) hk.inodes (key8_length _), hk.treei, hk.treen, hk.orphans, hk.links⟩
            · refine (makeOrphan_tame hk e.ino).bind fun r hr => emplaceNew_tame hr.1 p n a
          · rw [ho, bind_ok]; exact Known.record (by decide)
      · rw [he, bind_ok]; exact Known.entry (by decide)

theorem clean_tame (hk : Keyed t.db) : Tame (fun x => Keyed x.1.db) (Cache.B.clean pad t) := by
  unfold Cache.B.clean
  refine (cleanOrphans_tame hk t.refs).bind ?_
  rintro ⟨d, r⟩ hd; exact hd

theorem unlinkIno_tame (hk : Keyed t.db) (i : Ino) : Tame (fun x => Keyed x.1.db) (Cache.B.unlinkIno pad t i) := by
  unfold Cache.B.unlinkIno
  refine (makeOrphan_tame hk i).bind ?_
  rintro ⟨d, r⟩ hd
  cases r with
  | error e => exact hk
  | ok u => exact clean_tame (t := { t with db := d }) hd.1

theorem unlinkName_tame (hk : Keyed t.db) (p : Ino) (n : Bytes) : Tame (fun x => Keyed x.1.db) (Cache.B.unlinkName pad t p n) := by
  unfold Cache.B.unlinkName
  cases hf : t.db.treen.find (keyN p n) with
  | none => exact hk
  | some v =>
    simp only
    rcases parseEnt_total v with ⟨e, he⟩ | he
    · rw [he, bind_ok]; exact unlinkIno_tame hk _
    · rw [he, bind_ok]; exact Known.entry (by decide)

theorem writelink_tame (hk : Keyed t.db) (i : Ino) (dest : Bytes) : Tame (fun x => Keyed x.1.db) (Cache.B.writelink pad t i dest) := by
  unfold Cache.B.writelink
  cases hf : t.db.inodes.find (key8 i) with
  | none => exact hk
  | some v =>
    simp only
    rcases parseRec_total v with ⟨n, hn⟩ | hn
    · rw [hn, bind_ok]
      simp only
      split
      · exact hk
      · exact ⟨put_keys (l := (· = 8)) hk.inodes (key8_length _), hk.treei, hk.treen, hk.orphans, put_keys (l := (· = 8)) hk.links (key8_length _)⟩
    · rw [hn, bind_ok]; exact hk

theorem updateFlags_tame (hk : Keyed t.db) (i : Ino) (x y : List Flag) : Tame (fun x => Keyed x.1.db) (Cache.B.updateFlags pad t i x y) := by
  unfold Cache.B.updateFlags
  cases hf : t.db.inodes.find (key8 i) with
  | none => exact hk
  | some v =>
    simp only
    rcases parseRec_total v with ⟨n, hn⟩ | hn
    · rw [hn, bind_ok]
      exact ⟨put_keys (l := (· = 8)) hk.inodes (key8_length _), hk.treei, hk.treen, hk.orphans, hk.links⟩
    · rw [hn, bind_ok]; exact hk

theorem collectKids_total (dir : Ino) : ∀ (l : List (Bytes × Bytes)), (∀ e ∈ l, e.1.length = 16) → ∀ s, ∃ r, Cache.B.collectKids dir l s = .ok r := by
  intro l
  induction l with
  | nil => intro _ s; exact ⟨_, rfl⟩
  | cons e l ih =>
    intro h s
    unfold Cache.B.collectKids
    rw [chk_of (decide_eq_true (h e (by simp))), bind_ok]
    split
    · exact ih (fun e he => h e (by simp [he])) _
    · exact ⟨_, rfl⟩

theorem startRewrite_tame (hk : Keyed t.db) (dir : Ino) : Tame (fun x => Keyed x.1.db) (Cache.B.startRewrite t dir) := by
  unfold Cache.B.startRewrite
  split
  · exact hk
  · cases hl : t.db.treei.lower (key8 dir) with
    | nil => exact hk
    | cons e l =>
      simp only
      obtain ⟨r, hr⟩ := collectKids_total dir (e :: l) (fun e he => hk.treei e ((Tab.mem_lower_iff _ _ _).mp (by rw [hl]; exact he)).1) []
      rw [hr, bind_ok]; exact hk

theorem orphanAll_tame : ∀ (l : List Ino) {d : Cache.B.DB}, Keyed d → Tame Keyed (Cache.B.orphanAll pad d l) := by
  intro l
  induction l with
  | nil => intro d hk; exact hk
  | cons i l ih =>
    intro d hk
    unfold Cache.B.orphanAll
    exact (makeOrphan_tame hk i).bind fun r hr => ih hr.1

theorem finishRewrite_tame (hk : Keyed t.db) : Tame (fun x => Keyed x.1.db) (Cache.B.finishRewrite pad t) := by
  unfold Cache.B.finishRewrite
  split
  · exact hk
  · exact (orphanAll_tame _ hk).bind fun d hd => hd

/-- **C84**: whatever the values in the database are, a call on a transaction gives a result, and leaves keys of
the right lengths; or fails in one of the known ways. (`release` also throws if more locks are given back than
were taken; this has nothing to do with the database.) -/
theorem C84_calls_partial (hk : Keyed t.db) (o : Op) (ho : ∀ i n, o ≠ .release i n) : Tame (fun x => Keyed x.1.db) (Cache.B.doOp pad t o) := by
  cases o with
  | lookup p n => exact (lookup_tame hk p n).bind fun _ _ => hk
  | getattr i => obtain ⟨r, hr⟩ := (C67_partial t.db hk.treei i 0 0).1; unfold Cache.B.doOp; simp only [hr, bind_ok]; exact hk
  | readlink i => obtain ⟨r, hr⟩ := (C67_partial t.db hk.treei i 0 0).2.2.2.2.1; unfold Cache.B.doOp; simp only [hr, bind_ok]; exact hk
  | readdir dir prev => obtain ⟨r, hr⟩ := (C67_partial t.db hk.treei dir prev 0).2.2.2.2.2; unfold Cache.B.doOp; simp only [hr, bind_ok]; exact hk
  | path i => exact (path_tame t.db i).bind fun _ _ => hk
  | name i => obtain ⟨r, hr⟩ := (C67_partial t.db hk.treei i 0 0).2.2.2.1; unfold Cache.B.doOp; simp only [hr, bind_ok]; exact hk
  | parent i => obtain ⟨r, hr⟩ := (C67_partial t.db hk.treei i 0 0).2.2.1; unfold Cache.B.doOp; simp only [hr, bind_ok]; exact hk
  | testFlag i f => obtain ⟨r, hr⟩ := (C67_partial t.db hk.treei i 0 f).2.1; unfold Cache.B.doOp; simp only [hr, bind_ok]; exact hk
  | lock i =>
    show Keyed (Cache.B.lock t i).1.db
    unfold Cache.B.lock
    split <;> exact hk
  | release i n => exact absurd rfl (ho i n)
  | emplace p n a => exact (emplace_tame hk p n a).bind fun _ h => h
  | unlinkIno i => exact (unlinkIno_tame hk i).bind fun _ h => h
  | unlinkName p n => exact (unlinkName_tame hk p n).bind fun _ h => h
  | clean => exact (clean_tame hk).bind fun _ h => h
  | writelink i dest => exact (writelink_tame hk i dest).bind fun _ h => h
  | updateFlags i a b => exact (updateFlags_tame hk i a b).bind fun _ h => h
  | startRewrite dir => exact (startRewrite_tame hk dir).bind fun _ h => h
  | finishRewrite => exact (finishRewrite_tame hk).bind fun _ h => h

theorem init_keyed (hk : Keyed d) (uid gid now) : Keyed (Cache.B.initDB pad d uid gid now) := by
  unfold Cache.B.initDB
  split
  · exact hk
  · exact ⟨put_keys (l := (· = 8)) hk.inodes (key8_length _), hk.treei, hk.treen, hk.orphans, hk.links⟩

theorem openClean_tame (hk : Keyed d) (r : Refs) : Tame (fun x => Keyed x.1) (Cache.B.openCleanDB pad d r) := by
  unfold Cache.B.openCleanDB
  refine (cleanOrphans_tame hk r).bind ?_
  rintro ⟨d1, r1⟩ h1
  exact cleanOrphans_tame h1 r1

/-! ### Requests -/

/-- The type of the result of a call. -/
def Shape : Op → Out → Prop
  | .lookup .., out | .parent .., out | .emplace .., out => ∃ r, out = .ino r
  | .getattr .., out => ∃ r, out = .attr r
  | .readlink .., out | .path .., out | .name .., out => ∃ r, out = .bytes r
  | .readdir .., out => ∃ r, out = .ent r
  | .testFlag .., out => ∃ r, out = .bool r
  | _, out => ∃ r, out = .unit r

theorem bind_ok_inv {α β : Type} {m : M α} {f : α → M β} {b : β} (h : (m >>= f) = .ok b) : ∃ a, m = .ok a ∧ f a = .ok b := by
  cases m with
  | ok a => exact ⟨a, rfl, h⟩
  | error e => cases h

theorem doOp_shape {o : Op} {x : Cache.B.Txn × Out} (h : Cache.B.doOp pad t o = .ok x) : Shape o x.2 := by
  cases o with
  | lock i => cases h; exact ⟨_, rfl⟩
  | _ =>
    obtain ⟨a, -, h⟩ := bind_ok_inv h
    cases h
    exact ⟨_, rfl⟩

/-- A handler which does not run into undefined behaviour by itself. -/
inductive Good : MT.Prog → Prop
  | op {o k} : (∀ out, Shape o out → Good (k out)) → Good (.op o k)
  | done {c reps} : Good (.done c reps)
  | stuck {f} : (∀ n, f ≠ .ub n) → Good (.stuck f)

theorem good_lockAndReply (i a) : Good (MT.lockAndReply i a) := by
  refine .op ?_
  rintro _ ⟨r, rfl⟩
  rcases r with e | u <;> exact .done

theorem good_lookup (B : Backend) (p : Ino) (n : Bytes) : Good (MT.lookup B p n) := by
  refine .op ?_
  rintro _ ⟨r, rfl⟩
  rcases r with e | b
  · exact .done
  · simp only
    split
    · refine .op ?_
      rintro _ ⟨r, rfl⟩
      rcases r with e | i
      · exact .done
      · exact good_lockAndReply _ _
    · split
      · refine .op ?_
        rintro _ ⟨r, rfl⟩
        rcases r with e | i
        · simp only
          split
          · refine .op fun out _ => ?_
            split <;> exact .done
          · exact .done
        · refine .op ?_
          rintro _ ⟨r, rfl⟩
          rcases r with e | x
          · exact .done
          · exact good_lockAndReply _ _
      · exact .op fun out _ => .done

theorem good_readlink (B : Backend) (i : Ino) : Good (MT.readlink B i) := by
  refine .op ?_
  rintro _ ⟨r, rfl⟩
  rcases r with e | b
  · exact .done
  · simp only
    split
    · exact .op fun out _ => .done
    · split
      · refine .op ?_
        rintro _ ⟨r, rfl⟩
        rcases r with e | b <;> exact .done
      · exact .op fun out _ => .done

theorem good_syncLoop {B : Backend} {base : Bytes} {i : Ino} {k : MT.Prog} (hk : Good k) : ∀ (l : List Bytes) (c : Nat), Good (MT.syncLoop B base i c l k) := by
  intro l
  induction l with
  | nil => intro c; exact hk
  | cons n l ih =>
    intro c
    unfold MT.syncLoop
    split
    · exact ih _
    · exact .op fun out _ => ih _

theorem good_opendir (B : Backend) (i : Ino) : Good (MT.opendir B i) := by
  refine .op ?_
  rintro _ ⟨r, rfl⟩
  rcases r with e | b
  · exact .done
  · simp only
    split
    · split <;> exact .done
    · have hk : Good (.op (.updateFlags i [SYNCED] []) fun _ => .op .finishRewrite fun _ => .done true [.opened]) := .op fun _ _ => .op fun _ _ => .done
      exact .op fun out _ => good_syncLoop hk _ _

theorem good_readdirLoop {dir size k} (hk : ∀ p, Good (k p)) : ∀ f c b s, Good (MT.readdirLoop dir size k f c b s) := by
  intro f
  induction f with
  | zero => intro c b s; exact .stuck (fun n h => by cases h)
  | succ f ih =>
    intro c b s
    unfold MT.readdirLoop
    split
    · refine .op ?_
      rintro _ ⟨r, rfl⟩
      rcases r with e | x
      · exact hk _
      · refine .op ?_
        rintro _ ⟨r, rfl⟩
        rcases r with e | x
        · exact hk _
        · exact ih _ _ _
    · exact hk _

theorem good_plusLoop {dir size k} (hk : ∀ p, Good (k p)) : ∀ f c b s, Good (MT.plusLoop dir size k f c b s) := by
  intro f
  induction f with
  | zero => intro c b s; exact .stuck (fun n h => by cases h)
  | succ f ih =>
    intro c b s
    unfold MT.plusLoop
    split
    · refine .op ?_
      rintro _ ⟨r, rfl⟩
      rcases r with e | ⟨j, n⟩
      · exact hk _
      · refine .op ?_
        rintro _ ⟨r, rfl⟩
        rcases r with e | x
        · exact hk _
        · simp only
          split
          · exact ih _ _ _
          · refine .op ?_
            rintro _ ⟨r, rfl⟩
            rcases r with e | u
            · simp only
              split
              · exact ih _ _ _
              · exact .done
            · exact ih _ _ _
    · exact hk _

theorem good_forgetMulti : ∀ l, Good (MT.forgetMulti l) := by
  intro l
  induction l with
  | nil => exact .done
  | cons x l ih => exact .op fun out _ => ih

theorem good_prog {B : Backend} {rq : Req} {f : Nat} {P : MT.Prog} (h : MT.prog B f rq = some P) : Good P := by
  cases rq with
  | lookup p n => cases h; exact good_lookup B p n
  | forget i n =>
    cases h
    refine .op ?_
    rintro _ ⟨r, rfl⟩
    rcases r with e | u <;> exact .done
  | getattr i =>
    cases h
    refine .op ?_
    rintro _ ⟨r, rfl⟩
    rcases r with e | u <;> exact .done
  | readlink i => cases h; exact good_readlink B i
  | opendir i => cases h; exact good_opendir B i
  | readdir i size off =>
    cases h
    refine good_readdirLoop (fun pg => ?_) _ _ _ _
    simp only
    split
    · refine .op fun out _ => ?_
      split <;> exact .done
    · exact .done
  | readdirplus i size off =>
    cases h
    refine good_plusLoop (fun pg => ?_) _ _ _ _
    split <;> exact .done
  | forgetMulti l => cases h; exact good_forgetMulti l
  | releasedir i => cases h
  | other => cases h

/-- The outcome is a result with `P`, or a failure other than undefined behaviour. -/
def Defined {α : Type} (P : α → Prop) : M α → Prop
  | .ok a => P a
  | .error f => ∀ n, f ≠ .ub n

theorem Tame.defined {α : Type} {P : α → Prop} {m : M α} (h : Tame P m) : Defined P m := by
  cases m with
  | ok a => exact h
  | error f => intro n hn; subst hn; cases h

theorem Defined.bind {α β : Type} {P : α → Prop} {Q : β → Prop} {m : M α} {f : α → M β} (h : Defined P m) (hf : ∀ a, P a → Defined Q (f a)) : Defined Q (m >>= f) := by
  cases m with
  | ok a => exact hf a h
  | error e => exact h

theorem doOp_defined (hk : Keyed t.db) (o : Op) : Defined (fun x => Keyed x.1.db) (Cache.B.doOp pad t o) := by
  by_cases ho : ∀ i n, o ≠ .release i n
  · exact (C84_calls_partial hk o ho).defined
  · have : ∃ i n, o = .release i n := by
      cases o with
      | release i n => exact ⟨_, _, rfl⟩
      | _ => exact absurd (fun _ _ h => by cases h) ho
    obtain ⟨i, n, rfl⟩ := this
    have hr : Defined (fun x => Keyed x.1.db) (Cache.B.release t i n) := by
      unfold Cache.B.release Refs.decref
      by_cases hn : n = 0
      · rw [if_pos hn]; exact hk
      rw [if_neg hn, if_neg hn]
      by_cases hc : (t.refs i).nrefs < n
      · rw [if_pos hc]; intro n hn; cases hn
      · rw [if_neg hc]; exact hk
    exact hr.bind fun x hx => hx

theorem runB_defined (pads : Nat → Ino → Nat) {P : MT.Prog} (hP : Good P) : ∀ {c : Nat} {t : Cache.B.Txn}, Keyed t.db → Defined (fun x => Keyed x.1.db) (FSB.runB pads c t P) := by
  induction hP with
  | done => intro c t hk; exact hk
  | stuck h => intro c t hk; exact h
  | @op o k _ ih =>
    intro c t hk
    unfold FSB.runB
    have h := doOp_defined (pad := pads c) hk o
    cases hd : Cache.B.doOp (pads c) t o with
    | error e => rw [hd] at h; exact h
    | ok x => rw [hd] at h; obtain ⟨t', out⟩ := x; exact ih out (doOp_shape (x := (t', out)) hd) h

/-- **C84**: whatever the values in the database are, whatever the backend says, and however long the loops
over directories run (`fuel`), a handler does not run into undefined behaviour, and what it writes has keys of
the right lengths. -/
theorem C84_handlers (pads : Nat → Ino → Nat) (hk : Keyed t.db) (B : Backend) (fuel : Nat) (rq : Req) (P : MT.Prog) (h : MT.prog B fuel rq = some P) :
    Defined (fun x => Keyed x.1.db) (FSB.runB pads 0 t P) := runB_defined pads (good_prog h) hk

theorem serve_defined (pads : Nat → Ino → Nat) {y : FSB.Sys} (hk : Keyed y.disk) (B : Backend) (rq : Req) : Defined (fun x => Keyed x.1.disk) (FSB.serve pads B y rq) := by
  unfold FSB.serve
  cases h : MT.prog B (y.disk.treei.size + 4) rq with
  | none => exact hk
  | some P =>
    simp only
    refine (C84_handlers pads (t := ⟨y.disk, y.refs, none, []⟩) hk B _ rq P h).bind ?_
    rintro ⟨t, c, reps⟩ ht
    have ha : Defined (fun _ => True) (FSB.answers reps) := by
      unfold FSB.answers
      split
      · trivial
      · trivial
      · intro n hn; cases hn
    refine ha.bind fun r _ => ?_
    show Keyed (if _ then _ else _)
    split
    · exact ht
    · exact hk

theorem mount_defined {pad' : Ino → Nat} (hk : Keyed d) (uid gid now) : Defined (fun y => Keyed y.disk) (FSB.mount pad pad' d uid gid now) := by
  unfold FSB.mount
  refine (openClean_tame (pad := pad') (init_keyed hk uid gid now) Refs.empty).defined.bind ?_
  rintro ⟨d, r⟩ h; exact h

/-- **C84**: no history of starts and requests which begins with a damaged database file runs into undefined
behaviour. -/
theorem C84_histories (l : List (FSB.Ev × (Nat → Ino → Nat))) : ∀ {y : FSB.Sys}, Keyed y.disk → Defined (fun x => Keyed x.1.disk) (FSB.run y l) := by
  induction l with
  | nil => intro y hk; exact hk
  | cons e l ih =>
    intro y hk
    obtain ⟨ev, pads⟩ := e
    cases ev with
    | start uid gid now =>
      show Defined _ (do let y1 ← FSB.mount (pads 0) (pads 1) y.disk uid gid now; FSB.run y1 l)
      exact (mount_defined hk uid gid now).bind fun y1 h1 => ih h1
    | req B rq =>
      show Defined _ (do let (y1, r) ← FSB.serve pads B y rq; let (y2, rs) ← FSB.run y1 l; pure (y2, r :: rs))
      refine (serve_defined pads hk B rq).bind ?_
      rintro ⟨y1, r⟩ h1
      refine (ih h1).bind ?_
      rintro ⟨y2, rs⟩ h2
      exact h2

/-! ### Counterexamples -/

/-- C84 in full: a damaged database never makes a call fail other than by an error code. -/
def C84_full : Prop := ∀ (pad : Ino → Nat) (t : Cache.B.Txn) (o : Op), Keyed t.db → (∀ i n, o ≠ .release i n) → ∃ x, Cache.B.doOp pad t o = .ok x

/-- A database as after opening, with the given entry of inode 2 in the root. -/
def oneEntry (e : Bytes) : Cache.B.DB := damaged (Cache.B.ser (fun _ => 0) 2 (mkInode (fileA 1) 1)) e

theorem keyedB {d : Cache.B.DB} (h : (d.inodes.entries.all (fun e => e.1.length == 8) && d.treei.entries.all (fun e => e.1.length == 16) &&
    d.treen.entries.all (fun e => decide (8 ≤ e.1.length)) && d.orphans.entries.all (fun e => e.1.length == 8) && d.links.entries.all (fun e => e.1.length == 8)) = true) : Keyed d := by
  simp only [Bool.and_eq_true, List.all_eq_true, beq_iff_eq, decide_eq_true_eq] at h
  exact ⟨h.1.1.1.1, h.1.1.1.2, h.1.1.2, h.1.2, h.2⟩

/-- It is false: removing a name whose entry has an unknown version fails an assertion. -/
theorem C84_counterexample : ¬ C84_full := by
  intro h
  obtain ⟨x, hx⟩ := h (fun _ => 0) ⟨oneEntry [9, 0, 0, 0, 0, 0, 0, 0, 2, 0, 0, 0, 0, 0, 0, 0, 0x61], Refs.empty, none, []⟩ (.unlinkName 1 [0x61]) (keyedB (by decide +kernel)) (fun _ _ h => by cases h)
  have : (match Cache.B.doOp (fun _ => 0) ⟨oneEntry [9, 0, 0, 0, 0, 0, 0, 0, 2, 0, 0, 0, 0, 0, 0, 0, 0x61], Refs.empty, none, []⟩ (.unlinkName 1 [0x61]) with | .ok _ => true | .error _ => false) = false := by decide +kernel
  rw [hx] at this; cases this

/-- A directory, inode 2, which was removed and left as an orphan, with an entry for inode 3, whose record is
missing. -/
def lostKid : Cache.B.DB :=
  { Cache.B.initDB (fun _ => 0) Cache.B.emptyDB 0 0 ⟨0, 0⟩ with
    inodes := (Cache.B.initDB (fun _ => 0) Cache.B.emptyDB 0 0 ⟨0, 0⟩).inodes.put (key8 2) (Cache.B.ser (fun _ => 0) 2 (mkInode (rootAttrs 0 0 ⟨0, 0⟩) 0))
    treei := Tab.empty.put (key16 2 3) (encDirEnt 0 (mkEnt 3 [0x61]))
    orphans := Tab.empty.put (key8 2) [0] }

/-- The process does not start with this database: however long it runs, the loop over the entries of the
directory has not come to an end. -/
theorem C84_hang_counterexample : Keyed lostKid ∧ (∀ pad fuel, Cache.B.orphanKids pad fuel lostKid 2 = .error (.diverge 1062)) ∧
    ∀ pad pad' uid gid now, FSB.mount pad pad' lostKid uid gid now = .error (.diverge 1062) := by
  have hl : lostKid.treei.lower (key8 2) = [(key16 2 3, encDirEnt 0 (mkEnt 3 [0x61]))] := by decide +kernel
  have hp : parseDirEnt (encDirEnt 0 (mkEnt 3 [0x61])) = .ok (.ok (mkEnt 3 [0x61])) := by decide +kernel
  have hm : ∀ pad, Cache.B.makeOrphan pad lostKid 3 = .ok (lostKid, .error ENOENT) := by
    intro pad
    have : Cache.B.parent lostKid 3 = .ok (.error ENOENT) := by decide +kernel
    unfold Cache.B.makeOrphan
    rw [this]; rfl
  have hk : ∀ pad fuel, Cache.B.orphanKids pad fuel lostKid 2 = .error (.diverge 1062) := by
    intro pad fuel
    induction fuel with
    | zero => rfl
    | succ f ih =>
      unfold Cache.B.orphanKids
      rw [hl]
      simp only
      rw [if_neg (by decide), if_neg (by decide), hp, bind_ok]
      simp only
      rw [show (mkEnt 3 [0x61]).ino = 3 from rfl, hm, bind_ok]
      exact ih
  refine ⟨keyedB (by decide +kernel), hk, fun pad pad' uid gid now => ?_⟩
  have hi : Cache.B.initDB pad lostKid uid gid now = lostKid := rfl
  unfold FSB.mount
  rw [hi]
  unfold Cache.B.openCleanDB Cache.B.cleanOrphans
  have he : lostKid.orphans.entries = [(key8 2, [0])] := by decide +kernel
  have hf : ∃ r, Cache.B.firstFree lostKid.orphans.entries Refs.empty = .ok (some (2, r)) := by
    rw [he]; exact ⟨_, rfl⟩
  obtain ⟨r, hf⟩ := hf
  have hz : lostKid.inodes.size + lostKid.treei.size + lostKid.orphans.size + 1 = 4 + 1 := by decide +kernel
  rw [hz]
  have hr : Cache.B.removeOne pad' lostKid 2 = .error (.diverge 1062) := by
    have h1 : lostKid.inodes.find (key8 2) = some (Cache.B.ser (fun _ => 0) 2 (mkInode (rootAttrs 0 0 ⟨0, 0⟩) 0)) := by decide +kernel
    have h2 : parseInode (Cache.B.ser (fun _ => 0) 2 (mkInode (rootAttrs 0 0 ⟨0, 0⟩) 0)) = .ok (.ok (mkInode (rootAttrs 0 0 ⟨0, 0⟩) 0)) := by decide +kernel
    unfold Cache.B.removeOne
    rw [h1]
    simp only
    rw [h2, bind_ok]
    simp only
    unfold Cache.B.removeData
    rw [if_neg (by decide), if_pos (by decide), hk]
    rfl
  unfold Cache.B.cleanLoop
  rw [hf, bind_ok]
  simp only
  rw [hr]
  rfl

/-- Two directories, inodes 2 and 3, each of which is recorded as the parent of the other. -/
def cycle : Cache.B.DB :=
  { Cache.B.initDB (fun _ => 0) Cache.B.emptyDB 0 0 ⟨0, 0⟩ with
    inodes := ((Cache.B.initDB (fun _ => 0) Cache.B.emptyDB 0 0 ⟨0, 0⟩).inodes.put (key8 2) (Cache.B.ser (fun _ => 0) 2 (mkInode (rootAttrs 0 0 ⟨0, 0⟩) 3))).put
      (key8 3) (Cache.B.ser (fun _ => 0) 3 (mkInode (rootAttrs 0 0 ⟨0, 0⟩) 2))
    treei := (Tab.empty.put (key16 2 3) (encDirEnt 0 (mkEnt 3 [0x61]))).put (key16 3 2) (encDirEnt 0 (mkEnt 2 [0x61])) }

/-- `path` does not end on it, and so neither do requests for these inodes. -/
theorem C84_path_counterexample : Keyed cycle ∧ ∀ fuel buf, Cache.B.pathLoop cycle fuel 2 buf = .error (.diverge 667) ∧ Cache.B.pathLoop cycle fuel 3 buf = .error (.diverge 667) := by
  have h1 : Cache.B.parent cycle 2 = .ok (.ok 3) := by decide +kernel
  have h2 : Cache.B.parent cycle 3 = .ok (.ok 2) := by decide +kernel
  have h3 : Cache.B.name2 cycle 3 2 = .ok (.ok [0x61]) := by decide +kernel
  have h4 : Cache.B.name2 cycle 2 3 = .ok (.ok [0x61]) := by decide +kernel
  refine ⟨keyedB (by decide +kernel), fun fuel => ?_⟩
  induction fuel with
  | zero => intro buf; exact ⟨rfl, rfl⟩
  | succ f ih =>
    intro buf
    constructor
    · unfold Cache.B.pathLoop
      rw [h1, bind_ok]
      simp only
      rw [h3, bind_ok]
      simp only
      rw [if_neg (by decide)]
      exact (ih _).2
    · unfold Cache.B.pathLoop
      rw [h2, bind_ok]
      simp only
      rw [h4, bind_ok]
      simp only
      rw [if_neg (by decide)]
      exact (ih _).1

/-! ### Examples -/

/-- A transaction on a database with a damaged record and a damaged entry (C84_calls_partial, C84_handlers). -/
example : Keyed (damaged [1, 2, 3] [9]) ∧ ¬ GoodRecord [1, 2, 3] ∧ ¬ GoodEntry [9] := ⟨keyedB (by decide +kernel), by unfold GoodRecord; decide, by unfold GoodEntry; decide⟩

/-- A history on it which is served (C84_histories): the damaged inode cannot be read, others can. -/
example : (match FSB.run ⟨damaged [1, 2, 3] (encDirEnt 0 (mkEnt 2 [0x61])), Refs.empty, fun _ => 0⟩
      [(.start 0 0 ⟨0, 0⟩, fun _ _ => 0), (.req Tbl.offline.backend (.getattr 2), fun _ _ => 0), (.req Tbl.offline.backend (.lookup 1 [0x61]), fun _ _ => 0),
       (.req Tbl.offline.backend (.getattr 1), fun _ _ => 0)] with | .ok (_, l) => some l | .error _ => none) =
    some [.err EINVAL, .err EIO, .attr (osStat 1 (rootAttrs 0 0 ⟨0, 0⟩))] := by decide +kernel

end Dragonstash.Damaged
