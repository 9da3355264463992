/-
  The cache on bytes (`Verif.Cache.ByteModel`) does what the cache on records (`Verif.Cache.Model`)
  does: every operation on a database whose records parse gives the same result or fault, and leaves a
  database whose records parse, to the corresponding records.
-/
import Verif.Cache.ByteModel
import Verif.Props.Codec
import Mathlib.Data.List.Forall2
namespace Dragonstash
open List (Forall₂)

namespace Tab
variable {V W : Type}

/-- Entries of two tables related one by one, under the same key. -/
abbrev ERel (R : Bytes → V → W → Prop) (a : Bytes × V) (b : Bytes × W) : Prop := a.1 = b.1 ∧ R a.1 a.2 b.2

/-- Tables with the same keys and related values. -/
def Rel (R : Bytes → V → W → Prop) (x : Tab V) (y : Tab W) : Prop := Forall₂ (ERel R) x.entries y.entries

theorem Rel.empty {R : Bytes → V → W → Prop} : Rel R Tab.empty Tab.empty := .nil

theorem findL_rel {R : Bytes → V → W → Prop} {l : List (Bytes × V)} {m : List (Bytes × W)} (h : Forall₂ (ERel R) l m)
    (k : Bytes) : (findL l k = none ∧ findL m k = none) ∨ ∃ v w, findL l k = some v ∧ findL m k = some w ∧ R k v w := by
  induction h with
  | nil => exact .inl ⟨rfl, rfl⟩
  | @cons a b l m hab _ ih =>
    unfold findL
    rw [← hab.1]
    by_cases hk : a.1 = k
    · rw [if_pos hk, if_pos hk]
      exact .inr ⟨_, _, rfl, rfl, hk ▸ hab.2⟩
    · rw [if_neg hk, if_neg hk]; exact ih

theorem Rel.find {R : Bytes → V → W → Prop} {x : Tab V} {y : Tab W} (h : Rel R x y) (k : Bytes) :
    (x.find k = none ∧ y.find k = none) ∨ ∃ v w, x.find k = some v ∧ y.find k = some w ∧ R k v w := findL_rel h k

theorem Rel.put {R : Bytes → V → W → Prop} {x : Tab V} {y : Tab W} (h : Rel R x y) {k : Bytes} {v : V} {w : W}
    (hv : R k v w) : Rel R (x.put k v) (y.put k w) := by
  unfold Rel Tab.put
  simp only
  unfold Rel at h
  generalize x.entries = l at h
  generalize y.entries = m at h
  induction h with
  | nil => exact .cons ⟨rfl, hv⟩ .nil
  | @cons a b l m hab hl ih =>
    unfold insL
    rw [← hab.1]
    by_cases h1 : blt k a.1 = true
    · rw [if_pos h1, if_pos h1]; exact .cons ⟨rfl, hv⟩ (.cons hab hl)
    · rw [if_neg h1, if_neg h1]
      by_cases h2 : a.1 = k
      · rw [if_pos h2, if_pos h2]; exact .cons ⟨rfl, hv⟩ hl
      · rw [if_neg h2, if_neg h2]; exact .cons hab ih

theorem Rel.del {R : Bytes → V → W → Prop} {x : Tab V} {y : Tab W} (h : Rel R x y) (k : Bytes) :
    Rel R (x.del k) (y.del k) := by
  unfold Rel Tab.del
  simp only
  unfold Rel at h
  generalize x.entries = l at h
  generalize y.entries = m at h
  induction h with
  | nil => exact .nil
  | @cons a b l m hab hl ih =>
    rw [List.filter_cons, List.filter_cons, ← hab.1]
    by_cases h2 : a.1 = k
    · simpa [h2] using ih
    · simp [h2] at ih ⊢; exact ⟨hab, ih⟩

theorem Rel.lower {R : Bytes → V → W → Prop} {x : Tab V} {y : Tab W} (h : Rel R x y) (k : Bytes) :
    Forall₂ (ERel R) (x.lower k) (y.lower k) := by
  unfold Tab.lower
  unfold Rel at h
  generalize x.entries = l at h
  generalize y.entries = m at h
  induction h with
  | nil => exact .nil
  | @cons a b l m hab hl ih =>
    rw [List.dropWhile_cons, List.dropWhile_cons, ← hab.1]
    by_cases h2 : blt a.1 k = true
    · rw [if_pos h2, if_pos h2]; exact ih
    · rw [if_neg h2, if_neg h2]; exact .cons hab hl

theorem Rel.size {R : Bytes → V → W → Prop} {x : Tab V} {y : Tab W} (h : Rel R x y) : x.size = y.size :=
  List.Forall₂.length_eq h

end Tab

namespace Codec

theorem rd_lt {b : Bytes} {o k x : Nat} (h : rd b o k = .ok x) : x < 256 ^ k := by
  unfold rd at h
  by_cases hb : o + k ≤ b.length
  · rw [if_pos hb] at h
    cases h
    have := leDec_lt ((b.drop o).take k)
    rwa [List.length_take, List.length_drop, Nat.min_eq_left (by omega)] at this
  · rw [if_neg hb] at h; cases h

theorem rdTs_fits {b : Bytes} {o : Nat} {t : Timespec} (h : rdTs b o = .ok t) : t.Fits := by
  unfold rdTs at h
  cases h1 : rd b o 8 with
  | error e => rw [h1] at h; cases h
  | ok s =>
    rw [h1, bind_ok] at h
    cases h2 : rd b (o + 8) 8 with
    | error e => rw [h2] at h; cases h
    | ok n => rw [h2] at h; cases h; exact ⟨rd_lt h1, rd_lt h2⟩

theorem bind_eq_ok {α β : Type} {x : M α} {f : α → M β} {y : β} (h : (x >>= f) = .ok y) :
    ∃ a, x = .ok a ∧ f a = .ok y := by
  cases x with
  | error e => cases h
  | ok a => exact ⟨a, rfl, h⟩

/-- What parses has fields of the widths of the record. -/
theorem parseInode_fits {b : Bytes} {n : Inode} (h : parseInode b = .ok (.ok n)) : n.Fits := by
  unfold parseInode at h
  by_cases h0 : b.length = 0
  · rw [if_pos h0] at h; cases h
  rw [if_neg h0] at h
  obtain ⟨v, -, h⟩ := bind_eq_ok h
  by_cases h1 : v ≠ 1
  · rw [if_pos h1] at h; cases h
  rw [if_neg h1] at h
  by_cases h2 : b.length < 96
  · rw [if_pos h2] at h; cases h
  rw [if_neg h2] at h
  obtain ⟨flags, e1, h⟩ := bind_eq_ok h
  obtain ⟨parent, e2, h⟩ := bind_eq_ok h
  obtain ⟨size, e3, h⟩ := bind_eq_ok h
  obtain ⟨nblocks, e4, h⟩ := bind_eq_ok h
  obtain ⟨uid, e5, h⟩ := bind_eq_ok h
  obtain ⟨gid, e6, h⟩ := bind_eq_ok h
  obtain ⟨atime, e7, h⟩ := bind_eq_ok h
  obtain ⟨mtime, e8, h⟩ := bind_eq_ok h
  obtain ⟨ctime, e9, h⟩ := bind_eq_ok h
  obtain ⟨mode, e10, h⟩ := bind_eq_ok h
  cases h
  exact ⟨rd_lt e1, rd_lt e2, rd_lt e3, rd_lt e4, rd_lt e5, rd_lt e6, rdTs_fits e7, rdTs_fits e8, rdTs_fits e9, rd_lt e10⟩

theorem parseDirEnt_fits {b : Bytes} {n : DirEnt} (h : parseDirEnt b = .ok (.ok n)) : n.Fits := by
  unfold parseDirEnt at h
  by_cases h0 : b.length = 0
  · rw [if_pos h0] at h; cases h
  rw [if_neg h0] at h
  obtain ⟨v, -, h⟩ := bind_eq_ok h
  by_cases h1 : v ≠ 1
  · rw [if_pos h1] at h; cases h
  rw [if_neg h1] at h
  by_cases h2 : b.length < 16
  · rw [if_pos h2] at h; cases h
  rw [if_neg h2] at h
  obtain ⟨flags, e1, h⟩ := bind_eq_ok h
  obtain ⟨mode, e2, h⟩ := bind_eq_ok h
  obtain ⟨ino, e3, h⟩ := bind_eq_ok h
  cases h
  exact ⟨rd_lt e1, rd_lt e2, rd_lt e3⟩

end Codec

namespace Cache
open Codec

/-- Both fail with the same fault, or both succeed with related results. -/
inductive MRel {α β : Type} (R : α → β → Prop) : M α → M β → Prop
  | ok {a b} : R a b → MRel R (.ok a) (.ok b)
  | error (e : Fault) : MRel R (.error e) (.error e)

theorem MRel.bind {α β γ δ : Type} {R : α → β → Prop} {S : γ → δ → Prop} {x : M α} {y : M β} {f : α → M γ} {g : β → M δ}
    (h : MRel R x y) (hf : ∀ a b, R a b → MRel S (f a) (g b)) : MRel S (x >>= f) (y >>= g) := by
  cases h with
  | ok h => exact hf _ _ h
  | error e => exact .error e

theorem MRel.refl {α : Type} (x : M α) : MRel Eq x x := by
  cases x with
  | ok a => exact .ok rfl
  | error e => exact .error e

theorem MRel.of_eq {α : Type} {x y : M α} (h : MRel Eq x y) : x = y := by
  cases h with
  | ok h => rw [h]
  | error e => rfl

/-- An inode record. -/
def InoR (_ : Bytes) (v : Bytes) (n : Inode) : Prop :=
  (∃ pad, v = encInode 0 0 pad n) ∧ n.Fits ∧ parseInode v = .ok (.ok n)
/-- A directory entry under a key of 16 bytes in the inode-keyed tree. -/
def EntIR (k : Bytes) (v : Bytes) (e : DirEnt) : Prop := k.length = 16 ∧ v = encDirEnt 0 e ∧ parseDirEnt v = .ok (.ok e)
/-- A directory entry in the name-keyed tree. -/
def EntNR (k : Bytes) (v : Bytes) (e : DirEnt) : Prop := 8 ≤ k.length ∧ v = encDirEnt 0 e ∧ parseDirEnt v = .ok (.ok e)
/-- An orphan: key of eight bytes, one zero byte as value. -/
def OrpR (k : Bytes) (v : Bytes) (_ : Unit) : Prop := k.length = 8 ∧ v = [0]

/-- Databases of bytes which hold the given records. -/
structure DRel (b : B.DB) (d : DB) : Prop where
  next : b.next = d.next.map (leEnc 8)
  small : ∀ n, d.next = some n → n < W64
  inodes : Tab.Rel InoR b.inodes d.inodes
  treei : Tab.Rel EntIR b.treei d.treei
  treen : Tab.Rel EntNR b.treen d.treen
  orphans : Tab.Rel OrpR b.orphans d.orphans
  links : b.links = d.links

theorem lt64 {n : Nat} : n < W64 ↔ n < 256 ^ 8 := Iff.rfl

theorem zlt {k : Nat} : (0 : Nat) < 256 ^ k := Nat.pow_pos (by decide)

theorem ser_rel (pad : Ino → Nat) (i : Ino) {n : Inode} (h : n.Fits) (k : Bytes) : InoR k (B.ser pad i n) n := by
  exact ⟨⟨_, rfl⟩, h, C35_inode_roundtrip _ _ _ _ h⟩

theorem mkEnt_fits {i : Ino} (h : i < W64) (n : Bytes) : (mkEnt i n).Fits :=
  ⟨zlt, zlt, lt64.mp h⟩

theorem DRel.empty : DRel B.emptyDB emptyDB :=
  ⟨rfl, (fun n h => nomatch h), Tab.Rel.empty, Tab.Rel.empty, Tab.Rel.empty, Tab.Rel.empty, rfl⟩

/-! ### Reading -/

theorem name2_rel {b : B.DB} {d : DB} (h : DRel b d) (p i : Ino) : B.name2 b p i = .ok (name2 d p i) := by
  unfold B.name2 name2
  by_cases hc : i = ROOT ∨ p = INVALID
  · rw [if_pos hc, if_pos hc]
  rw [if_neg hc, if_neg hc]
  rcases h.treei.find (key16 p i) with ⟨e1, e2⟩ | ⟨v, w, e1, e2, hr⟩
  · rw [e1, e2]
  · rw [e1, e2]; simp only [hr.2.2, bind_ok, pure_eq_ok]

theorem parent_rel {b : B.DB} {d : DB} (h : DRel b d) (i : Ino) : B.parent b i = .ok (parent d i) := by
  unfold B.parent parent
  by_cases hc : i = ROOT
  · rw [if_pos hc, if_pos hc]
  rw [if_neg hc, if_neg hc]
  rcases h.inodes.find (key8 i) with ⟨e1, e2⟩ | ⟨v, w, e1, e2, hr⟩
  · rw [e1, e2]
  · rw [e1, e2]; simp only [hr.2.2, bind_ok, pure_eq_ok]

theorem name_rel {b : B.DB} {d : DB} (h : DRel b d) (i : Ino) : B.name b i = .ok (name d i) := by
  unfold B.name name
  by_cases hc : i = ROOT
  · rw [if_pos hc, if_pos hc]
  rw [if_neg hc, if_neg hc, parent_rel h, bind_ok]
  cases parent d i with
  | error e => rfl
  | ok p =>
    simp only
    by_cases hp : p = INVALID
    · rw [if_pos hp, if_pos hp]; rfl
    · rw [if_neg hp, if_neg hp, name2_rel h]

theorem lookupScan_rel {l : List (Bytes × Bytes)} {m : List (Bytes × DirEnt)} (h : Forall₂ (Tab.ERel EntNR) l m)
    (p : Ino) (n : Bytes) : B.lookupScan p n l = lookupScan p n m := by
  induction h with
  | nil => rfl
  | @cons x y l m hxy hl ih =>
    unfold B.lookupScan lookupScan
    rw [← hxy.1, hxy.2.2.2, ih]
    have : decide (8 ≤ x.1.length) = true := decide_eq_true hxy.2.1
    rw [this]; rfl

theorem lookup_rel {b : B.DB} {d : DB} (h : DRel b d) (p : Ino) (n : Bytes) : B.lookup b p n = lookup d p n := by
  unfold B.lookup lookup
  rw [lookupScan_rel (h.treen.lower _)]
  rfl

theorem getattr_rel {b : B.DB} {d : DB} (h : DRel b d) (i : Ino) : B.getattr b i = .ok (getattr d i) := by
  unfold B.getattr getattr
  rcases h.inodes.find (key8 i) with ⟨e1, e2⟩ | ⟨v, w, e1, e2, hr⟩
  · rw [e1, e2]
  · rw [e1, e2]; simp only [hr.2.2, bind_ok, pure_eq_ok]

theorem readlink_rel {b : B.DB} {d : DB} (h : DRel b d) (i : Ino) : B.readlink b i = .ok (readlink d i) := by
  unfold B.readlink readlink
  rw [h.links]
  cases d.links.find (key8 i) with
  | some t => rfl
  | none =>
    rcases h.inodes.find (key8 i) with ⟨e1, e2⟩ | ⟨v, w, e1, e2, hr⟩
    · rw [e1, e2]
    · rw [e1, e2]

theorem readdirAt_rel {l : List (Bytes × Bytes)} {m : List (Bytes × DirEnt)} (h : Forall₂ (Tab.ERel EntIR) l m)
    (dir prev : Ino) : B.readdirAt dir prev l = readdirAt dir prev m := by
  cases h with
  | nil => rfl
  | @cons x y l m hxy hl =>
    have e : B.readdirEnt (leDec (x.1.drop 8)) x.2 = .ok (.ok (leDec (x.1.drop 8), y.2.name)) := by
      unfold B.readdirEnt; rw [hxy.2.2.2]; rfl
    unfold B.readdirAt readdirAt
    simp only
    rw [← hxy.1, e]
    congr 1
    funext u
    congr 1
    congr 1
    cases hl with
    | nil => rfl
    | @cons x' y' l m hxy' hl =>
      have e : B.readdirEnt (leDec (x'.1.drop 8)) x'.2 = .ok (.ok (leDec (x'.1.drop 8), y'.2.name)) := by
        unfold B.readdirEnt; rw [hxy'.2.2.2]; rfl
      simp only
      rw [← hxy'.1, e]; rfl

theorem readdir_rel {b : B.DB} {d : DB} (h : DRel b d) (dir prev : Ino) : B.readdir b dir prev = readdir d dir prev := by
  unfold B.readdir readdir
  by_cases hc : prev = 0
  · rw [if_pos hc, if_pos hc]
  rw [if_neg hc, if_neg hc, parent_rel h, bind_ok]
  cases parent d dir with
  | error e => rfl
  | ok p =>
    simp only
    rw [readdirAt_rel (h.treei.lower _)]; rfl

theorem pathLoop_rel {b : B.DB} {d : DB} (h : DRel b d) (f : Nat) (i : Ino) (buf : Bytes) :
    B.pathLoop b f i buf = pathLoop d f i buf := by
  induction f generalizing i buf with
  | zero => rfl
  | succ f ih =>
    unfold B.pathLoop pathLoop
    rw [parent_rel h, bind_ok]
    cases parent d i with
    | error e => rfl
    | ok p =>
      simp only
      rw [name2_rel h, bind_ok]
      cases name2 d p i with
      | error e => rfl
      | ok n => simp only; rw [ih]; rfl

theorem path_rel {b : B.DB} {d : DB} (h : DRel b d) (i : Ino) : B.path b i = path d i := by
  unfold B.path path
  rw [pathLoop_rel h, h.inodes.size]

theorem testFlag_rel {b : B.DB} {d : DB} (h : DRel b d) (i : Ino) (f : Flag) :
    B.testFlag b i f = .ok (testFlag d i f) := by
  unfold B.testFlag testFlag
  rcases h.inodes.find (key8 i) with ⟨e1, e2⟩ | ⟨v, w, e1, e2, hr⟩
  · rw [e1, e2]
  · rw [e1, e2]; simp only [hr.2.2, bind_ok, pure_eq_ok]

/-! ### Writing -/

theorem clearParent_rel {b : B.DB} {d : DB} (h : DRel b d) (pad : Ino → Nat) (i : Ino) :
    ∃ t, B.clearParent pad b i = .ok t ∧ Tab.Rel InoR t (match d.inodes.find (key8 i) with
            | none => d.inodes
            | some n => d.inodes.put (key8 i) { n with parent := 0 }) := by
  unfold B.clearParent
  rcases h.inodes.find (key8 i) with ⟨e1, e2⟩ | ⟨v, w, e1, e2, hr⟩
  · rw [e1, e2]; exact ⟨_, rfl, h.inodes⟩
  · rw [e1, e2]
    simp only [hr.2.2, bind_ok, pure_eq_ok]
    refine ⟨_, rfl, h.inodes.put (ser_rel pad i ?_ _)⟩
    have := parseInode_fits hr.2.2
    exact ⟨this.1, zlt, this.2.2⟩

theorem makeOrphan_rel {b : B.DB} {d : DB} (h : DRel b d) (pad : Ino → Nat) (i : Ino) :
    ∃ b', B.makeOrphan pad b i = .ok (b', (makeOrphan d i).2) ∧ DRel b' (makeOrphan d i).1 := by
  unfold B.makeOrphan makeOrphan
  rw [parent_rel h, bind_ok]
  cases parent d i with
  | error e => exact ⟨b, rfl, h⟩
  | ok p =>
    simp only
    by_cases hp : p = INVALID
    · rw [if_pos hp, if_pos hp]; exact ⟨b, rfl, h⟩
    rw [if_neg hp, if_neg hp]
    rcases h.treei.find (key16 p i) with ⟨e1, e2⟩ | ⟨v, w, e1, e2, hr⟩
    · rw [e1, e2]; exact ⟨b, rfl, h⟩
    rw [e1, e2]
    obtain ⟨t, ht, hti⟩ := clearParent_rel h pad i
    simp only [hr.2.2, bind_ok, ht, pure_eq_ok]
    exact ⟨_, rfl, h.next, h.small, hti, h.treei.del _, h.treen.del _, h.orphans.put ⟨by simp [key8], rfl⟩, h.links⟩

theorem orphanKids_rel (pad : Ino → Nat) (f : Nat) {b : B.DB} {d : DB} (h : DRel b d) (i : Ino) :
    MRel DRel (B.orphanKids pad f b i) (orphanKids f d i) := by
  induction f generalizing b d with
  | zero => exact .error _
  | succ f ih =>
    unfold B.orphanKids orphanKids
    have hl := h.treei.lower (key8 i)
    generalize b.treei.lower (key8 i) = l at hl
    generalize d.treei.lower (key8 i) = m at hl
    cases hl with
    | nil => exact .ok h
    | @cons x y l m hxy hl =>
      simp only
      rw [if_neg (by have := hxy.2.1; omega), ← hxy.1]
      by_cases hc : leDec (x.1.take 8) ≠ i
      · rw [if_pos hc, if_pos hc]; exact .ok h
      rw [if_neg hc, if_neg hc]
      obtain ⟨b', hb, hd⟩ := makeOrphan_rel h pad y.2.ino
      simp only [hxy.2.2.2, bind_ok, hb]
      exact ih hd

theorem removeData_rel (pad : Ino → Nat) {b : B.DB} {d : DB} (h : DRel b d) (i : Ino) (n : Inode) :
    MRel DRel (B.removeData pad b i n) (removeData d i n) := by
  unfold B.removeData removeData
  by_cases h1 : fmt n.attr.mode = S_IFLNK
  · rw [if_pos h1, if_pos h1]
    exact .ok ⟨h.next, h.small, h.inodes, h.treei, h.treen, h.orphans, by simp only [h.links]⟩
  rw [if_neg h1, if_neg h1]
  by_cases h2 : fmt n.attr.mode = S_IFDIR
  · rw [if_pos h2, if_pos h2, h.treei.size]
    exact orphanKids_rel pad _ h i
  · rw [if_neg h2, if_neg h2]; exact .ok h

theorem removeOne_rel (pad : Ino → Nat) {b : B.DB} {d : DB} (h : DRel b d) (i : Ino) :
    MRel DRel (B.removeOne pad b i) (removeOne d i) := by
  unfold B.removeOne removeOne
  rcases h.inodes.find (key8 i) with ⟨e1, e2⟩ | ⟨v, w, e1, e2, hr⟩
  · rw [e1, e2]
    exact .ok ⟨h.next, h.small, h.inodes, h.treei, h.treen, h.orphans.del _, h.links⟩
  rw [e1, e2]
  simp only [hr.2.2, bind_ok]
  refine (removeData_rel pad h i w).bind ?_
  intro b' d' h'
  exact .ok ⟨h'.next, h'.small, h'.inodes.del _, h'.treei, h'.treen, h'.orphans.del _, h'.links⟩

theorem firstFree_rel {l : List (Bytes × Bytes)} {m : List (Bytes × Unit)} (h : Forall₂ (Tab.ERel OrpR) l m) (r : Refs) :
    B.firstFree l r = .ok (firstFree m r) := by
  induction h with
  | nil => rfl
  | @cons x y l m hxy hl ih =>
    unfold B.firstFree firstFree
    rw [if_neg (by simp [hxy.2.1]), ← hxy.1, ih]
    rcases r.doom (leDec x.1) with ⟨r', _ | _⟩ <;> rfl

theorem cleanLoop_rel (pad : Ino → Nat) (f : Nat) {b : B.DB} {d : DB} (h : DRel b d) (r : Refs) :
    MRel (fun x y => DRel x.1 y.1 ∧ x.2 = y.2) (B.cleanLoop pad f b r) (cleanLoop f d r) := by
  induction f generalizing b d r with
  | zero => exact .error _
  | succ f ih =>
    unfold B.cleanLoop cleanLoop
    rw [firstFree_rel h.orphans, bind_ok]
    cases firstFree d.orphans.entries r with
    | none => exact .ok ⟨h, rfl⟩
    | some x =>
      obtain ⟨i, r'⟩ := x
      simp only
      exact (removeOne_rel pad h i).bind (fun b' d' h' => ih h' r')

theorem cleanOrphans_rel (pad : Ino → Nat) {b : B.DB} {d : DB} (h : DRel b d) (r : Refs) :
    MRel (fun x y => DRel x.1 y.1 ∧ x.2 = y.2) (B.cleanOrphans pad b r) (cleanOrphans d r) := by
  unfold B.cleanOrphans cleanOrphans
  rw [h.inodes.size, h.treei.size, h.orphans.size]
  exact cleanLoop_rel pad _ h r

/-- Open transactions with corresponding databases and the same bookkeeping. -/
structure TRel (b : B.Txn) (t : Txn) : Prop where
  db : DRel b.db t.db
  refs : b.refs = t.refs
  rewrite : b.rewrite = t.rewrite
  hooks : b.hooks = t.hooks

/-- Results of an operation. -/
abbrev RRel {α : Type} (x : B.Txn × α) (y : Txn × α) : Prop := TRel x.1 y.1 ∧ x.2 = y.2

theorem allocNext_rel {b : B.DB} {d : DB} (h : DRel b d) :
    MRel (fun x y => DRel x.1 y.1 ∧ x.2 = y.2 ∧ y.2 < W64) (B.allocNext b) (allocNext d) := by
  unfold B.allocNext allocNext
  rw [h.next]
  cases hn : d.next with
  | none => exact .error _
  | some n =>
    have hs := h.small n hn
    simp only [Option.map_some]
    rw [if_neg (by simp), leDec_leEnc 8 n (lt64.mp hs)]
    refine .ok ⟨⟨rfl, ?_, h.inodes, h.treei, h.treen, h.orphans, h.links⟩, rfl, hs⟩
    intro m hm
    simp only [Option.some.injEq] at hm
    rw [← hm]
    exact Nat.mod_lt _ (by decide)

theorem emplaceNew_rel (pad : Ino → Nat) {t : B.Txn} {u : Txn} (h : TRel t u) {b : B.DB} {d : DB} (hd : DRel b d)
    {p : Ino} (hp : p < W64) (n : Bytes) {a : Attrs} (ha : a.Fits) :
    MRel RRel (B.emplaceNew pad t b p n a) (emplaceNew u d p n a) := by
  unfold B.emplaceNew emplaceNew
  refine (allocNext_rel hd).bind ?_
  rintro ⟨b1, i⟩ ⟨d1, j⟩ ⟨h1, rfl, hi⟩
  simp only at h1 hi ⊢
  rw [h.refs]
  have he : parseDirEnt (encDirEnt 0 (mkEnt i n)) = .ok (.ok (mkEnt i n)) :=
    C35_direntry_roundtrip 0 _ (mkEnt_fits hi n)
  have hn : (mkInode a p).Fits := ⟨zlt, lt64.mp hp, ha⟩
  have hd2 : DRel { b1 with
      inodes := b1.inodes.put (key8 i) (B.ser pad i (mkInode a p))
      treen := b1.treen.put (keyN p n) (encDirEnt 0 (mkEnt i n))
      treei := b1.treei.put (key16 p i) (encDirEnt 0 (mkEnt i n)) } { d1 with
      inodes := d1.inodes.put (key8 i) (mkInode a p)
      treen := d1.treen.put (keyN p n) (mkEnt i n)
      treei := d1.treei.put (key16 p i) (mkEnt i n) } :=
    ⟨h1.next, h1.small, h1.inodes.put (ser_rel pad i hn _),
      h1.treei.put ⟨by simp [key16], rfl, he⟩, h1.treen.put ⟨by simp [keyN], rfl, he⟩,
      h1.orphans, h1.links⟩
  refine (cleanOrphans_rel pad hd2 u.refs).bind ?_
  rintro ⟨b2, r⟩ ⟨d2, r'⟩ ⟨h2, rfl⟩
  exact .ok ⟨⟨h2, rfl, h.rewrite, h.hooks⟩, rfl⟩

theorem emplace_rel (pad : Ino → Nat) {t : B.Txn} {u : Txn} (h : TRel t u) {p : Ino} (hp : p < W64) (n : Bytes)
    {a : Attrs} (ha : a.Fits) : MRel RRel (B.emplace pad t p n a) (emplace u p n a) := by
  unfold B.emplace emplace
  cases checkName n true with
  | error e => exact .ok ⟨h, rfl⟩
  | ok _ =>
    simp only
    rcases h.db.treen.find (keyN p n) with ⟨e1, e2⟩ | ⟨v, w, e1, e2, hr⟩
    · rw [e1, e2]; exact emplaceNew_rel pad h h.db hp n ha
    rw [e1, e2]
    simp only [hr.2.2, bind_ok]
    rcases h.db.inodes.find (key8 w.ino) with ⟨e1, e2⟩ | ⟨v', w', e1, e2, hr'⟩
    · rw [e1, e2]; exact .error _
    rw [e1, e2]
    simp only [hr'.2.2, bind_ok]
    by_cases hf : fmt w'.attr.mode = fmt a.mode
    · rw [if_pos hf, if_pos hf]
      refine .ok ⟨⟨⟨h.db.next, h.db.small, h.db.inodes.put (ser_rel pad _ ⟨zlt, lt64.mp hp, ha⟩ _),
        h.db.treei, h.db.treen, h.db.orphans, h.db.links⟩, h.refs, by simp only [h.rewrite], h.hooks⟩, rfl⟩
    · rw [if_neg hf, if_neg hf]
      obtain ⟨b', hb, hd⟩ := makeOrphan_rel h.db pad w.ino
      rw [hb, bind_ok]
      exact emplaceNew_rel pad h hd hp n ha

theorem clean_rel (pad : Ino → Nat) {t : B.Txn} {u : Txn} (h : TRel t u) : MRel RRel (B.clean pad t) (clean u) := by
  unfold B.clean clean
  rw [h.refs]
  refine (cleanOrphans_rel pad h.db u.refs).bind ?_
  rintro ⟨b2, r⟩ ⟨d2, r'⟩ ⟨h2, rfl⟩
  exact .ok ⟨⟨h2, rfl, h.rewrite, h.hooks⟩, rfl⟩

theorem unlinkIno_rel (pad : Ino → Nat) {t : B.Txn} {u : Txn} (h : TRel t u) (i : Ino) :
    MRel RRel (B.unlinkIno pad t i) (unlinkIno u i) := by
  unfold B.unlinkIno unlinkIno
  obtain ⟨b', hb, hd⟩ := makeOrphan_rel h.db pad i
  rw [hb, bind_ok]
  revert hd
  rcases makeOrphan u.db i with ⟨d', _ | _⟩
  · intro _; exact .ok ⟨h, rfl⟩
  · intro hd; exact clean_rel pad ⟨hd, h.refs, h.rewrite, h.hooks⟩

theorem unlinkName_rel (pad : Ino → Nat) {t : B.Txn} {u : Txn} (h : TRel t u) (p : Ino) (n : Bytes) :
    MRel RRel (B.unlinkName pad t p n) (unlinkName u p n) := by
  unfold B.unlinkName unlinkName
  rcases h.db.treen.find (keyN p n) with ⟨e1, e2⟩ | ⟨v, w, e1, e2, hr⟩
  · rw [e1, e2]; exact .ok ⟨h, rfl⟩
  · rw [e1, e2]; simp only [hr.2.2, bind_ok]; exact unlinkIno_rel pad h _

theorem writelink_rel (pad : Ino → Nat) {t : B.Txn} {u : Txn} (h : TRel t u) (i : Ino) {dest : Bytes}
    (hl : dest.length < W64) : MRel RRel (B.writelink pad t i dest) (.ok (writelink u i dest)) := by
  unfold B.writelink writelink
  rcases h.db.inodes.find (key8 i) with ⟨e1, e2⟩ | ⟨v, w, e1, e2, hr⟩
  · rw [e1, e2]; exact .ok ⟨h, rfl⟩
  rw [e1, e2]
  simp only [hr.2.2, bind_ok]
  by_cases hf : fmt w.attr.mode ≠ S_IFLNK
  · rw [if_pos hf, if_pos hf]; exact .ok ⟨h, rfl⟩
  rw [if_neg hf, if_neg hf]
  have hw := parseInode_fits hr.2.2
  have hn : Inode.Fits { w with attr := { w.attr with size := dest.length } } := ⟨hw.1, hw.2.1, lt64.mp hl, hw.2.2.2⟩
  refine .ok ⟨⟨⟨h.db.next, h.db.small, h.db.inodes.put (ser_rel pad i hn _),
    h.db.treei, h.db.treen, h.db.orphans, by simp only [h.db.links]⟩, h.refs, h.rewrite, h.hooks⟩, rfl⟩

theorem setFlag_lt {x f : Nat} {on : Bool} (h : x < 256 ^ 2) : setFlag x f on < 256 ^ 2 := by
  unfold setFlag
  cases on with
  | true => exact Nat.mod_lt _ (by decide)
  | false => exact Nat.lt_of_le_of_lt Nat.and_le_left h

theorem foldFlag_lt (on : Bool) (l : List Flag) {x : Nat} (h : x < 256 ^ 2) :
    l.foldl (fun x f => setFlag x f on) x < 256 ^ 2 := by
  induction l generalizing x with
  | nil => exact h
  | cons f t ih => exact ih (setFlag_lt h)

theorem updateFlags_rel (pad : Ino → Nat) {t : B.Txn} {u : Txn} (h : TRel t u) (i : Ino) (a b : List Flag) :
    MRel RRel (B.updateFlags pad t i a b) (.ok (updateFlags u i a b)) := by
  unfold B.updateFlags updateFlags
  rcases h.db.inodes.find (key8 i) with ⟨e1, e2⟩ | ⟨v, w, e1, e2, hr⟩
  · rw [e1, e2]; exact .ok ⟨h, rfl⟩
  rw [e1, e2]
  simp only [hr.2.2, bind_ok]
  have hw := parseInode_fits hr.2.2
  have hn : Inode.Fits { w with flags := b.foldl (fun x f => setFlag x f false) (a.foldl (fun x f => setFlag x f true) w.flags) } :=
    ⟨foldFlag_lt false b (foldFlag_lt true a hw.1), hw.2.1, hw.2.2⟩
  refine .ok ⟨⟨⟨h.db.next, h.db.small, h.db.inodes.put (ser_rel pad i hn _),
    h.db.treei, h.db.treen, h.db.orphans, h.db.links⟩, h.refs, h.rewrite, h.hooks⟩, rfl⟩

theorem collectKids_rel {l : List (Bytes × Bytes)} {m : List (Bytes × DirEnt)} (h : Forall₂ (Tab.ERel EntIR) l m)
    (dir : Ino) (s : List Ino) : B.collectKids dir l s = collectKids dir m s := by
  induction h generalizing s with
  | nil => rfl
  | @cons x y l m hxy hl ih =>
    unfold B.collectKids collectKids
    rw [← hxy.1, ih]

theorem startRewrite_rel {t : B.Txn} {u : Txn} (h : TRel t u) (dir : Ino) :
    MRel RRel (B.startRewrite t dir) (startRewrite u dir) := by
  unfold B.startRewrite startRewrite
  rw [h.rewrite]
  cases u.rewrite with
  | some s => exact .ok ⟨h, rfl⟩
  | none =>
    simp only
    have hl := h.db.treei.lower (key8 dir)
    generalize t.db.treei.lower (key8 dir) = l at hl
    generalize u.db.treei.lower (key8 dir) = m at hl
    cases hl with
    | nil => exact .ok ⟨h, rfl⟩
    | @cons x y l m hxy hl =>
      simp only
      rw [collectKids_rel (.cons hxy hl)]
      refine (MRel.refl _).bind ?_
      rintro s _ rfl
      exact .ok ⟨⟨h.db, h.refs, rfl, h.hooks⟩, rfl⟩

theorem orphanAll_rel (pad : Ino → Nat) (s : List Ino) {b : B.DB} {d : DB} (h : DRel b d) :
    ∃ b', B.orphanAll pad b s = .ok b' ∧ DRel b' (s.foldl (fun d i => (makeOrphan d i).1) d) := by
  induction s generalizing b d with
  | nil => exact ⟨b, rfl, h⟩
  | cons i t ih =>
    obtain ⟨b', hb, hd⟩ := makeOrphan_rel h pad i
    obtain ⟨b'', hb', hd'⟩ := ih hd
    refine ⟨b'', ?_, hd'⟩
    unfold B.orphanAll
    rw [hb, bind_ok]; exact hb'

theorem finishRewrite_rel (pad : Ino → Nat) {t : B.Txn} {u : Txn} (h : TRel t u) :
    MRel RRel (B.finishRewrite pad t) (.ok (finishRewrite u)) := by
  unfold B.finishRewrite finishRewrite
  rw [h.rewrite]
  cases u.rewrite with
  | none => exact .ok ⟨h, rfl⟩
  | some s =>
    obtain ⟨b', hb, hd⟩ := orphanAll_rel pad s h.db
    simp only [hb, bind_ok]
    exact .ok ⟨⟨hd, h.refs, rfl, h.hooks⟩, rfl⟩

theorem lock_rel {t : B.Txn} {u : Txn} (h : TRel t u) (i : Ino) : RRel (B.lock t i) (lock u i) := by
  unfold B.lock lock
  rw [h.refs]
  rcases u.refs.incref i 1 with ⟨r, _ | _⟩
  · exact ⟨h, rfl⟩
  · exact ⟨⟨h.db, rfl, h.rewrite, by simp only [h.hooks]⟩, rfl⟩

theorem release_rel {t : B.Txn} {u : Txn} (h : TRel t u) (i : Ino) (n : Nat) :
    MRel RRel (B.release t i n) (release u i n) := by
  unfold B.release release
  by_cases hn : n = 0
  · rw [if_pos hn, if_pos hn]; exact .ok ⟨h, rfl⟩
  rw [if_neg hn, if_neg hn, h.refs]
  refine (MRel.refl _).bind ?_
  rintro ⟨r, _ | _⟩ _ rfl
  · exact .error _
  · exact .ok ⟨⟨h.db, rfl, h.rewrite, by simp only [h.hooks]⟩, rfl⟩

/-- The arguments of an operation fit into the C++ types: inode numbers of parents and lengths have
64 bits, attributes have the widths of the fields of `InodeAttributes`. -/
def Op.Fits : Op → Prop
  | .emplace p _ a => p < W64 ∧ a.Fits
  | .writelink _ dest => dest.length < W64
  | _ => True

/-- One operation. -/
theorem doOp_rel (pad : Ino → Nat) {t : B.Txn} {u : Txn} (h : TRel t u) (o : Op) (ho : o.Fits) :
    MRel RRel (B.doOp pad t o) (doOp u o) := by
  have ro {α : Type} (x : M α) (f : α → Out) : MRel RRel (do let r ← x; pure (t, f r)) (do let r ← x; pure (u, f r)) := by
    refine (MRel.refl x).bind ?_
    rintro a _ rfl; exact .ok ⟨h, rfl⟩
  have ro1 {α : Type} (x : α) (f : α → Out) : MRel RRel (do let r ← (.ok x : M α); pure (t, f r)) (.ok (u, f x)) := ro (.ok x) f
  have wr {α : Type} {x : M (B.Txn × α)} {y : M (Txn × α)} (f : α → Out) (hxy : MRel RRel x y) :
      MRel RRel (do let (t', r) ← x; pure (t', f r)) (do let (t', r) ← y; pure (t', f r)) := by
    refine hxy.bind ?_
    rintro ⟨a, r⟩ ⟨b, r'⟩ ⟨h1, rfl⟩; exact .ok ⟨h1, rfl⟩
  cases o with
  | lookup p n => simp only [B.doOp, doOp, lookup_rel h.db]; exact ro _ _
  | getattr i => simp only [B.doOp, doOp, getattr_rel h.db]; exact ro1 _ _
  | readlink i => simp only [B.doOp, doOp, readlink_rel h.db]; exact ro1 _ _
  | readdir dir prev => simp only [B.doOp, doOp, readdir_rel h.db]; exact ro _ _
  | path i => simp only [B.doOp, doOp, path_rel h.db]; exact ro _ _
  | name i => simp only [B.doOp, doOp, name_rel h.db]; exact ro1 _ _
  | parent i => simp only [B.doOp, doOp, parent_rel h.db]; exact ro1 _ _
  | testFlag i f => simp only [B.doOp, doOp, testFlag_rel h.db]; exact ro1 _ _
  | lock i =>
    have := lock_rel h i
    exact .ok ⟨this.1, by rw [this.2]⟩
  | release i n => exact wr _ (release_rel h i n)
  | emplace p n a => exact wr _ (emplace_rel pad h ho.1 n ho.2)
  | unlinkIno i => exact wr _ (unlinkIno_rel pad h i)
  | unlinkName p n => exact wr _ (unlinkName_rel pad h p n)
  | clean => exact wr _ (clean_rel pad h)
  | writelink i dest => exact wr (y := .ok _) _ (writelink_rel pad h i ho)
  | updateFlags i a b => exact wr (y := .ok _) _ (updateFlags_rel pad h i a b)
  | startRewrite dir => exact wr _ (startRewrite_rel h dir)
  | finishRewrite => exact wr (y := .ok _) _ (finishRewrite_rel pad h)

/-! ### Histories -/

/-- Transaction objects. -/
structure FRel (b : B.Frame) (f : Frame) : Prop where
  db : DRel b.db f.db
  rewrite : b.rewrite = f.rewrite
  hooks : b.hooks = f.hooks
  ro : b.ro = f.ro

/-- Processes with the cache open, on bytes and on records. -/
structure WRel (b : B.World) (w : World) : Prop where
  phase : b.phase = w.phase
  disk : DRel b.disk w.disk
  refs : b.refs = w.refs
  stack : Forall₂ FRel b.stack w.stack

/-- The arguments of a call fit into the C++ types. -/
def Call.Fits : Call → Prop
  | .op o => o.Fits
  | .openInit uid gid now => uid < 256 ^ 4 ∧ gid < 256 ^ 4 ∧ now.Fits
  | _ => True

theorem rootAttrs_fits {uid gid : Nat} {now : Timespec} (h : uid < 256 ^ 4 ∧ gid < 256 ^ 4 ∧ now.Fits) :
    (rootAttrs uid gid now).Fits :=
  ⟨zlt, zlt, h.1, h.2.1, h.2.2, h.2.2, h.2.2, by
    show S_IFDIR < _; decide⟩

theorem initDB_rel (pad : Ino → Nat) {b : B.DB} {d : DB} (h : DRel b d) {uid gid : Nat} {now : Timespec}
    (hf : uid < 256 ^ 4 ∧ gid < 256 ^ 4 ∧ now.Fits) : DRel (B.initDB pad b uid gid now) (initDB d uid gid now) := by
  unfold B.initDB initDB
  rw [h.next]
  cases hn : d.next with
  | some n => exact h
  | none =>
    refine ⟨rfl, ?_, h.inodes.put (ser_rel pad ROOT ⟨zlt, zlt, rootAttrs_fits hf⟩ _),
      h.treei, h.treen, h.orphans, h.links⟩
    intro n hm
    cases hm; decide

theorem WRel.init : WRel B.World.init World.init := ⟨rfl, DRel.empty, rfl, .nil⟩

/-- One call. -/
theorem step_rel (pad : Ino → Nat) {b : B.World} {w : World} (h : WRel b w) (c : Call) (hc : c.Fits) :
    MRel (fun x y => WRel x.1 y.1 ∧ x.2 = y.2) (b.step pad c) (w.step c) := by
  obtain ⟨bp, bd, br, bs⟩ := b
  obtain ⟨wp, wd, wr, ws⟩ := w
  obtain ⟨h1, h2, h3, h4⟩ := h
  simp only at h1 h2 h3 h4
  subst h1 h3
  have hnil : bs = [] ↔ ws = [] := by cases h4 <;> simp
  cases c with
  | crash => exact .ok ⟨⟨rfl, h2, rfl, .nil⟩, rfl⟩
  | openInit uid gid now =>
    simp only [B.World.step, World.step]
    by_cases hp : bp = .down
    · rw [if_pos hp, if_pos hp]; exact .ok ⟨⟨rfl, initDB_rel pad h2 hc, rfl, h4⟩, rfl⟩
    · rw [if_neg hp, if_neg hp]; exact .error _
  | openClean =>
    simp only [B.World.step, World.step]
    by_cases hp : bp = .inited
    · rw [if_pos hp, if_pos hp]
      unfold B.openCleanDB openCleanDB
      refine MRel.bind (R := fun x y => DRel x.1 y.1 ∧ x.2 = y.2) ?_ ?_
      · refine (cleanOrphans_rel pad h2 br).bind ?_
        rintro ⟨b1, r1⟩ ⟨d1, r2⟩ ⟨h, rfl⟩
        exact cleanOrphans_rel pad h r1
      · rintro ⟨b1, r1⟩ ⟨d1, r2⟩ ⟨h, rfl⟩
        exact .ok ⟨⟨rfl, h, rfl, h4⟩, rfl⟩
    · rw [if_neg hp, if_neg hp]; exact .error _
  | beginRO =>
    simp only [B.World.step, World.step, hnil]
    by_cases hp : bp = .up ∧ ws = []
    · rw [if_pos hp, if_pos hp]; exact .ok ⟨⟨rfl, h2, rfl, .cons ⟨h2, rfl, rfl, rfl⟩ .nil⟩, rfl⟩
    · rw [if_neg hp, if_neg hp]; exact .error _
  | beginRW =>
    simp only [B.World.step, World.step, hnil]
    by_cases hp : bp = .up ∧ ws = []
    · rw [if_pos hp, if_pos hp]; exact .ok ⟨⟨rfl, h2, rfl, .cons ⟨h2, rfl, rfl, rfl⟩ .nil⟩, rfl⟩
    · rw [if_neg hp, if_neg hp]; exact .error _
  | nested =>
    simp only [B.World.step, World.step]
    cases h4 with
    | nil => exact .error _
    | @cons f g l m hfg hl =>
      simp only
      rw [hfg.ro]
      by_cases hp : g.ro = true
      · rw [if_pos hp, if_pos hp]; exact .error _
      · rw [if_neg hp, if_neg hp]; exact .ok ⟨⟨rfl, h2, rfl, .cons ⟨hfg.db, rfl, rfl, rfl⟩ (.cons hfg hl)⟩, rfl⟩
  | op o =>
    simp only [B.World.step, World.step]
    cases h4 with
    | nil => exact .error _
    | @cons f g l m hfg hl =>
      simp only
      rw [hfg.ro]
      by_cases hp : (g.ro && !o.isRO) = true
      · rw [if_pos hp, if_pos hp]; exact .error _
      · rw [if_neg hp, if_neg hp]
        refine (doOp_rel pad (t := f.txn br) (u := g.txn br) ⟨hfg.db, rfl, hfg.rewrite, hfg.hooks⟩ o hc).bind ?_
        rintro ⟨t, x⟩ ⟨u, y⟩ ⟨ht, rfl⟩
        exact .ok ⟨⟨rfl, h2, ht.refs, .cons ⟨ht.db, ht.rewrite, ht.hooks, rfl⟩ hl⟩, rfl⟩
  | commit =>
    simp only [B.World.step, World.step]
    cases h4 with
    | nil => exact .error _
    | @cons f g l m hfg hl =>
      cases hl with
      | nil =>
        refine .ok ⟨⟨rfl, ?_, rfl, .nil⟩, rfl⟩
        simp only [hfg.ro]
        by_cases hp : g.ro = true
        · rw [if_pos hp, if_pos hp]; exact h2
        · rw [if_neg hp, if_neg hp]; exact hfg.db
      | @cons f' g' l m hfg' hl =>
        exact .ok ⟨⟨rfl, h2, rfl, .cons ⟨hfg.db, hfg'.rewrite, by simp only [hfg'.hooks, hfg.hooks], hfg'.ro⟩ hl⟩, rfl⟩
  | abort =>
    simp only [B.World.step, World.step]
    cases h4 with
    | nil => exact .error _
    | @cons f g l m hfg hl =>
      simp only
      rw [hfg.hooks]
      refine (MRel.refl _).bind ?_
      rintro r _ rfl
      exact .ok ⟨⟨rfl, h2, rfl, hl⟩, rfl⟩
  | drop =>
    simp only [B.World.step, World.step]
    cases h4 with
    | nil => exact .error _
    | @cons f g l m hfg hl => exact .ok ⟨⟨rfl, h2, rfl, hl⟩, rfl⟩

/-- A history. -/
theorem run_rel {b : B.World} {w : World} (h : WRel b w) (cs : List (Call × (Ino → Nat))) (hc : ∀ c ∈ cs, c.1.Fits) :
    MRel (fun x y => WRel x.1 y.1 ∧ x.2 = y.2) (b.run cs) (w.run (cs.map (·.1))) := by
  induction cs generalizing b w with
  | nil => exact .ok ⟨h, rfl⟩
  | cons c t ih =>
    unfold B.World.run World.run
    refine (step_rel c.2 h c.1 (hc c (List.mem_cons_self ..))).bind ?_
    rintro ⟨b1, o⟩ ⟨w1, o'⟩ ⟨h1, rfl⟩
    refine (ih h1 (fun c' h' => hc c' (List.mem_cons_of_mem _ h'))).bind ?_
    rintro ⟨b2, os⟩ ⟨w2, os'⟩ ⟨h2, rfl⟩
    exact .ok ⟨h2, rfl⟩

end Cache
end Dragonstash
