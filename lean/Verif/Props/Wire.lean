/-
  C65: the bytes of directory replies, as the kernel reads them.
-/
import Verif.FS.Wire
import Verif.Props.FSOrigin
import Verif.Props.FSDir
namespace Dragonstash.DirBuf
open Cache FS

/-! ### The buffers -/

theorem le_align8 (n : Nat) : n ≤ align8 n := by unfold align8; omega

theorem cstr_nonul (n : Bytes) : (0 : UInt8) ∉ cstr n := by
  unfold cstr
  intro h
  have : ∀ (n : Bytes) (x : UInt8), x ∈ n.takeWhile (· != 0) → (x != 0) = true := by
    intro n
    induction n with
    | nil => intro x hx; cases hx
    | cons y l ih =>
      intro x hx
      rw [List.takeWhile_cons] at hx
      split at hx
      · rename_i hy
        rcases List.mem_cons.mp hx with rfl | hx
        · exact hy
        · exact ih x hx
      · cases hx
  have := this n 0 h
  simp at this

theorem cstr_cstr (n : Bytes) : cstr (cstr n) = cstr n := cstr_eq (cstr_nonul n)

@[simp] theorem zeros_length (n : Nat) : (zeros n).length = n := by simp [zeros]

theorem dirent_length (name : Bytes) (st : OsStat) (off : Nat) : (dirent name st off).length = align8 (24 + (cstr name).length) := by
  have := le_align8 (24 + (cstr name).length)
  simp [dirent]; omega

theorem attrOut_length (st : OsStat) : (attrOut st).length = 88 := by simp [attrOut]

theorem entryOut_length (i : Ino) (st : OsStat) : (entryOut i st).length = 128 := by simp [entryOut, attrOut_length]

theorem align8_plus (n : Nat) : align8 (152 + n) = 128 + align8 (24 + n) := by unfold align8; omega

theorem direntplus_length (name : Bytes) (i : Ino) (st : OsStat) (off : Nat) :
    (direntplus name i st off).length = align8 (152 + (cstr name).length) := by
  simp [direntplus, entryOut_length, dirent_length, align8_plus]

theorem resize_more (b : Bytes) (n : Nat) : resize b (b.length + n) = b ++ zeros n := by
  unfold resize; rw [List.take_of_length_le (by omega)]; simp

/-- Adding an entry appends its bytes. -/
theorem add_eq (b name : Bytes) (st : OsStat) (off : Nat) : add b name st off = b ++ dirent name st off := by
  unfold add prepareAdd addDirentry
  simp only [resize_more]
  rw [if_neg (by simp)]
  simp

theorem addHere_eq (b name : Bytes) (st : OsStat) :
    addHere b name st = b ++ dirent name st (b.length + align8 (24 + (cstr name).length)) := by
  unfold addHere prepareAdd addDirentry
  simp only [resize_more]
  rw [if_neg (by simp)]
  simp

theorem addPlus_eq (b name : Bytes) (i : Ino) (st : OsStat) (off : Nat) : addPlus b name i st off = b ++ direntplus name i st off := by
  unfold addPlus prepareAddPlus executeAdd addDirentryPlus
  simp only [resize_more]
  rw [if_neg (by simp)]
  simp

theorem addPlusHere_eq (b name : Bytes) (i : Ino) (st : OsStat) :
    addPlusHere b name i st = b ++ direntplus name i st (b.length + align8 (152 + (cstr name).length)) := by
  unfold addPlusHere prepareAddPlus executeAdd addDirentryPlus
  simp only [resize_more]
  rw [if_neg (by simp)]
  simp

theorem rewind_eq (b c : Bytes) : rewind (b ++ c) b.length = b := by
  unfold rewind
  split
  · unfold resize; simp [zeros]
  · rename_i h
    have : c = [] := by
      cases c with
      | nil => rfl
      | cons x c => simp at h
    simp [this]

/-- The bytes of entries. -/
def bytes24 (l : List DEnt) : Bytes := (l.map (fun e => dirent e.name e.stat e.off)).flatten
def bytes152 (l : List DEnt) : Bytes := (l.map (fun e => direntplus e.name e.stat.ino e.stat e.off)).flatten

/-- Names without NUL, as C strings are. -/
def Plain (l : List DEnt) : Prop := ∀ e ∈ l, cstr e.name = e.name

theorem bytes24_length : ∀ {l : List DEnt}, Plain l → (bytes24 l).length = bufLen 24 l := by
  intro l
  induction l with
  | nil => intro _; rfl
  | cons e l ih =>
    intro h
    have := ih (fun x hx => h x (by simp [hx]))
    unfold bytes24 at this ⊢
    rw [List.map_cons, List.flatten_cons, List.length_append, this, bufLen_cons, dirent_length, h e (by simp)]
    rfl

theorem bytes152_length : ∀ {l : List DEnt}, Plain l → (bytes152 l).length = bufLen 152 l := by
  intro l
  induction l with
  | nil => intro _; rfl
  | cons e l ih =>
    intro h
    have := ih (fun x hx => h x (by simp [hx]))
    unfold bytes152 at this ⊢
    rw [List.map_cons, List.flatten_cons, List.length_append, this, bufLen_cons, direntplus_length, h e (by simp)]
    rfl

/-! ### The kernel reads them -/

/-- An entry, as the kernel takes it: inode number, offset, type and name. -/
def kent (e : DEnt) : KEnt := ⟨e.stat.ino, e.off, fmt e.stat.mode / 4096, e.name⟩

/-- Entries which the kernel accepts. -/
structure Accept (e : DEnt) : Prop where
  ino : e.stat.ino < 256 ^ 8
  off : e.off < 256 ^ 8
  long : e.name.length ≤ 1024
  name : e.name ≠ []
  nul : (0 : UInt8) ∉ e.name
  slash : (0x2f : UInt8) ∉ e.name

theorem fmt_lt (m : Nat) : fmt m / 4096 < 16 := by
  have : fmt m ≤ 0o170000 := Nat.and_le_right
  omega

theorem field_ino (a b : Bytes) (x : Nat) (hx : x < 256 ^ 8) (h : a = leEnc 8 x ++ b) : fieldAt a 0 8 = x := by
  rw [h]; exact fieldAt_enc hx

theorem dirent_fields {e : DEnt} (h : Accept e) (rest : Bytes) :
    fieldAt (dirent e.name e.stat e.off ++ rest) 16 4 = e.name.length ∧ readDirent (dirent e.name e.stat e.off ++ rest) = kent e := by
  have hn := cstr_eq h.nul
  have hl : e.name.length < 256 ^ 4 := by have := h.long; omega
  have ht : fmt e.stat.mode / 4096 < 256 ^ 4 := by have := fmt_lt e.stat.mode; omega
  have h16 : fieldAt (dirent e.name e.stat e.off ++ rest) 16 4 = e.name.length := by
    unfold dirent; rw [hn]
    have := fieldAt_at (a := leEnc 8 e.stat.ino ++ leEnc 8 e.off) (o := 16) (k := 4) (x := e.name.length)
      (b := leEnc 4 (fmt e.stat.mode / 4096) ++ (e.name ++ zeros (align8 (24 + e.name.length) - (24 + e.name.length))) ++ rest) (by simp) hl
    simpa [List.append_assoc] using this
  refine ⟨h16, ?_⟩
  unfold readDirent kent
  rw [h16]
  unfold dirent
  rw [hn]
  simp only [KEnt.mk.injEq]
  refine ⟨?_, ?_, ?_, ?_⟩
  · rw [List.append_assoc]; exact fieldAt_enc h.ino
  · have := fieldAt_at (a := leEnc 8 e.stat.ino) (o := 8) (k := 8) (x := e.off)
      (b := leEnc 4 e.name.length ++ (leEnc 4 (fmt e.stat.mode / 4096) ++ (e.name ++ zeros (align8 (24 + e.name.length) - (24 + e.name.length)))) ++ rest) (by simp) h.off
    simpa [List.append_assoc] using this
  · have := fieldAt_at (a := leEnc 8 e.stat.ino ++ (leEnc 8 e.off ++ leEnc 4 e.name.length)) (o := 20) (k := 4) (x := fmt e.stat.mode / 4096)
      (b := (e.name ++ zeros (align8 (24 + e.name.length) - (24 + e.name.length))) ++ rest) (by simp) ht
    simpa [List.append_assoc] using this
  · have : (leEnc 8 e.stat.ino ++ (leEnc 8 e.off ++ (leEnc 4 e.name.length ++ (leEnc 4 (fmt e.stat.mode / 4096) ++
        (e.name ++ zeros (align8 (24 + e.name.length) - (24 + e.name.length))))))) ++ rest =
        (leEnc 8 e.stat.ino ++ (leEnc 8 e.off ++ (leEnc 4 e.name.length ++ leEnc 4 (fmt e.stat.mode / 4096)))) ++
        (e.name ++ (zeros (align8 (24 + e.name.length) - (24 + e.name.length)) ++ rest)) := by simp
    rw [this, List.drop_left' (by simp), List.take_left' rfl]

theorem parse_bytes24 : ∀ (l : List DEnt) (f : Nat), (∀ e ∈ l, Accept e) → l.length < f → parse f (bytes24 l) = (l.map kent, .ok ()) := by
  intro l
  induction l with
  | nil =>
    intro f _ hf
    obtain ⟨f, rfl⟩ : ∃ g, f = g + 1 := ⟨f - 1, by simp at hf; omega⟩
    rfl
  | cons e l ih =>
    intro f h hf
    obtain ⟨f, rfl⟩ : ∃ g, f = g + 1 := ⟨f - 1, by simp at hf; omega⟩
    have he := h e (by simp)
    have hb : bytes24 (e :: l) = dirent e.name e.stat e.off ++ bytes24 l := rfl
    obtain ⟨h1, h2⟩ := dirent_fields he (bytes24 l)
    have hlen := dirent_length e.name e.stat e.off
    rw [cstr_eq he.nul] at hlen
    have h24 := le_align8 (24 + e.name.length)
    rw [hb]
    unfold parse
    rw [if_neg (by rw [List.length_append, hlen]; omega)]
    simp only [h1, h2]
    have hne : e.name.length ≠ 0 := by have := he.name; simpa [List.length_eq_zero_iff] using this
    rw [if_neg (by have := he.long; unfold nameMax; omega), if_neg (by rw [List.length_append, hlen]; omega),
      if_neg (show ¬ (0x2f : UInt8) ∈ (kent e).name from he.slash), List.drop_left' hlen,
      ih f (fun x hx => h x (by simp [hx])) (by simp at hf; omega)]
    rfl

theorem kernelReads_bytes24 (l : List DEnt) (h : ∀ e ∈ l, Accept e) : kernelReads (bytes24 l) = (l.map kent, .ok ()) := by
  refine parse_bytes24 l _ h ?_
  have : l.length ≤ (bytes24 l).length := by
    rw [bytes24_length (fun e he => cstr_eq (h e he).nul)]
    clear h
    induction l with
    | nil => simp
    | cons e l ih => have := entSize_pos (hdr := 24) (by decide) e; rw [bufLen_cons, List.length_cons]; omega
  omega

/-- The attributes, with the widths which the protocol has for them. -/
def wireStat (st : OsStat) : OsStat :=
  { ino := st.ino % 256 ^ 8, mode := st.mode % 256 ^ 4, nlink := st.nlink % 256 ^ 4, uid := st.uid % 256 ^ 4, gid := st.gid % 256 ^ 4,
    size := st.size % 256 ^ 8, blksize := st.blksize % 256 ^ 4, blocks := st.blocks % 256 ^ 8,
    atime := ⟨st.atime.sec % 256 ^ 8, st.atime.nsec % 256 ^ 4⟩, mtime := ⟨st.mtime.sec % 256 ^ 8, st.mtime.nsec % 256 ^ 4⟩,
    ctime := ⟨st.ctime.sec % 256 ^ 8, st.ctime.nsec % 256 ^ 4⟩ }

theorem leEnc_mod (k : Nat) : ∀ x, leEnc k (x % 256 ^ k) = leEnc k x := by
  induction k with
  | zero => intro x; rfl
  | succ k ih =>
    intro x
    unfold leEnc
    have h1 : UInt8.ofNat (x % 256 ^ (k + 1)) = UInt8.ofNat x := by
      apply UInt8.toNat.inj
      rw [UInt8.toNat_ofNat', UInt8.toNat_ofNat', Nat.mod_mod_of_dvd]
      exact ⟨256 ^ k, by rw [Nat.pow_succ]; omega⟩
    have h2 : x % 256 ^ (k + 1) / 256 = x / 256 % 256 ^ k := by
      rw [Nat.pow_succ, Nat.mul_comm (256 ^ k) 256, Nat.mod_mul_right_div_self]
    rw [h1, h2, ih]

theorem fieldAt_mod {a b : Bytes} {o k : Nat} (x : Nat) (ha : a.length = o) : fieldAt (a ++ (leEnc k x ++ b)) o k = x % 256 ^ k := by
  rw [← leEnc_mod]
  exact fieldAt_at ha (Nat.mod_lt _ (Nat.pow_pos (by decide)))

/-- A sequence of fields of the given widths. -/
def encF (fs : List (Nat × Nat)) : Bytes := (fs.map (fun p => leEnc p.1 p.2)).flatten

theorem encF_length (fs : List (Nat × Nat)) : (encF fs).length = (fs.map Prod.fst).sum := by
  induction fs with
  | nil => rfl
  | cons p fs ih => unfold encF at ih ⊢; rw [List.map_cons, List.flatten_cons, List.length_append, ih]; simp

theorem encF_at {fs : List (Nat × Nat)} {o k x : Nat} (rest : Bytes) (j : Nat) (h : fs[j]? = some (k, x)) (ho : ((fs.take j).map Prod.fst).sum = o) :
    fieldAt (encF fs ++ rest) o k = x % 256 ^ k := by
  obtain ⟨hj, hx⟩ := List.getElem?_eq_some_iff.mp h
  have : fs = fs.take j ++ (k, x) :: fs.drop (j + 1) := by
    rw [← hx, List.getElem_cons_drop, List.take_append_drop]
  have e : encF fs ++ rest = encF (fs.take j) ++ (leEnc k x ++ (encF (fs.drop (j + 1)) ++ rest)) := by
    conv => lhs; rw [this]
    unfold encF
    rw [List.map_append, List.flatten_append, List.map_cons, List.flatten_cons]
    simp only [List.append_assoc]
  rw [e]
  exact fieldAt_mod x (by rw [encF_length, ho])

/-- The fields of `struct fuse_entry_out`. -/
def entryFields (i : Ino) (st : OsStat) : List (Nat × Nat) :=
  [(8, i), (8, 0), (8, 1), (8, 1), (4, 0), (4, 0), (8, st.ino), (8, st.size), (8, st.blocks), (8, st.atime.sec), (8, st.mtime.sec), (8, st.ctime.sec),
    (4, st.atime.nsec), (4, st.mtime.nsec), (4, st.ctime.nsec), (4, st.mode), (4, st.nlink), (4, st.uid), (4, st.gid), (4, 0), (4, st.blksize), (4, 0)]

theorem entryOut_fields (i : Ino) (st : OsStat) : entryOut i st = encF (entryFields i st) := by
  simp [entryOut, attrOut, encF, entryFields]

theorem entryOut_read (i : Ino) (st : OsStat) (rest : Bytes) :
    fieldAt (entryOut i st ++ rest) 0 8 = i % 256 ^ 8 ∧ readAttr (entryOut i st ++ rest) 40 = wireStat st := by
  rw [entryOut_fields]
  have F : ∀ (j o k x : Nat), (entryFields i st)[j]? = some (k, x) → (((entryFields i st).take j).map Prod.fst).sum = o →
    fieldAt (encF (entryFields i st) ++ rest) o k = x % 256 ^ k := fun j o k x => encF_at rest j
  refine ⟨F 0 0 8 i rfl rfl, ?_⟩
  have f1 := F 6 40 8 st.ino rfl (by simp [entryFields])
  have f2 := F 7 48 8 st.size rfl (by simp [entryFields])
  have f3 := F 8 56 8 st.blocks rfl (by simp [entryFields])
  have f4 := F 9 64 8 st.atime.sec rfl (by simp [entryFields])
  have f5 := F 10 72 8 st.mtime.sec rfl (by simp [entryFields])
  have f6 := F 11 80 8 st.ctime.sec rfl (by simp [entryFields])
  have f7 := F 12 88 4 st.atime.nsec rfl (by simp [entryFields])
  have f8 := F 13 92 4 st.mtime.nsec rfl (by simp [entryFields])
  have f9 := F 14 96 4 st.ctime.nsec rfl (by simp [entryFields])
  have f10 := F 15 100 4 st.mode rfl (by simp [entryFields])
  have f11 := F 16 104 4 st.nlink rfl (by simp [entryFields])
  have f12 := F 17 108 4 st.uid rfl (by simp [entryFields])
  have f13 := F 18 112 4 st.gid rfl (by simp [entryFields])
  have f14 := F 20 120 4 st.blksize rfl (by simp [entryFields])
  unfold readAttr wireStat
  rw [f1, f2, f3, f4, f5, f6, f7, f8, f9, f10, f11, f12, f13, f14]

/-- An entry with attributes, as the kernel takes it: the inode whose lookup count it raises is the one
of the entry. -/
def kentPlus (e : DEnt) : KEntPlus := ⟨kent e, e.stat.ino, wireStat e.stat⟩

theorem parse_bytes152 : ∀ (l : List DEnt) (f : Nat), (∀ e ∈ l, Accept e) → l.length < f → parsePlus f (bytes152 l) = (l.map kentPlus, .ok ()) := by
  intro l
  induction l with
  | nil =>
    intro f _ hf
    obtain ⟨f, rfl⟩ : ∃ g, f = g + 1 := ⟨f - 1, by simp at hf; omega⟩
    rfl
  | cons e l ih =>
    intro f h hf
    obtain ⟨f, rfl⟩ : ∃ g, f = g + 1 := ⟨f - 1, by simp at hf; omega⟩
    have he := h e (by simp)
    have hb : bytes152 (e :: l) = entryOut e.stat.ino e.stat ++ (dirent e.name e.stat e.off ++ bytes152 l) := by
      rw [← List.append_assoc]; rfl
    obtain ⟨h1, h2⟩ := dirent_fields he (bytes152 l)
    obtain ⟨h3, h4⟩ := entryOut_read e.stat.ino e.stat (dirent e.name e.stat e.off ++ bytes152 l)
    have hlen := dirent_length e.name e.stat e.off
    rw [cstr_eq he.nul] at hlen
    have hlen2 := entryOut_length e.stat.ino e.stat
    have h5 : fieldAt (entryOut e.stat.ino e.stat ++ (dirent e.name e.stat e.off ++ bytes152 l)) 144 4 = e.name.length := by
      rw [← h1]; unfold fieldAt
      rw [show (144 : Nat) = 128 + 16 from rfl, ← List.drop_drop, List.drop_left' hlen2]
    have h24 := le_align8 (24 + e.name.length)
    have hal := align8_plus e.name.length
    have hL : (entryOut e.stat.ino e.stat ++ (dirent e.name e.stat e.off ++ bytes152 l)).length = 128 + (align8 (24 + e.name.length) + (bytes152 l).length) := by
      rw [List.length_append, List.length_append, hlen, hlen2]
    rw [hb]
    unfold parsePlus
    rw [if_neg (by rw [hL]; omega)]
    simp only [h5, h3, h4, List.drop_left' hlen2, h2]
    have hne : e.name.length ≠ 0 := by have := he.name; simpa [List.length_eq_zero_iff] using this
    rw [if_neg (by have := he.long; unfold nameMax; omega), if_neg (by rw [hL, hal]; omega),
      if_neg (show ¬ (0x2f : UInt8) ∈ (kent e).name from he.slash)]
    rw [hal, ← List.drop_drop, List.drop_left' hlen2, List.drop_left' hlen, ih f (fun x hx => h x (by simp [hx])) (by simp at hf; omega),
      Nat.mod_eq_of_lt he.ino]
    rfl

theorem kernelReads_bytes152 (l : List DEnt) (h : ∀ e ∈ l, Accept e) : kernelReadsPlus (bytes152 l) = (l.map kentPlus, .ok ()) := by
  refine parse_bytes152 l _ h ?_
  have : l.length ≤ (bytes152 l).length := by
    rw [bytes152_length (fun e he => cstr_eq (h e he).nul)]
    clear h
    induction l with
    | nil => simp
    | cons e l ih => have := entSize_pos (hdr := 152) (by decide) e; rw [bufLen_cons, List.length_cons]; omega
  omega

/-! ### The buffers as such -/

/-- Buffers which were filled by calls of `add` with or without an offset, and what was added (buffer.hpp 41-61). Without an
offset the entry gets as offset the size of the buffer behind it. -/
inductive Filled : Bytes → List DEnt → Prop
  | empty : Filled [] []
  | add {b l name st off} : Filled b l → Accept ⟨name, st, off⟩ → Filled (add b name st off) (l ++ [⟨name, st, off⟩])
  | addHere {b l name st} : Filled b l → Accept ⟨name, st, (addHere b name st).length⟩ →
      Filled (addHere b name st) (l ++ [⟨name, st, (addHere b name st).length⟩])

/-- The same for `DirBufferPlus` (buffer.hpp 64-98), which can also be rewound to a size which it had
before: then it holds what it held at that size. -/
inductive FilledPlus : Bytes → List DEnt → Prop
  | empty : FilledPlus [] []
  | add {b l name st off} : FilledPlus b l → Accept ⟨name, st, off⟩ → FilledPlus (addPlus b name st.ino st off) (l ++ [⟨name, st, off⟩])
  | addHere {b l name st} : FilledPlus b l → Accept ⟨name, st, (addPlusHere b name st.ino st).length⟩ →
      FilledPlus (addPlusHere b name st.ino st) (l ++ [⟨name, st, (addPlusHere b name st.ino st).length⟩])
  | rewind {b l b0 l0} : FilledPlus b (l0 ++ l) → FilledPlus b0 l0 → FilledPlus (rewind b b0.length) l0

theorem filled_bytes {b : Bytes} {l : List DEnt} (h : Filled b l) : b = bytes24 l ∧ ∀ e ∈ l, Accept e := by
  induction h with
  | empty => exact ⟨rfl, by simp⟩
  | @add b l name st off _ ha ih =>
    refine ⟨?_, fun e he => ?_⟩
    · rw [add_eq, ih.1]; unfold bytes24; simp
    · rcases List.mem_append.mp he with he | he
      · exact ih.2 e he
      · rw [List.mem_singleton.mp he]; exact ha
  | @addHere b l name st _ ha ih =>
    refine ⟨?_, fun e he => ?_⟩
    · have : addHere b name st = b ++ dirent name st (addHere b name st).length := by
        rw [addHere_eq]; simp [dirent_length]
      generalize (addHere b name st).length = n at this ⊢
      rw [this, ih.1]; unfold bytes24; simp
    · rcases List.mem_append.mp he with he | he
      · exact ih.2 e he
      · rw [List.mem_singleton.mp he]; exact ha

theorem filledPlus_bytes {b : Bytes} {l : List DEnt} (h : FilledPlus b l) : b = bytes152 l ∧ ∀ e ∈ l, Accept e := by
  induction h with
  | empty => exact ⟨rfl, by simp⟩
  | @add b l name st off _ ha ih =>
    refine ⟨?_, fun e he => ?_⟩
    · rw [addPlus_eq, ih.1]; unfold bytes152; simp
    · rcases List.mem_append.mp he with he | he
      · exact ih.2 e he
      · rw [List.mem_singleton.mp he]; exact ha
  | @addHere b l name st _ ha ih =>
    refine ⟨?_, fun e he => ?_⟩
    · have : addPlusHere b name st.ino st = b ++ direntplus name st.ino st (addPlusHere b name st.ino st).length := by
        rw [addPlusHere_eq]; simp [direntplus_length]
      generalize (addPlusHere b name st.ino st).length = n at this ⊢
      rw [this, ih.1]; unfold bytes152; simp
    · rcases List.mem_append.mp he with he | he
      · exact ih.2 e he
      · rw [List.mem_singleton.mp he]; exact ha
  | @rewind b l b0 l0 _ _ ih1 ih2 =>
    refine ⟨?_, ih2.2⟩
    have : bytes152 (l0 ++ l) = bytes152 l0 ++ bytes152 l := by unfold bytes152; simp
    rw [ih1.1, ih2.1, this, rewind_eq]

/-- C65: whatever is added to a buffer, in any order, with or without offsets: the kernel reads exactly
these entries. -/
theorem C65_buffer {b : Bytes} {l : List DEnt} (h : Filled b l) : kernelReads b = (l.map (fun e => ⟨e.stat.ino, e.off, fmt e.stat.mode / 4096, e.name⟩), .ok ()) := by
  obtain ⟨rfl, h2⟩ := filled_bytes h
  exact kernelReads_bytes24 l h2

/-- C65: the same for buffers with attributes, which may also be rewound. -/
theorem C65_buffer_plus {b : Bytes} {l : List DEnt} (h : FilledPlus b l) :
    kernelReadsPlus b = (l.map (fun e => ⟨⟨e.stat.ino, e.off, fmt e.stat.mode / 4096, e.name⟩, e.stat.ino, wireStat e.stat⟩), .ok ()) := by
  obtain ⟨rfl, h2⟩ := filledPlus_bytes h
  exact kernelReads_bytes152 l h2

/-- Two entries, the second one without an offset: it gets 64.
(For `C65_buffer`.) -/
example : Filled (addHere (add [] [0x61] noStat 7) [0x62, 0x63] noStat) ([] ++ [⟨[0x61], noStat, 7⟩] ++ [⟨[0x62, 0x63], noStat, 64⟩]) :=
  .addHere (.add .empty ⟨by decide, by decide, by decide, by decide, by decide, by decide⟩)
    ⟨by decide, by decide +kernel, by decide, by decide, by decide, by decide⟩

/-- An entry is added and taken back.
(For `C65_buffer_plus`.) -/
example : FilledPlus (rewind (addPlus (addPlus [] [0x61] 0 noStat 7) [0x62] 0 noStat 8) (addPlus [] [0x61] 0 noStat 7).length) ([] ++ [⟨[0x61], noStat, 7⟩]) := by
  have h1 : FilledPlus (addPlus [] [0x61] 0 noStat 7) ([] ++ [⟨[0x61], noStat, 7⟩]) :=
    .add (st := noStat) .empty ⟨by decide, by decide, by decide, by decide, by decide, by decide⟩
  exact .rewind (.add (st := noStat) h1 ⟨by decide, by decide, by decide, by decide, by decide, by decide⟩) h1

end Dragonstash.DirBuf

namespace Dragonstash.FS
open Cache DirBuf
variable {y y' : Sys} {B : Backend}

/-! ### The loops -/

theorem bytes24_snoc (l : List DEnt) (e : DEnt) : bytes24 (l ++ [e]) = bytes24 l ++ dirent e.name e.stat e.off := by
  unfold bytes24; simp

theorem bytes152_snoc (l : List DEnt) (e : DEnt) : bytes152 (l ++ [e]) = bytes152 l ++ direntplus e.name e.stat.ino e.stat e.off := by
  unfold bytes152; simp

theorem dirent_cstr (n : Bytes) (st : OsStat) (off : Nat) : dirent (cstr n) st off = dirent n st off := by
  unfold dirent; rw [cstr_cstr]

theorem Plain.snoc {l : List DEnt} (h : Plain l) (i : Ino) (n : Bytes) (a : Attrs) : Plain (l ++ [mkDEnt i n a]) := by
  intro e he
  rcases List.mem_append.mp he with he | he
  · exact h e he
  · rw [List.mem_singleton] at he; subst he; exact cstr_cstr n

theorem add_mk (l : List DEnt) (i : Ino) (n : Bytes) (a : Attrs) : add (bytes24 l) n (osStat i a) i = bytes24 (l ++ [mkDEnt i n a]) := by
  rw [add_eq, bytes24_snoc, mkDEnt, dirent_cstr]

theorem addPlus_mk (l : List DEnt) (i : Ino) (n : Bytes) (a : Attrs) : addPlus (bytes152 l) n i (osStat i a) i = bytes152 (l ++ [mkDEnt i n a]) := by
  rw [addPlus_eq, bytes152_snoc]
  show _ = bytes152 l ++ direntplus (cstr n) i (osStat i a) i
  unfold direntplus; rw [dirent_cstr]

/-- Where the loops stop: the bytes to be sent are those of the first entries. -/
def Cut (hdr : Nat) (bytes : List DEnt → Bytes) (pg : Page) (b : PageB) : Prop :=
  b = ⟨bytes pg.buf, pg.toSend, pg.error, pg.atEof⟩ ∧ Plain pg.buf ∧ ∃ P Q, pg.buf = P ++ Q ∧ pg.toSend = bufLen hdr P

theorem readdirLoopB_eq {d : DB} {dir : Ino} {size : Nat} : ∀ (f : Nat) (c : Ino) (buf : List DEnt) (ts : Nat) {pg : Page}, Plain buf →
    (∃ P Q, buf = P ++ Q ∧ ts = bufLen 24 P) → readdirLoop d dir size f c buf ts = .ok pg →
    ∃ b, readdirLoopB d dir size f c (bytes24 buf) ts = .ok b ∧ Cut 24 bytes24 pg b := by
  intro f
  induction f with
  | zero => intro c buf ts pg _ _ h; cases h
  | succ f ih =>
    intro c buf ts pg hp hc h
    unfold readdirLoop at h
    unfold readdirLoopB
    rw [bytes24_length hp]
    by_cases hs : bufLen 24 buf < size
    · rw [if_pos hs] at h ⊢
      cases hr : Cache.readdir d dir c with
      | error e => rw [hr] at h; cases h
      | ok res =>
        rw [hr] at h
        simp only [bind_ok] at h ⊢
        cases res with
        | error e =>
          cases h
          exact ⟨_, rfl, rfl, hp, buf, [], by simp, rfl⟩
        | ok x =>
          obtain ⟨i, n⟩ := x
          simp only at h ⊢
          cases hg : Cache.getattr d i with
          | error e =>
            rw [hg] at h; cases h
            exact ⟨_, rfl, rfl, hp, buf, [], by simp, rfl⟩
          | ok z =>
            obtain ⟨j, a⟩ := z
            rw [hg] at h
            simp only at h ⊢
            rw [add_mk]
            exact ih i _ _ (Plain.snoc hp i n a) ⟨buf, _, rfl, rfl⟩ h
    · rw [if_neg hs] at h ⊢
      cases h
      exact ⟨_, rfl, rfl, hp, hc⟩

/-- The replies of `readdir` with bytes. -/
def bytesOf : Reply → List ReplyB
  | .err e => [.err e]
  | .buf l _ => [.buf (bytes24 l)]
  | .bufPlus l _ => [.buf (bytes152 l)]
  | _ => []

theorem take_cut {hdr : Nat} (hh : 0 < hdr) {bytes : List DEnt → Bytes} (happ : ∀ a b, bytes (a ++ b) = bytes a ++ bytes b)
    (hlen : ∀ {l}, Plain l → (bytes l).length = bufLen hdr l) {pg : Page} {b : PageB} (h : Cut hdr bytes pg b) :
    b.buf.take b.toSend = bytes (takeBytes hdr pg.toSend pg.buf) ∧ bufLen hdr (takeBytes hdr pg.toSend pg.buf) = pg.toSend ∧ Plain (takeBytes hdr pg.toSend pg.buf) := by
  obtain ⟨rfl, hp, P, Q, h1, h2⟩ := h
  simp only
  have hP : Plain P := fun e he => hp e (by rw [h1]; simp [he])
  rw [h2, h1, takeBytes_exact hh]
  exact ⟨by rw [happ, List.take_left' (hlen hP)], rfl, hP⟩

theorem bytes24_append (a b : List DEnt) : bytes24 (a ++ b) = bytes24 a ++ bytes24 b := by unfold bytes24; simp
theorem bytes152_append (a b : List DEnt) : bytes152 (a ++ b) = bytes152 a ++ bytes152 b := by unfold bytes152; simp

theorem plusLoopB_eq {dir : Ino} {size : Nat} : ∀ (f : Nat) (t : Txn) (c : Ino) (buf : List DEnt) (ts : Nat) {res : Txn × Page ⊕ Txn}, Plain buf →
    (∃ P Q, buf = P ++ Q ∧ ts = bufLen 152 P) → plusLoop t dir size f c buf ts = .ok res →
    (∃ t' pg b, res = .inl (t', pg) ∧ plusLoopB t dir size f c (bytes152 buf) ts = .ok (.inl (t', b)) ∧ Cut 152 bytes152 pg b) ∨
    (∃ t', res = .inr t' ∧ plusLoopB t dir size f c (bytes152 buf) ts = .ok (.inr t')) := by
  intro f
  induction f with
  | zero => intro t c buf ts res _ _ h; cases h
  | succ f ih =>
    intro t c buf ts res hp hc h
    unfold plusLoop at h
    unfold plusLoopB
    rw [bytes152_length hp]
    by_cases hs : bufLen 152 buf < size
    · rw [if_pos hs] at h ⊢
      cases hr : Cache.readdir t.db dir c with
      | error e => rw [hr] at h; cases h
      | ok res' =>
        rw [hr] at h
        simp only [bind_ok] at h ⊢
        cases res' with
        | error e =>
          cases h
          exact .inl ⟨t, _, _, rfl, rfl, rfl, hp, buf, [], by simp, rfl⟩
        | ok x =>
          obtain ⟨i, n⟩ := x
          simp only at h ⊢
          cases hg : Cache.getattr t.db i with
          | error e =>
            rw [hg] at h; cases h
            exact .inl ⟨t, _, _, rfl, rfl, rfl, hp, buf, [], by simp, rfl⟩
          | ok z =>
            obtain ⟨j, a⟩ := z
            rw [hg] at h
            simp only at h ⊢
            rw [addPlus_mk]
            by_cases hd : isDot n = true
            · rw [if_pos hd] at h ⊢
              exact ih t i _ _ (Plain.snoc hp i n a) ⟨buf, _, rfl, rfl⟩ h
            · rw [if_neg hd] at h ⊢
              cases hk : lock t i with
              | mk t1 lr =>
                rw [hk] at h
                cases lr with
                | ok _ =>
                  simp only at h ⊢
                  exact ih t1 i _ _ (Plain.snoc hp i n a) ⟨buf, _, rfl, rfl⟩ h
                | error e =>
                  simp only at h ⊢
                  by_cases he : e = ESTALE
                  · rw [if_pos he] at h ⊢
                    rw [bytes152_snoc, ← bytes152_length hp, rewind_eq, bytes152_length hp]
                    exact ih t1 i buf _ hp ⟨buf, [], by simp, rfl⟩ h
                  · rw [if_neg he] at h ⊢
                    cases h
                    exact .inr ⟨t1, rfl, rfl⟩
    · rw [if_neg hs] at h ⊢
      cases h
      exact .inl ⟨t, _, _, rfl, rfl, rfl, hp, hc⟩

/-! ### C65 -/

theorem readdirB_eq {dir : Ino} {size off : Nat} {rep : Reply} (ha : Answered y B (.readdir dir size off) rep y') :
    (∃ e, rep = .err e ∧ readdirB y.disk dir size off = .ok [.err e]) ∨
    (∃ l, rep = .buf l (bufLen 24 l) ∧ Plain l ∧ readdirB y.disk dir size off = .ok [.buf (bytes24 l)]) := by
  obtain ⟨st, h1, h2, h3, -⟩ := ha
  unfold dispatch at h1
  simp only [handle] at h1
  cases hr : readdir { disk := y.disk, refs := y.refs } dir size off with
  | error e => rw [hr] at h1; cases h1
  | ok st1 =>
    rw [hr] at h1
    simp only [bind_ok] at h1
    cases h1
    unfold readdir at hr
    cases hl : readdirLoop y.disk dir size (y.disk.treei.size + 4) off [] 0 with
    | error e => simp only [hl, bind_err] at hr; cases hr
    | ok pg =>
      simp only [hl, bind_ok] at hr
      obtain ⟨b, g1, g2⟩ := readdirLoopB_eq _ off [] 0 (fun e he => by cases he) ⟨[], [], rfl, rfl⟩ hl
      have hcut := take_cut (by decide) bytes24_append (fun h => bytes24_length h) g2
      obtain ⟨rfl, hp, -⟩ := g2
      unfold readdirB
      rw [show ([] : Bytes) = bytes24 [] from rfl, g1]
      simp only [bind_ok, bytes24_length hp] at hcut ⊢
      by_cases he : pg.error = 0
      · simp only [he, ne_eq, not_true, if_false] at hr ⊢
        by_cases hc : pg.atEof = true ∧ bufLen 24 pg.buf = 0 ∧ testFlag y.disk dir SYNCED ≠ .ok true
        · rw [if_pos hc] at hr ⊢
          cases hr
          simp [St.reply, St.finish] at h3
          exact .inl ⟨EIO, h3.symm, rfl⟩
        · rw [if_neg hc] at hr ⊢
          cases hr
          simp [St.reply, St.finish] at h3
          refine .inr ⟨takeBytes 24 pg.toSend pg.buf, ?_, hcut.2.2, ?_⟩
          · rw [hcut.2.1]; exact h3.symm
          · rw [hcut.1]; rfl
      · exfalso
        rw [if_pos he] at hr
        have hf : st1.fault ≠ none := by
          split at hr <;> (cases hr; simp [St.reply])
        have : st1.finish.fault ≠ none := by
          unfold St.finish
          split
          · unfold St.reply
            cases hx : st1.fault with
            | none => exact absurd hx hf
            | some v => simp [hx]
          · exact hf
        exact this h2

theorem readdirplusB_eq {dir : Ino} {size off : Nat} {rep : Reply} (ha : Answered y B (.readdirplus dir size off) rep y') :
    (∃ e, rep = .err e ∧ readdirplusB { db := y.disk, refs := y.refs } dir size off = .ok (.err e)) ∨
    (∃ l, rep = .bufPlus l (bufLen 152 l) ∧ Plain l ∧ readdirplusB { db := y.disk, refs := y.refs } dir size off = .ok (.buf (bytes152 l))) := by
  obtain ⟨st, h1, h2, h3, -⟩ := ha
  unfold dispatch at h1
  simp only [handle] at h1
  cases hr : readdirplus { disk := y.disk, refs := y.refs } dir size off with
  | error e => rw [hr] at h1; cases h1
  | ok st1 =>
    rw [hr] at h1
    simp only [bind_ok] at h1
    cases h1
    unfold readdirplus at hr
    cases hl : plusLoop { db := y.disk, refs := y.refs } dir size (y.disk.treei.size + 4) off [] 0 with
    | error e =>
      have : plusLoop (St.txn { disk := y.disk, refs := y.refs }) dir size (y.disk.treei.size + 4) off [] 0 = .error e := hl
      rw [this] at hr; cases hr
    | ok res =>
      have hl' : plusLoop (St.txn { disk := y.disk, refs := y.refs }) dir size (y.disk.treei.size + 4) off [] 0 = .ok res := hl
      rw [hl'] at hr
      simp only [bind_ok] at hr
      rcases plusLoopB_eq _ _ off [] 0 (fun e he => by cases he) ⟨[], [], rfl, rfl⟩ hl with ⟨t', pg, b, rfl, g1, g2⟩ | ⟨t', rfl, g1⟩
      · have hcut := take_cut (by decide) bytes152_append (fun h => bytes152_length h) g2
        obtain ⟨rfl, hp, -⟩ := g2
        unfold readdirplusB
        rw [show ([] : Bytes) = bytes152 [] from rfl, g1]
        simp only [bind_ok] at hcut hr ⊢
        by_cases he : pg.error = 0
        · rw [if_neg (by simp [he])] at hr ⊢
          cases hr
          simp [St.reply, St.finish, St.drop] at h3
          refine .inr ⟨takeBytes 152 pg.toSend pg.buf, ?_, hcut.2.2, ?_⟩
          · rw [hcut.2.1]; exact h3.symm
          · rw [hcut.1]; rfl
        · rw [if_pos he] at hr ⊢
          cases hr
          simp [St.reply, St.finish, St.drop] at h3
          exact .inl ⟨_, h3.symm, rfl⟩
      · unfold readdirplusB
        rw [show ([] : Bytes) = bytes152 [] from rfl, g1]
        simp only [bind_ok] at hr ⊢
        cases hr
        simp [St.reply, St.finish, St.drop] at h3
        exact .inl ⟨EIO, h3.symm, rfl⟩

/-- What is in the stream of a directory. -/
theorem Stream.wire {s : Tree} {d : DB} {r : Refs} (h : SI s d r) {dir c : Ino} {l e b} (hd : dir < W64) (hs : Stream d dir c l e b) :
    ∀ x ∈ l, x.1 < W64 ∧ EntName x.2.1 ∧ Cache.getattr d x.1 = .ok (x.1, x.2.2) ∧
      (x.2.1 = [0x2e] ∧ x.1 = dir ∨ x.2.1 = [0x2e, 0x2e] ∧ Cache.parent d dir = .ok x.1 ∨ Cache.lookup d dir x.2.1 = .ok (.ok x.1)) := by
  induction hs with
  | stop => intro x hx; cases hx
  | noattr => intro x hx; cases hx
  | @entry c i n j a l e b h1 h2 _ ih =>
    intro x hx
    rcases List.mem_cons.mp hx with rfl | hx
    · have hga : ∀ {i'}, i' = i → Cache.getattr d i' = .ok (i', a) := by
        rintro i' rfl
        have := h2
        unfold Cache.getattr at this ⊢
        split at this
        · cases this
        · cases this; rfl
      by_cases hc0 : c = 0
      · subst hc0; rw [readdir_dot] at h1; cases h1
        exact ⟨hd, (show EntName [0x2e] from ⟨by decide, by decide, by decide⟩), hga rfl, .inl ⟨rfl, rfl⟩⟩
      · cases hp : Cache.parent d dir with
        | error e => unfold Cache.readdir at h1; rw [if_neg hc0, hp] at h1; cases h1
        | ok p =>
          by_cases hc : c ≠ p ∧ c = dir
          · unfold Cache.readdir at h1; rw [if_neg hc0, hp] at h1; simp only [if_pos hc] at h1; cases h1
            refine ⟨?_, (show EntName [0x2e, 0x2e] from ⟨by decide, by decide, by decide⟩), hga rfl, .inr (.inl ⟨rfl, rfl⟩)⟩
            cases hn : s.nodes dir with
            | some nd =>
              obtain ⟨p', g1, g2, -⟩ := parent_facts h hn
              rw [hp] at g1; cases g1; exact g2
            | none =>
              have := h.rep.parent h.ok hd
              rw [hp] at this
              split at this
              · cases this; exact (show (ROOT : Nat) < W64 by decide)
              · rw [hn] at this; cases this
          · rcases readdir_step h hd hp hc0 hc with h3 | ⟨z, hz, h3⟩
            · rw [h1] at h3; cases h3
            · rw [h1] at h3; cases h3
              obtain ⟨nd, h4, h5⟩ := kids_info h hd hz
              exact ⟨OK.lt h.ok h4, h5, hga rfl, .inr (.inr ((h.rep.lookup_iff h.ok hd).mpr ((h.rep.mem_kids h.ok hd).mp hz)))⟩
    · exact ih x hx

/-- What entry `e` of a reply says is what the cache says: it is `.`, `..` or an entry of the directory, and its
attributes are those of its inode. -/
structure TrueEntry (d : DB) (dir : Ino) (e : DEnt) : Prop where
  place : e.name = [0x2e] ∧ e.stat.ino = dir ∨ e.name = [0x2e, 0x2e] ∧ Cache.parent d dir = .ok e.stat.ino ∨ Cache.lookup d dir e.name = .ok (.ok e.stat.ino)
  attr : ∃ a, Cache.getattr d e.stat.ino = .ok (e.stat.ino, a) ∧ e.stat = osStat e.stat.ino a
  off : e.off = e.stat.ino
  range : e.stat.ino < W64
  name : EntName e.name

theorem stream_true {s : Tree} {d : DB} {r : Refs} (h : SI s d r) {dir c : Ino} {l e b} (hd : dir < W64) (hs : Stream d dir c l e b) {x : DEnt}
    (hx : x ∈ l.map Ent.dent) : TrueEntry d dir x := by
  obtain ⟨z, hz, rfl⟩ := List.mem_map.mp hx
  obtain ⟨i, m, a⟩ := z
  obtain ⟨g1, g2, g3, g4⟩ := hs.wire h hd _ hz
  have hn : cstr m = m := cstr_eq g2.2.1
  refine ⟨?_, ⟨a, g3, rfl⟩, rfl, g1, ?_⟩
  · show cstr m = _ ∧ _ ∨ cstr m = _ ∧ _ ∨ Cache.lookup d dir (cstr m) = _
    rw [hn]; exact g4
  · show EntName (cstr m)
    rw [hn]; exact g2

theorem reply_true (hl : Live y) {dir : Ino} {size off : Nat} {rq : Req} (hrq : rq = .readdir dir size off ∨ rq = .readdirplus dir size off)
    (hv : Valid y B rq) {l : List DEnt} {n : Nat} {rep : Reply} (hrep : rep = .buf l n ∨ rep = .bufPlus l n)
    (ha : Answered y B rq rep y') {e : DEnt} (he : e ∈ l) : TrueEntry y.disk dir e := by
  obtain ⟨s, k1, k2⟩ := live_inv hl
  obtain ⟨s', k3, k4⟩ := ha.abs k1 hl hv
  have hd : dir < W64 := by rcases hrq with rfl | rfl <;> exact hv.1.1
  generalize y'.refs = r' at k4
  rcases hrq with rfl | rfl
  · generalize hy : rep = rep0 at k4
    cases k4 with
    | @rdEof _ _ _ L hs =>
      split at hy
      · subst hy; rcases hrep with h | h <;> cases h
      · subst hy; rcases hrep with h | h <;> cases h
        exact stream_true k1 hd hs (fitFrom_mem he)
    | @rdPart _ _ _ L _ _ hs =>
      subst hy; rcases hrep with h | h <;> cases h
      exact stream_true k1 hd hs (fitFrom_mem he)
  · generalize hy : rep = rep0 at k4
    cases k4 with
    | @plAll _ _ _ L _ _ hs _ _ _ =>
      split at hy
      · subst hy; rcases hrep with h | h <;> cases h
      · subst hy; rcases hrep with h | h <;> cases h
        exact stream_true k1 hd hs he
    | plZero => subst hy; rcases hrep with h | h <;> cases h; cases he
    | plPart hs =>
      subst hy; rcases hrep with h | h <;> cases h
      refine stream_true k1 hd hs ?_
      rw [List.map_append]; exact List.mem_append_left _ he

theorem TrueEntry.accept {d : DB} {dir : Ino} {e : DEnt} (h : TrueEntry d dir e) (hn : e.name ≠ []) : Accept e :=
  ⟨by have := h.range; omega, by have := h.range; have := h.off; omega, by have := h.name.1; omega, hn, h.name.2.1, h.name.2.2⟩

/-- What the kernel takes from a reply to `readdir` in a state with database `d`: every entry is `.`, `..` or an entry
of the directory, with the inode number which `lookup` gives for it, the type of that inode, and that number as
the offset where to go on. -/
def Faithful (d : DB) (dir : Ino) (x : KEnt) : Prop :=
  (x.name = [0x2e] ∧ x.ino = dir ∨ x.name = [0x2e, 0x2e] ∧ Cache.parent d dir = .ok x.ino ∨ Cache.lookup d dir x.name = .ok (.ok x.ino)) ∧
    (∃ j a, Cache.getattr d x.ino = .ok (j, a) ∧ x.type = fmt a.mode / 4096) ∧ x.off = x.ino

theorem TrueEntry.faithful {d : DB} {dir : Ino} {e : DEnt} (h : TrueEntry d dir e) : Faithful d dir (kent e) := by
  obtain ⟨a, g1, g2⟩ := h.attr
  refine ⟨h.place, ⟨_, a, g1, ?_⟩, h.off⟩
  show fmt e.stat.mode / 4096 = _
  rw [g2]; rfl

/-- The bytes of a reply to `readdir` are as many as the reply says, and the kernel reads from them, without an error, the entries
of the page, unless there is one without a name among them. -/
theorem C65_readdir (hl : Live y) {dir : Ino} {size off : Nat} (hv : Valid y B (.readdir dir size off)) {l : List DEnt} {n : Nat}
    (ha : Answered y B (.readdir dir size off) (.buf l n) y') :
    ∃ b, readdirB y.disk dir size off = .ok [.buf b] ∧ b.length = n ∧
      ((∀ e ∈ l, e.name ≠ []) → kernelReads b = (l.map (fun e => ⟨e.stat.ino, e.off, fmt e.stat.mode / 4096, e.name⟩), .ok ()) ∧
        ∀ x ∈ (kernelReads b).1, Faithful y.disk dir x) := by
  have ht : ∀ e ∈ l, TrueEntry y.disk dir e := fun e he => reply_true hl (.inl rfl) hv (.inl rfl) ha he
  rcases readdirB_eq ha with ⟨e, h, -⟩ | ⟨l', h, hp, h2⟩
  · cases h
  · cases h
    refine ⟨_, h2, bytes24_length hp, fun hn => ?_⟩
    have := kernelReads_bytes24 l (fun e he => (ht e he).accept (hn e he))
    refine ⟨this, fun x hx => ?_⟩
    rw [this] at hx
    obtain ⟨e, he, rfl⟩ := List.mem_map.mp hx
    exact (ht e he).faithful

/-- The same for `readdirplus`. The inode whose lookup count the kernel raises is the one of the entry, and the attributes
are those of that inode, as far as they fit the fields of the protocol. -/
theorem C65_readdirplus (hl : Live y) {dir : Ino} {size off : Nat} (hv : Valid y B (.readdirplus dir size off)) {l : List DEnt} {n : Nat}
    (ha : Answered y B (.readdirplus dir size off) (.bufPlus l n) y') :
    ∃ b, readdirplusB { db := y.disk, refs := y.refs } dir size off = .ok (.buf b) ∧ b.length = n ∧
      ((∀ e ∈ l, e.name ≠ []) → kernelReadsPlus b =
          (l.map (fun e => ⟨⟨e.stat.ino, e.off, fmt e.stat.mode / 4096, e.name⟩, e.stat.ino, wireStat e.stat⟩), .ok ()) ∧
        ∀ x ∈ (kernelReadsPlus b).1, Faithful y.disk dir x.ent ∧ x.node = x.ent.ino ∧
          ∃ a, Cache.getattr y.disk x.node = .ok (x.node, a) ∧ x.attr = wireStat (osStat x.node a)) := by
  have ht : ∀ e ∈ l, TrueEntry y.disk dir e := fun e he => reply_true hl (.inr rfl) hv (.inr rfl) ha he
  rcases readdirplusB_eq ha with ⟨e, h, -⟩ | ⟨l', h, hp, h2⟩
  · cases h
  · cases h
    refine ⟨_, h2, bytes152_length hp, fun hn => ?_⟩
    have := kernelReads_bytes152 l (fun e he => (ht e he).accept (hn e he))
    refine ⟨this, fun x hx => ?_⟩
    rw [this] at hx
    obtain ⟨e, he, rfl⟩ := List.mem_map.mp hx
    refine ⟨(ht e he).faithful, rfl, ?_⟩
    obtain ⟨a, g1, g2⟩ := (ht e he).attr
    refine ⟨a, g1, ?_⟩
    show wireStat e.stat = _
    rw [g2]; rfl

/-- Attributes whose fields have the width of the protocol's arrive as they are. -/
theorem C65_attributes {i : Ino} {a : Attrs} (hi : i < W64) (ha : a.Fits) (h1 : a.atime.nsec < 256 ^ 4) (h2 : a.mtime.nsec < 256 ^ 4) (h3 : a.ctime.nsec < 256 ^ 4) :
    wireStat (osStat i a) = osStat i a := by
  obtain ⟨g1, g2, g3, g4, ⟨g5, -⟩, ⟨g6, -⟩, ⟨g7, -⟩, g8⟩ := ha
  unfold wireStat osStat
  simp only [OsStat.mk.injEq, -Nat.reducePow]
  rw [Nat.mod_eq_of_lt (show i < 256 ^ 8 by omega), Nat.mod_eq_of_lt g1, Nat.mod_eq_of_lt g2, Nat.mod_eq_of_lt g3, Nat.mod_eq_of_lt g4, Nat.mod_eq_of_lt g5,
    Nat.mod_eq_of_lt g6, Nat.mod_eq_of_lt g7, Nat.mod_eq_of_lt g8, Nat.mod_eq_of_lt h1, Nat.mod_eq_of_lt h2, Nat.mod_eq_of_lt h3]
  exact ⟨rfl, rfl, by decide, rfl, rfl, rfl, by decide, rfl, rfl, rfl, rfl⟩

/-- Requests which the model of the filesystem answers by an error are answered by the same error here. -/
theorem C65_errors {dir : Ino} {size off : Nat} {e : Errno} :
    (Answered y B (.readdir dir size off) (.err e) y' → readdirB y.disk dir size off = .ok [.err e]) ∧
    (Answered y B (.readdirplus dir size off) (.err e) y' → readdirplusB { db := y.disk, refs := y.refs } dir size off = .ok (.err e)) := by
  constructor
  · intro ha
    rcases readdirB_eq ha with ⟨e', h, h2⟩ | ⟨l', h, -⟩
    · cases h; exact h2
    · cases h
  · intro ha
    rcases readdirplusB_eq ha with ⟨e', h, h2⟩ | ⟨l', h, -⟩
    · cases h; exact h2
    · cases h

/-- With an entry without a name the kernel takes the entries before it, and reports an error. -/
theorem C65_no_name (P Q : List DEnt) (e : DEnt) (hP : ∀ x ∈ P, Accept x) (he : e.name = []) :
    kernelReads (bytes24 (P ++ e :: Q)) = (P.map kent, .error EIO) := by
  have key : ∀ (P : List DEnt) (f : Nat), (∀ x ∈ P, Accept x) → P.length < f → parse f (bytes24 (P ++ e :: Q)) = (P.map kent, .error EIO) := by
    intro P
    induction P with
    | nil =>
      intro f _ hf
      obtain ⟨f, rfl⟩ : ∃ g, f = g + 1 := ⟨f - 1, by simp at hf; omega⟩
      have hb : bytes24 ([] ++ e :: Q) = dirent e.name e.stat e.off ++ bytes24 Q := rfl
      rw [hb, he]
      unfold parse
      have h0 : cstr [] = [] := rfl
      have hlen := dirent_length [] e.stat e.off
      rw [h0] at hlen
      rw [if_neg (by rw [List.length_append, hlen]; unfold align8; simp)]
      have h16 : fieldAt (dirent [] e.stat e.off ++ bytes24 Q) 16 4 = 0 := by
        have := fieldAt_at (a := leEnc 8 e.stat.ino ++ leEnc 8 e.off) (o := 16) (k := 4) (x := 0)
          (b := leEnc 4 (fmt e.stat.mode / 4096) ++ zeros (align8 24 - 24) ++ bytes24 Q) (by simp) (by decide)
        simpa [dirent, h0, List.append_assoc] using this
      simp only [h16]
      rw [if_pos (.inl trivial)]
      rfl
    | cons x P ih =>
      intro f h hf
      obtain ⟨f, rfl⟩ : ∃ g, f = g + 1 := ⟨f - 1, by simp at hf; omega⟩
      have hx := h x (by simp)
      have hb : bytes24 (x :: P ++ e :: Q) = dirent x.name x.stat x.off ++ bytes24 (P ++ e :: Q) := rfl
      obtain ⟨h1, h2⟩ := dirent_fields hx (bytes24 (P ++ e :: Q))
      have hlen := dirent_length x.name x.stat x.off
      rw [cstr_eq hx.nul] at hlen
      have h24 := le_align8 (24 + x.name.length)
      rw [hb]
      unfold parse
      rw [if_neg (by rw [List.length_append, hlen]; omega)]
      simp only [h1, h2]
      have hne : x.name.length ≠ 0 := by have := hx.name; simpa [List.length_eq_zero_iff] using this
      rw [if_neg (by have := hx.long; unfold nameMax; omega), if_neg (by rw [List.length_append, hlen]; omega),
        if_neg (show ¬ (0x2f : UInt8) ∈ (kent x).name from hx.slash), List.drop_left' hlen,
        ih f (fun x hx => h x (by simp [hx])) (by simp at hf; omega)]
      rfl
  refine key P _ hP ?_
  have : P.length ≤ (bytes24 P).length := by
    rw [bytes24_length (fun e he => cstr_eq (hP e he).nul)]
    clear hP key
    induction P with
    | nil => simp
    | cons e l ih => have := entSize_pos (hdr := 24) (by decide) e; rw [bufLen_cons, List.length_cons]; omega
  rw [bytes24_append, List.length_append]; omega

/-- A backend which lists an entry without a name in its root. -/
def tblEmpty : Tbl where
  stats := [([0x2f], .ok bDir), ([0x2f, 0x61], .ok bDir)]
  dirs := [([0x2f], .ok ([[0x61], []], 0))]

/-- The statement without the exception is false: a backend may list a name of no bytes, the cache takes it, and the kernel
reports an error for the directory. -/
theorem C65_counterexample : ∃ y b, Live y ∧ Valid y tblEmpty.backend (.readdir 1 4096 0) ∧ readdirB y.disk 1 4096 0 = .ok [.buf b] ∧
    (kernelReads b).2 = .error EIO := by
  obtain ⟨y, h1, h2, h3⟩ := demoFS_valid (l := [.req tblEmpty (.opendir 1)]) (t := tblEmpty) (rq := .readdir 1 4096 0)
    (P := fun y => (match readdirB y.disk 1 4096 0 with | .ok [.buf b] => decide ((kernelReads b).2 = .error EIO) | _ => false) = true) (by decide +kernel)
  split at h3
  · rename_i b hb; exact ⟨y, b, h1, h2, hb, by simpa using h3⟩
  · cases h3

/-- A page with four entries, and the bytes of it.
(The hypotheses of `C65_readdir`; `C65_attributes`: the attributes of the entries.)
(In the same state `C65_readdirplus` and, for other inodes, `C65_errors` apply; `C65_no_name` is used for `C65_counterexample`.) -/
example : ∃ y b, Live y ∧ Valid y tblA.backend (.readdir 1 4096 0) ∧ readdirB y.disk 1 4096 0 = .ok [.buf b] ∧
    kernelReads b = ([⟨1, 1, 4, [0x2e]⟩, ⟨2, 2, 4, [0x61]⟩, ⟨3, 3, 10, [0x6c]⟩], .ok ()) := by
  obtain ⟨y, h1, h2, h3⟩ := demoFS_valid (l := [.req tblA (.opendir 1)]) (t := tblA) (rq := .readdir 1 4096 0)
    (P := fun y => (match readdirB y.disk 1 4096 0 with
      | .ok [.buf b] => decide (kernelReads b = ([⟨1, 1, 4, [0x2e]⟩, ⟨2, 2, 4, [0x61]⟩, ⟨3, 3, 10, [0x6c]⟩], .ok ())) | _ => false) = true) (by decide +kernel)
  split at h3
  · rename_i b hb; exact ⟨y, b, h1, h2, hb, by simpa using h3⟩
  · cases h3

end Dragonstash.FS
