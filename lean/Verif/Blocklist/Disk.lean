import Verif.Blocklist.Fsck
import Verif.Bytes
/-
  The block list file as bytes.
-/
namespace Dragonstash.Blocklist

/-- blocklist.hpp 93. -/
abbrev magic : Nat := 0x4c427344

/-- blocklist.hpp 116-121: one entry (16 bytes; reserved fields zero). -/
def encEntry (e : Entry) : Bytes :=
  leEnc 8 e.start ++ (leEnc 2 e.count ++ (leEnc 1 e.state ++ leEnc 5 0))

/-- blocklist.hpp 116-121. -/
def decEntry (b : Bytes) : Entry := ⟨fieldAt b 0 8, fieldAt b 8 2, fieldAt b 10 1⟩

/-- blocklist.hpp 102-111: the superblock (512 bytes; version, size and reserved fields are
never written and zero). -/
def encSuper (f : File) : Bytes :=
  leEnc 4 magic ++ (leEnc 12 0 ++ (leEnc 8 f.n ++ (leEnc 8 (f.cnt 0) ++ (leEnc 8 (f.cnt 1) ++
    (leEnc 8 (f.cnt 2) ++ (leEnc 8 (f.cnt 3) ++ leEnc 456 0))))))

/-- Contents of the file. -/
def encFile (f : File) : Bytes := encSuper f ++ f.slots.flatMap encEntry

/-- The entry array of a file. -/
def decEntries : (k : Nat) → Bytes → List Entry
  | 0, _ => []
  | k + 1, b => decEntry b :: decEntries k (b.drop 16)

/-- The file as mapped. -/
def decFile (b : Bytes) : File :=
  { n := fieldAt b 16 8
    cnt := fun t => if t < 4 then fieldAt b (24 + 8 * t) 8 else 0
    slots := decEntries ((b.length - 512) / 16) (b.drop 512)
    mapped := true
    msize := b.length }

/-- blocklist.cpp 124-136: a new file: 8 blocks of 512 bytes, zero but for the magic number. -/
def initBytes : Bytes := leEnc 4 magic ++ List.replicate 4092 0

/-- blocklist.cpp 82-94, 104-150: `Blocklist(path)` on a regular file with the given contents
(empty also if the file did not exist). -/
def openBytes (b : Bytes) : M File :=
  if b.length % 512 ≠ 0 then .error (.thrown 120)
  else if b.length = 0 then .ok (decFile initBytes)
  else if fieldAt b 0 4 ≠ magic then .error (.thrown 145)
  else .ok (decFile b)

theorem encEntry_length (e : Entry) : (encEntry e).length = 16 := by simp [encEntry]

theorem encSuper_length (f : File) : (encSuper f).length = 512 := by simp [encSuper]

theorem flatMap_enc_length (L : List Entry) : (L.flatMap encEntry).length = 16 * L.length := by
  induction L with
  | nil => rfl
  | cons e L ih => simp only [List.flatMap_cons, List.length_append, encEntry_length, ih, List.length_cons]; omega

theorem encFile_length (f : File) : (encFile f).length = f.fileSize := by
  rw [encFile, List.length_append, encSuper_length, flatMap_enc_length]; rfl

theorem decEntry_enc {e : Entry} (h : EntryFits e) (b : Bytes) : decEntry (encEntry e ++ b) = e := by
  obtain ⟨h1, h2, h3⟩ := h
  have e1 : fieldAt (encEntry e ++ b) 0 8 = e.start := by
    unfold encEntry; rw [List.append_assoc]; exact fieldAt_enc h1
  have e2 : fieldAt (encEntry e ++ b) 8 2 = e.count := by
    unfold encEntry
    rw [List.append_assoc, List.append_assoc]
    exact fieldAt_at (by simp) (by omega)
  have e3 : fieldAt (encEntry e ++ b) 10 1 = e.state := by
    unfold encEntry
    rw [show ∀ a b c d e : Bytes, a ++ (b ++ (c ++ d)) ++ e = (a ++ b) ++ (c ++ (d ++ e)) from by intros; simp]
    exact fieldAt_at (by simp) h3
  unfold decEntry
  rw [e1, e2, e3]

theorem decEntries_enc (L : List Entry) (h : ∀ e ∈ L, EntryFits e) :
    decEntries L.length (L.flatMap encEntry) = L := by
  induction L with
  | nil => rfl
  | cons e L ih =>
    simp only [List.flatMap_cons, List.length_cons, decEntries]
    rw [decEntry_enc (h e (by simp))]
    congr 1
    rw [List.drop_append_of_le_length (by rw [encEntry_length]; exact Nat.le_refl _),
      List.drop_of_length_le (by rw [encEntry_length]; exact Nat.le_refl _), List.nil_append]
    exact ih (fun x hx => h x (by simp [hx]))

theorem decFile_enc {f : File} (hn : f.n < W64) (hc : ∀ t, f.cnt t < W64) (hc4 : ∀ t, 4 ≤ t → f.cnt t = 0)
    (hs : ∀ e ∈ f.slots, EntryFits e) :
    decFile (encFile f) = { f with mapped := true, msize := f.fileSize } := by
  have hdrop : (encFile f).drop 512 = f.slots.flatMap encEntry := by
    unfold encFile
    rw [List.drop_append_of_le_length (by rw [encSuper_length]; exact Nat.le_refl _),
      List.drop_of_length_le (by rw [encSuper_length]; exact Nat.le_refl _), List.nil_append]
  have hlen : ((encFile f).length - 512) / 16 = f.slots.length := by
    rw [encFile_length]; simp only [File.fileSize, superblockSize, entrySize]; omega
  have en : fieldAt (encFile f) 16 8 = f.n := by
    unfold encFile encSuper
    rw [← List.append_assoc, ← List.append_assoc, List.append_assoc (_ ++ _), List.append_assoc]
    exact fieldAt_at (by simp) hn
  have e0 : fieldAt (encFile f) 24 8 = f.cnt 0 := by
    unfold encFile encSuper
    rw [show ∀ a b c d e g h i j : Bytes, a ++ (b ++ (c ++ (d ++ (e ++ (g ++ (h ++ i)))))) ++ j =
      (a ++ (b ++ c)) ++ (d ++ ((e ++ (g ++ (h ++ i))) ++ j)) from by intros; simp]
    exact fieldAt_at (by simp) (hc 0)
  have e1 : fieldAt (encFile f) 32 8 = f.cnt 1 := by
    unfold encFile encSuper
    rw [show ∀ a b c d e g h i j : Bytes, a ++ (b ++ (c ++ (d ++ (e ++ (g ++ (h ++ i)))))) ++ j =
      (a ++ (b ++ (c ++ d))) ++ (e ++ ((g ++ (h ++ i)) ++ j)) from by intros; simp]
    exact fieldAt_at (by simp) (hc 1)
  have e2 : fieldAt (encFile f) 40 8 = f.cnt 2 := by
    unfold encFile encSuper
    rw [show ∀ a b c d e g h i j : Bytes, a ++ (b ++ (c ++ (d ++ (e ++ (g ++ (h ++ i)))))) ++ j =
      (a ++ (b ++ (c ++ (d ++ e)))) ++ (g ++ ((h ++ i) ++ j)) from by intros; simp]
    exact fieldAt_at (by simp) (hc 2)
  have e3 : fieldAt (encFile f) 48 8 = f.cnt 3 := by
    unfold encFile encSuper
    rw [show ∀ a b c d e g h i j : Bytes, a ++ (b ++ (c ++ (d ++ (e ++ (g ++ (h ++ i)))))) ++ j =
      (a ++ (b ++ (c ++ (d ++ (e ++ g))))) ++ (h ++ (i ++ j)) from by intros; simp]
    exact fieldAt_at (by simp) (hc 3)
  have hcnt : (fun t => if t < 4 then fieldAt (encFile f) (24 + 8 * t) 8 else 0) = f.cnt := by
    funext t
    split
    · rename_i ht
      match t, ht with
      | 0, _ => exact e0
      | 1, _ => exact e1
      | 2, _ => exact e2
      | 3, _ => exact e3
    · exact (hc4 t (by omega)).symm
  unfold decFile
  rw [en, hcnt, hdrop, hlen, decEntries_enc f.slots hs, encFile_length]

theorem open_enc {f : File} (hn : f.n < W64) (hc : ∀ t, f.cnt t < W64) (hc4 : ∀ t, 4 ≤ t → f.cnt t = 0)
    (hs : ∀ e ∈ f.slots, EntryFits e) (hl : f.fileSize % 512 = 0) :
    openBytes (encFile f) = .ok { f with mapped := true, msize := f.fileSize } := by
  unfold openBytes
  have hm : fieldAt (encFile f) 0 4 = magic := by
    unfold encFile encSuper; rw [List.append_assoc]; exact fieldAt_enc (by decide)
  rw [encFile_length, if_neg (by omega), if_neg (by simp only [File.fileSize, superblockSize]; omega),
    if_neg (by rw [hm]; simp), decFile_enc hn hc hc4 hs]

theorem decEntries_zero (k : Nat) : ∀ m, decEntries k (List.replicate m 0) = List.replicate k zeroEntry := by
  have hz : ∀ m, leDec (List.replicate m 0) = 0 := by
    intro m
    induction m with
    | zero => rfl
    | succ m ih => simp [List.replicate_succ, leDec, ih]
  have hf : ∀ m o j, fieldAt (List.replicate m 0) o j = 0 := by
    intro m o j; unfold fieldAt; rw [List.drop_replicate, List.take_replicate]; exact hz _
  induction k with
  | zero => intro m; rfl
  | succ k ih =>
    intro m
    simp only [decEntries, List.drop_replicate, ih, List.replicate_succ, decEntry, hf]
    rfl

theorem open_empty : openBytes [] = .ok fresh := by
  have hf : ∀ o j, 4 ≤ o → fieldAt initBytes o j = 0 := by
    intro o j ho
    unfold fieldAt initBytes
    rw [List.drop_append, List.drop_of_length_le (by simp; omega), List.nil_append, List.drop_replicate,
      List.take_replicate]
    generalize min j _ = m
    induction m with
    | zero => rfl
    | succ m ih => simp [List.replicate_succ, leDec, ih]
  have hl : initBytes.length = 4096 := by rw [initBytes, List.length_append, leEnc_length, List.length_replicate]
  have hs : decEntries ((initBytes.length - 512) / 16) (initBytes.drop 512) = List.replicate 224 zeroEntry := by
    rw [hl]
    unfold initBytes
    rw [List.drop_append, List.drop_of_length_le (by simp), List.nil_append, List.drop_replicate]
    exact decEntries_zero _ _
  unfold openBytes
  rw [if_neg (by simp), if_pos (by simp)]
  unfold decFile fresh
  rw [hs, hl, hf 16 8 (by omega)]
  have : (fun t => if t < 4 then fieldAt initBytes (24 + 8 * t) 8 else 0) = fun _ => 0 := by
    funext t; split
    · exact hf _ _ (by omega)
    · rfl
  rw [this]

end Dragonstash.Blocklist
