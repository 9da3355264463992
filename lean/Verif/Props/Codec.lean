/-
  C35: on-disk records.
-/
import Verif.Cache.Records
namespace Dragonstash.Codec

/-- Reading a field written behind a prefix of the right length. -/
theorem rd_at {a b : Bytes} {o k x : Nat} (ha : a.length = o) (h : x < 256 ^ k) :
    rd (a ++ (leEnc k x ++ b)) o k = .ok x := by
  unfold rd
  rw [if_pos (by simp; omega), fieldAt_at ha h]

theorem rdTs_at {a b : Bytes} {o : Nat} {t : Timespec} (ha : a.length = o) (h : t.Fits) :
    rdTs (a ++ (encTs t ++ b)) o = .ok t := by
  unfold rdTs encTs
  have h1 : rd (a ++ (leEnc 8 t.sec ++ leEnc 8 t.nsec ++ b)) o 8 = .ok t.sec := by
    rw [List.append_assoc]; exact rd_at ha h.1
  have h2 : rd (a ++ (leEnc 8 t.sec ++ leEnc 8 t.nsec ++ b)) (o + 8) 8 = .ok t.nsec := by
    rw [show a ++ (leEnc 8 t.sec ++ leEnc 8 t.nsec ++ b) = (a ++ leEnc 8 t.sec) ++ (leEnc 8 t.nsec ++ b) by simp]
    exact rd_at (by simp [ha]) h.2
  rw [h1, bind_ok, h2]
  rfl

/-- C35. Parsing a serialised inode record gives the same record, whatever the reserved fields and
padding contain. -/
theorem C35_inode_roundtrip (r0 r2 pad : Nat) (i : Inode) (h : i.Fits) :
    parseInode (encInode r0 r2 pad i) = .ok (.ok i) := by
  obtain ⟨hf, hp, hs, hb, hu, hg, ha, hm, hc, hmo⟩ := h
  obtain ⟨flags, parent, ⟨size, nblocks, uid, gid, atime, mtime, ctime, mode⟩⟩ := i
  simp only at *
  have hlen : (encInode r0 r2 pad ⟨flags, parent, ⟨size, nblocks, uid, gid, atime, mtime, ctime, mode⟩⟩).length = 96 := by
    simp [encInode, encTs]
  generalize hbuf : encInode r0 r2 pad ⟨flags, parent, ⟨size, nblocks, uid, gid, atime, mtime, ctime, mode⟩⟩ = buf
  rw [hbuf] at hlen
  unfold encInode at hbuf
  simp only at hbuf
  have v : rd buf 0 1 = .ok 1 := by
    rw [← hbuf]; exact rd_at (a := []) rfl (by decide)
  have f1 : rd buf 2 2 = .ok flags := by
    rw [← hbuf, ← List.append_assoc, ← List.append_assoc, List.append_assoc (_ ++ _)]
    exact rd_at (by simp) hf
  have step : ∀ {x : Bytes} {l : Nat} {z : Bytes}, x.length = l → buf = x ++ z →
      ∀ (k y : Nat) (w : Bytes), y < 256 ^ k → z = leEnc k y ++ w →
        rd buf l k = .ok y ∧ buf = (x ++ leEnc k y) ++ w ∧ (x ++ leEnc k y).length = l + k := by
    intro x l z hx hb k y w hy hz
    subst hz
    refine ⟨by rw [hb]; exact rd_at hx hy, by rw [hb]; simp, by simp [hx]⟩
  have stepT : ∀ {x : Bytes} {l : Nat} {z : Bytes}, x.length = l → buf = x ++ z →
      ∀ (t : Timespec) (w : Bytes), t.Fits → z = encTs t ++ w →
        rdTs buf l = .ok t ∧ buf = (x ++ encTs t) ++ w ∧ (x ++ encTs t).length = l + 16 := by
    intro x l z hx hb t w hy hz
    subst hz
    refine ⟨by rw [hb]; exact rdTs_at hx hy, by rw [hb]; simp, by simp [hx, encTs]⟩
  have pre : buf = (leEnc 1 1 ++ leEnc 1 r0 ++ leEnc 2 flags ++ leEnc 4 r2) ++ (leEnc 8 parent ++
      (leEnc 8 size ++ (leEnc 8 nblocks ++ (leEnc 4 uid ++ (leEnc 4 gid ++
      (encTs atime ++ (encTs mtime ++ (encTs ctime ++ (leEnc 4 mode ++ leEnc 4 pad))))))))) := by
    rw [← hbuf]; simp
  obtain ⟨e1, b1, l1⟩ := step (l := 8) (by simp) pre 8 parent _ hp rfl
  obtain ⟨e2, b2, l2⟩ := step l1 b1 8 size _ hs rfl
  obtain ⟨e3, b3, l3⟩ := step l2 b2 8 nblocks _ hb rfl
  obtain ⟨e4, b4, l4⟩ := step l3 b3 4 uid _ hu rfl
  obtain ⟨e5, b5, l5⟩ := step l4 b4 4 gid _ hg rfl
  obtain ⟨e6, b6, l6⟩ := stepT l5 b5 atime _ ha rfl
  obtain ⟨e7, b7, l7⟩ := stepT l6 b6 mtime _ hm rfl
  obtain ⟨e8, b8, l8⟩ := stepT l7 b7 ctime _ hc rfl
  obtain ⟨e9, -, -⟩ := step l8 b8 4 mode _ hmo rfl
  unfold parseInode
  rw [if_neg (by omega), v]
  simp only [bind_ok, ne_eq, not_true, if_false]
  rw [if_neg (by omega), f1, e1, e2, e3, e4, e5, e6, e7, e8, e9]
  rfl

/-- C35. Parsing a serialised directory entry gives the same entry and name. -/
theorem C35_direntry_roundtrip (r0 : Nat) (d : DirEnt) (h : d.Fits) :
    parseDirEnt (encDirEnt r0 d) = .ok (.ok d) := by
  obtain ⟨hf, hm, hi⟩ := h
  obtain ⟨flags, mode, ino, name⟩ := d
  simp only at *
  have hlen : (encDirEnt r0 ⟨flags, mode, ino, name⟩).length = 16 + name.length := by simp [encDirEnt]; omega
  have hdrop : (encDirEnt r0 ⟨flags, mode, ino, name⟩).drop 16 = name := by
    unfold encDirEnt; simp only
    rw [show leEnc 1 1 ++ (leEnc 1 r0 ++ (leEnc 2 flags ++ (leEnc 4 mode ++ (leEnc 8 ino ++ name))))
      = (leEnc 1 1 ++ leEnc 1 r0 ++ leEnc 2 flags ++ leEnc 4 mode ++ leEnc 8 ino) ++ name by simp]
    rw [List.drop_left' (by simp)]
  have v : rd (encDirEnt r0 ⟨flags, mode, ino, name⟩) 0 1 = .ok 1 := rd_at (a := []) rfl (by decide)
  have f1 : rd (encDirEnt r0 ⟨flags, mode, ino, name⟩) 2 2 = .ok flags := by
    unfold encDirEnt; simp only
    rw [← List.append_assoc]; exact rd_at (by simp) hf
  have f2 : rd (encDirEnt r0 ⟨flags, mode, ino, name⟩) 4 4 = .ok mode := by
    unfold encDirEnt; simp only
    rw [← List.append_assoc, ← List.append_assoc]; exact rd_at (by simp) hm
  have f3 : rd (encDirEnt r0 ⟨flags, mode, ino, name⟩) 8 8 = .ok ino := by
    unfold encDirEnt; simp only
    rw [← List.append_assoc, ← List.append_assoc, ← List.append_assoc]; exact rd_at (by simp) hi
  unfold parseDirEnt
  rw [if_neg (by omega), v]
  simp only [bind_ok, ne_eq, not_true, if_false]
  rw [if_neg (by omega), f1, f2, f3, hdrop]
  rfl

theorem rd_ok {b : Bytes} {o k : Nat} (h : o + k ≤ b.length) : rd b o k = .ok (fieldAt b o k) := by
  unfold rd; rw [if_pos h]

theorem rdTs_ok {b : Bytes} {o : Nat} (h : o + 16 ≤ b.length) : ∃ t, rdTs b o = .ok t := by
  unfold rdTs; rw [rd_ok (by omega), bind_ok, rd_ok (by omega)]; exact ⟨_, rfl⟩

/-- C35. For every buffer, parsing an inode never reads outside the buffer; it fails with EINVAL
exactly if the buffer is empty, its first byte is not 1, or it is shorter than 96 bytes. -/
theorem C35_inode_total (b : Bytes) :
    (b.head? = some 1 ∧ 96 ≤ b.length → ∃ i, parseInode b = .ok (.ok i)) ∧
    (¬ (b.head? = some 1 ∧ 96 ≤ b.length) → parseInode b = .ok (.error EINVAL)) := by
  unfold parseInode
  cases b with
  | nil => simp
  | cons x xs =>
    have hv : rd (x :: xs) 0 1 = .ok x.toNat := by
      rw [rd_ok (by simp)]; simp [fieldAt, leDec]
    rw [if_neg (by simp), hv]
    simp only [bind_ok]
    have hx : x.toNat = 1 ↔ x = 1 := by
      constructor
      · intro h; apply UInt8.toNat.inj; rw [h]; rfl
      · intro h; rw [h]; rfl
    by_cases h1 : x = 1
    · rw [if_neg (by simp [h1])]
      by_cases h2 : 96 ≤ (x :: xs).length
      · rw [if_neg (by omega)]
        rw [rd_ok (by omega), rd_ok (by omega), rd_ok (by omega), rd_ok (by omega), rd_ok (by omega), rd_ok (by omega),
          rd_ok (by omega)]
        obtain ⟨t1, h1'⟩ := rdTs_ok (b := x :: xs) (o := 40) (by omega)
        obtain ⟨t2, h2'⟩ := rdTs_ok (b := x :: xs) (o := 56) (by omega)
        obtain ⟨t3, h3'⟩ := rdTs_ok (b := x :: xs) (o := 72) (by omega)
        rw [h1', h2', h3']
        exact ⟨fun _ => ⟨_, rfl⟩, fun h => absurd ⟨by simp [h1], h2⟩ h⟩
      · rw [if_pos (by omega)]
        exact ⟨fun h => absurd h.2 h2, fun _ => rfl⟩
    · rw [if_pos (by rw [ne_eq, hx]; exact h1)]
      exact ⟨fun h => absurd (by simpa using h.1) h1, fun _ => rfl⟩

/-- C35. The same for directory entries, with 16 bytes; on success the name is everything behind. -/
theorem C35_direntry_total (b : Bytes) :
    (b.head? = some 1 ∧ 16 ≤ b.length → ∃ d, parseDirEnt b = .ok (.ok d) ∧ d.name = b.drop 16) ∧
    (¬ (b.head? = some 1 ∧ 16 ≤ b.length) → parseDirEnt b = .ok (.error EINVAL)) := by
  unfold parseDirEnt
  cases b with
  | nil => simp
  | cons x xs =>
    have hv : rd (x :: xs) 0 1 = .ok x.toNat := by
      rw [rd_ok (by simp)]; simp [fieldAt, leDec]
    rw [if_neg (by simp), hv]
    simp only [bind_ok]
    have hx : x.toNat = 1 ↔ x = 1 := by
      constructor
      · intro h; apply UInt8.toNat.inj; rw [h]; rfl
      · intro h; rw [h]; rfl
    by_cases h1 : x = 1
    · rw [if_neg (by simp [h1])]
      by_cases h2 : 16 ≤ (x :: xs).length
      · rw [if_neg (by omega)]
        rw [rd_ok (by omega), rd_ok (by omega), rd_ok (by omega)]
        exact ⟨fun _ => ⟨_, rfl, rfl⟩, fun h => absurd ⟨by simp [h1], h2⟩ h⟩
      · rw [if_pos (by omega)]
        exact ⟨fun h => absurd h.2 h2, fun _ => rfl⟩
    · rw [if_pos (by rw [ne_eq, hx]; exact h1)]
      exact ⟨fun h => absurd (by simpa using h.1) h1, fun _ => rfl⟩

/-- C35. Distinct inodes, (parent, child) pairs and (parent, name) pairs have distinct keys. -/
theorem C35_keys (p p' c c' : Ino) (n n' : Bytes) (hp : p < 256 ^ 8) (hp' : p' < 256 ^ 8)
    (hc : c < 256 ^ 8) (hc' : c' < 256 ^ 8) :
    (key8 p = key8 p' ↔ p = p') ∧ (key16 p c = key16 p' c' ↔ p = p' ∧ c = c')
      ∧ (keyN p n = keyN p' n' ↔ p = p' ∧ n = n') := by
  have inj : ∀ {x y : Nat}, x < 256 ^ 8 → y < 256 ^ 8 → (leEnc 8 x = leEnc 8 y ↔ x = y) :=
    fun hx hy => ⟨leEnc_inj hx hy, fun h => by rw [h]⟩
  refine ⟨inj hp hp', ?_, ?_⟩
  · unfold key16
    constructor
    · intro h
      obtain ⟨h1, h2⟩ := List.append_inj h (by simp)
      exact ⟨(inj hp hp').mp h1, (inj hc hc').mp h2⟩
    · rintro ⟨rfl, rfl⟩; rfl
  · unfold keyN
    constructor
    · intro h
      obtain ⟨h1, h2⟩ := List.append_inj h (by simp)
      exact ⟨(inj hp hp').mp h1, h2⟩
    · rintro ⟨rfl, rfl⟩; rfl

/-- A symlink inode with large values in all fields. -/
def exInode : Inode :=
  ⟨1, 77, ⟨2 ^ 40 + 3, 9, 4294967295, 1000, ⟨1700000000, 999999999⟩, ⟨2 ^ 64 - 1, 0⟩, ⟨5, 6⟩, 0o120777⟩⟩
/-- The hypotheses of `C35_inode_roundtrip` and `C35_direntry_roundtrip` (`C35_inode_total` and `C35_direntry_total` have none, both of
their cases occur below). -/
example : exInode.Fits := by simp [Inode.Fits, Attrs.Fits, Timespec.Fits, exInode]
example : parseInode (encInode 0 0 123456 exInode) = .ok (.ok exInode) := by decide +kernel
example : (⟨0, 0, 300, [0x61, 0x62]⟩ : DirEnt).Fits := by simp [DirEnt.Fits]
/-- Records which `C35_inode_total` says are refused. -/
example : parseInode ((encInode 0 0 0 exInode).take 95) = .ok (.error EINVAL)
    ∧ parseInode (2 :: (encInode 0 0 0 exInode).drop 1) = .ok (.error EINVAL) := by decide +kernel

/-- `C35_keys` for different numbers and names of which one is a beginning of the other. -/
example : key8 1 ≠ key8 256 ∧ key16 1 2 ≠ key16 2 1 ∧ keyN 1 [0x61] ≠ keyN 1 [0x61, 0x62] := by
  have h := C35_keys 1 256 2 1 [0x61] [0x61, 0x62] (by decide) (by decide) (by decide) (by decide)
  have h' := C35_keys 1 2 2 1 [] [] (by decide) (by decide) (by decide) (by decide)
  have h'' := C35_keys 1 1 2 1 [0x61] [0x61, 0x62] (by decide) (by decide) (by decide) (by decide)
  exact ⟨fun e => absurd (h.1.mp e) (by decide), fun e => absurd (h'.2.1.mp e).1 (by decide), fun e => absurd (h''.2.2.mp e).2 (by decide)⟩

end Dragonstash.Codec
