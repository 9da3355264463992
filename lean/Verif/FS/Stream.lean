/-
  Reading directories: the sequence of results a loop over the cache's `readdir` and `getattr` sees,
  from any offset, and the pages which the loops of `readdir` and `readdirplus` make of it.
-/
import Verif.FS.State
namespace Dragonstash.FS
open Cache Codec
variable {s s' : Tree} {d d' : DB} {r r' : Refs}

/-- An entry with the attributes of its inode. -/
abbrev Ent := Ino × Bytes × Attrs

/-- The entry of the directory buffer. -/
def Ent.dent (x : Ent) : DEnt := mkDEnt x.1 x.2.1 x.2.2

/-- `Stream d dir c l e eof`: reading on from offset `c` gives the entries `l`, and then fails with
error `e`; `eof` says whether this is the end of the directory. -/
inductive Stream (d : DB) (dir : Ino) : Ino → List Ent → Errno → Bool → Prop
  | stop {c e} : Cache.readdir d dir c = .ok (.error e) → Stream d dir c [] e (e == 0)
  | noattr {c i n e} : Cache.readdir d dir c = .ok (.ok (i, n)) → Cache.getattr d i = .error e → Stream d dir c [] e false
  | entry {c i n j a l e b} : Cache.readdir d dir c = .ok (.ok (i, n)) → Cache.getattr d i = .ok (j, a) →
      Stream d dir i l e b → Stream d dir c ((i, n, a) :: l) e b

/-- The entries of `l` with the attributes of the inodes of `s`. -/
def withAttrs (s : Tree) (l : List (Ino × Bytes)) : List Ent :=
  l.filterMap (fun x => (s.nodes x.1).map (fun nd => (x.1, x.2, nd.attr)))

theorem kids_length (d : DB) (dir : Ino) : (kids d dir).length ≤ d.treei.size := by
  unfold kids kidsOf
  rw [List.length_map]
  have h1 := (List.takeWhile_sublist (isIn dir) (l := d.treei.lower (key16 dir 0))).length_le
  have h2 : (d.treei.lower (key16 dir 0)).length ≤ d.treei.size := by
    unfold Tab.lower Tab.size; exact (List.dropWhile_sublist _).length_le
  omega

theorem getattr_some (h : SI s d r) {i nd} (hi : s.nodes i = some nd) : Cache.getattr d i = .ok (i, nd.attr) := by
  rw [h.rep.getattr h.ok (OK.lt h.ok hi), hi]

theorem getattr_none (h : SI s d r) {i} (hb : i < W64) (hi : s.nodes i = none) : Cache.getattr d i = .error ENOENT := by
  rw [h.rep.getattr h.ok hb, hi]

theorem Stream.of_readdir (h : SI s d r) {dir c l} (hr : ReaddirFrom d dir c l) (hl : ∀ x ∈ l, ∃ nd, s.nodes x.1 = some nd) :
    Stream d dir c (withAttrs s l) 0 true := by
  induction hr with
  | eof h1 => exact .stop h1
  | @entry c i n l h1 h2 ih =>
    obtain ⟨nd, hn⟩ := hl (i, n) (by simp)
    have := ih (fun x hx => hl x (by simp [hx]))
    have e : withAttrs s ((i, n) :: l) = (i, n, nd.attr) :: withAttrs s l := by
      unfold withAttrs; simp [hn]
    rw [e]
    exact .entry h1 (getattr_some h hn) this

/-- The parent which `readdir` sees, and that the children are distinct from it and the directory. -/
theorem parent_facts (h : SI s d r) {dir nd} (hi : s.nodes dir = some nd) :
    ∃ p, Cache.parent d dir = .ok p ∧ p < W64 ∧ (∀ n, (p, n) ∉ kids d dir) ∧ (∀ n, (dir, n) ∉ kids d dir) ∧
      (dir = ROOT → p = ROOT) ∧ (dir ≠ ROOT → p < dir ∧ p = nd.par) := by
  have hb := OK.lt h.ok hi
  have hk : ∀ j n, (j, n) ∈ kids d dir → dir < j := by
    intro j n hj
    obtain ⟨x, h1, h2⟩ := (h.rep.mem_kids h.ok hb).mp hj
    exact (h.wf j x dir n h1 h2).1
  have hdd : ∀ n, (dir, n) ∉ kids d dir := fun n hn => Nat.lt_irrefl _ (hk dir n hn)
  have hp := h.rep.parent h.ok hb
  by_cases hr : dir = ROOT
  · rw [if_pos hr, ← hr] at hp
    exact ⟨dir, hp, hb, hdd, hdd, fun _ => hr, fun hn => absurd hr hn⟩
  · rw [if_neg hr, hi] at hp
    have hlt : nd.par < dir := by
      unfold Node.par
      cases hl : nd.loc with
      | none => exact (h.ok.bound dir nd hi).1
      | some l => obtain ⟨q, m⟩ := l; exact (h.wf dir nd q m hi hl).1
    refine ⟨nd.par, hp, by omega, fun n hn => ?_, hdd, fun hh => absurd hh hr, fun _ => ⟨hlt, rfl⟩⟩
    have := hk _ n hn; omega

/-- One step from an offset which is not `.`: an entry, or the end. -/
theorem readdir_step (h : SI s d r) {dir p} (hd : dir < W64) (hp : Cache.parent d dir = .ok p) {c : Ino} (hc0 : c ≠ 0)
    (hc : ¬ (c ≠ p ∧ c = dir)) :
    Cache.readdir d dir c = .ok (.error EOF_) ∨ ∃ x ∈ kids d dir, Cache.readdir d dir c = .ok (.ok x) := by
  have hmem : ∀ k x, x ∈ kidsOf dir (d.treei.lower k) → x ∈ kids d dir := by
    intro k x hx
    obtain ⟨e, he, hce⟩ := List.mem_map.mp hx
    have hin := takeWhile_imp he
    have hmem := ((Tab.mem_lower_iff _ _ _).mp ((List.takeWhile_sublist _).subset he)).1
    obtain ⟨i, nd, q, m, hx', hi, hloc, hp', hb⟩ := h.rep.treei_key h.ok hmem
    unfold isIn at hin; rw [hx'] at hin
    simp only [key16_take, leDec_key8 hp', decide_eq_true_eq] at hin
    unfold entOf at hce; rw [hx'] at hce
    simp only [key16_drop, leDec_key8 hb, mkEnt] at hce
    rw [← hce]
    exact (h.rep.mem_kids h.ok hd).mpr ⟨nd, hi, by rw [hloc, hin]⟩
  unfold Cache.readdir
  rw [if_neg hc0, hp]
  simp only
  rw [if_neg hc, readdirAt_eq (h.rep.len16 h.ok _)]
  cases hk : kidsOf dir (d.treei.lower (key16 dir (if c = p then 0 else c))) with
  | nil => exact .inl rfl
  | cons x rest =>
    simp only
    split
    · cases rest with
      | nil => exact .inl rfl
      | cons y z => exact .inr ⟨y, hmem _ y (by rw [hk]; simp), rfl⟩
    · exact .inr ⟨x, hmem _ x (by rw [hk]; simp), rfl⟩

/-- The entries of an existing directory behind any offset other than `.` and the directory itself. -/
theorem stream_tail (h : SI s d r) {dir nd} (hi : s.nodes dir = some nd) {p} (hp : Cache.parent d dir = .ok p) {c : Ino} (hc0 : c ≠ 0)
    (hc : ¬ (c ≠ p ∧ c = dir)) :
    ∃ l, (∀ x ∈ l, x ∈ kids d dir) ∧ l.length ≤ d.treei.size ∧ ReaddirFrom d dir c l := by
  have hb := OK.lt h.ok hi
  obtain ⟨p', hp', -, hnp, hnd, -⟩ := parent_facts h hi
  rw [hp] at hp'; cases hp'
  have hlen := kids_length d dir
  rcases readdir_step h hb hp hc0 hc with h1 | ⟨x, hx, h1⟩
  · exact ⟨[], by simp, by simp, .eof h1⟩
  · obtain ⟨A, B, hk⟩ := List.append_of_mem hx
    obtain ⟨i, n⟩ := x
    refine ⟨(i, n) :: B, ?_, ?_, .entry h1 (h.rep.readdir_tail h.ok hb hp hnp hnd B A i n hk)⟩
    · intro y hy; rw [hk]; simp only [List.mem_append]; exact .inr hy
    · rw [hk] at hlen; simp at hlen ⊢; omega

/-- The directory has a place in the tree. -/
def Linked (s : Tree) (i : Ino) : Prop := i = ROOT ∨ ∃ p n, s.At p n i

/-- Names which can be in a listing. -/
def EntName (n : Bytes) : Prop := n.length ≤ 503 ∧ (0 : UInt8) ∉ n ∧ (0x2f : UInt8) ∉ n

theorem kids_info (h : SI s d r) {dir} (hd : dir < W64) {x} (hx : x ∈ kids d dir) : ∃ nd, s.nodes x.1 = some nd ∧ EntName x.2 := by
  obtain ⟨i, n⟩ := x
  obtain ⟨nd, h1, h2⟩ := (h.rep.mem_kids h.ok hd).mp hx
  obtain ⟨-, -, h3⟩ := h.ok.loc i nd dir n h1 h2
  exact ⟨nd, h1, h3⟩

theorem withAttrs_mem {l : List (Ino × Bytes)} {x : Ent} (hx : x ∈ withAttrs s l) :
    (x.1, x.2.1) ∈ l ∧ ∃ nd, s.nodes x.1 = some nd ∧ x.2.2 = nd.attr := by
  unfold withAttrs at hx
  obtain ⟨y, h1, h2⟩ := List.mem_filterMap.mp hx
  cases hn : s.nodes y.1 with
  | none => rw [hn] at h2; cases h2
  | some nd => rw [hn] at h2; cases h2; exact ⟨h1, nd, hn, rfl⟩

theorem withAttrs_length (l : List (Ino × Bytes)) : (withAttrs s l).length ≤ l.length := List.length_filterMap_le ..

/-- Reading a directory from any offset ends; the results are existing inodes, and the error is end of
file if the directory is linked. -/
theorem stream_exists (h : SI s d r) {dir c : Ino} (hd : dir < W64) :
    ∃ l e b, Stream d dir c l e b ∧ l.length ≤ d.treei.size + 2 ∧
      (∀ x ∈ l, EntName x.2.1 ∧ ∃ nd, s.nodes x.1 = some nd ∧ x.2.2 = nd.attr) ∧
      (Linked s dir → e = 0 ∧ b = true) ∧ (b = true → e = 0) ∧ (b = false → e ≠ 0) := by
  have dotName : EntName [0x2e] := ⟨by decide, by decide, by decide⟩
  have dotdotName : EntName [0x2e, 0x2e] := ⟨by decide, by decide, by decide⟩
  cases hi : s.nodes dir with
  | none =>
    have hnl : ¬ Linked s dir := by
      rintro (rfl | ⟨p, n, nd, h1, -⟩)
      · obtain ⟨nd, h1, -⟩ := h.ok.root; rw [hi] at h1; cases h1
      · rw [hi] at h1; cases h1
    by_cases hc0 : c = 0
    · subst hc0
      exact ⟨[], ENOENT, false, .noattr readdir_dot (getattr_none h hd hi), by simp, by simp, fun hh => absurd hh hnl, by simp, by decide⟩
    · have hr : dir ≠ ROOT := fun hh => hnl (.inl hh)
      have hp : Cache.parent d dir = .error ENOENT := by rw [h.rep.parent h.ok hd, if_neg hr, hi]
      have : Cache.readdir d dir c = .ok (.error EIO) := by
        unfold Cache.readdir; rw [if_neg hc0, hp]
      exact ⟨[], EIO, false, .stop this, by simp, by simp, fun hh => absurd hh hnl, by simp, by decide⟩
  | some nd =>
    obtain ⟨p, hp, hpb, hnp, hnd, hroot, hnr⟩ := parent_facts h hi
    have tail : ∀ c : Ino, c ≠ 0 → ¬ (c ≠ p ∧ c = dir) → ∃ l, Stream d dir c l 0 true ∧ l.length ≤ d.treei.size ∧
        (∀ x ∈ l, EntName x.2.1 ∧ ∃ nd, s.nodes x.1 = some nd ∧ x.2.2 = nd.attr) := by
      intro c h1 h2
      obtain ⟨l, g1, g2, g3⟩ := stream_tail h hi hp h1 h2
      refine ⟨withAttrs s l, .of_readdir h g3 (fun x hx => ?_), ?_, ?_⟩
      · obtain ⟨y, k, -⟩ := kids_info h hd (g1 x hx); exact ⟨y, k⟩
      · have := withAttrs_length (s := s) l; omega
      · intro x hx
        obtain ⟨k1, y, k2, k3⟩ := withAttrs_mem hx
        obtain ⟨-, -, k4⟩ := kids_info h hd (g1 _ k1)
        exact ⟨k4, y, k2, k3⟩
    have dd : ∃ l e b, Stream d dir dir l e b ∧ l.length ≤ d.treei.size + 1 ∧
        (∀ x ∈ l, EntName x.2.1 ∧ ∃ nd, s.nodes x.1 = some nd ∧ x.2.2 = nd.attr) ∧ (Linked s dir → e = 0 ∧ b = true) ∧ (b = true → e = 0) ∧ (b = false → e ≠ 0) := by
      have hd0 : dir ≠ 0 := by have := (h.ok.bound dir nd hi).1; omega
      by_cases hpd : dir = p
      · obtain ⟨l, g1, g2, g3⟩ := tail dir hd0 (fun hh => hh.1 hpd)
        exact ⟨l, 0, true, g1, by omega, g3, fun _ => ⟨rfl, rfl⟩, by simp, by simp⟩
      · have hdd := readdir_dotdot hp hd0 hpd
        have hr : dir ≠ ROOT := fun hh => hpd (by rw [hh, hroot hh])
        obtain ⟨hlt, hpar⟩ := hnr hr
        cases hl : nd.loc with
        | none =>
          have : p = 0 := by rw [hpar]; simp [Node.par, hl]
          subst this
          have h0 : s.nodes 0 = none := by
            cases hn : s.nodes 0 with
            | none => rfl
            | some x => have := (h.ok.bound 0 x hn).1; omega
          refine ⟨[], ENOENT, false, .noattr hdd (getattr_none h (by decide) h0), by simp, by simp, ?_, by simp, by decide⟩
          rintro (hh | ⟨q, m, x, h1, h2⟩)
          · exact absurd hh hr
          · rw [hi] at h1; cases h1; rw [hl] at h2; cases h2
        | some loc =>
          obtain ⟨q, m⟩ := loc
          have : p = q := by rw [hpar]; simp [Node.par, hl]
          subst this
          obtain ⟨-, x, hx, -⟩ := h.wf dir nd p m hi hl
          have hp0 : p ≠ 0 := by have := (h.ok.bound p x hx).1; omega
          obtain ⟨l, g1, g2, g3⟩ := tail p hp0 (fun hh => hh.1 rfl)
          refine ⟨(p, [0x2e, 0x2e], x.attr) :: l, 0, true, .entry hdd (getattr_some h hx) g1, by simp; omega, ?_, fun _ => ⟨rfl, rfl⟩, by simp, by simp⟩
          intro y hy
          rcases List.mem_cons.mp hy with rfl | hy
          · exact ⟨dotdotName, x, hx, rfl⟩
          · exact g3 y hy
    by_cases hc0 : c = 0
    · subst hc0
      obtain ⟨l, e, b, g1, g2, g3, g4, g5⟩ := dd
      refine ⟨(dir, [0x2e], nd.attr) :: l, e, b, .entry readdir_dot (getattr_some h hi) g1, by simp; omega, ?_, g4, g5⟩
      intro y hy
      rcases List.mem_cons.mp hy with rfl | hy
      · exact ⟨dotName, nd, hi, rfl⟩
      · exact g3 y hy
    · by_cases hcd : c ≠ p ∧ c = dir
      · obtain ⟨-, rfl⟩ := hcd
        obtain ⟨l, e, b, g1, g2, g3, g4, g5⟩ := dd
        exact ⟨l, e, b, g1, by omega, g3, g4, g5⟩
      · obtain ⟨l, g1, g2, g3⟩ := tail c hc0 hcd
        exact ⟨l, 0, true, g1, by omega, g3, fun _ => ⟨rfl, rfl⟩, by simp, by simp⟩

end Dragonstash.FS
