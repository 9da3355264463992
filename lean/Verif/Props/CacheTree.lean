/-
  C21, C22, C23, C27, C33, C34: what holds of the cache contents in every reachable state.

  `Reach w`: `w` is reached from an empty database file by any sequence of calls (opening, beginning,
  nesting, operations, commit, abort, dropping transactions, crashes). `ReachP w`: moreover entries
  were only made in existing directories. `View w d`: `d` is what an open transaction sees, or a new
  one would see.
-/
import Verif.Cache.Demo
namespace Dragonstash.Cache
open Codec

/-! ### Specification -/

/-- Looking up the names `cs` one after the other, starting in directory `p`, leads to `i`. -/
def Walk (d : DB) : Ino → List Bytes → Ino → Prop
  | p, [], i => i = p
  | p, n :: cs, i => ∃ j, lookup d p n = .ok (.ok j) ∧ Walk d j cs i

/-- Pieces of a byte string between slashes; `acc` is the piece being read. -/
def pieces : Bytes → Bytes → List Bytes
  | acc, [] => [acc]
  | acc, c :: t => if c = 0x2f then acc :: pieces [] t else pieces (acc ++ [c]) t

/-- The components of a path: what is between the slashes, without the empty piece in front of the
first one. -/
def components (b : Bytes) : List Bytes := (pieces [] b).drop 1

/-- `p` has the entry `n`, which is `i`. -/
def Entry (d : DB) (p : Ino) (n : Bytes) (i : Ino) : Prop := lookup d p n = .ok (.ok i)

/-! ### C21 -/

/-- C21: an entry found by `lookup` exists, knows its directory and its name. -/
theorem C21_lookup {w : World} (h : Reach w) {d : DB} (hv : View w d) {p : Ino} (hp : p < W64) {n : Bytes} {i : Ino}
    (hl : lookup d p n = .ok (.ok i)) :
    parent d i = .ok p ∧ name d i = .ok n ∧ ∃ a, getattr d i = .ok (i, a) := by
  obtain ⟨s, hr, ok⟩ := h.inv.view hv
  obtain ⟨nd, h1, h2⟩ := (hr.lookup_iff ok hp).mp hl
  have hb := OK.lt ok h1
  have hne := OK.loc_ne_root ok h1 h2
  have hpar : parent d i = .ok p := by rw [hr.parent ok hb, if_neg hne, h1]; simp [Node.par, h2]
  refine ⟨hpar, ?_, nd.attr, by rw [hr.getattr ok hb, h1]⟩
  unfold Cache.name
  rw [if_neg hne, hpar]
  simp only
  rw [if_neg (by have := (ok.loc i nd p n h1 h2).1; unfold INVALID; omega)]
  exact hr.name2 h1 h2 ok

/-- C21, converse: an inode which has a directory is found there under its name. -/
theorem C21_parent {w : World} (h : Reach w) {d : DB} (hv : View w d) {i p : Ino} (hb : i < W64) (hi : i ≠ 1)
    (hp0 : p ≠ 0) (hpar : parent d i = .ok p) :
    ∃ n, name d i = .ok n ∧ lookup d p n = .ok (.ok i) := by
  obtain ⟨s, hr, ok⟩ := h.inv.view hv
  have hpar' := hpar
  rw [hr.parent ok hb, if_neg (show i ≠ ROOT from hi)] at hpar
  cases h1 : s.nodes i with
  | none => rw [h1] at hpar; cases hpar
  | some nd =>
    rw [h1] at hpar
    cases h2 : nd.loc with
    | none => simp [Node.par, h2] at hpar; omega
    | some l =>
      obtain ⟨q, n⟩ := l
      have : q = p := by simpa [Node.par, h2] using hpar
      subst this
      refine ⟨n, ?_, hr.lookup_found ok ⟨nd, h1, h2⟩⟩
      unfold Cache.name
      rw [if_neg (show i ≠ ROOT from hi), hpar']
      simp only
      rw [if_neg (by unfold INVALID; omega)]
      exact hr.name2 h1 h2 ok

/-- C21: `parent` and `name` fail exactly for inodes which do not exist. -/
theorem C21_missing {w : World} (h : Reach w) {d : DB} (hv : View w d) {i : Ino} (hb : i < W64) :
    (getattr d i = .error ENOENT ↔ parent d i = .error ENOENT) ∧ (getattr d i = .error ENOENT ↔ name d i = .error ENOENT)
    ∧ (getattr d i = .error ENOENT ∨ ∃ a p n, getattr d i = .ok (i, a) ∧ parent d i = .ok p ∧ name d i = .ok n) := by
  obtain ⟨s, hr, ok⟩ := h.inv.view hv
  by_cases hi : i = ROOT
  · subst hi
    obtain ⟨nd, h1, -⟩ := ok.root
    rw [hr.getattr ok hb, h1, hr.parent ok hb]
    refine ⟨by simp, by simp [Cache.name], .inr ⟨nd.attr, ROOT, [], rfl, by simp, by simp [Cache.name]⟩⟩
  · cases h1 : s.nodes i with
    | none =>
      have hp : parent d i = .error ENOENT := by rw [hr.parent ok hb, if_neg hi, h1]
      rw [hr.getattr ok hb, h1]
      refine ⟨by simp [hp], by simp [Cache.name, hp, hi], .inl rfl⟩
    | some nd =>
      have hp : parent d i = .ok nd.par := by rw [hr.parent ok hb, if_neg hi, h1]
      have hn : ∃ n, name d i = .ok n := by
        unfold Cache.name; rw [if_neg hi, hp]; simp only
        split
        · exact ⟨[], rfl⟩
        · rename_i h0
          cases h2 : nd.loc with
          | none => exact absurd (by simp [Node.par, h2, INVALID]) h0
          | some l =>
            obtain ⟨q, n⟩ := l
            have : nd.par = q := by simp [Node.par, h2]
            rw [this]; exact ⟨n, hr.name2 h1 h2 ok⟩
      obtain ⟨n, hn⟩ := hn
      rw [hr.getattr ok hb, h1]
      exact ⟨by simp [hp], by simp [hn], .inr ⟨nd.attr, nd.par, n, rfl, hp, hn⟩⟩

/-- C21: `name` with a directory gives the name under which `lookup` finds the inode there, and ENOENT if
it is not there. -/
theorem C21_name_in {w : World} (h : Reach w) {d : DB} (hv : View w d) {i p : Ino} (hb : i < W64) (hp : p < W64) (hi : i ≠ 1) (hp0 : p ≠ 0) :
    (∀ n, name2 d p i = .ok n ↔ lookup d p n = .ok (.ok i)) ∧ (name2 d p i = .error ENOENT ↔ ∀ n, lookup d p n ≠ .ok (.ok i)) := by
  obtain ⟨s, hr, ok⟩ := h.inv.view hv
  have key : (∃ nd n, s.nodes i = some nd ∧ nd.loc = some (p, n)) ∨ (name2 d p i = .error ENOENT ∧ ∀ n, lookup d p n ≠ .ok (.ok i)) := by
    by_cases hx : ∃ nd n, s.nodes i = some nd ∧ nd.loc = some (p, n)
    · exact .inl hx
    · refine .inr ⟨?_, fun n hl => ?_⟩
      · unfold Cache.name2
        rw [if_neg (fun h => h.elim hi hp0)]
        rw [hr.ti_none ok hp hb (fun nd n h1 h2 => hx ⟨nd, n, h1, h2⟩)]
      · obtain ⟨nd, h1, h2⟩ := (hr.lookup_iff ok hp).mp hl
        exact hx ⟨nd, n, h1, h2⟩
  rcases key with ⟨nd, n, h1, h2⟩ | ⟨h1, h2⟩
  · have hn := hr.name2 h1 h2 ok
    have hl := hr.lookup_found ok ⟨nd, h1, h2⟩
    rw [hn]
    refine ⟨fun m => ⟨fun e => ?_, fun e => ?_⟩, ⟨fun e => (by cases e), fun e => absurd hl (e n)⟩⟩
    · injection e with e; rw [← e]; exact hl
    · obtain ⟨nd', h3, h4⟩ := (hr.lookup_iff ok hp).mp e
      rw [h1] at h3; cases h3
      rw [h2] at h4; cases h4
      rfl
  · rw [h1]
    exact ⟨fun m => ⟨fun e => (by cases e), fun e => absurd e (h2 m)⟩, ⟨fun _ => h2, fun _ => rfl⟩⟩

/-- Two names in one directory, one of which was replaced by a file of another type, and a locked
orphan: hypotheses of the theorems hold. -/
def demoTree : List Call := opened ++ [.beginRW, .op (.emplace 1 "a".toUTF8.toList dirA), .op (.emplace 2 "b".toUTF8.toList (fileA 3)),
  .op (.emplace 2 "c".toUTF8.toList dirA), .op (.emplace 4 "d".toUTF8.toList linkA), .op (.lock 4), .op (.unlinkIno 4), .commit]

/-- Cases of `C21_lookup`, `C21_parent`, `C21_missing` and `C21_name_in` (for an entry and for none), in the
view `w.db` of an open cache: an object in a directory, a missing inode, an unlinked directory with its
contents. -/
example : ∃ w, ReachP w ∧ w.phase = .up ∧ lookup w.db 2 "b".toUTF8.toList = .ok (.ok 3) ∧ parent w.db 3 = .ok 2
    ∧ name w.db 3 = .ok "b".toUTF8.toList ∧ getattr w.db 9 = .error ENOENT ∧ name2 w.db 2 3 = .ok "b".toUTF8.toList ∧ name2 w.db 1 3 = .error ENOENT ∧ parent w.db 4 = .ok 0 ∧ lookup w.db 4 "d".toUTF8.toList = .ok (.ok 5) :=
  demoP_ex (cs := demoTree) (by decide +kernel)

/-! ### C22 -/

theorem pieces_append (a b : Bytes) (acc : Bytes) (ha : (0x2f : UInt8) ∉ a) :
    pieces acc (a ++ (0x2f : UInt8) :: b) = (acc ++ a) :: pieces [] b := by
  induction a generalizing acc with
  | nil => simp [pieces]
  | cons x t ih =>
    rw [List.mem_cons, not_or] at ha
    show pieces acc (x :: (t ++ _)) = _
    rw [pieces, if_neg (fun h => ha.1 h.symm), ih _ ha.2]; simp

theorem pieces_end (a acc : Bytes) (ha : (0x2f : UInt8) ∉ a) : pieces acc a = [acc ++ a] := by
  induction a generalizing acc with
  | nil => simp [pieces]
  | cons x t ih =>
    rw [List.mem_cons, not_or] at ha
    unfold pieces
    rw [if_neg (fun h => ha.1 h.symm), ih _ ha.2]; simp

theorem pieces_pathStr (cs : List Bytes) (h : ∀ n ∈ cs, (0x2f : UInt8) ∉ n) (a : Bytes) (ha : (0x2f : UInt8) ∉ a) (acc : Bytes) :
    pieces acc (a ++ pathStr cs) = (acc ++ a) :: cs := by
  induction cs generalizing a acc with
  | nil => simp [pathStr, pieces_end a acc ha]
  | cons n t ih =>
    have e : pathStr (n :: t) = (0x2f : UInt8) :: (n ++ pathStr t) := by simp [pathStr]
    rw [e, pieces_append _ _ _ ha, ih (fun m hm => h m (by simp [hm])) n (h n (by simp))]; simp

theorem components_pathStr (cs : List Bytes) (h : ∀ n ∈ cs, (0x2f : UInt8) ∉ n) : components (pathStr cs) = cs := by
  unfold components
  have := pieces_pathStr cs h [] (by simp) []
  simp only [List.nil_append] at this
  rw [this]; rfl

variable {s : Tree}

theorem PathTo.names (ok : s.OK) {i cs} (h : s.PathTo i cs) : ∀ n ∈ cs, GoodName n := by
  induction h with
  | root => simp
  | child hat _ ih =>
    obtain ⟨nd, h1, h2⟩ := hat
    intro m hm
    rcases List.mem_append.mp hm with hm | hm
    · exact ih m hm
    · rw [List.mem_singleton] at hm; subst hm; exact (ok.loc _ _ _ _ h1 h2).2.2

theorem Walk.snoc {d : DB} {p j i : Ino} {cs : List Bytes} {n : Bytes} (h : Walk d p cs j) (hl : lookup d j n = .ok (.ok i)) :
    Walk d p (cs ++ [n]) i := by
  induction cs generalizing p with
  | nil => cases h; exact ⟨i, hl, rfl⟩
  | cons m t ih => obtain ⟨k, h1, h2⟩ := h; exact ⟨k, h1, ih h2⟩

theorem Rep.walk_of_path {d : DB} (hr : Rep s d) (ok : s.OK) {i cs} (h : s.PathTo i cs) : Walk d ROOT cs i := by
  induction h with
  | root => rfl
  | child hat _ ih => exact ih.snoc (hr.lookup_found ok hat)

theorem Rep.path_of_walk {d : DB} (hr : Rep s d) (ok : s.OK) {cs : List Bytes} : ∀ {p i ds}, s.PathTo p ds → p < W64 → Walk d p cs i →
    s.PathTo i (ds ++ cs) := by
  induction cs with
  | nil => intro p i ds hp _ hw; cases hw; simpa using hp
  | cons n t ih =>
    intro p i ds hp hb hw
    obtain ⟨j, h1, h2⟩ := hw
    have hat := (hr.lookup_iff ok hb).mp h1
    have hb' : j < W64 := by obtain ⟨nd, g, -⟩ := hat; exact OK.lt ok g
    have := ih (.child hat hp) hb' h2
    simpa using this

/-- C22: `path` terminates; its result, split at slashes, leads from the root to the inode; it fails
with ENOENT exactly if no sequence of names leads from the root to the inode. -/
theorem C22_path {w : World} (h : ReachP w) {d : DB} (hv : View w d) {i : Ino} (hb : i < W64) :
    ∃ r, path d i = .ok r ∧ (i = 1 → r = .ok []) ∧ (∀ b, r = .ok b → Walk d 1 (components b) i)
      ∧ (∀ e, r = .error e → e = ENOENT ∧ ¬ ∃ cs, Walk d 1 cs i) := by
  obtain ⟨s, hr, ok, wf⟩ := h.inv.view hv
  by_cases hc : s.Conn i
  · obtain ⟨cs, hp⟩ := hc
    refine ⟨_, hr.path_found ok hp, ?_, ?_, ?_⟩
    · intro hi; subst hi; rw [PathTo.root_nil ok hp]; rfl
    · intro b hb; cases hb
      rw [components_pathStr cs (fun n hn => (PathTo.names ok hp n hn).2.2)]
      exact hr.walk_of_path ok hp
    · intro e he; cases he
  · refine ⟨_, hr.path_missing ok wf hb hc, ?_, ?_, ?_⟩
    · intro hi; subst hi; exact absurd ⟨[], .root⟩ hc
    · intro b hb; cases hb
    · intro e he; cases he
      refine ⟨rfl, ?_⟩
      rintro ⟨cs, hw⟩
      exact hc ⟨_, hr.path_of_walk ok .root (by decide) hw⟩

/-- C22: the path of an inode which is found under the names `cs` is these names, a slash in front of
each; in particular there is only one such sequence of names. -/
theorem C22_names {w : World} (h : Reach w) {d : DB} (hv : View w d) {i : Ino} {cs : List Bytes} (hw : Walk d 1 cs i) :
    path d i = .ok (.ok (cs.map (fun n => (0x2f : UInt8) :: n)).flatten) ∧ ∀ ds, Walk d 1 ds i → ds = cs := by
  obtain ⟨s, hr, ok⟩ := h.inv.view hv
  have hp := hr.path_of_walk ok .root (by decide) hw
  refine ⟨hr.path_found ok hp, ?_⟩
  intro ds hw'
  have := PathTo.unique ok (hr.path_of_walk ok .root (by decide) hw') hp
  simpa using this

/-- Cases of `C22_path` (with a path, unlinked, and below something unlinked) and of `C22_names`. -/
example : ∃ w, ReachP w ∧ w.phase = .up ∧ path w.db 3 = .ok (.ok "/a/b".toUTF8.toList) ∧ path w.db 4 = .ok (.error ENOENT)
    ∧ path w.db 5 = .ok (.error ENOENT) ∧ components "/a/b".toUTF8.toList = ["a".toUTF8.toList, "b".toUTF8.toList] :=
  demoP_ex (cs := demoTree) (by decide +kernel)

/-- Without the restriction to existing directories, a cycle can be made, and `path` does not end:
`emplace(3, "a")` gives inode 2, `emplace(2, "b")` gives inode 3. -/
theorem C22_cycle_counterexample : ∃ w, Reach w ∧ w.phase = .up ∧ path w.db 2 = .error (.diverge 667)
    ∧ parent w.db 2 = .ok 3 ∧ parent w.db 3 = .ok 2 :=
  demo_ex (cs := opened ++ [.beginRW, .op (.emplace 3 "a".toUTF8.toList dirA), .op (.emplace 2 "b".toUTF8.toList dirA), .commit]) (by decide +kernel)

/-! ### C23 -/

/-- The cache tables describe one tree (in terms of the keys and values of the databases): an entry
record `(p, i) ↦ n` in one table has its counterpart `(p, n) ↦ i` in the other, the inode record of
`i` names `p` as its directory; inodes with a directory have such records; the orphan table has
exactly the inodes without directory, apart from the root; link targets belong to symbolic links. -/
structure Consistent (d : DB) : Prop where
  keysI : ∀ k e, d.treei.find k = some e → ∃ p i, p < W64 ∧ i < W64 ∧ k = key16 p i
  keysN : ∀ k e, d.treen.find k = some e → ∃ p n, p < W64 ∧ k = keyN p n
  both : ∀ p i n, p < W64 → i < W64 →
    ((∃ e, d.treei.find (key16 p i) = some e ∧ e.name = n ∧ e.ino = i) ↔ ∃ e, d.treen.find (keyN p n) = some e ∧ e.ino = i ∧ e.name = n)
  child : ∀ p i e, p < W64 → i < W64 → d.treei.find (key16 p i) = some e → ∃ x, d.inodes.find (key8 i) = some x ∧ x.parent = p ∧ p ≠ 0
  place : ∀ i x, i < W64 → d.inodes.find (key8 i) = some x → x.parent ≠ 0 → ∃ e, d.treei.find (key16 x.parent i) = some e
  keysO : ∀ k, d.orphans.find k = some () → ∃ i, i < W64 ∧ k = key8 i
  orphan : ∀ i, i < W64 → (d.orphans.find (key8 i) = some () ↔ i ≠ 1 ∧ ∃ x, d.inodes.find (key8 i) = some x ∧ x.parent = 0)
  links : ∀ k t, d.links.find k = some t → ∃ i x, i < W64 ∧ k = key8 i ∧ d.inodes.find (key8 i) = some x ∧ fmt x.attr.mode = S_IFLNK

theorem Rep.consistent {d : DB} (hr : Rep s d) (ok : s.OK) : Consistent d := by
  have par : ∀ {nd : Node} {p n}, nd.loc = some (p, n) → nd.par = p := by intro nd p n h; simp [Node.par, h]
  refine ⟨?_, ?_, ?_, ?_, ?_, ?_, ?_, ?_⟩
  · intro k e h
    obtain ⟨i, nd, p, n, h1, h2, h3, -⟩ := (hr.treei _ _).mp h
    exact ⟨p, i, (ok.loc _ _ _ _ h2 h3).2.1, OK.lt ok h2, h1⟩
  · intro k e h
    obtain ⟨i, nd, p, n, h1, h2, h3, -⟩ := (hr.treen _ _).mp h
    exact ⟨p, n, (ok.loc _ _ _ _ h2 h3).2.1, h1⟩
  · intro p i n hp hi
    constructor
    · rintro ⟨e, h, he, -⟩
      obtain ⟨j, nd, q, m, h1, h2, h3, h4⟩ := (hr.treei _ _).mp h
      obtain ⟨rfl, rfl⟩ := (key16_inj hp hi (ok.loc _ _ _ _ h2 h3).2.1 (OK.lt ok h2)).mp h1
      subst h4; cases he
      exact ⟨_, hr.tn_some h2 h3, rfl, rfl⟩
    · rintro ⟨e, h, he, -⟩
      obtain ⟨j, nd, q, m, h1, h2, h3, h4⟩ := (hr.treen _ _).mp h
      obtain ⟨rfl, rfl⟩ := (keyN_inj hp (ok.loc _ _ _ _ h2 h3).2.1).mp h1
      subst h4; cases he
      exact ⟨_, hr.ti_some h2 h3, rfl, rfl⟩
  · intro p i e hp hi h
    obtain ⟨j, nd, q, m, h1, h2, h3, h4⟩ := (hr.treei _ _).mp h
    obtain ⟨rfl, rfl⟩ := (key16_inj hp hi (ok.loc _ _ _ _ h2 h3).2.1 (OK.lt ok h2)).mp h1
    exact ⟨_, hr.ino_some h2, par h3, by have := (ok.loc _ _ _ _ h2 h3).1; omega⟩
  · intro i x hi h hx
    rw [hr.ino ok hi] at h
    cases h1 : s.nodes i with
    | none => rw [h1] at h; cases h
    | some nd =>
      rw [h1] at h; cases h
      cases h2 : nd.loc with
      | none => exact absurd (by simp [recOf, Node.par, h2]) hx
      | some l =>
        obtain ⟨p, n⟩ := l
        have : (recOf nd).parent = p := par h2
        rw [this]; exact ⟨_, hr.ti_some h1 h2⟩
  · intro k h
    obtain ⟨i, nd, h1, h2, -⟩ := (hr.orphans _ _).mp h
    exact ⟨i, OK.lt ok h2, h1⟩
  · intro i hi
    rw [hr.orphans]
    constructor
    · rintro ⟨j, nd, h1, h2, h4, h3⟩
      have := (key8_inj hi (OK.lt ok h2)).mp h1; subst this
      exact ⟨h3, _, hr.ino_some h2, by simp [recOf, Node.par, h4]⟩
    · rintro ⟨hne, x, hx, hx0⟩
      rw [hr.ino ok hi] at hx
      cases h1 : s.nodes i with
      | none => rw [h1] at hx; cases hx
      | some nd =>
        rw [h1] at hx; cases hx
        refine ⟨i, nd, rfl, h1, ?_, hne⟩
        cases h2 : nd.loc with
        | none => rfl
        | some l =>
          obtain ⟨p, n⟩ := l
          have : (recOf nd).parent = p := par h2
          have h3 := (ok.loc _ _ _ _ h1 h2).1
          omega
  · intro k t h
    obtain ⟨i, nd, h1, h2, h3⟩ := (hr.links _ _).mp h
    exact ⟨i, _, OK.lt ok h2, h1, hr.ino_some h2, ok.target _ _ _ h2 h3⟩

/-- C23: the tables are consistent in every state any sequence of calls leads to, for every open
transaction and on disk. -/
theorem C23_consistent {w : World} (h : Reach w) {d : DB} (hv : View w d) : Consistent d := by
  obtain ⟨s, hr, ok⟩ := h.inv.view hv
  exact hr.consistent ok

/-- C23: with entries made only in existing directories, every inode's directory exists and is a
directory. -/
theorem C23_directories {w : World} (h : ReachP w) {d : DB} (hv : View w d) {i : Ino} (hi : i < W64) (h1 : i ≠ 1) {p : Ino}
    (hp0 : p ≠ 0) (hp : parent d i = .ok p) : ∃ a, getattr d p = .ok (p, a) ∧ fmt a.mode = S_IFDIR := by
  obtain ⟨s, hr, ok, wf⟩ := h.inv.view hv
  rw [hr.parent ok hi, if_neg (show i ≠ ROOT from h1)] at hp
  cases h1 : s.nodes i with
  | none => rw [h1] at hp; cases hp
  | some nd =>
    rw [h1] at hp
    cases h2 : nd.loc with
    | none => simp [Node.par, h2] at hp; omega
    | some l =>
      obtain ⟨q, n⟩ := l
      have : q = p := by simpa [Node.par, h2] using hp
      subst this
      obtain ⟨-, x, h3, h4⟩ := wf i nd q n h1 h2
      exact ⟨x.attr, by rw [hr.getattr ok (OK.lt ok h3), h3], h4⟩

/-- A case of `C23_consistent` and of `C23_directories`: all four tables which are compared have entries. -/
example : ∃ w, ReachP w ∧ w.phase = .up ∧ w.db.orphans.find (key8 4) = some () ∧ (w.db.treei.find (key16 2 3)).isSome
    ∧ (w.db.treen.find (keyN 2 "b".toUTF8.toList)).isSome :=
  demoP_ex (cs := demoTree) (by decide +kernel)

/-- `emplace` with the invalid inode number 0 as parent (not allowed above) makes an inode without
directory which is not in the orphan table. -/
theorem C23_invalid_parent_counterexample :
    ∃ (w w' : World) (o : Out), Reach w ∧ w.step (.op (.emplace 0 "a".toUTF8.toList dirA)) = .ok (w', o) ∧ w'.phase = .up ∧ ¬ Consistent w'.db := by
  obtain ⟨w, h1, h2⟩ := demo_ex (cs := opened ++ [.beginRW]) (P := fun w =>
    (match w.step (.op (.emplace 0 "a".toUTF8.toList dirA)) with
      | .ok (w', _) => decide (w'.phase = .up ∧ w'.db.orphans.find (key8 2) = none ∧ (w'.db.inodes.find (key8 2)).map (·.parent) = some 0)
      | .error _ => false) = true) (by decide +kernel)
  split at h2
  · rename_i w' o hs
    rw [decide_eq_true_eq] at h2
    refine ⟨w, w', o, h1, hs, h2.1, fun hc => ?_⟩
    obtain ⟨-, h3, h4⟩ := h2
    cases hx : w'.db.inodes.find (key8 2) with
    | none => rw [hx] at h4; cases h4
    | some x =>
      rw [hx] at h4
      have := (hc.orphan 2 (by decide)).mpr ⟨by decide, x, hx, by simpa using h4⟩
      rw [h3] at this; cases this
  · cases h2

/-! ### C27 -/

/-- C27: iterating `readdir` from 0, feeding back the inode of each result, gives `.`, then `..`
unless it is the root directory, then all entries of the directory, each exactly once, then end of
file. (For directories which have a place in the tree, and the root.) -/
theorem C27_readdir_partial {w : World} (h : ReachP w) {d : DB} (hv : View w d) {dir p : Ino} (hd : dir < W64)
    (hp : parent d dir = .ok p) (hp0 : p ≠ 0) :
    ∃ l : List (Ino × Bytes), ReaddirFrom d dir 0 ((dir, [0x2e]) :: (if dir = 1 then [] else [(p, [0x2e, 0x2e])]) ++ l)
      ∧ l.Nodup ∧ (∀ i n, (i, n) ∈ l ↔ lookup d dir n = .ok (.ok i)) := by
  obtain ⟨s, hr, ok, wf⟩ := h.inv.view hv
  refine ⟨kids d dir, ?_, hr.kids_nodup ok, fun i n => ?_⟩
  · by_cases h1 : dir = ROOT
    · subst h1
      rw [if_pos (show ROOT = 1 from rfl)]
      exact hr.readdir_root ok (by
        rintro n ⟨nd, g1, g2⟩
        have := (wf _ _ _ _ g1 g2).1; omega)
    · rw [if_neg (show dir ≠ 1 from h1)]
      rw [hr.parent ok hd, if_neg h1] at hp
      cases h2 : s.nodes dir with
      | none => rw [h2] at hp; cases hp
      | some nd =>
        rw [h2] at hp
        cases h3 : nd.loc with
        | none => simp [Node.par, h3] at hp; omega
        | some l =>
          obtain ⟨q, m⟩ := l
          have : q = p := by simpa [Node.par, h3] using hp
          subst this
          have hlt := (wf _ _ _ _ h2 h3).1
          refine hr.readdir_all ok h2 h3 ?_ ?_ (by omega)
          · rintro n ⟨x, g1, g2⟩; have := (wf _ _ _ _ g1 g2).1; omega
          · rintro n ⟨x, g1, g2⟩; have := (wf _ _ _ _ g1 g2).1; omega
  · rw [hr.mem_kids ok hd, hr.lookup_iff ok hd]

/-- Names of a listing. -/
theorem C27_unique {d : DB} {dir prev : Ino} {l l' : List (Ino × Bytes)} (h : ReaddirFrom d dir prev l) (h' : ReaddirFrom d dir prev l') :
    l = l' := h.unique h'

/-- A directory which was unlinked while locked: its `..` is inode 0, so that feeding it back starts
all over and the listing never ends. -/
theorem C27_orphan_counterexample : ∃ w, ReachP w ∧ w.phase = .up ∧ getattr w.db 2 = .ok (2, dirA) ∧ ¬ ∃ l, ReaddirFrom w.db 2 0 l := by
  obtain ⟨w, h1, h2, h3, h4, h5⟩ := demoP_ex
    (cs := opened ++ [.beginRW, .op (.emplace 1 "a".toUTF8.toList dirA), .op (.lock 2), .op (.unlinkIno 2), .commit])
    (P := fun w => w.phase = .up ∧ getattr w.db 2 = .ok (2, dirA) ∧ readdir w.db 2 0 = .ok (.ok (2, [0x2e]))
      ∧ readdir w.db 2 2 = .ok (.ok (0, [0x2e, 0x2e]))) (by decide +kernel)
  refine ⟨w, h1, h2, h3, ?_⟩
  rintro ⟨l, hl⟩
  have gen : ∀ (n : Nat) (l : List (Ino × Bytes)), l.length = n → ¬ ReaddirFrom w.db 2 0 l := by
    intro n
    induction n using Nat.strongRecOn with
    | ind n ih =>
      intro l hn hl
      cases hl with
      | eof e => rw [h4] at e; cases e
      | entry e r =>
        rw [h4] at e; cases e
        cases r with
        | eof e => rw [h5] at e; cases e
        | entry e r =>
          rw [h5] at e; cases e
          rename_i rest
          simp only [List.length_cons] at hn
          exact ih rest.length (by omega) rest rfl r
  exact gen _ l rfl hl

/-- The hypotheses of `C27_readdir_partial`, and a complete listing as `C27_unique` compares them. -/
example : ∃ w, ReachP w ∧ w.phase = .up ∧ parent w.db 2 = .ok 1 ∧ readdir w.db 2 0 = .ok (.ok (2, [0x2e]))
    ∧ readdir w.db 2 2 = .ok (.ok (1, [0x2e, 0x2e])) ∧ readdir w.db 2 1 = .ok (.ok (3, "b".toUTF8.toList)) ∧ readdir w.db 2 3 = .ok (.error EOF_) :=
  demoP_ex (cs := demoTree) (by decide +kernel)

/-! ### C33 -/

/-- C33: names returned by `name`, `readdir` and the components of `path` are valid. -/
theorem C33_names {w : World} (h : Reach w) {d : DB} (hv : View w d) :
    (∀ i n, i < W64 → name d i = .ok n → n.length ≤ 503 ∧ (0 : UInt8) ∉ n ∧ (0x2f : UInt8) ∉ n)
    ∧ (∀ dir prev i n, dir < W64 → prev < W64 → readdir d dir prev = .ok (.ok (i, n)) → n.length ≤ 503 ∧ (0 : UInt8) ∉ n ∧ (0x2f : UInt8) ∉ n)
    ∧ (∀ i b, i < W64 → path d i = .ok (.ok b) → ∀ n ∈ components b, n.length ≤ 503 ∧ (0 : UInt8) ∉ n ∧ (0x2f : UInt8) ∉ n) := by
  obtain ⟨s, hr, ok⟩ := h.inv.view hv
  refine ⟨?_, ?_, ?_⟩
  · intro i n hi hn
    unfold Cache.name at hn
    split at hn
    · cases hn; simp
    · rename_i h1
      rw [hr.parent ok hi, if_neg h1] at hn
      cases h2 : s.nodes i with
      | none => rw [h2] at hn; cases hn
      | some nd =>
        rw [h2] at hn
        simp only at hn
        split at hn
        · cases hn; simp
        · rename_i h0
          cases h3 : nd.loc with
          | none => exact absurd (by simp [Node.par, h3, INVALID]) h0
          | some l =>
            obtain ⟨q, m⟩ := l
            have : nd.par = q := by simp [Node.par, h3]
            rw [this, hr.name2 h2 h3 ok] at hn; cases hn
            exact (ok.loc _ _ _ _ h2 h3).2.2
  · intro dir prev i n hd hprev hn
    unfold readdir at hn
    split at hn
    · cases hn; decide
    · split at hn
      · cases hn
      · split at hn
        · cases hn; decide
        · have hmem : ∀ {k : Bytes} {x}, x ∈ d.treei.lower k → GoodName x.2.name ∧ x.1.length = 16 := by
            intro k x hx
            obtain ⟨j, nd, q, m, g1, g2, g3, g4⟩ := (hr.treei _ _).mp ((Tab.mem_iff _ _ _).mp ((Tab.mem_lower_iff _ _ _).mp hx).1)
            rw [g4, g1]; exact ⟨(ok.loc _ _ _ _ g2 g3).2.2, by simp⟩
          unfold readdirAt at hn
          split at hn
          · cases hn
          · rename_i e t hl
            have he := hmem (hl ▸ List.mem_cons_self)
            rw [chk_of (decide_eq_true he.2)] at hn
            simp only [bind_ok] at hn
            split at hn
            · cases hn
            · split at hn
              · split at hn
                · cases hn
                · rename_i e' t'
                  have he' := hmem (k := _) (x := e') (by rw [hl]; simp)
                  rw [chk_of (decide_eq_true he'.2)] at hn
                  simp only [bind_ok] at hn
                  split at hn
                  · cases hn
                  · cases hn; exact he'.1
              · cases hn; exact he.1
  · intro i b hi hp
    obtain ⟨cs, h1, rfl⟩ := hr.path_iff ok hi hp
    rw [components_pathStr cs (fun n hn => (PathTo.names ok h1 n hn).2.2)]
    exact PathTo.names ok h1

/-- C33: `emplace` with another name fails, with ENAMETOOLONG for too long ones and EINVAL otherwise,
and changes nothing. -/
theorem C33_rejected {w w' : World} {p : Ino} {n : Bytes} {a : Attrs} {out : Out}
    (hn : ¬ (n.length ≤ 503 ∧ (0 : UInt8) ∉ n ∧ (0x2f : UInt8) ∉ n)) (hs : w.step (.op (.emplace p n a)) = .ok (w', out)) :
    w' = w ∧ out = .ino (.error (if 503 < n.length then ENAMETOOLONG else EINVAL)) := by
  simp only [World.step] at hs
  split at hs
  · cases hs
  · rename_i f r hst
    split at hs
    · cases hs
    · obtain ⟨e, h1, h2⟩ := emplace_badname (t := f.txn w.refs) (p := p) (a := a) hn
      simp only [doOp, h1, bind_ok, pure_eq_ok] at hs
      cases hs
      refine ⟨?_, by rw [h2]⟩
      cases w; simp only at hst; subst hst; rfl

/-- C33: `emplace` accepts all other names. -/
theorem C33_accepted {w w' : World} (h : Reach w) {p : Ino} {n : Bytes} {a : Attrs} {out : Out}
    (hn : n.length ≤ 503 ∧ (0 : UInt8) ∉ n ∧ (0x2f : UInt8) ∉ n) (ha : Allowed w (.op (.emplace p n a)))
    (hs : w.step (.op (.emplace p n a)) = .ok (w', out)) : ∃ i, out = .ino (.ok i) := by
  obtain ⟨s, t, t', o⟩ := h.op ha hs
  have hcall := o.call
  simp only [doOp] at hcall
  obtain ⟨hp0, hnext⟩ := o.emp p n a rfl
  rcases emplace_cases o.trep (n := n) (a := a) o.range hp0 hnext with ⟨h1, -⟩ | ⟨-, i, _, _, _, _, _, h1, -⟩ | ⟨-, _, _, _, _, h1, -⟩
  · exact absurd hn h1
  · rw [h1] at hcall; cases hcall; exact ⟨_, rfl⟩
  · rw [h1] at hcall; cases hcall; exact ⟨_, rfl⟩

/-- A name as in `C33_names`; calls with forbidden names (`C33_rejected`) and with a name of the greatest length
(`C33_accepted`). -/
example : ∃ w, ReachP w ∧ w.phase = .up ∧ name w.db 3 = .ok "b".toUTF8.toList ∧ (w.run [.beginRW, .op (.emplace 1 "a/b".toUTF8.toList dirA),
      .op (.emplace 1 (List.replicate 504 65) dirA), .op (.emplace 1 (List.replicate 503 65) dirA)]).map Prod.snd
    = .ok [.unit (.ok ()), .ino (.error EINVAL), .ino (.error ENAMETOOLONG), .ino (.ok 6)] :=
  demoP_ex (cs := demoTree) (by decide +kernel)

/-! ### C34 -/

/-- C34: the root is an existing directory, its own parent, with empty name and path. -/
theorem C34_root {w : World} (h : Reach w) {d : DB} (hv : View w d) :
    (∃ a, getattr d 1 = .ok (1, a) ∧ fmt a.mode = S_IFDIR) ∧ parent d 1 = .ok 1 ∧ name d 1 = .ok [] ∧ path d 1 = .ok (.ok []) := by
  obtain ⟨s, hr, ok⟩ := h.inv.view hv
  obtain ⟨nd, h1, h2, -⟩ := ok.root
  exact ⟨⟨nd.attr, by rw [hr.getattr ok (by decide), show s.nodes 1 = _ from h1], h2⟩, rfl, rfl, rfl⟩

/-- C34: unlinking the root fails with EIO and changes nothing; no operation is able to. -/
theorem C34_unlink {w w' : World} (h : Reach w) {out : Out} (hs : w.step (.op (.unlinkIno 1)) = .ok (w', out)) :
    w' = w ∧ out = .unit (.error EIO) := by
  have hs' := hs
  simp only [World.step] at hs
  split at hs
  · cases hs
  · rename_i f r hst
    split at hs
    · cases hs
    · obtain ⟨⟨s, h1, h2⟩, -⟩ := h.inv.frames f (by rw [hst]; simp)
      have := unlinkIno_root (t := f.txn w.refs) ⟨h1, h2⟩
      have : unlinkIno (f.txn w.refs) 1 = .ok (f.txn w.refs, .error EIO) := this
      simp only [doOp, this, bind_ok, pure_eq_ok] at hs
      cases hs
      refine ⟨?_, rfl⟩
      cases w; simp only at hst; subst hst; rfl

/-- C34: no name leads to the root. -/
theorem C34_no_entry {w : World} (h : Reach w) {d : DB} (hv : View w d) {p : Ino} (hp : p < W64) {n : Bytes} :
    lookup d p n ≠ .ok (.ok 1) := by
  intro hl
  obtain ⟨s, hr, ok⟩ := h.inv.view hv
  obtain ⟨nd, h1, h2⟩ := (hr.lookup_iff ok hp).mp hl
  exact OK.loc_ne_root ok h1 h2 rfl

/-- A view for `C34_root` and `C34_no_entry`, and a call as in `C34_unlink`. -/
example : ∃ w, ReachP w ∧ w.phase = .up ∧ (w.run [.beginRW, .op (.unlinkIno 1)]).map Prod.snd = .ok [.unit (.ok ()), .unit (.error EIO)] :=
  demoP_ex (cs := demoTree) (by decide +kernel)

end Dragonstash.Cache
