/-
  C121: a cache in which every directory was opened and every link was read is a copy of the host (C119, C120), with the database file as bytes.
-/
import Verif.Props.Links
import Verif.Props.LocalBytes
import Verif.Props.LifeBytes
namespace Dragonstash.MTB
open Cache FS Conc ConcB
open Local (HTree Host Has Plain backend Whole DirAt Unchanged rootR treeA treeA_tree treeA_whole rootR_ne rootR_nul)

variable {root : Bytes} {T : HTree}

/-! ### Specification -/

/-- As `Local.Walked`, on the bytes of the database file: while the host has the tree `T` or is not connected, requests are served by any number of
threads, and the process dies and is started again; the directories `l` were opened on the way and the links `ls` in them were read
after that, at moments when the host was connected. -/
inductive Walked (root : Bytes) (T : HTree) (m0 : MSys) : List (List Bytes) → List (List Bytes) → MSys → Prop
  | start : Walked root T m0 [] [] m0
  | step {l ls m m' k} : Walked root T m0 l ls m → Step m k m' → Proper m k m' → Room m'.w →
      (∀ q, m'.hist = m.hist ++ [q] → Unchanged root T q.B ∧ FSB.onLink m.w.disk q.rq) → Walked root T m0 l ls m'
  | crash {l ls m pad pad' uid gid now n m'} : Walked root T m0 l ls m → MountFits uid gid now → mount pad pad' m.w.disk uid gid now n = .ok m' →
      Room m'.w → Walked root T m0 l ls m'
  | opened {l ls m m' k q dir cs} : Walked root T m0 l ls m → Step m k m' → Proper m k m' → Room m'.w → m'.hist = m.hist ++ [q] →
      q.rq = .opendir dir → dir < W64 → Cache.B.path m.w.disk dir = .ok (.ok (pathStr cs)) → (∀ c ∈ cs, Plain c) →
      (∃ H, q.B = backend root H ∧ Has root H T) → DirAt T cs → Walked root T m0 (cs :: l) ls m'
  | read {l ls m m' k q i cs n o} : Walked root T m0 l ls m → cs ∈ l → Step m k m' → Proper m k m' → Room m'.w → m'.hist = m.hist ++ [q] →
      q.rq = .readlink i → i < W64 → Cache.B.path m.w.disk i = .ok (.ok (pathStr (cs ++ [n]))) → (∀ c ∈ cs ++ [n], Plain c) →
      (∃ H, q.B = backend root H ∧ Has root H T) → T (cs ++ [n]) = some o → fmt o.stat.mode = S_IFLNK → Walked root T m0 l ((cs ++ [n]) :: ls) m'

/-- What the file shows is `T` (as `Local.IsCopy`, in terms of the reading functions on bytes), with the targets of links. -/
structure IsCopy (T : HTree) (d : Cache.B.DB) : Prop where
  shown : ∀ i cs, i < W64 → cs ≠ [] → (∀ c ∈ cs, Plain c) → Cache.B.path d i = .ok (.ok (pathStr cs)) →
    (∀ c ∈ cs, c.length ≤ 503) ∧ ∃ o, Local.Entry T cs o ∧ Cache.B.getattr d i = .ok (.ok (i, fromBackend o.stat))
  there : ∀ cs o, (∀ c ∈ cs, Plain c ∧ c.length ≤ 503) → Local.Entry T cs o → ∃ i, i < W64 ∧ Cache.B.path d i = .ok (.ok (pathStr cs))

/-- The targets of all links in the file are those on the host. -/
def Targets (T : HTree) (d : Cache.B.DB) : Prop :=
  ∀ i cs o, i < W64 → cs ≠ [] → (∀ c ∈ cs, Plain c) → Cache.B.path d i = .ok (.ok (pathStr cs)) → T cs = some o → fmt o.stat.mode = S_IFLNK →
    ∃ t, o.target = some t ∧ Cache.B.readlink d i = .ok (.ok t)

/-! ### Theorems -/

theorem Walked.rel {b0 b : MSys} {m0 : MT.MSys} {l ls : List (List Bytes)} (h : Walked root T b0 l ls b) (h0 : MSRel b0 m0) : ∃ m, Local.Walked root T m0 l ls m ∧ MSRel b m := by
  induction h with
  | start => exact ⟨m0, .start, h0⟩
  | step _ hs hp hr hq ih =>
    obtain ⟨m, h1, h2⟩ := ih
    obtain ⟨m', h3, h4⟩ := step_left h2 hs hp.new
    refine ⟨m', .step h1 h3 (proper_left h2 h4 hp) ((room_rel h4.w).mp hr) (fun q e => ?_), h4⟩
    obtain ⟨g1, g2⟩ := hq q (by rw [h4.hist, h2.hist]; exact e)
    exact ⟨g1, (onLink_rel h2.w.disk _).mp g2⟩
  | crash _ hf hm hr ih =>
    obtain ⟨m, h1, h2⟩ := ih
    obtain ⟨d, r, h3, h4⟩ := mount_left h2.w.disk hf hm
    exact ⟨_, .crash h1 h3 ((room_rel h4.w).mp hr), h4⟩
  | opened _ hs hp hr hq hrq hb hpath hpl hH hT ih =>
    obtain ⟨m, h1, h2⟩ := ih
    obtain ⟨m', h3, h4⟩ := step_left h2 hs hp.new
    exact ⟨m', .opened h1 h3 (proper_left h2 h4 hp) ((room_rel h4.w).mp hr) (by rw [← h4.hist, ← h2.hist]; exact hq) hrq hb
      (by rw [← path_rel h2.w.disk]; exact hpath) hpl hH hT, h4⟩
  | read _ hl hs hp hr hq hrq hb hpath hpl hH ho hlk ih =>
    obtain ⟨m, h1, h2⟩ := ih
    obtain ⟨m', h3, h4⟩ := step_left h2 hs hp.new
    exact ⟨m', .read h1 hl h3 (proper_left h2 h4 hp) ((room_rel h4.w).mp hr) (by rw [← h4.hist, ← h2.hist]; exact hq) hrq hb
      (by rw [← path_rel h2.w.disk]; exact hpath) hpl hH ho hlk, h4⟩

theorem isCopy_rel {b : Cache.B.DB} {d : DB} (h : DRel b d) : IsCopy T b ↔ Local.IsCopy T d := by
  constructor <;> rintro ⟨h1, h2⟩ <;> constructor
  · intro i cs
    have := h1 i cs
    rw [path_rel h, getattr_rel h] at this
    intro a1 a2 a3 a4
    obtain ⟨k1, o, k2, k3⟩ := this a1 a2 a3 a4
    exact ⟨k1, o, k2, Except.ok.inj k3⟩
  · intro cs o a1 a2
    obtain ⟨i, k1, k2⟩ := h2 cs o a1 a2
    exact ⟨i, k1, by rw [← path_rel h]; exact k2⟩
  · intro i cs a1 a2 a3 a4
    rw [path_rel h] at a4
    obtain ⟨k1, o, k2, k3⟩ := h1 i cs a1 a2 a3 a4
    exact ⟨k1, o, k2, by rw [getattr_rel h, k3]⟩
  · intro cs o a1 a2
    obtain ⟨i, k1, k2⟩ := h2 cs o a1 a2
    exact ⟨i, k1, by rw [path_rel h]; exact k2⟩

/-- C121: when every directory was opened, the file is a copy of the tree, whatever bytes were in it before. -/
theorem C121_mirror (ht : Local.Tree T) (hw : Whole T) (hr : root ≠ []) (h0 : (0 : UInt8) ∉ root) {b0 b : MSys} {l ls : List (List Bytes)} (hb : MReach b0) (h : Walked root T b0 l ls b)
    (hall : ∀ cs, DirAt T cs → (∀ c ∈ cs, Plain c ∧ c.length ≤ 503) → cs ∈ l) : IsCopy T b.w.disk := by
  obtain ⟨m0, k1, k2⟩ := hb.rel
  obtain ⟨m, k3, k4⟩ := h.rel k2
  exact (isCopy_rel k4.w.disk).mpr (Local.C119_mirror ht hw hr h0 k1 k3 hall)

/-- C121: when also every link was read, all targets are in the file. -/
theorem C121_complete (ht : Local.Tree T) (hw : Whole T) (hr : root ≠ []) (h0 : (0 : UInt8) ∉ root) {b0 b : MSys} {l ls : List (List Bytes)} (hb : MReach b0) (h : Walked root T b0 l ls b)
    (hall : ∀ cs, DirAt T cs → (∀ c ∈ cs, Plain c ∧ c.length ≤ 503) → cs ∈ l)
    (hlinks : ∀ cs o, Local.Entry T cs o → (∀ c ∈ cs, Plain c ∧ c.length ≤ 503) → fmt o.stat.mode = S_IFLNK → cs ∈ ls) : IsCopy T b.w.disk ∧ Targets T b.w.disk := by
  obtain ⟨m0, k1, k2⟩ := hb.rel
  obtain ⟨m, k3, k4⟩ := h.rel k2
  obtain ⟨g1, g2⟩ := Local.C120_complete ht hw hr h0 k1 k3 hall hlinks
  refine ⟨(isCopy_rel k4.w.disk).mpr g1, fun i cs o a1 a2 a3 a4 a5 a6 => ?_⟩
  rw [path_rel k4.w.disk] at a4
  obtain ⟨o', e1, e2⟩ := g2 i cs a1 a2 a3 a4
  rw [a5] at e1; cases e1
  obtain ⟨t, e3, e4⟩ := e2 a6
  exact ⟨t, e3, by rw [readlink_rel k4.w.disk, e4]⟩

/-- C121: a link which was read is answered with its target from then on, with or without a connection. -/
theorem C121_answer (ht : Local.Tree T) (hw : Whole T) (hr : root ≠ []) (h0 : (0 : UInt8) ∉ root) {b0 b b' : MSys} {l ls : List (List Bytes)} {k : Nat} (hb : MReach b0) (h : Walked root T b0 l ls b)
    (hs : Step b k b') (hp : Proper b k b') (hroom : Room b'.w) {q : MT.Done} (hq : b'.hist = b.hist ++ [q]) {i : Ino} (hrq : q.rq = .readlink i) (hi : i < W64) {cs : List Bytes} (hcs : cs ∈ ls)
    (hpath : Cache.B.path b.w.disk i = .ok (.ok (pathStr cs))) (hnow : Unchanged root T q.B) : ∃ o t, T cs = some o ∧ o.target = some t ∧ q.rep = .readlink t := by
  obtain ⟨m0, k1, k2⟩ := hb.rel
  obtain ⟨m, k3, k4⟩ := h.rel k2
  obtain ⟨m', k5, k6⟩ := step_left k4 hs hp.new
  rw [path_rel k4.w.disk] at hpath
  obtain ⟨⟨ds, n, rfl, -, g1⟩, g2⟩ := Local.C120_links ht hw hr h0 k1 k3 cs hcs
  exact Local.C120_answer ht hr h0 (k3.reach k1) k5 (proper_left k4 k6 hp) ((room_rel k6.w).mp hroom) (by rw [← k6.hist, ← k4.hist]; exact hq) hrq hi g1 (by simp) hpath g2 hnow

/-- C121: two files which were filled in this way show the same at every path, although their bytes (inode numbers, padding, histories) differ. -/
theorem C121_same (ht : Local.Tree T) (hw : Whole T) (hr : root ≠ []) (h0 : (0 : UInt8) ∉ root) {root' : Bytes} (hr' : root' ≠ []) (h0' : (0 : UInt8) ∉ root')
    {m0 m n0 n : MSys} {l l' ls ls' : List (List Bytes)} (hm : MReach m0) (hn : MReach n0) (h : Walked root T m0 l ls m) (h' : Walked root' T n0 l' ls' n)
    (hall : ∀ cs, DirAt T cs → (∀ c ∈ cs, Plain c ∧ c.length ≤ 503) → cs ∈ l ∧ cs ∈ l') {cs : List Bytes} (hne : cs ≠ []) (hpl : ∀ c ∈ cs, Plain c) {a : Attrs} :
    (∃ i, i < W64 ∧ Cache.B.path m.w.disk i = .ok (.ok (pathStr cs)) ∧ Cache.B.getattr m.w.disk i = .ok (.ok (i, a))) ↔
    (∃ i, i < W64 ∧ Cache.B.path n.w.disk i = .ok (.ok (pathStr cs)) ∧ Cache.B.getattr n.w.disk i = .ok (.ok (i, a))) := by
  obtain ⟨x0, k1, k2⟩ := hm.rel
  obtain ⟨x, k3, k4⟩ := h.rel k2
  obtain ⟨y0, k5, k6⟩ := hn.rel
  obtain ⟨y, k7, k8⟩ := h'.rel k6
  have := Local.C119_same ht hw hr h0 hr' h0' k1 k5 k3 k7 hall hne hpl (a := a)
  simpa only [path_rel k4.w.disk, path_rel k8.w.disk, getattr_rel k4.w.disk, getattr_rel k8.w.disk, Except.ok.injEq] using this

/-! ### Example -/

theorem treeHost_fits {T : HTree} (hT : ∀ {cs o}, T cs = some o → (fromBackend o.stat).Fits ∧ ∀ t, o.target = some t → t.length < W64) :
    FSB.BackendFits (backend rootR (Local.treeHost rootR T)) := by
  constructor
  · intro k p sr h
    change Local.lstat rootR _ k p = _ at h
    unfold Local.lstat at h
    cases hp : Local.mapPath rootR p with
    | error e => rw [hp] at h; cases h
    | ok q =>
      rw [hp] at h
      simp only [Local.treeHost] at h
      cases hr : Local.rest rootR (cstr q) with
      | none => rw [hr] at h; cases h
      | some cs =>
        rw [hr] at h
        simp only at h
        cases ht : T (cs.foldl Local.stepTo []) with
        | none => rw [ht] at h; cases h
        | some o => rw [ht] at h; cases h; exact (hT ht).1
  · intro p t h
    change (match Local.readlink rootR _ p with | .ok r => r | .error _ => _) = _ at h
    unfold Local.readlink at h
    cases hp : Local.mapPath rootR p with
    | error e => rw [hp] at h; cases h
    | ok q =>
      rw [hp] at h
      simp only [Local.treeHost] at h
      cases hr : Local.rest rootR (cstr q) with
      | none => rw [hr] at h; cases h
      | some cs =>
        rw [hr] at h
        simp only at h
        cases ht : T (cs.foldl Local.stepTo []) with
        | none => rw [ht] at h; cases h
        | some o =>
          rw [ht] at h
          simp only at h
          cases htg : o.target with
          | none => rw [htg] at h; cases h
          | some t' =>
            rw [htg] at h; cases h
            have := (hT ht).2 t' htg
            rw [List.length_take]; omega

theorem treeB_fits {cs : List Bytes} {o : Local.Obj} (h : Local.treeB cs = some o) : (fromBackend o.stat).Fits ∧ ∀ t, o.target = some t → t.length < W64 := by
  unfold Local.treeB at h
  split at h <;> cases h
  all_goals
    constructor
    · unfold Attrs.Fits Timespec.Fits; decide +kernel
    · intro t ht; cases ht

theorem hosts3_fits (j : Nat) : FSB.BackendFits (Local.hosts3 j) := by
  match j with
  | 0 => exact hostB_fits false
  | 1 => exact hostB_fits true
  | j + 2 => exact treeHost_fits treeB_fits

/-- A step on records is one on bytes. -/
theorem stepB (pad : Ino → Nat) {b : MSys} {m m' : MT.MSys} {cap k : Nat} (hr : MSRel b m) (g : MT.Ready (Local.QG Local.hosts3) cap m') (hs : MT.Step m k m') (hp : MT.Proper m k m') (hroom : MT.Room m'.w) :
    ∃ b', Step b k b' ∧ MSRel b' m' ∧ Proper b k b' ∧ Room b'.w := by
  have hf : ∀ rq B, m'.th[k]? = some (.recv rq B) → FSB.BackendFits B := by
    intro rq B hk
    obtain ⟨-, j, rfl⟩ := g.asks k _ hk
    exact hosts3_fits j
  have hnew : NewFits m.th m'.th k := by
    intro hk rq B hrc
    cases hp with
    | issue g1 g2 g3 g4 => rw [g1] at hrc; cases hrc; exact ⟨g2, hf _ _ g1⟩
    | begin_ g1 _ => rw [hk] at g1; cases g1
    | other _ g2 => exact absurd hrc (g2 rq B)
  obtain ⟨b1, k1, k2⟩ := step_right pad hr hs hnew
  exact ⟨b1, k1, k2, proper_right hr k2 hp hf, (room_rel k2.w).mpr hroom⟩

/-- There is a state on bytes for `m` which was reached in this way. -/
def On (b0 : MSys) (l ls : List (List Bytes)) (m : MT.MSys) : Prop := ∃ b, Walked rootR treeA b0 l ls b ∧ MSRel b m

theorem on_run (pad : Ino → Nat) {b0 : MSys} {m m' : MT.MSys} {cap cap' : Nat} {l ls : List (List Bytes)} {es : List Local.GEv} (h : On b0 l ls m) (hr : MT.Ready (Local.QG Local.hosts3) cap m)
    (r : Local.runG Local.hosts3 Local.okNow m cap es = some (m', cap')) : MT.Ready (Local.QG Local.hosts3) cap' m' ∧ On b0 l ls m' := by
  refine Local.runG_ready Local.hosts3_small (R := On b0 l ls) ?_ ?_ hr h r
  · rintro m1 k m2 c ⟨b, h1, h2⟩ g hs hp hroom hq
    obtain ⟨b', k1, k2, k3, k4⟩ := stepB pad h2 g hs hp hroom
    refine ⟨b', .step h1 k1 k3 k4 (fun q e => ?_), k2⟩
    obtain ⟨g1, g2⟩ := hq q (by rw [← k2.hist, ← h2.hist]; exact e)
    obtain ⟨g3, g4⟩ := Local.okNow_unchanged g1 g2
    exact ⟨g3, (onLink_rel h2.w.disk _).mpr g4⟩
  · rintro - m1 d r ⟨b, h1, h2⟩ ho hroom
    obtain ⟨b', k1, k2⟩ := mount_right pad pad h2.w.disk zero_fits 2 ho
    exact ⟨b', .crash h1 zero_fits k1 ((room_rel k2.w).mpr hroom), k2⟩

theorem on_open (pad : Ino → Nat) {b0 : MSys} {m m' : MT.MSys} {cap cap' : Nat} {l ls : List (List Bytes)} {dir : Ino} {cs : List Bytes} (h : On b0 l ls m) (hr : MT.Ready (Local.QG Local.hosts3) cap m)
    (r : Local.runG Local.hosts3 Local.okNow m cap [.go 0] = some (m', cap')) (ho : Local.opens m m' dir cs = true) (hb : dir < W64) (hpl : ∀ c ∈ cs, Plain c) (hT : DirAt treeA cs) :
    MT.Ready (Local.QG Local.hosts3) cap' m' ∧ On b0 (cs :: l) ls m' := by
  obtain ⟨hlen, hrq, hon, hok, hpath⟩ := Local.opens_iff ho
  obtain ⟨b, h1, h2⟩ := h
  obtain ⟨g, k, a1, a2, a3⟩ := Local.runG_go hr r
  obtain ⟨q, hq⟩ := MT.event_hist a1 hlen
  have hdrop : m'.hist.drop m.hist.length = [q] := by rw [hq, List.drop_left]
  rw [hdrop] at hrq hon hok
  have e1 : q.rq = .opendir dir := by simpa using hrq
  have e2 : Local.online q = true := by simpa using hon
  have e3 : Local.okNow m q = true := by simpa using hok
  obtain ⟨b', k1, k2, k3, k4⟩ := stepB pad h2 g a1 a2 a3
  refine ⟨g, b', .opened h1 k1 k3 k4 (by rw [k2.hist, h2.hist]; exact hq) e1 hb (by rw [path_rel h2.w.disk]; exact hpath) hpl ?_ hT, k2⟩
  obtain ⟨H, e4, e5 | e5⟩ := (Local.okNow_unchanged (g.hist q (by rw [hq]; simp)) e3).1
  · exact ⟨H, e4, e5⟩
  · exact absurd e5 (Local.online_not e2 H e4)

theorem on_read (pad : Ino → Nat) {b0 : MSys} {m m' : MT.MSys} {cap cap' : Nat} {l ls : List (List Bytes)} {i : Ino} {cs : List Bytes} {n : Bytes} {o : Local.Obj} (h : On b0 l ls m) (hl : cs ∈ l)
    (hr : MT.Ready (Local.QG Local.hosts3) cap m) (r : Local.runG Local.hosts3 Local.okNow m cap [.go 0] = some (m', cap')) (hx : Local.reads m m' i (cs ++ [n]) true = true) (hb : i < W64)
    (hpl : ∀ c ∈ cs ++ [n], Plain c) (ho : treeA (cs ++ [n]) = some o) (hlk : fmt o.stat.mode = S_IFLNK) : MT.Ready (Local.QG Local.hosts3) cap' m' ∧ On b0 l ((cs ++ [n]) :: ls) m' := by
  obtain ⟨hlen, hrq, hon, hok, hpath⟩ := Local.reads_iff hx
  obtain ⟨b, h1, h2⟩ := h
  obtain ⟨g, k, a1, a2, a3⟩ := Local.runG_go hr r
  obtain ⟨q, hq⟩ := MT.event_hist a1 hlen
  have hdrop : m'.hist.drop m.hist.length = [q] := by rw [hq, List.drop_left]
  rw [hdrop] at hrq hon hok
  have e1 : q.rq = .readlink i := by simpa using hrq
  have e2 : Local.online q = true := by simpa using hon
  have e3 : Local.okNow m q = true := by simpa using hok
  obtain ⟨b', k1, k2, k3, k4⟩ := stepB pad h2 g a1 a2 a3
  refine ⟨g, b', .read h1 hl k1 k3 k4 (by rw [k2.hist, h2.hist]; exact hq) e1 hb (by rw [path_rel h2.w.disk]; exact hpath) hpl ?_ ho hlk, k2⟩
  obtain ⟨H, e4, e5 | e5⟩ := (Local.okNow_unchanged (g.hist q (by rw [hq]; simp)) e3).1
  · exact ⟨H, e4, e5⟩
  · exact absurd e5 (Local.online_not e2 H e4)

/-- The hypotheses of `C121_complete`, `C121_same` and `C121_answer` can be met: by the story of C120, on bytes, with any padding; at the end the link is read
without a connection. -/
example (pad : Ino → Nat) : ∃ (b0 b b' : MSys) (k : Nat) (q : MT.Done), MReach b0 ∧ Walked rootR treeA b0 [[[0x64]], []] [[[0x6c]]] b ∧ IsCopy treeA b.w.disk ∧ Targets treeA b.w.disk ∧
    Step b k b' ∧ b'.hist = b.hist ++ [q] ∧ q.rq = .readlink 5 ∧ Local.online q = false ∧ q.rep = .readlink [0x61] := by
  have hd : ∀ c ∈ [[(0x64 : UInt8)]], Plain c := fun c hc => by
    rw [List.mem_singleton] at hc; subst hc; exact Local.plainB (by decide)
  have hl : ∀ c ∈ [[(0x6c : UInt8)]], Plain c := fun c hc => by
    rw [List.mem_singleton] at hc; subst hc; exact Local.plainB (by decide)
  have no : ∀ c ∈ ([] : List Bytes), Plain c := fun c hc => by cases hc
  have links : ∀ cs o, Local.Entry treeA cs o → fmt o.stat.mode = S_IFLNK → cs ∈ [[[(0x6c : UInt8)]]] := by
    rintro cs o ⟨-, -, -, -, h1⟩ h2
    unfold treeA at h1
    split at h1 <;> cases h1 <;> first | exact List.mem_singleton.mpr rfl | exact absurd h2 (by decide +kernel)
  have key := Local.story120_ex
  cases hs0 : Local.startG with
  | none => rw [hs0] at key; cases key
  | some m0 =>
    rw [hs0] at key
    simp only at key
    cases hst : Local.storyG Local.hosts3 m0 0 Local.story120 with
    | none => rw [hst] at key; cases key
    | some ys =>
      rw [hst] at key
      simp only at key
      have g0 : MT.Ready (Local.QG Local.hosts3) 0 m0 := Local.startG_ready hs0
      obtain ⟨d, r, x1, x2, rfl, -⟩ := Local.startG_mount hs0
      obtain ⟨b0, x3, x4⟩ := mount_right pad pad DRel.empty zero_fits 2 x1
      have hb0 : MReach b0 := .mount zero_fits x3 ((room_rel x4.w).mpr x2)
      unfold Local.story120 at hst
      obtain ⟨n1, e1, _, rfl, s1, hst⟩ := Local.storyG_cons hst
      obtain ⟨n2, e2, _, rfl, s2, hst⟩ := Local.storyG_cons hst
      obtain ⟨n3, e3, _, rfl, s3, hst⟩ := Local.storyG_cons hst
      obtain ⟨n4, e4, _, rfl, s4, hst⟩ := Local.storyG_cons hst
      obtain ⟨n5, e5, _, rfl, s5, hst⟩ := Local.storyG_cons hst
      obtain ⟨n6, e6, _, rfl, s6, hst⟩ := Local.storyG_cons hst
      obtain ⟨n7, e7, _, rfl, s7, hst⟩ := Local.storyG_cons hst
      obtain ⟨n8, e8, _, rfl, s8, hst⟩ := Local.storyG_cons hst
      cases hst
      unfold Local.check120 at key
      simp only [Bool.and_eq_true] at key
      obtain ⟨⟨⟨k1, k2⟩, k3⟩, k4⟩ := key
      obtain ⟨f1, v1⟩ := on_run pad ⟨b0, .start, x4⟩ g0 s1
      obtain ⟨f2, v2⟩ := on_open pad v1 f1 s2 k1 (by decide) no Local.treeA_dirAt
      obtain ⟨f3, v3⟩ := on_run pad v2 f2 s3
      obtain ⟨f4, v4⟩ := on_open pad v3 f3 s4 k2 (by decide) hd Local.treeA_dirAt_d
      obtain ⟨f5, v5⟩ := on_run pad v4 f4 s5
      obtain ⟨f6, v6⟩ := on_read pad (cs := []) (n := [0x6c]) v5 (by simp) f5 s6 k3 (by decide) hl rfl (by decide +kernel)
      obtain ⟨f7, b, v7, v8⟩ := on_run pad v6 f6 s7
      obtain ⟨p1, p2, p3, p4, p5⟩ := Local.reads_iff k4
      obtain ⟨f8, k, a1, a2, a3⟩ := Local.runG_go f7 s8
      obtain ⟨b', y1, y2, y3, y4⟩ := stepB pad v8 f8 a1 a2 a3
      obtain ⟨q, hq⟩ := MT.event_hist a1 p1
      have hdrop : n8.hist.drop n7.hist.length = [q] := by rw [hq, List.drop_left]
      rw [hdrop] at p2 p3 p4
      have h1 : q.rq = .readlink 5 := by simpa using p2
      have h2 : Local.online q = false := by simpa using p3
      have h3 : Local.okNow n7 q = true := by simpa using p4
      have hQ := f8.hist q (by rw [hq]; simp)
      have hqb : b'.hist = b.hist ++ [q] := by rw [y2.hist, v8.hist]; exact hq
      obtain ⟨o, t, ho, htg, hrep⟩ := C121_answer treeA_tree treeA_whole rootR_ne rootR_nul hb0 v7 y1 y3 y4 hqb h1 (by decide) (cs := [[0x6c]]) (by simp) (by rw [path_rel v8.w.disk]; exact p5) (Local.okNow_unchanged hQ h3).1
      cases ho
      cases htg
      obtain ⟨z1, z2⟩ := C121_complete treeA_tree treeA_whole rootR_ne rootR_nul hb0 v7 (fun _ h _ => Local.treeA_dirs h) (fun cs o h1 _ h2 => links cs o h1 h2)
      exact ⟨b0, b, b', k, q, hb0, v7, z1, z2, y1, hqb, h1, h2, hrep⟩

end Dragonstash.MTB
