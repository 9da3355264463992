/-
  C95: the size which is shown for a symbolic link is the length of its target.
-/
import Verif.Props.LocalDir
namespace Dragonstash.Local
open Cache FS MT Conc

variable {s s' : Cache.Tree} {d d' : DB} {r r' : Refs} {m m' : MSys}

/-! ### Specification -/

/-- A backend which is right about links: whenever it says that something is a link and what its target is, the size is the length
of the target (lstat(2)); names are not empty. -/
structure LinkSane (B : Backend) : Prop where
  fit : ∀ k p sr t, B.lstat k p = .ok sr → fmt sr.mode = S_IFLNK → B.readlink p = .ok t → sr.size = t.length
  names : ∀ p names e, B.opendir p = .ok (names, e) → [] ∉ names

/-- In the databases `d`, the size of a link is the length of its target. -/
def LinksFit (d : DB) : Prop := ∀ i a t, i < W64 → Cache.getattr d i = .ok (i, a) → Cache.readlink d i = .ok t → a.size = t.length

/-- The full property: at all times, if the backend is right about links whenever it is asked. -/
def C95_links_fit : Prop :=
  ∀ m, MReachQ (fun rq B => rq.named ∧ LinkSane B) m → LinksFit m.w.disk

/-- What a backend says about links which do not change their lengths: `len` are the lengths. -/
structure LinkLen (len : Bytes → Nat) (B : Backend) : Prop where
  lstat : ∀ k p sr, B.lstat k p = .ok sr → fmt sr.mode = S_IFLNK → sr.size = len p
  readlink : ∀ p t, B.readlink p = .ok t → t.length = len p
  names : ∀ p names e, B.opendir p = .ok (names, e) → [] ∉ names

/-! ### Theorems -/

theorem fit_of {len : Bytes → Nat} (h : Rep s d) (ok : s.OK) (wf : s.WF) (ho : Orig (fun p sr => fmt sr.mode = S_IFLNK → sr.size = len p) (fun p t => t.length = len p) s) : LinksFit d := by
  intro i a t hi h1 h2
  have hI := si_empty h ok wf
  rw [h.readlink ok hi] at h2
  cases hn : s.nodes i with
  | none => rw [hn] at h2; cases h2
  | some nd =>
    rw [hn] at h2
    simp only at h2
    rw [getattr_some hI hn] at h1
    have ha := congrArg Prod.snd (Except.ok.inj h1)
    simp only at ha
    cases ht : nd.target with
    | none => rw [ht] at h2; simp only at h2; cases h2
    | some x =>
      rw [ht] at h2
      simp only at h2
      cases h2
      have hl : fmt nd.attr.mode = S_IFLNK := ok.target i nd t hn ht
      have hr : i ≠ ROOT := by
        rintro rfl
        obtain ⟨x, h5, h6, -⟩ := ok.root
        rw [hn] at h5; cases h5
        rw [h6] at hl; exact absurd hl (by decide)
      obtain ⟨cs, -, -, -, ⟨sr, k1, k2⟩, k3⟩ := ho i nd hn hr
      rw [← ha, k3 t ht]
      rcases k2 with k2 | ⟨hm, t', k4, k5⟩
      · rw [k2] at hl ⊢; exact k1 hl
      · rw [k5]; exact k4

/-- C95, the part which holds: as long as no link of the backend changes the length of its target, with any number of threads and after any
crashes. What is missing: `C95_counterexample`. -/
theorem C95_links_fit_partial {len : Bytes → Nat} (h : MReachQ (fun rq B => rq.named ∧ LinkLen len B) m) : LinksFit m.w.disk := by
  have h' := reachQ_mono (Q' := fun rq B => rq.named ∧ Said (fun p sr => fmt sr.mode = S_IFLNK → sr.size = len p) (fun p t => t.length = len p) B)
    (fun rq B h => ⟨h.1, fun k p sr h' => h.2.lstat k p sr h', fun p t h' => h.2.readlink p t h', h.2.names⟩) h
  obtain ⟨d0, r0, n, L, H, vs, R, ds, s, hst, hM, hR, hP⟩ := h'.inv kept_orig
  obtain ⟨s1, f1, f2, f3⟩ := hP.all _ (List.mem_of_getLast? hM.last)
  obtain rfl := Rep.inj hR.si.rep hR.si.ok f1 f2
  exact fit_of hR.si.rep hR.si.ok hR.si.wf f3

/-- C95, the other part: when a link has been read while connected, its size is right again. -/
theorem C95_read (h : MReach m) {k : Nat} (hs : Step m k m') (hp : Proper m k m') (hroom : Room m'.w) {q : Done} (hq : m'.hist = m.hist ++ [q]) {i : Ino}
    (hrq : q.rq = .readlink i) {b t : Bytes} (hb : Cache.path m.w.disk i = .ok (.ok b)) {a : Attrs} (ha : Cache.getattr m.w.disk i = .ok (i, a)) (hl : fmt a.mode = S_IFLNK)
    (hB : q.B.readlink (backendPath b) = .ok t) :
    q.rep = .readlink (t.takeWhile (· != 0)) ∧ Cache.readlink m'.w.disk i = .ok t ∧ Cache.getattr m'.w.disk i = .ok (i, { a with size := t.length }) := by
  have hR := step_right h hs hp hroom hq (by rw [hrq]; rfl)
  rw [hrq] at hR
  obtain ⟨h1, h2⟩ := (hR.2 b hb).1 t hB
  exact ⟨h1, h2 a ha hl⟩

/-! ### Examples -/

theorem treeHost_lstat {T : HTree} {k : Nat} {p : Bytes} {sr : BStat} (h : (backend rootR (treeHost rootR T)).lstat k p = .ok sr) : ∃ ds o, T ds = some o ∧ sr = o.stat := by
  change lstat rootR _ k p = _ at h
  unfold lstat at h
  cases hp : mapPath rootR p with
  | error e => rw [hp] at h; cases h
  | ok q =>
    rw [hp] at h
    simp only [treeHost] at h
    cases hr : rest rootR (cstr q) with
    | none => rw [hr] at h; cases h
    | some cs =>
      rw [hr] at h
      simp only at h
      cases hT : T (cs.foldl stepTo []) with
      | none => rw [hT] at h; cases h
      | some o => rw [hT] at h; cases h; exact ⟨_, o, hT, rfl⟩

theorem treeHost_readlink {T : HTree} (ht : Local.Tree T) {p t : Bytes} (h : (backend rootR (treeHost rootR T)).readlink p = .ok t) : ∃ ds o, T ds = some o ∧ o.target = some t := by
  change (match readlink rootR (treeHost rootR T) p with | .ok r => r | .error _ => .error EIO) = _ at h
  unfold readlink at h
  cases hp : mapPath rootR p with
  | error e => rw [hp] at h; cases h
  | ok q =>
    rw [hp] at h
    simp only [treeHost] at h
    cases hr : rest rootR (cstr q) with
    | none => rw [hr] at h; cases h
    | some cs =>
      rw [hr] at h
      simp only at h
      cases hT : T (cs.foldl stepTo []) with
      | none => rw [hT] at h; cases h
      | some o =>
        rw [hT] at h
        simp only at h
        cases hn : o.target with
        | none => rw [hn] at h; cases h
        | some x =>
          rw [hn] at h
          simp only at h
          cases h
          refine ⟨_, o, hT, ?_⟩
          rw [hn, List.take_of_length_le (by have := (ht.size hT hn).1; omega)]

theorem host_names {T : HTree} (ht : Local.Tree T) {p : Bytes} {names : List Bytes} {e : Errno} (h1 : (backend rootR (treeHost rootR T)).opendir p = .ok (names, e)) : [] ∉ names := by
  intro hm
  change opendir rootR _ p = _ at h1
  unfold opendir at h1
  cases hp : mapPath rootR p with
  | error e => rw [hp] at h1; cases h1
  | ok q =>
    rw [hp] at h1
    simp only at h1
    cases ho : (treeHost rootR T).opendir (cstr q) with
    | error e => rw [ho] at h1; cases h1
    | ok l =>
      rw [ho] at h1
      cases h1
      exact absurd rfl ((treeHost_has rootR ht).names ho hm).1.1

/-- Hosts with trees are right about links. -/
theorem treeHost_sane {T : HTree} (ht : Local.Tree T) : LinkSane (backend rootR (treeHost rootR T)) := by
  refine ⟨fun k p sr t h1 h2 h3 => ?_, fun p names e h => host_names ht h⟩
  change lstat rootR _ k p = _ at h1
  change (match readlink rootR (treeHost rootR T) p with | .ok r => r | .error _ => .error EIO) = _ at h3
  unfold lstat at h1
  unfold readlink at h3
  cases hp : mapPath rootR p with
  | error e => rw [hp] at h1; cases h1
  | ok q =>
    rw [hp] at h1 h3
    simp only [treeHost] at h1 h3
    cases hr : rest rootR (cstr q) with
    | none => rw [hr] at h1; cases h1
    | some cs =>
      rw [hr] at h1 h3
      simp only at h1 h3
      generalize cs.foldl stepTo [] = ds at h1 h3
      cases hT : T ds with
      | none => rw [hT] at h1; cases h1
      | some o =>
        rw [hT] at h1 h3
        simp only at h1 h3
        cases h1
        cases hn : o.target with
        | none => rw [hn] at h3; cases h3
        | some x =>
          rw [hn] at h3
          simp only at h3
          cases h3
          have := (ht.size hT hn).1
          rw [List.length_take]; omega

/-- The link `l` has another target, which is longer. -/
def treeC : HTree
  | [] => some ⟨bDir, none, some [[0x6c]]⟩
  | [[0x6c]] => some ⟨{ bLink with size := 2 }, some [0x61, 0x62], none⟩
  | _ => none

theorem treeC_tree : Local.Tree treeC := by
  constructor
  · intro cs o ns n h1 h2
    unfold treeC at h1
    split at h1 <;> cases h1 <;> cases h2
    constructor
    · intro hm
      rw [List.mem_singleton.mp hm]; exact ⟨plainB (by decide), by simp [treeC]⟩
    · rintro ⟨-, h⟩
      rw [List.nil_append] at h
      unfold treeC at h
      split at h <;> simp_all
  · intro cs o t h1 h2
    unfold treeC at h1
    split at h1 <;> cases h1 <;> cases h2
    exact ⟨rfl, by decide⟩

/-- No connection; the tree with the link; the tree with the longer link. -/
def hostsC : Nat → Backend
  | 0 => hostB false
  | 1 => hostB true
  | _ => backend rootR (treeHost rootR treeC)

theorem treeC_short {ds : List Bytes} {o : Obj} {ns : List Bytes} (h : treeC ds = some o) (hn : o.names = some ns) : ns.length ≤ 3 := by
  unfold treeC at h
  split at h <;> cases h <;> cases hn <;> decide

theorem hostsC_small {j : Nat} {p : Bytes} {names : List Bytes} {e : Errno} (h : (hostsC j).opendir p = .ok (names, e)) : names.length ≤ 10 := by
  match j with
  | 0 => exact treeA_names (b := false) h
  | 1 => exact treeA_names (b := true) h
  | _ + 2 => exact tree_names treeC_short h

theorem goneHost_sane : LinkSane (hostB false) := by
  constructor
  · intro k p sr t h1
    have : lstat rootR goneHost k p = .ok sr := h1
    unfold lstat at this
    cases hp : mapPath rootR p with
    | error e => rw [hp] at this; cases this
    | ok q => rw [hp] at this; cases this
  · intro p names e h1
    have : opendir rootR goneHost p = .ok (names, e) := h1
    unfold opendir at this
    cases hp : mapPath rootR p with
    | error e => rw [hp] at this; cases this
    | ok q => rw [hp] at this; cases this

theorem hostsC_sane (j : Nat) : LinkSane (hostsC j) := by
  match j with
  | 0 => exact goneHost_sane
  | 1 => exact treeHost_sane treeA_tree
  | _ + 2 => exact treeHost_sane treeC_tree

/-- `l` is looked up and read; then the host replaces it by a longer link, and it is looked up again. Without a connection, its attributes and
its target are asked for. -/
def eventsC : List GEv :=
  .ask 0 1 (.lookup 1 [0x6c]) :: List.replicate 7 (.go 0) ++ .ask 0 1 (.readlink 2) :: List.replicate 6 (.go 0) ++ .ask 0 2 (.lookup 1 [0x6c]) :: List.replicate 7 (.go 0) ++
  .ask 0 0 (.getattr 2) :: List.replicate 5 (.go 0) ++ .ask 0 0 (.readlink 2) :: List.replicate 6 (.go 0)

/-- What the cache has of an inode: its size. -/
def sizeIn (d : DB) (i : Ino) : Option Nat := match Cache.getattr d i with | .ok (j, a) => if j = i then some a.size else none | .error _ => none

/-- What the replies say: sizes, and lengths of targets. -/
def sizes (q : Done) : Nat × Nat := match q.rep with | .entry st => (1, st.size) | .attr st => (2, st.size) | .readlink t => (3, t.length) | _ => (0, 0)

theorem eventsC_ex : ∃ m, MReachQ (fun rq B => rq.named ∧ LinkSane B) m ∧
    (m.hist.map (·.rq) = [.lookup 1 [0x6c], .readlink 2, .lookup 1 [0x6c], .getattr 2, .readlink 2] ∧
     m.hist.map sizes = [(1, 1), (3, 1), (1, 2), (2, 2), (3, 1)] ∧ sizeIn m.w.disk 2 = some 2 ∧ Cache.readlink m.w.disk 2 = .ok [0x61]) :=
  reachQ_run (hosts := hostsC) (fun h => hostsC_small h) (fun h => ⟨h.1, by obtain ⟨-, j, rfl⟩ := h; exact hostsC_sane j⟩) (ls := eventsC) (by decide +kernel)

/-- C95 is not true: a link which was read and has then become longer on the backend has its new size and its old target. -/
theorem C95_counterexample : ¬ C95_links_fit := by
  intro h
  obtain ⟨m, h1, -, -, h2, h3⟩ := eventsC_ex
  unfold sizeIn at h2
  cases hg : Cache.getattr m.w.disk 2 with
  | error e => rw [hg] at h2; cases h2
  | ok x =>
    obtain ⟨i, a⟩ := x
    rw [hg] at h2
    simp only at h2
    by_cases hi : i = 2
    case neg => rw [if_neg hi] at h2; cases h2
    rw [if_pos hi] at h2
    subst hi
    have := h m h1 2 a _ (by decide) hg h3
    rw [Option.some.inj h2] at this; cases this

/-- The hypothesis of `C95_links_fit_partial` can be met: with the tree `treeA`, in which `l` has a target of one byte. -/
example : ∃ m, MReachQ (fun rq B => rq.named ∧ LinkLen (fun _ => 1) B) m ∧ LinksFit m.w.disk ∧ m.hist.map sizes = [(1, 1), (3, 1), (1, 1), (3, 1)] ∧
    sizeIn m.w.disk 2 = some 1 ∧ Cache.readlink m.w.disk 2 = .ok [0x61] := by
  have hl : ∀ b, LinkLen (fun _ => 1) (hostB b) := by
    intro b
    cases b with
    | false => exact ⟨fun k p sr h => absurd h (by
          have : (hostB false).lstat k p = lstat rootR goneHost k p := rfl
          rw [this]; unfold lstat; cases mapPath rootR p <;> simp [goneHost]), fun p t h => absurd h (by
          have : (hostB false).readlink p = (match readlink rootR goneHost p with | .ok r => r | .error _ => .error EIO) := rfl
          rw [this]; unfold readlink; cases mapPath rootR p <;> simp [goneHost]), goneHost_sane.names⟩
    | true =>
      refine ⟨fun k p sr h hm => ?_, fun p t h => ?_, (treeHost_sane treeA_tree).names⟩
      · obtain ⟨ds, o, h1, rfl⟩ := treeHost_lstat h
        unfold treeA at h1
        split at h1 <;> cases h1 <;> first | rfl | exact absurd hm (by decide +kernel)
      · obtain ⟨ds, o, h1, h2⟩ := treeHost_readlink treeA_tree h
        unfold treeA at h1
        split at h1 <;> cases h1 <;> cases h2
        rfl
  obtain ⟨m, h1, h2, h3, h4⟩ := reachQ_run (hosts := fun j => hostB (decide (j = 1))) (Q := fun rq B => rq.named ∧ LinkLen (fun _ => 1) B) (fun h => treeA_names h) (fun h => ⟨h.1, by obtain ⟨-, j, rfl⟩ := h; exact hl _⟩)
    (P := fun m => m.hist.map sizes = [(1, 1), (3, 1), (1, 1), (3, 1)] ∧ sizeIn m.w.disk 2 = some 1 ∧ Cache.readlink m.w.disk 2 = .ok [0x61])
    (ls := .ask 0 1 (.lookup 1 [0x6c]) :: List.replicate 7 (.go 0) ++ .ask 0 1 (.readlink 2) :: List.replicate 6 (.go 0) ++ .ask 0 1 (.lookup 1 [0x6c]) :: List.replicate 7 (.go 0) ++
      .ask 0 0 (.readlink 2) :: List.replicate 6 (.go 0)) (by decide +kernel)
  exact ⟨m, h1, C95_links_fit_partial h1, h2, h3, h4⟩

/-- `l` is looked up and read, becomes longer, and is looked up and read again; the last step is the one in which this request ends. -/
def storyC : List ((MSys → Done → Bool) × List GEv) :=
  [(fun _ _ => true, .ask 0 1 (.lookup 1 [0x6c]) :: List.replicate 7 (.go 0) ++ .ask 0 1 (.readlink 2) :: List.replicate 6 (.go 0) ++ .ask 0 2 (.lookup 1 [0x6c]) :: List.replicate 7 (.go 0) ++
     .ask 0 2 (.readlink 2) :: List.replicate 3 (.go 0)),
   (fun _ _ => true, [.go 0])]

/-- The hypotheses of `C95_read` can be met: the size and the target disagree before, and agree afterwards. -/
example : ∃ (m m' : MSys) (q : Done), MReach m ∧ m'.hist = m.hist ++ [q] ∧ sizeIn m.w.disk 2 = some 2 ∧ Cache.readlink m.w.disk 2 = .ok [0x61] ∧
    q.rep = .readlink [0x61, 0x62] ∧ sizeIn m'.w.disk 2 = some 2 ∧ Cache.readlink m'.w.disk 2 = .ok [0x61, 0x62] := by
  have key : (match startG with
      | some m => (match storyG hostsC m 0 storyC with
        | some [(m1, _), (m2, _)] => decide (m1.hist.length = 3 ∧ Cache.path m1.w.disk 2 = .ok (.ok [0x2f, 0x6c]) ∧ sizeIn m1.w.disk 2 = some 2 ∧ Cache.readlink m1.w.disk 2 = .ok [0x61] ∧
            m2.hist.length = 4 ∧ (m2.hist.drop 3).map (·.rq) = [.readlink 2] ∧ (m2.hist.drop 3).map (fun q => q.B.readlink [0x2f, 0x6c]) = [.ok [0x61, 0x62]] ∧
            (match Cache.getattr m1.w.disk 2 with | .ok (_, a) => some (fmt a.mode) | .error _ => none) = some S_IFLNK)
        | _ => false)
      | none => false) = true := by decide +kernel
  cases hs0 : startG with
  | none => rw [hs0] at key; cases key
  | some m0 =>
    rw [hs0] at key
    simp only at key
    cases hst : storyG hostsC m0 0 storyC with
    | none => rw [hst] at key; cases key
    | some xs =>
      rw [hst] at key
      unfold storyC at hst
      obtain ⟨m1, c1, _, rfl, r1, hst⟩ := storyG_cons hst
      obtain ⟨m2, c2, _, rfl, r2, hst⟩ := storyG_cons hst
      cases hst
      obtain ⟨k1, k2, k3, k4, k5, k6, k7, k8⟩ := of_decide_eq_true key
      obtain ⟨g1, -⟩ := runG_inv (fun h => hostsC_small h) (R := fun _ => True) (fun _ _ _ _ _ => trivial) (fun _ _ _ _ _ _ _ => trivial) (startG_ready hs0) trivial r1
      obtain ⟨g2, k, a1, a2, a3⟩ := runG_go g1 r2
      obtain ⟨q, hq⟩ := event_hist a1 (by rw [k1, k5])
      have hdrop : m2.hist.drop 3 = [q] := by rw [hq, ← k1, List.drop_left]
      rw [hdrop] at k6 k7
      have hrq : q.rq = .readlink 2 := by simpa using k6
      have hB : q.B.readlink [0x2f, 0x6c] = .ok [0x61, 0x62] := by simpa using k7
      unfold sizeIn at k3
      cases hg : Cache.getattr m1.w.disk 2 with
      | error e => rw [hg] at k3; cases k3
      | ok x =>
        obtain ⟨i, a⟩ := x
        have k3' := k3
        rw [hg] at k3 k8
        simp only at k3
        by_cases hi : i = 2
        case neg => rw [if_neg hi] at k3; cases k3
        subst hi
        obtain ⟨b1, b2, b3⟩ := C95_read g1.reach a1 a2 a3 hq hrq k2 hg (Option.some.inj k8) hB
        exact ⟨m1, m2, q, g1.reach, hq, k3', k4, b1, by unfold sizeIn; rw [b3]; rfl, b2⟩

end Dragonstash.Local
