/-
  C128: the size of a link is the length of its target (C95), on the stored bytes.
-/
import Verif.Props.LinkFit
import Verif.Props.DirBytes
namespace Dragonstash.MTB
open Cache FS Conc ConcB
open Local (QG LinkSane LinkLen hostsC eventsC startG runG)

/-! ### Specification -/

/-- What the threads and lives on bytes can reach, while all requests which end are `Q` (as `MT.MReachQ`). -/
inductive MReachQ (Q : Req → Backend → Prop) : MSys → Prop
  | mount {pad pad' uid gid now n m} : MountFits uid gid now → mount pad pad' Cache.B.emptyDB uid gid now n = .ok m → Room m.w → MReachQ Q m
  | remount {m pad pad' uid gid now n m'} : MReachQ Q m → MountFits uid gid now → mount pad pad' m.w.disk uid gid now n = .ok m' → Room m'.w → MReachQ Q m'
  | step {m m' k} : MReachQ Q m → Step m k m' → Proper m k m' → Room m'.w → (∀ q ∈ m'.hist, Q q.rq q.B) → MReachQ Q m'

/-- In the database file `d`, the size of a link is the length of its target (as `Local.LinksFit`). -/
def LinksFit (d : Cache.B.DB) : Prop := ∀ i a t, i < W64 → Cache.B.getattr d i = .ok (.ok (i, a)) → Cache.B.readlink d i = .ok (.ok t) → a.size = t.length

/-- The full property: at all times, if the backend is right about links whenever it is asked. -/
def C128_links_fit : Prop := ∀ m, MReachQ (fun rq B => rq.named ∧ LinkSane B) m → LinksFit m.w.disk

/-! ### Theorems -/

theorem MReachQ.reach {Q : Req → Backend → Prop} {m : MSys} (h : MReachQ Q m) : MReach m := by
  induction h with
  | mount h1 h2 h3 => exact .mount h1 h2 h3
  | remount _ h1 h2 h3 ih => exact .remount ih h1 h2 h3
  | step _ h1 h2 h3 _ ih => exact .step ih h1 h2 h3

theorem MReachQ.all {Q : Req → Backend → Prop} {m : MSys} (h : MReachQ Q m) : ∀ q ∈ m.hist, Q q.rq q.B := by
  obtain ⟨x, -, hx⟩ := h.reach.rel
  cases h with
  | step _ _ _ _ h => exact h
  | mount h1 h2 _ =>
    obtain ⟨d, r, -, h4⟩ := mount_left DRel.empty h1 h2
    intro q hq; rw [h4.hist] at hq; cases hq
  | remount h0 h1 h2 _ =>
    obtain ⟨z, -, hz⟩ := h0.reach.rel
    obtain ⟨d, r, -, h4⟩ := mount_left hz.w.disk h1 h2
    intro q hq; rw [h4.hist] at hq; cases hq

/-- States on bytes correspond to states on records. -/
theorem MReachQ.rel {Q : Req → Backend → Prop} {b : MSys} (h : MReachQ Q b) : ∃ m, MT.MReachQ Q m ∧ MSRel b m := by
  induction h with
  | mount hf hm hr =>
    obtain ⟨d, r, h3, h4⟩ := mount_left DRel.empty hf hm
    exact ⟨_, .mount h3 ((room_rel h4.w).mp hr), h4⟩
  | remount _ hf hm hr ih =>
    obtain ⟨m, h1, h2⟩ := ih
    obtain ⟨d, r, h3, h4⟩ := mount_left h2.w.disk hf hm
    exact ⟨_, .remount h1 h3 ((room_rel h4.w).mp hr), h4⟩
  | step _ hs hp hr hq ih =>
    obtain ⟨m, h1, h2⟩ := ih
    obtain ⟨m', h3, h4⟩ := step_left h2 hs hp.new
    exact ⟨m', .step h1 h3 (proper_left h2 h4 hp) ((room_rel h4.w).mp hr) (fun q hm => hq q (by rw [h4.hist]; exact hm)), h4⟩

theorem linksFit_rel {x : Cache.B.DB} {d : DB} (h : DRel x d) : LinksFit x ↔ Local.LinksFit d := by
  unfold LinksFit Local.LinksFit
  simp only [getattr_rel h, readlink_rel h, Except.ok.injEq]

/-- **C128.** As long as no link of the backend changes its length, the size stored in the file for a link is the length of the target stored for it. -/
theorem C128_links_fit_partial {len : Bytes → Nat} {b : MSys} (h : MReachQ (fun rq B => rq.named ∧ LinkLen len B) b) : LinksFit b.w.disk := by
  obtain ⟨m, h1, h2⟩ := h.rel
  exact (linksFit_rel h2.w.disk).mpr (Local.C95_links_fit_partial h1)

/-- **C128**, the other part: when a link has been read while connected, the size stored for it is right again. -/
theorem C128_read {b b' : MSys} (h : MReach b) {k : Nat} (hs : Step b k b') (hp : Proper b k b') (hroom : Room b'.w) {q : MT.Done} (hq : b'.hist = b.hist ++ [q]) {i : Ino}
    (hrq : q.rq = .readlink i) {x t : Bytes} (hx : Cache.B.path b.w.disk i = .ok (.ok x)) {a : Attrs} (ha : Cache.B.getattr b.w.disk i = .ok (.ok (i, a))) (hl : fmt a.mode = S_IFLNK)
    (hB : q.B.readlink (backendPath x) = .ok t) :
    q.rep = .readlink (t.takeWhile (· != 0)) ∧ Cache.B.readlink b'.w.disk i = .ok (.ok t) ∧ Cache.B.getattr b'.w.disk i = .ok (.ok (i, { a with size := t.length })) := by
  obtain ⟨m, k1, k2⟩ := h.rel
  obtain ⟨m', k3, k4⟩ := step_left k2 hs hp.new
  obtain ⟨g1, g2, g3⟩ := Local.C95_read k1 k3 (proper_left k2 k4 hp) ((room_rel k4.w).mp hroom) (by rw [← k4.hist, ← k2.hist]; exact hq) hrq
    (by rw [← path_rel k2.w.disk]; exact hx) (by rw [getattr_rel k2.w.disk] at ha; exact Except.ok.inj ha) hl hB
  exact ⟨g1, by rw [readlink_rel k4.w.disk, g2], by rw [getattr_rel k4.w.disk, g3]⟩

/-! ### Examples -/

/-- A step on records is one on bytes: with any hosts which fit into the types of C++. -/
theorem gstepB {hosts : Nat → Backend} (fits : ∀ j, FSB.BackendFits (hosts j)) (pad : Ino → Nat) {b : MSys} {m m' : MT.MSys} {cap k : Nat} (hr : MSRel b m) (g : MT.Ready (QG hosts) cap m')
    (hs : MT.Step m k m') (hp : MT.Proper m k m') (hroom : MT.Room m'.w) : ∃ b', Step b k b' ∧ MSRel b' m' ∧ Proper b k b' ∧ Room b'.w := by
  have hf : ∀ rq B, m'.th[k]? = some (.recv rq B) → FSB.BackendFits B := by
    intro rq B hk
    obtain ⟨-, j, rfl⟩ := g.asks k _ hk
    exact fits j
  have hnew : NewFits m.th m'.th k := by
    intro hk rq B hrc
    cases hp with
    | issue g1 g2 g3 g4 => rw [g1] at hrc; cases hrc; exact ⟨g2, hf _ _ g1⟩
    | begin_ g1 _ => rw [hk] at g1; cases g1
    | other _ g2 => exact absurd hrc (g2 rq B)
  obtain ⟨b1, k1, k2⟩ := step_right pad hr hs hnew
  exact ⟨b1, k1, k2, proper_right hr k2 hp hf, (room_rel k2.w).mpr hroom⟩

theorem greachQ_run {hosts : Nat → Backend} (fits : ∀ j, FSB.BackendFits (hosts j)) (pad : Ino → Nat) {Q : Req → Backend → Prop}
    (small : ∀ {j p names e}, (hosts j).opendir p = .ok (names, e) → names.length ≤ 10)
    (hQ : ∀ {rq B}, QG hosts rq B → Q rq B) {ls : List Local.GEv} {P : MT.MSys → Prop} [∀ m, Decidable (P m)]
    (h : (match startG with | some m => (match runG hosts (fun _ _ => true) m 0 ls with | some (m, _) => decide (P m) | none => false) | none => false) = true) :
    ∃ b m, MReachQ Q b ∧ MSRel b m ∧ P m := by
  cases hs0 : startG with
  | none => rw [hs0] at h; cases h
  | some m0 =>
    rw [hs0] at h
    simp only at h
    cases hr : runG hosts (fun _ _ => true) m0 0 ls with
    | none => rw [hr] at h; cases h
    | some x =>
      obtain ⟨m, cap⟩ := x
      rw [hr] at h
      obtain ⟨d, r, x1, x2, rfl, -⟩ := Local.startG_mount hs0
      obtain ⟨b0, x3, x4⟩ := mount_right pad pad DRel.empty zero_fits 2 x1
      have hb0 : MReachQ Q b0 := .mount zero_fits x3 ((room_rel x4.w).mpr x2)
      obtain ⟨-, b, g1, g2⟩ := Local.runG_ready small (R := fun m => ∃ b, MSRel b m ∧ MReachQ Q b) (by
          rintro m1 k m2 c ⟨b1, h1, h2⟩ g hs hp hroom hq
          obtain ⟨b', k1, k2, k3, k4⟩ := gstepB fits pad h1 g hs hp hroom
          refine ⟨b', k2, .step h2 k1 k3 k4 (fun q hm => ?_)⟩
          rw [k2.hist] at hm
          rcases MT.step_hist hs with he | ⟨x, q', -, he, -⟩
          · rw [he, ← h1.hist] at hm; exact h2.all q hm
          · have hm' := hm
            rw [he] at hm'
            rcases List.mem_append.mp hm' with h3 | h3
            · rw [← h1.hist] at h3; exact h2.all q h3
            · rw [List.mem_singleton.mp h3]; exact hQ (hq q' he).1)
        (by
          rintro - m1 d r ⟨b1, h1, h2⟩ ho hroom
          obtain ⟨b', k1, k2⟩ := mount_right pad pad h1.w.disk zero_fits 2 ho
          exact ⟨b', k2, .remount h2 zero_fits k1 ((room_rel k2.w).mpr hroom)⟩) (Local.startG_ready hs0) ⟨b0, x4, hb0⟩ hr
      exact ⟨b, m, g2, g1, of_decide_eq_true h⟩

theorem treeC_fits {cs : List Bytes} {o : Local.Obj} (h : Local.treeC cs = some o) : (fromBackend o.stat).Fits ∧ ∀ t, o.target = some t → t.length < W64 := by
  unfold Local.treeC at h
  split at h <;> cases h
  all_goals
    constructor
    · unfold Attrs.Fits Timespec.Fits; decide +kernel
    · intro t ht; cases ht <;> decide

theorem hostsC_fits (j : Nat) : FSB.BackendFits (hostsC j) := by
  match j with
  | 0 => exact hostB_fits false
  | 1 => exact hostB_fits true
  | j + 2 => exact treeHost_fits treeC_fits

/-- What the file has of an inode: its size. -/
def sizeIn (d : Cache.B.DB) (i : Ino) : Option Nat := match Cache.B.getattr d i with | .ok (.ok (j, a)) => if j = i then some a.size else none | _ => none

theorem sizeIn_rel {x : Cache.B.DB} {d : DB} (h : DRel x d) (i : Ino) : sizeIn x i = Local.sizeIn d i := by
  unfold sizeIn Local.sizeIn
  rw [getattr_rel h]
  cases Cache.getattr d i <;> rfl

theorem eventsC_bytes (pad : Ino → Nat) : ∃ b, MReachQ (fun rq B => rq.named ∧ LinkSane B) b ∧
    (b.hist.map (·.rq) = [.lookup 1 [0x6c], .readlink 2, .lookup 1 [0x6c], .getattr 2, .readlink 2] ∧
     b.hist.map Local.sizes = [(1, 1), (3, 1), (1, 2), (2, 2), (3, 1)] ∧ sizeIn b.w.disk 2 = some 2 ∧ Cache.B.readlink b.w.disk 2 = .ok (.ok [0x61])) := by
  obtain ⟨b, m, h1, h2, h3, h4, h5, h6⟩ := greachQ_run hostsC_fits pad (Q := fun rq B => rq.named ∧ LinkSane B) (fun h => Local.hostsC_small h)
    (fun h => ⟨h.1, by obtain ⟨-, j, rfl⟩ := h; exact Local.hostsC_sane j⟩) (ls := eventsC)
    (P := fun m => m.hist.map (·.rq) = [.lookup 1 [0x6c], .readlink 2, .lookup 1 [0x6c], .getattr 2, .readlink 2] ∧
     m.hist.map Local.sizes = [(1, 1), (3, 1), (1, 2), (2, 2), (3, 1)] ∧ Local.sizeIn m.w.disk 2 = some 2 ∧ Cache.readlink m.w.disk 2 = .ok [0x61]) (by decide +kernel)
  exact ⟨b, h1, by rw [h2.hist]; exact h3, by rw [h2.hist]; exact h4, by rw [sizeIn_rel h2.w.disk]; exact h5, by rw [readlink_rel h2.w.disk, h6]⟩

/-- C128 is not true: the file keeps the new size of a link, and its old target. -/
theorem C128_counterexample : ¬ C128_links_fit := by
  intro h
  obtain ⟨b, h1, -, -, h2, h3⟩ := eventsC_bytes (fun _ => 0)
  unfold sizeIn at h2
  cases hg : Cache.B.getattr b.w.disk 2 with
  | error e => rw [hg] at h2; cases h2
  | ok x =>
    cases x with
    | error e => rw [hg] at h2; cases h2
    | ok x =>
      obtain ⟨i, a⟩ := x
      rw [hg] at h2
      simp only at h2
      by_cases hi : i = 2
      case neg => rw [if_neg hi] at h2; cases h2
      rw [if_pos hi] at h2
      subst hi
      have := h b h1 2 a _ (by decide) hg h3
      rw [Option.some.inj h2] at this; cases this

/-- The hypotheses of `C128_read` can be met, with any padding: the size stored and the target stored disagree before, and agree afterwards. -/
example (pad : Ino → Nat) : ∃ (b b' : MSys) (q : MT.Done), MReach b ∧ b'.hist = b.hist ++ [q] ∧ sizeIn b.w.disk 2 = some 2 ∧ Cache.B.readlink b.w.disk 2 = .ok (.ok [0x61]) ∧
    q.rep = .readlink [0x61, 0x62] ∧ sizeIn b'.w.disk 2 = some 2 ∧ Cache.B.readlink b'.w.disk 2 = .ok (.ok [0x61, 0x62]) := by
  have key : (match startG with
      | some m => (match Local.storyG hostsC m 0 Local.storyC with
        | some [(m1, _), (m2, _)] => decide (m1.hist.length = 3 ∧ Cache.path m1.w.disk 2 = .ok (.ok [0x2f, 0x6c]) ∧ Local.sizeIn m1.w.disk 2 = some 2 ∧ Cache.readlink m1.w.disk 2 = .ok [0x61] ∧
            m2.hist.length = 4 ∧ (m2.hist.drop 3).map (·.rq) = [.readlink 2] ∧ (m2.hist.drop 3).map (fun q => q.B.readlink [0x2f, 0x6c]) = [.ok [0x61, 0x62]] ∧
            (match Cache.getattr m1.w.disk 2 with | .ok (_, a) => some (fmt a.mode) | .error _ => none) = some S_IFLNK)
        | _ => false)
      | none => false) = true := by decide +kernel
  cases hs0 : startG with
  | none => rw [hs0] at key; cases key
  | some m0 =>
    rw [hs0] at key
    simp only at key
    cases hst : Local.storyG hostsC m0 0 Local.storyC with
    | none => rw [hst] at key; cases key
    | some xs =>
      rw [hst] at key
      unfold Local.storyC at hst
      obtain ⟨m1, c1, _, rfl, r1, hst⟩ := Local.storyG_cons hst
      obtain ⟨m2, c2, _, rfl, r2, hst⟩ := Local.storyG_cons hst
      cases hst
      simp only [decide_eq_true_eq] at key
      obtain ⟨k1, k2, k3, k4, k5, k6, k7, k8⟩ := key
      obtain ⟨d, r, x1, x2, rfl, -⟩ := Local.startG_mount hs0
      obtain ⟨b0, x3, x4⟩ := mount_right pad pad DRel.empty zero_fits 2 x1
      have hb0 : MReach b0 := .mount zero_fits x3 ((room_rel x4.w).mpr x2)
      obtain ⟨g1, y1, z1, w1⟩ := Local.runG_ready (fun h => Local.hostsC_small h) (R := fun m => ∃ b, MSRel b m ∧ MReach b) (by
          rintro m1 k m2 c ⟨b1, h1, h2⟩ g hs hp hroom -
          obtain ⟨b', e1, e2, e3, e4⟩ := gstepB hostsC_fits pad h1 g hs hp hroom
          exact ⟨b', e2, .step h2 e1 e3 e4⟩)
        (by
          rintro - m1 d r ⟨b1, h1, h2⟩ ho hroom
          obtain ⟨b', e1, e2⟩ := mount_right pad pad h1.w.disk zero_fits 2 ho
          exact ⟨b', e2, .remount h2 zero_fits e1 ((room_rel e2.w).mpr hroom)⟩) (Local.startG_ready hs0) ⟨b0, x4, hb0⟩ r1
      obtain ⟨g2, k, a1, a2, a3⟩ := Local.runG_go g1 r2
      obtain ⟨y2, p1, z2, p2, p3⟩ := gstepB hostsC_fits pad z1 g2 a1 a2 a3
      obtain ⟨q, hq⟩ := MT.event_hist a1 (by rw [k1, k5])
      have hdrop : m2.hist.drop 3 = [q] := by rw [hq, ← k1, List.drop_left]
      rw [hdrop] at k6 k7
      have hrq : q.rq = .readlink 2 := by simpa using k6
      have hB : q.B.readlink [0x2f, 0x6c] = .ok [0x61, 0x62] := by simpa using k7
      have k3' := k3
      unfold Local.sizeIn at k3
      cases hg : Cache.getattr m1.w.disk 2 with
      | error e => rw [hg] at k3; cases k3
      | ok x =>
        obtain ⟨i, a⟩ := x
        rw [hg] at k3 k8
        simp only at k3
        by_cases hi : i = 2
        case neg => rw [if_neg hi] at k3; cases k3
        subst hi
        obtain ⟨b1, b2, b3⟩ := C128_read (x := [0x2f, 0x6c]) (t := [0x61, 0x62]) w1 p1 p2 p3 (by rw [z2.hist, z1.hist]; exact hq) hrq (by rw [path_rel z1.w.disk]; exact k2) (by rw [getattr_rel z1.w.disk, hg]) (Option.some.inj k8) hB
        exact ⟨y1, y2, q, w1, by rw [z2.hist, z1.hist]; exact hq, by rw [sizeIn_rel z1.w.disk]; exact k3', by rw [readlink_rel z1.w.disk, k4], b1, by unfold sizeIn; rw [b3]; rfl, b2⟩

end Dragonstash.MTB
