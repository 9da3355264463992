/-
  C127: opening a directory brings its cached copy up to date (C94), on the stored bytes.
-/
import Verif.Props.LocalDir
import Verif.Props.WalkedBytes
namespace Dragonstash.MTB
open Cache FS Conc ConcB
open Local (HTree Host Has Plain backend Whole DirAt DirNow rootR treeA treeA_tree treeA_whole rootR_ne rootR_nul ListsAll NotThere Gone
  QG hosts3 okNow okNow_iff online_not online goneHost_gone treeHost hostB treeHost_has brief treeB story94 check94 startG storyG hosts3_small runG)

variable {root : Bytes} {T : HTree} {cs : List Bytes} {dir : Ino}

/-! ### Specification -/

/-- What the bytes say of the directory at `cs`, inode `dir`, is what it has in `T` (as `Local.DirRight`): the same names, with the same attributes. -/
structure DirRight (T : HTree) (cs : List Bytes) (dir : Ino) (d : Cache.B.DB) : Prop where
  path : Cache.B.path d dir = .ok (.ok (pathStr cs))
  isDir : ∃ a, Cache.B.getattr d dir = .ok (.ok (dir, a)) ∧ fmt a.mode = S_IFDIR
  names : ∀ n, Plain n → n.length ≤ 503 → ((∃ j, Cache.B.lookup d dir n = .ok (.ok j)) ↔ T (cs ++ [n]) ≠ none)
  attr : ∀ n j o, Plain n → Cache.B.lookup d dir n = .ok (.ok j) → T (cs ++ [n]) = some o → Cache.B.getattr d j = .ok (.ok (j, fromBackend o.stat))

/-- What may happen while the directory at `cs` stays as it is in `T` (as `Local.DirStays`). -/
inductive DirStays (root : Bytes) (T : HTree) (cs : List Bytes) (m : MSys) : MSys → Prop
  | refl : DirStays root T cs m m
  | step {m1 m2 k} : DirStays root T cs m m1 → Step m1 k m2 → Proper m1 k m2 → Room m2.w →
      (∀ q, m2.hist = m1.hist ++ [q] → DirNow root T cs q.B ∧ FSB.onLink m1.w.disk q.rq) → DirStays root T cs m m2
  | crash {m1 pad pad' uid gid now n m2} : DirStays root T cs m m1 → MountFits uid gid now → mount pad pad' m1.w.disk uid gid now n = .ok m2 → Room m2.w →
      DirStays root T cs m m2

/-- The same, in one process. -/
inductive DirSteps (root : Bytes) (T : HTree) (cs : List Bytes) (m : MSys) : MSys → Prop
  | refl : DirSteps root T cs m m
  | step {m1 m2 k} : DirSteps root T cs m m1 → Step m1 k m2 → Proper m1 k m2 → Room m2.w →
      (∀ q, m2.hist = m1.hist ++ [q] → DirNow root T cs q.B ∧ FSB.onLink m1.w.disk q.rq) → DirSteps root T cs m m2

/-- The reply to a lookup of `n` in a directory which was opened (as `Local.LookupNow`). -/
def LookupNow (root : Bytes) (T : HTree) (cs : List Bytes) (dir : Ino) (n : Bytes) (d : Cache.B.DB) (B : Backend) : Reply → Prop
  | .entry st => Cache.B.lookup d dir n = .ok (.ok st.ino) ∧ ∃ o, T (cs ++ [n]) = some o ∧ Shows st o.stat o.stat.size
  | .err e => T (cs ++ [n]) = none ∧ (NotThere e ∨ e = EIO ∧ Cache.B.testFlag d dir SYNCED ≠ .ok (.ok true) ∧ ∃ H, B = backend root H ∧ Gone H)
  | _ => False

/-! ### Theorems -/

theorem dirRight_rel {x : Cache.B.DB} {d : DB} (h : DRel x d) : DirRight T cs dir x ↔ Local.DirRight T cs dir d := by
  constructor
  · rintro ⟨h1, ⟨a, h2, h2'⟩, h3, h4⟩
    refine ⟨by rw [← path_rel h]; exact h1, ⟨a, by rw [getattr_rel h] at h2; exact Except.ok.inj h2, h2'⟩, fun n a1 a2 => ?_, fun n j o a1 a2 a3 => ?_⟩
    · have := h3 n a1 a2
      simpa only [lookup_rel h] using this
    · have := h4 n j o a1 (by rw [lookup_rel h]; exact a2) a3
      rw [getattr_rel h] at this
      exact Except.ok.inj this
  · rintro ⟨h1, ⟨a, h2, h2'⟩, h3, h4⟩
    refine ⟨by rw [path_rel h]; exact h1, ⟨a, by rw [getattr_rel h, h2], h2'⟩, fun n a1 a2 => ?_, fun n j o a1 a2 a3 => ?_⟩
    · simpa only [lookup_rel h] using h3 n a1 a2
    · rw [lookup_rel h] at a2
      rw [getattr_rel h, h4 n j o a1 a2 a3]

theorem lookupNow_rel {x : Cache.B.DB} {d : DB} (h : DRel x d) {n : Bytes} {B : Backend} {rep : Reply} (k : Local.LookupNow root T cs dir n d B rep) : LookupNow root T cs dir n x B rep := by
  cases rep with
  | entry st =>
    obtain ⟨k1, k2⟩ := k
    exact ⟨by rw [lookup_rel h]; exact k1, k2⟩
  | err e =>
    obtain ⟨k1, k2 | ⟨k2, k3, k4⟩⟩ := k
    · exact ⟨k1, .inl k2⟩
    · exact ⟨k1, .inr ⟨k2, fun hh => k3 (by rw [testFlag_rel h] at hh; exact Except.ok.inj hh), k4⟩⟩
  | _ => exact absurd k (by simp [Local.LookupNow])

theorem DirStays.rel {b b' : MSys} {m : MT.MSys} (h : DirStays root T cs b b') (h0 : MSRel b m) : ∃ m', Local.DirStays root T cs m m' ∧ MSRel b' m' := by
  induction h with
  | refl => exact ⟨m, .refl, h0⟩
  | step _ hs hp hr hq ih =>
    obtain ⟨m1, h1, h2⟩ := ih
    obtain ⟨m', h3, h4⟩ := step_left h2 hs hp.new
    refine ⟨m', .step h1 h3 (proper_left h2 h4 hp) ((room_rel h4.w).mp hr) (fun q e => ?_), h4⟩
    obtain ⟨g1, g2⟩ := hq q (by rw [h4.hist, h2.hist]; exact e)
    exact ⟨g1, (onLink_rel h2.w.disk _).mp g2⟩
  | crash _ hf hm hr ih =>
    obtain ⟨m, h1, h2⟩ := ih
    obtain ⟨d, r, h3, h4⟩ := mount_left h2.w.disk hf hm
    exact ⟨_, .crash h1 h3 ((room_rel h4.w).mp hr), h4⟩

theorem DirSteps.rel {b b' : MSys} {m : MT.MSys} (h : DirSteps root T cs b b') (h0 : MSRel b m) : ∃ m', Local.DirSteps root T cs m m' ∧ MSRel b' m' := by
  induction h with
  | refl => exact ⟨m, .refl, h0⟩
  | step _ hs hp hr hq ih =>
    obtain ⟨m1, h1, h2⟩ := ih
    obtain ⟨m', h3, h4⟩ := step_left h2 hs hp.new
    refine ⟨m', .step h1 h3 (proper_left h2 h4 hp) ((room_rel h4.w).mp hr) (fun q e => ?_), h4⟩
    obtain ⟨g1, g2⟩ := hq q (by rw [h4.hist, h2.hist]; exact e)
    exact ⟨g1, (onLink_rel h2.w.disk _).mp g2⟩

/-- C127: a directory is opened while the host is connected and has it: the request is answered that it is open, and what the bytes say of it is then what the host
has, whatever was stored before and from which hosts. -/
theorem C127_open (ht : Local.Tree T) (hr : root ≠ []) (h0 : (0 : UInt8) ∉ root) (hcs : ∀ c ∈ cs, Plain c) {b b' : MSys} {k : Nat} (h : MReach b) (hs : Step b k b') (hp : Proper b k b') (hroom : Room b'.w)
    {q : MT.Done} (hq : b'.hist = b.hist ++ [q]) (hrq : q.rq = .opendir dir) (hb : dir < W64) (hpath : Cache.B.path b.w.disk dir = .ok (.ok (pathStr cs)))
    (hH : ∃ H, q.B = backend root H ∧ Has root H T) (hT : DirAt T cs) :
    q.rep = .opened ∧ DirRight T cs dir b'.w.disk ∧ Cache.B.testFlag b'.w.disk dir SYNCED = .ok (.ok true) := by
  obtain ⟨m, k1, k2⟩ := h.rel
  obtain ⟨m', k3, k4⟩ := step_left k2 hs hp.new
  obtain ⟨g1, g2, g3⟩ := Local.C94_open ht hr h0 hcs k1 k3 (proper_left k2 k4 hp) ((room_rel k4.w).mp hroom) (by rw [← k4.hist, ← k2.hist]; exact hq) hrq hb
    (by rw [← path_rel k2.w.disk]; exact hpath) hH hT
  exact ⟨g1, (dirRight_rel k4.w.disk).mpr g2, by rw [testFlag_rel k4.w.disk, g3]⟩

/-- C127: and so it stays, with the same inode numbers, as long as the directory stays as it is on the host. -/
theorem C127_kept (hr : root ≠ []) (h0 : (0 : UInt8) ∉ root) (hcs : ∀ c ∈ cs, Plain c) {b b' : MSys} (h : MReach b) (hb : dir < W64) (hl : DirStays root T cs b b') (hd : DirRight T cs dir b.w.disk) :
    DirRight T cs dir b'.w.disk ∧ ∀ n j, Plain n → (Cache.B.lookup b'.w.disk dir n = .ok (.ok j) ↔ Cache.B.lookup b.w.disk dir n = .ok (.ok j)) := by
  obtain ⟨m, k1, k2⟩ := h.rel
  obtain ⟨m', k3, k4⟩ := hl.rel k2
  obtain ⟨g1, g2⟩ := Local.C94_kept hr h0 hcs k1 hb k3 ((dirRight_rel k2.w.disk).mp hd)
  refine ⟨(dirRight_rel k4.w.disk).mpr g1, fun n j hn => ?_⟩
  rw [lookup_rel k2.w.disk, lookup_rel k4.w.disk]
  exact g2 n j hn

/-- C127: a name is looked up in a directory which was opened and has not changed since: the answer is right, and is the same whether the host is connected or not. -/
theorem C127_lookup (hr : root ≠ []) (h0 : (0 : UInt8) ∉ root) (hcs : ∀ c ∈ cs, Plain c) {b b' : MSys} {k : Nat} (h : MReach b) (hs : Step b k b') (hp : Proper b k b') (hroom : Room b'.w)
    {q : MT.Done} (hq : b'.hist = b.hist ++ [q]) {n : Bytes} (hn : Plain n) (hlen : n.length ≤ 503) (hrq : q.rq = .lookup dir n) (hb : dir < W64) (hd : DirRight T cs dir b.w.disk)
    (hnow : DirNow root T cs q.B) : LookupNow root T cs dir n b.w.disk q.B q.rep := by
  obtain ⟨m, k1, k2⟩ := h.rel
  obtain ⟨m', k3, k4⟩ := step_left k2 hs hp.new
  exact lookupNow_rel k2.w.disk (Local.C94_lookup hr h0 hcs k1 k3 (proper_left k2 k4 hp) ((room_rel k4.w).mp hroom) (by rw [← k4.hist, ← k2.hist]; exact hq) hn hlen hrq hb
    ((dirRight_rel k2.w.disk).mp hd) hnow)

/-- C127: the directory is listed, in any number of pages, each read since the bytes were right: the listing is complete and right. -/
theorem C127_listing (hr : root ≠ []) (h0 : (0 : UInt8) ∉ root) (hcs : ∀ c ∈ cs, Plain c) {b b' : MSys} (h : MReach b) (hb : dir < W64) (hd : DirRight T cs dir b.w.disk)
    (hl : DirSteps root T cs b b') {ks : List Nat} {l : List DEnt} (hks : Local.Since b'.hist b.hist.length ks) (hL : MT.Listing b'.hist dir 0 ks l) : ListsAll T cs l := by
  obtain ⟨m, k1, k2⟩ := h.rel
  obtain ⟨m', k3, k4⟩ := hl.rel k2
  rw [k4.hist, k2.hist] at hks
  rw [k4.hist] at hL
  exact Local.C94_listing hr h0 hcs k1 hb ((dirRight_rel k2.w.disk).mp hd) k3 hks hL

/-! ### Example -/

theorem lift_run (pad : Ino → Nat) {R : MSys → Prop} {ok : MT.MSys → MT.Done → Bool}
    (step : ∀ {b b' : MSys} {m : MT.MSys} {k}, MSRel b m → R b → Step b k b' → Proper b k b' → Room b'.w → (∀ q, b'.hist = b.hist ++ [q] → QG hosts3 q.rq q.B ∧ ok m q = true) → R b')
    {l : List Local.GEv} {m m' : MT.MSys} {cap cap' : Nat}
    (crash : .die ∈ l → ∀ {b b' : MSys}, R b → mount pad pad b.w.disk 0 0 ⟨0, 0⟩ 2 = .ok b' → Room b'.w → R b')
    (h : MT.Ready (QG hosts3) cap m) {b : MSys} (hb : MSRel b m) (hR : R b) (hd : runG hosts3 ok m cap l = some (m', cap')) : MT.Ready (QG hosts3) cap' m' ∧ ∃ b', MSRel b' m' ∧ R b' := by
  refine Local.runG_ready hosts3_small (R := fun m => ∃ b, MSRel b m ∧ R b) ?_ ?_ h ⟨b, hb, hR⟩ hd
  · rintro m1 k m2 c ⟨b1, h1, h2⟩ g hs hp hroom hq
    obtain ⟨b', k1, k2, k3, k4⟩ := stepB pad h1 g hs hp hroom
    exact ⟨b', k2, step h1 h2 k1 k3 k4 (fun q e => hq q (by rw [← k2.hist, ← h1.hist]; exact e))⟩
  · rintro hd m1 d r ⟨b1, h1, h2⟩ ho hroom
    obtain ⟨b', k1, k2⟩ := mount_right pad pad h1.w.disk zero_fits 2 ho
    exact ⟨b', k2, crash hd h2 k1 ((room_rel k2.w).mpr hroom)⟩

/-- The hypotheses of the theorems can be met: by the story of C94, on bytes, with any padding. -/
example (pad : Ino → Nat) : ∃ (y1 y2 y3 y4 y5 y6 : MSys) (q q' : MT.Done) (l : List DEnt), MReach y1 ∧ (∃ j, Cache.B.lookup y1.w.disk 1 [0x78] = .ok (.ok j)) ∧
    y2.hist = y1.hist ++ [q] ∧ q.rq = .opendir 1 ∧ q.rep = .opened ∧ DirRight treeA [] 1 y2.w.disk ∧
    DirStays rootR treeA [] y2 y3 ∧ y3.hist = [] ∧ DirRight treeA [] 1 y3.w.disk ∧
    DirSteps rootR treeA [] y3 y4 ∧ y5.hist = y4.hist ++ [q'] ∧ q'.rq = .lookup 1 [0x78] ∧ q'.rep = .err ENOENT ∧ LookupNow rootR treeA [] 1 [0x78] y4.w.disk q'.B q'.rep ∧
    DirSteps rootR treeA [] y3 y6 ∧ MT.Listing y6.hist 1 0 [1, 2] l ∧ ListsAll treeA [] l := by
  have key := Local.story94_ex
  cases hs0 : startG with
  | none => rw [hs0] at key; cases key
  | some m0 =>
    rw [hs0] at key
    simp only at key
    cases hst : storyG hosts3 m0 0 story94 with
    | none => rw [hst] at key; cases key
    | some xs =>
      rw [hst] at key
      simp only at key
      have g0 : MT.Ready (QG hosts3) 0 m0 := Local.startG_ready hs0
      obtain ⟨d, r, x1, x2, rfl, -⟩ := Local.startG_mount hs0
      obtain ⟨b0, x3, x4⟩ := mount_right pad pad DRel.empty zero_fits 2 x1
      have hb0 : MReach b0 := .mount zero_fits x3 ((room_rel x4.w).mpr x2)
      unfold story94 at hst
      obtain ⟨m1, c1, _, rfl, r1, hst⟩ := Local.storyG_cons hst
      obtain ⟨m2, c2, _, rfl, r2, hst⟩ := Local.storyG_cons hst
      obtain ⟨m3, c3, _, rfl, r3, hst⟩ := Local.storyG_cons hst
      obtain ⟨m4, c4, _, rfl, r4, hst⟩ := Local.storyG_cons hst
      obtain ⟨m5, c5, _, rfl, r5, hst⟩ := Local.storyG_cons hst
      obtain ⟨m6, c6, _, rfl, r6, hst⟩ := Local.storyG_cons hst
      cases hst
      unfold check94 at key
      simp only [decide_eq_true_eq] at key
      obtain ⟨k1, k2, ⟨jx, -, k3⟩, k4, k5, k6, k7, k8, k9, k9', k10, k11⟩ := key
      have now : ∀ {b : MSys} {m : MT.MSys} {q : MT.Done}, MSRel b m → QG hosts3 q.rq q.B ∧ okNow m q = true → DirNow rootR treeA [] q.B ∧ FSB.onLink b.w.disk q.rq := fun hb hq =>
        ⟨(okNow_iff hq.1 hq.2).1, (onLink_rel hb.w.disk _).mpr (okNow_iff hq.1 hq.2).2⟩
      obtain ⟨g1, y1, z1, w1⟩ := lift_run pad (R := MReach) (fun _ h a b c _ => .step h a b c) (fun _ _ _ h a b => .remount h zero_fits a b) g0 x4 hb0 r1
      obtain ⟨g2, ka, a1, a2, a3⟩ := Local.runG_go g1 r2
      obtain ⟨y2, p1, z2, p2, p3⟩ := stepB pad z1 g2 a1 a2 a3
      obtain ⟨g3, y3, z3, b3⟩ := lift_run pad (R := DirStays rootR treeA [] y2) (fun hm h a b c hq => .step h a b c (fun q e => now hm (hq q e)))
        (fun _ _ _ h a b => .crash h zero_fits a b) g2 z2 .refl r3
      obtain ⟨g4, y4, z4, b4⟩ := lift_run pad (R := DirSteps rootR treeA [] y3) (fun hm h a b c hq => .step h a b c (fun q e => now hm (hq q e)))
        (fun h => absurd h (by decide)) g3 z3 .refl r4
      obtain ⟨g5, kb, d1, d2, d3⟩ := Local.runG_go g4 r5
      obtain ⟨y5, s1, z5, s2, s3⟩ := stepB pad z4 g5 d1 d2 d3
      -- the directory is opened
      have l2 : m2.hist.length = 2 := by have := congrArg List.length k4; simpa using this
      obtain ⟨q, hq⟩ := MT.event_hist a1 (by rw [k1]; exact l2)
      have hrq : q.rq = .opendir 1 := by
        rw [hq] at k4
        have := congrArg List.getLast? k4
        simpa using this
      have hdrop : m2.hist.drop 1 = [q] := by rw [hq, ← k1, List.drop_left]
      have hB : ∃ H, q.B = backend rootR H ∧ Has rootR H treeA := by
        rw [hdrop] at k5 k6
        simp only [List.map_cons, List.map_nil, List.cons.injEq, and_true] at k5
        obtain ⟨H, hH, ⟨-, -⟩ | hg⟩ := (okNow_iff (m := m1) (g2.hist q (by rw [hq]; simp)) (by simpa using k6)).1
        · obtain ⟨-, j, hj⟩ := g2.hist q (by rw [hq]; simp)
          match j with
          | 0 => exact absurd goneHost_gone (online_not k5 _ hj)
          | 1 => exact ⟨_, hj, treeHost_has rootR treeA_tree⟩
          | j + 2 =>
            have : okNow m1 q = true := by simpa using k6
            unfold okNow at this
            rw [Bool.and_eq_true] at this
            have h2 := this.2
            rw [hj] at h2
            have h1 : (match (backend rootR (treeHost rootR treeB)).lstat 0 [0x2f, 0x78] with | .ok _ => false | .error _ => true) = false := by decide +kernel
            change (match (backend rootR (treeHost rootR treeB)).lstat 0 [0x2f, 0x78] with | .ok _ => false | .error _ => true) = true at h2
            rw [h1] at h2; cases h2
        · exact absurd hg (online_not k5 H hH)
      have no : ∀ c ∈ ([] : List Bytes), Plain c := fun c hc => by cases hc
      have w2 : MReach y2 := .step w1 p1 p2 p3
      have w3 : ∀ {y y' : MSys}, MReach y → DirStays rootR treeA [] y y' → MReach y' := by
        intro y y' h hd
        induction hd with
        | refl => exact h
        | step _ a b c _ ih => exact .step ih a b c
        | crash _ a b c ih => exact .remount ih a b c
      have w4 : ∀ {y y' : MSys}, DirSteps rootR treeA [] y y' → DirStays rootR treeA [] y y' := by
        intro y y' hd
        induction hd with
        | refl => exact .refl
        | step _ a b c d ih => exact .step ih a b c d
      obtain ⟨e1, e2, -⟩ := C127_open treeA_tree rootR_ne rootR_nul no w1 p1 p2 p3 (by rw [z2.hist, z1.hist]; exact hq) hrq (by decide) (by rw [path_rel z1.w.disk]; exact k2) hB Local.treeA_dirAt
      obtain ⟨e3, -⟩ := C127_kept rootR_ne rootR_nul no w2 (by decide) b3 e2
      obtain ⟨e4, -⟩ := C127_kept rootR_ne rootR_nul no (w3 w2 b3) (by decide) (w4 b4) e3
      -- the lookup
      have l5 : m5.hist.length = 1 := by have := congrArg List.length k9; simpa using this
      obtain ⟨q', hq'⟩ := MT.event_hist d1 (by rw [k8]; exact l5)
      have h4 : m4.hist = [] := List.length_eq_zero_iff.mp k8
      have hrq' : q'.rq = .lookup 1 [0x78] := by
        rw [hq', h4] at k9
        simpa using k9
      have hnow : DirNow rootR treeA [] q'.B := by
        clear e4 e3 e2 hB
        obtain ⟨-, j, hj⟩ := g5.hist q' (by rw [hq']; simp)
        have hg : okNow m4 q' = true := by
          unfold runG at r5
          cases hx : MT.demoMT m4 c4 [.go 0] with
          | none => rw [hx] at r5; cases r5
          | some x =>
            rw [hx] at r5
            simp only at r5
            by_cases hv : ((x.1.hist.drop m4.hist.length).all (okNow m4)) = true
            case neg => rw [if_neg hv] at r5; cases r5
            rw [if_pos hv] at r5
            cases r5
            exact List.all_eq_true.mp hv q' (by rw [hq']; simp)
        exact (okNow_iff (g5.hist q' (by rw [hq']; simp)) hg).1
      have e5 := C127_lookup rootR_ne rootR_nul no (w3 (w3 w2 b3) (w4 b4)) s1 s2 s3 (by rw [z5.hist, z4.hist]; exact hq') (n := [0x78]) (Local.plainB (by decide)) (by decide) hrq' (by decide) e4 hnow
      -- the listing
      have b5 : DirSteps rootR treeA [] y3 y5 := .step b4 s1 s2 s3 (fun q e => by
        have : q = q' := by
          have h1 : y4.hist ++ [q] = y4.hist ++ [q'] := by rw [← e, z5.hist, z4.hist]; exact hq'
          simpa using h1
        subst this
        exact ⟨hnow, by rw [hrq']; trivial⟩)
      obtain ⟨-, y6, z6, b6⟩ := lift_run pad (R := DirSteps rootR treeA [] y3) (fun hm h a b c hq => .step h a b c (fun q e => now hm (hq q e)))
        (fun h => absurd h (by decide)) g5 z5 b5 r6
      obtain ⟨l, hl⟩ := Option.isSome_iff_exists.mp k11
      have hL := MT.listingB_ok hl
      rw [← z6.hist] at hL
      have hks : Local.Since y6.hist y3.hist.length [1, 2] := by rw [z3.hist, k7]; exact fun _ _ _ _ => Nat.zero_le _
      have e6 := C127_listing rootR_ne rootR_nul no (w3 w2 b3) (by decide) e3 b6 hks hL
      have hrep : q'.rep = .err ENOENT := by
        rw [hq', h4] at k9'
        simp only [List.nil_append, List.map_cons, List.map_nil, List.cons.injEq, and_true] at k9'
        unfold LookupNow at e5
        cases hr : q'.rep with
        | entry st =>
          rw [hr] at e5
          obtain ⟨-, o, ho, -⟩ := e5
          cases ho
        | err e =>
          rw [hr] at k9'
          unfold brief at k9'
          rw [Nat.add_left_cancel k9']
        | _ => rw [hr] at e5; exact absurd e5 (by simp)
      exact ⟨y1, y2, y3, y4, y5, y6, q, q', l, w1, ⟨jx, by rw [lookup_rel z1.w.disk]; exact k3⟩, by rw [z2.hist, z1.hist]; exact hq, hrq, e1, e2, b3, by rw [z3.hist]; exact List.length_eq_zero_iff.mp k7, e3, b4,
        by rw [z5.hist, z4.hist]; exact hq', hrq', hrep, e5, b6, hL, e6⟩

end Dragonstash.MTB
