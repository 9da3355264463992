/-
  C124: a mounted directory which was filled once works without the host (C123), with the database file as bytes.
-/
import Verif.Props.Offline
import Verif.Props.WalkedBytes
namespace Dragonstash.MTB
open Cache FS Conc ConcB
open Local (HTree Host Has Plain backend Whole DirAt Unchanged rootR treeA treeA_tree treeA_whole rootR_ne rootR_nul Way KernelWalk HostWalk WalkSame Short ShortLinks ListsAll)

variable {root : Bytes} {T : HTree} {cs : List Bytes}

/-! ### Specification -/

/-- As `Local.Filled`, on the bytes of the database file. -/
def Filled (root : Bytes) (T : HTree) (m : MSys) : Prop :=
  ∃ m0 l ls, MReach m0 ∧ Walked root T m0 l ls m ∧
    (∀ cs, DirAt T cs → (∀ c ∈ cs, Plain c ∧ c.length ≤ 503) → cs ∈ l) ∧
    ∀ cs o, Local.Entry T cs o → (∀ c ∈ cs, Plain c ∧ c.length ≤ 503) → fmt o.stat.mode = S_IFLNK → cs ∈ ls

/-- As `Local.After`, on the bytes of the database file. -/
inductive After (root : Bytes) (T : HTree) (m : MSys) : MSys → Prop
  | refl : After root T m m
  | step {m1 m2 k} : After root T m m1 → Step m1 k m2 → Proper m1 k m2 → Room m2.w →
      (∀ q, m2.hist = m1.hist ++ [q] → Unchanged root T q.B ∧ FSB.onLink m1.w.disk q.rq) → After root T m m2

/-! ### Theorems -/

theorem Filled.rel {b : MSys} (h : Filled root T b) : ∃ m, Local.Filled root T m ∧ MSRel b m := by
  obtain ⟨b0, l, ls, h1, h2, h3, h4⟩ := h
  obtain ⟨m0, k1, k2⟩ := h1.rel
  obtain ⟨m, k3, k4⟩ := h2.rel k2
  exact ⟨m, ⟨m0, l, ls, k1, k3, h3, h4⟩, k4⟩

theorem After.rel {b b' : MSys} {m : MT.MSys} (h : After root T b b') (h0 : MSRel b m) : ∃ m', Local.After root T m m' ∧ MSRel b' m' := by
  induction h with
  | refl => exact ⟨m, .refl, h0⟩
  | step _ hs hp hr hq ih =>
    obtain ⟨m1, h1, h2⟩ := ih
    obtain ⟨m', h3, h4⟩ := step_left h2 hs hp.new
    refine ⟨m', .step h1 h3 (proper_left h2 h4 hp) ((room_rel h4.w).mp hr) (fun q e => ?_), h4⟩
    obtain ⟨g1, g2⟩ := hq q (by rw [h4.hist, h2.hist]; exact e)
    exact ⟨g1, (onLink_rel h2.w.disk _).mp g2⟩

/-- C124: every path is resolved in the mounted directory as it is on the host, with or without a connection. -/
theorem C124_walk (ht : Local.Tree T) (hw : Whole T) (hsl : ShortLinks T) (hr : root ≠ []) (h0 : (0 : UInt8) ∉ root) {b b' : MSys} (hf : Filled root T b) (ha : After root T b b')
    {follow : Bool} {l : List Bytes} (hl : Short l) {res : Except Errno Way} (h : KernelWalk (b'.hist.drop b.hist.length) follow [] l res) : WalkSame T follow l res := by
  obtain ⟨m, k1, k2⟩ := hf.rel
  obtain ⟨m', k3, k4⟩ := ha.rel k2
  rw [k4.hist, k2.hist] at h
  exact Local.C123_walk ht hw hsl hr h0 k1 k3 hl h

/-- C124: whatever can be reached on the host is reached, with its attributes. -/
theorem C124_found (ht : Local.Tree T) (hw : Whole T) (hsl : ShortLinks T) (hr : root ≠ []) (h0 : (0 : UInt8) ∉ root) {b b' : MSys} (hf : Filled root T b) (ha : After root T b b')
    {follow : Bool} {l : List Bytes} (hl : Short l) {res : Except Errno Way} (h : KernelWalk (b'.hist.drop b.hist.length) follow [] l res)
    (hh : HostWalk T follow [] l (.ok cs)) {o : Local.Obj} (ho : T cs = some o) (hne : cs ≠ []) : ∃ k st w, res = .ok ((k, st) :: w) ∧ Shows st o.stat o.stat.size := by
  obtain ⟨m, k1, k2⟩ := hf.rel
  obtain ⟨m', k3, k4⟩ := ha.rel k2
  rw [k4.hist, k2.hist] at h
  exact Local.C123_found ht hw hsl hr h0 k1 k3 hl h hh ho hne

/-- C124: every directory is listed as it is on the host, in any number of pages. -/
theorem C124_ls (ht : Local.Tree T) (hw : Whole T) (hr : root ≠ []) (h0 : (0 : UInt8) ∉ root) {b b' : MSys} (hf : Filled root T b) (ha : After root T b b')
    (hT : DirAt T cs) (hcs : ∀ c ∈ cs, Plain c ∧ c.length ≤ 503) {i : Ino} (hi : i < W64) (hp : Cache.B.path b.w.disk i = .ok (.ok (pathStr cs)))
    {ks : List Nat} {l : List DEnt} (hks : Local.Since b'.hist b.hist.length ks) (hL : MT.Listing b'.hist i 0 ks l) : ListsAll T cs l := by
  obtain ⟨m, k1, k2⟩ := hf.rel
  obtain ⟨m', k3, k4⟩ := ha.rel k2
  rw [k4.hist, k2.hist] at hks
  rw [k4.hist] at hL
  exact Local.C123_ls ht hw hr h0 k1 k3 hT hcs hi (by rw [← path_rel k2.w.disk]; exact hp) hks hL

/-- C124: every directory can be opened. -/
theorem C124_opendir (ht : Local.Tree T) (hw : Whole T) (hr : root ≠ []) (h0 : (0 : UInt8) ∉ root) {b b1 b2 : MSys} (hf : Filled root T b) (ha : After root T b b1)
    (hT : DirAt T cs) (hcs : ∀ c ∈ cs, Plain c ∧ c.length ≤ 503) {i : Ino} (hi : i < W64) (hp : Cache.B.path b.w.disk i = .ok (.ok (pathStr cs)))
    {k : Nat} (hs : Step b1 k b2) (hpr : Proper b1 k b2) (hroom : Room b2.w) {q : MT.Done} (hq : b2.hist = b1.hist ++ [q]) (hrq : q.rq = .opendir i)
    (hnow : Unchanged root T q.B) : q.rep = .opened := by
  obtain ⟨m, k1, k2⟩ := hf.rel
  obtain ⟨m1, k3, k4⟩ := ha.rel k2
  obtain ⟨m2, k5, k6⟩ := step_left k4 hs hpr.new
  exact Local.C123_opendir ht hw hr h0 k1 k3 hT hcs hi (by rw [← path_rel k2.w.disk]; exact hp) k5 (proper_left k4 k6 hpr) ((room_rel k6.w).mp hroom)
    (by rw [← k6.hist, ← k4.hist]; exact hq) hrq hnow

/-- C124: the attributes of everything below the root directory are those on the host. -/
theorem C124_attr (ht : Local.Tree T) (hw : Whole T) (hr : root ≠ []) (h0 : (0 : UInt8) ∉ root) {b b' : MSys} (hf : Filled root T b) (ha : After root T b b')
    (hne : cs ≠ []) (hpl : ∀ c ∈ cs, Plain c) {i : Ino} (hi : i < W64) (hp : Cache.B.path b.w.disk i = .ok (.ok (pathStr cs))) {k : Nat} {q : MT.Done} (hk : b'.hist[k]? = some q)
    (hver : b.hist.length ≤ q.ver) (hrq : q.rq = .getattr i) : ∃ st o, q.rep = .attr st ∧ st.ino = i ∧ T cs = some o ∧ Shows st o.stat o.stat.size := by
  obtain ⟨m, k1, k2⟩ := hf.rel
  obtain ⟨m', k3, k4⟩ := ha.rel k2
  rw [k4.hist] at hk
  rw [k2.hist] at hver
  exact Local.C123_attr ht hw hr h0 k1 k3 hne hpl hi (by rw [← path_rel k2.w.disk]; exact hp) hk hver hrq

/-- C124: so it is when the process died and was started again. -/
theorem C124_crash {b b' : MSys} (hf : Filled root T b) {pad pad' : Ino → Nat} {uid gid n : Nat} {now : Timespec} (hfit : MountFits uid gid now)
    (hm : mount pad pad' b.w.disk uid gid now n = .ok b') (hroom : Room b'.w) : Filled root T b' := by
  obtain ⟨m0, l, ls, g1, g2, g3, g4⟩ := hf
  exact ⟨m0, l, ls, g1, .crash g2 hfit hm hroom, g3, g4⟩

/-! ### Example -/

theorem afterB_run (pad : Ino → Nat) {b : MSys} {m m' : MT.MSys} {cap cap' : Nat} {es : List Local.GEv} (hes : es.all (fun e => match e with | .die => false | _ => true) = true)
    (h : MSRel b m) (hr : MT.Ready (Local.QG Local.hosts3) cap m) (r : Local.runG Local.hosts3 Local.okNow m cap es = some (m', cap')) :
    ∃ b', After rootR treeA b b' ∧ MSRel b' m' := by
  refine (Local.runG_ready Local.hosts3_small (R := fun m => ∃ b', After rootR treeA b b' ∧ MSRel b' m) ?_ ?_ hr ⟨b, .refl, h⟩ r).2
  · rintro m1 k m2 c ⟨b1, h1, h2⟩ g hs hp hroom hq
    obtain ⟨b', k1, k2, k3, k4⟩ := stepB pad h2 g hs hp hroom
    refine ⟨b', .step h1 k1 k3 k4 (fun q e => ?_), k2⟩
    obtain ⟨g1, g2⟩ := hq q (by rw [← k2.hist, ← h2.hist]; exact e)
    obtain ⟨g3, g4⟩ := Local.okNow_unchanged g1 g2
    exact ⟨g3, (onLink_rel h2.w.disk _).mpr g4⟩
  · intro hd
    have := List.all_eq_true.mp hes _ hd
    cases this

/-- The hypotheses of the theorems can be met: by the story of C123, on bytes, with any padding. -/
example (pad : Ino → Nat) : ∃ (b b' : MSys) (w : Way) (es : List DEnt), Filled rootR treeA b ∧ After rootR treeA b b' ∧ (∀ q ∈ b'.hist, Local.online q = false) ∧
    KernelWalk (b'.hist.drop b.hist.length) true [] [[0x64], [0x2e, 0x2e], [0x6c]] (.ok w) ∧ (∃ j st, w = [(j, st)] ∧ st.size = 5) ∧
    Local.Since b'.hist b.hist.length [4, 5] ∧ MT.Listing b'.hist 1 0 [4, 5] es ∧ ListsAll treeA [] es ∧
    (∃ q st, b'.hist[6]? = some q ∧ q.rq = .getattr 4 ∧ b.hist.length ≤ q.ver ∧ Cache.B.path b.w.disk 4 = .ok (.ok (pathStr [[0x61]])) ∧ q.rep = .attr st ∧ st.size = 5) := by
  have hd : ∀ c ∈ [[(0x64 : UInt8)]], Plain c := fun c hc => by
    rw [List.mem_singleton] at hc; subst hc; exact Local.plainB (by decide)
  have hl : ∀ c ∈ [[(0x6c : UInt8)]], Plain c := fun c hc => by
    rw [List.mem_singleton] at hc; subst hc; exact Local.plainB (by decide)
  have no : ∀ c ∈ ([] : List Bytes), Plain c := fun c hc => by cases hc
  have links : ∀ cs o, Local.Entry treeA cs o → fmt o.stat.mode = S_IFLNK → cs ∈ [[[(0x6c : UInt8)]]] := by
    rintro cs o ⟨-, -, -, -, h1⟩ h2
    unfold treeA at h1
    split at h1 <;> cases h1 <;> first | exact List.mem_singleton.mpr rfl | exact absurd h2 (by decide +kernel)
  have key := Local.story123_ex
  cases hs0 : Local.startG with
  | none => rw [hs0] at key; cases key
  | some m0 =>
    rw [hs0] at key
    simp only at key
    cases hst : Local.storyG Local.hosts3 m0 0 Local.story123 with
    | none => rw [hst] at key; cases key
    | some ys =>
      rw [hst] at key
      simp only at key
      have g0 : MT.Ready (Local.QG Local.hosts3) 0 m0 := Local.startG_ready hs0
      obtain ⟨d, r, x1, x2, rfl, -⟩ := Local.startG_mount hs0
      obtain ⟨b0, x3, x4⟩ := mount_right pad pad DRel.empty zero_fits 2 x1
      have hb0 : MReach b0 := .mount zero_fits x3 ((room_rel x4.w).mpr x2)
      unfold Local.story123 Local.story120 at hst
      simp only [List.take, List.cons_append, List.nil_append] at hst
      obtain ⟨n1, e1, _, rfl, s1, hst⟩ := Local.storyG_cons hst
      obtain ⟨n2, e2, _, rfl, s2, hst⟩ := Local.storyG_cons hst
      obtain ⟨n3, e3, _, rfl, s3, hst⟩ := Local.storyG_cons hst
      obtain ⟨n4, e4, _, rfl, s4, hst⟩ := Local.storyG_cons hst
      obtain ⟨n5, e5, _, rfl, s5, hst⟩ := Local.storyG_cons hst
      obtain ⟨n6, e6, _, rfl, s6, hst⟩ := Local.storyG_cons hst
      obtain ⟨n7, e7, _, rfl, s7, hst⟩ := Local.storyG_cons hst
      obtain ⟨n8, e8, _, rfl, s8, hst⟩ := Local.storyG_cons hst
      cases hst
      unfold Local.check123 at key
      simp only [Bool.and_eq_true] at key
      obtain ⟨⟨⟨k1, k2⟩, k3⟩, k4⟩ := key
      obtain ⟨f1, v1⟩ := on_run pad ⟨b0, .start, x4⟩ g0 s1
      obtain ⟨f2, v2⟩ := on_open pad v1 f1 s2 k1 (by decide) no Local.treeA_dirAt
      obtain ⟨f3, v3⟩ := on_run pad v2 f2 s3
      obtain ⟨f4, v4⟩ := on_open pad v3 f3 s4 k2 (by decide) hd Local.treeA_dirAt_d
      obtain ⟨f5, v5⟩ := on_run pad v4 f4 s5
      obtain ⟨f6, v6⟩ := on_read pad (cs := []) (n := [0x6c]) v5 (by simp) f5 s6 k3 (by decide) hl rfl (by decide +kernel)
      obtain ⟨f7, b, v7, v8⟩ := on_run pad v6 f6 s7
      obtain ⟨b', ha, hb'⟩ := afterB_run pad (by decide) v8 f7 s8
      have hf : Filled rootR treeA b := ⟨b0, _, _, hb0, v7, fun _ h _ => Local.treeA_dirs h, fun cs o h1 _ h2 => links cs o h1 h2⟩
      have hsv : Local.served n7 n8 := of_decide_eq_true k4
      obtain ⟨-, -, -, -, -, hroot, hfile⟩ := id hsv
      have hoff := Local.served_offline hsv
      obtain ⟨st, es, hk, hsince, hL, q, g1, g2, g3⟩ := Local.served_walk hsv
      rw [← path_rel v8.w.disk] at hroot hfile
      rw [← hb'.hist] at hoff hk hsince hL g1
      rw [← v8.hist] at hk hsince g3
      obtain ⟨k', st', w, e, hsh⟩ := C124_found treeA_tree treeA_whole Local.treeA_links rootR_ne rootR_nul hf ha (by intro n hn; revert n; decide) hk Local.host_walk (o := ⟨bFile 5, none, none⟩) rfl (by simp)
      cases e
      obtain ⟨sta, oa, w1, -, w2, w3⟩ := C124_attr treeA_tree treeA_whole rootR_ne rootR_nul hf ha (cs := [[0x61]]) (by simp)
        (fun c hc => by rw [List.mem_singleton] at hc; subst hc; exact Local.plainB (by decide)) (by decide) hfile g1 g3 g2
      cases w2
      exact ⟨b, b', _, es, hf, ha, hoff, hk, ⟨_, _, rfl, hsh.size⟩, hsince, hL,
        C124_ls treeA_tree treeA_whole rootR_ne rootR_nul hf ha Local.treeA_dirAt (fun c hc => by cases hc) (by decide) hroot hsince hL, q, sta, g1, g2, g3, hfile, w1, w3.size⟩

/-- The hypotheses of `C124_opendir` can be met: by the story of C123, on bytes, with any padding. -/
example (pad : Ino → Nat) : ∃ (b b1 b2 : MSys) (k : Nat) (q : MT.Done), Filled rootR treeA b ∧ After rootR treeA b b1 ∧ DirAt treeA [[0x64]] ∧
    Cache.B.path b.w.disk 6 = .ok (.ok (pathStr [[0x64]])) ∧ Step b1 k b2 ∧ Proper b1 k b2 ∧ Room b2.w ∧ b2.hist = b1.hist ++ [q] ∧ q.rq = .opendir 6 ∧
    Unchanged rootR treeA q.B ∧ Local.online q = false ∧ q.rep = .opened := by
  have hd : ∀ c ∈ [[(0x64 : UInt8)]], Plain c := fun c hc => by
    rw [List.mem_singleton] at hc; subst hc; exact Local.plainB (by decide)
  have hl : ∀ c ∈ [[(0x6c : UInt8)]], Plain c := fun c hc => by
    rw [List.mem_singleton] at hc; subst hc; exact Local.plainB (by decide)
  have no : ∀ c ∈ ([] : List Bytes), Plain c := fun c hc => by cases hc
  have links : ∀ cs o, Local.Entry treeA cs o → fmt o.stat.mode = S_IFLNK → cs ∈ [[[(0x6c : UInt8)]]] := by
    rintro cs o ⟨-, -, -, -, h1⟩ h2
    unfold treeA at h1
    split at h1 <;> cases h1 <;> first | exact List.mem_singleton.mpr rfl | exact absurd h2 (by decide +kernel)
  have key := Local.story123o_ex
  cases hs0 : Local.startG with
  | none => rw [hs0] at key; cases key
  | some m0 =>
    rw [hs0] at key
    simp only at key
    cases hst : Local.storyG Local.hosts3 m0 0 Local.story123o with
    | none => rw [hst] at key; cases key
    | some ys =>
      rw [hst] at key
      simp only at key
      have g0 : MT.Ready (Local.QG Local.hosts3) 0 m0 := Local.startG_ready hs0
      obtain ⟨d, r, x1, x2, rfl, -⟩ := Local.startG_mount hs0
      obtain ⟨b0, x3, x4⟩ := mount_right pad pad DRel.empty zero_fits 2 x1
      have hb0 : MReach b0 := .mount zero_fits x3 ((room_rel x4.w).mpr x2)
      unfold Local.story123o Local.story120 at hst
      simp only [List.take, List.cons_append, List.nil_append] at hst
      obtain ⟨n1, e1, _, rfl, s1, hst⟩ := Local.storyG_cons hst
      obtain ⟨n2, e2, _, rfl, s2, hst⟩ := Local.storyG_cons hst
      obtain ⟨n3, e3, _, rfl, s3, hst⟩ := Local.storyG_cons hst
      obtain ⟨n4, e4, _, rfl, s4, hst⟩ := Local.storyG_cons hst
      obtain ⟨n5, e5, _, rfl, s5, hst⟩ := Local.storyG_cons hst
      obtain ⟨n6, e6, _, rfl, s6, hst⟩ := Local.storyG_cons hst
      obtain ⟨n7, e7, _, rfl, s7, hst⟩ := Local.storyG_cons hst
      obtain ⟨n8, e8, _, rfl, s8, hst⟩ := Local.storyG_cons hst
      obtain ⟨n9, e9, _, rfl, s9, hst⟩ := Local.storyG_cons hst
      cases hst
      unfold Local.check123o at key
      simp only [Bool.and_eq_true] at key
      obtain ⟨⟨⟨k1, k2⟩, k3⟩, k4⟩ := key
      obtain ⟨f1, v1⟩ := on_run pad ⟨b0, .start, x4⟩ g0 s1
      obtain ⟨f2, v2⟩ := on_open pad v1 f1 s2 k1 (by decide) no Local.treeA_dirAt
      obtain ⟨f3, v3⟩ := on_run pad v2 f2 s3
      obtain ⟨f4, v4⟩ := on_open pad v3 f3 s4 k2 (by decide) hd Local.treeA_dirAt_d
      obtain ⟨f5, v5⟩ := on_run pad v4 f4 s5
      obtain ⟨f6, v6⟩ := on_read pad (cs := []) (n := [0x6c]) v5 (by simp) f5 s6 k3 (by decide) hl rfl (by decide +kernel)
      obtain ⟨f7, b, v7, v8⟩ := on_run pad v6 f6 s7
      obtain ⟨b', ha, hb'⟩ := afterB_run pad (by decide) v8 f7 s8
      have hf : Filled rootR treeA b := ⟨b0, _, _, hb0, v7, fun _ h _ => Local.treeA_dirs h, fun cs o h1 _ h2 => links cs o h1 h2⟩
      obtain ⟨p1, p2, p3, p4, p5⟩ := (of_decide_eq_true k4 : Local.openedOff n7 n8 n9)
      have f8 := (Local.runG_ready Local.hosts3_small (R := fun _ => True) (fun _ _ _ _ _ _ => trivial) (fun _ _ _ _ _ _ _ => trivial) f7 trivial s8).1
      obtain ⟨f9, k, a1, a2, a3⟩ := Local.runG_go f8 s9
      obtain ⟨q, hq⟩ := MT.event_hist a1 p1
      have hdrop : n9.hist.drop n8.hist.length = [q] := by rw [hq, List.drop_left]
      rw [hdrop] at p2 p3 p4
      have h1 : q.rq = .opendir 6 := by simpa using p2
      have h2 : Local.online q = false := by simpa using p3
      have h3 : Local.okNow n8 q = true := by simpa using p4
      have hnow := (Local.okNow_unchanged (f9.hist q (by rw [hq]; simp)) h3).1
      obtain ⟨b2, c1, c2, c3, c4⟩ := stepB pad hb' f9 a1 a2 a3
      rw [← path_rel v8.w.disk] at p5
      rw [← c2.hist, ← hb'.hist] at hq
      exact ⟨b, b', b2, k, q, hf, ha, Local.treeA_dirAt_d, p5, c1, c3, c4, hq, h1, hnow, h2,
        C124_opendir treeA_tree treeA_whole rootR_ne rootR_nul hf ha Local.treeA_dirAt_d (fun c hc => ⟨hd c hc, by rw [List.mem_singleton] at hc; subst hc; decide⟩) (by decide) p5 c1 c3 c4 hq h1 hnow⟩

end Dragonstash.MTB
