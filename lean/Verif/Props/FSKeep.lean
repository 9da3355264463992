/-
  C36: what was seen online is served offline. C44: stable inode numbers.
-/
import Verif.FS.Keep
namespace Dragonstash.FS
open Cache Codec
variable {y y' y'' : Sys} {B : Backend} {rq : Req} {rep : Reply} {s s' : Tree} {d d' : DB} {r r' : Refs}

theorem typed_along {fs : List Bytes} {P : Attrs → Prop} (h : ∀ a b, P a → P b → fmt a.mode = fmt b.mode) : Typed (along fs P) := by
  intro ds a b ha hb
  unfold along at ha hb
  by_cases hd : ds = fs
  · rw [if_pos hd] at ha hb; exact h a b ha hb
  · rw [if_neg hd] at ha hb; rw [ha, hb]

theorem holds_along {fs : List Bytes} {P : Attrs → Prop} (ok : s.OK) (wf : s.WF) {i nd} (hp : s.PathTo i fs) (hi : s.nodes i = some nd) (ha : P nd.attr) :
    Holds (along fs P) fs s := by
  refine ⟨⟨i, hp⟩, ?_⟩
  intro ds k x hpre hk hx
  unfold along
  by_cases hd : ds = fs
  · rw [if_pos hd]
    subst hd
    have := PathTo.inj ok hp hk; subst this
    rw [hi] at hx; cases hx; exact ha
  · rw [if_neg hd]
    obtain ⟨t, rfl⟩ := hpre
    cases t with
    | nil => simp at hd
    | cons m t =>
      obtain ⟨j, hj⟩ := hp.take (ds := ds ++ [m]) ⟨t, by simp⟩
      obtain ⟨q, h1, z, h2, h3⟩ := hj.snoc
      obtain ⟨-, w, h4, h5⟩ := wf j z q m h2 h3
      have := PathTo.inj ok h1 hk; subst this
      rw [hx] at h4; cases h4; exact h5

theorem between_stay {fs : List Bytes} {P : Attrs → Prop} (hP : ∀ a b, P a → P b → fmt a.mode = fmt b.mode) (hne : ∀ c ∈ fs, c ≠ [])
    (hb : Between fs P y y') (hl : Live y) (hI : SI s y.disk y.refs) (hs : Holds (along fs P) fs s) :
    ∃ s', SI s' y'.disk y'.refs ∧ Stay (along fs P) fs s s' := by
  induction hb with
  | refl => exact ⟨s, hI, .refl hs⟩
  | @step y1 y2 B rq rep hb hv hlk hc ha ih =>
    obtain ⟨s1, k1, k2⟩ := ih
    obtain ⟨s2, k3, k4⟩ := ha.abs k1 (hb.live hl) hv
    obtain ⟨n1, n2⟩ := hv.2.2.2.1 _ k1.rep.next
    exact ⟨s2, k3, k2.trans (abs_stay k4 k1 k3.ok hv.1 hv.2.1 hlk n1 n2 hc hne (typed_along hP) k2.2)⟩
  | @restart y1 uid gid now d r hb ho ih =>
    obtain ⟨s1, k1, k2⟩ := ih
    rw [init_same (hb.live hl)] at ho
    obtain ⟨s2, s3, k3, k4, k5, ok2⟩ := open_SI' k1.rep k1.ok k1.wf ho
    refine ⟨s3, k3, k2.trans (stay_of k3.ok k2.2 (fun ds k _ hk => PathTo.collected ok2 k5 (PathTo.collected k1.ok k4 hk)) ?_ k1.ok)⟩
    intro ds k nd nd' _ _ hn hn' ha
    obtain ⟨-, x, h1, h2, -⟩ := k5.back hn'
    obtain ⟨-, z, h3, h4, -⟩ := k4.back h1
    rw [hn] at h3; cases h3
    rw [h2, h4]; exact ha

theorem pathStr_inj {cs cs' : List Bytes} (h1 : ∀ c ∈ cs, (0x2f : UInt8) ∉ c) (h2 : ∀ c ∈ cs', (0x2f : UInt8) ∉ c) (h : pathStr cs = pathStr cs') : cs = cs' := by
  rw [← components_pathStr cs h1, ← components_pathStr cs' h2, h]

/-- The inode which `Put` returns is where it was put. -/
theorem Put.found {p n a i cs} (h : Put p n a s r (.ok i) s' r') (ok : s.OK) (hp : s.PathTo p cs) (hd : s.IsDir p) (hnext : s.next + 1 < W64) :
    s'.PathTo p cs ∧ s'.At p n i ∧ ∃ nd, s'.nodes i = some nd ∧ nd.attr = a := by
  have ok' := (h.eff ok hd hnext).1.ok ok
  generalize hres : (Except.ok i : Res Ino) = res at h
  cases h with
  | bad => cases hres
  | @same j nd h1 h2 h3 =>
    cases hres
    exact ⟨hp.set h1 rfl, ⟨_, Tree.set_self, h2⟩, _, Tree.set_self, rfl⟩
  | @new s1 _ _ hn h1 h2 h3 h4 =>
    cases hres
    obtain ⟨pn, hpn, -⟩ := hd
    have hb := OK.lt ok hpn
    have h0 := (ok.bound p pn hpn).1
    have ok1 : s1.OK := by rcases h1 with ⟨rfl, -⟩ | ⟨i, nd, rfl, -⟩; exact ok; exact OK.orphan ok i
    have hn1 : s1.next = s.next := by rcases h1 with ⟨rfl, -⟩ | ⟨i, nd, rfl, -⟩ <;> rfl
    have hfree : ∀ j, ¬ s1.At p n j := by
      rcases h1 with ⟨rfl, k⟩ | ⟨i, nd, rfl, k5, k6, -⟩
      · exact k
      · exact orphan_free ok ⟨nd, k5, k6⟩
    have ok2 : (s1.add p n a).OK := OK.addNode ok1 h0 hb hn (by omega) hfree
    have hp1 : s1.PathTo p cs := by
      rcases h1 with ⟨rfl, -⟩ | ⟨i, nd, rfl, k5, k6, -⟩
      · exact hp
      · refine hp.orphan (fun es he hie => ?_)
        have := PathTo.unique ok hie (.child ⟨nd, k5, k6⟩ hp); subst this
        have := he.length_le; simp at this; omega
    have h5 : (s1.add p n a).PathTo s.next (cs ++ [n]) := .child ((at_add ok1).mpr (.inr ⟨rfl, rfl, hn1.symm⟩)) (hp1.add ok1)
    have h6 := PathTo.collected ok2 h3 h5
    have h7 := PathTo.collected ok2 h3 (hp1.add (n := n) (a := a) (p := p) ok1)
    obtain ⟨q, h8, h9⟩ := h6.snoc
    have := PathTo.inj ok' h8 h7; subst this
    refine ⟨h7, h9, ?_⟩
    obtain ⟨nd, hnd⟩ := conn_exists ok' ⟨_, h6⟩
    obtain ⟨-, z, g1, g2, -⟩ := h3.back hnd
    rw [← hn1, Tree.add_self] at g1; cases g1
    exact ⟨nd, hnd, by rw [g2]⟩

/-! ### C36, C44 -/

/-- Good components of paths: what directory entries of real file systems are. -/
def Component (c : Bytes) : Prop := c ≠ [] ∧ (0x2f : UInt8) ∉ c

theorem path_comps (h : SI s d r) {p : Ino} (hb : p < W64) {cs : List Bytes} (hcs : ∀ c ∈ cs, Component c) (hp : Cache.path d p = .ok (.ok (pathStr cs))) : s.PathTo p cs := by
  obtain ⟨ds, hds, he⟩ := h.rep.path_iff h.ok hb hp
  have := pathStr_inj (fun c hc => (hcs c hc).2) (fun c hc => (PathTo.names h.ok hds c hc).2.2) he
  rw [this]; exact hds

/-- An entry of the cache stays: under the same name, with the same inode number, with attributes in
`P`, through all requests and restarts which keep it; `P` is any property of the attributes which
implies the file type. -/
theorem C36_kept (hl : Live y) {p : Ino} (hb : p < W64) {n : Bytes} {cs : List Bytes} (hcs : ∀ c ∈ cs, Component c) (hn : n ≠ []) {i j : Ino} {a : Attrs}
    {P : Attrs → Prop} (hP : ∀ a b, P a → P b → fmt a.mode = fmt b.mode)
    (hp : Cache.path y.disk p = .ok (.ok (pathStr cs))) (hi : Cache.lookup y.disk p n = .ok (.ok i)) (ha : Cache.getattr y.disk i = .ok (j, a)) (hPa : P a)
    (hbt : Between (cs ++ [n]) P y y') :
    Cache.path y'.disk p = .ok (.ok (pathStr cs)) ∧ Cache.lookup y'.disk p n = .ok (.ok i) ∧ ∃ a', Cache.getattr y'.disk i = .ok (i, a') ∧ P a' := by
  obtain ⟨s, k1, k2⟩ := live_inv hl
  have hpt := path_comps k1 hb hcs hp
  obtain ⟨nd, hnd, hloc⟩ := (k1.rep.lookup_iff k1.ok hb).mp hi
  rw [getattr_some k1 hnd] at ha; cases ha
  have hit : s.PathTo i (cs ++ [n]) := .child ⟨nd, hnd, hloc⟩ hpt
  have hne : ∀ c ∈ cs ++ [n], c ≠ [] := by
    intro c hc
    rcases List.mem_append.mp hc with hc | hc
    · exact (hcs c hc).1
    · rw [List.mem_singleton.mp hc]; exact hn
  obtain ⟨s', k3, k4⟩ := between_stay hP hne hbt hl k1 (holds_along k1.ok k1.wf hit hnd hPa)
  have hpt' := k4.1 cs p (List.prefix_append ..) hpt
  have hit' := k4.1 _ i (List.prefix_refl _) hit
  refine ⟨k3.rep.path_found k3.ok hpt', ?_, ?_⟩
  · obtain ⟨q, h1, h2⟩ := hit'.snoc
    have := PathTo.inj k3.ok h1 hpt'; subst this
    exact k3.rep.lookup_found k3.ok h2
  · obtain ⟨nd', hnd'⟩ := conn_exists k3.ok ⟨_, hit'⟩
    refine ⟨nd'.attr, getattr_some k3 hnd', ?_⟩
    have := k4.2.2 _ i nd' (List.prefix_refl _) hit' hnd'
    unfold along at this; rw [if_pos rfl] at this; exact this

/-- After a lookup which the backend answered, the entry is in the cache, as it was answered. -/
theorem C36_stored (hl : Live y) {p : Ino} {n : Bytes} {cs : List Bytes} (hcs : ∀ c ∈ cs, Component c) (hv : Valid y B (.lookup p n))
    (hp : Cache.path y.disk p = .ok (.ok (pathStr cs))) {sr : BStat} (hB : B.lstat 0 (pathStr (cs ++ [n])) = .ok sr) {st : OsStat}
    (ha : Answered y B (.lookup p n) (.entry st) y') :
    st = osStat st.ino (fromBackend sr) ∧ Cache.path y'.disk p = .ok (.ok (pathStr cs)) ∧ Cache.lookup y'.disk p n = .ok (.ok st.ino) ∧
      Cache.getattr y'.disk st.ino = .ok (st.ino, fromBackend sr) := by
  obtain ⟨s, k1, k2⟩ := live_inv hl
  obtain ⟨s', k3, k4⟩ := ha.abs k1 hl hv
  have hpt := path_comps k1 hv.1 hcs hp
  obtain ⟨pn, hpn⟩ := conn_exists k1.ok ⟨cs, hpt⟩
  have hdir := isDir_of k1 hv.1 hv.2.1 hpn
  have hnx := (hv.2.2.2.1 _ k1.rep.next).1
  have hrefs := hv.2.2.2.2
  generalize hy : y'.refs = r' at *
  cases k4 with
  | lkPut h1 h2 h3 =>
    have := PathTo.unique k1.ok hpt h1; subst this
    rw [hB] at h2; cases h2
    obtain ⟨g1, g2, nd, g3, g4⟩ := h3.found k1.ok hpt hdir hnx
    exact ⟨rfl, k3.rep.path_found k3.ok g1, k3.rep.lookup_found k3.ok g2, by rw [← g4]; exact getattr_some k3 g3⟩
  | lkHit h1 h2 =>
    have := PathTo.unique k1.ok hpt h1; subst this
    rw [hB] at h2; cases h2

/-- What was seen online is served offline: a lookup was answered by the connected backend; then, after
any requests and restarts which keep the entry with these attributes, the lookup is answered in the
same way while the backend is not connected. -/
theorem C36_offline (hl : Live y) {p : Ino} {n : Bytes} {cs : List Bytes} (hcs : ∀ c ∈ cs, Component c) (hn : n ≠ []) (hv : Valid y B (.lookup p n))
    (hp : Cache.path y.disk p = .ok (.ok (pathStr cs))) {sr : BStat} (hB : B.lstat 0 (pathStr (cs ++ [n])) = .ok sr) {st : OsStat}
    (ha : Answered y B (.lookup p n) (.entry st) y') (hbt : Between (cs ++ [n]) (· = fromBackend sr) y' y'')
    {B' : Backend} (hB' : Offline B') (hv' : Valid y'' B' (.lookup p n)) : ∃ y3, Answered y'' B' (.lookup p n) (.entry st) y3 := by
  obtain ⟨h1, h2, h3, h4⟩ := C36_stored hl hcs hv hp hB ha
  have hl' := ha.live hl hv
  obtain ⟨k1, k2, a, k3, rfl⟩ := C36_kept hl' hv.1 hcs hn (P := (· = fromBackend sr)) (by rintro a b rfl rfl; rfl) h2 h3 h4 rfl hbt
  obtain ⟨y3, k4⟩ := C37_found (hbt.live hl') hB' hv' k1 k2 k3
  rw [← h1] at k4
  exact ⟨y3, k4⟩

/-- The name is found under the same inode number, as long as it is kept with the same file type;
whether the backend is connected or not. -/
theorem C44_lookup (hl : Live y) {p : Ino} {n : Bytes} {cs : List Bytes} (hcs : ∀ c ∈ cs, Component c) (hn : n ≠ []) {i j : Ino} {a : Attrs}
    (hp : Cache.path y.disk p = .ok (.ok (pathStr cs))) (hi : Cache.lookup y.disk p n = .ok (.ok i)) (ha : Cache.getattr y.disk i = .ok (j, a))
    (hbt : Between (cs ++ [n]) (fun b => fmt b.mode = fmt a.mode) y y') (hv : Valid y' B (.lookup p n))
    (hc : Confirms B (along (cs ++ [n]) (fun b => fmt b.mode = fmt a.mode)) (cs ++ [n])) :
    ∃ st y'', Answered y' B (.lookup p n) (.entry st) y'' ∧ st.ino = i := by
  have hP : ∀ b c : Attrs, fmt b.mode = fmt a.mode → fmt c.mode = fmt a.mode → fmt b.mode = fmt c.mode := fun _ _ h1 h2 => h1.trans h2.symm
  obtain ⟨g1, g2, b, g3, g4⟩ := C36_kept hl hv.1 hcs hn hP hp hi ha rfl hbt
  have hl' := hbt.live hl
  obtain ⟨s, k1, -⟩ := live_inv hl'
  obtain ⟨rep, y'', s', h1, h2, h3⟩ := answered_of k1 hl' hv (by rintro _ _ _ h; cases h)
  have hpt := path_comps k1 hv.1 hcs g1
  obtain ⟨-, l2, -⟩ := C36_kept hl hv.1 hcs hn hP hp hi ha rfl (.step hbt hv trivial hc h1)
  have hat' := (h2.rep.lookup_iff h2.ok hv.1).mp l2
  have hat := (k1.rep.lookup_iff k1.ok hv.1).mp g2
  obtain ⟨pn, hpn⟩ := conn_exists k1.ok ⟨cs, hpt⟩
  have hdir := isDir_of k1 hv.1 hv.2.1 hpn
  have hnx := (hv.2.2.2.1 _ k1.rep.next).1
  suffices hs : ∃ st, rep = .entry st ∧ st.ino = i by
    obtain ⟨st, rfl, h⟩ := hs; exact ⟨st, y'', h1, h⟩
  have good : GoodName n := by obtain ⟨nd, q1, q2⟩ := hat; exact (k1.ok.loc i nd p n q1 q2).2.2
  generalize y''.refs = r' at *
  have nope : ∀ be, B.lstat 0 (pathStr (cs ++ [n])) = .error be → be ≠ ENOTCONN → False := by
    intro be h4 h5
    rcases hc.lstat _ 0 (List.prefix_refl _) (by simp) with ⟨sr, h6, -⟩ | h6
    · rw [h4] at h6; cases h6
    · rw [h4] at h6; cases h6; exact h5 rfl
  cases h3 with
  | lkGone h4 => exact absurd ⟨cs, hpt⟩ h4
  | lkBad h4 h5 h6 => cases h6 with | bad h7 => exact absurd good h7
  | lkPut h4 h5 h6 =>
    obtain ⟨-, f1, -⟩ := h6.found k1.ok h4 hdir hnx
    exact ⟨_, rfl, At.unique h2.ok f1 hat'⟩
  | lkHit h4 h5 h6 h7 => exact ⟨_, rfl, At.unique k1.ok ⟨_, h6, h7⟩ hat⟩
  | lkMiss h4 h5 h6 => exact absurd hat (h6 i)
  | lkErr h4 h5 h6 => have := PathTo.unique k1.ok hpt h4; subst this; exact absurd h6 (fun h => nope _ h5 h)
  | lkErrMiss h4 h5 h6 => have := PathTo.unique k1.ok hpt h4; subst this; exact absurd h6 (fun h => nope _ h5 h)

/-! Examples -/

theorem demoFS_between {fs : List Bytes} {P : Attrs → Prop} : ∀ {l : List Act} {y0 y y' : Sys} {cap cap' : Nat} {out out' : List Reply}, Live y → (∀ i, (y.refs i).nrefs ≤ cap) →
    (∀ t rq, Act.req t rq ∈ l → Confirms t.backend (along fs P) fs ∧ ∀ i, rq ≠ .readlink i) → Between fs P y0 y →
    demoFS y cap out l = some (y', cap', out') → Between fs P y0 y' := by
  intro l
  induction l with
  | nil => intro y0 y y' cap cap' out out' h hc _ hb hd; cases hd; exact hb
  | cons a l ih =>
    intro y0 y y' cap cap' out out' h hc hl hb hd
    have hl' : ∀ t rq, Act.req t rq ∈ l → Confirms t.backend (along fs P) fs ∧ ∀ i, rq ≠ .readlink i := fun t rq hm => hl t rq (by simp [hm])
    cases a with
    | restart =>
      have hd0 := hd
      simp only [demoFS] at hd
      split at hd
      · rename_i d r ho
        refine ih (.remount h ho) (fun i => ?_) hl' (.restart hb ho) hd
        rw [init_same h] at ho
        obtain ⟨s, h1, -⟩ := live_inv h
        exact Nat.le_of_eq (open_counts h1 ho i)
      · cases hd
    | req t rq =>
      simp only [demoFS] at hd
      split at hd
      · rename_i hv
        have hv := validB_iff hc hv
        split at hd
        · rename_i st hs
          split at hd
          · rename_i hf
            have hf : st.fault = none := by simpa using hf
            obtain ⟨hcf, hnr⟩ := hl t rq (by simp)
            obtain ⟨st', rep, q1, q2⟩ := C41_sent h hv
            rw [hs] at q1; cases q1
            refine ih (.serve h hv hs hf) (fun i => ?_) hl' (.step hb hv ?_ hcf ⟨st, hs, hf, q2, rfl⟩) hd
            · obtain ⟨s, h1, h2⟩ := live_inv h
              rcases dispatch_served h1 h2 hv with ⟨s', d', r', rep, g1, g2, g3⟩ | ⟨dir, size, off, e, -, -, g1⟩
              · rw [g1] at hs; cases hs
                have := abs_counts_le g3 i
                have := hc i
                show (r' i).nrefs ≤ _
                omega
              · rw [g1] at hs; cases hs; cases hf
            · cases rq <;> first | trivial | exact absurd rfl (hnr _)
          · cases hd
        · cases hd
      · cases hd

/-- The backend of the examples confirms its file. -/
theorem tblA_confirms' {P : Attrs → Prop} (hP : P (fromBackend (bFile 5))) (hP' : ∀ a, P a → fmt a.mode ≠ S_IFLNK) :
    Confirms tblA.backend (along [[0x61], [0x62]] P) [[0x61], [0x62]] := by
  have pre : ∀ ds : List Bytes, ds <+: [[0x61], [0x62]] → ds = [] ∨ ds = [[0x61]] ∨ ds = [[0x61], [0x62]] := by
    rintro ds ⟨t, ht⟩
    match ds, ht with
    | [], _ => exact .inl rfl
    | [a], ht => cases ht; exact .inr (.inl rfl)
    | [a, b], ht => cases ht; exact .inr (.inr rfl)
    | a :: b :: c :: l, ht => cases ht
  constructor
  · intro ds k hp hne
    left
    rcases pre ds hp with rfl | rfl | rfl
    · exact absurd rfl hne
    · exact ⟨bDir, by show tblA.backend.lstat 0 _ = _; decide +kernel, by unfold along; rw [if_neg (by decide)]; decide +kernel⟩
    · exact ⟨bFile 5, by show tblA.backend.lstat 0 _ = _; decide +kernel, by unfold along; rw [if_pos rfl]; exact hP⟩
  · intro ds m names e hp hB
    rcases pre _ hp with h | h | h
    · simp at h
    · have : ds = [] ∧ m = [0x61] := by
        have := List.append_inj' (s₁ := ds) (t₁ := [m]) (s₂ := []) (t₂ := [[0x61]]) h rfl
        exact ⟨this.1, by cases this.2; rfl⟩
      obtain ⟨rfl, rfl⟩ := this
      have h1 : tblA.backend.opendir (backendPath (pathStr [])) = .ok ([[0x61], [0x6c]], 0) := by decide +kernel
      rw [h1] at hB; cases hB
      exact ⟨0, bDir, rfl, by decide +kernel⟩
    · have : ds = [[0x61]] ∧ m = [0x62] := by
        have := List.append_inj' (s₁ := ds) (t₁ := [m]) (s₂ := [[0x61]]) (t₂ := [[0x62]]) h rfl
        exact ⟨this.1, by cases this.2; rfl⟩
      obtain ⟨rfl, rfl⟩ := this
      have h1 : tblA.backend.opendir (backendPath (pathStr [[0x61]])) = .ok ([[0x62]], 0) := by decide +kernel
      rw [h1] at hB; cases hB
      exact ⟨0, bFile 5, rfl, by decide +kernel⟩
  · intro ds a hp ha hf
    exfalso
    unfold along at ha
    split at ha
    · exact hP' a ha hf
    · rw [ha] at hf; revert hf; decide +kernel

theorem tblA_confirms : Confirms tblA.backend (along [[0x61], [0x62]] (· = fromBackend (bFile 5))) [[0x61], [0x62]] :=
  tblA_confirms' rfl (by rintro a rfl; decide +kernel)

theorem demo_one {y y' : Sys} {cap cap' : Nat} {t : Tbl} {rq : Req} {rep : Reply} (h : demoFS y cap [] [.req t rq] = some (y', cap', [rep])) : Answered y t.backend rq rep y' := by
  simp only [demoFS] at h
  split at h
  · cases hz : dispatch t.backend y.disk y.refs rq with
    | error e => rw [hz] at h; cases h
    | ok z =>
      rw [hz] at h
      simp only at h
      split at h
      · rename_i hf
        simp only [Option.some.injEq, Prod.mk.injEq, List.append_nil] at h
        exact ⟨z, hz, by simpa using hf, h.2.2, h.1.symm⟩
      · cases h
  · cases h

/-- The hypotheses of `C36_offline` (and so of `C36_stored` and `C36_kept`) can be met: a lookup online, then synchronisation of both
directories, a restart, an offline lookup of the parent directory. -/
example : ∃ (y y' y'' : Sys) (st : OsStat), Live y ∧ Valid y tblA.backend (.lookup 2 [0x62]) ∧ Cache.path y.disk 2 = .ok (.ok (pathStr [[0x61]])) ∧
    tblA.backend.lstat 0 (pathStr ([[0x61]] ++ [[0x62]])) = .ok (bFile 5) ∧ Answered y tblA.backend (.lookup 2 [0x62]) (.entry st) y' ∧ st.ino = 3 ∧
    Between ([[0x61]] ++ [[0x62]]) (· = fromBackend (bFile 5)) y' y'' ∧ Valid y'' Tbl.offline.backend (.lookup 2 [0x62]) ∧ y''.held 2 = 1 := by
  have h0 : (demoRun [.req tblA (.lookup 1 [0x61])]).isSome = true := by decide +kernel
  obtain ⟨⟨y, cap, out⟩, hy⟩ := Option.isSome_iff_exists.mp h0
  have acts : List Act := []
  let a1 : Act := .req tblA (.lookup 2 [0x62])
  let l2 : List Act := [.req tblA (.opendir 2), .req tblA (.opendir 1), .restart, .req Tbl.offline (.lookup 1 [0x61])]
  have key : (match demoRun [.req tblA (.lookup 1 [0x61])] with
    | none => false
    | some (y, cap, out) => decide (Cache.path y.disk 2 = .ok (.ok (pathStr [[0x61]]))) && validB y cap tblA (.lookup 2 [0x62]) &&
      match demoFS y cap [] [a1] with
      | none => false
      | some (y', cap', out') => (match out' with | [.entry st] => st.ino == 3 | _ => false) &&
        match demoFS y' cap' [] l2 with
        | none => false
        | some (y'', cap'', _) => validB y'' cap'' Tbl.offline (.lookup 2 [0x62]) && decide (y''.held 2 = 1)) = true := by decide +kernel
  rw [hy] at key
  simp only [Bool.and_eq_true, decide_eq_true_eq] at key
  obtain ⟨⟨k1, k2⟩, k3⟩ := key
  obtain ⟨hl, hc⟩ := demoRun_live hy
  split at k3
  · cases k3
  rename_i y' cap' out' hd1
  obtain ⟨hl', hc'⟩ := demoFS_live hl hc hd1
  rw [Bool.and_eq_true] at k3
  obtain ⟨k3, k4⟩ := k3
  split at k4
  · cases k4
  rename_i y'' cap'' out'' hd2
  obtain ⟨hl'', hc''⟩ := demoFS_live hl' hc' hd2
  simp only [Bool.and_eq_true, decide_eq_true_eq] at k4
  split at k3
  · rename_i st
    refine ⟨y, y', y'', st, hl, validB_iff hc k2, k1, by decide +kernel, ?_, by simpa using k3, ?_, validB_iff hc'' k4.1, k4.2⟩
    · exact demo_one hd1
    · refine demoFS_between hl' hc' ?_ .refl hd2
      intro t rq hm
      simp only [l2, List.mem_cons, Act.req.injEq, List.not_mem_nil, or_false, reduceCtorEq, false_or] at hm
      rcases hm with ⟨rfl, rfl⟩ | ⟨rfl, rfl⟩ | ⟨rfl, rfl⟩
      · exact ⟨tblA_confirms, by intro i h; cases h⟩
      · exact ⟨tblA_confirms, by intro i h; cases h⟩
      · exact ⟨offline_tbl.confirms _ _, by intro i h; cases h⟩
  · cases k3

/-- The hypotheses of `C44_lookup` can be met. -/
example : ∃ (y : Sys) (a : Attrs), Live y ∧ Valid y tblA.backend (.lookup 2 [0x62]) ∧ Cache.path y.disk 2 = .ok (.ok (pathStr [[0x61]])) ∧
    Cache.lookup y.disk 2 [0x62] = .ok (.ok 3) ∧ Cache.getattr y.disk 3 = .ok (3, a) ∧
    Confirms tblA.backend (along ([[0x61]] ++ [[0x62]]) (fun b => fmt b.mode = fmt a.mode)) ([[0x61]] ++ [[0x62]]) := by
  obtain ⟨y, h1, h2, h3, h4, h5⟩ := demoFS_valid (l := [.req tblA (.lookup 1 [0x61]), .req tblA (.opendir 2)]) (t := tblA) (rq := .lookup 2 [0x62])
    (P := fun y => Cache.path y.disk 2 = .ok (.ok (pathStr [[0x61]])) ∧ Cache.lookup y.disk 2 [0x62] = .ok (.ok 3) ∧
      Cache.getattr y.disk 3 = .ok (3, fromBackend (bFile 5))) (by decide +kernel)
  refine ⟨y, fromBackend (bFile 5), h1, h2, h3, h4, h5, tblA_confirms' rfl ?_⟩
  intro a ha h
  rw [ha] at h; revert h; decide +kernel

end Dragonstash.FS
