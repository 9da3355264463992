/-
  C119: when every directory of the host has been opened once, the whole cached tree is the tree of the host, whatever was
  cached before; two caches which were filled in this way show the same, whatever their histories.
-/
import Verif.Props.LocalDir
namespace Dragonstash.Local
open Cache FS MT Conc

variable {root : Bytes} {T : HTree} {cs : List Bytes}

/-! ### Specification -/

/-- The host has the tree `T`, or is not connected. -/
def Unchanged (root : Bytes) (T : HTree) (B : Backend) : Prop := ∃ H, B = backend root H ∧ (Has root H T ∨ Local.Gone H)

/-- From a mounted cache `m0`, in which anything may be cached, to `m`, while the host has the tree `T`: any number of threads serve
requests in any order, the connection comes and goes, the process dies at any moment and is started again. The directories
`l` were opened on the way, and the links `ls` in them were read after that, at moments when the host was connected. -/
inductive Walked (root : Bytes) (T : HTree) (m0 : MSys) : List (List Bytes) → List (List Bytes) → MSys → Prop
  | start : Walked root T m0 [] [] m0
  | step {l ls m m' k} : Walked root T m0 l ls m → Step m k m' → Proper m k m' → Room m'.w →
      (∀ q, m'.hist = m.hist ++ [q] → Unchanged root T q.B ∧ q.rq.onLink m.w.disk) → Walked root T m0 l ls m'
  | crash {l ls m uid gid now d r n} : Walked root T m0 l ls m → openCleanDB (initDB m.w.disk uid gid now) Refs.empty = .ok (d, r) →
      Room (CWorld.start d r) → Walked root T m0 l ls (MSys.start d r n)
  | opened {l ls m m' k q dir cs} : Walked root T m0 l ls m → Step m k m' → Proper m k m' → Room m'.w → m'.hist = m.hist ++ [q] →
      q.rq = .opendir dir → dir < W64 → Cache.path m.w.disk dir = .ok (.ok (pathStr cs)) → (∀ c ∈ cs, Plain c) →
      (∃ H, q.B = backend root H ∧ Has root H T) → DirAt T cs → Walked root T m0 (cs :: l) ls m'
  | read {l ls m m' k q i cs n o} : Walked root T m0 l ls m → cs ∈ l → Step m k m' → Proper m k m' → Room m'.w → m'.hist = m.hist ++ [q] →
      q.rq = .readlink i → i < W64 → Cache.path m.w.disk i = .ok (.ok (pathStr (cs ++ [n]))) → (∀ c ∈ cs ++ [n], Plain c) →
      (∃ H, q.B = backend root H ∧ Has root H T) → T (cs ++ [n]) = some o → fmt o.stat.mode = S_IFLNK → Walked root T m0 l ((cs ++ [n]) :: ls) m'

/-- `o` is what is at `cs` in a directory of `T`. -/
def Entry (T : HTree) (cs : List Bytes) (o : Obj) : Prop := ∃ ds n, cs = ds ++ [n] ∧ DirAt T ds ∧ T cs = some o

/-- What is cached (below the root) is `T`: what has a path is at this path in `T` and has the attributes which are there; and
everything in `T` (with names which the cache can store) is cached. -/
structure IsCopy (T : HTree) (d : DB) : Prop where
  shown : ∀ i cs, i < W64 → cs ≠ [] → (∀ c ∈ cs, Plain c) → Cache.path d i = .ok (.ok (pathStr cs)) →
    (∀ c ∈ cs, c.length ≤ 503) ∧ ∃ o, Entry T cs o ∧ Cache.getattr d i = .ok (i, fromBackend o.stat)
  there : ∀ cs o, (∀ c ∈ cs, Plain c ∧ c.length ≤ 503) → Entry T cs o → ∃ i, i < W64 ∧ Cache.path d i = .ok (.ok (pathStr cs))

/-! ### Theorems -/

theorem Walked.reach {m0 m : MSys} {l ls : List (List Bytes)} (h : Walked root T m0 l ls m) (h0 : MReach m0) : MReach m := by
  induction h with
  | start => exact h0
  | step _ h1 h2 h3 _ ih => exact .step ih h1 h2 h3
  | crash _ h1 h2 ih => exact .remount ih h1 h2
  | opened _ h1 h2 h3 _ _ _ _ _ _ _ ih => exact .step ih h1 h2 h3
  | read _ _ h1 h2 h3 _ _ _ _ _ _ _ _ ih => exact .step ih h1 h2 h3

theorem Unchanged.now {B : Backend} (ht : Local.Tree T) (hw : Whole T) (h : Unchanged root T B) (hT : DirAt T cs) : DirNow root T cs B := by
  obtain ⟨H, h1, h2 | h2⟩ := h
  · exact ⟨H, h1, .inl ⟨T, ht, hw, h2, hT, fun _ _ => rfl⟩⟩
  · exact ⟨H, h1, .inr h2⟩

/-- The inode at a path in a directory whose copy is right. -/
theorem DirRight.entry {dir i : Ino} {d : DB} {n : Bytes} {s : Cache.Tree} (hd : DirRight T cs dir d) (h : Rep s d) (ok : s.OK) (wf : s.WF) (hbd : dir < W64) (hb : i < W64)
    (hpl : ∀ c ∈ cs ++ [n], Plain c) (hpath : Cache.path d i = .ok (.ok (pathStr (cs ++ [n])))) :
    s.At dir n i ∧ Cache.lookup d dir n = .ok (.ok i) ∧ ∀ o, T (cs ++ [n]) = some o → Cache.getattr d i = .ok (i, fromBackend o.stat) := by
  have hI := si_empty h ok wf
  have hp := path_comps hI hb (fun c hc => (hpl c hc).1) hpath
  obtain ⟨p, k1, k2⟩ := hp.snoc
  obtain rfl := PathTo.inj ok k1 (path_comps hI hbd (fun c hc => (hpl c (List.mem_append_left _ hc)).1) hd.path)
  have hlk := h.lookup_found ok k2
  exact ⟨k2, hlk, fun o ho => hd.attr n i o (hpl n (by simp)) hlk ho⟩

/-- C119: what was opened on the way is right at the end. -/
theorem C119_opened (ht : Local.Tree T) (hw : Whole T) (hr : root ≠ []) (h0 : (0 : UInt8) ∉ root) {m0 m : MSys} {l ls : List (List Bytes)} (hm : MReach m0) (h : Walked root T m0 l ls m) :
    ∀ cs ∈ l, DirAt T cs ∧ (∀ c ∈ cs, Plain c) ∧ ∃ dir, dir < W64 ∧ DirRight T cs dir m.w.disk := by
  induction h with
  | start => intro cs hc; cases hc
  | @step l ls m m' k h hs hp hroom hq ih =>
    intro cs hc
    obtain ⟨h1, h2, dir, h3, h4⟩ := ih cs hc
    exact ⟨h1, h2, dir, h3, (C94_kept hr h0 h2 (h.reach hm) h3 (.step .refl hs hp hroom (fun q e => ⟨(hq q e).1.now ht hw h1, (hq q e).2⟩)) h4).1⟩
  | @crash l ls m uid gid now d r n h ho hroom ih =>
    intro cs hc
    obtain ⟨h1, h2, dir, h3, h4⟩ := ih cs hc
    exact ⟨h1, h2, dir, h3, (C94_kept hr h0 h2 (h.reach hm) h3 (.crash .refl ho hroom) h4).1⟩
  | @opened l ls m m' k q dir cs0 h hs hp hroom hq hrq hb hpath hpl hH hT ih =>
    intro cs hc
    rcases List.mem_cons.mp hc with rfl | hc
    · exact ⟨hT, hpl, dir, hb, (C94_open ht hr h0 hpl (h.reach hm) hs hp hroom hq hrq hb hpath hH hT).2.1⟩
    · obtain ⟨h1, h2, dir', h3, h4⟩ := ih cs hc
      refine ⟨h1, h2, dir', h3, (C94_kept hr h0 h2 (h.reach hm) h3 (.step .refl hs hp hroom (fun q' e => ?_)) h4).1⟩
      rw [hq] at e
      obtain rfl : q = q' := by simpa using e
      obtain ⟨H, e1, e2⟩ := hH
      refine ⟨Unchanged.now ht hw ⟨H, e1, .inl e2⟩ h1, ?_⟩
      rw [hrq]; trivial
  | @read l ls m m' k q i cs1 n o h hl hs hp hroom hq hrq hb hpath hpl hH ho hlnk ih =>
    intro cs hc
    obtain ⟨h1, h2, dir, h3, h4⟩ := ih cs hc
    refine ⟨h1, h2, dir, h3, (C94_kept hr h0 h2 (h.reach hm) h3 (.step .refl hs hp hroom (fun q' e => ?_)) h4).1⟩
    rw [hq] at e
    obtain rfl : q = q' := by simpa using e
    obtain ⟨H, e1, e2⟩ := hH
    refine ⟨Unchanged.now ht hw ⟨H, e1, .inl e2⟩ h1, ?_⟩
    rw [hrq]
    obtain ⟨s, a1, a2, a3⟩ := reach_tree (h.reach hm)
    obtain ⟨-, -, dir1, hb1, hd1⟩ := ih cs1 hl
    have := (hd1.entry a1 a2 a3 hb1 hb hpl hpath).2.2 o ho
    intro x hx
    rw [this] at hx
    cases hx; exact hlnk

/-- C119: when all directories were opened, what is cached is the tree of the host. -/
theorem C119_mirror (ht : Local.Tree T) (hw : Whole T) (hr : root ≠ []) (h0 : (0 : UInt8) ∉ root) {m0 m : MSys} {l ls : List (List Bytes)} (hm : MReach m0) (h : Walked root T m0 l ls m)
    (hall : ∀ cs, DirAt T cs → (∀ c ∈ cs, Plain c ∧ c.length ≤ 503) → cs ∈ l) : IsCopy T m.w.disk := by
  have right := C119_opened ht hw hr h0 hm h
  obtain ⟨s, hrep, ok, wf⟩ := reach_tree (h.reach hm)
  have hI := si_empty hrep ok wf
  have comp : ∀ {cs : List Bytes}, (∀ c ∈ cs, Plain c) → ∀ c ∈ cs, Component c := fun h c hc => (h c hc).1
  -- the path of an inode which is cached
  have down : ∀ {i cs}, s.PathTo i cs → (∀ c ∈ cs, Plain c) → (s.IsDir i → DirAt T cs) ∧ (cs ≠ [] → ∃ o, Entry T cs o ∧ Cache.getattr m.w.disk i = .ok (i, fromBackend o.stat)) := by
    intro i cs hp
    induction hp with
    | root =>
      intro _
      refine ⟨fun _ ds hd => ?_, fun h => absurd rfl h⟩
      obtain rfl := List.prefix_nil.mp hd
      exact hw.top
    | @child p n i cs hat hp ih =>
      intro hpl
      have hpl' : ∀ c ∈ cs, Plain c := fun c hc => hpl c (List.mem_append_left _ hc)
      have hn : Plain n := hpl n (by simp)
      obtain ⟨nd, hnd, hloc⟩ := id hat
      have hgood := (ok.loc i nd p n hnd hloc).2.2
      have hT := (ih hpl').1 (wf i nd p n hnd hloc).2
      obtain ⟨-, -, dir, hb, hd⟩ := right cs (hall cs hT (fun c hc => ⟨hpl' c hc, (PathTo.names ok hp c hc).1⟩))
      obtain rfl := PathTo.inj ok (path_comps hI hb (comp hpl') hd.path) hp
      have hlk := hrep.lookup_found ok hat
      have hne := (hd.names n hn hgood.1).mp ⟨i, hlk⟩
      cases ho : T (cs ++ [n]) with
      | none => exact absurd ho hne
      | some o =>
        have ha := hd.attr n i o hn hlk ho
        refine ⟨fun hdir ds hds => ?_, fun _ => ⟨o, ⟨cs, n, rfl, hT, ho⟩, ha⟩⟩
        rcases List.prefix_concat_iff.mp hds with e | hds
        · subst e
          obtain ⟨x, hx, hxd⟩ := hdir
          rw [getattr_some hI hx] at ha
          have hattr : x.attr = fromBackend o.stat := congrArg Prod.snd (Except.ok.inj ha)
          rw [hattr] at hxd
          have hxd' : fmt o.stat.mode = S_IFDIR := hxd
          obtain ⟨ns, hns⟩ := hw.dir ho hxd'
          exact ⟨o, ns, ho, hns, hxd'⟩
        · exact hT ds hds
  constructor
  · intro i cs hb hne hpl hpath
    have hp := path_comps hI hb (comp hpl) hpath
    exact ⟨fun c hc => (PathTo.names ok hp c hc).1, (down hp hpl).2 hne⟩
  · rintro cs o hpl ⟨ds, n, rfl, hT, ho⟩
    have hpl' : ∀ c ∈ ds, Plain c ∧ c.length ≤ 503 := fun c hc => hpl c (List.mem_append_left _ hc)
    obtain ⟨-, -, dir, hb, hd⟩ := right ds (hall ds hT hpl')
    obtain ⟨j, hj⟩ := (hd.names n (hpl n (by simp)).1 (hpl n (by simp)).2).mpr (by rw [ho]; simp)
    have hat := (hrep.lookup_iff ok hb).mp hj
    obtain ⟨x, hx, hxl⟩ := hat
    have hp := path_comps hI hb (comp (fun c hc => (hpl' c hc).1)) hd.path
    exact ⟨j, OK.lt ok hx, hrep.path_found ok (.child ⟨x, hx, hxl⟩ hp)⟩

/-- C119: two caches in which this was done show the same at every path, although they may have different histories and different inode
numbers. -/
theorem C119_same (ht : Local.Tree T) (hw : Whole T) (hr : root ≠ []) (h0 : (0 : UInt8) ∉ root) {root' : Bytes} (hr' : root' ≠ []) (h0' : (0 : UInt8) ∉ root')
    {m0 m n0 n : MSys} {l l' ls ls' : List (List Bytes)} (hm : MReach m0) (hn : MReach n0) (h : Walked root T m0 l ls m) (h' : Walked root' T n0 l' ls' n)
    (hall : ∀ cs, DirAt T cs → (∀ c ∈ cs, Plain c ∧ c.length ≤ 503) → cs ∈ l ∧ cs ∈ l') {cs : List Bytes} (hne : cs ≠ []) (hpl : ∀ c ∈ cs, Plain c) {a : Attrs} :
    (∃ i, i < W64 ∧ Cache.path m.w.disk i = .ok (.ok (pathStr cs)) ∧ Cache.getattr m.w.disk i = .ok (i, a)) ↔
    (∃ i, i < W64 ∧ Cache.path n.w.disk i = .ok (.ok (pathStr cs)) ∧ Cache.getattr n.w.disk i = .ok (i, a)) := by
  have one : ∀ {d d' : DB}, IsCopy T d → IsCopy T d' → (∃ i, i < W64 ∧ Cache.path d i = .ok (.ok (pathStr cs)) ∧ Cache.getattr d i = .ok (i, a)) →
      ∃ i, i < W64 ∧ Cache.path d' i = .ok (.ok (pathStr cs)) ∧ Cache.getattr d' i = .ok (i, a) := by
    rintro d d' h1 h2 ⟨i, hi, hp, ha⟩
    obtain ⟨g1, o, g2, g3⟩ := h1.shown i cs hi hne hpl hp
    obtain ⟨j, hj, hpj⟩ := h2.there cs o (fun c hc => ⟨hpl c hc, g1 c hc⟩) g2
    obtain ⟨-, o', g4, g5⟩ := h2.shown j cs hj hne hpl hpj
    refine ⟨j, hj, hpj, ?_⟩
    obtain ⟨-, -, -, -, e1⟩ := g2
    obtain ⟨-, -, -, -, e2⟩ := g4
    rw [e1] at e2; cases e2
    have : a = fromBackend o.stat := by
      rw [ha] at g3; exact congrArg Prod.snd (Except.ok.inj g3)
    rw [this]; exact g5
  have a1 := C119_mirror ht hw hr h0 hm h (fun cs h1 h2 => (hall cs h1 h2).1)
  have a2 := C119_mirror ht hw hr' h0' hn h' (fun cs h1 h2 => (hall cs h1 h2).2)
  exact ⟨one a1 a2, one a2 a1⟩

/-- C119: after that, a lookup of any name in any directory is answered as the host would, with or without a connection (but if the directory
does not count as synchronised, a name which is not there may be answered with an I/O error while there is no connection). -/
theorem C119_lookup (ht : Local.Tree T) (hw : Whole T) (hr : root ≠ []) (h0 : (0 : UInt8) ∉ root) {m0 m m' : MSys} {l ls : List (List Bytes)} (hm : MReach m0) (h : Walked root T m0 l ls m)
    (hall : ∀ cs, DirAt T cs → (∀ c ∈ cs, Plain c ∧ c.length ≤ 503) → cs ∈ l) {k : Nat} (hs : Step m k m') (hp : Proper m k m') (hroom : Room m'.w) {q : Done}
    (hq : m'.hist = m.hist ++ [q]) {p : Ino} {n : Bytes} (hrq : q.rq = .lookup p n) (hb : p < W64) (hn : Plain n) (hlen : n.length ≤ 503)
    (hpath : Cache.path m.w.disk p = .ok (.ok (pathStr cs))) (hpl : ∀ c ∈ cs, Plain c) (hT : DirAt T cs) (hnow : Unchanged root T q.B) :
    LookupNow root T cs p n m.w.disk q.B q.rep := by
  obtain ⟨s, hrep, ok, wf⟩ := reach_tree (h.reach hm)
  have hI := si_empty hrep ok wf
  have hcomp : ∀ c ∈ cs, Component c := fun c hc => (hpl c hc).1
  have hpt := path_comps hI hb hcomp hpath
  obtain ⟨-, -, dir, hbd, hd⟩ := C119_opened ht hw hr h0 hm h cs (hall cs hT (fun c hc => ⟨hpl c hc, (PathTo.names ok hpt c hc).1⟩))
  obtain rfl := PathTo.inj ok (path_comps hI hbd hcomp hd.path) hpt
  exact C94_lookup hr h0 hpl (h.reach hm) hs hp hroom hq hn hlen hrq hb hd (hnow.now ht hw hT)

/-! ### Example -/

theorem okNow_unchanged {m : MSys} {q : Done} (h : QG hosts3 q.rq q.B) (ho : okNow m q = true) : Unchanged rootR treeA q.B ∧ q.rq.onLink m.w.disk := by
  refine ⟨?_, (okNow_iff h ho).2⟩
  obtain ⟨-, j, hj⟩ := h
  match j with
  | 0 => exact ⟨_, hj, .inr goneHost_gone⟩
  | 1 => exact ⟨_, hj, .inl (treeHost_has rootR treeA_tree)⟩
  | j + 2 =>
    unfold okNow at ho
    rw [Bool.and_eq_true] at ho
    have h1 : (match (backend rootR (treeHost rootR treeB)).lstat 0 [0x2f, 0x78] with | .ok _ => false | .error _ => true) = false := by decide +kernel
    have h2 := ho.2
    rw [hj] at h2
    change (match (backend rootR (treeHost rootR treeB)).lstat 0 [0x2f, 0x78] with | .ok _ => false | .error _ => true) = true at h2
    rw [h1] at h2; cases h2

theorem walked_run {m0 m m' : MSys} {cap cap' : Nat} {l ls : List (List Bytes)} {es : List GEv} (h : Walked rootR treeA m0 l ls m) (hr : Ready (QG hosts3) cap m)
    (r : runG hosts3 okNow m cap es = some (m', cap')) : Ready (QG hosts3) cap' m' ∧ Walked rootR treeA m0 l ls m' :=
  runG_inv hosts3_small (R := Walked rootR treeA m0 l ls) (fun h hs hp hr hq => .step h hs hp hr (fun q e => okNow_unchanged (hq q e).1 (hq q e).2)) (fun _ _ _ _ h ho hr => .crash h ho hr) hr h r

theorem walked_open {m0 m m' : MSys} {cap cap' : Nat} {l ls : List (List Bytes)} {dir : Ino} {cs : List Bytes} (h : Walked rootR treeA m0 l ls m) (hr : Ready (QG hosts3) cap m)
    (r : runG hosts3 okNow m cap [.go 0] = some (m', cap')) (hlen : m'.hist.length = m.hist.length + 1) (hrq : (m'.hist.drop m.hist.length).map (·.rq) = [.opendir dir])
    (hon : (m'.hist.drop m.hist.length).map online = [true]) (hok : (m'.hist.drop m.hist.length).all (okNow m) = true) (hb : dir < W64)
    (hpath : Cache.path m.w.disk dir = .ok (.ok (pathStr cs))) (hpl : ∀ c ∈ cs, Plain c) (hT : DirAt treeA cs) : Ready (QG hosts3) cap' m' ∧ Walked rootR treeA m0 (cs :: l) ls m' := by
  obtain ⟨g, k, a1, a2, a3⟩ := runG_go hr r
  refine ⟨g, ?_⟩
  obtain ⟨q, hq⟩ := event_hist a1 hlen
  have hdrop : m'.hist.drop m.hist.length = [q] := by rw [hq, List.drop_left]
  rw [hdrop] at hrq hon hok
  have h1 : q.rq = .opendir dir := by simpa using hrq
  have h2 : online q = true := by simpa using hon
  have h3 : okNow m q = true := by simpa using hok
  have hQ := g.hist q (by rw [hq]; simp)
  refine .opened h a1 a2 a3 hq h1 hb hpath hpl ?_ hT
  obtain ⟨H, e1, e2 | e2⟩ := (okNow_unchanged hQ h3).1
  · exact ⟨H, e1, e2⟩
  · exact absurd e2 (online_not h2 H e1)

/-- The old tree is cached; then the host has the tree of now, and the directory is opened; after a crash and a lookup without a connection, the
directory in it is opened. -/
def story119 : List ((MSys → Done → Bool) × List GEv) :=
  [(fun _ _ => true, .ask 0 2 (.opendir 1) :: List.replicate 12 (.go 0)),
   (okNow, .ask 0 1 (.opendir 1) :: List.replicate 10 (.go 0)),
   (okNow, [.go 0]),
   (okNow, .go 0 :: .go 0 :: .die :: .ask 0 0 (.lookup 1 [0x78]) :: List.replicate 7 (.go 0) ++ .ask 0 1 (.opendir 7) :: List.replicate 8 (.go 0)),
   (okNow, [.go 0])]

/-- The two directories are opened in a new cache. -/
def story119' : List ((MSys → Done → Bool) × List GEv) :=
  [(okNow, .ask 0 1 (.opendir 1) :: List.replicate 10 (.go 0)),
   (okNow, [.go 0]),
   (okNow, .go 0 :: .go 0 :: .ask 0 1 (.opendir 6) :: List.replicate 8 (.go 0)),
   (okNow, [.go 0])]

/-- The step from `m` to `m'` answers that directory `dir`, at `cs`, was opened. -/
def opens (m m' : MSys) (dir : Ino) (cs : List Bytes) : Bool :=
  decide (m'.hist.length = m.hist.length + 1 ∧ (m'.hist.drop m.hist.length).map (·.rq) = [.opendir dir] ∧ (m'.hist.drop m.hist.length).map online = [true] ∧
    (m'.hist.drop m.hist.length).all (okNow m) = true ∧ Cache.path m.w.disk dir = .ok (.ok (pathStr cs)))

def check119 : List (MSys × Nat) → Bool
  | [(m1, _), (m2, _), (m3, _), (m4, _), (m5, _)] => opens m2 m3 1 [] && opens m4 m5 7 [[0x64]] &&
      decide ((∃ j ∈ List.range 10, Cache.lookup m1.w.disk 1 [0x78] = .ok (.ok j)) ∧ Cache.path m5.w.disk 7 = .ok (.ok (pathStr [[0x64]])))
  | _ => false

def check119' : List (MSys × Nat) → Bool
  | [(m1, _), (m2, _), (m3, _), (m4, _)] => opens m1 m2 1 [] && opens m3 m4 6 [[0x64]] && decide (Cache.path m4.w.disk 6 = .ok (.ok (pathStr [[0x64]])))
  | _ => false

theorem story119_ex : (match startG with | some m => (match storyG hosts3 m 0 story119 with | some l => check119 l | none => false) | none => false) = true := by decide +kernel
theorem story119'_ex : (match startG with | some m => (match storyG hosts3 m 0 story119' with | some l => check119' l | none => false) | none => false) = true := by decide +kernel

theorem treeA_dirs {cs : List Bytes} : DirAt treeA cs → cs ∈ [[[0x64]], []] := by
  intro h
  obtain ⟨o, ns, h1, h2, -⟩ := h cs (List.prefix_refl _)
  unfold treeA at h1
  split at h1 <;> cases h1 <;> cases h2 <;> decide

theorem treeA_dirAt_d : DirAt treeA [[0x64]] := fun ds hd => by
  obtain ⟨t, ht⟩ := hd
  cases ds with
  | nil => exact ⟨_, _, rfl, rfl, by decide +kernel⟩
  | cons a ds =>
    obtain ⟨rfl, h⟩ := List.cons.inj ht
    obtain ⟨rfl, -⟩ := List.append_eq_nil_iff.mp h
    exact ⟨_, _, rfl, rfl, by decide +kernel⟩

theorem opens_iff {m m' : MSys} {dir : Ino} {cs : List Bytes} (h : opens m m' dir cs = true) : m'.hist.length = m.hist.length + 1 ∧
    (m'.hist.drop m.hist.length).map (·.rq) = [.opendir dir] ∧ (m'.hist.drop m.hist.length).map online = [true] ∧
    (m'.hist.drop m.hist.length).all (okNow m) = true ∧ Cache.path m.w.disk dir = .ok (.ok (pathStr cs)) := of_decide_eq_true h

/-- The hypotheses of `C119_opened`, `C119_mirror` and `C119_same` can be met: by these stories, the inode numbers are different. -/
example : ∃ (m0 m n0 n : MSys), MReach m0 ∧ MReach n0 ∧ (∃ j, Cache.lookup m0.w.disk 1 [0x78] = .ok (.ok j)) ∧ Walked rootR treeA m0 [[[0x64]], []] [] m ∧ Walked rootR treeA n0 [[[0x64]], []] [] n ∧
    (∀ cs, DirAt treeA cs → cs ∈ [[[0x64]], []]) ∧ IsCopy treeA m.w.disk ∧ IsCopy treeA n.w.disk ∧
    Cache.path m.w.disk 7 = .ok (.ok (pathStr [[0x64]])) ∧ Cache.path n.w.disk 6 = .ok (.ok (pathStr [[0x64]])) := by
  have hd : ∀ c ∈ [[(0x64 : UInt8)]], Plain c := fun c hc => by
    rw [List.mem_singleton] at hc; subst hc; exact plainB (by decide)
  have no : ∀ c ∈ ([] : List Bytes), Plain c := fun c hc => by cases hc
  have key := story119_ex
  have key' := story119'_ex
  cases hs0 : startG with
  | none => rw [hs0] at key; cases key
  | some m0 =>
    rw [hs0] at key key'
    simp only at key key'
    cases hst : storyG hosts3 m0 0 story119 with
    | none => rw [hst] at key; cases key
    | some xs =>
      cases hst' : storyG hosts3 m0 0 story119' with
      | none => rw [hst'] at key'; cases key'
      | some ys =>
        rw [hst] at key
        rw [hst'] at key'
        simp only at key key'
        have g0 : Ready (QG hosts3) 0 m0 := startG_ready hs0
        unfold story119 at hst
        obtain ⟨m1, c1, _, rfl, r1, hst⟩ := storyG_cons hst
        obtain ⟨m2, c2, _, rfl, r2, hst⟩ := storyG_cons hst
        obtain ⟨m3, c3, _, rfl, r3, hst⟩ := storyG_cons hst
        obtain ⟨m4, c4, _, rfl, r4, hst⟩ := storyG_cons hst
        obtain ⟨m5, c5, _, rfl, r5, hst⟩ := storyG_cons hst
        cases hst
        unfold story119' at hst'
        obtain ⟨n1, e1, _, rfl, s1, hst'⟩ := storyG_cons hst'
        obtain ⟨n2, e2, _, rfl, s2, hst'⟩ := storyG_cons hst'
        obtain ⟨n3, e3, _, rfl, s3, hst'⟩ := storyG_cons hst'
        obtain ⟨n4, e4, _, rfl, s4, hst'⟩ := storyG_cons hst'
        cases hst'
        unfold check119 at key
        unfold check119' at key'
        simp only [Bool.and_eq_true] at key key'
        obtain ⟨⟨k1, k2⟩, k3⟩ := key
        obtain ⟨⟨x, -, k3⟩, k4⟩ := of_decide_eq_true k3
        obtain ⟨⟨k5, k6⟩, k7⟩ := key'
        have k7 := of_decide_eq_true k7
        obtain ⟨g1, -⟩ := runG_inv hosts3_small (R := fun _ => True) (fun _ _ _ _ _ => trivial) (fun _ _ _ _ _ _ _ => trivial) g0 trivial r1
        obtain ⟨g2, w2⟩ := walked_run .start g1 r2
        obtain ⟨p1, p2, p3, p4, p5⟩ := opens_iff k1
        obtain ⟨g3, w3⟩ := walked_open w2 g2 r3 p1 p2 p3 p4 (by decide) p5 no treeA_dirAt
        obtain ⟨g4, w4⟩ := walked_run w3 g3 r4
        obtain ⟨p1, p2, p3, p4, p5⟩ := opens_iff k2
        obtain ⟨g5, w5⟩ := walked_open w4 g4 r5 p1 p2 p3 p4 (by decide) p5 hd treeA_dirAt_d
        obtain ⟨f1, v1⟩ := walked_run .start g0 s1
        obtain ⟨p1, p2, p3, p4, p5⟩ := opens_iff k5
        obtain ⟨f2, v2⟩ := walked_open v1 f1 s2 p1 p2 p3 p4 (by decide) p5 no treeA_dirAt
        obtain ⟨f3, v3⟩ := walked_run v2 f2 s3
        obtain ⟨p1, p2, p3, p4, p5⟩ := opens_iff k6
        obtain ⟨f4, v4⟩ := walked_open v3 f3 s4 p1 p2 p3 p4 (by decide) p5 hd treeA_dirAt_d
        exact ⟨m1, m5, m0, n4, g1.reach, g0.reach, ⟨x, k3⟩, w5, v4, fun _ h => treeA_dirs h,
          C119_mirror treeA_tree treeA_whole rootR_ne rootR_nul g1.reach w5 (fun _ h _ => treeA_dirs h),
          C119_mirror treeA_tree treeA_whole rootR_ne rootR_nul g0.reach v4 (fun _ h _ => treeA_dirs h), k4, k7⟩

end Dragonstash.Local
