/-
  C123: when every directory of the host has been opened and every link has been read once, the mounted directory works without
  the host: paths lead where they lead on the host, and listings are complete.
-/
import Verif.Props.Links
import Verif.Props.LocalList
import Verif.Props.LocalWalk
namespace Dragonstash.Local
open Cache FS MT Conc

variable {root : Bytes} {T : HTree} {cs : List Bytes}

/-! ### Specification -/

/-- The cache of `m` has been filled: from some mounted cache on, while the host had the tree `T` or was not connected, every directory was
opened, and after that every link in it was read, at moments when the host was connected. -/
def Filled (root : Bytes) (T : HTree) (m : MSys) : Prop :=
  ∃ m0 l ls, MReach m0 ∧ Walked root T m0 l ls m ∧
    (∀ cs, DirAt T cs → (∀ c ∈ cs, Plain c ∧ c.length ≤ 503) → cs ∈ l) ∧
    ∀ cs o, Entry T cs o → (∀ c ∈ cs, Plain c ∧ c.length ≤ 503) → fmt o.stat.mode = S_IFLNK → cs ∈ ls

/-- What happens in this process after `m`, while the host has the tree `T` or is not connected: any number of threads serve requests in any
order. -/
inductive After (root : Bytes) (T : HTree) (m : MSys) : MSys → Prop
  | refl : After root T m m
  | step {m1 m2 k} : After root T m m1 → Step m1 k m2 → Proper m1 k m2 → Room m2.w →
      (∀ q, m2.hist = m1.hist ++ [q] → Unchanged root T q.B ∧ q.rq.onLink m1.w.disk) → After root T m m2

/-- The result of a walk in the mounted directory, starting at its top: what is on the host at the place where the host gets to; or an
error, if there is an error on the host. -/
def WalkSame (T : HTree) (follow : Bool) (l : List Bytes) : Except Errno Way → Prop
  | .ok w => ∃ cs o, HostWalk T follow [] l (.ok cs) ∧ T cs = some o ∧ match w with
    | [] => cs = []
    | (_, st) :: _ => Shows st o.stat o.stat.size
  | .error e => (∃ e', HostWalk T follow [] l (.error e')) ∧ (NotThere e ∨ e = EIO)

/-! ### Proof -/

theorem After.filled {m m' : MSys} (h : After root T m m') (hf : Filled root T m) : Filled root T m' := by
  induction h with
  | refl => exact hf
  | step _ h1 h2 h3 h4 ih =>
    obtain ⟨m0, l, ls, g1, g2, g3, g4⟩ := ih
    exact ⟨m0, l, ls, g1, .step g2 h1 h2 h3 h4, g3, g4⟩

theorem Filled.reach {m : MSys} (h : Filled root T m) : MReach m := by
  obtain ⟨m0, l, ls, g1, g2, -, -⟩ := h
  exact g2.reach g1

theorem After.dirSteps {m m' : MSys} (ht : Local.Tree T) (hw : Whole T) (h : After root T m m') (hT : DirAt T cs) : DirSteps root T cs m m' := by
  induction h with
  | refl => exact .refl
  | step _ h1 h2 h3 h4 ih => exact .step ih h1 h2 h3 (fun q hq => ⟨(h4 q hq).1.now ht hw hT, (h4 q hq).2⟩)

theorem After.dirStays {m m' : MSys} (ht : Local.Tree T) (hw : Whole T) (h : After root T m m') (hT : DirAt T cs) : DirStays root T cs m m' := by
  induction h with
  | refl => exact .refl
  | step _ h1 h2 h3 h4 ih => exact .step ih h1 h2 h3 (fun q hq => ⟨(h4 q hq).1.now ht hw hT, (h4 q hq).2⟩)

/-- Each reply since `m` comes from a step. -/
theorem After.event {m m' : MSys} (h : After root T m m') : ∃ tl, m'.hist = m.hist ++ tl ∧ ∀ q ∈ tl, ∃ m1 m2 k, After root T m m1 ∧ Step m1 k m2 ∧ Proper m1 k m2 ∧ Room m2.w ∧
    m2.hist = m1.hist ++ [q] ∧ Unchanged root T q.B := by
  induction h with
  | refl => exact ⟨[], by simp, fun q hq => by cases hq⟩
  | @step m1 m2 k h h1 h2 h3 h4 ih =>
    obtain ⟨tl, e, g⟩ := ih
    rcases step_hist h1 with he | ⟨x, q, -, he, -⟩
    · exact ⟨tl, by rw [he, e], g⟩
    · refine ⟨tl ++ [q], by rw [he, e, List.append_assoc], fun q' hq' => ?_⟩
      rcases List.mem_append.mp hq' with hq' | hq'
      · exact g q' hq'
      · obtain rfl := List.mem_singleton.mp hq'
        exact ⟨m1, m2, k, h, h1, h2, h3, he, (h4 q' he).1⟩

/-- The directories of a cache which has been filled. -/
theorem Filled.dir (ht : Local.Tree T) (hw : Whole T) (hr : root ≠ []) (h0 : (0 : UInt8) ∉ root) {m : MSys} (h : Filled root T m) (hT : DirAt T cs)
    (hcs : ∀ c ∈ cs, Plain c ∧ c.length ≤ 503) {i : Ino} (hb : i < W64) (hp : Cache.path m.w.disk i = .ok (.ok (pathStr cs))) : DirRight T cs i m.w.disk := by
  obtain ⟨m0, l, ls, g1, g2, g3, -⟩ := h
  obtain ⟨-, -, dir, hbd, hd⟩ := C119_opened ht hw hr h0 g1 g2 cs (g3 cs hT hcs)
  obtain ⟨s, a1, a2, a3⟩ := reach_tree (g2.reach g1)
  have hI := si_empty a1 a2 a3
  have comp : ∀ c ∈ cs, Component c := fun c hc => (hcs c hc).1.1
  obtain rfl := PathTo.inj a2 (path_comps hI hbd comp hd.path) (path_comps hI hb comp hp)
  exact hd

/-- Where the kernel is: the inode at the end of the way has this path in the cache as it was when it had been filled. -/
inductive Stand2 (T : HTree) (d : DB) : Way → List Bytes → Prop
  | top : Stand2 T d [] []
  | sub {w cs k st n o} : Stand2 T d w cs → Plain n → n.length ≤ 503 → st.ino < W64 → Cache.path d st.ino = .ok (.ok (pathStr (cs ++ [n]))) → DirAt T cs →
      T (cs ++ [n]) = some o → Shows st o.stat o.stat.size → Stand2 T d ((k, st) :: w) (cs ++ [n])

variable {d : DB} {w : Way}

theorem Stand2.plain (h : Stand2 T d w cs) : ∀ c ∈ cs, Plain c ∧ c.length ≤ 503 := by
  induction h with
  | top => intro c hc; cases hc
  | sub _ hn hl _ _ _ _ _ ih =>
    intro c hc
    rcases List.mem_append.mp hc with hc | hc
    · exact ih c hc
    · obtain rfl := List.mem_singleton.mp hc
      exact ⟨hn, hl⟩

theorem Stand2.obj (hw : Whole T) (h : Stand2 T d w cs) : ∃ o, T cs = some o ∧ (w.isDir ↔ fmt o.stat.mode = S_IFDIR) := by
  cases h with
  | top =>
    obtain ⟨o, ns, h1, -, h2⟩ := hw.top
    exact ⟨o, h1, fun _ => h2, fun _ => trivial⟩
  | sub _ _ _ _ _ _ ho hs =>
    refine ⟨_, ho, ?_⟩
    show fmt _ = _ ↔ _
    rw [hs.mode]

theorem Stand2.dirAt (hw : Whole T) (h : Stand2 T d w cs) (hd : w.isDir) : DirAt T cs := by
  cases h with
  | top =>
    intro ds hds
    obtain rfl := List.prefix_nil.mp hds
    exact hw.top
  | @sub w cs k st n o _ _ _ _ _ hT ho hs =>
    intro ds hds
    rcases List.prefix_concat_iff.mp hds with e | hds
    · subst e
      have hm : fmt o.stat.mode = S_IFDIR := by rw [← hs.mode]; exact hd
      obtain ⟨ns, hns⟩ := hw.dir ho hm
      exact ⟨o, ns, ho, hns, hm⟩
    · exact hT ds hds

theorem root_path {m : MSys} (h : MReach m) : Cache.path m.w.disk ROOT = .ok (.ok (pathStr [])) := by
  obtain ⟨s, a1, a2, a3⟩ := reach_tree h
  exact a1.path_found a2 .root

theorem Stand2.path {m : MSys} (hm : MReach m) (h : Stand2 T m.w.disk w cs) : w.ino < W64 ∧ Cache.path m.w.disk w.ino = .ok (.ok (pathStr cs)) := by
  cases h with
  | top => exact ⟨by decide, root_path hm⟩
  | sub _ _ _ hi hp _ _ _ => exact ⟨hi, hp⟩

/-- The result is what the host comes to from `cs`. -/
def Same2 (T : HTree) (d : DB) (follow : Bool) (cs l : List Bytes) : Except Errno Way → Prop
  | .ok w' => ∃ cs', HostWalk T follow cs l (.ok cs') ∧ Stand2 T d w' cs'
  | .error e => (∃ e', HostWalk T follow cs l (.error e')) ∧ (NotThere e ∨ e = EIO)

theorem Same2.back {follow : Bool} {cs cs1 l l1 : List Bytes} {res : Except Errno Way} (hh : ∀ r, HostWalk T follow cs1 l1 r → HostWalk T follow cs l r)
    (hr : Same2 T d follow cs1 l1 res) : Same2 T d follow cs l res := by
  cases res with
  | ok w' => obtain ⟨cs', h1, h2⟩ := hr; exact ⟨cs', hh _ h1, h2⟩
  | error e => obtain ⟨⟨e', h1⟩, h2⟩ := hr; exact ⟨⟨e', hh _ h1⟩, h2⟩

theorem walk_same (ht : Local.Tree T) (hw : Whole T) (hsl : ShortLinks T) (hr : root ≠ []) (h0 : (0 : UInt8) ∉ root) {m m' : MSys} (hf : Filled root T m) (ha : After root T m m')
    {follow : Bool} {l : List Bytes} {res : Except Errno Way} (h : KernelWalk (m'.hist.drop m.hist.length) follow w l res) (hs : Stand2 T m.w.disk w cs) (hl : Short l) :
    Same2 T m.w.disk follow cs l res := by
  obtain ⟨tl, htl, hev⟩ := ha.event
  rw [htl, List.drop_left] at h
  have hm := hf.reach
  -- a lookup
  have look : ∀ {w : Way} {cs : List Bytes} {n : Bytes} {k : Nat} {q : Done}, Stand2 T m.w.disk w cs → w.isDir → Plain n → n.length ≤ 503 → tl[k]? = some q → q.rq = .lookup w.ino n →
      match q.rep with
      | .entry st => st.ino < W64 ∧ Cache.path m.w.disk st.ino = .ok (.ok (pathStr (cs ++ [n]))) ∧ ∃ o, T (cs ++ [n]) = some o ∧ Shows st o.stat o.stat.size
      | .err e => T (cs ++ [n]) = none ∧ (NotThere e ∨ e = EIO)
      | _ => False := by
    intro w cs n k q hs hdir hn hlen hk hrq
    have hT := hs.dirAt hw hdir
    have hpl : ∀ c ∈ cs, Plain c := fun c hc => (hs.plain c hc).1
    obtain ⟨hb, hp⟩ := hs.path hm
    have hd := hf.dir ht hw hr h0 hT hs.plain hb hp
    obtain ⟨m1, m2, j, e1, e2, e3, e4, e5, e6⟩ := hev q (List.mem_of_getElem? hk)
    obtain ⟨hd1, hiff⟩ := C94_kept hr h0 hpl hm hb (e1.dirStays ht hw hT) hd
    have := C94_lookup hr h0 hpl (e1.filled hf).reach e2 e3 e4 e5 hn hlen hrq hb hd1 (e6.now ht hw hT)
    cases hrep : q.rep with
    | entry st =>
      rw [hrep] at this
      obtain ⟨f1, o, f2, f3⟩ := this
      have f4 := (hiff n st.ino hn).mp f1
      obtain ⟨s, a1, a2, a3⟩ := reach_tree hm
      have hat := (a1.lookup_iff a2 hb).mp f4
      have hpt := path_comps (si_empty a1 a2 a3) hb (fun c hc => (hpl c hc).1) hp
      obtain ⟨nd, hnd, -⟩ := id hat
      exact ⟨by have := (a2.bound _ nd hnd).2; have := a2.next_lt; omega, a1.path_found a2 (.child hat hpt), o, f2, f3⟩
    | err e =>
      rw [hrep] at this
      exact ⟨this.1, this.2.imp id (fun h => h.1)⟩
    | _ => rw [hrep] at this; exact this
  -- a link
  have read : ∀ {w : Way} {cs : List Bytes} {n : Bytes} {k' : Nat} {q' : Done} {i : Ino} {o : Obj}, Stand2 T m.w.disk w cs → w.isDir → Plain n → n.length ≤ 503 → i < W64 →
      Cache.path m.w.disk i = .ok (.ok (pathStr (cs ++ [n]))) → T (cs ++ [n]) = some o → fmt o.stat.mode = S_IFLNK → tl[k']? = some q' → q'.rq = .readlink i →
      ∃ t, o.target = some t ∧ q'.rep = .readlink t := by
    intro w cs n k' q' i o hs hdir hn hlen hi hp ho hlnk hk' hrq'
    have hT := hs.dirAt hw hdir
    have hpl : ∀ c ∈ cs, Plain c := fun c hc => (hs.plain c hc).1
    have hpl' : ∀ c ∈ cs ++ [n], Plain c ∧ c.length ≤ 503 := by
      intro c hc
      rcases List.mem_append.mp hc with hc | hc
      · exact hs.plain c hc
      · obtain rfl := List.mem_singleton.mp hc
        exact ⟨hn, hlen⟩
    obtain ⟨hb, hpd⟩ := hs.path hm
    have hd := hf.dir ht hw hr h0 hT hs.plain hb hpd
    obtain ⟨s, a1, a2, a3⟩ := reach_tree hm
    have hlk := (hd.entry a1 a2 a3 hb hi (fun c hc => (hpl' c hc).1) hp).2.1
    obtain ⟨m1, m2, j, e1, e2, e3, e4, e5, e6⟩ := hev q' (List.mem_of_getElem? hk')
    obtain ⟨hd1, hiff⟩ := C94_kept hr h0 hpl hm hb (e1.dirStays ht hw hT) hd
    have hf1 := e1.filled hf
    obtain ⟨s1, b1, b2, b3⟩ := reach_tree hf1.reach
    have hat1 := (b1.lookup_iff b2 hb).mp ((hiff n i hn).mpr hlk)
    have hp1 := b1.path_found b2 (.child hat1 (path_comps (si_empty b1 b2 b3) hb (fun c hc => (hpl c hc).1) hd1.path))
    obtain ⟨m0, l, ls, g1, g2, -, g4⟩ := id hf1
    have hlr := (C120_links ht hw hr h0 g1 g2 (cs ++ [n]) (g4 _ o ⟨cs, n, rfl, hT, ho⟩ hpl' hlnk)).2
    obtain ⟨o', t, f1, f2, f3⟩ := C120_answer ht hr h0 hf1.reach e2 e3 e4 e5 hrq' hi (fun c hc => (hpl' c hc).1) (by simp) hp1 hlr e6
    rw [ho] at f1; cases f1
    exact ⟨t, f2, f3⟩
  induction h generalizing cs with
  | done => exact ⟨cs, .done, hs⟩
  | notDir hnd =>
    obtain ⟨o, h1, h2⟩ := hs.obj hw
    exact ⟨⟨_, .notDir h1 (fun h => hnd (h2.mpr h))⟩, .inl (.inr (.inl rfl))⟩
  | dot hdir _ ih =>
    obtain ⟨o, h1, h2⟩ := hs.obj hw
    exact .back (fun r => .dot h1 (h2.mp hdir)) (ih hs (fun n hn => hl n (by simp [hn])))
  | up hdir _ ih =>
    obtain ⟨o, h1, h2⟩ := hs.obj hw
    cases hs with
    | sub hs' _ _ _ _ _ _ _ => exact .back (fun r => .up h1 (h2.mp hdir)) (ih hs' (fun n hn => hl n (by simp [hn])))
  | @err w n l k q e hn hdir hb hk hq hrep =>
    obtain ⟨o, h1, h2⟩ := hs.obj hw
    have hx := look hs hdir hn (hl n (by simp)) hk hq
    rw [hrep] at hx
    exact ⟨⟨_, .absent hn h1 (h2.mp hdir) hx.1⟩, hx.2⟩
  | @enter w n l k q st res hn hdir hb hk hq hrep hm _ ih =>
    obtain ⟨o, h1, h2⟩ := hs.obj hw
    have hx := look hs hdir hn (hl n (by simp)) hk hq
    rw [hrep] at hx
    obtain ⟨g1, g2, o', g3, g4⟩ := hx
    exact .back (fun r => .enter hn h1 (h2.mp hdir) g3 (by rw [← g4.mode]; exact hm)) (ih (.sub hs hn (hl n (by simp)) g1 g2 (hs.dirAt hw hdir) g3 g4) (fun n hn => hl n (by simp [hn])))
  | @link w n k q st hf hn hdir hb hk hq hrep hm =>
    obtain ⟨o, h1, h2⟩ := hs.obj hw
    have hx := look hs hdir hn (hl n (by simp)) hk hq
    rw [hrep] at hx
    obtain ⟨g1, g2, o', g3, g4⟩ := hx
    exact ⟨_, .link hf hn h1 (h2.mp hdir) g3 (by rw [← g4.mode]; exact hm), .sub hs hn (hl n (by simp)) g1 g2 (hs.dirAt hw hdir) g3 g4⟩
  | @follow w n l k q st k' q' t res hf hn hdir hb hk hq hrep hm hkk hk' hq' hrep' habs _ ih =>
    obtain ⟨o, h1, h2⟩ := hs.obj hw
    have hx := look hs hdir hn (hl n (by simp)) hk hq
    rw [hrep] at hx
    obtain ⟨g1, g2, o', g3, g4⟩ := hx
    have hm' : fmt o'.stat.mode = S_IFLNK := by rw [← g4.mode]; exact hm
    obtain ⟨t', g6, g7⟩ := read hs hdir hn (hl n (by simp)) g1 g2 g3 hm' hk' hq'
    rw [hrep'] at g7
    cases g7
    refine .back (fun r => .follow hf hn h1 (h2.mp hdir) g3 hm' g6 habs) (ih hs (fun c hc => ?_))
    rcases List.mem_append.mp hc with hc | hc
    · exact hsl g3 g6 c hc
    · exact hl c (by simp [hc])
  | @linkErr w n l k q st k' q' e hf hn hdir hb hk hq hrep hm hkk hk' hq' hrep' =>
    have hx := look hs hdir hn (hl n (by simp)) hk hq
    rw [hrep] at hx
    obtain ⟨g1, g2, o', g3, g4⟩ := hx
    obtain ⟨t', g6, g7⟩ := read hs hdir hn (hl n (by simp)) g1 g2 g3 (by rw [← g4.mode]; exact hm) hk' hq'
    rw [hrep'] at g7
    cases g7

/-! ### Theorems -/

/-- C123: after the cache has been filled, every path is resolved in the mounted directory as it is on the host, with `.` and `..` and symbolic
links, with or without a connection: an error is reported only if there is an error on the host. -/
theorem C123_walk (ht : Local.Tree T) (hw : Whole T) (hsl : ShortLinks T) (hr : root ≠ []) (h0 : (0 : UInt8) ∉ root) {m m' : MSys} (hf : Filled root T m) (ha : After root T m m')
    {follow : Bool} {l : List Bytes} (hl : Short l) {res : Except Errno Way} (h : KernelWalk (m'.hist.drop m.hist.length) follow [] l res) : WalkSame T follow l res := by
  have := walk_same ht hw hsl hr h0 hf ha h .top hl
  cases res with
  | error e => exact this
  | ok w =>
    obtain ⟨cs, h1, h2⟩ := this
    obtain ⟨o, h3, -⟩ := h2.obj hw
    refine ⟨cs, o, h1, h3, ?_⟩
    cases h2 with
    | top => rfl
    | sub _ _ _ _ _ _ g1 g2 => rw [g1] at h3; cases h3; exact g2

/-- C123: so whatever can be reached on the host is reached, with its attributes. -/
theorem C123_found (ht : Local.Tree T) (hw : Whole T) (hsl : ShortLinks T) (hr : root ≠ []) (h0 : (0 : UInt8) ∉ root) {m m' : MSys} (hf : Filled root T m) (ha : After root T m m')
    {follow : Bool} {l : List Bytes} (hl : Short l) {res : Except Errno Way} (h : KernelWalk (m'.hist.drop m.hist.length) follow [] l res)
    {cs : List Bytes} (hh : HostWalk T follow [] l (.ok cs)) {o : Obj} (ho : T cs = some o) (hne : cs ≠ []) : ∃ k st w, res = .ok ((k, st) :: w) ∧ Shows st o.stat o.stat.size := by
  have := C123_walk ht hw hsl hr h0 hf ha hl h
  cases res with
  | error e =>
    obtain ⟨⟨e', h1⟩, -⟩ := this
    cases hh.det h1
  | ok w =>
    obtain ⟨cs', o', h1, h2, h3⟩ := this
    cases hh.det h1
    rw [ho] at h2; cases h2
    cases w with
    | nil => exact absurd h3 hne
    | cons x w => exact ⟨x.1, x.2, w, rfl, h3⟩

/-- C123: every directory is listed as it is on the host, in any number of pages. -/
theorem C123_ls (ht : Local.Tree T) (hw : Whole T) (hr : root ≠ []) (h0 : (0 : UInt8) ∉ root) {m m' : MSys} (hf : Filled root T m) (ha : After root T m m')
    (hT : DirAt T cs) (hcs : ∀ c ∈ cs, Plain c ∧ c.length ≤ 503) {i : Ino} (hb : i < W64) (hp : Cache.path m.w.disk i = .ok (.ok (pathStr cs)))
    {ks : List Nat} {l : List DEnt} (hks : Since m'.hist m.hist.length ks) (hL : Listing m'.hist i 0 ks l) : ListsAll T cs l :=
  C94_listing hr h0 (fun c hc => (hcs c hc).1) hf.reach hb (hf.dir ht hw hr h0 hT hcs hb hp) (ha.dirSteps ht hw hT) hks hL

/-- C123: every directory can be opened. -/
theorem C123_opendir (ht : Local.Tree T) (hw : Whole T) (hr : root ≠ []) (h0 : (0 : UInt8) ∉ root) {m m1 m2 : MSys} (hf : Filled root T m) (ha : After root T m m1)
    (hT : DirAt T cs) (hcs : ∀ c ∈ cs, Plain c ∧ c.length ≤ 503) {i : Ino} (hb : i < W64) (hp : Cache.path m.w.disk i = .ok (.ok (pathStr cs)))
    {k : Nat} (hs : Step m1 k m2) (hpr : Proper m1 k m2) (hroom : Room m2.w) {q : Done} (hq : m2.hist = m1.hist ++ [q]) (hrq : q.rq = .opendir i) (hnow : Unchanged root T q.B) : q.rep = .opened := by
  have hpl : ∀ c ∈ cs, Plain c := fun c hc => (hcs c hc).1
  have hpath := (C94_kept hr h0 hpl hf.reach hb (ha.dirStays ht hw hT) (hf.dir ht hw hr h0 hT hcs hb hp)).1.path
  obtain ⟨H, hB, hH | hG⟩ := hnow
  · exact (C94_open ht hr h0 hpl (ha.filled hf).reach hs hpr hroom hq hrq hb hpath ⟨H, hB, hH⟩ hT).1
  · have hR := step_right (ha.filled hf).reach hs hpr hroom hq (by rw [hrq]; rfl)
    rw [hrq] at hR
    refine (hR.2 _ hpath).2.1 ?_
    obtain ⟨p, h1, -⟩ := written hr h0 (plain_comps hpl)
    rw [hB]
    show opendir root H _ = _
    unfold opendir
    rw [h1]
    simp only [hG.opendir]

/-- C123: the attributes of everything below the root directory are those on the host. -/
theorem C123_attr (ht : Local.Tree T) (hw : Whole T) (hr : root ≠ []) (h0 : (0 : UInt8) ∉ root) {m m' : MSys} (hf : Filled root T m) (ha : After root T m m')
    (hne : cs ≠ []) (hpl : ∀ c ∈ cs, Plain c) {i : Ino} (hb : i < W64) (hp : Cache.path m.w.disk i = .ok (.ok (pathStr cs))) {k : Nat} {q : Done} (hk : m'.hist[k]? = some q)
    (hver : m.hist.length ≤ q.ver) (hrq : q.rq = .getattr i) : ∃ st o, q.rep = .attr st ∧ st.ino = i ∧ T cs = some o ∧ Shows st o.stat o.stat.size := by
  obtain ⟨m0, l, ls, f1, f2, f3, -⟩ := id hf
  obtain ⟨hshort, o, ⟨ds, n, rfl, hT, ho⟩, -⟩ := (C119_mirror ht hw hr h0 f1 f2 f3).shown i cs hb hne hpl hp
  have hpl' : ∀ c ∈ ds, Plain c ∧ c.length ≤ 503 := fun c hc => ⟨hpl c (List.mem_append_left _ hc), hshort c (List.mem_append_left _ hc)⟩
  have hpd : ∀ c ∈ ds, Plain c := fun c hc => (hpl' c hc).1
  have hn : Plain n := hpl n (by simp)
  obtain ⟨-, -, dir, hbd, hd⟩ := C119_opened ht hw hr h0 f1 f2 ds (f3 ds hT hpl')
  obtain ⟨s, a1, a2, a3⟩ := reach_tree hf.reach
  obtain ⟨hat, hlk, -⟩ := hd.entry a1 a2 a3 hbd hb hpl hp
  obtain ⟨l0, J, hdb⟩ := dirDB_of hf.reach hbd hpd hd
  have hJ : i = J n := hdb.right.2.2 n i hn hlk
  obtain ⟨d0, r0, n', L, H, vs, R, dbs, s', -, hM, hR, hP, hle, hv⟩ := dir_versions hr h0 hpd hf.reach (ha.dirSteps ht hw hT) hdb
  obtain ⟨d, d', h1, -, h3⟩ := hP.saw k q hk
  have hro : readOnly q.rq = true := by rw [hrq]; rfl
  unfold seen at h1
  rw [hro, if_pos rfl] at h1
  have hdr := (hv _ _ hver h1).right
  have hlk' := hdr.2.1 n hn (hshort n (by simp)) (by rw [ho]; simp)
  rw [← hJ] at hlk'
  have hattr := hdr.1.attr n i o hn hlk' ho
  cases h3 with
  | wrote g => rw [hro] at g; cases g
  | read _ _ _ _ _ _ _ _ hh hsent =>
    rw [hrq] at hh
    simp only [handle, FS.getattr] at hh
    rw [hattr] at hh
    simp only [Except.ok.injEq] at hh
    subst hh
    simp only [St.reply] at hsent
    have hrep : q.rep = .attr (osStat i (fromBackend o.stat)) := by simpa using hsent.symm
    exact ⟨_, o, hrep, rfl, ho, shows_osStat _ o.stat o.stat.size⟩

/-- C123: the death of the process does not change this: the cache is still filled when it is started again. -/
theorem C123_crash {m : MSys} (hf : Filled root T m) {uid gid : Nat} {now : Timespec} {d : DB} {r : Refs} {n : Nat}
    (ho : openCleanDB (initDB m.w.disk uid gid now) Refs.empty = .ok (d, r)) (hroom : Room (CWorld.start d r)) : Filled root T (MSys.start d r n) := by
  obtain ⟨m0, l, ls, g1, g2, g3, g4⟩ := hf
  exact ⟨m0, l, ls, g1, .crash g2 ho hroom, g3, g4⟩

/-! ### Example -/

theorem after_run {m m1 m2 : MSys} {cap cap' : Nat} {es : List GEv} (hes : es.all (fun e => match e with | .die => false | _ => true) = true) (h : After rootR treeA m m1) (hr : Ready (QG hosts3) cap m1)
    (r : runG hosts3 okNow m1 cap es = some (m2, cap')) : Ready (QG hosts3) cap' m2 ∧ After rootR treeA m m2 :=
  runG_inv hosts3_small (R := After rootR treeA m) (fun h hs hp hr hq => .step h hs hp hr (fun q e => okNow_unchanged (hq q e).1 (hq q e).2))
    (fun hd => by have := List.all_eq_true.mp hes _ hd; cases this) hr h r

/-- The two directories are opened and the link is read; after a crash, without a connection, requests for `d/../l` and a listing are served. -/
def story123 : List ((MSys → Done → Bool) × List GEv) :=
  story120.take 6 ++
  [(okNow, [.go 0, .go 0, .die]),
   (okNow, .ask 0 0 (.lookup 1 [0x64]) :: List.replicate 8 (.go 0) ++ .ask 0 0 (.lookup 1 [0x6c]) :: List.replicate 8 (.go 0) ++ .ask 0 0 (.readlink 5) :: List.replicate 6 (.go 0) ++
     .ask 0 0 (.lookup 1 [0x61]) :: List.replicate 8 (.go 0) ++ .ask 0 0 (.readdir 1 4096 0) :: List.replicate 17 (.go 0) ++ .ask 0 0 (.readdir 1 4096 6) :: List.replicate 6 (.go 0) ++
     .ask 0 0 (.getattr 4) :: List.replicate 5 (.go 0))]

/-- What the requests after the crash were, and their answers. -/
def served (m m' : MSys) : Prop :=
  m.hist.length = 0 ∧ m'.hist.map (·.rq) = [.lookup 1 [0x64], .lookup 1 [0x6c], .readlink 5, .lookup 1 [0x61], .readdir 1 4096 0, .readdir 1 4096 6, .getattr 4] ∧
  m'.hist.map (fun q => match q.rep with | .entry st => (st.ino, fmt st.mode) | .readlink t => (t.length, (t.headD 0).toNat) | _ => (0, 0)) =
    [(6, S_IFDIR), (5, S_IFLNK), (1, 0x61), (4, S_IFREG), (0, 0), (0, 0), (0, 0)] ∧
  m'.hist.map online = [false, false, false, false, false, false, false] ∧ (listingB m'.hist 1 0 [4, 5]).isSome = true ∧ Cache.path m.w.disk 1 = .ok (.ok (pathStr [])) ∧
  Cache.path m.w.disk 4 = .ok (.ok (pathStr [[0x61]]))

instance (m m' : MSys) : Decidable (served m m') := by unfold served; infer_instance

def check123 : List (MSys × Nat) → Bool
  | [(m1, _), (m2, _), (m3, _), (m4, _), (m5, _), (m6, _), (m7, _), (m8, _)] => opens m1 m2 1 [] && opens m3 m4 6 [[0x64]] && reads m5 m6 5 [[0x6c]] true && decide (served m7 m8)
  | _ => false

theorem story123_ex : (match startG with | some m => (match storyG hosts3 m 0 story123 with | some l => check123 l | none => false) | none => false) = true := by decide +kernel

/-- The requests of the story are a walk of the kernel, which ends at a file, and a listing. -/
theorem served_walk {m m' : MSys} (h : served m m') : ∃ st es, KernelWalk (m'.hist.drop m.hist.length) true [] [[0x64], [0x2e, 0x2e], [0x6c]] (.ok [(3, st)]) ∧
    Since m'.hist m.hist.length [4, 5] ∧ Listing m'.hist 1 0 [4, 5] es ∧ ∃ q, m'.hist[6]? = some q ∧ q.rq = .getattr 4 ∧ m.hist.length ≤ q.ver := by
  obtain ⟨h0, h2, h3, h5, h6, -⟩ := h
  have hlen : m'.hist.length = 7 := by have := congrArg List.length h2; simpa using this
  obtain ⟨es, hes⟩ := Option.isSome_iff_exists.mp h6
  have hL := listingB_ok hes
  rw [h0, List.drop_zero]
  generalize m'.hist = H at h2 h3 h5 hlen hL ⊢
  match H, hlen with
  | [q0, q1, q2, q3, q4, q5, q6], _ =>
    simp only [List.map_cons, List.map_nil, List.cons.injEq, and_true] at h2 h3
    obtain ⟨a0, a1, a2, a3, -, -, a6⟩ := h2
    obtain ⟨b0, b1, b2, b3, -, -, -⟩ := h3
    have ent : ∀ {q : Done} {i f : Nat}, i ≠ 0 → 255 < f → (match q.rep with | .entry st => (st.ino, fmt st.mode) | .readlink t => (t.length, (t.headD 0).toNat) | _ => (0, 0)) = (i, f) →
        ∃ st, q.rep = .entry st ∧ st.ino = i ∧ fmt st.mode = f := by
      intro q i f h1 h2 h3
      cases hr : q.rep with
      | entry st => rw [hr] at h3; cases h3; exact ⟨st, rfl, rfl, rfl⟩
      | readlink t =>
        rw [hr] at h3; cases h3
        have := (t.headD 0).toNat_lt; omega
      | _ => rw [hr] at h3; cases h3; exact absurd rfl h1
    obtain ⟨s0, c0, c0', c0''⟩ := ent (by decide) (by decide) b0
    obtain ⟨s1, c1, c1', c1''⟩ := ent (by decide) (by decide) b1
    obtain ⟨s3, c3, c3', c3''⟩ := ent (by decide) (by decide) b3
    have c2 : q2.rep = .readlink [0x61] := by
      cases hr : q2.rep with
      | readlink t =>
        rw [hr] at b2
        simp only [Prod.mk.injEq] at b2
        match t, b2.1 with
        | [c], _ => rw [show c = 0x61 from UInt8.toNat_inj.mp b2.2]
      | entry st =>
        rw [hr] at b2
        simp only [Prod.mk.injEq] at b2
        have h := b2.2
        unfold fmt at h
        have := Nat.and_mod_two_pow (n := 8) (a := st.mode) (b := 0o170000)
        rw [h] at this; simp at this
      | _ => rw [hr] at b2; cases b2
    have hk : KernelWalk [q0, q1, q2, q3, q4, q5, q6] true [] [[0x64], [0x2e, 0x2e], [0x6c]] (.ok [(3, s3)]) :=
      .enter (k := 0) (plainB (by decide)) trivial trivial rfl a0 c0 (by rw [c0'']; decide)
        (.up c0'' (.follow (k := 1) (k' := 2) (fun _ => rfl) (plainB (by decide)) trivial trivial rfl a1 c1 c1'' (by decide) rfl (by rw [c1']; exact a2) c2 (by unfold Absolute; decide)
          (.enter (k := 3) (plainB (by decide)) trivial trivial rfl a3 c3 (by rw [c3'']; decide) .done)))
    exact ⟨s3, es, hk, fun k _ q _ => Nat.zero_le _, hL, q6, rfl, a6, Nat.zero_le _⟩

/-- On the host, `d/../l` is the file `a`. -/
theorem host_walk : HostWalk treeA true [] [[0x64], [0x2e, 0x2e], [0x6c]] (.ok [[0x61]]) :=
  .enter (plainB (by decide)) (o := ⟨bDir, none, some [[0x61], [0x6c], [0x64]]⟩) rfl (by decide +kernel) (o' := ⟨bDir, none, some [[0x62]]⟩) rfl (by decide +kernel)
    (.up (cs := []) (n := [0x64]) (o := ⟨bDir, none, some [[0x62]]⟩) rfl (by decide +kernel)
      (.follow (fun _ => rfl) (plainB (by decide)) (o := ⟨bDir, none, some [[0x61], [0x6c], [0x64]]⟩) rfl (by decide +kernel)
        (o' := ⟨{ bLink with size := 1 }, some [0x61], none⟩) rfl (by decide +kernel) rfl (by unfold Absolute; decide)
        (.enter (plainB (by decide)) (o := ⟨bDir, none, some [[0x61], [0x6c], [0x64]]⟩) rfl (by decide +kernel) (o' := ⟨bFile 5, none, none⟩) rfl (by decide +kernel) .done)))

theorem served_offline {m m' : MSys} (h : served m m') : ∀ q ∈ m'.hist, online q = false := by
  obtain ⟨-, -, -, h5, -⟩ := h
  intro q hq
  have := List.mem_map_of_mem (f := online) hq
  rw [h5] at this
  simpa using this

/-- The hypotheses of the theorems can be met: by this story. All requests after the crash are served without a connection; `d/../l` leads to the
file `a`, of 5 bytes, the root directory is listed, and the attributes of the file are shown. -/
example : ∃ (m m' : MSys) (w : Way) (es : List DEnt), Filled rootR treeA m ∧ After rootR treeA m m' ∧ (∀ q ∈ m'.hist, online q = false) ∧
    KernelWalk (m'.hist.drop m.hist.length) true [] [[0x64], [0x2e, 0x2e], [0x6c]] (.ok w) ∧ (∃ j st, w = [(j, st)] ∧ st.size = 5) ∧
    Since m'.hist m.hist.length [4, 5] ∧ Listing m'.hist 1 0 [4, 5] es ∧ ListsAll treeA [] es ∧
    (∃ q st, m'.hist[6]? = some q ∧ q.rq = .getattr 4 ∧ m.hist.length ≤ q.ver ∧ Cache.path m.w.disk 4 = .ok (.ok (pathStr [[0x61]])) ∧ q.rep = .attr st ∧ st.size = 5) := by
  have hd : ∀ c ∈ [[(0x64 : UInt8)]], Plain c := fun c hc => by
    rw [List.mem_singleton] at hc; subst hc; exact plainB (by decide)
  have hl : ∀ c ∈ [[(0x6c : UInt8)]], Plain c := fun c hc => by
    rw [List.mem_singleton] at hc; subst hc; exact plainB (by decide)
  have no : ∀ c ∈ ([] : List Bytes), Plain c := fun c hc => by cases hc
  have links : ∀ cs o, Entry treeA cs o → fmt o.stat.mode = S_IFLNK → cs ∈ [[[(0x6c : UInt8)]]] := by
    rintro cs o ⟨-, -, -, -, h1⟩ h2
    unfold treeA at h1
    split at h1 <;> cases h1 <;> first | exact List.mem_singleton.mpr rfl | exact absurd h2 (by decide +kernel)
  have key := story123_ex
  cases hs0 : startG with
  | none => rw [hs0] at key; cases key
  | some m0 =>
    rw [hs0] at key
    simp only at key
    cases hst : storyG hosts3 m0 0 story123 with
    | none => rw [hst] at key; cases key
    | some ys =>
      rw [hst] at key
      simp only at key
      have g0 : Ready (QG hosts3) 0 m0 := startG_ready hs0
      unfold story123 story120 at hst
      simp only [List.take, List.cons_append, List.nil_append] at hst
      obtain ⟨n1, e1, _, rfl, s1, hst⟩ := storyG_cons hst
      obtain ⟨n2, e2, _, rfl, s2, hst⟩ := storyG_cons hst
      obtain ⟨n3, e3, _, rfl, s3, hst⟩ := storyG_cons hst
      obtain ⟨n4, e4, _, rfl, s4, hst⟩ := storyG_cons hst
      obtain ⟨n5, e5, _, rfl, s5, hst⟩ := storyG_cons hst
      obtain ⟨n6, e6, _, rfl, s6, hst⟩ := storyG_cons hst
      obtain ⟨n7, e7, _, rfl, s7, hst⟩ := storyG_cons hst
      obtain ⟨n8, e8, _, rfl, s8, hst⟩ := storyG_cons hst
      cases hst
      unfold check123 at key
      simp only [Bool.and_eq_true] at key
      obtain ⟨⟨⟨k1, k2⟩, k3⟩, k4⟩ := key
      obtain ⟨f1, v1⟩ := walked_run .start g0 s1
      obtain ⟨p1, p2, p3, p4, p5⟩ := opens_iff k1
      obtain ⟨f2, v2⟩ := walked_open v1 f1 s2 p1 p2 p3 p4 (by decide) p5 no treeA_dirAt
      obtain ⟨f3, v3⟩ := walked_run v2 f2 s3
      obtain ⟨p1, p2, p3, p4, p5⟩ := opens_iff k2
      obtain ⟨f4, v4⟩ := walked_open v3 f3 s4 p1 p2 p3 p4 (by decide) p5 hd treeA_dirAt_d
      obtain ⟨f5, v5⟩ := walked_run v4 f4 s5
      obtain ⟨p1, p2, p3, p4, p5⟩ := reads_iff k3
      obtain ⟨f6, v6⟩ := walked_read (cs := []) (n := [0x6c]) v5 (by simp) f5 s6 p1 p2 p3 p4 (by decide) p5 hl rfl (by decide +kernel)
      obtain ⟨f7, v7⟩ := walked_run v6 f6 s7
      have hf : Filled rootR treeA n7 := ⟨m0, _, _, g0.reach, v7, fun _ h _ => treeA_dirs h, fun cs o h1 _ h2 => links cs o h1 h2⟩
      obtain ⟨f8, ha⟩ := after_run (by decide) .refl f7 s8
      have hsv : served n7 n8 := of_decide_eq_true k4
      obtain ⟨-, -, -, -, -, hroot, hfile⟩ := id hsv
      obtain ⟨st, es, hk, hsince, hL, q, g1, g2, g3⟩ := served_walk hsv
      obtain ⟨k', st', w, e, hsh⟩ := C123_found treeA_tree treeA_whole treeA_links rootR_ne rootR_nul hf ha (by intro n hn; revert n; decide) hk host_walk (o := ⟨bFile 5, none, none⟩) rfl (by simp)
      cases e
      obtain ⟨sta, oa, w1, -, w2, w3⟩ := C123_attr treeA_tree treeA_whole rootR_ne rootR_nul hf ha (cs := [[0x61]]) (by simp)
        (fun c hc => by rw [List.mem_singleton] at hc; subst hc; exact plainB (by decide)) (by decide) hfile g1 g3 g2
      cases w2
      exact ⟨n7, n8, _, es, hf, ha, served_offline hsv, hk, ⟨_, _, rfl, hsh.size⟩, hsince, hL,
        C123_ls treeA_tree treeA_whole rootR_ne rootR_nul hf ha treeA_dirAt (fun c hc => by cases hc) (by decide) hroot hsince hL, q, sta, g1, g2, g3, hfile, w1, w3.size⟩

/-- The same, with a request to open `d` after the crash. -/
def story123o : List ((MSys → Done → Bool) × List GEv) :=
  story120.take 6 ++ [(okNow, [.go 0, .go 0, .die]), (okNow, [.ask 0 0 (.opendir 6), .go 0, .go 0]), (okNow, [.go 0])]

def openedOff (m m1 m2 : MSys) : Prop :=
  m2.hist.length = m1.hist.length + 1 ∧ (m2.hist.drop m1.hist.length).map (·.rq) = [.opendir 6] ∧ (m2.hist.drop m1.hist.length).map online = [false] ∧
    (m2.hist.drop m1.hist.length).all (okNow m1) = true ∧ Cache.path m.w.disk 6 = .ok (.ok (pathStr [[0x64]]))

instance (m m1 m2 : MSys) : Decidable (openedOff m m1 m2) := by unfold openedOff; infer_instance

def check123o : List (MSys × Nat) → Bool
  | [(m1, _), (m2, _), (m3, _), (m4, _), (m5, _), (m6, _), (m7, _), (m8, _), (m9, _)] => opens m1 m2 1 [] && opens m3 m4 6 [[0x64]] && reads m5 m6 5 [[0x6c]] true && decide (openedOff m7 m8 m9)
  | _ => false

theorem story123o_ex : (match startG with | some m => (match storyG hosts3 m 0 story123o with | some l => check123o l | none => false) | none => false) = true := by decide +kernel

/-- The hypotheses of `C123_opendir` can be met: by this story. -/
example : ∃ (m m1 m2 : MSys) (k : Nat) (q : Done), Filled rootR treeA m ∧ After rootR treeA m m1 ∧ DirAt treeA [[0x64]] ∧ Cache.path m.w.disk 6 = .ok (.ok (pathStr [[0x64]])) ∧
    Step m1 k m2 ∧ Proper m1 k m2 ∧ Room m2.w ∧ m2.hist = m1.hist ++ [q] ∧ q.rq = .opendir 6 ∧ Unchanged rootR treeA q.B ∧ online q = false ∧ q.rep = .opened := by
  have hd : ∀ c ∈ [[(0x64 : UInt8)]], Plain c := fun c hc => by
    rw [List.mem_singleton] at hc; subst hc; exact plainB (by decide)
  have hl : ∀ c ∈ [[(0x6c : UInt8)]], Plain c := fun c hc => by
    rw [List.mem_singleton] at hc; subst hc; exact plainB (by decide)
  have no : ∀ c ∈ ([] : List Bytes), Plain c := fun c hc => by cases hc
  have links : ∀ cs o, Entry treeA cs o → fmt o.stat.mode = S_IFLNK → cs ∈ [[[(0x6c : UInt8)]]] := by
    rintro cs o ⟨-, -, -, -, h1⟩ h2
    unfold treeA at h1
    split at h1 <;> cases h1 <;> first | exact List.mem_singleton.mpr rfl | exact absurd h2 (by decide +kernel)
  have key := story123o_ex
  cases hs0 : startG with
  | none => rw [hs0] at key; cases key
  | some m0 =>
    rw [hs0] at key
    simp only at key
    cases hst : storyG hosts3 m0 0 story123o with
    | none => rw [hst] at key; cases key
    | some ys =>
      rw [hst] at key
      simp only at key
      have g0 : Ready (QG hosts3) 0 m0 := startG_ready hs0
      unfold story123o story120 at hst
      simp only [List.take, List.cons_append, List.nil_append] at hst
      obtain ⟨n1, e1, _, rfl, s1, hst⟩ := storyG_cons hst
      obtain ⟨n2, e2, _, rfl, s2, hst⟩ := storyG_cons hst
      obtain ⟨n3, e3, _, rfl, s3, hst⟩ := storyG_cons hst
      obtain ⟨n4, e4, _, rfl, s4, hst⟩ := storyG_cons hst
      obtain ⟨n5, e5, _, rfl, s5, hst⟩ := storyG_cons hst
      obtain ⟨n6, e6, _, rfl, s6, hst⟩ := storyG_cons hst
      obtain ⟨n7, e7, _, rfl, s7, hst⟩ := storyG_cons hst
      obtain ⟨n8, e8, _, rfl, s8, hst⟩ := storyG_cons hst
      obtain ⟨n9, e9, _, rfl, s9, hst⟩ := storyG_cons hst
      cases hst
      unfold check123o at key
      simp only [Bool.and_eq_true] at key
      obtain ⟨⟨⟨k1, k2⟩, k3⟩, k4⟩ := key
      obtain ⟨f1, v1⟩ := walked_run .start g0 s1
      obtain ⟨p1, p2, p3, p4, p5⟩ := opens_iff k1
      obtain ⟨f2, v2⟩ := walked_open v1 f1 s2 p1 p2 p3 p4 (by decide) p5 no treeA_dirAt
      obtain ⟨f3, v3⟩ := walked_run v2 f2 s3
      obtain ⟨p1, p2, p3, p4, p5⟩ := opens_iff k2
      obtain ⟨f4, v4⟩ := walked_open v3 f3 s4 p1 p2 p3 p4 (by decide) p5 hd treeA_dirAt_d
      obtain ⟨f5, v5⟩ := walked_run v4 f4 s5
      obtain ⟨p1, p2, p3, p4, p5⟩ := reads_iff k3
      obtain ⟨f6, v6⟩ := walked_read (cs := []) (n := [0x6c]) v5 (by simp) f5 s6 p1 p2 p3 p4 (by decide) p5 hl rfl (by decide +kernel)
      obtain ⟨f7, v7⟩ := walked_run v6 f6 s7
      have hf : Filled rootR treeA n7 := ⟨m0, _, _, g0.reach, v7, fun _ h _ => treeA_dirs h, fun cs o h1 _ h2 => links cs o h1 h2⟩
      obtain ⟨f8, ha⟩ := after_run (by decide) .refl f7 s8
      obtain ⟨p1, p2, p3, p4, p5⟩ := (of_decide_eq_true k4 : openedOff n7 n8 n9)
      obtain ⟨f9, k, a1, a2, a3⟩ := runG_go f8 s9
      obtain ⟨q, hq⟩ := event_hist a1 p1
      have hdrop : n9.hist.drop n8.hist.length = [q] := by rw [hq, List.drop_left]
      rw [hdrop] at p2 p3 p4
      have h1 : q.rq = .opendir 6 := by simpa using p2
      have h2 : online q = false := by simpa using p3
      have h3 : okNow n8 q = true := by simpa using p4
      have hnow := (okNow_unchanged (f9.hist q (by rw [hq]; simp)) h3).1
      exact ⟨n7, n8, n9, k, q, hf, ha, treeA_dirAt_d, p5, a1, a2, a3, hq, h1, hnow, h2,
        C123_opendir treeA_tree treeA_whole rootR_ne rootR_nul hf ha treeA_dirAt_d (fun c hc => ⟨hd c hc, by rw [List.mem_singleton] at hc; subst hc; decide⟩) (by decide) p5 a1 a2 a3 hq h1 hnow⟩

end Dragonstash.Local
