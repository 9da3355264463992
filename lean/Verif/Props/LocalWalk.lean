/-
  C91: paths are resolved in a mounted local directory as on the host.
-/
import Verif.Props.LocalWhole
namespace Dragonstash.Local
open Cache FS MT Conc

variable {root : Bytes} {T : HTree}

/-! ### Specification -/

/-- The names of a path, between its slashes. -/
def names (t : Bytes) : List Bytes := (pieces t).filter (· ≠ [])

/-- A path which begins with a slash. -/
def Absolute (t : Bytes) : Prop := t.head? = some 0x2f

/-- Path resolution on the host, which has the tree `T` (path_resolution(7)): from the place `cs`, the
names which are still to be followed lead to a place, or to an error. Symbolic links are followed,
except the last one if `follow` is false. Absolute links and the parent of the top of the tree lead out
of the tree: these are not covered. -/
inductive HostWalk (T : HTree) (follow : Bool) : List Bytes → List Bytes → Except Errno (List Bytes) → Prop
  | done {cs} : HostWalk T follow cs [] (.ok cs)
  | notDir {cs o n l} : T cs = some o → fmt o.stat.mode ≠ S_IFDIR → HostWalk T follow cs (n :: l) (.error ENOTDIR)
  | dot {cs o l res} : T cs = some o → fmt o.stat.mode = S_IFDIR → HostWalk T follow cs l res → HostWalk T follow cs ([0x2e] :: l) res
  | up {cs n o l res} : T (cs ++ [n]) = some o → fmt o.stat.mode = S_IFDIR → HostWalk T follow cs l res → HostWalk T follow (cs ++ [n]) ([0x2e, 0x2e] :: l) res
  | absent {cs o n l} : Plain n → T cs = some o → fmt o.stat.mode = S_IFDIR → T (cs ++ [n]) = none → HostWalk T follow cs (n :: l) (.error ENOENT)
  | enter {cs o n o' l res} : Plain n → T cs = some o → fmt o.stat.mode = S_IFDIR → T (cs ++ [n]) = some o' → fmt o'.stat.mode ≠ S_IFLNK →
      HostWalk T follow (cs ++ [n]) l res → HostWalk T follow cs (n :: l) res
  | link {cs o n o'} : follow = false → Plain n → T cs = some o → fmt o.stat.mode = S_IFDIR → T (cs ++ [n]) = some o' → fmt o'.stat.mode = S_IFLNK →
      HostWalk T follow cs [n] (.ok (cs ++ [n]))
  | follow {cs o n o' t l res} : (l = [] → follow = true) → Plain n → T cs = some o → fmt o.stat.mode = S_IFDIR → T (cs ++ [n]) = some o' → fmt o'.stat.mode = S_IFLNK →
      o'.target = some t → ¬ Absolute t → HostWalk T follow cs (names t ++ l) res → HostWalk T follow cs (n :: l) res

/-- Where the kernel is: for each directory on the way, from the innermost, the number of the lookup which led
there and what it was answered. -/
abbrev Way := List (Nat × OsStat)

/-- The inode number at the end of the way. -/
def Way.ino : Way → Ino
  | [] => ROOT
  | (_, st) :: _ => st.ino

/-- The end of the way is a directory. -/
def Way.isDir : Way → Prop
  | [] => True
  | (_, st) :: _ => fmt st.mode = S_IFDIR

/-- Request number `k` came after the end of the way was known. -/
def Way.before (k : Nat) : Way → Prop
  | [] => True
  | (j, _) :: _ => j < k

/-- Path resolution by the kernel in the mounted directory, with the answers of the daemon (`hist` are the
requests which have ended). The answers may be old ones: the kernel keeps them. It knows only that a
request for an inode number comes after the request which was answered with this number. -/
inductive KernelWalk (hist : List Done) (follow : Bool) : Way → List Bytes → Except Errno Way → Prop
  | done {w : Way} : KernelWalk hist follow w [] (.ok w)
  | notDir {w : Way} {n l} : ¬ w.isDir → KernelWalk hist follow w (n :: l) (.error ENOTDIR)
  | dot {w : Way} {l res} : w.isDir → KernelWalk hist follow w l res → KernelWalk hist follow w ([0x2e] :: l) res
  | up {x} {w : Way} {l res} : Way.isDir (x :: w) → KernelWalk hist follow w l res → KernelWalk hist follow (x :: w) ([0x2e, 0x2e] :: l) res
  | err {w : Way} {n l k q e} : Plain n → w.isDir → w.before k → hist[k]? = some q → q.rq = .lookup w.ino n → q.rep = .err e → KernelWalk hist follow w (n :: l) (.error e)
  | enter {w : Way} {n l k q st res} : Plain n → w.isDir → w.before k → hist[k]? = some q → q.rq = .lookup w.ino n → q.rep = .entry st → fmt st.mode ≠ S_IFLNK →
      KernelWalk hist follow ((k, st) :: w) l res → KernelWalk hist follow w (n :: l) res
  | link {w : Way} {n k q st} : follow = false → Plain n → w.isDir → w.before k → hist[k]? = some q → q.rq = .lookup w.ino n → q.rep = .entry st → fmt st.mode = S_IFLNK →
      KernelWalk hist follow w [n] (.ok ((k, st) :: w))
  | follow {w : Way} {n l k q st k' q' t res} : (l = [] → follow = true) → Plain n → w.isDir → w.before k → hist[k]? = some q → q.rq = .lookup w.ino n → q.rep = .entry st → fmt st.mode = S_IFLNK →
      k < k' → hist[k']? = some q' → q'.rq = .readlink st.ino → q'.rep = .readlink t → ¬ Absolute t →
      KernelWalk hist follow w (names t ++ l) res → KernelWalk hist follow w (n :: l) res
  | linkErr {w : Way} {n l k q st k' q' e} : (l = [] → follow = true) → Plain n → w.isDir → w.before k → hist[k]? = some q → q.rq = .lookup w.ino n → q.rep = .entry st → fmt st.mode = S_IFLNK →
      k < k' → hist[k']? = some q' → q'.rq = .readlink st.ino → q'.rep = .err e → KernelWalk hist follow w (n :: l) (.error e)

/-- Names which the cache can store. -/
def Short (l : List Bytes) : Prop := ∀ n ∈ l, n.length ≤ 503

/-- The result of a walk in the mounted directory, starting at its top: what is on the host at the place where the host
gets to; an error if there is an error on the host; or an error for which the connection was lost when
some request was answered. -/
def WalkRight (root : Bytes) (T : HTree) (follow : Bool) (hist : List Done) (l : List Bytes) : Except Errno Way → Prop
  | .ok w => ∃ cs o, HostWalk T follow [] l (.ok cs) ∧ T cs = some o ∧ match w with
    | [] => cs = []
    | (_, st) :: _ => Shows st o.stat o.stat.size
  | .error e => NotThere e ∧ (∃ e', HostWalk T follow [] l (.error e')) ∨
      (e = EIO ∨ e = EINVAL) ∧ ∃ q ∈ hist, q.rep = .err e ∧ ∃ H, q.B = backend root H ∧ Gone H

/-! ### Proof -/

/-- The way is at the place `cs`. -/
inductive Stand (T : HTree) (ds : List DB) : Way → List Bytes → Prop
  | top : Stand T ds [] []
  | sub {w cs k st n o d} : Stand T ds w cs → Plain n → ds[k + 1]? = some d → st.ino < W64 → Cache.path d st.ino = .ok (.ok (pathStr (cs ++ [n]))) →
      T (cs ++ [n]) = some o → Shows st o.stat o.stat.size → Stand T ds ((k, st) :: w) (cs ++ [n])

variable {ds : List DB} {hist : List Done} {w : Way} {cs : List Bytes}

theorem Stand.plain (h : Stand T ds w cs) : ∀ c ∈ cs, Plain c := by
  induction h with
  | top => intro c hc; cases hc
  | sub _ hn _ _ _ _ _ ih => exact plain_snoc ih hn

theorem Stand.obj (hw : Whole T) (h : Stand T ds w cs) : ∃ o, T cs = some o ∧ (w.isDir ↔ fmt o.stat.mode = S_IFDIR) := by
  cases h with
  | top =>
    obtain ⟨o, ns, h1, -, h2⟩ := hw.top
    exact ⟨o, h1, fun _ => h2, fun _ => trivial⟩
  | sub _ _ _ _ _ ho hs =>
    refine ⟨_, ho, ?_⟩
    show fmt _ = _ ↔ _
    rw [hs.mode]

theorem Stand.path (hM : Mirrors root T ds hist) (h : Stand T ds w cs) {k : Nat} {d : DB} (hb : w.before k) (hk : ds[k]? = some d) :
    w.ino < W64 ∧ Cache.path d w.ino = .ok (.ok (pathStr cs)) := by
  cases h with
  | top => exact ⟨by decide, hM.top d (List.mem_of_getElem? hk)⟩
  | sub h1 hn hd hi hp ho hs => exact ⟨hi, hM.stays (k := _ + 1) (show _ + 1 ≤ k from hb) hd hk hi (plain_snoc h1.plain hn) hp⟩

/-- Path resolution on the host has one result. -/
theorem HostWalk.det {follow : Bool} {l : List Bytes} {r r' : Except Errno (List Bytes)} (h : HostWalk T follow cs l r) (h' : HostWalk T follow cs l r') : r = r' := by
  have dots : ¬ Plain [0x2e] ∧ ¬ Plain [0x2e, 0x2e] := ⟨fun h => h.2.1 rfl, fun h => h.2.2.1 rfl⟩
  have ne : ∀ {α : Type} {a b : α} {x : Option α}, x = some a → x = some b → a = b := fun h1 h2 => Option.some.inj (h1.symm.trans h2)
  induction h generalizing r' with
  | done => cases h'; rfl
  | notDir h1 h2 =>
    cases h' with
    | notDir => rfl
    | dot g1 g2 => cases ne h1 g1; exact absurd g2 h2
    | up g1 g2 => cases ne h1 g1; exact absurd g2 h2
    | absent _ g1 g2 => cases ne h1 g1; exact absurd g2 h2
    | enter _ g1 g2 => cases ne h1 g1; exact absurd g2 h2
    | link _ _ g1 g2 => cases ne h1 g1; exact absurd g2 h2
    | follow _ _ g1 g2 => cases ne h1 g1; exact absurd g2 h2
  | dot h1 h2 _ ih =>
    cases h' with
    | notDir g1 g2 => cases ne h1 g1; exact absurd h2 g2
    | dot _ _ g => exact ih g
    | absent g => exact absurd g dots.1
    | enter g => exact absurd g dots.1
    | link _ g => exact absurd g dots.1
    | follow _ g => exact absurd g dots.1
  | @up cs n o l res h1 h2 _ ih =>
    generalize hc : cs ++ [n] = cs' at h' h1
    cases h' with
    | notDir g1 g2 => cases ne h1 g1; exact absurd h2 g2
    | up _ _ g =>
      obtain ⟨rfl, -⟩ := List.append_inj' hc rfl
      exact ih g
    | absent g => exact absurd g dots.2
    | enter g => exact absurd g dots.2
    | link _ g => exact absurd g dots.2
    | follow _ g => exact absurd g dots.2
  | absent h0 h1 h2 h3 =>
    cases h' with
    | notDir g1 g2 => cases ne h1 g1; exact absurd h2 g2
    | dot => exact absurd h0 dots.1
    | up => exact absurd h0 dots.2
    | absent => rfl
    | enter _ _ _ g3 => rw [h3] at g3; cases g3
    | link _ _ _ _ g3 => rw [h3] at g3; cases g3
    | follow _ _ _ _ g3 => rw [h3] at g3; cases g3
  | enter h0 h1 h2 h3 h4 _ ih =>
    cases h' with
    | notDir g1 g2 => cases ne h1 g1; exact absurd h2 g2
    | dot => exact absurd h0 dots.1
    | up => exact absurd h0 dots.2
    | absent _ _ _ g3 => rw [h3] at g3; cases g3
    | enter _ _ _ _ _ g => exact ih g
    | link _ _ _ _ g3 g4 => cases ne h3 g3; exact absurd g4 h4
    | follow _ _ _ _ g3 g4 => cases ne h3 g3; exact absurd g4 h4
  | link hf h0 h1 h2 h3 h4 =>
    cases h' with
    | notDir g1 g2 => cases ne h1 g1; exact absurd h2 g2
    | dot => exact absurd h0 dots.1
    | up => exact absurd h0 dots.2
    | absent _ _ _ g3 => rw [h3] at g3; cases g3
    | enter _ _ _ g3 g4 => cases ne h3 g3; exact absurd h4 g4
    | link => rfl
    | follow g => rw [hf] at g; cases g rfl
  | follow hf h0 h1 h2 h3 h4 h5 h6 _ ih =>
    cases h' with
    | notDir g1 g2 => cases ne h1 g1; exact absurd h2 g2
    | dot => exact absurd h0 dots.1
    | up => exact absurd h0 dots.2
    | absent _ _ _ g3 => rw [h3] at g3; cases g3
    | enter _ _ _ g3 g4 => cases ne h3 g3; exact absurd h4 g4
    | link g => rw [g] at hf; cases hf rfl
    | follow _ _ _ _ g3 _ g5 _ g => cases ne h3 g3; cases ne h5 g5; exact ih g

/-- The targets of the links have names which the cache can store. -/
def ShortLinks (T : HTree) : Prop := ∀ {cs o t}, T cs = some o → o.target = some t → Short (names t)

/-- The result is what the host comes to from `cs`. -/
def Same (root : Bytes) (T : HTree) (ds : List DB) (hist : List Done) (follow : Bool) (cs l : List Bytes) : Except Errno Way → Prop
  | .ok w' => ∃ cs', HostWalk T follow cs l (.ok cs') ∧ Stand T ds w' cs'
  | .error e => NotThere e ∧ (∃ e', HostWalk T follow cs l (.error e')) ∨
      (e = EIO ∨ e = EINVAL) ∧ ∃ q ∈ hist, q.rep = .err e ∧ ∃ H, q.B = backend root H ∧ Gone H

theorem Same.back {follow : Bool} {cs cs1 l l1 : List Bytes} {res : Except Errno Way} (hh : ∀ r, HostWalk T follow cs1 l1 r → HostWalk T follow cs l r)
    (hr : Same root T ds hist follow cs1 l1 res) : Same root T ds hist follow cs l res := by
  cases res with
  | ok w' => obtain ⟨cs', h1, h2⟩ := hr; exact ⟨cs', hh _ h1, h2⟩
  | error e =>
    rcases hr with ⟨h1, e', h2⟩ | hr
    · exact .inl ⟨h1, e', hh _ h2⟩
    · exact .inr hr

theorem walk_right (hw : Whole T) (hM : Mirrors root T ds hist) {follow : Bool} {l : List Bytes} {res : Except Errno Way}
    (h : KernelWalk hist follow w l res) (hs : Stand T ds w cs) (hl : Short l) (hsl : ShortLinks T) : Same root T ds hist follow cs l res := by
  -- a lookup
  have look : ∀ {w : Way} {cs : List Bytes} {n : Bytes} {k : Nat} {q : Done}, Stand T ds w cs → Plain n → n.length ≤ 503 → w.before k → hist[k]? = some q → q.rq = .lookup w.ino n →
      ∃ d d', ds[k + 1]? = some d' ∧ LookupExact root T d d' q.B w.ino n cs q.rep := by
    intro w cs n k q hs hn hlen hb hk hq
    obtain ⟨d, d', h1, h2, h3⟩ := hM.exact_ k q hk
    unfold seen at h1
    rw [hq, if_neg (by simp [readOnly])] at h1
    obtain ⟨-, hp⟩ := hs.path hM hb h1
    rw [hq] at h3
    exact ⟨d, d', h2, h3 cs hp (plain_snoc hs.plain hn) hlen⟩
  -- a link
  have read : ∀ {d : DB} {cs : List Bytes} {k k' : Nat} {q' : Done} {i : Ino}, (∀ c ∈ cs, Plain c) → ds[k + 1]? = some d → i < W64 → Cache.path d i = .ok (.ok (pathStr cs)) → k < k' →
      hist[k']? = some q' → q'.rq = .readlink i → LinkExact root T q'.B cs q'.rep := by
    intro d cs k k' q' i hcs hd hi hp hkk hk' hq'
    obtain ⟨d1, d2, h1, h2, h3⟩ := hM.exact_ k' q' hk'
    unfold seen at h1
    rw [hq', if_neg (by simp [readOnly])] at h1
    rw [hq'] at h3
    exact h3 cs (hM.stays hkk hd h1 hi hcs hp) hcs
  induction h generalizing cs with
  | done => exact ⟨cs, .done, hs⟩
  | notDir hnd =>
    obtain ⟨o, h1, h2⟩ := hs.obj hw
    exact .inl ⟨.inr (.inl rfl), _, .notDir h1 (fun h => hnd (h2.mpr h))⟩
  | dot hdir _ ih =>
    obtain ⟨o, h1, h2⟩ := hs.obj hw
    exact .back (fun r => .dot h1 (h2.mp hdir)) (ih hs (fun n hn => hl n (by simp [hn])))
  | up hdir _ ih =>
    obtain ⟨o, h1, h2⟩ := hs.obj hw
    cases hs with
    | sub hs' _ _ _ _ _ _ => exact .back (fun r => .up h1 (h2.mp hdir)) (ih hs' (fun n hn => hl n (by simp [hn])))
  | @err w n l k q e hn hdir hb hk hq hrep =>
    obtain ⟨o, h1, h2⟩ := hs.obj hw
    obtain ⟨d, d', -, hx⟩ := look hs hn (hl n (by simp)) hb hk hq
    rw [hrep] at hx
    rcases hx with ⟨g1, g2⟩ | ⟨g1, -, g2⟩
    · exact .inl ⟨g2, _, .absent hn h1 (h2.mp hdir) g1⟩
    · exact .inr ⟨.inl g1, q, List.mem_of_getElem? hk, hrep, g2⟩
  | @enter w n l k q st res hn hdir hb hk hq hrep hm _ ih =>
    obtain ⟨o, h1, h2⟩ := hs.obj hw
    obtain ⟨d, d', hd', hx⟩ := look hs hn (hl n (by simp)) hb hk hq
    rw [hrep] at hx
    obtain ⟨g1, g2, o', g3, g4⟩ := hx
    exact .back (fun r => .enter hn h1 (h2.mp hdir) g3 (by rw [← g4.mode]; exact hm)) (ih (.sub hs hn hd' g1 g2 g3 g4) (fun n hn => hl n (by simp [hn])))
  | @link w n k q st hf hn hdir hb hk hq hrep hm =>
    obtain ⟨o, h1, h2⟩ := hs.obj hw
    obtain ⟨d, d', hd', hx⟩ := look hs hn (hl n (by simp)) hb hk hq
    rw [hrep] at hx
    obtain ⟨g1, g2, o', g3, g4⟩ := hx
    exact ⟨_, .link hf hn h1 (h2.mp hdir) g3 (by rw [← g4.mode]; exact hm), .sub hs hn hd' g1 g2 g3 g4⟩
  | @follow w n l k q st k' q' t res hf hn hdir hb hk hq hrep hm hkk hk' hq' hrep' habs _ ih =>
    obtain ⟨o, h1, h2⟩ := hs.obj hw
    obtain ⟨d, d', hd', hx⟩ := look hs hn (hl n (by simp)) hb hk hq
    rw [hrep] at hx
    obtain ⟨g1, g2, o', g3, g4⟩ := hx
    have hy := read (plain_snoc hs.plain hn) hd' g1 g2 hkk hk' hq'
    rw [hrep'] at hy
    obtain ⟨o2, g5, g6⟩ := hy
    rw [g3] at g5; cases g5
    refine .back (fun r => .follow hf hn h1 (h2.mp hdir) g3 (by rw [← g4.mode]; exact hm) g6 habs) (ih hs (fun c hc => ?_))
    rcases List.mem_append.mp hc with hc | hc
    · exact hsl g3 g6 c hc
    · exact hl c (by simp [hc])
  | @linkErr w n l k q st k' q' e hf hn hdir hb hk hq hrep hm hkk hk' hq' hrep' =>
    obtain ⟨d, d', hd', hx⟩ := look hs hn (hl n (by simp)) hb hk hq
    rw [hrep] at hx
    obtain ⟨g1, g2, o', g3, g4⟩ := hx
    have hy := read (plain_snoc hs.plain hn) hd' g1 g2 hkk hk' hq'
    rw [hrep'] at hy
    exact .inr ⟨.inr hy.1, q', List.mem_of_getElem? hk', hrep', hy.2⟩

/-- C91: if the tree on the host never changes, every path is resolved in the mounted directory as it is on the
host, with `.` and `..` and symbolic links: with any number of threads, after any crashes, whether the host
is connected or not, with answers which the kernel has kept for any time. -/
theorem C91_walk (hw : Whole T) (ht : Local.Tree T) (hsl : ShortLinks T) (hr : root ≠ []) (h0 : (0 : UInt8) ∉ root)
    {m : MSys} (h : MReachD (Asked root T) m) {follow : Bool} {l : List Bytes} (hl : Short l) {res : Except Errno Way} (hk : KernelWalk m.hist follow [] l res) :
    WalkRight root T follow m.hist l res := by
  obtain ⟨d0, r0, n, ds, R, -, -, -, hM⟩ := C90_mirror hw ht hr h0 h
  have := walk_right hw hM hk .top hl hsl
  cases res with
  | error e => exact this
  | ok w =>
    obtain ⟨cs, h1, h2⟩ := this
    obtain ⟨o, h3, -⟩ := h2.obj hw
    refine ⟨cs, o, h1, h3, ?_⟩
    cases h2 with
    | top => rfl
    | sub _ _ _ _ _ g1 g2 => rw [g1] at h3; cases h3; exact g2

/-! ### Example -/

theorem treeA_links : ShortLinks treeA := by
  intro cs o t h1 h2 n hn
  unfold treeA at h1
  split at h1 <;> cases h1 <;> cases h2
  revert n; decide +kernel

/-- `d/../l`, a link to the file `a` of 5 bytes, is resolved by requests which were all served after the process
died, with the connection lost. -/
example : ∃ (m : MSys) (w : Way), MReachD (Asked rootR treeA) m ∧ KernelWalk m.hist true [] [[0x64], [0x2e, 0x2e], [0x6c]] (.ok w) ∧ ∃ j st, w = [(j, st)] ∧ st.size = 5 := by
  have key : ∃ m, MReachD (Asked rootR treeA) m ∧ m.hist.map (·.rq) = [.lookup 1 [0x64], .lookup 1 [0x6c], .readlink 2, .lookup 1 [0x61], .lookup 1 [0x78], .lookup 4 [0x62]] ∧
      m.hist.map (fun q => match q.rep with | .entry st => (st.ino, fmt st.mode) | .readlink t => (t.length, (t.headD 0).toNat) | _ => (0, 0)) =
        [(4, S_IFDIR), (2, S_IFLNK), (1, 0x61), (3, S_IFREG), (0, 0), (0, 0)] := demoW_ex (l := eventsW) (by decide +kernel)
  obtain ⟨m, h1, h2, h3⟩ := key
  refine ⟨m, ?_⟩
  have hlen : m.hist.length = 6 := by have := congrArg List.length h2; simpa using this
  have reach := h1
  have right := fun (res : Except Errno Way) => C91_walk (res := res) treeA_whole treeA_tree treeA_links rootR_ne rootR_nul h1 (follow := true) (l := [[0x64], [0x2e, 0x2e], [0x6c]])
    (by intro n hn; revert n; decide)
  generalize m.hist = H at h2 h3 hlen right ⊢
  match H, hlen with
  | [q0, q1, q2, q3, q4, q5], _ =>
    simp only [List.map_cons, List.map_nil, List.cons.injEq, and_true] at h2 h3
    obtain ⟨a0, a1, a2, a3, -, -⟩ := h2
    obtain ⟨b0, b1, b2, b3, -, -⟩ := h3
    have ent : ∀ {q : Done} {i f : Nat}, i ≠ 0 → f ≠ 0x61 → (match q.rep with | .entry st => (st.ino, fmt st.mode) | .readlink t => (t.length, (t.headD 0).toNat) | _ => (0, 0)) = (i, f) →
        (∀ t : Bytes, q.rep ≠ .readlink t) → ∃ st, q.rep = .entry st ∧ st.ino = i ∧ fmt st.mode = f := by
      intro q i f h1 h2 h3 h4
      cases hr : q.rep with
      | entry st => rw [hr] at h3; cases h3; exact ⟨st, rfl, rfl, rfl⟩
      | readlink t => exact absurd hr (h4 t)
      | _ => rw [hr] at h3; cases h3; exact absurd rfl h1
    have nol : ∀ {q : Done} {i f : Nat}, 255 < f → (match q.rep with | .entry st => (st.ino, fmt st.mode) | .readlink t => (t.length, (t.headD 0).toNat) | _ => (0, 0)) = (i, f) →
        ∀ t : Bytes, q.rep ≠ .readlink t := by
      intro q i f h1 h2 t h3
      rw [h3] at h2; cases h2
      have := (t.headD 0).toNat_lt; omega
    obtain ⟨s0, c0, c0', c0''⟩ := ent (by decide) (by decide) b0 (nol (by decide) b0)
    obtain ⟨s1, c1, c1', c1''⟩ := ent (by decide) (by decide) b1 (nol (by decide) b1)
    obtain ⟨s3, c3, c3', c3''⟩ := ent (by decide) (by decide) b3 (nol (by decide) b3)
    have c2 : q2.rep = .readlink [0x61] := by
      cases hr : q2.rep with
      | readlink t =>
        rw [hr] at b2
        simp only [Prod.mk.injEq] at b2
        match t, b2.1 with
        | [c], _ => rw [show c = 0x61 from UInt8.toNat_inj.mp b2.2]
      | entry st =>
        rw [hr] at b2
        simp only [Prod.mk.injEq] at b2
        have h := b2.2
        unfold fmt at h
        have := Nat.and_mod_two_pow (n := 8) (a := st.mode) (b := 0o170000)
        rw [h] at this; simp at this
      | _ => rw [hr] at b2; cases b2
    have hk : KernelWalk [q0, q1, q2, q3, q4, q5] true [] [[0x64], [0x2e, 0x2e], [0x6c]] (.ok [(3, s3)]) :=
      .enter (k := 0) (plainB (by decide)) trivial trivial rfl a0 c0 (by rw [c0'']; decide)
        (.up c0'' (.follow (k := 1) (k' := 2) (fun _ => rfl) (plainB (by decide)) trivial trivial rfl a1 c1 c1'' (by decide) rfl (by rw [c1']; exact a2) c2 (by unfold Absolute; decide)
          (.enter (k := 3) (plainB (by decide)) trivial trivial rfl a3 c3 (by rw [c3'']; decide) .done)))
    refine ⟨_, reach, hk, 3, s3, rfl, ?_⟩
    obtain ⟨cs, o, g1, g2, g3⟩ := right _ hk
    -- where the host gets to
    have hh : HostWalk treeA true [] [[0x64], [0x2e, 0x2e], [0x6c]] (.ok [[0x61]]) :=
      .enter (plainB (by decide)) (o := ⟨bDir, none, some [[0x61], [0x6c], [0x64]]⟩) rfl (by decide +kernel) (o' := ⟨bDir, none, some [[0x62]]⟩) rfl (by decide +kernel)
        (.up (cs := []) (n := [0x64]) (o := ⟨bDir, none, some [[0x62]]⟩) rfl (by decide +kernel)
          (.follow (fun _ => rfl) (plainB (by decide)) (o := ⟨bDir, none, some [[0x61], [0x6c], [0x64]]⟩) rfl (by decide +kernel)
            (o' := ⟨{ bLink with size := 1 }, some [0x61], none⟩) rfl (by decide +kernel) rfl (by unfold Absolute; decide)
            (.enter (plainB (by decide)) (o := ⟨bDir, none, some [[0x61], [0x6c], [0x64]]⟩) rfl (by decide +kernel) (o' := ⟨bFile 5, none, none⟩) rfl (by decide +kernel) .done)))
    cases g1.det hh
    cases g2
    exact g3.size

end Dragonstash.Local
