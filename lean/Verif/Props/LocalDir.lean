/-
  C94: opening a directory makes the cached copy right, whatever was cached before and however the host has
  changed since, and it stays right as long as the directory does not change on the host.
-/
import Verif.Props.LocalDemo
namespace Dragonstash.Local
open Cache FS MT Conc

variable {root : Bytes} {H : Host} {T : HTree} {s s' : Cache.Tree} {d d' : DB} {r r' : Refs} {cs : List Bytes} {dir : Ino}

/-! ### Specification -/

/-- There is a directory at `cs`, below directories. -/
def DirAt (T : HTree) (cs : List Bytes) : Prop :=
  ∀ ds, ds <+: cs → ∃ o ns, T ds = some o ∧ o.names = some ns ∧ fmt o.stat.mode = S_IFDIR

/-- The directory at `cs` has the same entries in `T'` as in `T`, with the same attributes. Anything else may be different: what is
below these entries, the targets of links, and everything outside the directory. -/
structure SameDir (T T' : HTree) (cs : List Bytes) : Prop where
  up : DirAt T' cs
  same : ∀ n, Plain n → (T' (cs ++ [n])).map Obj.stat = (T (cs ++ [n])).map Obj.stat

/-- The host has a tree in which the directory at `cs` has the entries which it has in `T`, or is not connected. -/
def DirNow (root : Bytes) (T : HTree) (cs : List Bytes) (B : Backend) : Prop :=
  ∃ H, B = backend root H ∧ ((∃ T', Local.Tree T' ∧ Whole T' ∧ Has root H T' ∧ SameDir T T' cs) ∨ Local.Gone H)

/-- What is cached of the directory at `cs`, inode `dir`, is what it has in `T`: the same names (of those which the cache can store),
with the same attributes. -/
structure DirRight (T : HTree) (cs : List Bytes) (dir : Ino) (d : DB) : Prop where
  path : Cache.path d dir = .ok (.ok (pathStr cs))
  isDir : ∃ a, Cache.getattr d dir = .ok (dir, a) ∧ fmt a.mode = S_IFDIR
  names : ∀ n, Plain n → n.length ≤ 503 → ((∃ j, Cache.lookup d dir n = .ok (.ok j)) ↔ T (cs ++ [n]) ≠ none)
  attr : ∀ n j o, Plain n → Cache.lookup d dir n = .ok (.ok j) → T (cs ++ [n]) = some o → Cache.getattr d j = .ok (j, fromBackend o.stat)

/-- What may happen while the directory at `cs` stays as it is in `T`: any number of threads serve requests in any order; the
host is connected or not, and whatever is not in this directory changes there; the process dies at any moment and is
started again. -/
inductive DirStays (root : Bytes) (T : HTree) (cs : List Bytes) (m : MSys) : MSys → Prop
  | refl : DirStays root T cs m m
  | step {m1 m2 k} : DirStays root T cs m m1 → Step m1 k m2 → Proper m1 k m2 → Room m2.w →
      (∀ q, m2.hist = m1.hist ++ [q] → DirNow root T cs q.B ∧ q.rq.onLink m1.w.disk) → DirStays root T cs m m2
  | crash {m1 uid gid now d r n} : DirStays root T cs m m1 → openCleanDB (initDB m1.w.disk uid gid now) Refs.empty = .ok (d, r) →
      Room (CWorld.start d r) → DirStays root T cs m (MSys.start d r n)

/-- The same, in one process. -/
inductive DirSteps (root : Bytes) (T : HTree) (cs : List Bytes) (m : MSys) : MSys → Prop
  | refl : DirSteps root T cs m m
  | step {m1 m2 k} : DirSteps root T cs m m1 → Step m1 k m2 → Proper m1 k m2 → Room m2.w →
      (∀ q, m2.hist = m1.hist ++ [q] → DirNow root T cs q.B ∧ q.rq.onLink m1.w.disk) → DirSteps root T cs m m2

/-- The reply to a lookup of `n` in a directory which was opened: the object, with its attributes and the inode number under which it is
cached, or that there is none. Without a connection and if the directory does not count as synchronised, it is an I/O
error if there is none. -/
def LookupNow (root : Bytes) (T : HTree) (cs : List Bytes) (dir : Ino) (n : Bytes) (d : DB) (B : Backend) : Reply → Prop
  | .entry st => Cache.lookup d dir n = .ok (.ok st.ino) ∧ ∃ o, T (cs ++ [n]) = some o ∧ Shows st o.stat o.stat.size
  | .err e => T (cs ++ [n]) = none ∧ (NotThere e ∨ e = EIO ∧ testFlag d dir SYNCED ≠ .ok true ∧ ∃ H, B = backend root H ∧ Local.Gone H)
  | _ => False

/-! ### Entries come from the host -/

theorem put_back {p : Ino} {n : Bytes} {a : Attrs} {res} (h : Put p n a s r res s' r') (ok : s.OK) {q : Ino} {m : Bytes} {j : Ino} (hj : s'.At q m j) :
    s.At q m j ∨ q = p ∧ m = n := by
  cases h with
  | bad => exact .inl hj
  | same h1 h2 _ => exact .inl ((at_set h1 (by rfl)).mp hj)
  | @new s1 _ _ _ h1 _ h3 _ =>
    have h4 := ((at_collected h3).mp hj).1
    have ok1 : s1.OK := by rcases h1 with ⟨rfl, -⟩ | ⟨i, nd, rfl, -⟩; exact ok; exact OK.orphan ok i
    rcases (at_add ok1).mp h4 with h5 | ⟨rfl, rfl, -⟩
    · left
      rcases h1 with ⟨rfl, -⟩ | ⟨i, nd, rfl, -⟩
      · exact h5
      · exact (at_orphan.mp h5).1
    · exact .inr ⟨rfl, rfl⟩

/-- What is in a directory after a request was there before, or the host has named it. -/
theorem abs_back {B : Backend} {rq rep} (h : Abs B d s r rq rep s' r') (ok : s.OK) {q : Ino} {m : Bytes} {j : Ino} (hj : s'.At q m j) :
    s.At q m j ∨ ∃ es k base sr, s.PathTo q es ∧ B.lstat k base = .ok sr ∧ (base = pathStr (es ++ [m]) ∨ base = entryPath (backendPath (pathStr es)) m) := by
  cases h with
  | lkBad h1 h2 h3 =>
    rcases put_back h3 ok hj with h | ⟨rfl, rfl⟩
    · exact .inl h
    · exact .inr ⟨_, _, _, _, h1, h2, .inl rfl⟩
  | lkPut h1 h2 h3 =>
    rcases put_back h3 ok hj with h | ⟨rfl, rfl⟩
    · exact .inl h
    · exact .inr ⟨_, _, _, _, h1, h2, .inl rfl⟩
  | lkErr h1 h2 h3 h4 h5 => exact .inl (at_orphan.mp ((at_collected h5.coll).mp hj).1).1
  | rlPut h1 h2 h3 h4 => exact .inl ((at_set h3 (by rfl)).mp hj)
  | rlErr h1 h2 h3 h4 h5 => exact .inl (at_orphan.mp ((at_collected h5.coll).mp hj).1).1
  | @odSync i es names e _ _ h1 h2 h3 =>
    have := h3.entries ⟨_, h1⟩
    by_cases hq : q = i
    · subst hq
      obtain ⟨nd, k1, k2⟩ := hj
      obtain ⟨-, sr, ⟨k, -, k4, -⟩, -⟩ := this.1 m j nd k1 k2
      exact .inr ⟨es, k, _, sr, h1, k4, .inr rfl⟩
    · exact .inl (this.2.2.2.1 q m j hq hj)
  | _ => exact .inl hj

/-! ### Invariant -/

/-- The cached copy is right; `l0` is where the directory is, `J` are the inodes of its entries. -/
structure DirOK (T : HTree) (cs : List Bytes) (dir : Ino) (l0 : Option (Ino × Bytes)) (J : Bytes → Ino) (s : Cache.Tree) : Prop where
  path : s.PathTo dir cs
  isDir : s.IsDir dir
  loc : ∀ nd, s.nodes dir = some nd → nd.loc = l0
  all : ∀ n o, Plain n → n.length ≤ 503 → T (cs ++ [n]) = some o → ∃ nd, s.nodes (J n) = some nd ∧ nd.loc = some (dir, n) ∧ nd.attr = fromBackend o.stat
  only : ∀ n j, Plain n → s.At dir n j → T (cs ++ [n]) ≠ none

theorem dirOK_of (h : Rep s d) (ok : s.OK) (wf : s.WF) (hb : dir < W64) (hcs : ∀ c ∈ cs, Plain c) (hd : DirRight T cs dir d) : ∃ l0 J, DirOK T cs dir l0 J s ∧
    ∀ n j, Plain n → Cache.lookup d dir n = .ok (.ok j) → j = J n := by
  have hI := si_empty h ok wf
  have hp := path_comps hI hb (fun c hc => (hcs c hc).1) hd.path
  obtain ⟨nd, hnd⟩ := conn_exists ok ⟨_, hp⟩
  have hdir : s.IsDir dir := by
    obtain ⟨a, h1, h2⟩ := hd.isDir
    rw [getattr_some hI hnd] at h1
    have := congrArg Prod.snd (Except.ok.inj h1)
    simp only at this
    exact ⟨nd, hnd, by rw [this]; exact h2⟩
  obtain ⟨J, hJ⟩ : ∃ J : Bytes → Ino, ∀ n, (∃ j, Cache.lookup d dir n = .ok (.ok j)) → Cache.lookup d dir n = .ok (.ok (J n)) := by
    have : ∀ n, ∃ k : Ino, (∃ j, Cache.lookup d dir n = .ok (.ok j)) → Cache.lookup d dir n = .ok (.ok k) := by
      intro n
      by_cases h : ∃ j, Cache.lookup d dir n = .ok (.ok j)
      · obtain ⟨j, h⟩ := h; exact ⟨j, fun _ => h⟩
      · exact ⟨0, fun h' => absurd h' h⟩
    exact ⟨fun n => Classical.choose (this n), fun n => Classical.choose_spec (this n)⟩
  refine ⟨nd.loc, J, ⟨hp, hdir, fun x hx => by rw [hnd] at hx; cases hx; rfl, fun n o hn hlen ho => ?_, fun n j hn hj => ?_⟩, fun n j hn hj => ?_⟩
  · have h1 := hJ n ((hd.names n hn hlen).mpr (by rw [ho]; simp))
    obtain ⟨x, h2, h3⟩ := (h.lookup_iff ok hb).mp h1
    have h4 := hd.attr n _ o hn h1 ho
    rw [getattr_some hI h2] at h4
    exact ⟨x, h2, h3, congrArg Prod.snd (Except.ok.inj h4)⟩
  · obtain ⟨x, h2, h3⟩ := hj
    exact (hd.names n hn (ok.loc j x dir n h2 h3).2.2.1).mp ⟨j, h.lookup_found ok ⟨x, h2, h3⟩⟩
  · have := hJ n ⟨j, hj⟩
    rw [hj] at this; cases this; rfl

theorem DirOK.right {l0 J} (h : DirOK T cs dir l0 J s) (hr : Rep s d) (ok : s.OK) (wf : s.WF) : DirRight T cs dir d ∧ (∀ n, Plain n → n.length ≤ 503 → T (cs ++ [n]) ≠ none → Cache.lookup d dir n = .ok (.ok (J n))) ∧
    ∀ n j, Plain n → Cache.lookup d dir n = .ok (.ok j) → j = J n := by
  have hI := si_empty hr ok wf
  obtain ⟨nd, hnd, hdir⟩ := h.isDir
  have hb := OK.lt ok hnd
  have found : ∀ n, Plain n → n.length ≤ 503 → T (cs ++ [n]) ≠ none → Cache.lookup d dir n = .ok (.ok (J n)) := by
    intro n hn hlen hT
    cases ho : T (cs ++ [n]) with
    | none => exact absurd ho hT
    | some o =>
      obtain ⟨x, h1, h2, -⟩ := h.all n o hn hlen ho
      exact hr.lookup_found ok ⟨x, h1, h2⟩
  have short : ∀ n j, Cache.lookup d dir n = .ok (.ok j) → n.length ≤ 503 := by
    intro n j hj
    obtain ⟨x, h1, h2⟩ := (hr.lookup_iff ok hb).mp hj
    exact (ok.loc j x dir n h1 h2).2.2.1
  have uniq : ∀ n j, Plain n → Cache.lookup d dir n = .ok (.ok j) → j = J n := by
    intro n j hn hj
    have := found n hn (short n j hj) (h.only n j hn ((hr.lookup_iff ok hb).mp hj))
    rw [hj] at this; cases this; rfl
  refine ⟨⟨hr.path_found ok h.path, ⟨_, getattr_some hI hnd, hdir⟩, fun n hn hlen => ⟨?_, fun hT => ⟨_, found n hn hlen hT⟩⟩, fun n j o hn hj ho => ?_⟩, found, uniq⟩
  · rintro ⟨j, hj⟩
    exact h.only n j hn ((hr.lookup_iff ok hb).mp hj)
  · obtain ⟨x, h1, -, h3⟩ := h.all n o hn (short n j hj) ho
    obtain rfl := uniq n j hn hj
    rw [getattr_some hI h1, h3]

/-- The directories above stay. -/
theorem dir_confirms (hr : root ≠ []) (h0 : (0 : UInt8) ∉ root) (hcs : ∀ c ∈ cs, Plain c) {B : Backend} (h : DirNow root T cs B) :
    Confirms B (fun _ a => fmt a.mode = S_IFDIR) cs := by
  obtain ⟨H, rfl, h⟩ := h
  have sub : ∀ {ds}, ds <+: cs → ∀ c ∈ ds, Plain c := fun hd c hc => hcs c (hd.subset hc)
  rcases h with ⟨T', ht, -, hT, hS⟩ | hG
  · refine ⟨fun ds k hd hne => ?_, fun ds m names e hd hB => ?_, fun ds a hd ha hl => ?_⟩
    · obtain ⟨o, ns, h1, -, h2⟩ := hS.up ds hd
      refine .inl ⟨o.stat, ?_, h2⟩
      rw [← FS.backendPath_ne hne]; exact back_there hT hr h0 (sub hd) h1 k
    · have hd' : ds <+: cs := List.IsPrefix.trans (List.prefix_append _ _) hd
      obtain ⟨o, ns, h1, hns, -⟩ := hS.up ds hd'
      obtain ⟨o2, -, h2, -⟩ := hS.up _ hd
      obtain ⟨l, g1, g2, -⟩ := back_opendir hT hr h0 (sub hd') h1 hns
      rw [hB] at g1; cases g1
      have hm : m ∈ names := (g2 m).mpr (.inr (.inr ((ht.child h1 hns).mpr ⟨sub hd m (by simp), by rw [h2]; simp⟩)))
      obtain ⟨k, hk⟩ := List.getElem?_of_mem hm
      refine ⟨k, o2.stat, hk, ?_⟩
      rw [← FS.backendPath_ne (by simp)]; exact back_there hT hr h0 (sub hd) h2 k
    · rw [ha] at hl; cases hl
  · refine ⟨fun ds k hd hne => ?_, fun ds m names e hd hB => absurd hB (gone_opendir hG), fun ds a hd ha hl => ?_⟩
    · right; rw [← FS.backendPath_ne hne]; exact gone_lstat hr h0 hG (sub hd) k
    · rw [ha] at hl; cases hl

/-- An entry of the directory is on the host as it was. -/
theorem DirNow.entry {B : Backend} (h : DirNow root T cs B) {n : Bytes} (hn : Plain n) {o : Obj} (ho : T (cs ++ [n]) = some o) :
    ∃ o', o'.stat = o.stat ∧ HostNow root (cs ++ [n]) o' B := by
  obtain ⟨H, rfl, h⟩ := h
  rcases h with ⟨T', ht, hw, hT, hS⟩ | hG
  · have := hS.same n hn
    rw [ho] at this
    cases ho' : T' (cs ++ [n]) with
    | none => rw [ho'] at this; cases this
    | some o' =>
      rw [ho'] at this
      refine ⟨o', Option.some.inj this, H, rfl, .inl ⟨T', ht, hT, ho', fun ds hd hne => ?_, fun hl => hw.link ho' hl⟩⟩
      rcases List.prefix_concat_iff.mp hd with rfl | hd
      · exact absurd rfl hne
      · exact hS.up ds hd
  · exact ⟨o, rfl, H, rfl, .inr hG⟩

/-- What the host names is in the tree. -/
theorem DirNow.said {B : Backend} (hr : root ≠ []) (h0 : (0 : UInt8) ∉ root) (hcs : ∀ c ∈ cs, Plain c) (h : DirNow root T cs B) {n : Bytes} (hn : Plain n) {k : Nat} {sr : BStat}
    (hl : B.lstat k (pathStr (cs ++ [n])) = .ok sr) : ∃ o, T (cs ++ [n]) = some o ∧ o.stat = sr := by
  obtain ⟨H, rfl, h⟩ := h
  rw [← FS.backendPath_ne (by simp)] at hl
  rcases h with ⟨T', -, -, hT, hS⟩ | hG
  · obtain ⟨o', h1, h2⟩ := sm_eq hr h0 (plain_snoc hcs hn) ⟨H, k, hT, hl⟩
    have := hS.same n hn
    rw [h1] at this
    cases ho : T (cs ++ [n]) with
    | none => rw [ho] at this; cases this
    | some o =>
      rw [ho] at this
      exact ⟨o, rfl, by rw [← h2]; exact (Option.some.inj this).symm⟩
  · rw [gone_lstat hr h0 hG (plain_snoc hcs hn) k] at hl; cases hl

theorem abs_dir (hr : root ≠ []) (h0 : (0 : UInt8) ∉ root) (hcs : ∀ c ∈ cs, Plain c) {B : Backend} {rq rep} (h : Abs B d s r rq rep s' r') (hI : SI s d r)
    (hi : rq.inRange) (hd : rq.onDir d) (hn : s.next + 1 < W64) (hn2 : ∀ p names e, B.opendir p = .ok (names, e) → s.next + names.length + 1 < W64)
    (hl : rq.onLink d) (hB : DirNow root T cs B) {l0 J} (hs : DirOK T cs dir l0 J s) : DirOK T cs dir l0 J s' := by
  obtain ⟨r1, e⟩ := abs_eff h hI hi hd hn
  have ok' := e.ok hI.ok
  have hne : ∀ {fs : List Bytes}, (∀ c ∈ fs, Plain c) → ∀ c ∈ fs, c ≠ [] := fun h c hc => (h c hc).1.1
  -- the directory itself
  have holds : Holds (fun _ a => fmt a.mode = S_IFDIR) cs s := by
    obtain ⟨nd, h1, h2⟩ := hs.isDir
    have := holds_along (P := fun a => fmt a.mode = S_IFDIR) hI.ok hI.wf hs.path h1 h2
    refine ⟨this.1, fun ds k x g1 g2 g3 => ?_⟩
    have := this.2 ds k x g1 g2 g3
    unfold along at this
    split at this <;> exact this
  have hst := abs_stay h hI ok' hi hd hl hn hn2 (dir_confirms hr h0 hcs hB) (hne hcs) (fun _ a b h1 h2 => h1.trans h2.symm) holds
  have hp' := hst.1 _ _ (List.prefix_refl _) hs.path
  have hdir' : s'.IsDir dir := by
    obtain ⟨nd, hnd⟩ := conn_exists ok' ⟨_, hp'⟩
    exact ⟨nd, hnd, hst.2.2 _ _ _ (List.prefix_refl _) hp' hnd⟩
  refine ⟨hp', hdir', fun nd' hnd' => ?_, fun n o hpl hlen ho => ?_, fun n j hpl hj => ?_⟩
  · obtain ⟨x, hx, -⟩ := hs.isDir
    obtain ⟨y, g1, g2⟩ := e.loc_back hI.ok (hI.ok.bound dir x hx).2 hnd'
    rw [hx] at g1; cases g1
    have hx0 := hs.loc x hx
    cases hl' : nd'.loc with
    | some l => rw [← hx0]; exact (g2 l hl').symm
    | none =>
      generalize hc : cs = es at hp'
      cases hp' with
      | root =>
        obtain ⟨y, k1, -, k3⟩ := hI.ok.root
        rw [hx] at k1; cases k1
        rw [← hx0]; exact k3.symm
      | child hat _ =>
        obtain ⟨y, k1, k2⟩ := hat
        rw [hnd'] at k1; cases k1
        rw [hl'] at k2; cases k2
  · obtain ⟨nd, g1, g2, g3⟩ := hs.all n o hpl hlen ho
    obtain ⟨o', e1, hnow⟩ := hB.entry hpl ho
    have hpn := plain_snoc hcs hpl
    have hpath : s.PathTo (J n) (cs ++ [n]) := .child ⟨nd, g1, g2⟩ hs.path
    have hst := abs_stay h hI ok' hi hd hl hn hn2 (hnow.confirms hr h0 hpn (by simp)) (hne hpn) (typed_along (by rintro a b rfl rfl; rfl))
      (holds_along hI.ok hI.wf hpath g1 (by rw [g3, e1]))
    have hpn' := hst.1 _ _ (List.prefix_refl _) hpath
    obtain ⟨p, k1, nd', k2, k3⟩ := hpn'.snoc
    obtain rfl := PathTo.inj ok' k1 hp'
    have := hst.2.2 _ _ _ (List.prefix_refl _) hpn' k2
    unfold along at this
    rw [if_pos rfl, e1] at this
    exact ⟨nd', k2, k3, this⟩
  · rcases abs_back h hI.ok hj with h1 | ⟨es, k, base, sr, h1, h2, h3⟩
    · exact hs.only n j hpl h1
    · obtain rfl := PathTo.unique hI.ok h1 hs.path
      have : base = pathStr (es ++ [n]) := by
        rcases h3 with h3 | h3
        · exact h3
        · rw [h3]; exact entryPath_eq (hne hcs)
      rw [this] at h2
      obtain ⟨o, ho, -⟩ := hB.said hr h0 hcs hpl h2
      rw [ho]; simp

/-- The same for the databases. -/
def DirDB (T : HTree) (cs : List Bytes) (dir : Ino) (l0 : Option (Ino × Bytes)) (J : Bytes → Ino) (d : DB) : Prop :=
  ∃ s, Rep s d ∧ s.OK ∧ s.WF ∧ DirOK T cs dir l0 J s

theorem DirDB.right {l0 J} (h : DirDB T cs dir l0 J d) : DirRight T cs dir d ∧ (∀ n, Plain n → n.length ≤ 503 → T (cs ++ [n]) ≠ none → Cache.lookup d dir n = .ok (.ok (J n))) ∧
    ∀ n j, Plain n → Cache.lookup d dir n = .ok (.ok j) → j = J n := by
  obtain ⟨s, h1, h2, h3, h4⟩ := h
  exact h4.right h1 h2 h3

/-- The databases since the directory was right. -/
theorem dir_versions (hr : root ≠ []) (h0 : (0 : UInt8) ∉ root) (hcs : ∀ c ∈ cs, Plain c) {m m' : MSys} (h : MReach m) (hl : DirSteps root T cs m m') {l0 J}
    (hd : DirDB T cs dir l0 J m.w.disk) : ∃ d0 r0 n L H vs R ds s, Steps (MSys.start d0 r0 n) m' ∧ MInv d0 r0 m' L H vs R ds ∧ RInv m' R ds s ∧ PInv (fun _ => True) ds m'.hist ∧
      m.hist.length ≤ m'.hist.length ∧ ∀ k d, m.hist.length ≤ k → ds[k]? = some d → DirDB T cs dir l0 J d := by
  induction hl with
  | refl =>
    obtain ⟨d0, r0, n, L, H, vs, R, ds, s, hst, hM, hR, hP⟩ := h.any.inv kept_true
    refine ⟨d0, r0, n, L, H, vs, R, ds, s, hst, hM, hR, hP, Nat.le_refl _, fun k d hk hdk => ?_⟩
    have hlen := hM.one.length
    have hlt := (List.getElem?_eq_some_iff.mp hdk).1
    have hlast := hM.last
    rw [List.getLast?_eq_getElem?, hlen] at hlast
    have : k = m.hist.length := by omega
    subst this
    rw [show m.hist.length + 1 - 1 = m.hist.length by omega, hdk] at hlast
    cases hlast; exact hd
  | @step m1 m2 k _ hs hp hroom hq ih =>
    obtain ⟨d0, r0, n, L, H, vs, R, ds, s, hst, hM, hR, hP, hle, hv⟩ := ih
    obtain ⟨L', H', vs', R', ds', hM', hRR⟩ := hM.step hs
    obtain ⟨s', hR'⟩ := hR.step hM hM' hRR hs hp hroom
    have hP' := hP.step kept_true hM hR hM' hs (fun _ _ => trivial)
    rcases step_hist hs with he | ⟨x, q, hk, he, hx⟩
    · have h1 := hM'.one
      rw [he] at h1
      obtain ⟨rfl, -⟩ := hM.one.det h1
      exact ⟨d0, r0, n, L', H', vs', R', ds', s', .step hst hs, hM', hR', hP', by rw [he]; exact hle, hv⟩
    · refine ⟨d0, r0, n, L', H', vs', R', ds', s', .step hst hs, hM', hR', hP', by rw [he, List.length_append]; omega, fun j d hj hdj => ?_⟩
      have h1 := hM'.one
      have hlen' := h1.length
      rw [he] at h1 hlen'
      obtain ⟨ds1, r1, d1, d2, st, g1, -, -, -, -, -, -, rfl⟩ := h1.snoc_inv
      obtain ⟨rfl, -⟩ := hM.one.det g1
      have hlen := hM.one.length
      have hlast := hM.last
      rw [List.getLast?_eq_getElem?, hlen, show m1.hist.length + 1 - 1 = m1.hist.length by omega] at hlast
      by_cases hjl : j < ds1.length
      · rw [List.getElem?_append_left hjl] at hdj; exact hv j d hj hdj
      have hlt := (List.getElem?_eq_some_iff.mp hdj).1
      rw [List.length_append, List.length_singleton] at hlt
      have hjj : j = m1.hist.length + 1 := by omega
      subst hjj
      have hkq : m2.hist[m1.hist.length]? = some q := by rw [he]; simp
      have hbefore := hv _ _ hle hlast
      cases hro : readOnly q.rq with
      | true =>
        have := hM'.one.ro_same hkq hro
        rw [hdj, List.getElem?_append_left (by omega), hlast] at this
        cases this; exact hbefore
      | false =>
        obtain ⟨e', e2, f1, f2, f3⟩ := hP'.saw _ q hkq
        unfold seen at f1
        rw [hro, if_neg (by simp), List.getElem?_append_left (by omega), hlast] at f1; cases f1
        rw [hdj] at f2; cases f2
        cases f3 with
        | @wrote s2 r2 s3 r3 _ k1 _ hin hon hnx hnx2 k3 k4 =>
          obtain ⟨s4, a1, a2, a3, a4⟩ := hbefore
          obtain rfl := Rep.inj k1.rep k1.ok a1 a2
          obtain ⟨b1, b2⟩ := hq q he
          exact ⟨s3, k3.rep, k3.ok, k3.wf, abs_dir hr h0 hcs k4 k1 hin hon hnx hnx2 b2 b1 a4⟩
        | read h1 => rw [hro] at h1; cases h1

theorem DirSteps.stays {m m' : MSys} (h : DirSteps root T cs m m') : DirStays root T cs m m' := by
  induction h with
  | refl => exact .refl
  | step _ hs hp hr hq ih => exact .step ih hs hp hr hq

theorem DirSteps.reach {m m' : MSys} (h : DirSteps root T cs m m') (hm : MReach m) : MReach m' := by
  induction h with
  | refl => exact hm
  | step _ h1 h2 h3 _ ih => exact .step ih h1 h2 h3

theorem DirStays.reach {m m' : MSys} (h : DirStays root T cs m m') (hm : MReach m) : MReach m' := by
  induction h with
  | refl => exact hm
  | step _ h1 h2 h3 _ ih => exact .step ih h1 h2 h3
  | crash _ h1 h2 ih => exact .remount ih h1 h2

theorem reach_tree {m : MSys} (h : MReach m) : ∃ s, Rep s m.w.disk ∧ s.OK ∧ s.WF := by
  obtain ⟨d0, r0, n, L, H, vs, R, ds, s, hst, hM, hR, hP⟩ := h.any.inv kept_true
  exact ⟨s, hR.si.rep, hR.si.ok, hR.si.wf⟩

theorem dirDB_of {m : MSys} (h : MReach m) (hb : dir < W64) (hcs : ∀ c ∈ cs, Plain c) (hd : DirRight T cs dir m.w.disk) : ∃ l0 J, DirDB T cs dir l0 J m.w.disk := by
  obtain ⟨s, h1, h2, h3⟩ := reach_tree h
  obtain ⟨l0, J, h4, -⟩ := dirOK_of h1 h2 h3 hb hcs hd
  exact ⟨l0, J, s, h1, h2, h3, h4⟩

/-! ### Theorems -/

/-- C94: a directory is opened while the host is connected and has it: the request is answered that it is open, and what
is cached of it is then what the host has, whatever was cached before and from which hosts. -/
theorem C94_open (ht : Local.Tree T) (hr : root ≠ []) (h0 : (0 : UInt8) ∉ root) (hcs : ∀ c ∈ cs, Plain c) {m m' : MSys} {k : Nat} (h : MReach m) (hs : Step m k m') (hp : Proper m k m') (hroom : Room m'.w)
    {q : Done} (hq : m'.hist = m.hist ++ [q]) (hrq : q.rq = .opendir dir) (hb : dir < W64) (hpath : Cache.path m.w.disk dir = .ok (.ok (pathStr cs)))
    (hH : ∃ H, q.B = backend root H ∧ Has root H T) (hT : DirAt T cs) :
    q.rep = .opened ∧ DirRight T cs dir m'.w.disk ∧ testFlag m'.w.disk dir SYNCED = .ok true := by
  have hR := step_right h hs hp hroom hq (by rw [hrq]; rfl)
  rw [hrq] at hR
  obtain ⟨H, hB, hH⟩ := hH
  obtain ⟨o, ns, h1, hns, hod⟩ := hT cs (List.prefix_refl _)
  obtain ⟨l, b1, b2, -⟩ := back_opendir hH hr h0 hcs h1 hns
  obtain ⟨g1, g2, g3, g4⟩ := (hR.2 _ hpath).1 l 0 (by rw [hB]; exact b1)
  refine ⟨g1, ?_, g2⟩
  have hne : ∀ c ∈ cs, c ≠ [] := fun c hc => (hcs c hc).1.1
  -- the directory stays where it is
  have hnow : Confirms q.B (fun _ a => fmt a.mode = S_IFDIR) cs := by
    rw [hB]
    refine ⟨fun ds k hd hne' => ?_, fun ds m names e hd hB' => ?_, fun ds a hd ha hl => by rw [ha] at hl; cases hl⟩
    · obtain ⟨o, ns, h1, -, h2⟩ := hT ds hd
      refine .inl ⟨o.stat, ?_, h2⟩
      rw [← FS.backendPath_ne hne']; exact back_there hH hr h0 (fun c hc => hcs c (hd.subset hc)) h1 k
    · have hd' : ds <+: cs := List.IsPrefix.trans (List.prefix_append _ _) hd
      obtain ⟨o, ns, h1, hns, -⟩ := hT ds hd'
      obtain ⟨o2, -, h2, -⟩ := hT _ hd
      obtain ⟨l, g1, g2, -⟩ := back_opendir hH hr h0 (fun c hc => hcs c (hd'.subset hc)) h1 hns
      rw [hB'] at g1; cases g1
      have hm : m ∈ names := (g2 m).mpr (.inr (.inr ((ht.child h1 hns).mpr ⟨hcs m (hd.subset (by simp)), by rw [h2]; simp⟩)))
      obtain ⟨k, hk⟩ := List.getElem?_of_mem hm
      refine ⟨k, o2.stat, hk, ?_⟩
      rw [← FS.backendPath_ne (by simp)]; exact back_there hH hr h0 (fun c hc => hcs c (hd.subset hc)) h2 k
  obtain ⟨s', c1, c2, c3, c4⟩ : ∃ s', Rep s' m'.w.disk ∧ s'.OK ∧ s'.WF ∧ ∃ nd, s'.PathTo dir cs ∧ s'.nodes dir = some nd ∧ fmt nd.attr.mode = S_IFDIR := by
    rcases step_inv' h hs hp hroom with ⟨-, e⟩ | ⟨d0, r0, L, H, vs, R, ds, s, q', hM, hR, hPI, e1, e2, e3⟩
    · rw [e] at hq
      have := congrArg List.length hq; simp at this
    · rw [hq] at e1
      obtain rfl : q = q' := by simpa using e1
      have hk : m'.hist[m.hist.length]? = some q := by rw [hq]; simp
      obtain ⟨d, d', f1, f2, f3⟩ := hPI.saw _ _ hk
      unfold seen at f1
      rw [hrq, if_neg (by simp [readOnly]), e2] at f1; cases f1
      rw [e3] at f2; cases f2
      cases f3 with
      | @wrote s2 r2 s3 r3 _ k1 _ hin hon hnx hnx2 k3 k4 =>
        rw [hrq] at k4 hin hon
        have hpt := path_comps k1 hb (fun c hc => (hcs c hc).1) hpath
        obtain ⟨nd, hnd⟩ := conn_exists k1.ok ⟨_, hpt⟩
        have hdir := isDir_of k1 hb hon hnd
        have holds : Holds (fun _ a => fmt a.mode = S_IFDIR) cs s2 := by
          obtain ⟨x, h1, h2⟩ := hdir
          have := holds_along (P := fun a => fmt a.mode = S_IFDIR) k1.ok k1.wf hpt h1 h2
          refine ⟨this.1, fun ds k x g1 g2 g3 => ?_⟩
          have := this.2 ds k x g1 g2 g3
          unfold along at this
          split at this <;> exact this
        have hst := abs_stay k4 k1 k3.ok hin hon trivial hnx hnx2 hnow hne (fun _ a b h1 h2 => h1.trans h2.symm) holds
        have hp' := hst.1 _ _ (List.prefix_refl _) hpt
        obtain ⟨x, hx⟩ := conn_exists k3.ok ⟨_, hp'⟩
        exact ⟨s3, k3.rep, k3.ok, k3.wf, x, hp', hx, hst.2.2 _ _ _ (List.prefix_refl _) hp' hx⟩
      | read h1 => rw [hrq] at h1; cases h1
  obtain ⟨nd, c5, c6, c7⟩ := c4
  have said : ∀ n, Plain n → ∀ {k sr}, q.B.lstat k (entryPath (backendPath (pathStr cs)) n) = .ok sr → ∃ o, T (cs ++ [n]) = some o ∧ o.stat = sr := by
    intro n hn k sr hl
    rw [entryPath_eq hne, hB, ← FS.backendPath_ne (by simp)] at hl
    exact sm_eq hr h0 (plain_snoc hcs hn) ⟨H, k, hH, hl⟩
  refine ⟨c1.path_found c2 c5, ⟨_, getattr_some (si_empty c1 c2 c3) c6, c7⟩, fun n hn hlen => ⟨?_, fun hTn => ?_⟩, fun n j o hn hj ho => ?_⟩
  · rintro ⟨j, hj⟩
    obtain ⟨-, sr, ⟨k, -, hk, -⟩, -⟩ := g3 n j hj
    obtain ⟨o, ho, -⟩ := said n hn hk
    rw [ho]; simp
  · cases ho : T (cs ++ [n]) with
    | none => exact absurd ho hTn
    | some o =>
      refine g4 n o.stat ⟨hlen, hn.2.2.2, hn.1.2⟩ (seen_const ((b2 n).mpr (.inr (.inr ((ht.child h1 hns).mpr ⟨hn, hTn⟩)))) (fun k => ?_))
      rw [entryPath_eq hne, hB, ← FS.backendPath_ne (by simp)]
      exact back_there hH hr h0 (plain_snoc hcs hn) ho k
  · obtain ⟨-, sr, ⟨k, -, hk, -⟩, g5⟩ := g3 n j hj
    obtain ⟨o', ho', e⟩ := said n hn hk
    rw [ho] at ho'; cases ho'
    rw [g5, e]

/-- C94: and so it stays, with the same inode numbers, as long as the directory stays as it is on the host. -/
theorem C94_kept (hr : root ≠ []) (h0 : (0 : UInt8) ∉ root) (hcs : ∀ c ∈ cs, Plain c) {m m' : MSys} (h : MReach m) (hb : dir < W64) (hl : DirStays root T cs m m') (hd : DirRight T cs dir m.w.disk) :
    DirRight T cs dir m'.w.disk ∧ ∀ n j, Plain n → (Cache.lookup m'.w.disk dir n = .ok (.ok j) ↔ Cache.lookup m.w.disk dir n = .ok (.ok j)) := by
  induction hl with
  | refl => exact ⟨hd, fun n j _ => Iff.rfl⟩
  | @step m1 m2 k h1 hs hp hroom hq ih =>
    obtain ⟨d1, i1⟩ := ih
    obtain ⟨l0, J, hdb⟩ := dirDB_of (h1.reach h) hb hcs d1
    obtain ⟨d0, r0, n, L, H, vs, R, ds, s, -, hM, -, -, hle, hv⟩ := dir_versions hr h0 hcs (h1.reach h) (.step .refl hs hp hroom hq) hdb
    have hlast := hM.last
    rw [List.getLast?_eq_getElem?, hM.one.length, show m2.hist.length + 1 - 1 = m2.hist.length by omega] at hlast
    obtain ⟨g1, g2, g3⟩ := (hv _ _ hle hlast).right
    obtain ⟨f1, f2, f3⟩ := hdb.right
    refine ⟨g1, fun n j hn => Iff.trans ?_ (i1 n j hn)⟩
    have short : ∀ {m : MSys}, MReach m → Cache.lookup m.w.disk dir n = .ok (.ok j) → n.length ≤ 503 := by
      intro m hm hj
      obtain ⟨s, a1, a2, a3⟩ := reach_tree hm
      obtain ⟨x, h1, h2⟩ := (a1.lookup_iff a2 hb).mp hj
      exact (a2.loc j x dir n h1 h2).2.2.1
    constructor
    · intro hj
      have hlen := short (.step (h1.reach h) hs hp hroom) hj
      rw [g3 n j hn hj]
      exact f2 n hn hlen ((g1.names n hn hlen).mp ⟨j, hj⟩)
    · intro hj
      have hlen := short (h1.reach h) hj
      rw [f3 n j hn hj]
      exact g2 n hn hlen ((f1.names n hn hlen).mp ⟨j, hj⟩)
  | @crash m1 uid gid now d r nt h1 ho hroom ih =>
    obtain ⟨d1, i1⟩ := ih
    obtain ⟨_, _, _, _, _, d', r', -, -, -, g1, -, -, -, g5⟩ := C85_crash (h1.reach h) uid gid now
    rw [ho] at g1; cases g1
    obtain ⟨k1, k2, k3, k4, k5⟩ := g5 dir _ hb d1.path
    obtain ⟨s, a1, a2, a3⟩ := reach_tree (h1.reach h)
    have hpt := path_comps (si_empty a1 a2 a3) hb (fun c hc => (hcs c hc).1) d1.path
    refine ⟨⟨k1, by show ∃ a, Cache.getattr d dir = _ ∧ _; rw [k2]; exact d1.isDir, fun n hn hlen => ?_, fun n j o hn hj ho' => ?_⟩, fun n j hn => (k5 n j).trans (i1 n j hn)⟩
    · rw [← d1.names n hn hlen]
      exact ⟨fun ⟨j, hj⟩ => ⟨j, (k5 n j).mp hj⟩, fun ⟨j, hj⟩ => ⟨j, (k5 n j).mpr hj⟩⟩
    · have hj' := (k5 n j).mp hj
      have hat := (a1.lookup_iff a2 hb).mp hj'
      obtain ⟨nd, hnd, -⟩ := id hat
      show Cache.getattr d j = _
      rw [(g5 j _ (OK.lt a2 hnd) (a1.path_found a2 (.child hat hpt))).2.1]
      exact d1.attr n j o hn hj' ho'

/-- C94: a name is looked up in a directory which was opened and has not changed since: the answer is right, and is the same whether the
host is connected or not. -/
theorem C94_lookup (hr : root ≠ []) (h0 : (0 : UInt8) ∉ root) (hcs : ∀ c ∈ cs, Plain c) {m m' : MSys} {k : Nat} (h : MReach m) (hs : Step m k m') (hp : Proper m k m') (hroom : Room m'.w)
    {q : Done} (hq : m'.hist = m.hist ++ [q]) {n : Bytes} (hn : Plain n) (hlen : n.length ≤ 503) (hrq : q.rq = .lookup dir n) (hb : dir < W64) (hd : DirRight T cs dir m.w.disk)
    (hnow : DirNow root T cs q.B) : LookupNow root T cs dir n m.w.disk q.B q.rep := by
  have hR := step_right h hs hp hroom hq (by rw [hrq]; rfl)
  rw [hrq] at hR
  obtain ⟨g1, g2, g3⟩ := hR.2 _ hd.path
  rw [pathStr_snoc'] at g1 g2 g3
  have hgood : GoodName n := ⟨hlen, hn.2.2.2, hn.1.2⟩
  obtain ⟨-, same⟩ := C94_kept hr h0 hcs h hb (.step .refl hs hp hroom (fun q' hq' => by
    rw [hq] at hq'
    obtain rfl : q = q' := by simpa using hq'
    exact ⟨hnow, by rw [hrq]; trivial⟩)) hd
  have hne : cs ++ [n] ≠ [] := by simp
  cases hl : q.B.lstat 0 (pathStr (cs ++ [n])) with
  | ok sr =>
    obtain ⟨o, ho, rfl⟩ := hnow.said hr h0 hcs hn hl
    have := g1 _ hl
    rw [if_pos hgood] at this
    obtain ⟨i, e1, -, e2, -⟩ := this
    rw [e1]
    exact ⟨(same n i hn).mp e2, o, ho, shows_osStat i o.stat o.stat.size⟩
  | error e =>
    obtain ⟨H, hB, hH⟩ := hnow
    by_cases he : e = ENOTCONN
    · subst he
      obtain ⟨k1, k2⟩ := g2 hl
      cases hT : T (cs ++ [n]) with
      | some o =>
        obtain ⟨j, hj⟩ := (hd.names n hn hlen).mpr (by rw [hT]; simp)
        obtain ⟨a, e1, e2⟩ := k1 j hj
        have := hd.attr n j o hn hj hT
        rw [e1] at this
        have := congrArg Prod.snd (Except.ok.inj this)
        simp only at this
        subst this
        rw [e2]
        exact ⟨hj, o, hT, shows_osStat j o.stat o.stat.size⟩
      | none =>
        have hno : ∀ i, Cache.lookup m.w.disk dir n ≠ .ok (.ok i) := fun i hi => (hd.names n hn hlen).mp ⟨i, hi⟩ hT
        rw [k2 hno, if_neg (by omega)]
        refine ⟨hT, ?_⟩
        by_cases hf : testFlag m.w.disk dir SYNCED = .ok true
        · rw [if_pos hf]; exact .inl (.inl rfl)
        · rw [if_neg hf]
          refine .inr (⟨rfl, hf, H, hB, ?_⟩)
          rcases hH with ⟨T', ht, hw, hT', hS⟩ | hG
          · exfalso
            rw [hB, ← FS.backendPath_ne hne] at hl
            cases hx : T' (cs ++ [n]) with
            | some o => rw [back_there hT' hr h0 (plain_snoc hcs hn) hx 0] at hl; cases hl
            | none =>
              obtain ⟨e, h1, h2⟩ := back_absent hT' hr h0 (plain_snoc hcs hn) hx 0
              rw [h1] at hl; cases hl
              exact absurd rfl h2.conn
          · exact hG
    · rw [(g3 e hl he).1]
      rw [hB, ← FS.backendPath_ne hne] at hl
      rcases hH with ⟨T', ht, hw, hT', hS⟩ | hG
      · have hsame := hS.same n hn
        cases hx : T' (cs ++ [n]) with
        | some o => rw [back_there hT' hr h0 (plain_snoc hcs hn) hx 0] at hl; cases hl
        | none =>
          obtain ⟨e', h1, h2⟩ := back_absent hT' hr h0 (plain_snoc hcs hn) hx 0
          rw [h1] at hl; cases hl
          rw [hx] at hsame
          refine ⟨?_, .inl h2⟩
          cases hT : T (cs ++ [n]) with
          | none => rfl
          | some o => rw [hT] at hsame; cases hsame
      · rw [gone_lstat hr h0 hG (plain_snoc hcs hn) 0] at hl; cases hl; exact absurd rfl he

/-- C94: the directory is listed, in any number of pages, each read from the databases since it was right: the
listing is complete and right. -/
theorem C94_listing (hr : root ≠ []) (h0 : (0 : UInt8) ∉ root) (hcs : ∀ c ∈ cs, Plain c) {m m' : MSys} (h : MReach m) (hb : dir < W64) (hd : DirRight T cs dir m.w.disk)
    (hl : DirSteps root T cs m m') {ks : List Nat} {l : List DEnt} (hks : Since m'.hist m.hist.length ks) (hL : Listing m'.hist dir 0 ks l) : ListsAll T cs l := by
  obtain ⟨l0, J, hdb⟩ := dirDB_of h hb hcs hd
  obtain ⟨d0, r0, n, L, H, vs, R, ds, s, -, hM, hR, hP, hle, hv⟩ := dir_versions hr h0 hcs h hl hdb
  have tree : ∀ d ∈ ds, ∃ s : Cache.Tree, Rep s d ∧ s.OK ∧ s.WF := by
    intro d hd
    obtain ⟨⟨s2, hold⟩, -⟩ := hR.old d hd
    exact ⟨s2, hold.rep, hold.ok, hold.wf⟩
  -- the databases which the pages saw
  have sees : ∀ {k}, k ∈ ks → ∃ q d, m'.hist[k]? = some q ∧ readOnly q.rq = true ∧ m.hist.length ≤ q.ver ∧ q.ver ≤ k ∧ ds[q.ver]? = some d ∧ seen ds k q = some d ∧ DirDB T cs dir l0 J d := by
    intro k hk
    obtain ⟨q, h1, h2⟩ := listing_ro hL k hk
    obtain ⟨d1, d2, h3, -, -⟩ := hP.saw k q h1
    have h4 := h3
    unfold seen at h4
    rw [h2, if_pos rfl] at h4
    exact ⟨q, d1, h1, h2, hks k hk q h1, hM.one.ver_le h1 h2, h4, h3, hv _ _ (hks k hk q h1) h4⟩
  -- the parent
  obtain ⟨s0, a1, a2, a3, a4⟩ := hdb
  obtain ⟨nd, hnd, -⟩ := a4.isDir
  have hd0 : dir ≠ 0 := by
    rintro rfl
    exact absurd (a2.bound 0 nd hnd).1 (Nat.lt_irrefl 0)
  obtain ⟨p, hp0, hpar⟩ : ∃ p, p ≠ 0 ∧ ∀ {e}, DirDB T cs dir l0 J e → Cache.parent e dir = .ok p := by
    by_cases hroot : dir = ROOT
    · refine ⟨ROOT, by decide, ?_⟩
      rintro e ⟨s1, b1, b2, b3, b4⟩
      rw [b1.parent b2 hb, if_pos hroot]
    · have hl0 : ∃ p n, l0 = some (p, n) := by
        have := a4.path
        generalize hc : cs = es at this
        cases this with
        | root => exact absurd rfl hroot
        | @child q m _ _ hat _ =>
          obtain ⟨x, k1, k2⟩ := hat
          exact ⟨q, m, by rw [← a4.loc x k1]; exact k2⟩
      obtain ⟨p, m0, rfl⟩ := hl0
      refine ⟨p, Nat.pos_iff_ne_zero.mp (a2.loc dir nd p m0 hnd (a4.loc nd hnd)).1, ?_⟩
      rintro e ⟨s1, b1, b2, b3, b4⟩
      obtain ⟨x, hx, -⟩ := b4.isDir
      rw [b1.parent b2 hb, if_neg hroot, hx]
      show Except.ok x.par = _
      unfold Cache.Node.par
      rw [b4.loc x hx]
  have hat : ∀ k ∈ ks, SeesAt ds m'.hist k dir p := by
    intro k hk
    obtain ⟨q, e, h1, -, -, -, -, h4, h5⟩ := sees hk
    exact ⟨q, e, h1, h4, hpar h5⟩
  obtain ⟨es, g1, g2, g3, g4⟩ := listing_right hP tree hb hd0 hp0 hat hL
  have attr : ∀ e ∈ l, Plain e.name → e.stat.ino = J e.name ∧ ∃ o, T (cs ++ [e.name]) = some o ∧ Shows e.stat o.stat o.stat.size := by
    intro e he hpl
    obtain ⟨k, hk, q, size, off, pg, h1, h2, h3⟩ := listing_page hL e he
    obtain ⟨q', d1, h4, -, -, -, -, h8, h9⟩ := sees hk
    rw [h1] at h4; cases h4
    obtain ⟨d2, d3, c1, -, c2⟩ := hP.saw k q h1
    rw [h8] at c1; cases c1
    obtain ⟨r1, r2, r3⟩ := h9.right
    have hlisted : Listed d1 dir e := by
      have hR := saw_right c2
      cases h2 with
      | rd x1 x2 =>
        rw [x1, x2] at hR
        rcases hR _ r1.path with ⟨l', n', y1, y2⟩ | ⟨y1, -⟩
        · cases y1; exact y2 e h3
        · cases y1
      | plus x1 x2 =>
        rw [x1, x2] at hR
        obtain ⟨l', n', y1, y2⟩ := hR _ r1.path
        cases y1; exact y2 e h3
    rcases hlisted with h | h | ⟨h5, a, h6, h7⟩
    · exact absurd h hpl.2.1
    · exact absurd h hpl.2.2.1
    have hT : T (cs ++ [e.name]) ≠ none := by
      obtain ⟨s1, b1, b2, b3, b4⟩ := h9
      exact b4.only _ _ hpl ((b1.lookup_iff b2 hb).mp h5)
    cases ho : T (cs ++ [e.name]) with
    | none => exact absurd ho hT
    | some o =>
      have := r1.attr _ _ o hpl h5 ho
      rw [h6] at this
      have := congrArg Prod.snd (Except.ok.inj this)
      simp only at this
      subst this
      exact ⟨r3 _ _ hpl h5, o, rfl, by rw [h7]; exact shows_osStat _ o.stat o.stat.size⟩
  refine ⟨fun n hn hlen => ⟨?_, fun hT => ?_⟩, fun e he hpl => (attr e he hpl).2, fun n hn => ?_⟩
  · rintro ⟨e, he, rfl⟩
    obtain ⟨-, o, ho, -⟩ := attr e he hn
    rw [ho]; simp
  · have hin : (J n, n) ∈ es := by
      refine g3 (J n) n (fun k hk q d1 d2 h1 h2 h3 => ?_)
      obtain ⟨q', d1', c1, -, c3, c4, -, c6, c7⟩ := sees hk
      rw [h1] at c1; cases c1
      rw [h2] at c6; cases c6
      exact ⟨c7.right.2.1 n hn hlen hT, (hv _ _ (by omega) h3).right.2.1 n hn hlen hT⟩
    have : (J n, n) ∈ l.map (fun e => (e.stat.ino, e.name)) := by rw [g1]; exact List.mem_append_right _ hin
    obtain ⟨e, he, hx⟩ := List.mem_map.mp this
    exact ⟨e, he, congrArg Prod.snd hx⟩
  · -- all with this name have the same inode
    have same : ∀ x ∈ es, x.2 = n → x.1 = J n := by
      intro x hx hxn
      obtain ⟨e, he, hxe⟩ := List.mem_map.mp (show x ∈ l.map (fun e => (e.stat.ino, e.name)) by rw [g1]; exact List.mem_append_right _ hx)
      subst hxe
      simp only at hxn
      subst hxn
      exact (attr e he hn).1
    have hmap : l.map DEnt.name = ((dir, [0x2e]) :: (if dir = 1 then [] else [(p, [0x2e, 0x2e])]) ++ es).map Prod.snd := by
      rw [← g1, List.map_map]; rfl
    rw [hmap, List.map_append, List.count_append]
    have h1 : List.count n (((dir, [0x2e]) :: (if dir = 1 then [] else [(p, [0x2e, 0x2e])])).map Prod.snd) = 0 := by
      rw [List.count_eq_zero]
      intro hm
      rw [List.map_cons] at hm
      rcases List.mem_cons.mp hm with h | h
      · exact hn.2.1 h
      · split at h
        · cases h
        · exact hn.2.2.1 (List.mem_singleton.mp h)
    have h2 : List.count n (es.map Prod.snd) ≤ List.count (J n) (es.map Prod.fst) := by
      clear g1 g3 g4 hmap g2
      induction es with
      | nil => simp
      | cons x es ih =>
        have := ih (fun y hy => same y (by simp [hy]))
        rw [List.map_cons, List.map_cons, List.count_cons, List.count_cons]
        by_cases hxn : x.2 = n
        · have := same x (by simp) hxn
          simp only [hxn, this, beq_self_eq_true, if_true]; omega
        · rw [if_neg (by simpa using hxn)]; omega
    have h3 := List.nodup_iff_count.mp g2 (J n)
    omega

/-- C94 from the beginning: a directory is opened; then the process may die and start again, the connection may come and go,
and anything may change elsewhere; a listing in the process which runs then is complete and right. -/
theorem C94_ls (ht : Local.Tree T) (hr : root ≠ []) (h0 : (0 : UInt8) ∉ root) (hcs : ∀ c ∈ cs, Plain c) {m1 m2 m3 m4 : MSys} {k : Nat} (h : MReach m1) (hs : Step m1 k m2) (hp : Proper m1 k m2) (hroom : Room m2.w)
    {q : Done} (hq : m2.hist = m1.hist ++ [q]) (hrq : q.rq = .opendir dir) (hb : dir < W64) (hpath : Cache.path m1.w.disk dir = .ok (.ok (pathStr cs)))
    (hH : ∃ H, q.B = backend root H ∧ Has root H T) (hT : DirAt T cs) (h3 : DirStays root T cs m2 m3) (h4 : DirSteps root T cs m3 m4)
    {ks : List Nat} {l : List DEnt} (hks : Since m4.hist m3.hist.length ks) (hL : Listing m4.hist dir 0 ks l) : ListsAll T cs l := by
  obtain ⟨-, h5, -⟩ := C94_open ht hr h0 hcs h hs hp hroom hq hrq hb hpath hH hT
  have h2 := h.step hs hp hroom
  obtain ⟨h6, -⟩ := C94_kept hr h0 hcs h2 hb h3 h5
  exact C94_listing hr h0 hcs (h3.reach h2) hb h6 h4 hks hL

/-! ### Example -/

/-- What the host had before: a directory with `a`, of 9 bytes, and `x`. -/
def treeB : HTree
  | [] => some ⟨bDir, none, some [[0x61], [0x78]]⟩
  | [[0x61]] => some ⟨bFile 9, none, none⟩
  | [[0x78]] => some ⟨bFile 3, none, none⟩
  | _ => none

/-- No connection; the tree as it is now; the tree as it was before. -/
def hosts3 : Nat → Backend
  | 0 => hostB false
  | 1 => hostB true
  | _ => backend rootR (treeHost rootR treeB)

theorem treeB_short {ds : List Bytes} {o : Obj} {ns : List Bytes} (h : treeB ds = some o) (hn : o.names = some ns) : ns.length ≤ 3 := by
  unfold treeB at h
  split at h <;> cases h <;> cases hn <;> decide

theorem tree_names {T : HTree} (short : ∀ {ds o ns}, T ds = some o → o.names = some ns → ns.length ≤ 3) {p : Bytes} {names : List Bytes} {e : Errno}
    (h : (backend rootR (treeHost rootR T)).opendir p = .ok (names, e)) : names.length ≤ 10 := by
  change opendir rootR _ p = _ at h
  unfold opendir at h
  cases hp : mapPath rootR p with
  | error e => rw [hp] at h; cases h
  | ok q =>
    rw [hp] at h
    simp only [treeHost] at h
    cases hr : rest rootR (cstr q) with
    | none => rw [hr] at h; cases h
    | some cs =>
      rw [hr] at h
      simp only at h
      generalize cs.foldl stepTo [] = ds at h
      cases ht : T ds with
      | none => rw [ht] at h; cases h
      | some o =>
        rw [ht] at h
        simp only at h
        cases hn : o.names with
        | none => rw [hn] at h; cases h
        | some ns =>
          rw [hn] at h; cases h
          have := short ht hn
          simp only [List.length_cons]; omega

theorem hosts3_small {j : Nat} {p : Bytes} {names : List Bytes} {e : Errno} (h : (hosts3 j).opendir p = .ok (names, e)) : names.length ≤ 10 := by
  match j with
  | 0 => exact treeA_names (b := false) h
  | 1 => exact treeA_names (b := true) h
  | _ + 2 => exact tree_names treeB_short h

/-- The host is not the one with the old tree. -/
def okNow (m : MSys) (q : Done) : Bool :=
  onLinkB m.w.disk q.rq && (match q.B.lstat 0 [0x2f, 0x78] with | .ok _ => false | .error _ => true)

theorem okNow_iff {m : MSys} {q : Done} (h : QG hosts3 q.rq q.B) (ho : okNow m q = true) : DirNow rootR treeA [] q.B ∧ q.rq.onLink m.w.disk := by
  unfold okNow at ho
  rw [Bool.and_eq_true] at ho
  constructor
  · obtain ⟨-, j, hj⟩ := h
    match j with
    | 0 => exact ⟨_, hj, .inr goneHost_gone⟩
    | 1 =>
      refine ⟨_, hj, .inl ⟨treeA, treeA_tree, treeA_whole, treeHost_has rootR treeA_tree, fun ds hd => ?_, fun _ _ => rfl⟩⟩
      obtain rfl := List.prefix_nil.mp hd
      exact ⟨_, _, rfl, rfl, by decide +kernel⟩
    | j + 2 =>
      have h1 : (match (backend rootR (treeHost rootR treeB)).lstat 0 [0x2f, 0x78] with | .ok _ => false | .error _ => true) = false := by decide +kernel
      have h2 := ho.2
      rw [hj] at h2
      change (match (backend rootR (treeHost rootR treeB)).lstat 0 [0x2f, 0x78] with | .ok _ => false | .error _ => true) = true at h2
      rw [h1] at h2; cases h2
  · cases hq : q.rq with
    | readlink i =>
      intro x hx
      have h1 := ho.1
      rw [hq] at h1
      unfold onLinkB at h1; simp only [hx] at h1
      exact of_decide_eq_true h1
    | _ => trivial

/-- `a` and `x` are cached as they were before; then the directory is opened and the host has the tree of now. After a crash,
without a connection, `x` and `a` are looked up and the directory is listed. -/
def story94 : List ((MSys → Done → Bool) × List GEv) :=
  [(fun _ _ => true, .ask 0 2 (.opendir 1) :: List.replicate 12 (.go 0) ++ .ask 0 1 (.opendir 1) :: List.replicate 10 (.go 0)),
   (fun _ _ => true, [.go 0]),
   (okNow, [.go 0, .go 0, .die]),
   (okNow, .ask 0 0 (.lookup 1 [0x78]) :: List.replicate 5 (.go 0)),
   (okNow, [.go 0]),
   (okNow, .go 0 :: .ask 0 0 (.readdir 1 4096 0) :: List.replicate 17 (.go 0) ++ .ask 0 0 (.readdir 1 4096 7) :: List.replicate 5 (.go 0))]

def check94 : List (MSys × Nat) → Bool
  | [(m1, _), (m2, _), (m3, _), (m4, _), (m5, _), (m6, _)] =>
    decide (m1.hist.length = 1 ∧ Cache.path m1.w.disk 1 = .ok (.ok (pathStr [])) ∧ (∃ j ∈ List.range 10, Cache.lookup m1.w.disk 1 [0x78] = .ok (.ok j)) ∧
      m2.hist.map (·.rq) = [.opendir 1, .opendir 1] ∧ (m2.hist.drop 1).map online = [true] ∧ (m2.hist.drop 1).all (okNow m1) ∧
      m3.hist.length = 0 ∧ m4.hist.length = 0 ∧ m5.hist.map (·.rq) = [.lookup 1 [0x78]] ∧ m5.hist.map (fun q => brief q.rep) = [1000 + ENOENT] ∧
      m6.hist.map (fun q => (q.ver, brief q.rep)) = [(0, 1000 + ENOENT), (1, 0), (2, 0)] ∧ (listingB m6.hist 1 0 [1, 2]).isSome)
  | _ => false

theorem story94_ex : (match startG with | some m => (match storyG hosts3 m 0 story94 with | some l => check94 l | none => false) | none => false) = true := by decide +kernel

theorem treeA_dirAt : DirAt treeA [] := fun ds hd => by
  obtain rfl := List.prefix_nil.mp hd
  exact ⟨_, _, rfl, rfl, by decide +kernel⟩

/-- The hypotheses of `C94_open`, `C94_kept`, `C94_lookup`, `C94_listing` and `C94_ls` can be met: by this story. -/
example : ∃ (m1 m2 m3 m4 m5 m6 : MSys) (q q' : Done) (l : List DEnt), MReach m1 ∧ (∃ j, Cache.lookup m1.w.disk 1 [0x78] = .ok (.ok j)) ∧
    m2.hist = m1.hist ++ [q] ∧ q.rq = .opendir 1 ∧ q.rep = .opened ∧ DirRight treeA [] 1 m2.w.disk ∧
    DirStays rootR treeA [] m2 m3 ∧ m3.hist = [] ∧ DirRight treeA [] 1 m3.w.disk ∧
    DirSteps rootR treeA [] m3 m4 ∧ m5.hist = m4.hist ++ [q'] ∧ q'.rq = .lookup 1 [0x78] ∧ q'.rep = .err ENOENT ∧ LookupNow rootR treeA [] 1 [0x78] m4.w.disk q'.B q'.rep ∧
    DirSteps rootR treeA [] m3 m6 ∧ Listing m6.hist 1 0 [1, 2] l ∧ ListsAll treeA [] l := by
  have key := story94_ex
  cases hs0 : startG with
  | none => rw [hs0] at key; cases key
  | some m0 =>
    rw [hs0] at key
    simp only at key
    cases hst : storyG hosts3 m0 0 story94 with
    | none => rw [hst] at key; cases key
    | some xs =>
      rw [hst] at key
      simp only at key
      unfold story94 at hst
      obtain ⟨m1, c1, _, rfl, r1, hst⟩ := storyG_cons hst
      obtain ⟨m2, c2, _, rfl, r2, hst⟩ := storyG_cons hst
      obtain ⟨m3, c3, _, rfl, r3, hst⟩ := storyG_cons hst
      obtain ⟨m4, c4, _, rfl, r4, hst⟩ := storyG_cons hst
      obtain ⟨m5, c5, _, rfl, r5, hst⟩ := storyG_cons hst
      obtain ⟨m6, c6, _, rfl, r6, hst⟩ := storyG_cons hst
      cases hst
      obtain ⟨k1, k2, ⟨jx, -, k3⟩, k4, k5, k6, k7, k8, k9, k9', k10, k11⟩ := of_decide_eq_true key
      have g0 : Ready (QG hosts3) 0 m0 := startG_ready hs0
      have stays : ∀ {m1 : MSys} {k : Nat} {m2 : MSys}, DirStays rootR treeA [] m2 m1 → ∀ {m'}, Step m1 k m' → Proper m1 k m' → Room m'.w → (∀ q, m'.hist = m1.hist ++ [q] → QG hosts3 q.rq q.B ∧ okNow m1 q = true) →
          DirStays rootR treeA [] m2 m' := fun h _ hs hp hr hq => .step h hs hp hr (fun q hq' => okNow_iff (hq q hq').1 (hq q hq').2)
      have steps : ∀ {m1 : MSys} {k : Nat} {m2 : MSys}, DirSteps rootR treeA [] m2 m1 → ∀ {m'}, Step m1 k m' → Proper m1 k m' → Room m'.w → (∀ q, m'.hist = m1.hist ++ [q] → QG hosts3 q.rq q.B ∧ okNow m1 q = true) →
          DirSteps rootR treeA [] m2 m' := fun h _ hs hp hr hq => .step h hs hp hr (fun q hq' => okNow_iff (hq q hq').1 (hq q hq').2)
      obtain ⟨g1, -⟩ := runG_inv hosts3_small (R := fun _ => True) (fun _ _ _ _ _ => trivial) (fun _ _ _ _ _ _ _ => trivial) g0 trivial r1
      obtain ⟨g2, ka, a1, a2, a3⟩ := runG_go g1 r2
      obtain ⟨g3, b3⟩ := runG_inv hosts3_small (R := DirStays rootR treeA [] m2) (fun h hs hp hr hq => stays h hs hp hr hq) (fun _ _ _ _ h ho hr => .crash h ho hr) g2 .refl r3
      obtain ⟨g4, b4⟩ := runG_inv hosts3_small (R := DirSteps rootR treeA [] m3) (fun h hs hp hr hq => steps h hs hp hr hq) (fun h => absurd h (by decide)) g3 .refl r4
      obtain ⟨g5, b5⟩ := runG_inv hosts3_small (R := DirSteps rootR treeA [] m3) (fun h hs hp hr hq => steps h hs hp hr hq) (fun h => absurd h (by decide)) g4 b4 r5
      obtain ⟨-, kb, d1, d2, d3⟩ := runG_go g4 r5
      obtain ⟨-, b6⟩ := runG_inv hosts3_small (R := DirSteps rootR treeA [] m3) (fun h hs hp hr hq => steps h hs hp hr hq) (fun h => absurd h (by decide)) g5 b5 r6
      -- the directory is opened
      have l2 : m2.hist.length = 2 := by have := congrArg List.length k4; simpa using this
      obtain ⟨q, hq⟩ := event_hist a1 (by rw [k1]; exact l2)
      have hrq : q.rq = .opendir 1 := by
        rw [hq] at k4
        have := congrArg List.getLast? k4
        simpa using this
      have hdrop : m2.hist.drop 1 = [q] := by rw [hq, ← k1, List.drop_left]
      have hB : ∃ H, q.B = backend rootR H ∧ Has rootR H treeA := by
        rw [hdrop] at k5 k6
        simp only [List.map_cons, List.map_nil, List.cons.injEq, and_true] at k5
        obtain ⟨H, hH, ⟨-, -⟩ | hg⟩ := (okNow_iff (m := m1) (g2.hist q (by rw [hq]; simp)) (by simpa using k6)).1
        · obtain ⟨-, j, hj⟩ := g2.hist q (by rw [hq]; simp)
          match j with
          | 0 => exact absurd goneHost_gone (online_not k5 _ hj)
          | 1 => exact ⟨_, hj, treeHost_has rootR treeA_tree⟩
          | j + 2 =>
            have : okNow m1 q = true := by simpa using k6
            unfold okNow at this
            rw [Bool.and_eq_true] at this
            have h2 := this.2
            rw [hj] at h2
            have h1 : (match (backend rootR (treeHost rootR treeB)).lstat 0 [0x2f, 0x78] with | .ok _ => false | .error _ => true) = false := by decide +kernel
            change (match (backend rootR (treeHost rootR treeB)).lstat 0 [0x2f, 0x78] with | .ok _ => false | .error _ => true) = true at h2
            rw [h1] at h2; cases h2
        · exact absurd hg (online_not k5 H hH)
      have no : ∀ c ∈ ([] : List Bytes), Plain c := fun c hc => by cases hc
      obtain ⟨e1, e2, -⟩ := C94_open treeA_tree rootR_ne rootR_nul no g1.reach a1 a2 a3 hq hrq (by decide) k2 hB treeA_dirAt
      obtain ⟨e3, -⟩ := C94_kept rootR_ne rootR_nul no g2.reach (by decide) b3 e2
      obtain ⟨e4, -⟩ := C94_kept (m := m3) rootR_ne rootR_nul no g3.reach (by decide) (m' := m4) b4.stays e3
      -- the lookup
      have l5 : m5.hist.length = 1 := by have := congrArg List.length k9; simpa using this
      obtain ⟨q', hq'⟩ := event_hist d1 (by rw [k8]; exact l5)
      have h4 : m4.hist = [] := List.length_eq_zero_iff.mp k8
      have hrq' : q'.rq = .lookup 1 [0x78] := by
        rw [hq', h4] at k9
        simpa using k9
      have hnow : DirNow rootR treeA [] q'.B := by
        clear e4 e3 e2 hB
        obtain ⟨-, j, hj⟩ := g5.hist q' (by rw [hq']; simp)
        have hg : okNow m4 q' = true := by
          unfold runG at r5
          cases hx : demoMT m4 c4 [.go 0] with
          | none => rw [hx] at r5; cases r5
          | some x =>
            rw [hx] at r5
            simp only at r5
            by_cases hv : ((x.1.hist.drop m4.hist.length).all (okNow m4)) = true
            case neg => rw [if_neg hv] at r5; cases r5
            rw [if_pos hv] at r5
            cases r5
            exact List.all_eq_true.mp hv q' (by rw [hq']; simp)
        exact (okNow_iff (g5.hist q' (by rw [hq']; simp)) hg).1
      have e5 := C94_lookup rootR_ne rootR_nul no g4.reach d1 d2 d3 hq' (n := [0x78]) (plainB (by decide)) (by decide) hrq' (by decide) e4 hnow
      -- the listing
      obtain ⟨l, hl⟩ := Option.isSome_iff_exists.mp k11
      have hL := listingB_ok hl
      have hks : Since m6.hist m3.hist.length [1, 2] := by rw [k7]; exact fun _ _ _ _ => Nat.zero_le _
      have e6 := C94_ls treeA_tree rootR_ne rootR_nul no g1.reach a1 a2 a3 hq hrq (by decide) k2 hB treeA_dirAt b3 b6 hks hL
      have hrep : q'.rep = .err ENOENT := by
        rw [hq', h4] at k9'
        simp only [List.nil_append, List.map_cons, List.map_nil, List.cons.injEq, and_true] at k9'
        unfold LookupNow at e5
        cases hr : q'.rep with
        | entry st =>
          rw [hr] at e5
          obtain ⟨-, o, ho, -⟩ := e5
          cases ho
        | err e =>
          rw [hr] at k9'
          unfold brief at k9'
          rw [Nat.add_left_cancel k9']
        | _ => rw [hr] at e5; exact absurd e5 (by simp)
      exact ⟨m1, m2, m3, m4, m5, m6, q, q', l, g1.reach, ⟨jx, k3⟩, hq, hrq, e1, e2, b3, List.length_eq_zero_iff.mp k7, e3, b4, hq', hrq', hrep, e5, b6, hL, e6⟩

end Dragonstash.Local
