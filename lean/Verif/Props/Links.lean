/-
  C120: when also every link was read once, the whole tree of the host can be walked without a connection: directories,
  attributes and targets of links.
-/
import Verif.Props.Walked
namespace Dragonstash.FS
open Cache
variable {s s' s1 : Tree} {d : DB} {r r' : Refs}

/-! ### Targets are only changed by reading the link -/

/-- Inodes which existed in `s` and are left in `s'` have the same targets. -/
structure SameTargets (s s' : Tree) : Prop where
  next : s.next ≤ s'.next
  back : ∀ j nd', j < s.next → s'.nodes j = some nd' → ∃ nd, s.nodes j = some nd ∧ nd'.target = nd.target

theorem SameTargets.refl : SameTargets s s := ⟨Nat.le_refl _, fun _ nd' _ h => ⟨nd', h, rfl⟩⟩

theorem SameTargets.trans (h : SameTargets s s1) (h' : SameTargets s1 s') : SameTargets s s' := by
  refine ⟨Nat.le_trans h.next h'.next, fun j nd' hj hn => ?_⟩
  obtain ⟨x, h1, h2⟩ := h'.back j nd' (Nat.lt_of_lt_of_le hj h.next) hn
  obtain ⟨y, h3, h4⟩ := h.back j x hj h1
  exact ⟨y, h3, h2.trans h4⟩

theorem SameTargets.orphan (i : Ino) : SameTargets s (s.orphan i) := by
  refine ⟨Nat.le_refl _, fun j nd' _ hn => ?_⟩
  by_cases hji : j = i
  · subst hji
    cases hs : s.nodes j with
    | none => rw [orphan_none hs] at hn; cases hn
    | some x => rw [Tree.orphan_self hs] at hn; cases hn; exact ⟨x, rfl, rfl⟩
  · rw [Tree.orphan_ne hji] at hn; exact ⟨nd', hn, rfl⟩

theorem SameTargets.orphans (l : List Ino) : SameTargets s (s.orphans l) := by
  induction l generalizing s with
  | nil => exact .refl
  | cons i l ih => exact .trans (.orphan i) ih

theorem SameTargets.set {i : Ino} {nd nd' : Node} (h : s.nodes i = some nd) (ht : nd'.target = nd.target) : SameTargets s (s.set i nd') := by
  refine ⟨Nat.le_refl _, fun j x _ hn => ?_⟩
  by_cases hji : j = i
  · subst hji; rw [Tree.set_self] at hn; cases hn; exact ⟨nd, h, ht⟩
  · rw [Tree.set_ne hji] at hn; exact ⟨x, hn, rfl⟩

theorem SameTargets.add {p : Ino} {n : Bytes} {a : Attrs} : SameTargets s (s.add p n a) := by
  refine ⟨Nat.le_succ _, fun j x hj hn => ?_⟩
  rw [Tree.add_ne (Nat.ne_of_lt hj)] at hn; exact ⟨x, hn, rfl⟩

theorem SameTargets.collected {L : Ino → Prop} (h : Collected s L s') : SameTargets s s' := by
  refine ⟨Nat.le_of_eq h.next.symm, fun j x _ hn => ?_⟩
  obtain ⟨-, nd, h1, -, -, h2, -⟩ := h.back hn
  exact ⟨nd, h1, h2⟩

theorem Removed.targets {i : Ino} (h : Removed s r i s' r') : SameTargets s s' := .trans (.orphan i) (.collected h.coll)

theorem Put.targets {p : Ino} {n : Bytes} {a : Attrs} {res} (h : Put p n a s r res s' r') : SameTargets s s' := by
  cases h with
  | bad => exact .refl
  | same h1 h2 h3 => exact .set h1 rfl
  | @new s1 _ _ hn h1 h2 h3 h4 =>
    refine .trans (.trans ?_ .add) (.collected h3)
    rcases h1 with ⟨rfl, -⟩ | ⟨i, nd, rfl, -⟩
    · exact .refl
    · exact .orphan i

theorem Puts.targets {B : Backend} {base : Bytes} {i : Ino} {k : Nat} {names : List Bytes} (h : Puts B base i k names s r s' r') : SameTargets s s' := by
  induction h with
  | nil => exact .refl
  | skip _ _ ih => exact ih
  | put _ h2 _ ih => exact .trans h2.targets ih

theorem SyncTo.targets {B : Backend} {base : Bytes} {i : Ino} {names : List Bytes} (h : SyncTo B base i names s r s' r') : SameTargets s s' := by
  cases h with
  | @mk s1 _ nd _ h1 _ h3 _ _ _ => exact .trans h1.targets (.trans (.set (nd' := { nd with flags := newFlags nd.flags [SYNCED] [] }) h3 rfl) (.orphans _))

/-- The targets after a request. -/
theorem abs_targets {B : Backend} {rq rep} (h : Abs B d s r rq rep s' r') : SameTargets s s' ∨
    ∃ i cs dest nd, rq = .readlink i ∧ s.PathTo i cs ∧ B.readlink (backendPath (pathStr cs)) = .ok dest ∧ s.nodes i = some nd ∧
      s' = s.set i { nd with attr := { nd.attr with size := dest.length }, target := some dest } := by
  cases h with
  | lkBad _ _ h3 => exact .inl h3.targets
  | lkPut _ _ h3 => exact .inl h3.targets
  | lkErr _ _ _ _ h5 => exact .inl h5.targets
  | rlErr _ _ _ _ h5 => exact .inl h5.targets
  | rlPut h1 h2 h3 h4 => exact .inr ⟨_, _, _, _, rfl, h1, h2, h3, rfl⟩
  | odSync _ _ h3 => exact .inl h3.targets
  | _ => exact .inl .refl

theorem pathTo_set {s : Tree} {i : Ino} {nd nd' : Node} (h1 : s.nodes i = some nd) (h2 : nd'.loc = nd.loc) {j cs} (h : s.PathTo j cs) :
    (s.set i nd').PathTo j cs := by
  induction h with
  | root => exact .root
  | child hat _ ih => exact .child ((at_set h1 h2).mpr hat) ih

end Dragonstash.FS

namespace Dragonstash.Local
open Cache FS MT Conc

variable {root : Bytes} {T : HTree} {cs : List Bytes}

/-! ### Specification -/

/-- The link at `cs` in `T` is in the database, with its target. -/
def LinkRight (T : HTree) (cs : List Bytes) (d : DB) : Prop :=
  ∃ i o t, i < W64 ∧ Cache.path d i = .ok (.ok (pathStr cs)) ∧ T cs = some o ∧ o.target = some t ∧ Cache.readlink d i = .ok t

/-! ### Theorems -/

/-- What a request which has ended has written, if it has. -/
theorem step_wrote {m m' : MSys} {k : Nat} (h : MReach m) (hs : Step m k m') (hp : Proper m k m') (hroom : Room m'.w) :
    m'.w.disk = m.w.disk ∨ ∃ q s r s' r', m'.hist = m.hist ++ [q] ∧ SI s m.w.disk r ∧ SI s' m'.w.disk r' ∧ Abs q.B m.w.disk s r q.rq q.rep s' r' := by
  rcases step_inv' h hs hp hroom with ⟨h1, -⟩ | ⟨d0, r0, L, H, vs, R, ds, s, q, hM, hR, hPI, e1, e2, e3⟩
  · exact .inl h1
  · have hk : m'.hist[m.hist.length]? = some q := by rw [e1]; simp
    cases hro : readOnly q.rq with
    | true =>
      have := hM.one.ro_same hk hro
      rw [e2, e3] at this
      exact .inl (Option.some.inj this)
    | false =>
      obtain ⟨d, d', f1, f2, f3⟩ := hPI.saw _ _ hk
      unfold seen at f1
      rw [hro, if_neg (by simp), e2] at f1; cases f1
      rw [e3] at f2; cases f2
      cases f3 with
      | wrote _ k1 _ _ _ _ _ k3 k4 => exact .inr ⟨q, _, _, _, _, e1, k1, k3, k4⟩
      | read h1 => rw [hro] at h1; cases h1

theorem readlink_iff {s : Cache.Tree} {d : DB} (h : Rep s d) (ok : s.OK) {i : Ino} (hb : i < W64) {t : Bytes} : Cache.readlink d i = .ok t ↔ ∃ nd, s.nodes i = some nd ∧ nd.target = some t := by
  rw [h.readlink ok hb]
  cases hn : s.nodes i with
  | none => simp
  | some nd =>
    cases ht : nd.target with
    | none => simp [ht]
    | some x => simp [ht]

/-- C120: a link which is read while the host is connected and has it: the reply is its target, and the target is cached. -/
theorem C120_read (ht : Local.Tree T) (hw : Whole T) (hr : root ≠ []) (h0 : (0 : UInt8) ∉ root) {m m' : MSys} {k : Nat} (h : MReach m) (hs : Step m k m') (hp : Proper m k m') (hroom : Room m'.w)
    {q : Done} (hq : m'.hist = m.hist ++ [q]) {i : Ino} (hrq : q.rq = .readlink i) (hb : i < W64) {n : Bytes} (hpl : ∀ c ∈ cs ++ [n], Plain c)
    (hpath : Cache.path m.w.disk i = .ok (.ok (pathStr (cs ++ [n])))) {dir : Ino} (hbd : dir < W64) (hd : DirRight T cs dir m.w.disk) (hT : DirAt T cs)
    (hH : ∃ H, q.B = backend root H ∧ Has root H T) {o : Obj} (ho : T (cs ++ [n]) = some o) (hl : fmt o.stat.mode = S_IFLNK) :
    (∃ t, o.target = some t ∧ q.rep = .readlink t) ∧ LinkRight T (cs ++ [n]) m'.w.disk := by
  obtain ⟨t, htg⟩ := hw.link ho hl
  obtain ⟨H, hB, hHas⟩ := hH
  have hback : q.B.readlink (backendPath (pathStr (cs ++ [n]))) = .ok t := by rw [hB]; exact back_readlink hHas ht hr h0 hpl ho htg
  have hcomp : ∀ c ∈ cs ++ [n], Component c := fun c hc => (hpl c hc).1
  obtain ⟨s0, a1, a2, a3⟩ := reach_tree h
  have hent := hd.entry a1 a2 a3 hbd hb hpl hpath
  have hlnk : q.rq.onLink m.w.disk := by
    rw [hrq]; intro x hx
    rw [hent.2.2 o ho] at hx; cases hx; exact hl
  rcases step_inv' h hs hp hroom with ⟨-, e⟩ | ⟨d0, r0, L, Hh, vs, R, ds, s, q', hM, hR, hPI, e1, e2, e3⟩
  · rw [e] at hq
    have := congrArg List.length hq; simp at this
  · rw [hq] at e1
    obtain rfl : q = q' := by simpa using e1
    have hk : m'.hist[m.hist.length]? = some q := by rw [hq]; simp
    obtain ⟨d, d', f1, f2, f3⟩ := hPI.saw _ _ hk
    unfold seen at f1
    rw [hrq, if_neg (by simp [readOnly]), e2] at f1; cases f1
    rw [e3] at f2; cases f2
    cases f3 with
    | @wrote s2 r2 s3 r3 _ k1 _ hin hon hnx hnx2 k3 k4 =>
      have hpt := path_comps k1 hb hcomp hpath
      rw [hrq] at k4
      generalize hrep : q.rep = rep at k4
      have same : ∀ {es}, s2.PathTo i es → es = cs ++ [n] := fun hp => PathTo.unique k1.ok hp hpt
      cases k4 with
      | rlGone hc => exact absurd ⟨_, hpt⟩ hc
      | @rlPut _ es dest nd g1 g2 g3 g4 =>
        obtain rfl := same g1
        rw [hback] at g2; cases g2
        refine ⟨⟨t, htg, by rw [cstr_id (ht.size ho htg).2]⟩, i, o, t, hb, ?_, ho, htg, (readlink_iff k3.rep k3.ok hb).mpr ⟨_, Tree.set_self, rfl⟩⟩
        exact k3.rep.path_found k3.ok (pathTo_set (nd' := { nd with attr := { nd.attr with size := t.length }, target := some t }) g3 rfl hpt)
      | @rlOther _ es dest nd g1 g2 g3 g4 =>
        exfalso; apply g4
        have := hent.2.2 o ho
        rw [getattr_some k1 g3] at this
        have : nd.attr = fromBackend o.stat := congrArg Prod.snd (Except.ok.inj this)
        rw [this]; exact hl
      | rlHit g1 g2 => rw [same g1, hback] at g2; cases g2
      | rlMiss g1 g2 => rw [same g1, hback] at g2; cases g2
      | rlErr g1 g2 => rw [same g1, hback] at g2; cases g2
      | rlErrRoot g1 =>
        exfalso
        have := PathTo.root_nil k1.ok hpt
        simp at this
    | read h1 => rw [hrq] at h1; cases h1

/-- C120: a link whose target is cached is read: the reply is its target, with or without a connection. -/
theorem C120_answer (ht : Local.Tree T) (hr : root ≠ []) (h0 : (0 : UInt8) ∉ root) {m m' : MSys} {k : Nat} (h : MReach m) (hs : Step m k m') (hp : Proper m k m') (hroom : Room m'.w)
    {q : Done} (hq : m'.hist = m.hist ++ [q]) {i : Ino} (hrq : q.rq = .readlink i) (hb : i < W64) (hpl : ∀ c ∈ cs, Plain c) (hne : cs ≠ [])
    (hpath : Cache.path m.w.disk i = .ok (.ok (pathStr cs))) (hl : LinkRight T cs m.w.disk) (hnow : Unchanged root T q.B) :
    ∃ o t, T cs = some o ∧ o.target = some t ∧ q.rep = .readlink t := by
  obtain ⟨j, o, t, hbj, hpj, ho, htg, hrd⟩ := hl
  have hcomp : ∀ c ∈ cs, Component c := fun c hc => (hpl c hc).1
  refine ⟨o, t, ho, htg, ?_⟩
  have hback : q.B.readlink (backendPath (pathStr cs)) = .ok t ∨ q.B.readlink (backendPath (pathStr cs)) = .error ENOTCONN := by
    obtain ⟨H, hB, hH | hG⟩ := hnow
    · exact .inl (by rw [hB]; exact back_readlink hH ht hr h0 hpl ho htg)
    · exact .inr (by rw [hB]; exact gone_readlink hr h0 hG hpl)
  have hc : cstr t = t := cstr_id (ht.size ho htg).2
  rcases step_inv' h hs hp hroom with ⟨-, e⟩ | ⟨d0, r0, L, Hh, vs, R, ds, s, q', hM, hR, hPI, e1, e2, e3⟩
  · rw [e] at hq
    have := congrArg List.length hq; simp at this
  · rw [hq] at e1
    obtain rfl : q = q' := by simpa using e1
    have hk : m'.hist[m.hist.length]? = some q := by rw [hq]; simp
    obtain ⟨d, d', f1, f2, f3⟩ := hPI.saw _ _ hk
    unfold seen at f1
    rw [hrq, if_neg (by simp [readOnly]), e2] at f1; cases f1
    rw [e3] at f2; cases f2
    cases f3 with
    | @wrote s2 r2 s3 r3 _ k1 _ hin hon hnx hnx2 k3 k4 =>
      have hpt := path_comps k1 hb hcomp hpath
      obtain rfl := PathTo.inj k1.ok hpt (path_comps k1 hbj hcomp hpj)
      obtain ⟨x, hx, hxt⟩ := (readlink_iff k1.rep k1.ok hb).mp hrd
      rw [hrq] at k4
      have same : ∀ {es}, s2.PathTo i es → es = cs := fun hp => PathTo.unique k1.ok hp hpt
      generalize hrep : q.rep = rep at k4
      cases k4 with
      | rlGone hc => exact absurd ⟨_, hpt⟩ hc
      | rlPut g1 g2 g3 g4 =>
        rw [same g1] at g2
        rcases hback with e | e <;> rw [e] at g2 <;> cases g2
        rw [hc]
      | rlOther g1 g2 g3 g4 =>
        rw [same g1] at g2
        rcases hback with e | e <;> rw [e] at g2 <;> cases g2
        rw [hc]
      | rlHit g1 g2 g3 g4 =>
        rw [g3] at hx; cases hx
        rw [g4] at hxt; cases hxt
        rw [hc]
      | rlMiss g1 g2 g3 g4 =>
        rw [g3] at hx; cases hx
        rw [g4] at hxt; cases hxt
      | rlErr g1 g2 g3 =>
        rw [same g1] at g2
        rcases hback with e | e <;> rw [e] at g2 <;> cases g2
        exact absurd rfl g3
      | rlErrRoot g1 =>
        exact absurd (PathTo.root_nil k1.ok hpt) hne
    | read h1 => rw [hrq] at h1; cases h1

/-- C120: and so it stays while the host has the tree or is not connected, and when the process dies. -/
theorem C120_kept (ht : Local.Tree T) (hw : Whole T) (hr : root ≠ []) (h0 : (0 : UInt8) ∉ root) {m m' : MSys} {k : Nat} (h : MReach m) (hs : Step m k m') (hp : Proper m k m') (hroom : Room m'.w)
    (hq : ∀ q, m'.hist = m.hist ++ [q] → Unchanged root T q.B ∧ q.rq.onLink m.w.disk) {n : Bytes} (hpl : ∀ c ∈ cs ++ [n], Plain c)
    {dir : Ino} (hbd : dir < W64) (hd : DirRight T cs dir m.w.disk) (hT : DirAt T cs) (hl : LinkRight T (cs ++ [n]) m.w.disk) : LinkRight T (cs ++ [n]) m'.w.disk := by
  obtain ⟨i, o, t, hb, hpath, ho, htg, hrd⟩ := hl
  have hplc : ∀ c ∈ cs, Plain c := fun c hc => hpl c (List.mem_append_left _ hc)
  obtain ⟨s, a1, a2, a3⟩ := reach_tree h
  have hent := hd.entry a1 a2 a3 hbd hb hpl hpath
  obtain ⟨hd', hlk⟩ := C94_kept hr h0 hplc h hbd (.step .refl hs hp hroom (fun q e => ⟨(hq q e).1.now ht hw hT, (hq q e).2⟩)) hd
  have hlk' := (hlk n i (hpl n (by simp))).mpr hent.2.1
  obtain ⟨s', b1, b2, b3⟩ := reach_tree (h.step hs hp hroom)
  have hat' := (b1.lookup_iff b2 hbd).mp hlk'
  have hpt' : s'.PathTo i (cs ++ [n]) := .child hat' (path_comps (si_empty b1 b2 b3) hbd (fun c hc => (hplc c hc).1) hd'.path)
  refine ⟨i, o, t, hb, b1.path_found b2 hpt', ho, htg, ?_⟩
  rcases step_wrote h hs hp hroom with e | ⟨q, s1, r1, s2, r2, e, k1, k2, k3⟩
  · rw [e]; exact hrd
  · obtain rfl := Rep.inj k1.rep k1.ok a1 a2
    obtain rfl := Rep.inj k2.rep k2.ok b1 b2
    obtain ⟨nd, n1, n2⟩ := (readlink_iff a1 a2 hb).mp hrd
    obtain ⟨nd', n3, n4⟩ := hat'
    refine (readlink_iff b1 b2 hb).mpr ⟨nd', n3, ?_⟩
    rcases abs_targets k3 with g | ⟨j, es, dest, x, g1, g2, g3, g4, g5⟩
    · obtain ⟨y, c1, c2⟩ := g.back i nd' (a2.bound i nd n1).2 n3
      rw [n1] at c1; cases c1
      rw [c2, n2]
    · by_cases hij : i = j
      · subst hij
        rw [g5, Tree.set_self] at n3; cases n3
        obtain rfl := PathTo.unique a2 g2 (path_comps (si_empty a1 a2 a3) hb (fun c hc => (hpl c hc).1) hpath)
        obtain ⟨H, hB, hH | hG⟩ := (hq q e).1
        · rw [hB, back_readlink hH ht hr h0 hpl ho htg] at g3
          show some dest = some t
          rw [Except.ok.inj g3]
        · rw [hB, gone_readlink hr h0 hG hpl] at g3; cases g3
      · rw [g5, Tree.set_ne hij] at n3
        rw [n1] at n3; cases n3; exact n2

/-- C120: the links which were read on the way are right at the end. -/
theorem C120_links (ht : Local.Tree T) (hw : Whole T) (hr : root ≠ []) (h0 : (0 : UInt8) ∉ root) {m0 m : MSys} {l ls : List (List Bytes)} (hm : MReach m0) (h : Walked root T m0 l ls m) :
    ∀ cs ∈ ls, (∃ ds n, cs = ds ++ [n] ∧ ds ∈ l ∧ ∀ c ∈ cs, Plain c) ∧ LinkRight T cs m.w.disk := by
  induction h with
  | start => intro cs hc; cases hc
  | @step l ls m m' k h hs hp hroom hq ih =>
    intro cs hc
    obtain ⟨⟨ds, n, rfl, h2, h3⟩, h4⟩ := ih cs hc
    obtain ⟨g1, -, dir, g2, g3⟩ := C119_opened ht hw hr h0 hm h ds h2
    exact ⟨⟨ds, n, rfl, h2, h3⟩, C120_kept ht hw hr h0 (h.reach hm) hs hp hroom hq h3 g2 g3 g1 h4⟩
  | @crash l ls m uid gid now d r n h ho hroom ih =>
    intro cs hc
    obtain ⟨h1, i, o, t, k1, k2, k3, k4, k5⟩ := ih cs hc
    obtain ⟨_, _, _, _, _, d', r', -, -, -, g1, -, -, -, g5⟩ := C85_crash (h.reach hm) uid gid now
    rw [ho] at g1; cases g1
    obtain ⟨f1, -, f2, -⟩ := g5 i _ k1 k2
    refine ⟨h1, i, o, t, k1, f1, k3, k4, ?_⟩
    show Cache.readlink d i = _
    rw [f2]; exact k5
  | @opened l ls m m' k q dir cs0 h hs hp hroom hq hrq hb hpath hpl hH hT ih =>
    intro cs hc
    obtain ⟨⟨ds, n, rfl, h2, h3⟩, h4⟩ := ih cs hc
    obtain ⟨g1, -, dir', g2, g3⟩ := C119_opened ht hw hr h0 hm h ds h2
    refine ⟨⟨ds, n, rfl, List.mem_cons_of_mem _ h2, h3⟩, C120_kept ht hw hr h0 (h.reach hm) hs hp hroom (fun q' e => ?_) h3 g2 g3 g1 h4⟩
    rw [hq] at e
    obtain rfl : q = q' := by simpa using e
    obtain ⟨H, e1, e2⟩ := hH
    exact ⟨⟨H, e1, .inl e2⟩, by rw [hrq]; trivial⟩
  | @read l ls m m' k q i cs1 n1 o h hl hs hp hroom hq hrq hb hpath hpl hH ho hlnk ih =>
    obtain ⟨g1, -, dir, g2, g3⟩ := C119_opened ht hw hr h0 hm h cs1 hl
    intro cs hc
    rcases List.mem_cons.mp hc with rfl | hc
    · exact ⟨⟨cs1, n1, rfl, hl, hpl⟩, (C120_read ht hw hr h0 (h.reach hm) hs hp hroom hq hrq hb hpl hpath g2 g3 g1 hH ho hlnk).2⟩
    · obtain ⟨⟨ds, n, rfl, h2, h3⟩, h4⟩ := ih cs hc
      obtain ⟨f1, -, dir', f2, f3⟩ := C119_opened ht hw hr h0 hm h ds h2
      refine ⟨⟨ds, n, rfl, h2, h3⟩, C120_kept ht hw hr h0 (h.reach hm) hs hp hroom (fun q' e => ?_) h3 f2 f3 f1 h4⟩
      rw [hq] at e
      obtain rfl : q = q' := by simpa using e
      obtain ⟨H, e1, e2⟩ := hH
      refine ⟨⟨H, e1, .inl e2⟩, ?_⟩
      rw [hrq]
      obtain ⟨s, a1, a2, a3⟩ := reach_tree (h.reach hm)
      have := (g3.entry a1 a2 a3 g2 hb hpl hpath).2.2 o ho
      intro x hx
      rw [this] at hx
      cases hx; exact hlnk

/-- C120: when every directory was opened and every link was read, the cache is a copy of the tree, with the targets of all its links. -/
theorem C120_complete (ht : Local.Tree T) (hw : Whole T) (hr : root ≠ []) (h0 : (0 : UInt8) ∉ root) {m0 m : MSys} {l ls : List (List Bytes)} (hm : MReach m0) (h : Walked root T m0 l ls m)
    (hall : ∀ cs, DirAt T cs → (∀ c ∈ cs, Plain c ∧ c.length ≤ 503) → cs ∈ l)
    (hlinks : ∀ cs o, Entry T cs o → (∀ c ∈ cs, Plain c ∧ c.length ≤ 503) → fmt o.stat.mode = S_IFLNK → cs ∈ ls) :
    IsCopy T m.w.disk ∧ ∀ i cs, i < W64 → cs ≠ [] → (∀ c ∈ cs, Plain c) → Cache.path m.w.disk i = .ok (.ok (pathStr cs)) →
      ∃ o, T cs = some o ∧ (fmt o.stat.mode = S_IFLNK → ∃ t, o.target = some t ∧ Cache.readlink m.w.disk i = .ok t) := by
  have hc := C119_mirror ht hw hr h0 hm h hall
  refine ⟨hc, fun i cs hi hne hpl hpath => ?_⟩
  obtain ⟨h1, o, h2, -⟩ := hc.shown i cs hi hne hpl hpath
  have ho : T cs = some o := by obtain ⟨_, _, -, -, e⟩ := h2; exact e
  refine ⟨o, ho, fun hl => ?_⟩
  obtain ⟨-, j, o', t, k1, k2, k3, k4, k5⟩ := C120_links ht hw hr h0 hm h cs (hlinks cs o h2 (fun c hc => ⟨hpl c hc, h1 c hc⟩) hl)
  rw [ho] at k3; cases k3
  obtain ⟨s, hrep, ok, wf⟩ := reach_tree (h.reach hm)
  have hI := si_empty hrep ok wf
  have hcomp : ∀ c ∈ cs, Component c := fun c hc => (hpl c hc).1
  obtain rfl := PathTo.inj ok (path_comps hI k1 hcomp k2) (path_comps hI hi hcomp hpath)
  exact ⟨t, k4, k5⟩

/-! ### Example -/

theorem walked_read {m0 m m' : MSys} {cap cap' : Nat} {l ls : List (List Bytes)} {i : Ino} {cs : List Bytes} {n : Bytes} {o : Obj} (h : Walked rootR treeA m0 l ls m) (hl : cs ∈ l) (hr : Ready (QG hosts3) cap m)
    (r : runG hosts3 okNow m cap [.go 0] = some (m', cap')) (hlen : m'.hist.length = m.hist.length + 1) (hrq : (m'.hist.drop m.hist.length).map (·.rq) = [.readlink i])
    (hon : (m'.hist.drop m.hist.length).map online = [true]) (hok : (m'.hist.drop m.hist.length).all (okNow m) = true) (hb : i < W64)
    (hpath : Cache.path m.w.disk i = .ok (.ok (pathStr (cs ++ [n])))) (hpl : ∀ c ∈ cs ++ [n], Plain c) (ho : treeA (cs ++ [n]) = some o) (hlk : fmt o.stat.mode = S_IFLNK) :
    Ready (QG hosts3) cap' m' ∧ Walked rootR treeA m0 l ((cs ++ [n]) :: ls) m' := by
  obtain ⟨g, k, a1, a2, a3⟩ := runG_go hr r
  refine ⟨g, ?_⟩
  obtain ⟨q, hq⟩ := event_hist a1 hlen
  have hdrop : m'.hist.drop m.hist.length = [q] := by rw [hq, List.drop_left]
  rw [hdrop] at hrq hon hok
  have h1 : q.rq = .readlink i := by simpa using hrq
  have h2 : online q = true := by simpa using hon
  have h3 : okNow m q = true := by simpa using hok
  have hQ := g.hist q (by rw [hq]; simp)
  refine .read h hl a1 a2 a3 hq h1 hb hpath hpl ?_ ho hlk
  obtain ⟨H, e1, e2 | e2⟩ := (okNow_unchanged hQ h3).1
  · exact ⟨H, e1, e2⟩
  · exact absurd e2 (online_not h2 H e1)

/-- The two directories are opened and the link is read; after a crash, it is read without a connection. -/
def story120 : List ((MSys → Done → Bool) × List GEv) :=
  [(okNow, .ask 0 1 (.opendir 1) :: List.replicate 10 (.go 0)),
   (okNow, [.go 0]),
   (okNow, .go 0 :: .go 0 :: .ask 0 1 (.opendir 6) :: List.replicate 8 (.go 0)),
   (okNow, [.go 0]),
   (okNow, .go 0 :: .go 0 :: .ask 0 1 (.readlink 5) :: List.replicate 3 (.go 0)),
   (okNow, [.go 0]),
   (okNow, .go 0 :: .go 0 :: .die :: .ask 0 0 (.readlink 5) :: List.replicate 4 (.go 0)),
   (okNow, [.go 0])]

/-- The step from `m` to `m'` answers that the link `i`, at `cs`, was read, with a connection (`on`) or without. -/
def reads (m m' : MSys) (i : Ino) (cs : List Bytes) (on : Bool) : Bool :=
  decide (m'.hist.length = m.hist.length + 1 ∧ (m'.hist.drop m.hist.length).map (·.rq) = [.readlink i] ∧ (m'.hist.drop m.hist.length).map online = [on] ∧
    (m'.hist.drop m.hist.length).all (okNow m) = true ∧ Cache.path m.w.disk i = .ok (.ok (pathStr cs)))

theorem reads_iff {m m' : MSys} {i : Ino} {cs : List Bytes} {on : Bool} (h : reads m m' i cs on = true) : m'.hist.length = m.hist.length + 1 ∧
    (m'.hist.drop m.hist.length).map (·.rq) = [.readlink i] ∧ (m'.hist.drop m.hist.length).map online = [on] ∧
    (m'.hist.drop m.hist.length).all (okNow m) = true ∧ Cache.path m.w.disk i = .ok (.ok (pathStr cs)) := of_decide_eq_true h

def check120 : List (MSys × Nat) → Bool
  | [(m1, _), (m2, _), (m3, _), (m4, _), (m5, _), (m6, _), (m7, _), (m8, _)] => opens m1 m2 1 [] && opens m3 m4 6 [[0x64]] && reads m5 m6 5 [[0x6c]] true && reads m7 m8 5 [[0x6c]] false
  | _ => false

theorem story120_ex : (match startG with | some m => (match storyG hosts3 m 0 story120 with | some l => check120 l | none => false) | none => false) = true := by decide +kernel

/-- The hypotheses of `C120_complete`, `C120_links` and `C120_answer` can be met: by this story; the last reply has been given without a connection. -/
example : ∃ (m0 m m' : MSys) (k : Nat) (q : Done), MReach m0 ∧ Walked rootR treeA m0 [[[0x64]], []] [[[0x6c]]] m ∧
    (∀ cs o, Entry treeA cs o → fmt o.stat.mode = S_IFLNK → cs ∈ [[[0x6c]]]) ∧ IsCopy treeA m.w.disk ∧ LinkRight treeA [[0x6c]] m.w.disk ∧
    Step m k m' ∧ m'.hist = m.hist ++ [q] ∧ q.rq = .readlink 5 ∧ online q = false ∧ q.rep = .readlink [0x61] := by
  have hd : ∀ c ∈ [[(0x64 : UInt8)]], Plain c := fun c hc => by
    rw [List.mem_singleton] at hc; subst hc; exact plainB (by decide)
  have hl : ∀ c ∈ [[(0x6c : UInt8)]], Plain c := fun c hc => by
    rw [List.mem_singleton] at hc; subst hc; exact plainB (by decide)
  have no : ∀ c ∈ ([] : List Bytes), Plain c := fun c hc => by cases hc
  have links : ∀ cs o, Entry treeA cs o → fmt o.stat.mode = S_IFLNK → cs ∈ [[[(0x6c : UInt8)]]] := by
    rintro cs o ⟨-, -, -, -, h1⟩ h2
    unfold treeA at h1
    split at h1 <;> cases h1 <;> first | exact List.mem_singleton.mpr rfl | exact absurd h2 (by decide +kernel)
  have key := story120_ex
  cases hs0 : startG with
  | none => rw [hs0] at key; cases key
  | some m0 =>
    rw [hs0] at key
    simp only at key
    cases hst : storyG hosts3 m0 0 story120 with
    | none => rw [hst] at key; cases key
    | some ys =>
      rw [hst] at key
      simp only at key
      have g0 : Ready (QG hosts3) 0 m0 := startG_ready hs0
      unfold story120 at hst
      obtain ⟨n1, e1, _, rfl, s1, hst⟩ := storyG_cons hst
      obtain ⟨n2, e2, _, rfl, s2, hst⟩ := storyG_cons hst
      obtain ⟨n3, e3, _, rfl, s3, hst⟩ := storyG_cons hst
      obtain ⟨n4, e4, _, rfl, s4, hst⟩ := storyG_cons hst
      obtain ⟨n5, e5, _, rfl, s5, hst⟩ := storyG_cons hst
      obtain ⟨n6, e6, _, rfl, s6, hst⟩ := storyG_cons hst
      obtain ⟨n7, e7, _, rfl, s7, hst⟩ := storyG_cons hst
      obtain ⟨n8, e8, _, rfl, s8, hst⟩ := storyG_cons hst
      cases hst
      unfold check120 at key
      simp only [Bool.and_eq_true] at key
      obtain ⟨⟨⟨k1, k2⟩, k3⟩, k4⟩ := key
      obtain ⟨f1, v1⟩ := walked_run .start g0 s1
      obtain ⟨p1, p2, p3, p4, p5⟩ := opens_iff k1
      obtain ⟨f2, v2⟩ := walked_open v1 f1 s2 p1 p2 p3 p4 (by decide) p5 no treeA_dirAt
      obtain ⟨f3, v3⟩ := walked_run v2 f2 s3
      obtain ⟨p1, p2, p3, p4, p5⟩ := opens_iff k2
      obtain ⟨f4, v4⟩ := walked_open v3 f3 s4 p1 p2 p3 p4 (by decide) p5 hd treeA_dirAt_d
      obtain ⟨f5, v5⟩ := walked_run v4 f4 s5
      obtain ⟨p1, p2, p3, p4, p5⟩ := reads_iff k3
      obtain ⟨f6, v6⟩ := walked_read (cs := []) (n := [0x6c]) v5 (by simp) f5 s6 p1 p2 p3 p4 (by decide) p5 hl rfl (by decide +kernel)
      obtain ⟨f7, v7⟩ := walked_run v6 f6 s7
      obtain ⟨p1, p2, p3, p4, p5⟩ := reads_iff k4
      obtain ⟨f8, k, a1, a2, a3⟩ := runG_go f7 s8
      obtain ⟨q, hq⟩ := event_hist a1 p1
      have hdrop : n8.hist.drop n7.hist.length = [q] := by rw [hq, List.drop_left]
      rw [hdrop] at p2 p3 p4
      have h1 : q.rq = .readlink 5 := by simpa using p2
      have h2 : online q = false := by simpa using p3
      have h3 : okNow n7 q = true := by simpa using p4
      have hQ := f8.hist q (by rw [hq]; simp)
      have hlr := (C120_links treeA_tree treeA_whole rootR_ne rootR_nul g0.reach v7 [[0x6c]] (by simp)).2
      obtain ⟨o, t, ho, htg, hrep⟩ := C120_answer treeA_tree rootR_ne rootR_nul f7.reach a1 a2 a3 hq h1 (by decide) hl (by simp) p5 hlr (okNow_unchanged hQ h3).1
      cases ho
      cases htg
      exact ⟨m0, n7, n8, k, q, g0.reach, v7, links, (C120_complete treeA_tree treeA_whole rootR_ne rootR_nul g0.reach v7 (fun _ h _ => treeA_dirs h) (fun cs o h1 _ h2 => links cs o h1 h2)).1,
        hlr, a1, hq, h1, h2, hrep⟩

end Dragonstash.Local
