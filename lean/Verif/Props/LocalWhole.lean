/-
  C90: nothing is missing from a mounted local directory which does not change.
-/
import Verif.Props.LocalMT
import Verif.Props.DirChange
namespace Dragonstash.Cache
variable {s s' : Tree} {r r' : Refs}

/-- Inodes which existed before are where they were, or unlinked. -/
theorem Eff.loc_back (h : Eff s r s' r') (ok : s.OK) {i : Ino} (hi : i < s.next) {nd' : Node} (hn : s'.nodes i = some nd') :
    ∃ nd, s.nodes i = some nd ∧ ∀ l, nd'.loc = some l → nd.loc = some l := by
  induction h generalizing nd' with
  | refl => exact ⟨nd', hn, fun _ h => h⟩
  | @set s r j x x' h1 h2 _ _ =>
    by_cases hj : i = j
    · subst hj; rw [Tree.set_self] at hn; cases hn; exact ⟨x, h1, fun l h => by rw [← h2]; exact h⟩
    · rw [Tree.set_ne hj] at hn; exact ⟨nd', hn, fun _ h => h⟩
  | @orphan s r j =>
    by_cases hj : i = j
    · subst hj
      cases hx : s.nodes i with
      | none => rw [orphan_none hx] at hn; cases hn
      | some x => rw [Tree.orphan_self hx] at hn; cases hn; exact ⟨x, rfl, fun _ h => by cases h⟩
    · rw [Tree.orphan_ne hj] at hn; exact ⟨nd', hn, fun _ h => h⟩
  | add => rw [Tree.add_ne (by omega)] at hn; exact ⟨nd', hn, fun _ h => h⟩
  | collect _ hc _ =>
    obtain ⟨-, nd, h1, -, -, -, h2⟩ := hc.back hn
    exact ⟨nd, h1, fun l h => by rcases h2 with h2 | h2 <;> rw [h2] at h; exact h; cases h⟩
  | @trans s1 r1 s2 r2 s3 r3 e1 e2 ih1 ih2 =>
    obtain ⟨x, h1, h2⟩ := ih2 (e1.ok ok) (Nat.lt_of_lt_of_le hi e1.next) hn
    obtain ⟨y, h3, h4⟩ := ih1 ok hi h1
    exact ⟨y, h3, fun l h => h4 l (h2 l h)⟩

theorem Eff.path_back (h : Eff s r s' r') (ok : s.OK) (wf : s.WF) {i : Ino} {cs : List Bytes} (hp : s'.PathTo i cs) (hi : i < s.next) : s.PathTo i cs := by
  induction hp with
  | root => exact .root
  | @child p n i cs hat _ ih =>
    obtain ⟨nd', h1, h2⟩ := hat
    obtain ⟨nd, h3, h4⟩ := h.loc_back ok hi h1
    have hl := h4 _ h2
    obtain ⟨-, x, h5, -⟩ := wf i nd p n h3 hl
    exact .child ⟨nd, h3, hl⟩ (ih (ok.bound p x h5).2)

end Dragonstash.Cache

namespace Dragonstash.Local
open Cache FS MT Conc

variable {root : Bytes} {H : Host} {T : HTree} {s s' : Cache.Tree} {d d' : DB} {r r' : Refs}

/-! ### Specification -/

/-- The tree is a directory; what has the type of a directory has names, and what has the type of a
symbolic link has a target. -/
structure Whole (T : HTree) : Prop where
  top : ∃ o ns, T [] = some o ∧ o.names = some ns ∧ fmt o.stat.mode = S_IFDIR
  dir : ∀ {cs o}, T cs = some o → fmt o.stat.mode = S_IFDIR → ∃ ns, o.names = some ns
  link : ∀ {cs o}, T cs = some o → fmt o.stat.mode = S_IFLNK → ∃ t, o.target = some t

/-- The requests of a kernel to a daemon which mirrors `T`: names are not empty, links are read only of
links; the host has the tree or is not connected. -/
def Asked (root : Bytes) (T : HTree) (d : DB) (rq : Req) (B : Backend) : Prop :=
  rq.named ∧ rq.onLink d ∧ ∃ H, B = backend root H ∧ (Has root H T ∨ Gone H)

/-! ### Invariant -/

/-- Synchronised directories have all entries. -/
def Full (T : HTree) (s : Cache.Tree) : Prop :=
  ∀ i nd cs, s.PathTo i cs → (∀ c ∈ cs, Plain c) → s.nodes i = some nd → hasFlag nd.flags SYNCED = true →
    ∀ m, Plain m → m.length ≤ 503 → T (cs ++ [m]) ≠ none → ∃ j, s.At i m j

/-- The type of what is at a place. -/
def kindAt (T : HTree) (ds : List Bytes) : Nat :=
  if ds = [] then S_IFDIR else match T ds with | some o => fmt o.stat.mode | none => 0

theorem orig_kind (hr : root ≠ []) (h0 : (0 : UInt8) ∉ root) (ok : s.OK) (ho : Orig (SM root T) (TM root T) s) {i : Ino} {nd : Cache.Node} {ds : List Bytes}
    (hp : s.PathTo i ds) (hds : ∀ c ∈ ds, Plain c) (hn : s.nodes i = some nd) : fmt nd.attr.mode = kindAt T ds ∧ (ds ≠ [] → ∃ o, T ds = some o) := by
  by_cases hi : i = ROOT
  · subst hi
    have := PathTo.root_nil ok hp; subst this
    obtain ⟨x, h1, h2, -⟩ := ok.root
    rw [h1] at hn; cases hn
    exact ⟨h2, fun h => absurd rfl h⟩
  · obtain ⟨cs, h1, h2, h3, ⟨⟨sr, h4, h5⟩, -⟩⟩ := ho i nd hn hi
    obtain rfl := h3 ds hp
    rw [← FS.backendPath_ne h1] at h4
    obtain ⟨o, h6, rfl⟩ := sm_eq hr h0 hds h4
    refine ⟨?_, fun _ => ⟨o, h6⟩⟩
    unfold kindAt
    rw [if_neg h1, h6]
    rcases h5 with h5 | ⟨-, t, -, h5⟩ <;> rw [h5] <;> rfl

theorem confirms_of (hw : Whole T) (ht : Local.Tree T) (hr : root ≠ []) (h0 : (0 : UInt8) ∉ root) (hH : Has root H T ∨ Gone H) (ok : s.OK) (wf : s.WF)
    (ho : Orig (SM root T) (TM root T) s) {j : Ino} {fs : List Bytes} (hp : s.PathTo j fs) (hfs : ∀ c ∈ fs, Plain c) :
    Confirms (backend root H) (fun ds a => fmt a.mode = kindAt T ds) fs ∧ Holds (fun ds a => fmt a.mode = kindAt T ds) fs s := by
  have sub : ∀ {ds}, ds <+: fs → ∀ c ∈ ds, Plain c := fun hd c hc => hfs c (hd.subset hc)
  have holds : Holds (fun ds a => fmt a.mode = kindAt T ds) fs s :=
    ⟨⟨j, hp⟩, fun ds k nd hd hk hn => (orig_kind hr h0 ok ho hk (sub hd) hn).1⟩
  refine ⟨?_, holds⟩
  have there : ∀ ds, ds <+: fs → ds ≠ [] → ∃ o, T ds = some o := by
    intro ds hd hne
    obtain ⟨k, hk⟩ := hp.take hd
    obtain ⟨nd, hn⟩ := conn_exists ok ⟨_, hk⟩
    exact (orig_kind hr h0 ok ho hk (sub hd) hn).2 hne
  have kind : ∀ {ds o}, ds ≠ [] → T ds = some o → fmt o.stat.mode = kindAt T ds := by
    intro ds o hne h; unfold kindAt; rw [if_neg hne, h]
  rcases hH with hT | hG
  · refine ⟨fun ds k hd hne => ?_, fun ds m names e hd hB => ?_, fun ds a hd ha hl => ?_⟩
    · obtain ⟨o, h1⟩ := there ds hd hne
      refine .inl ⟨o.stat, ?_, kind hne h1⟩
      rw [← FS.backendPath_ne hne]; exact back_there hT hr h0 (sub hd) h1 k
    · have hd' : ds <+: fs := List.IsPrefix.trans (List.prefix_append _ _) hd
      obtain ⟨o2, h2⟩ := there _ hd (by simp)
      have hnames : ∃ o ns, T ds = some o ∧ o.names = some ns := by
        by_cases hne : ds = []
        · subst hne; obtain ⟨o, ns, h1, h2, -⟩ := hw.top; exact ⟨o, ns, h1, h2⟩
        · obtain ⟨o, h1⟩ := there ds hd' hne
          obtain ⟨k, hk⟩ := hp.take hd
          obtain ⟨q, hq, hat⟩ := hk.snoc
          obtain ⟨x, h3, h4⟩ := hat
          obtain ⟨-, y, h5, h6⟩ := wf k x q m h3 h4
          have := (orig_kind hr h0 ok ho hq (sub hd') h5).1
          rw [h6, ← kind hne h1] at this
          obtain ⟨ns, hns⟩ := hw.dir h1 this.symm
          exact ⟨o, ns, h1, hns⟩
      obtain ⟨o, ns, h1, hns⟩ := hnames
      obtain ⟨l, g1, g2, -⟩ := back_opendir hT hr h0 (sub hd') h1 hns
      rw [hB] at g1; cases g1
      have hm : m ∈ names := (g2 m).mpr (.inr (.inr ((ht.child h1 hns).mpr ⟨sub hd m (by simp), by rw [h2]; simp⟩)))
      obtain ⟨k, hk⟩ := List.getElem?_of_mem hm
      refine ⟨k, o2.stat, hk, ?_⟩
      rw [← FS.backendPath_ne (by simp)]; exact back_there hT hr h0 (sub hd) h2 k
    · have hne : ds ≠ [] := by
        rintro rfl
        rw [show kindAt T [] = S_IFDIR from if_pos rfl] at ha
        rw [ha] at hl; cases hl
      obtain ⟨o, h1⟩ := there ds hd hne
      have hk := kind hne h1
      rw [← ha, hl] at hk
      obtain ⟨t, htg⟩ := hw.link h1 hk
      refine .inl ⟨t, ?_, ha⟩
      rw [← FS.backendPath_ne hne]; exact back_readlink hT ht hr h0 (sub hd) h1 htg
  · refine ⟨fun ds k hd hne => ?_, fun ds m names e hd hB => absurd hB (gone_opendir hG), fun ds a hd ha hl => ?_⟩
    · right; rw [← FS.backendPath_ne hne]; exact gone_lstat hr h0 hG (sub hd) k
    · right
      have hne : ds ≠ [] := by
        rintro rfl
        rw [show kindAt T [] = S_IFDIR from if_pos rfl] at ha
        rw [ha] at hl; cases hl
      rw [← FS.backendPath_ne hne]; exact gone_readlink hr h0 hG (sub hd)

/-- Nothing with a plain path vanishes. -/
theorem abs_paths (hw : Whole T) (ht : Local.Tree T) (hr : root ≠ []) (h0 : (0 : UInt8) ∉ root) {B : Backend} {rq rep} (h : Abs B d s r rq rep s' r') (hI : SI s d r)
    (hi : rq.inRange) (hd : rq.onDir d) (hn : s.next + 1 < W64) (hn2 : ∀ p names e, B.opendir p = .ok (names, e) → s.next + names.length + 1 < W64)
    (hQ : Asked root T d rq B) (ho : Orig (SM root T) (TM root T) s) {j : Ino} {fs : List Bytes} (hp : s.PathTo j fs) (hfs : ∀ c ∈ fs, Plain c) : s'.PathTo j fs := by
  obtain ⟨r1, e⟩ := abs_eff h hI hi hd hn
  obtain ⟨-, hl, H, rfl, hH⟩ := hQ
  obtain ⟨h1, h2⟩ := confirms_of hw ht hr h0 hH hI.ok hI.wf ho hp hfs
  exact (abs_stay h hI (e.ok hI.ok) hi hd hl hn hn2 h1 (fun c hc => (hfs c hc).1.1) (fun ds a b g1 g2 => g1.trans g2.symm) h2).1 _ _ (List.prefix_refl _) hp

theorem abs_full (hw : Whole T) (ht : Local.Tree T) (hr : root ≠ []) (h0 : (0 : UInt8) ∉ root) {B : Backend} {rq rep} (h : Abs B d s r rq rep s' r') (hI : SI s d r)
    (hi : rq.inRange) (hd : rq.onDir d) (hn : s.next + 1 < W64) (hn2 : ∀ p names e, B.opendir p = .ok (names, e) → s.next + names.length + 1 < W64)
    (hQ : Asked root T d rq B) (ho : Orig (SM root T) (TM root T) s) (hF : Full T s) : Full T s' := by
  obtain ⟨r1, e⟩ := abs_eff h hI hi hd hn
  have ok' := e.ok hI.ok
  intro i nd' cs hp' hcs hn' hf m hm hlen hT
  rcases abs_flags h hn' hf with ⟨nd, g1, g2⟩ | ⟨rfl, rfl, cs0, x, g1, g2⟩
  · have hp := e.path_back hI.ok hI.wf hp' (hI.ok.bound i nd g1).2
    obtain ⟨j, hj⟩ := hF i nd cs hp hcs g1 g2 m hm hlen hT
    have hj' := abs_paths hw ht hr h0 h hI hi hd hn hn2 hQ ho (.child hj hp) (plain_snoc hcs hm)
    obtain ⟨q, k1, k2⟩ := hj'.snoc
    obtain rfl := PathTo.inj ok' k1 hp'
    exact ⟨j, k2⟩
  · obtain ⟨nd, hnd⟩ := conn_exists hI.ok ⟨_, g1⟩
    have hp := e.path_back hI.ok hI.wf hp' (hI.ok.bound i nd hnd).2
    obtain rfl := PathTo.unique hI.ok g1 hp
    obtain ⟨-, -, H, rfl, hH⟩ := hQ
    rcases hH with hH | hG
    · have hnames : ∃ o ns, T cs0 = some o ∧ o.names = some ns := by
        by_cases hne : cs0 = []
        · subst hne; obtain ⟨o, ns, h1, h2, -⟩ := hw.top; exact ⟨o, ns, h1, h2⟩
        · obtain ⟨k1, k2⟩ := orig_kind hr h0 hI.ok ho hp hcs hnd
          obtain ⟨o, h1⟩ := k2 hne
          have hdir := hd _ (getattr_some hI hnd)
          simp only at hdir
          rw [hdir] at k1
          unfold kindAt at k1
          rw [if_neg hne, h1] at k1
          obtain ⟨ns, hns⟩ := hw.dir h1 k1.symm
          exact ⟨o, ns, h1, hns⟩
      obtain ⟨o, ns, h1, hns⟩ := hnames
      obtain ⟨l, b1, b2, -⟩ := back_opendir hH hr h0 hcs h1 hns
      have hmem : m ∈ l := (b2 m).mpr (.inr (.inr ((ht.child h1 hns).mpr ⟨hm, hT⟩)))
      obtain ⟨o', ho'⟩ : ∃ o', T (cs0 ++ [m]) = some o' := by
        cases hx : T (cs0 ++ [m]) with
        | none => exact absurd hx hT
        | some o' => exact ⟨o', rfl⟩
      have hseen : Seen (backend root H) (backendPath (pathStr cs0)) l m o'.stat := seen_const hmem (fun k => by
        rw [entryPath_eq (fun c hc => (hcs c hc).1.1), ← FS.backendPath_ne (by simp)]
        exact back_there hH hr h0 (plain_snoc hcs hm) ho' k)
      have hgood : GoodName m := ⟨hlen, hm.2.2.2, hm.1.2⟩
      generalize hrep : Reply.opened = rep at h
      generalize hrq : Req.opendir i = rq at h
      cases h with
      | odSync c1 c2 c3 =>
        cases hrq
        obtain rfl := PathTo.unique hI.ok c1 hp
        rw [b1] at c2; cases c2
        exact (c3.entries ⟨_, c1⟩).2.1 m _ hgood hseen
      | odOff c1 c2 =>
        cases hrq
        obtain rfl := PathTo.unique hI.ok c1 hp
        rw [b1] at c2; cases c2
      | odGone => cases hrep
      | odErr => cases hrep
      | _ => cases hrq
    · exact absurd g2 (gone_opendir hG)

theorem Full.collected {L : Ino → Prop} (h : Full T s) (hc : Collected s L s') : Full T s' := by
  intro i nd' cs hp hcs hn hf m hm hlen hT
  obtain ⟨hg, nd, h1, -, h2, -, -⟩ := hc.back hn
  have back : ∀ {k ds}, s'.PathTo k ds → s.PathTo k ds := by
    intro k ds hk
    induction hk with
    | root => exact .root
    | child hat _ ih => exact .child ((at_collected hc).mp hat).1 ih
  obtain ⟨j, hj⟩ := h i nd cs (back hp) hcs h1 (by rw [← h2]; exact hf) m hm hlen hT
  exact ⟨j, (at_collected hc).mpr ⟨hj, fun hh => hg hh.1⟩⟩

/-- What holds for the tree at all times. -/
structure Sound (root : Bytes) (T : HTree) (s : Cache.Tree) : Prop where
  orig : Orig (SM root T) (TM root T) s
  full : Full T s

theorem kept_sound (hw : Whole T) (ht : Local.Tree T) (hr : root ≠ []) (h0 : (0 : UInt8) ∉ root) : Kept (Asked root T) (Sound root T) where
  root := fun {s uid gid now} h ok => by
    have hro : Orig (SM root T) (TM root T) s := fun i nd hi hr => absurd (root_only h ok hi) hr
    refine ⟨hro, ?_⟩
    intro i nd cs hp hcs hn hf
    exfalso
    obtain rfl := root_only h ok hn
    have h1 := h.ino_some hn
    have hfl : nd.flags = 0 := by
      change (Tab.empty.put (Codec.key8 ROOT) _).find (Codec.key8 ROOT) = some (recOf nd) at h1
      rw [Tab.find_put, if_pos rfl] at h1
      have := congrArg Inode.flags (Option.some.inj h1)
      exact this.symm
    rw [hfl, hasFlag_zero] at hf; cases hf
  coll := fun h hc => ⟨h.orig.collected hc, h.full.collected hc⟩
  abs := fun h hI hi hd hn hn2 hQ hs => by
    refine ⟨abs_orig h hI hi hd hQ.1 hn2 ?_ hs.orig, abs_full hw ht hr h0 h hI hi hd hn hn2 hQ hs.orig hs.full⟩
    obtain ⟨-, -, H, rfl, hH⟩ := hQ
    exact said_of hH

/-! ### Theorems -/

/-- The cache agrees with the tree on the host: an object which has a path in the cache is there on the
host; and a directory which counts as synchronised has exactly the entries which it has on the host. -/
structure Agrees (T : HTree) (d : DB) : Prop where
  there : ∀ {i cs}, i < W64 → Cache.path d i = .ok (.ok (pathStr cs)) → (∀ c ∈ cs, Plain c) → T cs ≠ none
  sync : ∀ {i cs}, i < W64 → Cache.path d i = .ok (.ok (pathStr cs)) → (∀ c ∈ cs, Plain c) → testFlag d i SYNCED = .ok true →
    ∀ n, Plain n → n.length ≤ 503 → ((∃ j, Cache.lookup d i n = .ok (.ok j)) ↔ T (cs ++ [n]) ≠ none)

/-- The reply to a lookup of `n` in the directory `p` of a mirrored tree, which has the path `cs`: the object
with its attributes, and an inode number which has its path from then on; or that there is none, and then
there is none; or an I/O error, only without a connection and if the directory does not count as
synchronised. `d` and `d'` are the databases before and after. -/
def LookupExact (root : Bytes) (T : HTree) (d d' : DB) (B : Backend) (p : Ino) (n : Bytes) (cs : List Bytes) : Reply → Prop
  | .entry st => st.ino < W64 ∧ Cache.path d' st.ino = .ok (.ok (pathStr (cs ++ [n]))) ∧ ∃ o, T (cs ++ [n]) = some o ∧ Shows st o.stat o.stat.size
  | .err e => T (cs ++ [n]) = none ∧ NotThere e ∨ e = EIO ∧ testFlag d p SYNCED ≠ .ok true ∧ ∃ H, B = backend root H ∧ Gone H
  | _ => False

theorem sound_agrees (hw : Whole T) (hr : root ≠ []) (h0 : (0 : UInt8) ∉ root) (h : Rep s d) (ok : s.OK) (wf : s.WF) (hs : Sound root T s) : Agrees T d := by
  have hI := si_empty h ok wf
  refine ⟨fun {i cs} hi hp hcs => ?_, fun {i cs} hi hp hcs hf n hn hlen => ⟨?_, fun hT => ?_⟩⟩
  · have hpt := path_comps hI hi (fun c hc => (hcs c hc).1) hp
    obtain ⟨nd, hnd⟩ := conn_exists ok ⟨_, hpt⟩
    by_cases hne : cs = []
    · subst hne
      obtain ⟨o, ns, h1, -⟩ := hw.top
      rw [h1]; simp
    · obtain ⟨o, ho⟩ := (orig_kind hr h0 ok hs.orig hpt hcs hnd).2 hne
      rw [ho]; simp
  · rintro ⟨j, hj⟩
    have hpt := path_comps hI hi (fun c hc => (hcs c hc).1) hp
    have hat := (h.lookup_iff ok hi).mp hj
    obtain ⟨nd, hnd, hl⟩ := hat
    obtain ⟨o, ho⟩ := (orig_kind hr h0 ok hs.orig (.child ⟨nd, hnd, hl⟩ hpt) (plain_snoc hcs hn) hnd).2 (by simp)
    rw [ho]; simp
  · have hpt := path_comps hI hi (fun c hc => (hcs c hc).1) hp
    obtain ⟨nd, hnd⟩ := conn_exists ok ⟨_, hpt⟩
    rw [h.testFlag ok hi, hnd] at hf
    obtain ⟨j, hj⟩ := hs.full i nd cs hpt hcs hnd (by simpa using hf) n hn hlen hT
    exact ⟨j, h.lookup_found ok hj⟩

theorem lookup_exact (hw : Whole T) (ht : Local.Tree T) (hr : root ≠ []) (h0 : (0 : UInt8) ∉ root) {B : Backend} {p : Ino} {n : Bytes} {rep : Reply}
    (h : Abs B d s r (.lookup p n) rep s' r') (hI : SI s d r) (hI' : SI s' d' r') (hi : p < W64) (hdir : Req.onDir d (.lookup p n)) (hnext : s.next + 1 < W64)
    (hQ : Asked root T d (.lookup p n) B) (hs : Sound root T s) {cs : List Bytes}
    (hp : Cache.path d p = .ok (.ok (pathStr cs))) (hcs : ∀ c ∈ cs ++ [n], Plain c) (hlen : n.length ≤ 503) : LookupExact root T d d' B p n cs rep := by
  have hcs' : ∀ c ∈ cs, Plain c := fun c hc => hcs c (by simp [hc])
  have hn : Plain n := hcs n (by simp)
  have hgood : GoodName n := ⟨hlen, hn.2.2.2, hn.1.2⟩
  have hpt := path_comps hI hi (fun c hc => (hcs' c hc).1) hp
  have hag := sound_agrees hw hr h0 hI.rep hI.ok hI.wf hs
  have hne : cs ++ [n] ≠ [] := by simp
  have bound : ∀ {i nd}, s'.nodes i = some nd → i < W64 := fun h => OK.lt hI'.ok h
  obtain ⟨-, -, H, rfl, hH⟩ := hQ
  have gone : (backend root H).lstat 0 (pathStr (cs ++ [n])) = .error ENOTCONN → Gone H := by
    intro h
    rcases hH with hH | hG
    · rw [← FS.backendPath_ne hne] at h
      cases hT : T (cs ++ [n]) with
      | some o => rw [back_there hH hr h0 hcs hT 0] at h; cases h
      | none =>
        obtain ⟨e, h1, h2⟩ := back_absent hH hr h0 hcs hT 0
        rw [h1] at h; cases h
        exact absurd rfl h2.conn
    · exact hG
  have err : ∀ {e}, (backend root H).lstat 0 (pathStr (cs ++ [n])) = .error e → e ≠ ENOTCONN → T (cs ++ [n]) = none ∧ NotThere e := by
    intro e h he
    rw [← FS.backendPath_ne hne] at h
    rcases hH with hH | hG
    · cases hT : T (cs ++ [n]) with
      | some o => rw [back_there hH hr h0 hcs hT 0] at h; cases h
      | none =>
        obtain ⟨e', h1, h2⟩ := back_absent hH hr h0 hcs hT 0
        rw [h1] at h; cases h
        exact ⟨rfl, h2⟩
    · rw [gone_lstat hr h0 hG hcs 0] at h; cases h; exact absurd rfl he
  cases h with
  | lkGone hc => exact absurd ⟨_, hpt⟩ hc
  | lkBad h1 h2 h3 => cases h3 with | bad hb => exact absurd hgood hb
  | @lkPut _ _ cs0 sr i _ _ h1 h2 h3 =>
    obtain rfl := PathTo.unique hI.ok h1 hpt
    obtain ⟨pn, hpn⟩ := conn_exists hI.ok ⟨_, hpt⟩
    obtain ⟨g1, g2, nd, g3, g4⟩ := h3.found hI.ok h1 (isDir_of hI hi hdir hpn) hnext
    refine ⟨bound g3, hI'.rep.path_found hI'.ok (.child g2 g1), ?_⟩
    rcases hH with hH | hG
    · rw [← FS.backendPath_ne hne] at h2
      obtain ⟨o, ho, rfl⟩ := sm_eq hr h0 hcs ⟨H, 0, hH, h2⟩
      exact ⟨o, ho, shows_osStat i o.stat o.stat.size⟩
    · rw [← FS.backendPath_ne hne, gone_lstat hr h0 hG hcs 0] at h2; cases h2
  | @lkHit _ _ cs0 i nd h1 h2 h3 h4 =>
    obtain rfl := PathTo.unique hI.ok h1 hpt
    have hit : s.PathTo i (cs0 ++ [n]) := .child ⟨nd, h3, h4⟩ h1
    refine ⟨bound h3, hI'.rep.path_found hI'.ok hit, ?_⟩
    have hir : i ≠ ROOT := by rintro rfl; exact absurd (PathTo.root_nil hI.ok hit) hne
    obtain ⟨es, -, -, k3, k4⟩ := hs.orig i nd h3 hir
    obtain rfl := k3 _ hit
    exact from_eq ht hr h0 hcs hne (k4.from_ i)
  | @lkMiss _ _ cs0 h1 h2 h3 =>
    obtain rfl := PathTo.unique hI.ok h1 hpt
    rw [if_neg (by omega)]
    by_cases hf : testFlag d p SYNCED = .ok true
    · rw [if_pos hf]
      refine .inl ⟨?_, .inl rfl⟩
      cases hT : T (cs0 ++ [n]) with
      | none => rfl
      | some o =>
        obtain ⟨j, hj⟩ := (hag.sync hi hp hcs' hf n hn hlen).mpr (by rw [hT]; simp)
        exact absurd ((hI.rep.lookup_iff hI.ok hi).mp hj) (h3 j)
    · rw [if_neg hf]
      exact .inr ⟨rfl, hf, H, rfl, gone h2⟩
  | @lkErr _ _ cs0 be i _ _ h1 h2 h3 h4 h5 =>
    obtain rfl := PathTo.unique hI.ok h1 hpt
    exact .inl (err h2 h3)
  | @lkErrMiss _ _ cs0 be h1 h2 h3 h4 =>
    obtain rfl := PathTo.unique hI.ok h1 hpt
    exact .inl (err h2 h3)

/-- The answer to reading the link with path `cs`: its target, or, only without a connection, that it is none. -/
def LinkExact (root : Bytes) (T : HTree) (B : Backend) (cs : List Bytes) : Reply → Prop
  | .readlink t => ∃ o, T cs = some o ∧ o.target = some t
  | .err e => e = EINVAL ∧ ∃ H, B = backend root H ∧ Gone H
  | _ => False

/-- What each request is answered, in terms of the tree on the host. `d` are the databases which the
request saw, `d'` those after it. -/
def Exact (root : Bytes) (T : HTree) (d d' : DB) (B : Backend) : Req → Reply → Prop
  | .lookup p n, rep => ∀ cs, Cache.path d p = .ok (.ok (pathStr cs)) → (∀ c ∈ cs ++ [n], Plain c) → n.length ≤ 503 → LookupExact root T d d' B p n cs rep
  | .readlink i, rep => ∀ cs, Cache.path d i = .ok (.ok (pathStr cs)) → (∀ c ∈ cs, Plain c) → LinkExact root T B cs rep
  | .opendir i, rep => ∀ cs, Cache.path d i = .ok (.ok (pathStr cs)) → (∀ c ∈ cs, Plain c) → rep = .opened ∧
      (testFlag d' i SYNCED = .ok true ∨ ∃ H, B = backend root H ∧ Gone H)
  | .getattr i, rep => ∀ cs, Cache.path d i = .ok (.ok (pathStr cs)) → (∀ c ∈ cs, Plain c) → cs ≠ [] → ∃ st o, rep = .attr st ∧ st.ino = i ∧ T cs = some o ∧ Shows st o.stat o.stat.size
  | _, _ => True

theorem link_exact (hw : Whole T) (ht : Local.Tree T) (hr : root ≠ []) (h0 : (0 : UInt8) ∉ root) {B : Backend} {i : Ino} {rep : Reply}
    (h : Abs B d s r (.readlink i) rep s' r') (hI : SI s d r) (hi : i < W64) (hQ : Asked root T d (.readlink i) B) (hs : Sound root T s) {cs : List Bytes}
    (hp : Cache.path d i = .ok (.ok (pathStr cs))) (hcs : ∀ c ∈ cs, Plain c) : LinkExact root T B cs rep := by
  have hpt := path_comps hI hi (fun c hc => (hcs c hc).1) hp
  obtain ⟨nd0, hnd0⟩ := conn_exists hI.ok ⟨_, hpt⟩
  obtain ⟨-, hl, H, rfl, hH⟩ := hQ
  have hlk : fmt nd0.attr.mode = S_IFLNK := hl _ (getattr_some hI hnd0)
  obtain ⟨k1, k2⟩ := orig_kind hr h0 hI.ok hs.orig hpt hcs hnd0
  have hne : cs ≠ [] := by
    rintro rfl
    rw [hlk, show kindAt T [] = S_IFDIR from if_pos rfl] at k1; cases k1
  obtain ⟨o, ho⟩ := k2 hne
  rw [hlk] at k1
  unfold kindAt at k1
  rw [if_neg hne, ho] at k1
  obtain ⟨t, htg⟩ := hw.link ho k1.symm
  have hnul := (ht.size ho htg).2
  have res : Has root H T ∧ (backend root H).readlink (backendPath (pathStr cs)) = .ok t ∨ Gone H ∧ (backend root H).readlink (backendPath (pathStr cs)) = .error ENOTCONN := by
    rcases hH with hH | hG
    · exact .inl ⟨hH, back_readlink hH ht hr h0 hcs ho htg⟩
    · exact .inr ⟨hG, gone_readlink hr h0 hG hcs⟩
  cases h with
  | rlGone hc => exact absurd ⟨_, hpt⟩ hc
  | @rlPut _ cs0 dest nd h1 h2 h3 h4 =>
    obtain rfl := PathTo.unique hI.ok h1 hpt
    rcases res with ⟨-, h⟩ | ⟨-, h⟩ <;> rw [h2] at h <;> cases h
    exact ⟨o, ho, by rw [cstr_id hnul]; exact htg⟩
  | rlOther h1 h2 h3 h4 => rw [hnd0] at h3; cases h3; exact absurd hlk h4
  | @rlHit _ cs0 nd t' h1 h2 h3 h4 =>
    obtain rfl := PathTo.unique hI.ok h1 hpt
    rw [hnd0] at h3; cases h3
    have hir : i ≠ ROOT := by rintro rfl; exact absurd (PathTo.root_nil hI.ok hpt) hne
    obtain ⟨es, -, -, k3, k4⟩ := hs.orig i nd0 hnd0 hir
    obtain rfl := k3 _ hpt
    have k5 := k4.2 t' h4
    rw [← FS.backendPath_ne hne] at k5
    obtain ⟨o', ho', htg'⟩ := tm_eq ht hr h0 hcs k5
    exact ⟨o', ho', by rw [cstr_id (ht.size ho' htg').2]; exact htg'⟩
  | @rlMiss _ cs0 nd h1 h2 h3 h4 =>
    obtain rfl := PathTo.unique hI.ok h1 hpt
    rcases res with ⟨-, h⟩ | ⟨hG, h⟩
    · rw [h2] at h; cases h
    · exact ⟨rfl, H, rfl, hG⟩
  | @rlErr _ cs0 be _ _ h1 h2 h3 h4 h5 =>
    obtain rfl := PathTo.unique hI.ok h1 hpt
    rcases res with ⟨-, h⟩ | ⟨-, h⟩ <;> rw [h2] at h <;> cases h
    exact absurd rfl h3
  | rlErrRoot h1 => exact absurd (PathTo.root_nil hI.ok hpt) hne

theorem open_exact (hw : Whole T) (hr : root ≠ []) (h0 : (0 : UInt8) ∉ root) {B : Backend} {i : Ino} {rep : Reply}
    (h : Abs B d s r (.opendir i) rep s' r') (hI : SI s d r) (hI' : SI s' d' r') (hi : i < W64) (hd : Req.onDir d (.opendir i)) (hQ : Asked root T d (.opendir i) B) (hs : Sound root T s) {cs : List Bytes}
    (hp : Cache.path d i = .ok (.ok (pathStr cs))) (hcs : ∀ c ∈ cs, Plain c) : rep = .opened ∧ (testFlag d' i SYNCED = .ok true ∨ ∃ H, B = backend root H ∧ Gone H) := by
  have hpt := path_comps hI hi (fun c hc => (hcs c hc).1) hp
  obtain ⟨nd0, hnd0⟩ := conn_exists hI.ok ⟨_, hpt⟩
  obtain ⟨-, -, H, rfl, hH⟩ := hQ
  have hnames : ∃ o ns, T cs = some o ∧ o.names = some ns := by
    by_cases hne : cs = []
    · subst hne; obtain ⟨o, ns, h1, h2, -⟩ := hw.top; exact ⟨o, ns, h1, h2⟩
    · obtain ⟨k1, k2⟩ := orig_kind hr h0 hI.ok hs.orig hpt hcs hnd0
      obtain ⟨o, h1⟩ := k2 hne
      have hdir := hd _ (getattr_some hI hnd0)
      simp only at hdir
      rw [hdir] at k1
      unfold kindAt at k1
      rw [if_neg hne, h1] at k1
      obtain ⟨ns, hns⟩ := hw.dir h1 k1.symm
      exact ⟨o, ns, h1, hns⟩
  obtain ⟨o, ns, h1, hns⟩ := hnames
  have on : Has root H T → ∃ l, (backend root H).opendir (backendPath (pathStr cs)) = .ok (l, 0) := fun hH => by
    obtain ⟨l, b1, -⟩ := back_opendir hH hr h0 hcs h1 hns
    exact ⟨l, b1⟩
  cases h with
  | odGone hc => exact absurd ⟨_, hpt⟩ hc
  | odOff c1 c2 =>
    obtain rfl := PathTo.unique hI.ok c1 hpt
    refine ⟨rfl, .inr ⟨H, rfl, ?_⟩⟩
    rcases hH with hH | hG
    · obtain ⟨l, hl⟩ := on hH
      rw [c2] at hl; cases hl
    · exact hG
  | @odErr _ cs0 be c1 c2 c3 =>
    obtain rfl := PathTo.unique hI.ok c1 hpt
    rcases hH with hH | hG
    · obtain ⟨l, hl⟩ := on hH
      rw [c2] at hl; cases hl
    · exfalso
      change opendir root H _ = _ at c2
      unfold opendir at c2
      obtain ⟨p, g1, g2, g3⟩ := written hr h0 (plain_comps hcs)
      rw [g1] at c2; simp only [hG.opendir] at c2; cases c2; exact c3 rfl
  | odSync c1 c2 c3 =>
    obtain rfl := PathTo.unique hI.ok c1 hpt
    obtain ⟨-, -, ⟨nd, g1, g2⟩, -⟩ := c3.entries ⟨_, c1⟩
    refine ⟨rfl, .inl ?_⟩
    rw [hI'.rep.testFlag hI'.ok hi, g1]; simp only [g2]

theorem getattr_exact (ht : Local.Tree T) (hr : root ≠ []) (h0 : (0 : UInt8) ∉ root) (h : Rep s d) (ok : s.OK) (wf : s.WF) {B : Backend} {i : Ino} {rep : Reply} {st : St}
    (hi : i < W64) (hh : handle B { disk := d, refs := r } (.getattr i) = .ok st) (hsent : st.sent = [rep]) (hs : Sound root T s) {cs : List Bytes}
    (hp : Cache.path d i = .ok (.ok (pathStr cs))) (hcs : ∀ c ∈ cs, Plain c) (hne : cs ≠ []) : ∃ st o, rep = .attr st ∧ st.ino = i ∧ T cs = some o ∧ Shows st o.stat o.stat.size := by
  have hI := si_empty h ok wf
  have hpt := path_comps hI hi (fun c hc => (hcs c hc).1) hp
  obtain ⟨nd, hnd⟩ := conn_exists ok ⟨_, hpt⟩
  have hir : i ≠ ROOT := by rintro rfl; exact absurd (PathTo.root_nil ok hpt) hne
  simp only [handle, FS.getattr] at hh
  rw [h.getattr ok hi, hnd] at hh
  cases hh; cases hsent
  obtain ⟨es, -, -, k3, k4⟩ := hs.orig i nd hnd hir
  obtain rfl := k3 _ hpt
  obtain ⟨o, h1, h2⟩ := from_eq ht hr h0 hcs hne (k4.from_ i)
  exact ⟨_, o, rfl, rfl, h1, h2⟩

theorem saw_exact (hw : Whole T) (ht : Local.Tree T) (hr : root ≠ []) (h0 : (0 : UInt8) ∉ root) {q : Done} (h : Saw (Sound root T) d d' q)
    (hQ : readOnly q.rq = false → Asked root T d q.rq q.B) : Exact root T d d' q.B q.rq q.rep := by
  obtain ⟨rq, B, v, rep⟩ := q
  cases h with
  | @wrote s r s' r' hro k1 ho hin hon hnx hnx2 k3 k4 =>
    simp only at hro hQ hin hon k4 ⊢
    have hQ := hQ hro
    cases rq with
    | lookup p n => exact fun cs hp hcs hlen => lookup_exact hw ht hr h0 k4 k1 k3 hin hon hnx hQ ho hp hcs hlen
    | readlink i => exact fun cs hp hcs => link_exact hw ht hr h0 k4 k1 hin hQ ho hp hcs
    | opendir i => exact fun cs hp hcs => open_exact hw hr h0 k4 k1 k3 hin hon hQ ho hp hcs
    | getattr i => cases hro
    | _ => trivial
  | @read s r st s1 hro hrep ok wf ho hin hret hcnt hh hsent hf _ =>
    simp only at hro hin hh hsent ⊢
    cases rq with
    | lookup => cases hro
    | readlink => cases hro
    | opendir => cases hro
    | getattr i => exact fun cs hp hcs hne => getattr_exact ht hr h0 hrep ok wf hin hh hsent ho hp hcs hne
    | _ => trivial

/-- What holds for all requests which have ended (`hist`) and the databases `ds` after 0, 1, 2, ... of them. -/
structure Mirrors (root : Bytes) (T : HTree) (ds : List DB) (hist : List Done) : Prop where
  /-- the root directory has the empty path -/
  top : ∀ d ∈ ds, Cache.path d ROOT = .ok (.ok [])
  /-- the cache agrees with the tree -/
  agrees : ∀ d ∈ ds, Agrees T d
  /-- an inode number which has a path keeps it -/
  stays : ∀ {k k' : Nat} {d d' : DB} {i : Ino} {cs : List Bytes}, k ≤ k' → ds[k]? = some d → ds[k']? = some d' → i < W64 → (∀ c ∈ cs, Plain c) →
    Cache.path d i = .ok (.ok (pathStr cs)) → Cache.path d' i = .ok (.ok (pathStr cs))
  /-- answers are exact -/
  exact_ : ∀ (k : Nat) (q : Done), hist[k]? = some q → ∃ d d', seen ds k q = some d ∧ ds[k + 1]? = some d' ∧ Exact root T d d' q.B q.rq q.rep

theorem mirror_inv (hw : Whole T) (ht : Local.Tree T) (hr : root ≠ []) (h0 : (0 : UInt8) ∉ root) {m : MSys} (h : MReachD (Asked root T) m) :
    ∃ d0 r0 threads ds R, Steps (MSys.start d0 r0 threads) m ∧ OneByOne d0 r0 ds R m.hist ∧ ds.getLast? = some m.w.disk ∧ Mirrors root T ds m.hist ∧
      PInv (Sound root T) ds m.hist ∧ (∀ d ∈ ds, ∃ s, Rep s d ∧ s.OK ∧ s.WF ∧ Sound root T s) ∧ ∀ q ∈ m.hist, ∃ H, q.B = backend root H ∧ (Has root H T ∨ Gone H) := by
  obtain ⟨d0, r0, n, L, H, vs, R, ds, s, hst, hM, hR, hP, hA⟩ := h.inv (kept_sound hw ht hr h0)
  have tree : ∀ d ∈ ds, ∃ s, Rep s d ∧ s.OK ∧ s.WF ∧ Sound root T s := by
    intro d hd
    obtain ⟨s1, f1, f2, f3⟩ := hP.all d hd
    obtain ⟨⟨s2, hold⟩, -⟩ := hR.old d hd
    obtain rfl := Rep.inj f1 f2 hold.rep hold.ok
    exact ⟨s1, f1, f2, hold.wf, f3⟩
  have one : ∀ {k : Nat} {d d' : DB} {i : Ino} {cs : List Bytes}, ds[k]? = some d → ds[k + 1]? = some d' → i < W64 → (∀ c ∈ cs, Plain c) →
      Cache.path d i = .ok (.ok (pathStr cs)) → Cache.path d' i = .ok (.ok (pathStr cs)) := by
    intro k d d' i cs hk hk' hi hcs hp
    have hlen := hM.one.length
    have hlt : k + 1 < ds.length := (List.getElem?_eq_some_iff.mp hk').1
    obtain ⟨q, hdq⟩ : ∃ q, m.hist[k]? = some q := ⟨_, List.getElem?_eq_getElem (by omega)⟩
    cases hro : readOnly q.rq with
    | true =>
      have := hM.one.ro_same hdq hro
      rw [hk', hk] at this; cases this
      exact hp
    | false =>
      obtain ⟨e', d2, f1, f2, f3⟩ := hP.saw k q hdq
      unfold seen at f1
      rw [hro, if_neg (by simp), hk] at f1; cases f1
      rw [hk'] at f2; cases f2
      cases f3 with
      | @wrote s2 r2 s3 r3 _ k1 ho hin hon hnx hnx2 k3 k4 =>
        have hpt := path_comps k1 hi (fun c hc => (hcs c hc).1) hp
        exact k3.rep.path_found k3.ok (abs_paths hw ht hr h0 k4 k1 hin hon hnx hnx2 (hA k q d hdq hk) ho.orig hpt hcs)
      | read h1 => rw [hro] at h1; cases h1
  refine ⟨d0, r0, n, ds, R, hst, hM.one, hM.last, ⟨fun d hd => ?_, fun d hd => ?_, ?_, fun k q hk => ?_⟩, hP, tree, fun q hq => ?_⟩
  · obtain ⟨s1, f1, f2, -⟩ := tree d hd
    exact f1.path_found f2 .root
  · obtain ⟨s1, f1, f2, f3, f4⟩ := tree d hd
    exact sound_agrees hw hr h0 f1 f2 f3 f4
  · intro k k' d d' i cs hkk
    obtain ⟨n, rfl⟩ : ∃ n, k' = k + n := ⟨k' - k, by omega⟩
    clear hkk
    induction n generalizing d' with
    | zero => intro h1 h2 _ _ hp; rw [Nat.add_zero, h1] at h2; cases h2; exact hp
    | succ n ih =>
      intro h1 h2 hi hcs hp
      have hlt : k + n + 1 < ds.length := (List.getElem?_eq_some_iff.mp h2).1
      obtain ⟨e, he⟩ : ∃ e, ds[k + n]? = some e := ⟨_, List.getElem?_eq_getElem (by omega)⟩
      exact one he h2 hi hcs (ih h1 he hi hcs hp)
  · obtain ⟨d, d', f1, f2, f3⟩ := hP.saw k q hk
    refine ⟨d, d', f1, f2, saw_exact hw ht hr h0 f3 (fun hro => hA k q d hk ?_)⟩
    unfold seen at f1
    rw [hro, if_neg (by simp)] at f1; exact f1
  · obtain ⟨k, hk⟩ := List.getElem?_of_mem hq
    have hlen := hM.one.length
    have hlt := (List.getElem?_eq_some_iff.mp hk).1
    exact (hA k q _ hk (List.getElem?_eq_getElem (show k < ds.length by omega))).2.2

/-- C90: if the tree on the host never changes, the cache agrees with it at all times, objects keep their
inode numbers, and all answers are exact: with any number of threads, after any crashes, whether
the host is connected or not. `ds` are the databases after 0, 1, 2, ... requests have ended, since the
last start. -/
theorem C90_mirror (hw : Whole T) (ht : Local.Tree T) (hr : root ≠ []) (h0 : (0 : UInt8) ∉ root) {m : MSys} (h : MReachD (Asked root T) m) :
    ∃ d0 r0 threads ds R, Steps (MSys.start d0 r0 threads) m ∧ OneByOne d0 r0 ds R m.hist ∧ ds.getLast? = some m.w.disk ∧ Mirrors root T ds m.hist := by
  obtain ⟨d0, r0, n, ds, R, h1, h2, h3, h4, -⟩ := mirror_inv hw ht hr h0 h
  exact ⟨d0, r0, n, ds, R, h1, h2, h3, h4⟩

/-! ### Example -/

theorem treeA_whole : Whole treeA := by
  refine ⟨⟨_, _, rfl, rfl, by decide +kernel⟩, fun {cs o} h hm => ?_, fun {cs o} h hm => ?_⟩
  · unfold treeA at h
    split at h <;> cases h <;> first | exact ⟨_, rfl⟩ | exact absurd hm (by decide +kernel)
  · unfold treeA at h
    split at h <;> cases h <;> first | exact ⟨_, rfl⟩ | exact absurd hm (by decide +kernel)

/-- A request comes while the host is connected or not, a thread makes a step, or the process dies and a new one starts. -/
inductive WEv
  | ask (k : Nat) (b : Bool) (rq : Req)
  | go (k : Nat)
  | die

def onLinkB (d : DB) : Req → Bool
  | .readlink i => match Cache.getattr d i with
    | .ok x => decide (fmt x.2.mode = S_IFLNK)
    | .error _ => true
  | _ => true

def runW (m : MSys) (cap : Nat) : List WEv → Option (MSys × Nat)
  | [] => some (m, cap)
  | .ask k b rq :: l => match m.th[k]? with
    | some .idle =>
      if rq.inRangeB && returnedB m.held rq && roomB m.w cap && namedB rq then
        runW { m.to k (.recv rq (hostB b)) with held := fun i => m.held i - rq.returned i } cap l
      else none
    | _ => none
  | .go k :: l => match demoMT m cap [.go k] with
    | none => none
    | some (m', cap') =>
      if (m'.hist.drop m.hist.length).all (fun q => onLinkB m.w.disk q.rq) then runW m' cap' l else none
  | .die :: l => match openCleanDB (initDB m.w.disk 0 0 ⟨0, 0⟩) Refs.empty with
    | .error _ => none
    | .ok (d, r) => if roomB (CWorld.start d r) 0 then runW (MSys.start d r 2) 0 l else none

/-- The requests of the examples. -/
def QW (rq : Req) (B : Backend) : Prop := rq.named ∧ ∃ b, B = hostB b

theorem QW.asked {rq : Req} {B : Backend} {d : DB} (h : QW rq B) (hl : onLinkB d rq = true) : Asked rootR treeA d rq B := by
  obtain ⟨h, b, rfl⟩ := h
  refine ⟨h, ?_, _, rfl, hostA b⟩
  cases rq with
  | readlink i =>
    intro x hx
    unfold onLinkB at hl; simp only [hx] at hl
    exact of_decide_eq_true hl
  | _ => trivial

structure AtW (cap : Nat) (m : MSys) : Prop where
  ready : Ready QW cap m
  reach : MReachD (Asked rootR treeA) m

theorem AtW.run : ∀ {l : List WEv} {m m' : MSys} {cap cap' : Nat}, AtW cap m → runW m cap l = some (m', cap') → AtW cap' m' := by
  intro l
  induction l with
  | nil => intro m m' cap cap' h hd; cases hd; exact h
  | cons a l ih =>
    intro m m' cap cap' h hd
    cases a with
    | go k =>
      unfold runW at hd
      cases h1 : demoMT m cap [.go k] with
      | none => rw [h1] at hd; cases hd
      | some x =>
        obtain ⟨m1, cap1⟩ := x
        rw [h1] at hd
        simp only at hd
        by_cases hv : ((m1.hist.drop m.hist.length).all (fun q => onLinkB m.w.disk q.rq)) = true
        case neg => rw [if_neg hv] at hd; cases hd
        rw [if_pos hv] at hd
        obtain ⟨r1, k', g2, g3, g4⟩ := h.ready.event (a := .go k) trivial h1
        refine ih ⟨r1, .step h.reach g2 g3 g4 (fun q hq => ?_)⟩ hd
        exact (r1.hist q (by rw [hq]; simp)).asked (List.all_eq_true.mp hv q (by rw [hq]; simp))
    | ask k b rq =>
      unfold runW at hd
      cases hk : m.th[k]? with
      | none => rw [hk] at hd; cases hd
      | some st =>
        rw [hk] at hd
        cases st with
        | idle =>
          simp only at hd
          by_cases hv : (rq.inRangeB && returnedB m.held rq && roomB m.w cap && namedB rq) = true
          case neg => rw [if_neg hv] at hd; cases hd
          rw [if_pos hv] at hd
          simp only [Bool.and_eq_true] at hv
          obtain ⟨⟨⟨h1, h2⟩, h4⟩, h5⟩ := hv
          have hs : Step m k { m.to k (.recv rq (hostB b)) with held := fun i => m.held i - rq.returned i } := .issue hk
          have hlen : k < m.th.length := (List.getElem?_eq_some_iff.mp hk).1
          have hp : Proper m k { m.to k (.recv rq (hostB b)) with held := fun i => m.held i - rq.returned i } := .issue (rq := rq) (B := hostB b)
            (by simp only [MSys.to]; rw [List.getElem?_set, if_pos rfl, if_pos hlen])
            (by cases rq <;> simp_all [Req.inRangeB, Req.inRange]; exact h1) (returnedB_iff h2)
            (fun p names e hp => by have := treeA_names (b := b) hp; omega)
          have hR := roomB_iff h.ready.counts h4
          refine ih (cap := cap) ⟨⟨h.ready.reach.step hs hp hR, h.ready.counts, fun j st hj => ?_, h.ready.hist⟩, .step h.reach hs hp hR (fun q hq => ?_)⟩ hd
          · have hj' : (m.th.set k (.recv rq (hostB b)))[j]? = some st := hj
            rw [List.getElem?_set] at hj'
            by_cases e : k = j
            · subst e
              rw [if_pos rfl, if_pos hlen] at hj'
              cases hj'
              refine ⟨?_, b, rfl⟩
              cases rq with
              | lookup p n => exact (of_decide_eq_true h5 : n ≠ [])
              | _ => trivial
            · rw [if_neg e] at hj'; exact h.ready.asks j st hj'
          · have : m.hist = m.hist ++ [q] := hq
            have := congrArg List.length this
            simp at this
        | _ => simp only at hd; cases hd
    | die =>
      unfold runW at hd
      cases ho : openCleanDB (initDB m.w.disk 0 0 ⟨0, 0⟩) Refs.empty with
      | error e => rw [ho] at hd; cases hd
      | ok x =>
        obtain ⟨d, r⟩ := x
        rw [ho] at hd
        simp only at hd
        by_cases hroom : roomB (CWorld.start d r) 0 = true
        case neg => rw [if_neg hroom] at hd; cases hd
        rw [if_pos hroom] at hd
        obtain ⟨-, -, -, -, -, d', r', -, -, -, g1, g2, -, -, -⟩ := C85_crash h.ready.reach 0 0 ⟨0, 0⟩
        rw [ho] at g1; cases g1
        have hc : ∀ i, (r i).nrefs ≤ 0 := fun i => Nat.le_of_eq (g2 i)
        have hR : Room (CWorld.start d r) := roomB_iff (cap := 0) hc hroom
        exact ih ⟨ready_start (.remount h.ready.reach ho hR) hc, .remount h.reach ho hR⟩ hd

/-- Examples: a new cache, then events. -/
def demoW (l : List WEv) : Option (MSys × Nat) :=
  match openCleanDB (initDB emptyDB 0 0 ⟨0, 0⟩) Refs.empty with
  | .error _ => none
  | .ok (d0, r0) => if roomB (CWorld.start d0 r0) 0 then runW (MSys.start d0 r0 2) 0 l else none

theorem demoW_ex {l : List WEv} {P : MSys → Prop} [∀ m, Decidable (P m)]
    (h : (match demoW l with | some (m, _) => decide (P m) | none => false) = true) : ∃ m, MReachD (Asked rootR treeA) m ∧ P m := by
  cases hd : demoW l with
  | none => rw [hd] at h; cases h
  | some x =>
    obtain ⟨m, cap⟩ := x
    rw [hd] at h
    refine ⟨m, ?_, of_decide_eq_true h⟩
    unfold demoW at hd
    cases ho : openCleanDB (initDB emptyDB 0 0 ⟨0, 0⟩) Refs.empty with
    | error e => rw [ho] at hd; cases hd
    | ok x =>
      obtain ⟨d0, r0⟩ := x
      rw [ho] at hd
      simp only at hd
      by_cases hroom : roomB (CWorld.start d0 r0) 0 = true
      case neg => rw [if_neg hroom] at hd; cases hd
      rw [if_pos hroom] at hd
      have hc0 : ∀ i, (r0 i).nrefs ≤ 0 := by
        obtain ⟨s, h1, h2, h3⟩ := root_rep 0 0 ⟨0, 0⟩
        exact fun i => Nat.le_of_eq (open_counts (si_empty h1 h2 h3) ho i)
      have hR : Room (CWorld.start d0 r0) := roomB_iff (cap := 0) hc0 hroom
      exact (AtW.run ⟨ready_start (.mount ho hR) hc0, .mount ho hR⟩ hd).reach

/-- The link `l` is looked up and read, `a` and `d` are looked up, and the root directory is listed while the host is
connected. The process dies while a thread reads attributes. In the new process, with the connection lost, `d`
and `l` are looked up by two threads at once; then `l` is read, and `a`, `x` and `d/b` are looked up. -/
def eventsW : List WEv :=
  .ask 0 true (.lookup 1 [0x6c]) :: List.replicate 7 (.go 0) ++ .ask 1 true (.readlink 2) :: List.replicate 6 (.go 1) ++
  .ask 0 true (.lookup 1 [0x61]) :: List.replicate 7 (.go 0) ++ .ask 0 true (.lookup 1 [0x64]) :: List.replicate 7 (.go 0) ++
  .ask 1 true (.opendir 1) :: List.replicate 13 (.go 1) ++ [.ask 0 true (.getattr 2), .go 0, .die] ++
  [.ask 1 false (.lookup 1 [0x6c]), .ask 0 false (.lookup 1 [0x64])] ++ List.replicate 7 (.go 0) ++ [.go 1, .go 1, .go 0, .go 1, .go 1, .go 1, .go 1, .go 1, .go 1] ++
  .ask 0 false (.readlink 2) :: List.replicate 6 (.go 0) ++ .ask 0 false (.lookup 1 [0x61]) :: List.replicate 8 (.go 0) ++
  .ask 0 false (.lookup 1 [0x78]) :: List.replicate 7 (.go 0) ++ .ask 0 false (.lookup 4 [0x62]) :: List.replicate 7 (.go 0)

/-- What was answered: inode numbers, or errors. -/
def brief : Reply → Nat
  | .entry st => st.ino
  | .err e => 1000 + e
  | _ => 0

theorem eventsW_ex : ∃ m, MReachD (Asked rootR treeA) m ∧ m.hist.map (·.rq) = [.lookup 1 [0x64], .lookup 1 [0x6c], .readlink 2, .lookup 1 [0x61], .lookup 1 [0x78], .lookup 4 [0x62]] ∧
    m.hist.map (fun q => brief q.rep) = [4, 2, 0, 3, 1000 + ENOENT, 1000 + EIO] := demoW_ex (l := eventsW) (by decide +kernel)

/-- The hypotheses of `C90_mirror` can be met: by these events. -/
example : ∃ (m : MSys) (ds : List DB), m.hist.length = 6 ∧ Mirrors rootR treeA ds m.hist := by
  obtain ⟨m, h1, h2, -⟩ := eventsW_ex
  obtain ⟨-, -, -, ds, -, -, -, -, h3⟩ := C90_mirror treeA_whole treeA_tree rootR_ne rootR_nul h1
  exact ⟨m, ds, by have := congrArg List.length h2; simpa using this, h3⟩

end Dragonstash.Local
