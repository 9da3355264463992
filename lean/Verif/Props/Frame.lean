/-
  C108: the effects of requests are local.
-/
import Verif.FS.Frame
import Verif.Props.Frozen
namespace Dragonstash.MT
open Cache FS Conc
variable {m m' : MSys} {b : Nat} {cs : List Bytes} {n : Bytes} {p : Ino}

/-- Requests which do not concern the entry `n` of the directory with the path `cs`: the backend, as far as it is connected, confirms that there are directories along the path
`cs`, and is not asked about the entry. -/
def Elsewhere (cs : List Bytes) (n : Bytes) (d : DB) (rq : Req) (B : Backend) : Prop :=
  Confirms B Dirs cs ∧ rq.onLink d ∧ rq.spares d B cs n

/-- Nor is the entry itself read as a directory. -/
def Apart (cs : List Bytes) (n : Bytes) (d : DB) (rq : Req) (B : Backend) : Prop :=
  Elsewhere cs n d rq B ∧ rq.sparesDir d B (cs ++ [n])

/-- What is kept: the directory is at its place, the entry is the same. -/
def Fixed {α : Type} (K : Node → α) (cs : List Bytes) (p : Ino) (n : Bytes) (s0 s : Tree) : Prop :=
  FS.Holds Dirs cs s ∧ s.PathTo p cs ∧ Same K p n s0 s

theorem fixed_keep {α : Type} {K : Node → α} {Q : DB → Req → Backend → Prop} (hQ : ∀ d rq B, Q d rq B → Elsewhere cs n d rq B)
    (hK : (∀ nd f, K { nd with flags := f } = K nd) ∨ ∀ d rq B, Q d rq B → rq.sparesDir d B (cs ++ [n])) (hne : ∀ c ∈ cs, c ≠ []) (s0 : Tree) :
    Holds Q (Fixed K cs p n s0) := by
  constructor
  · intro s s' L ⟨h1, h2, h3⟩ ok hc
    have ha := Agree.coll ok hc
    obtain ⟨x, hx⟩ := conn_exists ok ⟨_, h2⟩
    refine ⟨⟨⟨p, ha.path h2⟩, fun ds k nd hd hk hnd => ?_⟩, ha.path h2, h3.trans (same_collected hc (by rw [ha.nodes p ⟨_, h2⟩, hx]; simp))⟩
    have hk' := ha.symm.path hk
    rw [ha.nodes k ⟨_, hk'⟩] at hnd
    exact h1.2 ds k nd hd hk' hnd
  · intro B d s r rq rep s' r' ha hI hr hd hn hn2 hq ⟨h1, h2, h3⟩
    obtain ⟨q1, q2, q3⟩ := hQ _ _ _ hq
    obtain ⟨r1, he⟩ := abs_eff ha hI hr hd hn
    have ok' := he.ok hI.ok
    have st := abs_stay ha hI ok' hr hd q2 hn hn2 q1 hne typed_dirs h1
    exact ⟨st.2, st.1 _ _ (List.prefix_refl _) h2, h3.trans (abs_same ha hI ok' hr hd q2 hn hn2 q1 hne h1 h2 q3 (hK.imp id (fun h => h _ _ _ hq)))⟩

/-- The entry in two databases. -/
theorem fixed_same {α : Type} {K : Node → α} {s s' : Tree} {d d' : DB} {r r' : Refs} (k : SI s d r) (k' : SI s' d' r') (hp : s.PathTo p cs) (h : Fixed K cs p n s s') :
    Cache.path d' p = Cache.path d p ∧ Cache.lookup d' p n = Cache.lookup d p n ∧
      ∀ i, Cache.lookup d p n = .ok (.ok i) → Cache.path d' i = Cache.path d i ∧ ∃ nd nd', s.nodes i = some nd ∧ s'.nodes i = some nd' ∧ K nd' = K nd := by
  obtain ⟨nd, hnd⟩ := conn_exists k.ok ⟨_, hp⟩
  have hb := OK.lt k.ok hnd
  have h0 := (k.ok.bound p nd hnd).1
  obtain ⟨-, hp', hs⟩ := h
  have hat : ∀ i, s'.At p n i ↔ s.At p n i := by
    intro i
    constructor
    · rintro ⟨x, h1, h2⟩; obtain ⟨y, h3, h4, -⟩ := (hs i _).mpr ⟨x, h1, h2, rfl⟩; exact ⟨y, h3, h4⟩
    · rintro ⟨x, h1, h2⟩; obtain ⟨y, h3, h4, -⟩ := (hs i _).mp ⟨x, h1, h2, rfl⟩; exact ⟨y, h3, h4⟩
  refine ⟨by rw [k.rep.path_found k.ok hp, k'.rep.path_found k'.ok hp'], ?_, fun i hi => ?_⟩
  · by_cases hn : 503 < n.length
    · rw [lookup_too_long hn, lookup_too_long hn]
    · by_cases hx : ∃ i, s.At p n i
      · obtain ⟨i, hx⟩ := hx
        rw [k.rep.lookup_found k.ok hx, k'.rep.lookup_found k'.ok ((hat i).mpr hx)]
      · rw [k.rep.lookup_missing k.ok hb (by omega) (by omega) (fun i hi => hx ⟨i, hi⟩),
          k'.rep.lookup_missing k'.ok hb (by omega) (by omega) (fun i hi => hx ⟨i, (hat i).mp hi⟩)]
  · have ha := (k.rep.lookup_iff k.ok hb).mp hi
    obtain ⟨x, h1, h2⟩ := id ha
    obtain ⟨y, h3, -, h5⟩ := (hs i _).mp ⟨x, h1, h2, rfl⟩
    exact ⟨by rw [k.rep.path_found k.ok (.child ha hp), k'.rep.path_found k'.ok (.child ((hat i).mpr ha) hp')], x, y, h1, h3, h5⟩

theorem holds_dirs {s : Tree} {d : DB} {r : Refs} (k : SI s d r) (hp : s.PathTo p cs) {a : Attrs} (ha : Cache.getattr d p = .ok (p, a)) (hdir : fmt a.mode = S_IFDIR) : FS.Holds Dirs cs s := by
  obtain ⟨nd, hnd⟩ := conn_exists k.ok ⟨_, hp⟩
  rw [getattr_some k hnd] at ha; cases ha
  obtain ⟨h1, h2⟩ := holds_along k.ok k.wf hp hnd hdir (P := fun a => fmt a.mode = S_IFDIR)
  refine ⟨h1, fun ds j x hd hj hx => ?_⟩
  have := h2 ds j x hd hj hx
  unfold along at this
  split at this <;> exact this

/-- An entry of a directory looks the same in two databases. -/
structure SameEntry (d d' : DB) (p : Ino) (n : Bytes) : Prop where
  dir : Cache.path d' p = Cache.path d p
  entry : Cache.lookup d' p n = Cache.lookup d p n
  path : ∀ i, Cache.lookup d p n = .ok (.ok i) → Cache.path d' i = Cache.path d i
  attr : ∀ i, Cache.lookup d p n = .ok (.ok i) → Cache.getattr d' i = Cache.getattr d i
  link : ∀ i, Cache.lookup d p n = .ok (.ok i) → Cache.readlink d' i = Cache.readlink d i

/-- What is observable of an inode, but for its flags. -/
def Node.shown (nd : Node) : Attrs × Option Bytes := (nd.attr, nd.target)

theorem fixed_entry {s s' : Tree} {d d' : DB} {r r' : Refs} (k : SI s d r) (k' : SI s' d' r') (hp : s.PathTo p cs) (h : Fixed Node.shown cs p n s s') : SameEntry d d' p n := by
  obtain ⟨h1, h2, h3⟩ := fixed_same k k' hp h
  refine ⟨h1, h2, fun i hi => (h3 i hi).1, fun i hi => ?_, fun i hi => ?_⟩ <;> obtain ⟨-, nd, nd', g1, g2, g3⟩ := h3 i hi <;> obtain ⟨e1, e2⟩ := Prod.mk.inj g3
  · rw [getattr_some k g1, getattr_some k' g2, e1]
  · have hb := OK.lt k.ok g1
    rw [k.rep.readlink k.ok hb, k'.rep.readlink k'.ok hb, g1, g2]
    simp [e1, e2]

section
variable (hm : MReach m) (hb : p < W64) (hcs : ∀ c ∈ cs, Component c) (hp : Cache.path m.w.disk p = .ok (.ok (pathStr cs))) {a : Attrs} (ha : Cache.getattr m.w.disk p = .ok (p, a))
  (hdir : fmt a.mode = S_IFDIR)
include hm hb hcs hp ha hdir

/-- **C108.** An entry which no request names while the backend is connected stays as it is — its inode number, path, attributes and link target, or that it does
not exist — whatever else is looked up, listed, replaced, removed or forgotten, with any number of threads, and however often the process dies and is started
again. -/
theorem C108_entry (h : Since (Elsewhere cs n) m b m') : SameEntry m.w.disk m'.w.disk p n := by
  obtain ⟨d0, r0, n', L, H, vs, R, ds, s, -, hM, hR⟩ := hm.inv
  obtain ⟨d0', r0', n'', L', H', vs', R', ds', s', -, hM', hR'⟩ := (h.reach hm).inv
  have hpt := path_comps hR.si hb hcs hp
  obtain ⟨⟨t, h1, h2, h3⟩, -⟩ := h.fits (fixed_keep (K := Node.shown) (p := p) (fun _ _ _ h => h) (.inl fun _ _ => rfl) (fun c hc => (hcs c hc).1) s) hm
    (fun t h1 h2 => by rw [Rep.inj h1 h2 hR.si.rep hR.si.ok]; exact ⟨holds_dirs hR.si hpt ha hdir, hpt, .refl⟩)
  obtain rfl := Rep.inj h1 h2 hR'.si.rep hR'.si.ok
  exact fixed_entry hR.si hR'.si hpt h3

/-- **C108.** If it is not read as a directory either, its flags stay too: it is (or is not) known completely, as before. -/
theorem C108_flags (h : Since (Apart cs n) m b m') {i : Ino} (hi : Cache.lookup m.w.disk p n = .ok (.ok i)) (f : Flag) : testFlag m'.w.disk i f = testFlag m.w.disk i f := by
  obtain ⟨d0, r0, n', L, H, vs, R, ds, s, -, hM, hR⟩ := hm.inv
  obtain ⟨d0', r0', n'', L', H', vs', R', ds', s', -, hM', hR'⟩ := (h.reach hm).inv
  have hpt := path_comps hR.si hb hcs hp
  obtain ⟨⟨t, h1, h2, h3⟩, -⟩ := h.fits (fixed_keep (K := fun nd => nd) (p := p) (fun _ _ _ h => h.1) (.inr fun _ _ _ h => h.2) (fun c hc => (hcs c hc).1) s) hm
    (fun t h1 h2 => by rw [Rep.inj h1 h2 hR.si.rep hR.si.ok]; exact ⟨holds_dirs hR.si hpt ha hdir, hpt, .refl⟩)
  obtain rfl := Rep.inj h1 h2 hR'.si.rep hR'.si.ok
  obtain ⟨-, nd, nd', g1, g2, rfl⟩ := (fixed_same hR.si hR'.si hpt h3).2.2 i hi
  have hb := OK.lt hR.si.ok g1
  rw [hR.si.rep.testFlag hR.si.ok hb, hR'.si.rep.testFlag hR'.si.ok hb, g1, g2]

/-- **C108.** So the attributes which requests are answered with are those of then. -/
theorem C108_getattr (h : Since (Elsewhere cs n) m b m') {i : Ino} (hi : Cache.lookup m.w.disk p n = .ok (.ok i)) {j : Ino} {x : Attrs} (hx : Cache.getattr m.w.disk i = .ok (j, x))
    {k : Nat} {q : Done} (hq : m'.hist[k]? = some q) (hafter : q.after k b) (hrq : q.rq = .getattr i) : q.rep = .attr (osStat i x) := by
  obtain ⟨d0, r0, n', L, H, vs, R, ds, s, -, hM, hR⟩ := hm.inv
  have hpt := path_comps hR.si hb hcs hp
  obtain ⟨d, d', e, h1, h2, h3, hB⟩ := h.saw (fixed_keep (K := Node.shown) (p := p) (fun _ _ _ h => h) (.inl fun _ _ => rfl) (fun c hc => (hcs c hc).1) s) hm
    (fun t h1 h2 => by rw [Rep.inj h1 h2 hR.si.rep hR.si.ok]; exact ⟨holds_dirs hR.si hpt ha hdir, hpt, .refl⟩) hq hafter
  have hright := saw_right h3
  obtain ⟨rq, B, v, rep⟩ := q
  simp only at hrq; subst hrq
  cases h3 with
  | wrote hr => cases hr
  | @read s1 r st s2 hr hrep ok wf =>
    have S := fixed_entry hR.si (si_empty hrep ok wf) hpt (h1 s1 hrep ok)
    have g : rep = match Cache.getattr d i with | .ok (_, a) => .attr (osStat i a) | .error e => .err e := hright
    rw [S.attr i hi, hx] at g
    exact g

/-- **C108.** And when the backend is not connected, looking it up gives what was stored then. -/
theorem C108_lookup (h : Since (Elsewhere cs n) m b m') {k : Nat} {q : Done} (hq : m'.hist[k]? = some q) (hafter : q.after k b) (hrq : q.rq = .lookup p n)
    (hoff : q.B.lstat 0 (pathStr (cs ++ [n])) = .error ENOTCONN) :
    (∀ i, Cache.lookup m.w.disk p n = .ok (.ok i) → ∃ x, Cache.getattr m.w.disk i = .ok (i, x) ∧ q.rep = .entry (osStat i x)) ∧
    ((∀ i, Cache.lookup m.w.disk p n ≠ .ok (.ok i)) → ∃ e, q.rep = .err e ∧ (e = ENOENT ∨ e = EIO ∨ e = ENAMETOOLONG)) := by
  obtain ⟨d0, r0, n', L, H, vs, R, ds, s, -, hM, hR⟩ := hm.inv
  have hpt := path_comps hR.si hb hcs hp
  obtain ⟨d, d', e, h1, h2, h3, hB⟩ := h.saw (fixed_keep (K := Node.shown) (p := p) (fun _ _ _ h => h) (.inl fun _ _ => rfl) (fun c hc => (hcs c hc).1) s) hm
    (fun t h1 h2 => by rw [Rep.inj h1 h2 hR.si.rep hR.si.ok]; exact ⟨holds_dirs hR.si hpt ha hdir, hpt, .refl⟩) hq hafter
  have hright := saw_right h3
  obtain ⟨rq, B, v, rep⟩ := q
  simp only at hrq hoff; subst hrq
  cases h3 with
  | read hr => cases hr
  | @wrote s1 r s2 r2 hr k1 =>
    have S := fixed_entry hR.si k1 hpt (h1 s1 k1.rep k1.ok)
    obtain ⟨-, g⟩ := hright
    obtain ⟨-, g, -⟩ := g _ (by rw [S.dir]; exact hp)
    obtain ⟨g1, g2⟩ := g (by rw [pathStr_snoc']; exact hoff)
    rw [S.entry] at g1 g2
    refine ⟨fun i hi => ?_, fun hno => ?_⟩
    · obtain ⟨a, g3, g4⟩ := g1 i hi
      rw [S.attr i hi] at g3
      exact ⟨a, g3, g4⟩
    · refine ⟨_, g2 hno, ?_⟩
      split
      · exact .inr (.inr rfl)
      · split
        · exact .inl rfl
        · exact .inr (.inl rfl)

end

/-! ### Non-vacuity -/

/-- `/a/b` is gone, there is `/a/c`. -/
def tblNow : Tbl where
  stats := [([0x2f, 0x61], .ok bDir), ([0x2f, 0x61, 0x2f, 0x63], .ok (bFile 8))]

/-- `/a/b` is looked up; the process dies. -/
def frameDemo1 : List LEv := asks tblA (.lookup 1 [0x61]) 7 ++ asks tblA (.lookup 2 [0x62]) 7 ++ [.die 2]

/-- `/a` and `/a/c` are looked up. Then the backend is not connected: `/a/b` is looked up, and its attributes are asked for. -/
def frameDemo2 : List LEv := asks tblNow (.lookup 1 [0x61]) 7 ++ (asks tblNow (.lookup 2 [0x63]) 7 ++ (asks .offline (.lookup 2 [0x62]) 8 ++ asks .offline (.getattr 3) 5))

def frameAsks (rq : Req) (B : Backend) : Prop := ∀ d, Apart [[0x61]] [0x62] d rq B

theorem tblNow_confirms : Confirms tblNow.backend Dirs [[0x61]] where
  lstat := fun ds k h1 h2 => by
    have : ds = [[0x61]] := by
      rcases List.prefix_concat_iff (l₂ := []).mp h1 with h | h
      · exact h
      · exact absurd (List.prefix_nil.mp h) h2
    subst this
    exact .inl ⟨bDir, rfl, by unfold Dirs; decide⟩
  opendir := fun ds m names e _ h => by cases h
  readlink := fun ds a _ h1 h2 => by unfold Dirs at h1; rw [h1] at h2; cases h2

theorem frame_asks : ∀ e ∈ frameDemo2, e.Asks frameAsks := by
  intro e he
  simp only [frameDemo2, List.mem_append] at he
  rcases he with he | he | he | he
  · exact asks_Asks (rq := .lookup 1 [0x61]) (Q := frameAsks) (fun d => ⟨⟨tblNow_confirms, trivial, fun h => by cases h⟩, trivial⟩) e he
  · exact asks_Asks (rq := .lookup 2 [0x63]) (Q := frameAsks) (fun d => ⟨⟨tblNow_confirms, trivial, fun h => by cases h⟩, trivial⟩) e he
  · exact asks_Asks (rq := .lookup 2 [0x62]) (Q := frameAsks) (fun d => ⟨⟨offline_table.confirms _ _, trivial, fun _ _ => rfl⟩, trivial⟩) e he
  · exact asks_Asks (rq := .getattr 3) (Q := frameAsks) (fun d => ⟨⟨offline_table.confirms _ _, trivial, trivial⟩, trivial⟩) e he

theorem frame_says : (match twoLives frameDemo1 frameDemo2 with
    | some ((_, m, _), (_, m', _)) => decide (m.hist = [] ∧ m.th.all (fun t => match t with | .idle => true | _ => false) = true ∧
        Cache.path m.w.disk 2 = .ok (.ok [0x2f, 0x61]) ∧ Cache.getattr m.w.disk 2 = .ok (2, fromBackend bDir) ∧ Cache.lookup m.w.disk 2 [0x62] = .ok (.ok 3) ∧
        Cache.getattr m.w.disk 3 = .ok (3, fromBackend (bFile 5)) ∧ Cache.lookup m.w.disk 2 [0x63] = .ok (.error ENOENT) ∧ Cache.lookup m'.w.disk 2 [0x63] = .ok (.ok 4) ∧
        m'.hist.map (·.rq) = [.lookup 1 [0x61], .lookup 2 [0x63], .lookup 2 [0x62], .getattr 3])
    | none => false) = true := by decide +kernel

/-- The hypotheses of `C108_entry`, `C108_flags`, `C108_getattr` and `C108_lookup` can be met: `/a/b` stays as it is, while `/a` and `/a/c` are looked up. -/
example : ∃ m m' q q', MReach m ∧ Since (Elsewhere [[0x61]] [0x62]) m 0 m' ∧ Since (Apart [[0x61]] [0x62]) m 0 m' ∧ (∀ c ∈ [[(0x61 : UInt8)]], Component c) ∧
    Cache.path m.w.disk 2 = .ok (.ok (pathStr [[0x61]])) ∧ Cache.getattr m.w.disk 2 = .ok (2, fromBackend bDir) ∧ fmt (fromBackend bDir).mode = S_IFDIR ∧
    Cache.lookup m.w.disk 2 [0x62] = .ok (.ok 3) ∧ Cache.getattr m.w.disk 3 = .ok (3, fromBackend (bFile 5)) ∧ m'.w.disk ≠ m.w.disk ∧
    m'.hist[2]? = some q ∧ q.after 2 0 ∧ q.rq = .lookup 2 [0x62] ∧ m'.hist[3]? = some q' ∧ q'.after 3 0 ∧ q'.rq = .getattr 3 := by
  have hs := frame_says
  generalize hd : twoLives frameDemo1 frameDemo2 = o at hs
  obtain _ | ⟨⟨p0, m, c0⟩, p1, m', c1⟩ := o
  · cases hs
  simp only [decide_eq_true_eq] at hs
  obtain ⟨e1, e2, e3, e4, e5, e6, e7, e8, e9⟩ := hs
  unfold twoLives at hd
  obtain ⟨⟨p0', y0, c0'⟩, h1, hd⟩ := Option.bind_eq_some_iff.mp hd
  obtain ⟨⟨p1', y1, c1'⟩, h2, hd⟩ := Option.bind_eq_some_iff.mp hd
  cases hd
  simp only at h2
  obtain ⟨g1, g2⟩ := lstart_life (Qe := fun _ _ => True) (fun e _ => anyAsks e) h1
  have g2' : Ready frameAsks c0 m := by
    refine ⟨g2.reach, g2.counts, fun j st hj => ?_, fun q hq => by rw [e1] at hq; cases hq⟩
    have := List.all_eq_true.mp e2 st (List.mem_of_getElem? hj)
    cases st with
    | idle => trivial
    | recv => cases this
    | run => cases this
    | committed => cases this
    | answer => cases this
    | leaving => cases this
    | left => cases this
  obtain ⟨-, -, b, f1, -, fb⟩ := lrun_since (Q := Elsewhere [[0x61]] [0x62]) (fun _ _ _ h => (h _).1) (.refl (m := m)) g1 g2' frame_asks h2
  obtain ⟨-, -, b', f2, -, fb'⟩ := lrun_since (Q := Apart [[0x61]] [0x62]) (fun _ _ _ h => h _) (.refl (m := m)) g1 g2' frame_asks h2
  have hb := fb (by decide)
  have hb' := fb' (by decide)
  rw [e1] at hb hb'
  simp only [List.length_nil] at hb hb'
  subst hb hb'
  have at_ : ∀ (k : Nat) rq, [Req.lookup 1 [0x61], .lookup 2 [0x63], .lookup 2 [0x62], .getattr 3][k]? = some rq → ∃ q, m'.hist[k]? = some q ∧ q.rq = rq := by
    intro k rq hk
    rw [← e9, List.getElem?_map] at hk
    obtain ⟨q, hq, hh⟩ := Option.map_eq_some_iff.mp hk
    exact ⟨q, hq, hh⟩
  obtain ⟨q, k1, k2⟩ := at_ 2 _ rfl
  obtain ⟨q', k3, k4⟩ := at_ 3 _ rfl
  have hne : m'.w.disk ≠ m.w.disk := by
    intro h
    rw [h, e7] at e8; cases e8
  refine ⟨m, m', q, q', g1.reach, f1, f2, ?_, e3, e4, by decide, e5, e6, hne, k1, ⟨Nat.zero_le _, fun _ => Nat.zero_le _⟩, k2, k3, ⟨Nat.zero_le _, fun _ => Nat.zero_le _⟩, k4⟩
  intro c hc
  rw [List.mem_singleton.mp hc]
  exact ⟨by decide, by decide⟩

end Dragonstash.MT
