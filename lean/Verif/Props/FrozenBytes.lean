/-
  C106 on the stored bytes.
-/
import Verif.Props.Frozen
import Verif.Props.LifeBytes
namespace Dragonstash.MTB
open Cache FS Cache.B

/-- As `MT.SameAt`: an inode and what is in it look the same to those who read two database files. -/
structure SameAt (d d' : Cache.B.DB) (i : Ino) : Prop where
  path : Cache.B.path d' i = Cache.B.path d i
  attr : Cache.B.getattr d' i = Cache.B.getattr d i
  link : Cache.B.readlink d' i = Cache.B.readlink d i
  flag : ∀ f, Cache.B.testFlag d' i f = Cache.B.testFlag d i f
  names : ∀ n, Cache.B.lookup d' i n = Cache.B.lookup d i n
  list : ∀ c, c < W64 → Cache.B.readdir d' i c = Cache.B.readdir d i c

theorem sameAt_rel {b b' : Cache.B.DB} {d d' : Cache.DB} (h : DRel b d) (h' : DRel b' d') {i : Ino} (hs : MT.SameAt d d' i) : SameAt b b' i :=
  ⟨by rw [path_rel h, path_rel h', hs.path], by rw [getattr_rel h, getattr_rel h', hs.attr], by rw [readlink_rel h, readlink_rel h', hs.link],
    fun f => by rw [testFlag_rel h, testFlag_rel h', hs.flag], fun n => by rw [lookup_rel h, lookup_rel h', hs.names],
    fun c hc => by rw [readdir_rel h, readdir_rel h', hs.list c hc]⟩

/-- C106: as `MT.C106_frozen`. -/
theorem C106_bytes_frozen {past : List (Req × Reply)} {m m' : MSys} {b : Nat} (hm : Life past m) (h : Since (fun _ _ B => Offline B) m b m') {i : Ino} (hi : i < W64)
    (hp : (∃ p, Cache.B.path m.w.disk i = .ok (.ok p)) ∨ ∃ p, Cache.B.path m'.w.disk i = .ok (.ok p)) : SameAt m.w.disk m'.w.disk i := by
  obtain ⟨m1, h1, h2⟩ := hm.rel
  obtain ⟨m2, h3, h4⟩ := h.rel (Q' := MT.Off) (fun _ h => h) h2
  rw [path_rel h2.w.disk, path_rel h4.w.disk] at hp
  exact sameAt_rel h2.w.disk h4.w.disk (MT.C106_frozen h1.reach h3 hi hp)

/-- C106: as `MT.C106_same`. -/
theorem C106_bytes_same {past : List (Req × Reply)} {m m1 m2 : MSys} {b1 b2 : Nat} (hm : Life past m) (h1 : Since (fun _ _ B => Offline B) m b1 m1) (h2 : Since (fun _ _ B => Offline B) m b2 m2)
    {k1 k2 : Nat} {q1 q2 : MT.Done} (hq1 : m1.hist[k1]? = some q1) (ha1 : q1.after k1 b1) (hq2 : m2.hist[k2]? = some q2) (ha2 : q2.after k2 b2) (he : q1.rq = q2.rq)
    (hp : ∀ i, q1.rq.about = some i → ∃ p, Cache.B.path m.w.disk i = .ok (.ok p)) : q1.rep = q2.rep := by
  obtain ⟨n, g1, g2⟩ := hm.rel
  obtain ⟨n1, g3, g4⟩ := h1.rel (Q' := MT.Off) (fun _ h => h) g2
  obtain ⟨n2, g5, g6⟩ := h2.rel (Q' := MT.Off) (fun _ h => h) g2
  rw [g4.hist] at hq1
  rw [g6.hist] at hq2
  exact MT.C106_same g1.reach g3 g5 hq1 ha1 hq2 ha2 he (fun i hi => by rw [← path_rel g2.w.disk]; exact hp i hi)

/-! ### Non-vacuity -/

theorem frozen_ok1 : ∀ e ∈ MT.frozenDemo1, e.Asks asksFits := by
  intro e he
  simp only [MT.frozenDemo1, List.mem_append] at he
  rcases he with (he | he) | he
  · exact MT.asks_Asks (tbl_ok (by decide +kernel) (by decide +kernel) (rq := .lookup 1 [0x61]) (List.cons_ne_nil _ _)) e he
  · exact MT.asks_Asks (tbl_ok (by decide +kernel) (by decide +kernel) (rq := .opendir 1) trivial) e he
  · rw [List.mem_singleton.mp he]; trivial

theorem frozen_ok2 : ∀ e ∈ MT.frozenDemo2, e.Asks (fun rq B => asksFits rq B ∧ Offline B) := by
  intro e he
  simp only [MT.frozenDemo2, List.mem_append] at he
  rcases he with (he | he) | he
  · exact MT.asks_Asks ⟨tbl_ok (by decide +kernel) (by decide +kernel) (rq := .lookup 1 [0x61]) (List.cons_ne_nil _ _), offline_table⟩ e he
  · exact MT.asks_Asks ⟨tbl_ok (by decide +kernel) (by decide +kernel) (rq := .lookup 1 [0x62]) (List.cons_ne_nil _ _), offline_table⟩ e he
  · exact MT.asks_Asks ⟨tbl_ok (by decide +kernel) (by decide +kernel) (rq := .readdirplus 1 500 0) trivial, offline_table⟩ e he

/-- The hypotheses of `C106_bytes_frozen` and `C106_bytes_same` can be met. -/
example (pad : Ino → Nat) : ∃ past m m1 m2 b1 b2, Life past m ∧ Since (fun _ _ B => Offline B) m b1 m1 ∧ Since (fun _ _ B => Offline B) m b2 m2 ∧
    Cache.B.path m.w.disk 1 = .ok (.ok []) ∧ Cache.B.lookup m.w.disk 1 [0x61] = .ok (.ok 2) ∧
    ∃ q1 q2 l n, m1.hist[2]? = some q1 ∧ q1.after 2 b1 ∧ m2.hist[2]? = some q2 ∧ q2.after 2 b2 ∧ q1.rq = .readdirplus 1 500 0 ∧ q2.rq = .readdirplus 1 500 0 ∧
      q1.rep = .bufPlus l n ∧ l.map (·.name) = [[0x2e], [0x61], [0x6c]] := by
  have hs := MT.frozen_says
  generalize hd : MT.frozenRun = o at hs
  obtain _ | ⟨⟨p0, m, c0⟩, ⟨p1, m1, c1⟩, p2, m2, c2⟩ := o
  · cases hs
  unfold MT.frozenRun at hd
  obtain ⟨⟨p0', y0, c0'⟩, h1, hd⟩ := Option.bind_eq_some_iff.mp hd
  obtain ⟨⟨p1', y1, c1'⟩, h2, hd⟩ := Option.bind_eq_some_iff.mp hd
  obtain ⟨⟨p2', y2, c2'⟩, h3, hd⟩ := Option.bind_eq_some_iff.mp hd
  cases hd
  simp only at h2 h3
  simp only [Bool.and_eq_true, decide_eq_true_eq] at hs
  obtain ⟨⟨e1, e2⟩, e3, e4, e5, e6, e7⟩ := hs
  obtain ⟨b, f1, f2, f3, f4, f5⟩ := lstart_bytes pad (Qe := asksFits) (fun _ _ h => h.1) (fun _ _ h => h.2) frozen_ok1 h1
  have f5' : MT.Ready (fun rq B => asksFits rq B ∧ Offline B) c0 m := by
    refine ⟨f5.reach, f5.counts, fun j st hj => ?_, fun q hq => by rw [e4] at hq; cases hq⟩
    have := List.all_eq_true.mp e7 st (List.mem_of_getElem? hj)
    cases st with
    | idle => trivial
    | recv => cases this
    | run => cases this
    | committed => cases this
    | answer => cases this
    | leaving => cases this
    | left => cases this
  have hA3 : ∀ e ∈ MT.LEv.die 3 :: MT.frozenDemo2, e.Asks (fun rq B => asksFits rq B ∧ Offline B) := fun e he => by
    rcases List.mem_cons.mp he with rfl | he
    · trivial
    · exact frozen_ok2 e he
  obtain ⟨b', n', k1, k2, k3, k4, -, k5⟩ := lrun_bytes pad (Q := fun _ _ B => Offline B) (fun _ _ _ h => h.2) (fun _ _ h => h.1.1) (fun _ _ h => h.1.2) f4 f5' frozen_ok2 h2 f1 f2 f3 .refl
  obtain ⟨g1, g2, -⟩ := MT.lrun_since (Q := fun _ _ _ => True) (fun _ _ _ _ => trivial) .refl f4 f5' frozen_ok2 h2
  obtain ⟨b'', n'', j1, -, -, j4, j5, -⟩ := lrun_bytes pad (Q := fun _ _ B => Offline B) (fun _ _ _ h => h.2) (fun _ _ h => h.1.1) (fun _ _ h => h.1.2) g1 g2 hA3 h3 k1 k2 k3 k4
  have hn := k5 (by decide)
  rw [f1.hist, e4] at hn
  simp only [List.length_nil] at hn
  have hn' := j5 (by decide)
  subst hn hn'
  have key : ∀ {y : MSys} {z : MT.MSys}, MSRel y z → MT.frozenB (z.hist.map (fun q => (q.rq, q.rep))) = true → ∃ q l n, y.hist[2]? = some q ∧ q.rq = .readdirplus 1 500 0 ∧ q.rep = .bufPlus l n ∧
      l.map (·.name) = [[0x2e], [0x61], [0x6c]] := by
    intro y z hyz hy
    rw [hyz.hist]
    unfold MT.frozenB at hy
    split at hy
    · rename_i st e l n he
      simp only [Bool.and_eq_true, decide_eq_true_eq] at hy
      have : (z.hist.map (fun q => (q.rq, q.rep)))[2]? = some (.readdirplus 1 500 0, .bufPlus l n) := by rw [he]; rfl
      rw [List.getElem?_map] at this
      obtain ⟨q, hq, hh⟩ := Option.map_eq_some_iff.mp this
      cases q with
      | mk rq B v rep => cases hh; exact ⟨_, l, n, hq, rfl, rfl, hy.2⟩
    · cases hy
  obtain ⟨q1, l, n, x1, x2, x3, x4⟩ := key k1 e1
  obtain ⟨q2, -, -, x5, x6, -⟩ := key j1 e2
  exact ⟨_, b, b', b'', 0, 0, f2, k4, j4, by rw [path_rel f1.w.disk]; exact e5, by rw [lookup_rel f1.w.disk]; exact e6, q1, q2, l, n, x1, ⟨Nat.zero_le _, fun _ => Nat.zero_le _⟩, x5,
    ⟨Nat.zero_le _, fun _ => Nat.zero_le _⟩, x2, x6, x3, x4⟩

end Dragonstash.MTB
