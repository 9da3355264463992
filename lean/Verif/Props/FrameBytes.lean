/-
  C125: an entry which no request names stays as it is, on the stored bytes (C108).
-/
import Verif.Props.Frame
import Verif.Props.FrozenBytes
namespace Dragonstash.MTB
open Cache FS Conc ConcB
variable {m m' : MSys} {b : Nat} {cs : List Bytes} {n : Bytes} {p : Ino}

/-! ### Specification -/

/-- The request does not ask the backend, as far as it is connected, about the entry `n` of the directory with the path `cs` (as `Req.spares`, in terms of the
paths in a database file `d`). -/
def spares (d : Cache.B.DB) (B : Backend) (cs : List Bytes) (n : Bytes) : Req → Prop
  | .lookup q x => x = n → Cache.B.path d q = .ok (.ok (pathStr cs)) → B.lstat 0 (pathStr (cs ++ [n])) = .error ENOTCONN
  | .readlink i => Cache.B.path d i = .ok (.ok (pathStr (cs ++ [n]))) → B.readlink (backendPath (pathStr (cs ++ [n]))) = .error ENOTCONN
  | .opendir i => Cache.B.path d i = .ok (.ok (pathStr cs)) → ∃ e, B.opendir (backendPath (pathStr cs)) = .error e
  | _ => True

/-- Nor does it, while the backend answers, read what has the path `cs` as a directory. -/
def sparesDir (d : Cache.B.DB) (B : Backend) (cs : List Bytes) : Req → Prop
  | .opendir i => Cache.B.path d i = .ok (.ok (pathStr cs)) → ∃ e, B.opendir (backendPath (pathStr cs)) = .error e
  | _ => True

/-- As `MT.Elsewhere`, on the bytes of the database file. -/
def Elsewhere (cs : List Bytes) (n : Bytes) (d : Cache.B.DB) (rq : Req) (B : Backend) : Prop :=
  Confirms B Dirs cs ∧ FSB.onLink d rq ∧ spares d B cs n rq

/-- As `MT.Apart`, on the bytes of the database file. -/
def Apart (cs : List Bytes) (n : Bytes) (d : Cache.B.DB) (rq : Req) (B : Backend) : Prop :=
  Elsewhere cs n d rq B ∧ sparesDir d B (cs ++ [n]) rq

/-- An entry of a directory looks the same to those who read two database files. -/
structure SameEntry (d d' : Cache.B.DB) (p : Ino) (n : Bytes) : Prop where
  dir : Cache.B.path d' p = Cache.B.path d p
  entry : Cache.B.lookup d' p n = Cache.B.lookup d p n
  path : ∀ i, Cache.B.lookup d p n = .ok (.ok i) → Cache.B.path d' i = Cache.B.path d i
  attr : ∀ i, Cache.B.lookup d p n = .ok (.ok i) → Cache.B.getattr d' i = Cache.B.getattr d i
  link : ∀ i, Cache.B.lookup d p n = .ok (.ok i) → Cache.B.readlink d' i = Cache.B.readlink d i

/-! ### Theorems -/

theorem spares_rel {x : Cache.B.DB} {d : DB} (h : DRel x d) {B : Backend} {rq : Req} : spares x B cs n rq ↔ rq.spares d B cs n := by
  cases rq <;> simp only [spares, Req.spares, path_rel h]

theorem sparesDir_rel {x : Cache.B.DB} {d : DB} (h : DRel x d) {B : Backend} {rq : Req} : sparesDir x B cs rq ↔ rq.sparesDir d B cs := by
  cases rq <;> simp only [sparesDir, Req.sparesDir, path_rel h]

theorem elsewhere_rel {x : Cache.B.DB} {d : DB} {rq : Req} {B : Backend} (h : DRel x d) (k : Elsewhere cs n x rq B) : MT.Elsewhere cs n d rq B :=
  ⟨k.1, (onLink_rel h rq).mp k.2.1, (spares_rel h).mp k.2.2⟩

theorem apart_rel {x : Cache.B.DB} {d : DB} {rq : Req} {B : Backend} (h : DRel x d) (k : Apart cs n x rq B) : MT.Apart cs n d rq B :=
  ⟨elsewhere_rel h k.1, (sparesDir_rel h).mp k.2⟩

theorem sameEntry_rel {x x' : Cache.B.DB} {d d' : DB} (h : DRel x d) (h' : DRel x' d') (hs : MT.SameEntry d d' p n) : SameEntry x x' p n := by
  refine ⟨by rw [path_rel h, path_rel h', hs.dir], by rw [lookup_rel h, lookup_rel h', hs.entry], fun i hi => ?_, fun i hi => ?_, fun i hi => ?_⟩ <;> rw [lookup_rel h] at hi
  · rw [path_rel h, path_rel h', hs.path i hi]
  · rw [getattr_rel h, getattr_rel h', hs.attr i hi]
  · rw [readlink_rel h, readlink_rel h', hs.link i hi]

section
variable (hm : MReach m) (hb : p < W64) (hcs : ∀ c ∈ cs, Component c) (hp : Cache.B.path m.w.disk p = .ok (.ok (pathStr cs))) {a : Attrs}
  (ha : Cache.B.getattr m.w.disk p = .ok (.ok (p, a))) (hdir : fmt a.mode = S_IFDIR)
include hm hb hcs hp ha hdir

/-- **C125.** What the bytes of the database file say about an entry which no request names while the backend is connected does not change, whatever else is looked
up, listed, replaced, removed or forgotten, with any number of threads, and however often the process dies and is started again. -/
theorem C125_entry (h : Since (Elsewhere cs n) m b m') : SameEntry m.w.disk m'.w.disk p n := by
  obtain ⟨m1, h1, h2⟩ := hm.rel
  obtain ⟨m2, h3, h4⟩ := h.rel (Q' := MT.Elsewhere cs n) elsewhere_rel h2
  rw [path_rel h2.w.disk] at hp
  rw [getattr_rel h2.w.disk] at ha
  exact sameEntry_rel h2.w.disk h4.w.disk (MT.C108_entry h1 hb hcs hp (Except.ok.inj ha) hdir h3)

/-- **C125.** Nor do its flags, if it is not read as a directory either. -/
theorem C125_flags (h : Since (Apart cs n) m b m') {i : Ino} (hi : Cache.B.lookup m.w.disk p n = .ok (.ok i)) (f : Flag) :
    Cache.B.testFlag m'.w.disk i f = Cache.B.testFlag m.w.disk i f := by
  obtain ⟨m1, h1, h2⟩ := hm.rel
  obtain ⟨m2, h3, h4⟩ := h.rel (Q' := MT.Apart cs n) apart_rel h2
  rw [path_rel h2.w.disk] at hp
  rw [getattr_rel h2.w.disk] at ha
  rw [lookup_rel h2.w.disk] at hi
  rw [testFlag_rel h2.w.disk, testFlag_rel h4.w.disk, MT.C108_flags h1 hb hcs hp (Except.ok.inj ha) hdir h3 hi f]

/-- **C125.** Requests for its attributes are answered with those of then. -/
theorem C125_getattr (h : Since (Elsewhere cs n) m b m') {i : Ino} (hi : Cache.B.lookup m.w.disk p n = .ok (.ok i)) {j : Ino} {x : Attrs}
    (hx : Cache.B.getattr m.w.disk i = .ok (.ok (j, x))) {k : Nat} {q : MT.Done} (hq : m'.hist[k]? = some q) (hafter : q.after k b) (hrq : q.rq = .getattr i) :
    q.rep = .attr (osStat i x) := by
  obtain ⟨m1, h1, h2⟩ := hm.rel
  obtain ⟨m2, h3, h4⟩ := h.rel (Q' := MT.Elsewhere cs n) elsewhere_rel h2
  rw [path_rel h2.w.disk] at hp
  rw [getattr_rel h2.w.disk] at ha hx
  rw [lookup_rel h2.w.disk] at hi
  rw [h4.hist] at hq
  exact MT.C108_getattr h1 hb hcs hp (Except.ok.inj ha) hdir h3 hi (Except.ok.inj hx) hq hafter hrq

/-- **C125.** And when the backend is not connected, looking it up gives what was stored then. -/
theorem C125_lookup (h : Since (Elsewhere cs n) m b m') {k : Nat} {q : MT.Done} (hq : m'.hist[k]? = some q) (hafter : q.after k b) (hrq : q.rq = .lookup p n)
    (hoff : q.B.lstat 0 (pathStr (cs ++ [n])) = .error ENOTCONN) :
    (∀ i, Cache.B.lookup m.w.disk p n = .ok (.ok i) → ∃ x, Cache.B.getattr m.w.disk i = .ok (.ok (i, x)) ∧ q.rep = .entry (osStat i x)) ∧
    ((∀ i, Cache.B.lookup m.w.disk p n ≠ .ok (.ok i)) → ∃ e, q.rep = .err e ∧ (e = ENOENT ∨ e = EIO ∨ e = ENAMETOOLONG)) := by
  obtain ⟨m1, h1, h2⟩ := hm.rel
  obtain ⟨m2, h3, h4⟩ := h.rel (Q' := MT.Elsewhere cs n) elsewhere_rel h2
  rw [path_rel h2.w.disk] at hp
  rw [getattr_rel h2.w.disk] at ha
  rw [h4.hist] at hq
  obtain ⟨g1, g2⟩ := MT.C108_lookup h1 hb hcs hp (Except.ok.inj ha) hdir h3 hq hafter hrq hoff
  constructor
  · intro i hi
    rw [lookup_rel h2.w.disk] at hi
    obtain ⟨x, k1, k2⟩ := g1 i hi
    exact ⟨x, by rw [getattr_rel h2.w.disk, k1], k2⟩
  · intro hno
    exact g2 (fun i hi => hno i (by rw [lookup_rel h2.w.disk]; exact hi))

end

/-! ### Example -/

theorem Life.reach {past : List (Req × Reply)} {m : MSys} (h : Life past m) : MReach m := by
  induction h with
  | mount h1 h2 h3 => exact .mount h1 h2 h3
  | remount _ h1 h2 h3 ih => exact .remount ih h1 h2 h3
  | step _ h1 h2 h3 ih => exact .step ih h1 h2 h3

def frameAsksB (rq : Req) (B : Backend) : Prop := asksFits rq B ∧ (∀ d, Apart [[0x61]] [0x62] d rq B) ∧
  (rq = .lookup 2 [0x62] → B.lstat 0 (pathStr [[0x61], [0x62]]) = .error ENOTCONN)

theorem frameB_ok1 : ∀ e ∈ MT.frameDemo1, e.Asks asksFits := by
  intro e he
  simp only [MT.frameDemo1, List.mem_append] at he
  rcases he with (he | he) | he
  · exact MT.asks_Asks (tbl_ok (by decide +kernel) (by decide +kernel) (rq := .lookup 1 [0x61]) (List.cons_ne_nil _ _)) e he
  · exact MT.asks_Asks (tbl_ok (by decide +kernel) (by decide +kernel) (rq := .lookup 2 [0x62]) (List.cons_ne_nil _ _)) e he
  · rw [List.mem_singleton.mp he]; trivial

theorem frameB_ok2 : ∀ e ∈ MT.frameDemo2, e.Asks frameAsksB := by
  intro e he
  simp only [MT.frameDemo2, List.mem_append] at he
  rcases he with he | he | he | he
  · exact MT.asks_Asks (rq := .lookup 1 [0x61]) (Q := frameAsksB) ⟨tbl_ok (by decide +kernel) (by decide +kernel) (List.cons_ne_nil _ _),
      fun d => ⟨⟨MT.tblNow_confirms, trivial, fun h => by cases h⟩, trivial⟩, fun h => by cases h⟩ e he
  · exact MT.asks_Asks (rq := .lookup 2 [0x63]) (Q := frameAsksB) ⟨tbl_ok (by decide +kernel) (by decide +kernel) (List.cons_ne_nil _ _),
      fun d => ⟨⟨MT.tblNow_confirms, trivial, fun h => by cases h⟩, trivial⟩, fun h => by cases h⟩ e he
  · exact MT.asks_Asks (rq := .lookup 2 [0x62]) (Q := frameAsksB) ⟨tbl_ok (by decide +kernel) (by decide +kernel) (List.cons_ne_nil _ _),
      fun d => ⟨⟨offline_table.confirms _ _, trivial, fun _ _ => rfl⟩, trivial⟩, fun _ => rfl⟩ e he
  · exact MT.asks_Asks (rq := .getattr 3) (Q := frameAsksB) ⟨tbl_ok (by decide +kernel) (by decide +kernel) trivial,
      fun d => ⟨⟨offline_table.confirms _ _, trivial, trivial⟩, trivial⟩, fun h => by cases h⟩ e he

/-- The hypotheses of `C125_entry`, `C125_flags`, `C125_getattr` and `C125_lookup` can be met, with any padding: `/a/b` stays as it is, while `/a` and `/a/c` are
looked up. -/
example (pad : Ino → Nat) : ∃ m m' q q', MReach m ∧ Since (Elsewhere [[0x61]] [0x62]) m 0 m' ∧ Since (Apart [[0x61]] [0x62]) m 0 m' ∧ (∀ c ∈ [[(0x61 : UInt8)]], Component c) ∧
    Cache.B.path m.w.disk 2 = .ok (.ok (pathStr [[0x61]])) ∧ Cache.B.getattr m.w.disk 2 = .ok (.ok (2, fromBackend bDir)) ∧ fmt (fromBackend bDir).mode = S_IFDIR ∧
    Cache.B.lookup m.w.disk 2 [0x62] = .ok (.ok 3) ∧ Cache.B.getattr m.w.disk 3 = .ok (.ok (3, fromBackend (bFile 5))) ∧ m'.w.disk ≠ m.w.disk ∧
    m'.hist[2]? = some q ∧ q.after 2 0 ∧ q.rq = .lookup 2 [0x62] ∧ q.rep = .entry (osStat 3 (fromBackend (bFile 5))) ∧
    m'.hist[3]? = some q' ∧ q'.after 3 0 ∧ q'.rq = .getattr 3 ∧ q'.rep = .attr (osStat 3 (fromBackend (bFile 5))) := by
  have hs := MT.frame_says
  generalize hd : MT.twoLives MT.frameDemo1 MT.frameDemo2 = o at hs
  obtain _ | ⟨⟨p0, m, c0⟩, p1, m', c1⟩ := o
  · cases hs
  simp only [decide_eq_true_eq] at hs
  obtain ⟨e1, e2, e3, e4, e5, e6, e7, e8, e9⟩ := hs
  unfold MT.twoLives at hd
  obtain ⟨⟨p0', y0, c0'⟩, h1, hd⟩ := Option.bind_eq_some_iff.mp hd
  obtain ⟨⟨p1', y1, c1'⟩, h2, hd⟩ := Option.bind_eq_some_iff.mp hd
  cases hd
  simp only at h2
  obtain ⟨x, f1, f2, f3, f4, f5⟩ := lstart_bytes pad (Qe := asksFits) (fun _ _ h => h.1) (fun _ _ h => h.2) frameB_ok1 h1
  have f5' : MT.Ready frameAsksB c0 m := by
    refine ⟨f5.reach, f5.counts, fun j st hj => ?_, fun q hq => by rw [e1] at hq; cases hq⟩
    have := List.all_eq_true.mp e2 st (List.mem_of_getElem? hj)
    cases st with
    | idle => trivial
    | recv => cases this
    | run => cases this
    | committed => cases this
    | answer => cases this
    | leaving => cases this
    | left => cases this
  obtain ⟨x', n', k1, k2, k3, k4, -, k5⟩ := lrun_bytes pad (Q := Apart [[0x61]] [0x62]) (fun _ _ _ h => h.2.1 _) (fun _ _ h => h.1.1) (fun _ _ h => h.1.2) f4 f5' frameB_ok2 h2 f1 f2 f3 .refl
  have hn := k5 (by decide)
  rw [f1.hist, e1] at hn
  simp only [List.length_nil] at hn
  subst hn
  have weak : ∀ {c : Nat} {y : MSys}, Since (Apart [[0x61]] [0x62]) x c y → Since (Elsewhere [[0x61]] [0x62]) x c y := by
    intro c y h
    induction h with
    | refl => exact .refl
    | step _ a1 a2 a3 a4 ih => exact .step ih a1 a2 a3 (fun q hq => (a4 q hq).1)
    | crash _ a1 a2 a3 ih => exact .crash ih a1 a2 a3
  have at_ : ∀ (k : Nat) rq, [Req.lookup 1 [0x61], .lookup 2 [0x63], .lookup 2 [0x62], .getattr 3][k]? = some rq → ∃ q, x'.hist[k]? = some q ∧ q.rq = rq := by
    intro k rq hk
    rw [← e9, ← k1.hist, List.getElem?_map] at hk
    obtain ⟨q, hq, hh⟩ := Option.map_eq_some_iff.mp hk
    exact ⟨q, hq, hh⟩
  obtain ⟨q, j1, j2⟩ := at_ 2 _ rfl
  obtain ⟨q', j3, j4⟩ := at_ 3 _ rfl
  have hne : x'.w.disk ≠ x.w.disk := by
    intro h
    have a1 := lookup_rel f1.w.disk 2 [0x63]
    have a2 := lookup_rel k1.w.disk 2 [0x63]
    rw [h, a1, e7, e8] at a2
    cases a2
  have hcs : ∀ c ∈ [[(0x61 : UInt8)]], Component c := fun c hc => by rw [List.mem_singleton.mp hc]; exact ⟨by decide, by decide⟩
  rw [← path_rel f1.w.disk] at e3
  rw [← lookup_rel f1.w.disk] at e5
  have e4' : Cache.B.getattr x.w.disk 2 = .ok (.ok (2, fromBackend bDir)) := by rw [getattr_rel f1.w.disk, e4]
  have e6' : Cache.B.getattr x.w.disk 3 = .ok (.ok (3, fromBackend (bFile 5))) := by rw [getattr_rel f1.w.disk, e6]
  have aft : ∀ (q : MT.Done) k, q.after k 0 := fun q k => ⟨Nat.zero_le _, fun _ => Nat.zero_le _⟩
  refine ⟨x, x', q, q', f2.reach, weak k4, k4, hcs, e3, e4', by decide, e5, e6', hne, j1, aft _ _, j2, ?_, j3, aft _ _, j4,
    C125_getattr f2.reach (by decide) hcs e3 e4' (by decide) (weak k4) e5 e6' j3 (aft _ _) j4⟩
  obtain ⟨-, g0, -⟩ := MT.lrun_since (Q := fun _ _ _ => True) (fun _ _ _ _ => trivial) .refl f4 f5' frameB_ok2 h2
  have hoff := (g0.hist q (by rw [← k1.hist]; exact List.mem_of_getElem? j1)).2.2 j2
  obtain ⟨a, g1, g2⟩ := (C125_lookup f2.reach (by decide) hcs e3 e4' (by decide) (weak k4) j1 (aft _ _) j2 hoff).1 3 e5
  rw [e6'] at g1; cases g1; exact g2

end Dragonstash.MTB
