/-
  C109: what requests ask the backend, and that nothing else it could say matters.
-/
import Verif.Props.Absence
namespace Dragonstash.FS
open Cache

/-! ### Specification -/

/-- Questions which can be put to a backend. `lstat` may be asked several times within a listing; `k` tells these questions apart. -/
inductive Query
  | lstat (k : Nat) (path : Bytes)
  | readlink (path : Bytes)
  | opendir (path : Bytes)

/-- Two backends give the same answer. -/
def Query.Same (B B' : Backend) : Query → Prop
  | .lstat k p => B.lstat k p = B'.lstat k p
  | .readlink p => B.readlink p = B'.readlink p
  | .opendir p => B.opendir p = B'.opendir p

/-- What a request asks: `lookup` about the one name, `readlink` about the one link, `opendir` for the names in the directory and about
each of these. Everything else asks nothing. -/
inductive Asked (B : Backend) (d : DB) : Req → Query → Prop
  | lookup {p n b} : Cache.path d p = .ok (.ok b) → Asked B d (.lookup p n) (.lstat 0 (b ++ 0x2f :: n))
  | readlink {i b} : Cache.path d i = .ok (.ok b) → Asked B d (.readlink i) (.readlink (if b = [] then [0x2f] else b))
  | opendir {i b} : Cache.path d i = .ok (.ok b) → Asked B d (.opendir i) (.opendir (if b = [] then [0x2f] else b))
  | entry {i b names e k n} : Cache.path d i = .ok (.ok b) → B.opendir (if b = [] then [0x2f] else b) = .ok (names, e) → names[k]? = some n →
      Asked B d (.opendir i) (.lstat k (entryPath (if b = [] then [0x2f] else b) n))

/-! ### Requests -/

theorem syncLoop_same {B B' : Backend} {base : Bytes} {i : Ino} : ∀ {l : List Bytes} {k : Nat} {t : Txn},
    (∀ (j : Nat) n, l[j]? = some n → B.lstat (k + j) (entryPath base n) = B'.lstat (k + j) (entryPath base n)) → syncLoop B base i k l t = syncLoop B' base i k l t := by
  intro l
  induction l with
  | nil => intro k t _; rfl
  | cons n l ih =>
    intro k t h
    have h0 := h 0 n rfl
    rw [Nat.add_zero] at h0
    have hl : ∀ t, syncLoop B base i (k + 1) l t = syncLoop B' base i (k + 1) l t := fun t => ih (fun j m hj => by
      have := h (j + 1) m hj
      rw [show k + (j + 1) = k + 1 + j by omega] at this
      exact this)
    unfold syncLoop
    rw [h0]
    simp only [hl]

theorem handle_same {B B' : Backend} {d : DB} {r : Refs} {rq : Req} (h : ∀ x, Asked B d rq x → x.Same B B') :
    handle B { disk := d, refs := r } rq = handle B' { disk := d, refs := r } rq := by
  cases rq with
  | lookup p n =>
    simp only [handle]
    unfold lookup St.txn
    simp only
    cases hp : Cache.path d p with
    | error e => rfl
    | ok x =>
      cases x with
      | error e => rfl
      | ok b =>
        have h1 : B.lstat 0 (b ++ 0x2f :: n) = B'.lstat 0 (b ++ 0x2f :: n) := h _ (.lookup hp)
        simp only [bind_ok]
        rw [h1]
  | readlink i =>
    simp only [handle]
    unfold readlink St.txn
    simp only
    cases hp : Cache.path d i with
    | error e => rfl
    | ok x =>
      cases x with
      | error e => rfl
      | ok b =>
        have h1 : B.readlink (backendPath b) = B'.readlink (backendPath b) := h _ (.readlink hp)
        simp only [bind_ok]
        rw [h1]
  | opendir i =>
    simp only [handle]
    unfold opendir St.txn
    simp only
    cases hp : Cache.path d i with
    | error e => rfl
    | ok x =>
      cases x with
      | error e => rfl
      | ok b =>
        have h1 : B.opendir (backendPath b) = B'.opendir (backendPath b) := h _ (.opendir hp)
        simp only [bind_ok]
        rw [← h1]
        cases ho : B.opendir (backendPath b) with
        | error e => rfl
        | ok x =>
          obtain ⟨names, e⟩ := x
          simp only
          have h2 : ∀ t, syncLoop B (backendPath b) i 0 names t = syncLoop B' (backendPath b) i 0 names t := fun t => syncLoop_same fun j n hj => by
            rw [Nat.zero_add]
            exact h _ (.entry hp ho hj)
          unfold sync
          simp only [h2]
  | _ => rfl

/-- **C109.** A request depends on the backend only through the answers to what it asks: reply, database and locks are the same with every other backend which answers these
questions in the same way. -/
theorem C109_request {B B' : Backend} {d : DB} {r : Refs} {rq : Req} (h : ∀ x, Asked B d rq x → x.Same B B') : dispatch B d r rq = dispatch B' d r rq := by
  unfold dispatch; rw [handle_same h]

/-- **C109.** Attributes, pages of directories and everything which only releases something is answered without the backend. -/
theorem C109_alone {B B' : Backend} {d : DB} {r : Refs} {rq : Req} (h : ∀ x, ¬ Asked B d rq x) : dispatch B d r rq = dispatch B' d r rq :=
  C109_request fun x hx => absurd hx (h x)

end Dragonstash.FS

namespace Dragonstash.MT
open Cache FS Conc

/-- The `k`-th requests of two histories are the same, and the backends give the same answers to what the first one asks. -/
def Alike (ds : List DB) (H H' : List Done) : Prop :=
  H.length = H'.length ∧ ∀ (k : Nat) (q q' : Done) (d : DB), H[k]? = some q → H'[k]? = some q' → ds[k]? = some d →
    q.rq = q'.rq ∧ q.ver = q'.ver ∧ ∀ x, Asked q.B d q.rq x → x.Same q.B q'.B

theorem handle_ro {B B' : Backend} {st : St} {rq : Req} (h : readOnly rq = true) : handle B st rq = handle B' st rq := by
  cases rq <;> first | rfl | cases h

theorem one_alike {d0 : DB} {r0 : Refs} {ds : List DB} {R : Refs} {H : List Done} (h : OneByOne d0 r0 ds R H) : ∀ {ds' : List DB} {R' : Refs} {H' : List Done}, OneByOne d0 r0 ds' R' H' →
    Alike ds H H' → ds' = ds ∧ R' = R ∧ H'.map (fun q => (q.rq, q.rep)) = H.map (fun q => (q.rq, q.rep)) := by
  induction h with
  | start =>
    intro ds' R' H' h' ha
    have : H' = [] := List.length_eq_zero_iff.mp ha.1.symm
    subst this
    obtain ⟨rfl, rfl⟩ := OneByOne.det .start h'
    exact ⟨rfl, rfl, rfl⟩
  | @ro ds1 r1 H1 q d d1 st h1 h2 h3 h4 h5 h6 h7 ih =>
    intro ds' R' H' h' ha
    have hl := h1.length
    obtain ⟨hlen, hall⟩ := ha
    have hne : H' ≠ [] := by rintro rfl; simp at hlen
    obtain ⟨H2, q', rfl⟩ : ∃ H2 q', H' = H2 ++ [q'] := ⟨H'.dropLast, H'.getLast hne, (List.dropLast_concat_getLast hne).symm⟩
    simp only [List.length_append, List.length_cons, List.length_nil] at hlen
    obtain ⟨ds2, r2, e, e1, st', g1, g2, g3, g4, g5, -, rfl, rfl⟩ := h'.snoc_inv
    obtain ⟨rfl, rfl, g6⟩ := ih g1 ⟨by omega, fun k p p' x k1 k2 k3 => hall k p p' x
      (by rw [List.getElem?_append_left (List.getElem?_eq_some_iff.mp k1).1]; exact k1)
      (by rw [List.getElem?_append_left (List.getElem?_eq_some_iff.mp k2).1]; exact k2)
      (by rw [List.getElem?_append_left (List.getElem?_eq_some_iff.mp k3).1]; exact k3)⟩
    have hlast : ds2[H1.length]? = some d1 := by
      rw [List.getLast?_eq_getElem?, hl, Nat.add_sub_cancel] at h4; exact h4
    obtain ⟨f1, f2, -⟩ := hall H1.length q q' d1 (List.getElem?_concat_length ..) (by rw [show H1.length = H2.length by omega]; exact List.getElem?_concat_length ..)
      (by rw [List.getElem?_append_left (by omega)]; exact hlast)
    rw [← f1, h2, if_pos rfl, ← f2, h3] at g2; cases g2
    rw [h4] at g3; cases g3
    rw [← f1, handle_ro (B' := q.B) h2, h5] at g4; cases g4
    rw [h6] at g5
    refine ⟨by rw [← f1, h2, if_pos rfl], rfl, ?_⟩
    rw [List.map_append, List.map_append, g6]
    simp only [List.map_cons, List.map_nil, List.cons.injEq, and_true] at g5 ⊢
    rw [f1, g5]
  | @rw ds1 r1 H1 q d st h1 h2 h3 h4 h5 h6 ih =>
    intro ds' R' H' h' ha
    have hl := h1.length
    obtain ⟨hlen, hall⟩ := ha
    have hne : H' ≠ [] := by rintro rfl; simp at hlen
    obtain ⟨H2, q', rfl⟩ : ∃ H2 q', H' = H2 ++ [q'] := ⟨H'.dropLast, H'.getLast hne, (List.dropLast_concat_getLast hne).symm⟩
    simp only [List.length_append, List.length_cons, List.length_nil] at hlen
    obtain ⟨ds2, r2, e, e1, st', g1, g2, g3, g4, g5, -, rfl, rfl⟩ := h'.snoc_inv
    obtain ⟨rfl, rfl, g6⟩ := ih g1 ⟨by omega, fun k p p' x k1 k2 k3 => hall k p p' x
      (by rw [List.getElem?_append_left (List.getElem?_eq_some_iff.mp k1).1]; exact k1)
      (by rw [List.getElem?_append_left (List.getElem?_eq_some_iff.mp k2).1]; exact k2)
      (by rw [List.getElem?_append_left (List.getElem?_eq_some_iff.mp k3).1]; exact k3)⟩
    have hlast : ds2[H1.length]? = some d := by
      rw [List.getLast?_eq_getElem?, hl, Nat.add_sub_cancel] at h3; exact h3
    obtain ⟨f1, f2, f3⟩ := hall H1.length q q' d (List.getElem?_concat_length ..) (by rw [show H1.length = H2.length by omega]; exact List.getElem?_concat_length ..)
      (by rw [List.getElem?_append_left (by omega)]; exact hlast)
    rw [← f1, h2, if_neg (by simp), h3] at g2; cases g2
    rw [← f1, ← handle_same f3, h4] at g4; cases g4
    rw [h5] at g5
    refine ⟨by rw [← f1, h2, if_neg (by simp)], rfl, ?_⟩
    rw [List.map_append, List.map_append, g6]
    simp only [List.map_cons, List.map_nil, List.cons.injEq, and_true] at g5 ⊢
    rw [f1, g5]

/-- **C109.** With any number of threads: two runs of the filesystem which begin with the same database, in which the same requests end in the same order (having seen the same
versions), and in which the backends agree about what is asked, give the same replies and leave the same database, whatever else the
backends contain. -/
theorem C109_history {d : DB} {r : Refs} {n n' : Nat} {m m' : MSys} (h : Steps (MSys.start d r n) m) (h' : Steps (MSys.start d r n') m') :
    ∃ ds R, OneByOne d r ds R m.hist ∧ ds.getLast? = some m.w.disk ∧
      (Alike ds m.hist m'.hist → m'.w.disk = m.w.disk ∧ m'.hist.map (fun q => (q.rq, q.rep)) = m.hist.map (fun q => (q.rq, q.rep))) := by
  obtain ⟨ds, R, h1, h2, -⟩ := C57_serial h
  obtain ⟨ds', R', h1', h2', -⟩ := C57_serial h'
  refine ⟨ds, R, h1, h2, fun ha => ?_⟩
  obtain ⟨rfl, rfl, g⟩ := one_alike h1 h1' ha
  rw [h2] at h2'
  exact ⟨(Option.some.inj h2').symm, g⟩

/-! ### Non-vacuity -/

/-- Nothing but `/a`; everything else fails with an unusual error. -/
def tblBare : Tbl where
  stats := [([0x2f, 0x61], .ok bDir)]
  missing := EIO

/-- A question which is asked, and answered in the same way by two backends which differ otherwise. -/
example (d : DB) : (∃ x, Asked tblA.backend d (.lookup 1 [0x61]) x) ∧ (∀ x, Asked tblA.backend d (.lookup 1 [0x61]) x → x.Same tblA.backend tblBare.backend) ∧
    (∃ x : Query, ¬ x.Same tblA.backend tblBare.backend) := by
  refine ⟨⟨_, .lookup (path_root d)⟩, fun x hx => ?_, .lstat 0 [0x2f, 0x6c], ?_⟩
  · cases hx with
    | lookup h => rw [path_root] at h; cases h; exact rfl
  · intro h
    have h : tblA.backend.lstat 0 [0x2f, 0x6c] = tblBare.backend.lstat 0 [0x2f, 0x6c] := h
    exact absurd h (by decide)

/-- The answer does matter: without `/a` the reply is another one. -/
example : ((FS.dispatch tblA.backend (initDB emptyDB 0 0 ⟨0, 0⟩) Refs.empty (.lookup 1 [0x61])).toOption.map (·.sent) ≠
    (FS.dispatch Tbl.offline.backend (initDB emptyDB 0 0 ⟨0, 0⟩) Refs.empty (.lookup 1 [0x61])).toOption.map (·.sent)) := by decide +kernel

theorem Goes.steps {Q : DB → Req → Backend → Prop} {m m' : MSys} (h : Goes Q m m') {m0 : MSys} (h0 : Steps m0 m) : Steps m0 m' := by
  induction h with
  | refl => exact h0
  | step _ h1 _ _ _ ih => exact .step ih h1

/-- Attributes are asked for without the backend. -/
example (B : Backend) (d : DB) : ∀ x, ¬ Asked B d (.getattr 2) x := by intro x hx; cases hx

/-- Runs with two backends. -/
def askedB (t : Tbl) : Bool := match lstart 2 (asks t (.lookup 1 [0x61]) 7) with
  | some (_, m, _) => decide (m.hist.map (fun q => (q.rq, q.ver)) = [(.lookup 1 [0x61], 0)])
  | none => false

theorem asked_run {t : Tbl} (h : askedB t = true) {d : DB} {r : Refs} (ho : openCleanDB (initDB emptyDB 0 0 ⟨0, 0⟩) Refs.empty = .ok (d, r)) :
    ∃ m q, Steps (MSys.start d r 2) m ∧ m.hist = [q] ∧ q.rq = .lookup 1 [0x61] ∧ q.ver = 0 ∧ q.B = t.backend := by
  unfold askedB at h
  split at h
  · rename_i past m cap hl
    have hA := asks_Asks (Q := fun _ B => B = t.backend) (t := t) (rq := .lookup 1 [0x61]) (n := 7) rfl
    obtain ⟨-, g2⟩ := lstart_life hA hl
    have hno : ∀ e ∈ asks t (.lookup 1 [0x61]) 7, e.isDie = false := by
      intro e he
      rcases List.mem_cons.mp he with rfl | he
      · rfl
      · rw [(List.mem_replicate.mp he).2]; rfl
    have hst : Steps (MSys.start d r 2) m := by
      unfold lstart at hl
      rw [ho] at hl
      simp only at hl
      split at hl
      · rename_i hroom
        have hc : ∀ i, ((CWorld.start d r).refs i).nrefs ≤ 0 := by
          obtain ⟨s, h1, h2, h3⟩ := root_rep 0 0 ⟨0, 0⟩
          exact fun i => Nat.le_of_eq (open_counts (si_empty h1 h2 h3) ho i)
        have hroom' := roomB_iff hc hroom
        have := lrun_goes (Q := fun _ _ _ => True) (Qe := fun _ B => B = t.backend) (fun _ _ _ _ => trivial) (.refl (m := MSys.start d r 2)) (ready_start (.mount ho hroom') hc) hA hno hl
        exact this.steps .refl
      · cases hl
    obtain ⟨q, hq⟩ : ∃ q, m.hist = [q] := by
      cases hh : m.hist with
      | nil => rw [hh] at h; cases h
      | cons q l => cases l with
        | nil => exact ⟨q, rfl⟩
        | cons => rw [hh] at h; simp at h
    have hB := g2.hist q (by rw [hq]; simp)
    rw [hq] at h
    simp only [List.map_cons, List.map_nil, decide_eq_true_eq, List.cons.injEq, Prod.mk.injEq, and_true] at h
    exact ⟨m, q, hst, hq, h.1, h.2, hB⟩
  · cases h

/-- The hypotheses of `C109_history` can be met, with backends which differ. -/
example : ∃ d r m m' ds R, Steps (MSys.start d r 2) m ∧ Steps (MSys.start d r 2) m' ∧ OneByOne d r ds R m.hist ∧ Alike ds m.hist m'.hist ∧ m.hist ≠ [] ∧
    ∃ q ∈ m.hist, ∃ q' ∈ m'.hist, q.B ≠ q'.B := by
  cases ho : openCleanDB (initDB emptyDB 0 0 ⟨0, 0⟩) Refs.empty with
  | error e => have h : askedB tblA = true := by decide +kernel
               unfold askedB lstart at h; rw [ho] at h; cases h
  | ok x =>
    obtain ⟨d, r⟩ := x
    obtain ⟨m, q, h1, h2, h3, h4, h5⟩ := asked_run (t := tblA) (by decide +kernel) ho
    obtain ⟨m', q', g1, g2, g3, g4, g5⟩ := asked_run (t := tblBare) (by decide +kernel) ho
    obtain ⟨ds, R, k1, -⟩ := C57_serial h1
    refine ⟨d, r, m, m', ds, R, h1, g1, k1, ⟨by rw [h2, g2]; rfl, fun k p p' e e1 e2 e3 => ?_⟩, by rw [h2]; simp, q, by rw [h2]; simp, q', by rw [g2]; simp, fun he => ?_⟩
    · rw [h2] at e1; rw [g2] at e2
      cases k with
      | succ k => simp at e1
      | zero =>
        cases e1; cases e2
        refine ⟨h3.trans g3.symm, h4.trans g4.symm, fun x hx => ?_⟩
        rw [h3, h5] at hx
        rw [h5, g5]
        cases hx with
        | lookup h => rw [path_root] at h; cases h; exact rfl
    · rw [h5, g5] at he
      have : tblA.backend.lstat 0 [0x2f, 0x6c] = tblBare.backend.lstat 0 [0x2f, 0x6c] := by rw [he]
      exact absurd this (by decide)

end Dragonstash.MT
