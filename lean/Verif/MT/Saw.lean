/-
  What each request saw, under all interleavings: invariants of the tree carry over from requests
  handled one after the other to requests served by several threads.
-/
import Verif.MT.Held
import Verif.FS.Keep
namespace Dragonstash.Cache
open Codec

/-- The abstract state is determined by the databases. -/
theorem Rep.inj {s s' : Tree} {d : DB} (h : Rep s d) (ok : s.OK) (h' : Rep s' d) (ok' : s'.OK) : s = s' := by
  have half : ∀ {s s' : Tree}, Rep s d → s.OK → Rep s' d → s'.OK → ∀ {i nd}, s.nodes i = some nd → s'.nodes i = some nd := by
    intro s s' h ok h' ok' i nd hi
    have hb := OK.lt ok hi
    obtain ⟨j, nd', h1, h2, h3⟩ := (h'.inodes _ _).mp (h.ino_some hi)
    obtain rfl := (key8_inj hb (OK.lt ok' h2)).mp h1
    have loc : ∀ {s s' : Tree} {a b : Node}, Rep s d → s.OK → Rep s' d → s'.OK → s.nodes i = some a → s'.nodes i = some b → ∀ l, a.loc = some l → b.loc = some l := by
      intro s s' a b h ok h' ok' ha hb' ⟨p, n⟩ hl
      obtain ⟨k, c, q, m, g1, g2, g3, g4⟩ := (h'.treei _ _).mp ((h.treei (key16 p i) (mkEnt i n)).mpr ⟨i, a, p, n, rfl, ha, hl, rfl⟩)
      obtain ⟨rfl, rfl⟩ := (key16_inj (ok.loc i a p n ha hl).2.1 hb (ok'.loc k c q m g2 g3).2.1 (OK.lt ok' g2)).mp g1
      rw [hb'] at g2; cases g2
      simp only [mkEnt, DirEnt.mk.injEq, true_and] at g4
      rw [g3, g4]
    have tgt : ∀ {s s' : Tree} {a b : Node}, Rep s d → Rep s' d → s'.OK → s.nodes i = some a → s'.nodes i = some b → ∀ t, a.target = some t → b.target = some t := by
      intro s s' a b h h' ok' ha hb' t ht
      obtain ⟨k, c, g1, g2, g3⟩ := (h'.links _ _).mp ((h.links (key8 i) t).mpr ⟨i, a, rfl, ha, ht⟩)
      obtain rfl := (key8_inj hb (OK.lt ok' g2)).mp g1
      rw [hb'] at g2; cases g2; exact g3
    have opt : ∀ {α : Type} {x y : Option α}, (∀ l, x = some l → y = some l) → (∀ l, y = some l → x = some l) → y = x := by
      intro α x y h1 h2
      cases x with
      | some l => exact h1 l rfl
      | none =>
        cases y with
        | none => rfl
        | some l => exact absurd (h2 l rfl) (by simp)
    rw [h2]
    obtain ⟨a1, f1, l1, t1⟩ := nd
    obtain ⟨a2, f2, l2, t2⟩ := nd'
    simp only [recOf, Inode.mk.injEq] at h3
    obtain ⟨rfl, -, rfl⟩ := h3
    have e1 := opt (loc h ok h' ok' hi h2) (loc h' ok' h ok h2 hi)
    have e2 := opt (tgt h h' ok' hi h2) (tgt h' h ok h2 hi)
    simp only at e1 e2
    rw [e1, e2]
  obtain ⟨n1, x1⟩ := s
  obtain ⟨n2, x2⟩ := s'
  have e1 : x1 = x2 := by
    have a := h.next; have b := h'.next
    rw [a] at b; cases b; rfl
  subst e1
  congr 1
  funext i
  cases hi : n1 i with
  | some nd => exact (half h ok h' ok' (i := i) hi).symm
  | none =>
    cases hi' : n2 i with
    | none => rfl
    | some nd => exact absurd (half h' ok' h ok (i := i) hi') (by simp [hi])

end Dragonstash.Cache

namespace Dragonstash.MT
open Cache FS Conc

/-- Reachable systems in which all requests which ended are `Q`. -/
inductive MReachQ (Q : Req → Backend → Prop) : MSys → Prop
  | mount {uid gid now d r n} : openCleanDB (initDB emptyDB uid gid now) Refs.empty = .ok (d, r) → Room (CWorld.start d r) →
      MReachQ Q (MSys.start d r n)
  | remount {m uid gid now d r n} : MReachQ Q m → openCleanDB (initDB m.w.disk uid gid now) Refs.empty = .ok (d, r) →
      Room (CWorld.start d r) → MReachQ Q (MSys.start d r n)
  | step {m m' k} : MReachQ Q m → Step m k m' → Proper m k m' → Room m'.w → (∀ q ∈ m'.hist, Q q.rq q.B) → MReachQ Q m'

theorem MReachQ.reach {Q : Req → Backend → Prop} {m : MSys} (h : MReachQ Q m) : MReach m := by
  induction h with
  | mount h1 h2 => exact .mount h1 h2
  | remount _ h1 h2 ih => exact .remount ih h1 h2
  | step _ h1 h2 h3 _ ih => exact .step ih h1 h2 h3

theorem MReachQ.all {Q : Req → Backend → Prop} {m : MSys} (h : MReachQ Q m) : ∀ q ∈ m.hist, Q q.rq q.B := by
  cases h with
  | mount => intro q hq; cases hq
  | remount => intro q hq; cases hq
  | step _ _ _ _ h => exact h

/-- Reachable systems in which all requests which ended were `Q` when they did: `Q` sees the databases. -/
inductive MReachD (Q : DB → Req → Backend → Prop) : MSys → Prop
  | mount {uid gid now d r n} : openCleanDB (initDB emptyDB uid gid now) Refs.empty = .ok (d, r) → Room (CWorld.start d r) →
      MReachD Q (MSys.start d r n)
  | remount {m uid gid now d r n} : MReachD Q m → openCleanDB (initDB m.w.disk uid gid now) Refs.empty = .ok (d, r) →
      Room (CWorld.start d r) → MReachD Q (MSys.start d r n)
  | step {m m' k} : MReachD Q m → Step m k m' → Proper m k m' → Room m'.w → (∀ q, m'.hist = m.hist ++ [q] → Q m.w.disk q.rq q.B) → MReachD Q m'

theorem MReachD.reach {Q : DB → Req → Backend → Prop} {m : MSys} (h : MReachD Q m) : MReach m := by
  induction h with
  | mount h1 h2 => exact .mount h1 h2
  | remount _ h1 h2 ih => exact .remount ih h1 h2
  | step _ h1 h2 h3 _ ih => exact .step ih h1 h2 h3

theorem MReachQ.dep {Q : Req → Backend → Prop} {m : MSys} (h : MReachQ Q m) : MReachD (fun _ => Q) m := by
  induction h with
  | mount h1 h2 => exact .mount h1 h2
  | remount _ h1 h2 ih => exact .remount ih h1 h2
  | step _ h1 h2 h3 h4 ih => exact .step ih h1 h2 h3 (fun q hq => h4 q (by rw [hq]; simp))

/-- Properties of the tree which requests `Q` keep. -/
structure Kept (Q : DB → Req → Backend → Prop) (P : Tree → Prop) : Prop where
  root : ∀ {s : Tree} {uid gid now}, Rep s (initDB emptyDB uid gid now) → s.OK → P s
  coll : ∀ {s s' : Tree} {L : Ino → Prop}, P s → Collected s L s' → P s'
  abs : ∀ {B d s r rq rep s' r'}, Abs B d s r rq rep s' r' → SI s d r → rq.inRange → rq.onDir d →
      s.next + 1 < W64 → (∀ p names e, B.opendir p = .ok (names, e) → s.next + names.length + 1 < W64) → Q d rq B → P s → P s'

/-- What a request which has ended saw: the databases `d`, which hold a tree with property `P`. A
request which writes has changed this tree as the specification says, which gives the databases `d'`;
one which reads answered from `d`, when the databases were `d'`. -/
inductive Saw (P : Tree → Prop) (d d' : DB) (q : Done) : Prop
  | wrote {s r s' r'} : readOnly q.rq = false → SI s d r → P s → q.rq.inRange → q.rq.onDir d → s.next + 1 < W64 →
      (∀ p names e, q.B.opendir p = .ok (names, e) → s.next + names.length + 1 < W64) → SI s' d' r' → Abs q.B d s r q.rq q.rep s' r' → Saw P d d' q
  | read {s r st s1} : readOnly q.rq = true → Rep s d → s.OK → s.WF → P s → q.rq.inRange → (∀ i, q.rq.returned i ≤ (r i).nrefs) → (∀ i, (r i).nrefs + d.treei.size + 4 < W64) →
      handle q.B { disk := d, refs := r } q.rq = .ok st → st.sent = [q.rep] → st.fault = none →
      SI s1 d' r → Saw P d d' q

/-- The databases which request number `k` saw. -/
def seen (ds : List DB) (k : Nat) (q : Done) : Option DB := if readOnly q.rq then ds[q.ver]? else ds[k]?

structure PInv (P : Tree → Prop) (ds : List DB) (hist : List Done) : Prop where
  all : ∀ d ∈ ds, ∃ s, Rep s d ∧ s.OK ∧ P s
  saw : ∀ (k : Nat) (q : Done), hist[k]? = some q → ∃ d d', seen ds k q = some d ∧ ds[k + 1]? = some d' ∧ Saw P d d' q

theorem seen_append {ds : List DB} {k : Nat} {q : Done} {d e : DB} (h : seen ds k q = some d) : seen (ds ++ [e]) k q = some d := by
  unfold seen at h ⊢
  split at h
  · rename_i hr
    rw [if_pos hr, List.getElem?_append_left (List.getElem?_eq_some_iff.mp h).1]; exact h
  · rename_i hr
    rw [if_neg hr, List.getElem?_append_left (List.getElem?_eq_some_iff.mp h).1]; exact h

/-- A step either leaves the history as it is, or a request ends. -/
theorem step_hist {m m' : MSys} {k : Nat} (hs : Step m k m') :
    m'.hist = m.hist ∨ ∃ x q, m.th[k]? = some x ∧ m'.hist = m.hist ++ [q] ∧
      ((x = .recv q.rq q.B ∧ prog q.B (m.w.disk.treei.size + 4) q.rq = none ∧ m'.w = m.w) ∨ (∃ p, x = .run q.rq q.B q.ver p) ∨ ∃ r, x = .leaving q.rq q.B q.ver r) := by
  cases hs with
  | issue => exact .inl rfl
  | direct hk hp => exact .inr ⟨_, _, hk, rfl, .inl ⟨rfl, hp, rfl⟩⟩
  | begin_ => exact .inl rfl
  | call => exact .inl rfl
  | commit hk => exact .inr ⟨_, _, hk, rfl, .inr (.inl ⟨_, rfl⟩)⟩
  | unlock => exact .inl rfl
  | answer => exact .inl rfl
  | reply => exact .inl rfl
  | leave hk => exact .inr ⟨_, _, hk, rfl, .inr (.inr ⟨_, rfl⟩)⟩
  | finish => exact .inl rfl

theorem PInv.step {Q : DB → Req → Backend → Prop} {P : Tree → Prop} (hK : Kept Q P) {d0 : DB} {r0 : Refs} {m m' : MSys} {L H vs R ds s L' H' vs' R' ds'}
    (h : PInv P ds m.hist) (hM : MInv d0 r0 m L H vs R ds) (hR : RInv m R ds s) (hM' : MInv d0 r0 m' L' H' vs' R' ds')
    {k : Nat} (hs : Step m k m') (hQ : ∀ q, m'.hist = m.hist ++ [q] → Q m.w.disk q.rq q.B) : PInv P ds' m'.hist := by
  rcases step_hist hs with he | ⟨x, q, hk, he, hx⟩
  · have := hM'.one
    rw [he] at this
    obtain ⟨rfl, -⟩ := hM.one.det this
    rw [he]; exact h
  · have hone := hM'.one
    rw [he] at hone
    obtain ⟨ds1, r1, d, d1, st, g1, g2, g3, g4, g5, g6, g7, g8⟩ := hone.snoc_inv
    obtain ⟨e1, e2⟩ := hM.one.det g1
    rw [e1] at g2 g3 g8; rw [e2] at g4
    rw [hM.last] at g3; cases g3
    have hfine : FineReq q.rq q.B ∧ (readOnly q.rq = false → q.rq.onDir m.w.disk) ∧ ∀ i, x.owes i = q.rq.returned i := by
      rcases hx with ⟨rfl, hp, -⟩ | ⟨p, rfl⟩ | ⟨r, rfl⟩
      · refine ⟨(hR.fine k _ hk).1, fun _ => ?_, fun _ => rfl⟩
        revert hp
        cases q.rq with | _ => first | (intro _; trivial) | (intro hp; cases hp)
      · exact ⟨(hR.fine k _ hk).1.1, (hR.fine k _ hk).1.2, fun _ => rfl⟩
      · exact ⟨(hR.fine k _ hk).1.1, (hR.fine k _ hk).1.2, fun _ => rfl⟩
    obtain ⟨hq, hd', hx'⟩ := hfine
    have hret : ∀ i, q.rq.returned i ≤ (R i).nrefs := by
      intro i
      have h1 := hR.cnt i
      have h2 := owes_le (i := i) hk
      rw [hx'] at h2; omega
    have hlen := hM.one.length
    obtain ⟨hroom1, hroom2, hroom3⟩ := hR.room
    -- the databases after this request, and what it saw
    have key : (∃ s1, Rep s1 (if readOnly q.rq then m.w.disk else st.disk) ∧ s1.OK ∧ P s1) ∧
        ∃ d, seen ds m.hist.length q = some d ∧ Saw P d (if readOnly q.rq then m.w.disk else st.disk) q := by
      cases hr : readOnly q.rq with
      | true =>
        rw [hr, if_pos rfl] at g2
        refine ⟨by rw [if_pos rfl]; exact h.all _ (List.mem_of_getLast? hM.last), d, by unfold seen; rw [hr, if_pos rfl]; exact g2, ?_⟩
        have hmem : d ∈ ds := List.mem_of_getElem? g2
        obtain ⟨⟨s0, hold⟩, hsz⟩ := hR.old d hmem
        obtain ⟨s1, f1, f2, f3⟩ := h.all d hmem
        obtain rfl := Rep.inj hold.rep hold.ok f1 f2
        exact .read hr hold.rep hold.ok hold.wf f3 hq.1 hret (fun i => by have := hR.bound i; omega) g4 g5 g6 (by rw [if_pos rfl]; exact hR.si)
      | false =>
        rw [hr, if_neg (by simp), hM.last] at g2
        cases g2
        have hn := hroom3 _ hR.si.rep.next
        have hv : Valid ⟨m.w.disk, R, fun i => (R i).nrefs⟩ q.B q.rq := by
          refine ⟨hq.1, hd' hr, hret, fun n hn => ?_, fun i => ?_⟩
          · have h1 := hroom3 n hn
            refine ⟨by omega, fun p names e hp => ?_⟩
            have := hq.2 p names e hp
            omega
          · have h1 := hR.bound i
            simp only; omega
        have hdisp : dispatch q.B m.w.disk R q.rq = .ok st := by
          unfold dispatch; rw [g4]
          simp only [bind_ok, St.finish]
          rw [if_neg (by rw [g5]; simp)]; rfl
        obtain ⟨s1, f1, f2, f3⟩ := h.all _ (List.mem_of_getLast? hM.last)
        obtain rfl := Rep.inj hR.si.rep hR.si.ok f1 f2
        rcases dispatch_served (y := ⟨m.w.disk, R, fun i => (R i).nrefs⟩) hR.si (fun i => Nat.le_refl _) hv with ⟨s2, d2, r2, rep2, k1, k2, k3⟩ | ⟨dir, size, off, e, -, -, k1⟩
        · simp only at k1 k3
          rw [k1] at hdisp
          simp only [Except.ok.injEq] at hdisp
          subst hdisp
          simp only [done, List.cons.injEq, and_true] at g5
          subst g5
          refine ⟨⟨s2, by rw [if_neg (by simp)]; exact k2.rep, k2.ok, hK.abs k3 hR.si hq.1 (hd' hr) (by omega) (fun p names e hp => ?_) (hQ q he) f3⟩,
            m.w.disk, ?_, by rw [if_neg (by simp)]; exact .wrote hr hR.si f3 hq.1 (hd' hr) (by omega) (fun p names e hp => by have := hq.2 p names e hp; omega) k2 k3⟩
          · have := hq.2 p names e hp; omega
          · unfold seen; rw [hr, if_neg (by simp)]
            have := hM.last
            rw [List.getLast?_eq_getElem?, hlen] at this
            simpa using this
        · simp only at k1
          rw [k1] at hdisp
          simp only [Except.ok.injEq] at hdisp
          subst hdisp; cases g6
    obtain ⟨k1, d2, k2, k3⟩ := key
    rw [he, g8]
    refine ⟨fun d hd => ?_, fun j q' hj => ?_⟩
    · rcases List.mem_append.mp hd with hd | hd
      · exact h.all d hd
      · rw [List.mem_singleton.mp hd]; exact k1
    · by_cases hlt : j < m.hist.length
      · rw [List.getElem?_append_left hlt] at hj
        obtain ⟨d, d', f1, f2, f3⟩ := h.saw j q' hj
        exact ⟨d, d', seen_append f1, by rw [List.getElem?_append_left (by omega)]; exact f2, f3⟩
      · rw [List.getElem?_append_right (by omega)] at hj
        obtain rfl : j = m.hist.length := by
          have := (List.getElem?_eq_some_iff.mp hj).1
          simp at this; omega
        simp at hj; subst hj
        exact ⟨d2, _, seen_append k2, by rw [← hlen]; simp, k3⟩

theorem asked_step {Q : DB → Req → Backend → Prop} {d0 : DB} {r0 : Refs} {m m' : MSys} {L H vs R ds L' H' vs' R' ds'}
    (h : ∀ (k : Nat) (q : Done) (d : DB), m.hist[k]? = some q → ds[k]? = some d → Q d q.rq q.B) (hM : MInv d0 r0 m L H vs R ds) (hM' : MInv d0 r0 m' L' H' vs' R' ds')
    {k : Nat} (hs : Step m k m') (hQ : ∀ q, m'.hist = m.hist ++ [q] → Q m.w.disk q.rq q.B) :
    ∀ (k : Nat) (q : Done) (d : DB), m'.hist[k]? = some q → ds'[k]? = some d → Q d q.rq q.B := by
  rcases step_hist hs with he | ⟨x, q, hk, he, hx⟩
  · have := hM'.one
    rw [he] at this
    obtain ⟨rfl, -⟩ := hM.one.det this
    rw [he]; exact h
  · have hone := hM'.one
    rw [he] at hone
    obtain ⟨ds1, r1, d, d1, st, g1, g2, g3, g4, g5, g6, g7, g8⟩ := hone.snoc_inv
    obtain ⟨rfl, e2⟩ := hM.one.det g1
    have hlen := hM.one.length
    intro j q' d' hj hd
    rw [he] at hj
    rw [g8] at hd
    by_cases hlt : j < m.hist.length
    · rw [List.getElem?_append_left hlt] at hj
      rw [List.getElem?_append_left (by omega)] at hd
      exact h j q' d' hj hd
    · rw [List.getElem?_append_right (by omega)] at hj
      obtain rfl : j = m.hist.length := by
        have := (List.getElem?_eq_some_iff.mp hj).1
        simp at this; omega
      simp at hj; subst hj
      rw [List.getElem?_append_left (by omega)] at hd
      have hl := hM.last
      rw [List.getLast?_eq_getElem?, hlen] at hl
      simp only [Nat.add_sub_cancel] at hl
      rw [hl] at hd; cases hd
      exact hQ q he

/-- All requests which have ended, under all interleavings. -/
theorem MReachD.inv {Q : DB → Req → Backend → Prop} {P : Tree → Prop} (hK : Kept Q P) {m : MSys} (h : MReachD Q m) :
    ∃ d0 r0 n L H vs R ds s, Steps (MSys.start d0 r0 n) m ∧ MInv d0 r0 m L H vs R ds ∧ RInv m R ds s ∧ PInv P ds m.hist ∧
      ∀ (k : Nat) (q : Done) (d : DB), m.hist[k]? = some q → ds[k]? = some d → Q d q.rq q.B := by
  have start : ∀ {d d' : DB} {r' : Refs} {s : Tree} {n : Nat}, Rep s d → s.OK → s.WF → P s → openCleanDB d Refs.empty = .ok (d', r') → Room (CWorld.start d' r') →
      ∃ d0 r0 n' L H vs R ds s, Steps (MSys.start d0 r0 n') (MSys.start d' r' n) ∧ MInv d0 r0 (MSys.start d' r' n) L H vs R ds ∧ RInv (MSys.start d' r' n) R ds s ∧
        PInv P ds (MSys.start d' r' n).hist ∧ ∀ (k : Nat) (q : Done) (d : DB), (MSys.start d' r' n).hist[k]? = some q → ds[k]? = some d → Q d q.rq q.B := by
    intro d d' r' s n h1 h2 h3 hP ho hroom
    obtain ⟨s1, s2, h4, h5, h6, -⟩ := open_SI' h1 h2 h3 ho
    obtain ⟨L, H, vs, R, ds, hM⟩ := minv_start d' r' n
    have hone := hM.one
    obtain ⟨rfl, rfl⟩ := OneByOne.det .start hone
    refine ⟨d', _, n, L, H, vs, _, _, s2, .refl, hM, rinv_start h4 hroom, ⟨fun d hd => ?_, fun k q hk => ?_⟩, fun k q d hk => ?_⟩
    · rw [List.mem_singleton.mp hd]
      exact ⟨s2, h4.rep, h4.ok, hK.coll (hK.coll hP h5) h6⟩
    · simp [MSys.start] at hk
    · simp [MSys.start] at hk
  induction h with
  | @mount uid gid now d r n ho hroom =>
    obtain ⟨s, h1, h2, h3⟩ := root_rep uid gid now
    exact start h1 h2 h3 (hK.root h1 h2) ho hroom
  | @remount m uid gid now d r n _ ho hroom ih =>
    obtain ⟨d0, r0, -, L, H, vs, R, ds, s, -, hM, hR, hP, -⟩ := ih
    have hi : initDB m.w.disk uid gid now = m.w.disk := by
      unfold initDB; rw [hR.si.rep.next]
    rw [hi] at ho
    obtain ⟨s1, f1, f2, f3⟩ := hP.all _ (List.mem_of_getLast? hM.last)
    obtain rfl := Rep.inj hR.si.rep hR.si.ok f1 f2
    exact start hR.si.rep hR.si.ok hR.si.wf f3 ho hroom
  | @step m m' k _ hs hp hroom hQ ih =>
    obtain ⟨d0, r0, n, L, H, vs, R, ds, s, hst, hM, hR, hP, hA⟩ := ih
    obtain ⟨L', H', vs', R', ds', hM', hRR⟩ := hM.step hs
    obtain ⟨s', hR'⟩ := hR.step hM hM' hRR hs hp hroom
    exact ⟨d0, r0, n, L', H', vs', R', ds', s', .step hst hs, hM', hR', hP.step hK hM hR hM' hs hQ, asked_step hA hM hM' hs hQ⟩

theorem MReachQ.inv {Q : Req → Backend → Prop} {P : Tree → Prop} (hK : Kept (fun _ => Q) P) {m : MSys} (h : MReachQ Q m) :
    ∃ d0 r0 n L H vs R ds s, Steps (MSys.start d0 r0 n) m ∧ MInv d0 r0 m L H vs R ds ∧ RInv m R ds s ∧ PInv P ds m.hist := by
  obtain ⟨d0, r0, n, L, H, vs, R, ds, s, h1, h2, h3, h4, -⟩ := h.dep.inv hK
  exact ⟨d0, r0, n, L, H, vs, R, ds, s, h1, h2, h3, h4⟩

end Dragonstash.MT
