/-
  What the databases and the replies of requests tell after a moment, when a property of the stored tree
  is kept by all requests after it.
-/
import Verif.MT.Life
namespace Dragonstash.MT
open Cache FS Conc

/-- What may happen after `m` if all requests which end satisfy `Q`: threads make steps, in any order; the
process dies, at any moment, and is started again. `b` tells which requests of the last process began
after `m`: those which were the `b`-th to end or a later one (and, if they only read, whose transaction began when at least `b` had
ended). -/
inductive Since (Q : DB → Req → Backend → Prop) (m : MSys) : Nat → MSys → Prop
  | refl : Since Q m m.hist.length m
  | step {b m1 m2 k} : Since Q m b m1 → Step m1 k m2 → Proper m1 k m2 → Room m2.w → (∀ q, m2.hist = m1.hist ++ [q] → Q m1.w.disk q.rq q.B) → Since Q m b m2
  | crash {b m1 uid gid now d r n} : Since Q m b m1 → openCleanDB (initDB m1.w.disk uid gid now) Refs.empty = .ok (d, r) → Room (CWorld.start d r) →
      Since Q m 0 (MSys.start d r n)

/-- Request number `k` in the history began after the first `b` had ended. -/
def Done.after (q : Done) (k b : Nat) : Prop := b ≤ k ∧ (readOnly q.rq = true → b ≤ q.ver)

/-- Properties of the tree which requests `Q` keep. -/
structure Holds (Q : DB → Req → Backend → Prop) (P : Tree → Prop) : Prop where
  coll : ∀ {s s' : Tree} {L : Ino → Prop}, P s → s.OK → Collected s L s' → P s'
  abs : ∀ {B d s r rq rep s' r'}, Abs B d s r rq rep s' r' → SI s d r → rq.inRange → rq.onDir d →
      s.next + 1 < W64 → (∀ p names e, B.opendir p = .ok (names, e) → s.next + names.length + 1 < W64) → Q d rq B → P s → P s'

theorem Since.reach {Q : DB → Req → Backend → Prop} {m m' : MSys} {b : Nat} (h : Since Q m b m') (hm : MReach m) : MReach m' := by
  induction h with
  | refl => exact hm
  | step _ h1 h2 h3 _ ih => exact .step ih h1 h2 h3
  | crash _ h1 h2 ih => exact .remount ih h1 h2

/-- `P` at one moment holds at all later ones. -/
theorem chain {Q : DB → Req → Backend → Prop} {P : Tree → Prop} (hH : Holds Q P) {d0 : DB} {r0 R : Refs} {ds : List DB} {hist : List Done} (hone : OneByOne d0 r0 ds R hist)
    (hP : PInv (fun _ => True) ds hist) {k : Nat} {d : DB} {s : Tree} (hk : ds[k]? = some d) (hs : Rep s d) (ok : s.OK) (hh : P s) :
    ∀ (k' : Nat) (d' : DB), k ≤ k' → ds[k']? = some d' → (∀ (l : Nat) (q : Done) (e : DB), k ≤ l → l < k' → hist[l]? = some q → ds[l]? = some e → Q e q.rq q.B) →
      ∃ s', Rep s' d' ∧ s'.OK ∧ P s' := by
  intro k'
  induction k' with
  | zero =>
    intro d' hkk hd' _
    obtain rfl : k = 0 := by omega
    rw [hk] at hd'; cases hd'
    exact ⟨s, hs, ok, hh⟩
  | succ k' ih =>
    intro d' hkk hd' hq
    by_cases he : k = k' + 1
    · subst he
      rw [hk] at hd'; cases hd'
      exact ⟨s, hs, ok, hh⟩
    · have hlen := hone.length
      have hlt : k' + 1 < ds.length := (List.getElem?_eq_some_iff.mp hd').1
      obtain ⟨e, hde⟩ : ∃ e, ds[k']? = some e := ⟨_, List.getElem?_eq_getElem (by omega)⟩
      obtain ⟨q, hdq⟩ : ∃ q, hist[k']? = some q := ⟨_, List.getElem?_eq_getElem (by omega)⟩
      obtain ⟨s1, g1, g2, g3⟩ := ih e (by omega) hde (fun j q e h1 h2 => hq j q e h1 (by omega))
      cases hr : readOnly q.rq with
      | true =>
        have := hone.ro_same hdq hr
        rw [hd', hde] at this; cases this
        exact ⟨s1, g1, g2, g3⟩
      | false =>
        obtain ⟨e', d2, f1, f2, f3⟩ := hP.saw k' q hdq
        unfold seen at f1
        rw [hr, if_neg (by simp), hde] at f1; cases f1
        rw [hd'] at f2; cases f2
        have c1 := hq k' q e (by omega) (by omega) hdq hde
        cases f3 with
        | @wrote s2 r2 s3 r3 _ k1 _ hin hon hnx hnx2 k3 k4 =>
          obtain rfl := Rep.inj k1.rep k1.ok g1 g2
          exact ⟨s3, k3.rep, k3.ok, hH.abs k4 k1 hin hon hnx hnx2 c1 g3⟩
        | read h1 => rw [hr] at h1; cases h1

/-- The databases since `m`; `P` holds in all of them if it holds in `m`. -/
theorem Since.inv {Q : DB → Req → Backend → Prop} {m m' : MSys} {b : Nat} (h : Since Q m b m') (hm : MReach m) :
    ∃ d0 r0 n L H vs R ds s, Steps (MSys.start d0 r0 n) m' ∧ MInv d0 r0 m' L H vs R ds ∧ RInv m' R ds s ∧ PInv (fun _ => True) ds m'.hist ∧ b ≤ m'.hist.length ∧
      (∀ (l : Nat) (q : Done) (e : DB), b ≤ l → m'.hist[l]? = some q → ds[l]? = some e → Q e q.rq q.B) ∧
      ∀ {P : Tree → Prop}, Holds Q P → (∀ s, Rep s m.w.disk → s.OK → P s) → ∀ d s, ds[b]? = some d → Rep s d → s.OK → P s := by
  induction h with
  | refl =>
    obtain ⟨d0, r0, n, L, H, vs, R, ds, s, hst, hM, hR, hP⟩ := hm.any.inv kept_true
    refine ⟨d0, r0, n, L, H, vs, R, ds, s, hst, hM, hR, hP, Nat.le_refl _, fun l q e hl hq => ?_, fun _ hP d s hd hs ok => ?_⟩
    · have := (List.getElem?_eq_some_iff.mp hq).1; omega
    · have hl := hM.one.length
      have h1 := hM.last
      rw [List.getLast?_eq_getElem?, hl, Nat.add_sub_cancel, hd] at h1
      cases h1; exact hP s hs ok
  | @step b m1 m2 k h0 hs hp hroom hq ih =>
    obtain ⟨d0, r0, n, L, H, vs, R, ds, s, hst, hM, hR, hP, hb, hQ, hk⟩ := ih
    obtain ⟨L', H', vs', R', ds', hM', hRR⟩ := hM.step hs
    obtain ⟨s', hR'⟩ := hR.step hM hM' hRR hs hp hroom
    have hP' := hP.step kept_true hM hR hM' hs (fun _ _ => trivial)
    have hA : ∀ (l : Nat) (q : Done) (e : DB), m2.hist[l]? = some q → ds'[l]? = some e → b ≤ l → Q e q.rq q.B := by
      rcases step_hist hs with he | ⟨x, q, hkx, he, hx⟩
      · have h1 := hM'.one
        rw [he] at h1
        obtain ⟨rfl, -⟩ := hM.one.det h1
        intro l q e h2 h3 h4
        rw [he] at h2; exact hQ l q e h4 h2 h3
      · have h1 := hM'.one
        rw [he] at h1
        obtain ⟨ds1, r1, d, d1, st, g1, -, -, -, -, -, -, rfl⟩ := h1.snoc_inv
        obtain ⟨rfl, -⟩ := hM.one.det g1
        have hl := hM.one.length
        intro l q' e h2 h3 h4
        rw [he] at h2
        by_cases hlt : l < m1.hist.length
        · rw [List.getElem?_append_left hlt] at h2
          rw [List.getElem?_append_left (by omega)] at h3
          exact hQ l q' e h4 h2 h3
        · have hlt2 := (List.getElem?_eq_some_iff.mp h2).1
          simp only [List.length_append, List.length_cons, List.length_nil] at hlt2
          obtain rfl : l = m1.hist.length := by omega
          rw [List.getElem?_concat_length] at h2; cases h2
          rw [List.getElem?_append_left (by omega)] at h3
          have h5 := hM.last
          rw [List.getLast?_eq_getElem?, hl, Nat.add_sub_cancel, h3] at h5
          cases h5; exact hq _ he
    have hpre : ∀ d, ds'[b]? = some d → ds[b]? = some d := by
      intro d hd
      rcases step_hist hs with he | ⟨x, q, hkx, he, hx⟩
      · have h1 := hM'.one
        rw [he] at h1
        obtain ⟨rfl, -⟩ := hM.one.det h1
        exact hd
      · have h1 := hM'.one
        rw [he] at h1
        obtain ⟨ds1, r1, d', d1, st, g1, -, -, -, -, -, -, rfl⟩ := h1.snoc_inv
        obtain ⟨rfl, -⟩ := hM.one.det g1
        have hl := hM.one.length
        rw [List.getElem?_append_left (by omega)] at hd; exact hd
    refine ⟨d0, r0, n, L', H', vs', R', ds', s', .step hst hs, hM', hR', hP', ?_, fun l q e h1 h2 h3 => hA l q e h2 h3 h1, fun hH hP d s hd => hk hH hP d s (hpre d hd)⟩
    rcases step_hist hs with he | ⟨x, q, hkx, he, hx⟩
    · rw [he]; exact hb
    · rw [he]; simp; omega
  | @crash b m1 uid gid now d r n h0 ho hroom ih =>
    obtain ⟨d0, r0, n', L, H, vs, R, ds, s, hst, hM, hR, hP, hb, hQ, hk⟩ := ih
    have hi : initDB m1.w.disk uid gid now = m1.w.disk := by
      unfold initDB; rw [hR.si.rep.next]
    rw [hi] at ho
    obtain ⟨s1, s2, h4, h5, h6, ok1⟩ := open_SI' hR.si.rep hR.si.ok hR.si.wf ho
    obtain ⟨L', H', vs', R', ds', hM'⟩ := minv_start d r n
    obtain ⟨rfl, rfl⟩ := OneByOne.det .start hM'.one
    refine ⟨d, _, n, L', H', vs', _, _, s2, .refl, hM', rinv_start h4 hroom, ⟨fun d hd => ?_, fun k q hk => ?_⟩, Nat.zero_le _, fun l q e _ hq => ?_, fun {P} hH hPm e t he ht okt => ?_⟩
    · rw [List.mem_singleton.mp hd]; exact ⟨s2, h4.rep, h4.ok, trivial⟩
    · simp [MSys.start] at hk
    · simp [MSys.start] at hq
    · cases he
      obtain rfl := Rep.inj h4.rep h4.ok ht okt
      have hl := hM.one.length
      obtain ⟨e1, he1⟩ : ∃ e1, ds[b]? = some e1 := ⟨_, List.getElem?_eq_getElem (by omega)⟩
      obtain ⟨t1, t2, t3, -⟩ := hP.all e1 (List.mem_of_getElem? he1)
      have hlast : ds[m1.hist.length]? = some m1.w.disk := by
        have := hM.last
        rw [List.getLast?_eq_getElem?, hl, Nat.add_sub_cancel] at this; exact this
      obtain ⟨s', f1, f2, f3⟩ := chain hH hM.one hP he1 t2 t3 (hk hH hPm e1 t1 he1 t2 t3) m1.hist.length _ hb hlast (fun l q e h1 h2 h3 h4 => hQ l q e h1 h3 h4)
      obtain rfl := Rep.inj f1 f2 hR.si.rep hR.si.ok
      exact hH.coll (hH.coll f3 f2 h5) ok1 h6

/-- The databases which a request which began after `m` saw, and those it left, have property `P`. -/
theorem Since.fits {Q : DB → Req → Backend → Prop} {P : Tree → Prop} (hH : Holds Q P) {m m' : MSys} {b : Nat} (h : Since Q m b m') (hm : MReach m) (hP : ∀ s, Rep s m.w.disk → s.OK → P s) :
    (∃ s, Rep s m'.w.disk ∧ s.OK ∧ P s) ∧ ∀ (k : Nat) (q : Done), m'.hist[k]? = some q → q.after k b → ∃ s, s.OK ∧ P s ∧ Fits s (q.rq, q.rep) := by
  obtain ⟨d0, r0, n, L, H, vs, R, ds, s, hst, hM, hR, hPI, hb, hQ, hk⟩ := h.inv hm
  have hl := hM.one.length
  obtain ⟨e1, he1⟩ : ∃ e1, ds[b]? = some e1 := ⟨_, List.getElem?_eq_getElem (by omega)⟩
  obtain ⟨t1, t2, t3, -⟩ := hPI.all e1 (List.mem_of_getElem? he1)
  have all : ∀ (j : Nat) (d : DB), b ≤ j → ds[j]? = some d → ∃ s, Rep s d ∧ s.OK ∧ P s := fun j d hj hd =>
    chain hH hM.one hPI he1 t2 t3 (hk hH hP e1 t1 he1 t2 t3) j d hj hd (fun l q e h1 h2 h3 h4 => hQ l q e h1 h3 h4)
  refine ⟨?_, fun k q hkq ha => ?_⟩
  · have := hM.last
    rw [List.getLast?_eq_getElem?, hl, Nat.add_sub_cancel] at this
    exact all _ _ hb this
  · obtain ⟨d, d', h1, h2, h3⟩ := hPI.saw k q hkq
    obtain ⟨s, g1, g2, g3⟩ := saw_fits h3
    rcases g1 with g1 | g1
    · have : ∃ j, b ≤ j ∧ ds[j]? = some d := by
        unfold seen at h1
        split at h1
        · rename_i hr; exact ⟨_, ha.2 hr, h1⟩
        · exact ⟨_, ha.1, h1⟩
      obtain ⟨j, hj, hd⟩ := this
      obtain ⟨s', f1, f2, f3⟩ := all j d hj hd
      obtain rfl := Rep.inj f1 f2 g1 g2
      exact ⟨s', f2, f3, g3⟩
    · obtain ⟨s', f1, f2, f3⟩ := all (k + 1) d' (by have := ha.1; omega) h2
      obtain rfl := Rep.inj f1 f2 g1 g2
      exact ⟨s', f2, f3, g3⟩

/-- From a reply to the databases: if the tree which a reply fits has property `P`, so have the databases afterwards. (`P0` is
known of all trees since `m`.) -/
theorem Since.from_ {Q : DB → Req → Backend → Prop} {P0 P : Tree → Prop} (hH0 : Holds Q P0) (hH : Holds Q P) {m m' : MSys} {b : Nat} (h : Since Q m b m') (hm : MReach m)
    (hP0 : ∀ s, Rep s m.w.disk → s.OK → P0 s) {k : Nat} {q : Done}
    (hkq : m'.hist[k]? = some q) (ha : q.after k b) (hP : ∀ s, s.OK → P0 s → Fits s (q.rq, q.rep) → P s) : ∃ s, Rep s m'.w.disk ∧ s.OK ∧ P s := by
  obtain ⟨d0, r0, n, L, H, vs, R, ds, s, hst, hM, hR, hPI, hb, hQ, hk⟩ := h.inv hm
  have hl := hM.one.length
  have hlast : ds[m'.hist.length]? = some m'.w.disk := by
    have := hM.last
    rw [List.getLast?_eq_getElem?, hl, Nat.add_sub_cancel] at this; exact this
  obtain ⟨e1, he1⟩ : ∃ e1, ds[b]? = some e1 := ⟨_, List.getElem?_eq_getElem (by omega)⟩
  obtain ⟨t1, t2, t3, -⟩ := hPI.all e1 (List.mem_of_getElem? he1)
  have all : ∀ (j : Nat) (d : DB) (s : Tree), b ≤ j → ds[j]? = some d → Rep s d → s.OK → P0 s := fun j d s hj hd hs ok => by
    obtain ⟨s', f1, f2, f3⟩ := chain hH0 hM.one hPI he1 t2 t3 (hk hH0 hP0 e1 t1 he1 t2 t3) j d hj hd (fun l q e h1 h2 h3 h4 => hQ l q e h1 h3 h4)
    obtain rfl := Rep.inj f1 f2 hs ok
    exact f3
  have hkl := (List.getElem?_eq_some_iff.mp hkq).1
  obtain ⟨d, d', h1, h2, h3⟩ := hPI.saw k q hkq
  obtain ⟨s, g1, g2, g3⟩ := saw_fits h3
  rcases g1 with g1 | g1
  · have : ∃ j, b ≤ j ∧ ds[j]? = some d := by
      unfold seen at h1
      split at h1
      · rename_i hr; exact ⟨_, ha.2 hr, h1⟩
      · exact ⟨_, ha.1, h1⟩
    obtain ⟨j, hj, hd⟩ := this
    have hjl := (List.getElem?_eq_some_iff.mp hd).1
    exact chain hH hM.one hPI hd g1 g2 (hP s g2 (all j d s hj hd g1 g2) g3) _ _ (by omega) hlast (fun l q e h1 h2 h3 h4 => hQ l q e (by omega) h3 h4)
  · exact chain hH hM.one hPI h2 g1 g2 (hP s g2 (all (k + 1) d' s (by have := ha.1; omega) h2 g1 g2) g3) _ _ (by omega) hlast (fun l q e h1 h2 h3 h4 => hQ l q e (by have := ha.1; omega) h3 h4)

end Dragonstash.MT
