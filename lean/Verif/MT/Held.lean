/-
  The kernel's references, under all interleavings of requests: invariant.
-/
import Verif.MT.Refs
import Verif.MT.Demo
namespace Dragonstash.MT
open Cache FS Conc

/-- What the reference table has to cover for a thread: lookups which the kernel has given back, but the
request has not ended; replies which hand out inodes, but are not sent. -/
def TState.owes (i : Ino) : TState → Nat
  | .recv rq _ => rq.returned i
  | .run rq _ _ _ => rq.returned i
  | .leaving rq _ _ _ => rq.returned i
  | .committed _ r => r.given i
  | .answer _ r => r.given i
  | _ => 0

def owed (i : Ino) (th : List TState) : Nat := (th.map (TState.owes i)).sum

theorem owed_set {i : Ino} {th : List TState} {k : Nat} {x y : TState} (h : th[k]? = some x) :
    owed i (th.set k y) + x.owes i = owed i th + y.owes i := by
  unfold owed
  induction th generalizing k with
  | nil => cases h
  | cons a l ih =>
    cases k with
    | zero =>
      simp only [List.getElem?_cons_zero, Option.some.injEq] at h
      subst h
      simp; omega
    | succ k =>
      simp only [List.getElem?_cons_succ] at h
      have := ih h
      simp only [List.set_cons_succ, List.map_cons, List.sum_cons]; omega

theorem owes_le {i : Ino} {th : List TState} {k : Nat} {x : TState} (h : th[k]? = some x) : x.owes i ≤ owed i th := by
  have := owed_set (i := i) (y := .idle) h
  have h0 : TState.owes i .idle = 0 := rfl
  omega

/-- What is known about the request of a thread. -/
def FineReq (rq : Req) (B : Backend) : Prop := rq.inRange ∧ ∀ path names e, B.opendir path = .ok (names, e) → names.length < 2 ^ 62

def FineThread (d : DB) : TState → Prop
  | .recv rq B => FineReq rq B
  | .run rq B _ _ => FineReq rq B ∧ (readOnly rq = false → rq.onDir d)
  | .leaving rq B _ _ => FineReq rq B ∧ (readOnly rq = false → rq.onDir d)
  | _ => True

/-- While a thread has the mutex and its transaction is open, the reference table differs from that at
the beginning of the transaction; it has given back no more than the kernel has. -/
def Budget (w : CWorld) (R : Refs) (k : Nat) : TState → Prop
  | .run rq _ _ p => ∃ b : Ino → Nat, p.Within b ∧ (∀ i, b i ≤ rq.returned i) ∧
      (w.mutex = some k → ∀ i, (R i).nrefs + b i ≤ (w.refs i).nrefs + rq.returned i)
  | .leaving rq _ _ _ => w.mutex = some k → ∀ i, (R i).nrefs ≤ (w.refs i).nrefs + rq.returned i
  | _ => True

structure RInv (m : MSys) (R : Refs) (ds : List DB) (s : Tree) : Prop where
  si : SI s m.w.disk R
  old : ∀ d ∈ ds, (∃ s0, Old s0 d s R) ∧ d.treei.size < 2 ^ 62
  cnt : ∀ i, m.held i + owed i m.th ≤ (R i).nrefs
  bound : ∀ i, (R i).nrefs < 2 ^ 63
  fine : ∀ (k : Nat) st, m.th[k]? = some st → FineThread m.w.disk st ∧ Budget m.w R k st
  room : Room m.w

/-- One more request in the serial history. -/
theorem RInv.ended {m : MSys} {R ds s} (h : RInv m R ds s) (hl : ds.getLast? = some m.w.disk) {rq : Req} {B : Backend} {v : Nat} {rep : Reply} {d : DB} {st : St}
    (hq : FineReq rq B) (hd' : readOnly rq = false → rq.onDir m.w.disk) (hret : ∀ i, rq.returned i ≤ (R i).nrefs)
    (hd : (if readOnly rq then ds[v]? else ds.getLast?) = some d) (hh : handle B { disk := d, refs := R } rq = .ok st) (hsent : st.sent = [rep]) (hf : st.fault = none)
    (hsize : readOnly rq = false → st.disk.treei.size < 2 ^ 62) :
    ∃ s', SI s' (if readOnly rq then m.w.disk else st.disk) st.refs ∧
      (∀ d ∈ ds ++ [if readOnly rq then m.w.disk else st.disk], (∃ s0, Old s0 d s' st.refs) ∧ d.treei.size < 2 ^ 62) ∧
      ∀ i, (R i).nrefs + rep.given i ≤ (st.refs i).nrefs + rq.returned i := by
  obtain ⟨hroom1, hroom2, hroom3⟩ := h.room
  cases hr : readOnly rq with
  | true =>
    rw [hr, if_pos rfl] at hd
    have hmem : d ∈ ds := List.mem_of_getElem? hd
    obtain ⟨⟨s0, hold⟩, hsz⟩ := h.old d hmem
    have hro : ∀ p n i j, rq ≠ .lookup p n ∧ rq ≠ .readlink i ∧ rq ≠ .opendir j := by
      intro p n i j
      refine ⟨?_, ?_, ?_⟩ <;> (rintro rfl; cases hr)
    rcases read_served (B := B) h.si hold hq.1 hro hret (fun i => by have := h.bound i; omega) with ⟨r', rep', g1, g2, g3, g4, -, -⟩ | ⟨dir, size, off, e, -, g1⟩
    · rw [g1] at hh
      simp only [Except.ok.injEq] at hh
      subst hh
      simp only [done] at hsent
      cases hsent
      refine ⟨s, by rw [if_pos rfl]; exact g2, fun d1 hd1 => ?_, g4⟩
      rw [if_pos rfl, List.mem_append, List.mem_singleton] at hd1
      rcases hd1 with hd1 | rfl
      · obtain ⟨⟨s1, g5⟩, g6⟩ := h.old d1 hd1
        exact ⟨⟨s1, g5.eff h.si.ok .refl (fun i => g3 i)⟩, g6⟩
      · exact ⟨⟨s, Old.now g2⟩, hroom2⟩
    · rw [g1] at hh
      simp only [Except.ok.injEq] at hh
      subst hh; cases hf
  | false =>
    rw [hr, if_neg (by simp), hl] at hd
    cases hd
    have hn := hroom3 _ h.si.rep.next
    have hv : Valid ⟨m.w.disk, R, fun i => (R i).nrefs⟩ B rq := by
      refine ⟨hq.1, hd' hr, hret, fun n hn => ?_, fun i => ?_⟩
      · have h1 := hroom3 n hn
        refine ⟨by omega, fun p names e hp => ?_⟩
        have := hq.2 p names e hp
        omega
      · have h1 := h.bound i
        simp only; omega
    have hdisp : dispatch B m.w.disk R rq = .ok st := by
      unfold dispatch; rw [hh]
      simp only [bind_ok, St.finish]
      rw [if_neg (by rw [hsent]; simp)]; rfl
    rcases dispatch_served (y := ⟨m.w.disk, R, fun i => (R i).nrefs⟩) h.si (fun i => Nat.le_refl _) hv with ⟨s', d', r', rep', g1, g2, g3⟩ | ⟨dir, size, off, e, -, -, g1⟩
    · simp only at g1
      rw [g1] at hdisp
      simp only [Except.ok.injEq] at hdisp
      subst hdisp
      simp only [done] at hsent
      cases hsent
      obtain ⟨r1, e1, e2⟩ := abs_eff' g3 h.si hq.1 (hd' hr) (by omega)
      refine ⟨s', by rw [if_neg (by simp)]; exact g2, fun d1 hd1 => ?_, fun i => (abs_counts g3 hret i).1⟩
      rw [if_neg (by simp), List.mem_append, List.mem_singleton] at hd1
      rcases hd1 with hd1 | rfl
      · obtain ⟨⟨s1, g5⟩, g6⟩ := h.old d1 hd1
        exact ⟨⟨s1, g5.eff h.si.ok e1 e2⟩, g6⟩
      · exact ⟨⟨s', Old.now g2⟩, hsize hr⟩
    · simp only at g1
      rw [g1] at hdisp
      simp only [Except.ok.injEq] at hdisp
      subst hdisp; cases hf

/-- Steps of another thread do not touch the table while this one has the mutex. -/
theorem foreign {w w' : CWorld} (hl : LockInv w) {k j : Nat} {c : CCall} {out : Out} (hc : c = .beginRO k k ∨ c = .beginRW k k ∨ ∃ a, c = .on k a ∧ a ≠ .abort)
    (hs : w.step c = .done w' out) (hj : j ≠ k) (hm : w'.mutex = some j) : w.mutex = some j ∧ w'.refs = w.refs := by
  cases step_inv hs with
  | beginRO => exact ⟨hm, rfl⟩
  | beginRW => exact ⟨hm, rfl⟩
  | @op k' t f r o x _ mx h1 h2 h3 h4 h5 h6 =>
    obtain rfl : k' = k := by rcases hc with hc | hc | ⟨a, hc, -⟩ <;> cases hc; rfl
    simp only at hm
    have hmx : mx = false := by
      cases mx with
      | false => rfl
      | true => rw [if_pos rfl] at hm; cases hm; exact absurd rfl hj
    rw [hmx, if_neg (by simp)] at hm
    refine ⟨hm, ?_⟩
    have ha : asksRefs f.fr.db o = false := by
      cases ha : asksRefs f.fr.db o with
      | false => rfl
      | true =>
        rcases h5 ha with h7 | h7
        · rw [hmx] at h7; cases h7
        · have := hl.mx k' t h1 (by unfold CTxn.hasMutex; rw [h7]; simp)
          rw [hm] at this; cases this; exact absurd rfl hj
    exact ((doOp_norefs (t := f.fr.txn w.refs) ha w.refs).2 _ _ h4).1
  | nested => exact ⟨hm, rfl⟩
  | commit => exact ⟨hm, rfl⟩
  | commitNested => exact ⟨hm, rfl⟩
  | abort => rcases hc with hc | hc | ⟨a, hc, ha⟩ <;> cases hc; exact absurd rfl ha
  | abortNested => rcases hc with hc | hc | ⟨a, hc, ha⟩ <;> cases hc; exact absurd rfl ha
  | drop =>
    simp only at hm
    split at hm
    · cases hm
    · exact ⟨hm, rfl⟩
  | finish =>
    simp only at hm
    split at hm
    · cases hm
    · exact ⟨hm, rfl⟩

theorem Budget.other {w w' : CWorld} {R R' : Refs} {k : Nat} {st : TState} (h : Budget w R k st) (h1 : w'.mutex = some k → w.mutex = some k ∧ w'.refs = w.refs)
    (h2 : R' = R ∨ R' = w.refs) : Budget w' R' k st := by
  cases st with
  | run rq B v p =>
    obtain ⟨b, g1, g2, g3⟩ := h
    refine ⟨b, g1, g2, fun hm i => ?_⟩
    obtain ⟨h3, h4⟩ := h1 hm
    have h5 := g3 h3 i
    have h6 := g2 i
    rw [h4]
    rcases h2 with rfl | rfl
    · exact h5
    · omega
  | leaving rq B v r =>
    intro hm i
    obtain ⟨h3, h4⟩ := h1 hm
    have h5 := h h3 i
    rw [h4]
    rcases h2 with rfl | rfl
    · exact h5
    · omega
  | _ => trivial

theorem FineThread.same {d d' : DB} {st : TState} (h : FineThread d st)
    (hd : ∀ rq, readOnly rq = false → (∃ B v p, st = .run rq B v p) ∨ (∃ B v r, st = .leaving rq B v r) → d' = d) : FineThread d' st := by
  cases st with
  | run rq B v p => exact ⟨h.1, fun hr => by rw [hd rq hr (.inl ⟨_, _, _, rfl⟩)]; exact h.2 hr⟩
  | leaving rq B v r => exact ⟨h.1, fun hr => by rw [hd rq hr (.inr ⟨_, _, _, rfl⟩)]; exact h.2 hr⟩
  | _ => exact h

/-- Thread `k` goes on; no request ends. -/
theorem RInv.goes {d0 : DB} {r0 : Refs} {m m' : MSys} {L H vs R ds s L' H' vs' R' ds'} (h : RInv m R ds s) (hM : MInv d0 r0 m L H vs R ds) (hM' : MInv d0 r0 m' L' H' vs' R' ds')
    (hh : m'.hist = m.hist) {k : Nat} {x y : TState} (hk : m.th[k]? = some x) (ht : m'.th = m.th.set k y)
    (hcnt : ∀ i, m'.held i + y.owes i ≤ m.held i + x.owes i) (hroom : Room m'.w)
    (hfor : ∀ j, j ≠ k → m'.w.mutex = some j → m.w.mutex = some j ∧ m'.w.refs = m.w.refs)
    (hf : FineThread m.w.disk y) (hb : Budget m'.w R k y) : ∃ s', RInv m' R' ds' s' := by
  have hone := hM'.one
  rw [hh] at hone
  obtain ⟨rfl, rfl⟩ := hM.one.det hone
  have hdisk : m'.w.disk = m.w.disk := by
    have h1 := hM.last
    have h2 := hM'.last
    rw [h1] at h2; exact (Option.some.inj h2).symm
  refine ⟨s, by rw [hdisk]; exact h.si, h.old, fun i => ?_, h.bound, fun j st hj => ?_, hroom⟩
  · have h1 := h.cnt i
    have h2 := hcnt i
    have h3 := owed_set (i := i) (y := y) hk
    rw [ht]; omega
  · rw [ht, List.getElem?_set] at hj
    by_cases e : k = j
    · subst e
      rw [if_pos rfl] at hj
      split at hj
      · cases hj; rw [hdisk]; exact ⟨hf, hb⟩
      · cases hj
    · rw [if_neg e] at hj
      obtain ⟨h1, h2⟩ := h.fine j st hj
      rw [hdisk]
      exact ⟨h1, h2.other (hfor j (fun hh => e hh.symm)) (.inl rfl)⟩

/-- A request of thread `k` ends. -/
theorem RInv.ends {d0 : DB} {r0 : Refs} {m m' : MSys} {L H vs R ds s L' H' vs' R' ds'} (h : RInv m R ds s) (hM : MInv d0 r0 m L H vs R ds) (hM' : MInv d0 r0 m' L' H' vs' R' ds')
    (hRR : R' = R ∨ R' = m.w.refs)
    {rq : Req} {B : Backend} {v : Nat} {r : Reply} (hh : m'.hist = m.hist ++ [⟨rq, B, v, r⟩]) {k : Nat} {x y : TState} (hk : m.th[k]? = some x) (ht : m'.th = m.th.set k y)
    (hx : ∀ i, x.owes i = rq.returned i) (hq : FineReq rq B) (hd' : readOnly rq = false → rq.onDir m.w.disk)
    (hcnt : ∀ i, m'.held i + y.owes i ≤ m.held i + r.given i) (hroom : Room m'.w)
    (hfor : ∀ j, j ≠ k → m'.w.mutex = some j → m.w.mutex = some j ∧ m'.w.refs = m.w.refs)
    (hdisk : ∀ (j : Nat) st, j ≠ k → m.th[j]? = some st → ∀ rq, readOnly rq = false → (∃ B v p, st = .run rq B v p) ∨ (∃ B v r, st = .leaving rq B v r) → m'.w.disk = m.w.disk)
    (hy : y = .idle ∨ (∃ r, y = .committed rq r) ∨ y = .left rq) : ∃ s', RInv m' R' ds' s' := by
  have hone := hM'.one
  rw [hh] at hone
  obtain ⟨ds1, r1, d, d1, st, g1, g2, g3, g4, g5, g6, g7, g8⟩ := hone.snoc_inv
  obtain ⟨e1, e2⟩ := hM.one.det g1
  rw [e1] at g2 g3 g8; rw [e2] at g4
  simp only at g2 g4 g5 g6 g8
  rw [hM.last] at g3; cases g3
  have hret : ∀ i, rq.returned i ≤ (R i).nrefs := by
    intro i
    have h1 := h.cnt i
    have h2 := owes_le (i := i) hk
    rw [hx] at h2; omega
  have hlast : m'.w.disk = if readOnly rq then m.w.disk else st.disk := by
    have := hM'.last
    rw [g8] at this; simpa using this.symm
  obtain ⟨s', f1, f2, f3⟩ := h.ended hM.last hq hd' hret g2 g4 g5 g6 (fun hr => by
    rw [hr, if_neg (by simp)] at hlast; rw [← hlast]; exact hroom.2.1)
  subst g7
  refine ⟨s', by rw [hlast]; exact f1, by rw [g8]; exact f2, fun i => ?_, fun i => ?_, fun j st hj => ?_, hroom⟩
  · have h1 := h.cnt i
    have h2 := hcnt i
    have h3 := owed_set (i := i) (y := y) hk
    have h4 := f3 i
    rw [hx] at h3
    rw [ht]; omega
  · rcases hRR with hRR | hRR
    · rw [hRR]; exact h.bound i
    · rw [hRR]; exact h.room.1 i
  · rw [ht, List.getElem?_set] at hj
    by_cases e : k = j
    · subst e
      rw [if_pos rfl] at hj
      split at hj
      · cases hj
        rcases hy with rfl | ⟨r, rfl⟩ | rfl <;> exact ⟨trivial, trivial⟩
      · cases hj
    · rw [if_neg e] at hj
      obtain ⟨h1, h2⟩ := h.fine j st hj
      exact ⟨h1.same (hdisk j st (fun hh => e hh.symm) hj), h2.other (hfor j (fun hh => e hh.symm)) hRR⟩

/-- The owner of an open write transaction has LMDB's writer lock. -/
theorem writes {d0 : DB} {r0 : Refs} {m : MSys} {L H vs R ds} (hM : MInv d0 r0 m L H vs R ds) {j : Nat} {rq B v p} (hs : Serving m.w L ds j rq B v p)
    (hr : readOnly rq = false) : m.w.writer = some j := by
  obtain ⟨d, x, P, f, l, -, -, -, -, -, -, ⟨t, h1, h2, -⟩, h3, -⟩ := hM.alone hs
  exact hM.ser.lock.wr j t h1 ((hM.ser.lock.txn j t h1).rw f (by rw [h2]; simp) (by rw [h3, hr]))

theorem serving_of {d0 : DB} {r0 : Refs} {m : MSys} {L H vs R ds} (hM : MInv d0 r0 m L H vs R ds) {j : Nat} {st : TState} (hj : m.th[j]? = some st) {rq}
    (h : (∃ B v p, st = .run rq B v p) ∨ (∃ B v r, st = .leaving rq B v r)) : ∃ B v p, Serving m.w L ds j rq B v p := by
  have := hM.threads j st hj
  rcases h with ⟨B, v, p, rfl⟩ | ⟨B, v, r, rfl⟩
  · exact ⟨B, v, p, this⟩
  · exact ⟨B, v, _, this⟩

theorem RInv.step {d0 : DB} {r0 : Refs} {m m' : MSys} {L H vs R ds s L' H' vs' R' ds'} (h : RInv m R ds s) (hM : MInv d0 r0 m L H vs R ds) (hM' : MInv d0 r0 m' L' H' vs' R' ds')
    (hRR : R' = R ∨ R' = m.w.refs) {k : Nat} (hs : Step m k m') (hp : Proper m k m') (hroom : Room m'.w) : ∃ s', RInv m' R' ds' s' := by
  have hl := hM.ser.lock
  cases hs with
  | @issue rq B hk =>
    have hlen : k < m.th.length := (List.getElem?_eq_some_iff.mp hk).1
    have hset : (m.th.set k (TState.recv rq B))[k]? = some (.recv rq B) := by rw [List.getElem?_set, if_pos rfl, if_pos hlen]
    have hh : FineReq rq B ∧ ∀ i, rq.returned i ≤ m.held i := by
      cases hp with
      | @issue rq' B' h1 h2 h3 h4 =>
        have h1' : (m.th.set k (TState.recv rq B))[k]? = some (.recv rq' B') := h1
        rw [hset] at h1'; cases h1'; exact ⟨⟨h2, h4⟩, h3⟩
      | begin_ h1 => rw [hk] at h1; cases h1
      | other _ h2 => exact absurd hset (h2 rq B)
    exact h.goes hM hM' rfl hk rfl (fun i => by have := hh.2 i; simp only [TState.owes]; omega) hroom (fun j _ hm => ⟨hm, rfl⟩) hh.1 trivial
  | @direct rq B hk hp' =>
    obtain ⟨hf, -⟩ := h.fine k _ hk
    have hdir : rq.onDir m.w.disk := by cases rq with | _ => first | trivial | cases hp'
    exact h.ends hM hM' hRR rfl hk rfl (fun _ => rfl) hf (fun _ => hdir)
      (fun i => by simp only [MSys.send, MSys.to, TState.owes]; omega) hroom (fun j _ hm => ⟨hm, rfl⟩) (fun _ _ _ _ _ _ _ => rfl) (.inl rfl)
  | @begin_ rq B P w' out hk hp' hst =>
    obtain ⟨hf, -⟩ := h.fine k _ hk
    have hdir : rq.onDir m.w.disk := by
      cases hp with
      | issue h1 =>
        have h1' : (m.th.set k (TState.run rq B m.hist.length P))[k]? = _ := h1
        rw [List.getElem?_set, if_pos rfl] at h1'
        split at h1' <;> cases h1'
      | begin_ h1 h2 => rw [hk] at h1; cases h1; exact h2
      | other h1 _ => exact absurd hk (h1 rq B)
    refine h.goes hM hM' rfl hk rfl (fun i => Nat.le_refl _) hroom (fun j hj hm => ?_) ⟨hf, fun _ => hdir⟩ ⟨fun i => rq.returned i, prog_within hp', fun _ => Nat.le_refl _, fun hm => ?_⟩
    · refine foreign hl (c := if readOnly rq then .beginRO k k else .beginRW k k) ?_ hst hj hm
      split
      · exact .inl rfl
      · exact .inr (.inl rfl)
    · exfalso
      have hn : m.w.txns k = none := hM.threads k _ hk
      have hmk : m.w.mutex = some k := by
        simp only at hm
        cases hr : readOnly rq with
        | true => rw [hr, if_pos rfl] at hst; cases step_inv hst with | beginRO _ => exact hm
        | false => rw [hr, if_neg (by simp)] at hst; cases step_inv hst with | beginRW _ _ => exact hm
      obtain ⟨t, ht, -⟩ := hl.mx' k hmk
      rw [hn] at ht; cases ht
  | @call rq B v o c w' out hk hst =>
    obtain ⟨hf, b, hb1, hb2, hb3⟩ := h.fine k _ hk
    refine h.goes hM hM' rfl hk rfl (fun i => Nat.le_refl _) hroom (fun j hj hm => foreign hl (.inr (.inr ⟨_, rfl, by simp⟩)) hst hj hm) hf
      ⟨fun i => b i - o.back i, hb1.2 out, fun i => by have := hb2 i; simp only; omega, fun hm i => ?_⟩
    simp only at hm ⊢
    have hback := hb1.1 i
    have hret := hb2 i
    cases step_inv hst with
    | @op _ t f r _ x _ mx g1 g2 g3 g4 g5 g6 =>
      simp only at hm ⊢
      have hcount := (doOp_counts g4 i).2 (by have := h.room.1 i; simp only [Frame.txn]; omega)
      simp only [Frame.txn] at hcount
      by_cases e : m.w.mutex = some k
      · have := hb3 e i; omega
      · have hmx : mx = true := by
          cases mx with
          | true => rfl
          | false => rw [if_neg (by simp)] at hm; exact absurd hm e
        have := hM.ser.noMutex (g6 hmx).2.2
        rw [this]; omega
  | @commit rq B v r w' out hk hst =>
    obtain ⟨⟨hf, hd⟩, -⟩ := h.fine k _ hk
    refine h.ends hM hM' hRR rfl hk rfl (fun _ => rfl) hf hd (fun i => by simp only [MSys.to, TState.owes]; omega) hroom
      (fun j hj hm => foreign hl (.inr (.inr ⟨_, rfl, by simp⟩)) hst hj hm) (fun j st hj hst' rq' hr' hx => ?_) (.inr (.inl ⟨_, rfl⟩))
    simp only
    cases step_inv hst with
    | @commit _ t f g1 g2 =>
      simp only
      cases hro : f.fr.ro with
      | true => simp [CWorld.set]
      | false =>
        exfalso
        have h1 := hl.wr k t g1 ((hl.txn k t g1).rw f (by rw [g2]; simp) hro)
        obtain ⟨B', v', p', hsv⟩ := serving_of hM hst' hx
        rw [writes hM hsv hr'] at h1; cases h1; exact hj rfl
    | commitNested => rfl
  | @unlock rq r w' out hk hst =>
    exact h.goes hM hM' rfl hk rfl (fun i => Nat.le_refl _) hroom (fun j hj hm => foreign hl (.inr (.inr ⟨_, rfl, by simp⟩)) hst hj hm) trivial trivial
  | @answer rq r hk =>
    exact h.goes hM hM' rfl hk rfl (fun i => by simp only [MSys.send, MSys.to, TState.owes]; omega) hroom (fun j _ hm => ⟨hm, rfl⟩) trivial trivial
  | @reply rq B v r hk =>
    obtain ⟨hf, b, hb1, hb2, hb3⟩ := h.fine k _ hk
    obtain ⟨t, f, l, P, -, -, -, -, -, g1, g2, -⟩ := hM.threads k _ hk
    have hg := (g2.fine (prog_fine g1)).1 rfl r (by simp)
    exact h.goes hM hM' rfl hk rfl (fun i => by have := hg i; simp only [MSys.send, MSys.to, TState.owes]; omega) hroom (fun j _ hm => ⟨hm, rfl⟩) hf
      (fun hm i => by have := hb3 hm i; simp only [MSys.send, MSys.to]; omega)
  | @leave rq B v r w' out hk hst =>
    obtain ⟨⟨hf, hd⟩, -⟩ := h.fine k _ hk
    refine h.ends hM hM' hRR rfl hk rfl (fun _ => rfl) hf hd (fun i => by simp only [MSys.to, TState.owes]; omega) hroom
      (fun j hj hm => foreign hl (.inr (.inr ⟨_, rfl, by simp⟩)) hst hj hm) (fun j st hj hst' rq' hr' hx => ?_) (.inr (.inr rfl))
    simp only
    cases step_inv hst with
    | drop => rfl
  | @finish rq w' out hk hst =>
    exact h.goes hM hM' rfl hk rfl (fun i => Nat.le_refl _) hroom (fun j hj hm => foreign hl (.inr (.inr ⟨_, rfl, by simp⟩)) hst hj hm) trivial trivial

theorem owed_start (i : Ino) (n : Nat) : owed i (List.replicate n .idle) = 0 := by
  unfold owed; rw [List.map_replicate]; simp [TState.owes]

theorem rinv_start {d : DB} {r : Refs} {s : Tree} {n : Nat} (h : SI s d r) (hr : Room (CWorld.start d r)) : RInv (MSys.start d r n) r [d] s := by
  refine ⟨h, fun d' hd' => ?_, fun i => ?_, hr.1, fun k st hk => ?_, hr⟩
  · rw [List.mem_singleton.mp hd']; exact ⟨⟨s, Old.now h⟩, hr.2.1⟩
  · show 0 + owed i (List.replicate n .idle) ≤ _
    rw [owed_start]; omega
  · have hk' : (List.replicate n TState.idle)[k]? = some st := hk
    have : st = .idle := by
      rw [List.getElem?_replicate] at hk'
      split at hk'
      · cases hk'; rfl
      · cases hk'
    subst this; exact ⟨trivial, trivial⟩

/-- The invariant of reachable states. -/
theorem MReach.inv {m : MSys} (h : MReach m) : ∃ d0 r0 n L H vs R ds s, Steps (MSys.start d0 r0 n) m ∧ MInv d0 r0 m L H vs R ds ∧ RInv m R ds s := by
  have start : ∀ {d d' : DB} {r' : Refs} {s : Tree} {n : Nat}, Rep s d → s.OK → s.WF → openCleanDB d Refs.empty = .ok (d', r') → Room (CWorld.start d' r') →
      ∃ d0 r0 n' L H vs R ds s, Steps (MSys.start d0 r0 n') (MSys.start d' r' n) ∧ MInv d0 r0 (MSys.start d' r' n) L H vs R ds ∧ RInv (MSys.start d' r' n) R ds s := by
    intro d d' r' s n h1 h2 h3 ho hroom
    obtain ⟨-, s2, h4, -⟩ := open_SI h1 h2 h3 ho
    obtain ⟨L, H, vs, R, ds, hM⟩ := minv_start d' r' n
    have hone := hM.one
    obtain ⟨rfl, rfl⟩ := OneByOne.det .start hone
    exact ⟨d', _, n, L, H, vs, _, _, s2, .refl, hM, rinv_start h4 hroom⟩
  induction h with
  | @mount uid gid now d r n ho hroom =>
    obtain ⟨s, h1, h2, h3⟩ := root_rep uid gid now
    exact start h1 h2 h3 ho hroom
  | @remount m uid gid now d r n _ ho hroom ih =>
    obtain ⟨-, -, -, -, -, -, R, ds, s, -, -, hR⟩ := ih
    have hi : initDB m.w.disk uid gid now = m.w.disk := by
      unfold initDB; rw [hR.si.rep.next]
    rw [hi] at ho
    exact start hR.si.rep hR.si.ok hR.si.wf ho hroom
  | @step m m' k _ hs hp hroom ih =>
    obtain ⟨d0, r0, n, L, H, vs, R, ds, s, hst, hM, hR⟩ := ih
    obtain ⟨L', H', vs', R', ds', hM', hRR⟩ := hM.step hs
    obtain ⟨s', hR'⟩ := hR.step hM hM' hRR hs hp hroom
    exact ⟨d0, r0, n, L', H', vs', R', ds', s', .step hst hs, hM', hR'⟩

end Dragonstash.MT
