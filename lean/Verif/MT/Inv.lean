/-
  Invariant of all interleavings of requests: they are served as if one after the other.
-/
import Verif.MT.Serial
namespace Dragonstash.MT
open Cache FS Conc

/-- The transaction of a request is open; `p` is what remains of its handler. -/
def Serving (w : CWorld) (L : Nat → Option Log) (ds : List DB) (k : Nat) (rq : Req) (B : Backend) (v : Nat) (p : Prog) : Prop :=
  ∃ t f l P, w.txns k = some t ∧ t.frames = [f] ∧ t.thread = k ∧ L k = some l ∧ l.ro = readOnly rq ∧
    prog B (f.fr.db.treei.size + 4) rq = some P ∧ Follow P l.ops l.outs p ∧ (readOnly rq = true → ds[v]? = some f.fr.db)

def ThreadOK (w : CWorld) (L : Nat → Option Log) (ds : List DB) (k : Nat) : TState → Prop
  | .idle => w.txns k = none
  | .recv _ _ => w.txns k = none
  | .answer _ _ => w.txns k = none
  | .run rq B v p => Serving w L ds k rq B v p
  | .leaving rq B v r => Serving w L ds k rq B v (.done false [r])
  | .committed _ _ => ∃ t, w.txns k = some t ∧ t.frames = [] ∧ t.thread = k
  | .left _ => ∃ t, w.txns k = some t ∧ t.frames = [] ∧ t.thread = k

structure MInv (d0 : DB) (r0 : Refs) (m : MSys) (L : Nat → Option Log) (H : List (Log × End)) (vs : List DB) (R : Refs) (ds : List DB) : Prop where
  flat : Flat d0 r0 m.w L H
  ser : SerInv d0 r0 m.w L H vs R
  one : OneByOne d0 r0 ds R m.hist
  last : ds.getLast? = some m.w.disk
  threads : ∀ k st, m.th[k]? = some st → ThreadOK m.w L ds k st

theorem ThreadOK.other {w w' : CWorld} {L L' : Nat → Option Log} {ds ds' : List DB} {k : Nat} {st : TState} (h : ThreadOK w L ds k st)
    (h1 : w'.txns k = w.txns k) (h2 : L' k = L k) (h3 : ∃ l, ds' = ds ++ l) : ThreadOK w' L' ds' k st := by
  have sv : ∀ {rq B v p}, Serving w L ds k rq B v p → Serving w' L' ds' k rq B v p := by
    rintro rq B v p ⟨t, f, l, P, a1, a2, a3, a4, a5, a6, a7, a8⟩
    refine ⟨t, f, l, P, by rw [h1, a1], a2, a3, by rw [h2, a4], a5, a6, a7, fun hr => ?_⟩
    obtain ⟨l', rfl⟩ := h3
    have := a8 hr
    rw [List.getElem?_append_left]
    · exact this
    · exact (List.getElem?_eq_some_iff.mp this).1
  cases st with
  | idle => exact h1.trans h
  | recv => exact h1.trans h
  | answer => exact h1.trans h
  | run => exact sv h
  | leaving => exact sv h
  | committed => obtain ⟨t, a1, a2⟩ := h; exact ⟨t, by rw [h1, a1], a2⟩
  | left => obtain ⟨t, a1, a2⟩ := h; exact ⟨t, by rw [h1, a1], a2⟩

/-- The handlers which change the databases have no loop over them. -/
theorem prog_rw {B : Backend} {rq : Req} (h : readOnly rq = false) (f g : Nat) : prog B f rq = prog B g rq := by
  cases rq with
  | _ => first | rfl | cases h

theorem runOps_ro : ∀ {os : List Op} {t x : Txn} {outs : List Out}, (∀ o ∈ os, o.isRO = true) → runOps t os = .ok (x, outs) → x.db = t.db
  | [], t, x, outs, _, h => by cases h; rfl
  | a :: os, t, x, outs, ho, h => by
    simp only [runOps] at h
    rcases hd : doOp t a with e | ⟨t1, o1⟩
    · rw [hd] at h; cases h
    · rw [hd] at h
      simp only at h
      rcases hr : runOps t1 os with e | ⟨t2, outs2⟩
      · rw [hr] at h; cases h
      · rw [hr] at h; cases h
        rw [runOps_ro (fun o h => ho o (List.mem_cons_of_mem _ h)) hr, doOp_ro (ho a (by simp)) hd]

/-- No transaction ends: the serial history stays. -/
theorem MInv.same {d0 : DB} {r0 : Refs} {m : MSys} {L H vs R ds} (h : MInv d0 r0 m L H vs R ds) {w' : CWorld} {L'} (hf : Flat d0 r0 w' L' H) :
    SerInv d0 r0 w' L' H vs R ∧ w'.disk = m.w.disk := by
  obtain ⟨vs', R', h1⟩ := hf.inv
  obtain ⟨e1, e2⟩ := serial_det h.ser.serial h1.serial
  subst e2
  rw [List.cons.injEq] at e1
  obtain ⟨e1, rfl⟩ := e1
  exact ⟨h1, e1⟩

/-- Thread `k` goes on, no transaction ends. -/
theorem MInv.goes {d0 : DB} {r0 : Refs} {m m' : MSys} {L H vs R ds} (h : MInv d0 r0 m L H vs R ds) {k : Nat} {st : TState} {L'}
    (hf : Flat d0 r0 m'.w L' H) (ht : m'.th = m.th.set k st) (hh : m'.hist = m.hist)
    (htx : ∀ j, j ≠ k → m'.w.txns j = m.w.txns j) (hL : ∀ j, j ≠ k → L' j = L j) (hk : ThreadOK m'.w L' ds k st) :
    MInv d0 r0 m' L' H vs R ds := by
  obtain ⟨h1, h2⟩ := h.same hf
  refine ⟨hf, h1, by rw [hh]; exact h.one, by rw [h2]; exact h.last, fun j sj hj => ?_⟩
  rw [ht, List.getElem?_set] at hj
  by_cases e : k = j
  · subst e
    rw [if_pos rfl] at hj
    split at hj
    · cases hj; exact hk
    · cases hj
  · rw [if_neg e] at hj
    exact (h.threads j sj hj).other (htx j (fun hh => e hh.symm)) (hL j (fun hh => e hh.symm)) ⟨[], by simp⟩

/-- What an open transaction would give, if run now without interruption. -/
theorem MInv.alone {d0 : DB} {r0 : Refs} {m : MSys} {L H vs R ds} (h : MInv d0 r0 m L H vs R ds) {k rq B v p} (hs : Serving m.w L ds k rq B v p) :
    ∃ d x P f l, (if readOnly rq then ds[v]? else ds.getLast?) = some d ∧ prog B (d.treei.size + 4) rq = some P ∧
      P.run ⟨d, R, none, []⟩ = p.run x ∧ L k = some l ∧ WorksOn (m.w.disk :: vs) l d ∧ runOps ⟨d, R, none, []⟩ l.ops = .ok (x, l.outs) ∧
      (∃ t, m.w.txns k = some t ∧ t.frames = [f] ∧ t.thread = k) ∧ f.fr.ro = readOnly rq ∧ l.ro = readOnly rq ∧
      x = f.fr.txn (if m.w.mutex = some k then m.w.refs else R) ∧ (readOnly rq = true → d = f.fr.db) := by
  obtain ⟨t, f, l, P, a1, a2, a3, a4, a5, a6, a7, a8⟩ := hs
  obtain ⟨d, h1, h2⟩ := h.ser.runs a1 a2 a4
  have ho := h.ser.opens k t f l a1 a2 a4
  have hd : readOnly rq = true → d = f.fr.db := fun hr => (runOps_ro (ho.only (by rw [a5]; exact hr)) h2).symm
  refine ⟨d, _, P, f, l, ?_, ?_, a7.run h2, a4, h1, h2, ⟨t, a1, a2, a3⟩, by rw [ho.ro, a5], a5, rfl, hd⟩
  · cases hr : readOnly rq with
    | true => rw [if_pos rfl, a8 hr, hd hr]
    | false =>
      rw [if_neg (by simp)]
      unfold WorksOn at h1
      rw [a5, hr, if_neg (by simp)] at h1
      obtain ⟨o, e⟩ := h1
      cases e; exact h.last
  · cases hr : readOnly rq with
    | true => rw [hd hr]; exact a6
    | false => rw [prog_rw hr _ (f.fr.db.treei.size + 4)]; exact a6

theorem OneByOne.snoc {d0 : DB} {r0 : Refs} {ds r H} (h : OneByOne d0 r0 ds r H) {q : Done} {d d1 : DB} {P : Prog} {x : Txn} {c : Bool}
    (hd : (if readOnly q.rq then ds[q.ver]? else ds.getLast?) = some d) (hl : ds.getLast? = some d1) (hP : prog q.B (d.treei.size + 4) q.rq = some P)
    (hrun : P.run ⟨d, r, none, []⟩ = .ok (x, c, [q.rep])) :
    OneByOne d0 r0 (ds ++ [if c && !readOnly q.rq then x.db else d1]) x.refs (H ++ [q]) := by
  have hh := prog_seq (r := r) hP
  rw [hrun] at hh
  cases hr : readOnly q.rq with
  | true =>
    rw [hr, if_pos rfl] at hd
    have := OneByOne.ro h hr hd hl hh rfl rfl
    simpa [toSt, served, St.reply] using this
  | false =>
    rw [hr, if_neg (by simp)] at hd
    have := OneByOne.rw h hr hd hh rfl rfl
    rw [hd] at hl; cases hl
    cases c with
    | true => simpa [toSt, served, hr, St.reply] using this
    | false => simpa [toSt, served, hr, St.reply] using this

/-- A transaction ends. -/
theorem MInv.ends {d0 : DB} {r0 : Refs} {m m' : MSys} {L H vs R ds} (h : MInv d0 r0 m L H vs R ds) {k : Nat} {st : TState} {rq B v r} {c : Bool} {out}
    (hs : Serving m.w L ds k rq B v (.done c [r])) (hstep : m.w.step (.on k (End.act (if c then .commit else .drop))) = .done m'.w out)
    (ht : m'.th = m.th.set k st) (hh : m'.hist = m.hist ++ [⟨rq, B, v, r⟩])
    (htx : ∀ j, j ≠ k → m'.w.txns j = m.w.txns j) (hk : ∀ ds', ThreadOK m'.w (setLog L k none) ds' k st) :
    ∃ H' vs' R' ds', MInv d0 r0 m' (setLog L k none) H' vs' R' ds' ∧ (R' = R ∨ R' = m.w.refs) := by
  obtain ⟨d, x, P, f, l, h1, h2, h3, h4, h5, h6, h7, h8, h9, h10, -⟩ := h.alone hs
  have hrun : P.run ⟨d, R, none, []⟩ = .ok (x, c, [r]) := by rw [h3]; rfl
  have hf : Flat d0 r0 m'.w (setLog L k none) (H ++ [(l, if c then .commit else .drop)]) := .ends h.flat hstep h4
  obtain ⟨vs', R', hi⟩ := hf.inv
  obtain ⟨vs1, R1, d1, x1, g1, g2, g3, g4, g5, -⟩ := serial_snoc hi.serial
  obtain ⟨rfl, rfl⟩ := serial_det h.ser.serial g1
  obtain rfl := worksOn_inj h5 g2
  rw [h6] at g3; cases g3
  have one := h.one.snoc (q := ⟨rq, B, v, r⟩) h1 h.last h2 hrun
  have facts : m'.w.disk = (if c && !readOnly rq then x.db else m.w.disk) ∧ R' = x.refs := by
    cases c with
    | true =>
      obtain ⟨e1, e2⟩ := g4 rfl
      refine ⟨?_, e2⟩
      rw [h9] at e1
      cases hr : readOnly rq with
      | true => rw [hr] at e1; simpa using congrArg List.head? e1
      | false => rw [hr] at e1; simpa using congrArg List.head? e1
    | false =>
      obtain ⟨e1, e2⟩ := g5 rfl
      exact ⟨by simpa using congrArg List.head? e1, e2⟩
  obtain ⟨f1, f2⟩ := facts
  refine ⟨_, vs', R', ds ++ [if c && !readOnly rq then x.db else m.w.disk], ⟨hf, hi, ?_, ?_, fun j sj hj => ?_⟩, ?_⟩
  rotate_left 3
  · rw [f2, h10]
    by_cases e : m.w.mutex = some k
    · rw [if_pos e]; exact .inr rfl
    · rw [if_neg e]; exact .inl rfl
  · rw [hh, f2]; exact one
  · rw [f1]; simp
  · rw [ht, List.getElem?_set] at hj
    by_cases e : k = j
    · subst e
      rw [if_pos rfl] at hj
      split at hj
      · cases hj; exact hk _
      · cases hj
    · rw [if_neg e] at hj
      refine (h.threads j sj hj).other (htx j (fun hh => e hh.symm)) ?_ ⟨_, rfl⟩
      unfold setLog; rw [if_neg (fun hh => e hh.symm)]

/-- A request which does not use the cache. -/
theorem MInv.direct {d0 : DB} {r0 : Refs} {m m' : MSys} {L H vs R ds} (h : MInv d0 r0 m L H vs R ds) {k : Nat} {st : TState} {rq B v fuel}
    (hp : prog B fuel rq = none) (ht : m'.th = m.th.set k st) (hh : m'.hist = m.hist ++ [⟨rq, B, v, directReply rq⟩])
    (hw : m'.w = m.w) (hk : m.w.txns k = none) (hst : st = .idle) : MInv d0 r0 m' L H vs R (ds ++ [m.w.disk]) := by
  have one : OneByOne d0 r0 (ds ++ [m.w.disk]) R (m.hist ++ [⟨rq, B, v, directReply rq⟩]) :=
    .rw h.one (by cases rq with | _ => first | rfl | cases hp) h.last (direct_seq (r := R) hp) rfl rfl
  refine ⟨by rw [hw]; exact h.flat, by rw [hw]; exact h.ser, by rw [hh]; exact one, by rw [hw]; simp, fun j sj hj => ?_⟩
  rw [hw]
  rw [ht, List.getElem?_set] at hj
  by_cases e : k = j
  · subst e
    rw [if_pos rfl] at hj
    split at hj
    · cases hj; subst hst; exact hk
    · cases hj
  · rw [if_neg e] at hj
    exact (h.threads j sj hj).other rfl rfl ⟨_, rfl⟩

theorem set_other {w : CWorld} {k j : Nat} {t : Option CTxn} (h : j ≠ k) : (w.set k t).txns j = w.txns j := by
  unfold CWorld.set; simp [h]

theorem step_other {w w' : CWorld} {k : Nat} {a : Act} {out : Out} (h : w.step (.on k a) = .done w' out) : ∀ j, j ≠ k → w'.txns j = w.txns j := by
  intro j hj
  cases step_inv h with
  | _ => exact set_other hj

theorem MInv.step {d0 : DB} {r0 : Refs} {m m' : MSys} {L H vs R ds} (h : MInv d0 r0 m L H vs R ds) {k : Nat} (hs : Step m k m') :
    ∃ L' H' vs' R' ds', MInv d0 r0 m' L' H' vs' R' ds' ∧ (R' = R ∨ R' = m.w.refs) := by
  have same : ∀ {L'}, MInv d0 r0 m' L' H vs R ds → ∃ L' H' vs' R' ds', MInv d0 r0 m' L' H' vs' R' ds' ∧ (R' = R ∨ R' = m.w.refs) :=
    fun h => ⟨_, _, _, _, _, h, .inl rfl⟩
  cases hs with
  | issue hk => exact same (h.goes h.flat rfl rfl (fun _ _ => rfl) (fun _ _ => rfl) (show m.w.txns k = none from h.threads k _ hk))
  | direct hk hp => exact ⟨_, _, _, _, _, h.direct hp rfl rfl rfl (h.threads k _ hk) rfl, .inl rfl⟩
  | @begin_ rq B P w' out hk hp hst =>
    cases hr : readOnly rq with
    | true =>
      rw [hr, if_pos rfl] at hst
      refine same (h.goes (Flat.beginRO h.flat hst) rfl rfl ?_ ?_ ?_)
      · intro j hj; cases step_inv hst with | beginRO _ => exact set_other hj
      · intro j hj; unfold setLog; rw [if_neg hj]
      · cases step_inv hst with
        | beginRO hn =>
          refine ⟨⟨k, [⟨{ db := m.w.disk, ro := true }, false⟩], false, false⟩, ⟨{ db := m.w.disk, ro := true }, false⟩, { ro := true, ver := versions H }, P,
            by simp only [CWorld.set, if_true], rfl, rfl, by simp only [setLog, if_true], hr.symm, hp, .nil, fun _ => ?_⟩
          show ds[m.hist.length]? = some m.w.disk
          rw [← h.last, List.getLast?_eq_getElem?, h.one.length]; rfl
    | false =>
      rw [hr, if_neg (by simp)] at hst
      refine same (h.goes (Flat.beginRW h.flat hst) rfl rfl ?_ ?_ ?_)
      · intro j hj; cases step_inv hst with | beginRW _ _ => exact set_other hj
      · intro j hj; unfold setLog; rw [if_neg hj]
      · cases step_inv hst with
        | beginRW hn =>
          exact ⟨⟨k, [⟨{ db := m.w.disk }, false⟩], true, false⟩, ⟨{ db := m.w.disk }, false⟩, { ro := false, ver := versions H }, P,
            by simp only [CWorld.set, if_true], rfl, rfl, by simp only [setLog, if_true], hr.symm, hp, .nil, fun hh => by rw [hr] at hh; cases hh⟩
  | @call rq B v o c w' out hk hst =>
    obtain ⟨t, f, l, P, a1, a2, a3, a4, a5, a6, a7, a8⟩ := h.threads k _ hk
    refine same (h.goes (Flat.op h.flat hst a4) rfl rfl (step_other hst) (fun j hj => by unfold setLog; rw [if_neg hj]) ?_)
    have hro := (h.ser.opens k t f l a1 a2 a4).ro
    cases step_inv hst with
    | @op _ t' f' r' _ x _ mx b1 b2 b3 b4 b5 b6 =>
      rw [a1] at b1; cases b1
      rw [a2] at b2; cases b2
      have hdb : readOnly rq = true → x.db = f.fr.db := fun hr => doOp_ro (b3 (by rw [hro, a5]; exact hr)) b4
      refine ⟨{ t with frames := [⟨⟨x.db, x.rewrite, x.hooks, f.fr.ro⟩, f.mx || mx⟩] }, ⟨⟨x.db, x.rewrite, x.hooks, f.fr.ro⟩, f.mx || mx⟩,
        { l with ops := l.ops ++ [o], outs := l.outs ++ [out] }, P, by simp only [CWorld.set, if_true], rfl, a3, by simp only [setLog, if_true], a5, ?_, a7.snoc, fun hr => ?_⟩
      · simp only
        cases hr : readOnly rq with
        | true => rw [hdb hr]; exact a6
        | false => rw [prog_rw hr _ (f.fr.db.treei.size + 4)]; exact a6
      · simp only; rw [hdb hr]; exact a8 hr
  | @commit rq B v r w' out hk hst =>
    obtain ⟨H', vs', R', ds', h'⟩ := h.ends (m' := { m.to k (.committed rq r) with w := w', hist := m.hist ++ [⟨rq, B, v, r⟩] }) (c := true) (st := .committed rq r)
      (h.threads k _ hk) hst rfl rfl (step_other hst) (fun ds' => by
        obtain ⟨t, f, l, P, a1, a2, a3, -⟩ := h.threads k _ hk
        simp only
        cases step_inv hst with
        | @commit _ t' f' b1 b2 =>
          rw [a1] at b1; cases b1
          exact ⟨{ t with frames := [], wr := false, tailM := f'.mx }, by simp only [CWorld.set, if_true], rfl, a3⟩
        | @commitNested _ t' f' g r b1 b2 =>
          rw [a1] at b1; cases b1; rw [a2] at b2; cases b2)
    exact ⟨_, _, _, _, _, h'⟩
  | @unlock rq r w' out hk hst =>
    refine same (h.goes (Flat.finish h.flat hst) rfl rfl (step_other hst) (fun _ _ => rfl) ?_)
    cases step_inv hst with
    | finish b1 b2 => simp only [ThreadOK, CWorld.set, if_true]
  | answer hk => exact same (h.goes h.flat rfl rfl (fun _ _ => rfl) (fun _ _ => rfl) (show m.w.txns k = none from h.threads k _ hk))
  | @reply rq B v r hk => exact same (h.goes h.flat rfl rfl (fun _ _ => rfl) (fun _ _ => rfl) (show Serving m.w L ds k rq B v (.done false [r]) from h.threads k _ hk))
  | @leave rq B v r w' out hk hst =>
    obtain ⟨H', vs', R', ds', h'⟩ := h.ends (m' := { m.to k (.left rq) with w := w', hist := m.hist ++ [⟨rq, B, v, r⟩] }) (c := false) (st := .left rq)
      (h.threads k _ hk) hst rfl rfl (step_other hst) (fun ds' => by
        obtain ⟨t, f, l, P, a1, a2, a3, -⟩ := h.threads k _ hk
        simp only
        cases step_inv hst with
        | @drop _ t' f' r b1 b2 =>
          rw [a1] at b1; cases b1
          rw [a2] at b2; cases b2
          exact ⟨{ t with frames := [] }, by simp only [CWorld.set, if_true], rfl, a3⟩)
    exact ⟨_, _, _, _, _, h'⟩
  | @finish rq w' out hk hst =>
    refine same (h.goes (Flat.finish h.flat hst) rfl rfl (step_other hst) (fun _ _ => rfl) ?_)
    cases step_inv hst with
    | finish b1 b2 => simp only [ThreadOK, CWorld.set, if_true]

theorem minv_start (d0 : DB) (r0 : Refs) (n : Nat) : ∃ L H vs R ds, MInv d0 r0 (MSys.start d0 r0 n) L H vs R ds := by
  have hf : Flat d0 r0 (CWorld.start d0 r0) (fun _ => none) [] := .start
  obtain ⟨vs, R, hi⟩ := hf.inv
  obtain ⟨e1, rfl⟩ := serial_det .start hi.serial
  refine ⟨_, _, vs, R, [d0], hf, hi, .start, rfl, fun k st hk => ?_⟩
  have : st = .idle := by
    have hk' : (List.replicate n TState.idle)[k]? = some st := hk
    rw [List.getElem?_replicate] at hk'
    split at hk'
    · cases hk'; rfl
    · cases hk'
  subst this; rfl

theorem Steps.inv {d0 : DB} {r0 : Refs} {n : Nat} {m : MSys} (h : Steps (MSys.start d0 r0 n) m) : ∃ L H vs R ds, MInv d0 r0 m L H vs R ds := by
  generalize hm : MSys.start d0 r0 n = m0 at h
  induction h with
  | refl => subst hm; exact minv_start d0 r0 n
  | step _ hs ih => obtain ⟨L, H, vs, R, ds, ih⟩ := ih; obtain ⟨L', H', vs', R', ds', ih, -⟩ := ih.step hs; exact ⟨L', H', vs', R', ds', ih⟩

end Dragonstash.MT
