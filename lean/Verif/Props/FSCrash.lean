/-
  The process may die at any moment, while any number of threads serve requests (C85).
-/
import Verif.Props.FSMulti
import Verif.Props.FSConc
import Verif.Props.CacheTxn
namespace Dragonstash.MT
open Cache FS Conc

/-! ### Specification -/

/-- What may happen after `m` while an entry, with path `fs` and attributes in `P`, is confirmed by the
backend whenever it is connected: any number of threads make steps in any order, and the process dies
at any moment and is started again, with any number of threads. -/
inductive Later (fs : List Bytes) (P : Attrs → Prop) (m : MSys) : MSys → Prop
  | refl : Later fs P m m
  | step {m1 m2 k} : Later fs P m m1 → Step m1 k m2 → Proper m1 k m2 → Room m2.w →
      (∀ q, m2.hist = m1.hist ++ [q] → Confirms q.B (along fs P) fs ∧ q.rq.onLink m1.w.disk) → Later fs P m m2
  | crash {m1 uid gid now d r n} : Later fs P m m1 → openCleanDB (initDB m1.w.disk uid gid now) Refs.empty = .ok (d, r) →
      Room (CWorld.start d r) → Later fs P m (MSys.start d r n)

/-- Replies which tell the kernel that something was found, after the handler changed the cache. -/
def Promise : Req → Reply → Prop
  | .lookup .., .entry _ => True
  | .opendir .., .opened => True
  | _, _ => False

instance : ∀ x : Req × Reply, Decidable (Promise x.1 x.2) := fun x => by
  rcases x with ⟨rq, rep⟩
  cases rq <;> cases rep <;> unfold Promise <;> infer_instance

/-! ### Replies come behind the commit -/

/-- A transaction which is not committed is only ended with an error. -/
def Prog.Late : Prog → Prop
  | .op _ k => ∀ out, (k out).Late
  | .done c reps => c = true ∨ ∀ r ∈ reps, ∃ e, r = .err e
  | .stuck _ => True

theorem late_err (e : Errno) (c : Bool) : (Prog.done c [.err e]).Late := .inr (fun r hr => ⟨e, List.mem_singleton.mp hr⟩)

theorem late_lockAndReply (i a) : (lockAndReply i a).Late := by
  intro out
  rcases out with r | r | r | r | r | r <;> try trivial
  rcases r with e | u
  · exact late_err e _
  · exact .inl rfl

theorem late_lookup (B p n) : (lookup B p n).Late := by
  intro out
  rcases out with r | r | r | r | r | r <;> try trivial
  rcases r with e | b
  · exact late_err e _
  · simp only
    rcases hb : B.lstat 0 (b ++ 0x2f :: n) with be | sr
    · simp only
      by_cases h : be = ENOTCONN
      · rw [if_pos h]
        intro out
        rcases out with r | r | r | r | r | r <;> try trivial
        rcases r with e | i
        · simp only
          by_cases h2 : e = ENOENT
          · rw [if_pos h2]
            intro out
            show Prog.Late (if out ≠ .bool (.ok true) then _ else _)
            by_cases h3 : out ≠ .bool (.ok true)
            · rw [if_pos h3]; exact late_err _ _
            · rw [if_neg h3]; exact late_err _ _
          · rw [if_neg h2]; exact late_err _ _
        · intro out
          rcases out with r | r | r | r | r | r <;> try trivial
          rcases r with e | ⟨j, a⟩
          · exact late_err _ _
          · exact late_lockAndReply i a
      · rw [if_neg h]
        intro out
        exact .inl rfl
    · intro out
      rcases out with r | r | r | r | r | r <;> try trivial
      rcases r with e | i
      · exact late_err _ _
      · exact late_lockAndReply i _

theorem late_syncLoop {B base i k} (hk : k.Late) : ∀ (l : List Bytes) (c : Nat), (syncLoop B base i c l k).Late := by
  intro l
  induction l with
  | nil => intro c; exact hk
  | cons n l ih =>
    intro c
    unfold syncLoop
    cases B.lstat c (entryPath base n) with
    | error e => exact ih _
    | ok sr => intro out; exact ih _

theorem late_opendir (B i) : (opendir B i).Late := by
  intro out
  rcases out with r | r | r | r | r | r <;> try trivial
  rcases r with e | b
  · exact late_err e _
  · simp only
    rcases hb : B.opendir (backendPath b) with be | ⟨names, e⟩
    · simp only
      by_cases h : be = ENOTCONN
      · rw [if_pos h]; exact .inl rfl
      · rw [if_neg h]; exact late_err _ _
    · intro out
      refine late_syncLoop ?_ _ _
      intro out out
      exact .inl rfl

/-- What a thread has still to do, and what it has answered. -/
def TState.Late : TState → Prop
  | .run (.lookup ..) _ _ p => p.Late
  | .run (.opendir ..) _ _ p => p.Late
  | .leaving rq _ _ r => ¬ Promise rq r
  | _ => True

theorem not_promise_err {rq : Req} {e : Errno} : ¬ Promise rq (.err e) := by
  intro h; cases rq <;> exact h

theorem steps_late {d : DB} {r : Refs} {n : Nat} {m : MSys} (h : Steps (MSys.start d r n) m) : ∀ st ∈ m.th, st.Late := by
  generalize hm : MSys.start d r n = m0 at h
  induction h with
  | refl =>
    subst hm
    intro st hst
    rw [(List.mem_replicate.mp hst).2]; trivial
  | @step m1 m2 k _ hs ih =>
    have set : ∀ {x : TState}, x.Late → ∀ st ∈ m1.th.set k x, st.Late := by
      intro x hx st hst
      rcases List.mem_or_eq_of_mem_set hst with h1 | h1
      · exact ih st h1
      · rw [h1]; exact hx
    cases hs with
    | issue hk => exact set trivial
    | direct hk hp => exact set trivial
    | @begin_ rq B P w' out hk hp hst =>
      refine set ?_
      cases rq <;> simp only [prog, Option.some.injEq] at hp <;> first | trivial | skip
      · subst hp; exact late_lookup _ _ _
      · subst hp; exact late_opendir _ _
    | @call rq B v o c w' out hk hst =>
      have h1 := ih _ (List.mem_of_getElem? hk)
      refine set ?_
      cases rq <;> first | trivial | exact h1 out
    | commit hk hst => exact set trivial
    | unlock hk hst => exact set trivial
    | answer hk => exact set trivial
    | @reply rq B v r' hk =>
      have h1 := ih _ (List.mem_of_getElem? hk)
      refine set ?_
      show ¬ Promise rq r'
      cases rq with
      | lookup p n =>
        rcases h1 with h1 | h1
        · cases h1
        · obtain ⟨e, rfl⟩ := h1 r' (List.mem_singleton.mpr rfl)
          exact not_promise_err
      | opendir i =>
        rcases h1 with h1 | h1
        · cases h1
        · obtain ⟨e, rfl⟩ := h1 r' (List.mem_singleton.mpr rfl)
          exact not_promise_err
      | _ => intro h; exact h
    | leave hk hst => exact set trivial
    | finish hk hst => exact set trivial

/-- C85: promises are kept before they are given. Whenever the kernel has got a reply which tells that a
lookup found something, or that a directory was opened, the transaction of that request has been
committed. (The number of times a reply was sent is at most that of the requests which ended with it.) -/
theorem C85_committed {d : DB} {r : Refs} {n : Nat} {m : MSys} (h : Steps (MSys.start d r n) m) {rq : Req} {rep : Reply} (hp : Promise rq rep) :
    m.sent.countP (· = (rq, rep)) ≤ (m.hist.map (fun q => (q.rq, q.rep))).countP (· = (rq, rep)) := by
  have h1 := (C57_answers h).countP_eq (· = (rq, rep))
  rw [List.countP_append, List.countP_append] at h1
  have h2 : (m.th.filterMap TState.unended).countP (· = (rq, rep)) = 0 := by
    rw [List.countP_eq_zero]
    intro x hx he
    obtain ⟨st, hst, hu⟩ := List.mem_filterMap.mp hx
    have hl := steps_late h st hst
    cases st with
    | leaving rq' B' v' r' =>
      have : x = (rq', r') := by injection hu with hu; exact hu.symm
      rw [this] at he
      have : (rq', r') = (rq, rep) := by simpa using he
      cases this
      exact hl hp
    | _ => cases hu
  omega

theorem runOp_disk {w w' : CWorld} {k : Nat} {t : CTxn} {f r o mx out} (h : w.runOp k t f r o mx = .done w' out) : w'.disk = w.disk := by
  unfold CWorld.runOp at h
  cases hd : doOp (f.fr.txn w.refs) o with
  | error e => rw [hd] at h; cases h
  | ok y => rw [hd] at h; cases h; rfl

theorem step_disk {w w' : CWorld} {c : CCall} {out : Out} (h : w.step c = .done w' out) (hc : ∀ k, c ≠ .on k .commit) : w'.disk = w.disk := by
  cases c with
  | beginRO k th =>
    unfold CWorld.step at h
    cases ht : w.txns k with
    | none => simp only [ht] at h; cases h; rfl
    | some t => simp only [ht] at h; cases h
  | beginRW k th =>
    unfold CWorld.step at h
    cases ht : w.txns k with
    | none =>
      simp only [ht] at h
      by_cases hw : w.writer.isSome = true
      · rw [if_pos hw] at h; cases h
      · rw [if_neg hw] at h; cases h; rfl
    | some t => simp only [ht] at h; cases h
  | on k a =>
    unfold CWorld.step at h
    cases ht : w.txns k with
    | none => simp only [ht] at h; cases h
    | some t =>
      simp only [ht] at h
      unfold CWorld.act at h
      cases a with
      | commit => exact absurd rfl (hc k)
      | op o =>
        cases hf : t.frames with
        | nil => simp only [hf] at h; cases h
        | cons f r =>
          simp only [hf] at h
          by_cases h1 : (f.fr.ro && !o.isRO) = true
          · rw [if_pos h1] at h; cases h
          · rw [if_neg h1] at h
            by_cases h2 : asksRefs f.fr.db o = true
            · rw [if_pos h2] at h
              cases ha : w.acquire t <;> rw [ha] at h <;> first | exact runOp_disk h | cases h
            · rw [if_neg h2] at h; exact runOp_disk h
      | nested =>
        cases hf : t.frames with
        | nil => simp only [hf] at h; cases h
        | cons f r =>
          simp only [hf] at h
          by_cases h1 : f.fr.ro = true
          · rw [if_pos h1] at h; cases h
          · rw [if_neg h1] at h; cases h; rfl
      | abort =>
        cases hf : t.frames with
        | nil => simp only [hf] at h; cases h
        | cons f r =>
          simp only [hf] at h
          cases hu : undoAll w.refs f.fr.hooks.reverse with
          | error e => simp only [hu] at h; cases h
          | ok x => simp only [hu] at h; cases r <;> cases h <;> rfl
      | drop =>
        cases hf : t.frames with
        | nil => simp only [hf] at h; cases h
        | cons f r => simp only [hf] at h; cases h; rfl
      | finish =>
        cases hf : t.frames with
        | nil => simp only [hf] at h; cases h; rfl
        | cons f r => simp only [hf] at h; cases h

/-- C85: a request which has been answered changes the databases no more, so that it makes no difference to them
whether the process dies before or after the rest of it: if a step of thread `k` changes the
databases, then it is the commit of a request which has not been answered. -/
theorem C85_settled {m m' : MSys} {k : Nat} (h : Step m k m') (hd : m'.w.disk ≠ m.w.disk) :
    ∃ rq B v r, m.th[k]? = some (.run rq B v (.done true [r])) ∧ m'.th[k]? = some (.committed rq r) ∧ m'.sent = m.sent ∧ m'.hist = m.hist ++ [⟨rq, B, v, r⟩] := by
  cases h with
  | @commit rq B v r w' out hk hst =>
    refine ⟨rq, B, v, r, hk, ?_, rfl, rfl⟩
    show (m.th.set k _)[k]? = _
    rw [List.getElem?_set_self (List.getElem?_eq_some_iff.mp hk).1]
  | issue => exact absurd rfl hd
  | direct => exact absurd rfl hd
  | @begin_ rq B P w' out hk hp hst => exact absurd (step_disk hst (by intro j; split <;> simp)) hd
  | call hk hst => exact absurd (step_disk hst (by simp)) hd
  | unlock hk hst => exact absurd (step_disk hst (by simp)) hd
  | answer => exact absurd rfl hd
  | reply => exact absurd rfl hd
  | leave hk hst => exact absurd (step_disk hst (by simp)) hd
  | finish hk hst => exact absurd (step_disk hst (by simp)) hd

/-! ### The process dies -/

/-- Opening the databases again. -/
theorem reopen_obs {s : Tree} {d : DB} (h1 : Rep s d) (ok : s.OK) : ∃ d' r', openCleanDB d Refs.empty = .ok (d', r') ∧ (∀ i, (r' i).nrefs = 0) ∧
    CollectedObs d (fun _ => 0) d' ∧ (∀ i, i < W64 → ¬ Garbage d' (fun _ => 0) i) ∧
    ∀ i b, i < W64 → Cache.path d i = .ok (.ok b) → Cache.path d' i = .ok (.ok b) ∧ Cache.getattr d' i = Cache.getattr d i ∧
      Cache.readlink d' i = Cache.readlink d i ∧ (∀ f, testFlag d' i f = testFlag d i f) ∧ ∀ n j, Cache.lookup d' i n = .ok (.ok j) ↔ Cache.lookup d i n = .ok (.ok j) := by
  obtain ⟨s', d', r', e1, e2⟩ := openClean_empty h1 ok
  have obs := e2.obs h1 ok e2.rep.1 e2.rep.2
  refine ⟨d', r', e1, fun i => (e2.refs i).1, obs, ?_, ?_⟩
  · intro i hb hg
    refine e2.no_garbage e2.rep.1 e2.rep.2 i hb ?_
    have : (fun j => (r' j).nrefs) = fun _ => 0 := by funext j; exact (e2.refs j).1
    show Garbage d' (fun j => (r' j).nrefs) i
    rw [this]; exact hg
  · intro i b hb hp
    obtain ⟨cs, g1, rfl⟩ := h1.path_iff ok hb hp
    have hng : ¬ Garbage d (fun _ => 0) i := by
      intro hg
      exact Conn.not_gone ok ⟨cs, g1⟩ ((h1.garbage ok (r := Refs.empty) hb).mp hg)
    obtain ⟨k1, k2, k3⟩ := obs.kept i hb hng
    refine ⟨e2.rep.1.path_found e2.rep.2 (PathTo.collected ok e2.coll g1), k1, k2, k3, fun n j => ?_⟩
    rw [obs.entries i n j hb]
    exact ⟨fun h => h.1, fun h => ⟨h, fun hg => hng hg.1⟩⟩

/-- C85: all or nothing. The process dies at any moment `m`, any number of requests being under way, and is
started again. The constructor of the cache succeeds. It finds what the requests which had
ended (`m.hist`: been committed, or given up) left when handled one after the other, and no
trace of the others; of that exactly the garbage is removed. No inode is locked. -/
theorem C85_crash {m : MSys} (h : MReach m) (uid gid : Nat) (now : Timespec) :
    ∃ d0 r0 threads ds R d r, Steps (MSys.start d0 r0 threads) m ∧ OneByOne d0 r0 ds R m.hist ∧ ds.getLast? = some m.w.disk ∧
      openCleanDB (initDB m.w.disk uid gid now) Refs.empty = .ok (d, r) ∧ (∀ i, (r i).nrefs = 0) ∧
      CollectedObs m.w.disk (fun _ => 0) d ∧ (∀ i, i < W64 → ¬ Garbage d (fun _ => 0) i) ∧
      ∀ i b, i < W64 → Cache.path m.w.disk i = .ok (.ok b) → Cache.path d i = .ok (.ok b) ∧ Cache.getattr d i = Cache.getattr m.w.disk i ∧
        Cache.readlink d i = Cache.readlink m.w.disk i ∧ (∀ f, testFlag d i f = testFlag m.w.disk i f) ∧
        ∀ n j, Cache.lookup d i n = .ok (.ok j) ↔ Cache.lookup m.w.disk i n = .ok (.ok j) := by
  obtain ⟨d0, r0, n, L, H, vs, R, ds, s, hst, hM, hR, hP⟩ := h.any.inv kept_true
  have hi : initDB m.w.disk uid gid now = m.w.disk := by unfold initDB; rw [hR.si.rep.next]
  obtain ⟨d, r, g1, g2, g3, g4, g5⟩ := reopen_obs hR.si.rep hR.si.ok
  exact ⟨d0, r0, n, ds, R, d, r, hst, hM.one, hM.last, by rw [hi]; exact g1, g2, g3, g4, g5⟩

/-- The entry `n` of directory `p` with path `cs`: inode `i`, attributes in `P`. -/
def Entry (d : DB) (p : Ino) (n : Bytes) (cs : List Bytes) (i : Ino) (P : Attrs → Prop) : Prop :=
  Cache.path d p = .ok (.ok (pathStr cs)) ∧ Cache.lookup d p n = .ok (.ok i) ∧ ∃ a, Cache.getattr d i = .ok (i, a) ∧ P a

theorem Later.reach {fs : List Bytes} {P : Attrs → Prop} {m m' : MSys} (h : Later fs P m m') (hm : MReach m) : MReach m' := by
  induction h with
  | refl => exact hm
  | step _ h1 h2 h3 _ ih => exact .step ih h1 h2 h3
  | crash _ h1 h2 ih => exact .remount ih h1 h2

/-- One step with the databases before and after it. -/
theorem step_inv' {m m' : MSys} {k : Nat} (h : MReach m) (hs : Step m k m') (hp : Proper m k m') (hroom : Room m'.w) :
    m'.w.disk = m.w.disk ∧ m'.hist = m.hist ∨ ∃ d0 r0 L H vs R ds s q, MInv d0 r0 m' L H vs R ds ∧ RInv m' R ds s ∧ PInv (fun _ => True) ds m'.hist ∧
      m'.hist = m.hist ++ [q] ∧ ds[m.hist.length]? = some m.w.disk ∧ ds[m.hist.length + 1]? = some m'.w.disk := by
  obtain ⟨d0, r0, n, L, H, vs, R, ds, s, hst, hM, hR, hP⟩ := h.any.inv kept_true
  obtain ⟨L', H', vs', R', ds', hM', hRR⟩ := hM.step hs
  obtain ⟨s', hR'⟩ := hR.step hM hM' hRR hs hp hroom
  have hP' := hP.step kept_true hM hR hM' hs (fun _ _ => trivial)
  rcases step_hist hs with he | ⟨x, q, hk, he, hx⟩
  · left
    have h1 := hM'.one
    rw [he] at h1
    obtain ⟨rfl, -⟩ := hM.one.det h1
    have := hM'.last
    rw [hM.last] at this
    exact ⟨(Option.some.inj this).symm, he⟩
  · right
    refine ⟨d0, r0, L', H', vs', R', ds', s', q, hM', hR', hP', he, ?_, ?_⟩
    · have h1 := hM'.one
      rw [he] at h1
      obtain ⟨ds1, r1, d, d1, st, g1, -, -, -, -, -, -, rfl⟩ := h1.snoc_inv
      obtain ⟨rfl, -⟩ := hM.one.det g1
      have hl := hM.one.length
      rw [List.getElem?_append_left (by omega)]
      have := hM.last
      rw [List.getLast?_eq_getElem?, hl] at this
      simpa using this
    · have hl := hM'.one.length
      have := hM'.last
      rw [List.getLast?_eq_getElem?, hl, he] at this
      simpa using this

/-- C85: what was stored survives: whatever threads do, and however often the process dies, at any
moment, and is started again: an entry which the cache holds is still there, with the same
inode number and with attributes in `P`, as long as the backend confirms it or is not connected. -/
theorem C85_kept {m m' : MSys} (h : MReach m) {p : Ino} {n : Bytes} {cs : List Bytes} {i : Ino} {P : Attrs → Prop} (hb : p < W64) (hcs : ∀ c ∈ cs, Component c) (hn : n ≠ [])
    (hP : ∀ a b, P a → P b → fmt a.mode = fmt b.mode) (hl : Later (cs ++ [n]) P m m') (he : Entry m.w.disk p n cs i P) : Entry m'.w.disk p n cs i P := by
  induction hl with
  | refl => exact he
  | @step m1 m2 k h0 hs hp hroom hq ih =>
    rcases step_inv' (h0.reach h) hs hp hroom with ⟨e1, -⟩ | ⟨d0, r0, L, H, vs, R, ds, s, q, hM, hR, hPI, g1, g2, g3⟩
    · rw [e1]; exact ih
    · obtain ⟨f1, f2, a, f3, f4⟩ := ih
      refine kept_at hM.one hPI hR hb hcs hn hP (Nat.le_succ _) g2 g3 ?_ f1 f2 f3 f4
      intro l q' e h1 h2 h3 h4
      obtain rfl : l = m1.hist.length := by omega
      rw [g2] at h4; cases h4
      rw [g1] at h3; simp at h3; subst h3
      exact hq _ g1
  | @crash m1 uid gid now d r nt h0 ho hroom ih =>
    obtain ⟨d0, r0, t, ds, R, d', r', -, -, -, g1, -, -, -, g5⟩ := C85_crash (h0.reach h) uid gid now
    rw [ho] at g1; cases g1
    obtain ⟨f1, f2, a, f3, f4⟩ := ih
    obtain ⟨k1, k2, k3, k4, k5⟩ := g5 p _ hb f1
    refine ⟨k1, (k5 _ _).mpr f2, a, ?_, f4⟩
    obtain ⟨_, _, _, _, _, _, _, _, s, _, _, hR, _⟩ := (h0.reach h).any.inv kept_true
    have hpt := path_comps hR.si hb hcs f1
    have hat := (hR.si.rep.lookup_iff hR.si.ok hb).mp f2
    have hit : s.PathTo i (cs ++ [n]) := .child hat hpt
    obtain ⟨nd, hnd, -⟩ := hat
    show Cache.getattr d i = _
    rw [(g5 i _ (Nat.lt_trans (hR.si.ok.bound i nd hnd).2 hR.si.ok.next_lt) (hR.si.rep.path_found hR.si.ok hit)).2.1]
    exact f3

/-- When a request ends, its reply is right for the databases before and after. -/
theorem step_right {m m' : MSys} {k : Nat} (h : MReach m) (hs : Step m k m') (hp : Proper m k m') (hroom : Room m'.w) {q : Done} (hq : m'.hist = m.hist ++ [q])
    (hr : readOnly q.rq = false) : Right q.B m.w.disk m'.w.disk q.rq q.rep := by
  rcases step_inv' h hs hp hroom with ⟨-, e⟩ | ⟨d0, r0, L, H, vs, R, ds, s, q', hM, hR, hPI, g1, g2, g3⟩
  · rw [e] at hq
    have := congrArg List.length hq; simp at this
  · rw [hq] at g1
    obtain rfl : q = q' := by simpa using g1
    have hk : m'.hist[m.hist.length]? = some q := by rw [hq]; simp
    obtain ⟨d, d', h1, h2, h3⟩ := hPI.saw _ _ hk
    unfold seen at h1
    rw [hr, if_neg (by simp), g2] at h1; cases h1
    rw [g3] at h2; cases h2
    exact saw_right h3

/-- C85: what was seen online is served offline, also if the process died in between, at any moment. A
lookup which the connected backend answered ends (step `m1`, `m2`); a lookup of the same name
which ends later (step `m3`, `m4`), when there is no connection, gets the same reply: the same inode
number, the same attributes. -/
theorem C85_offline {m1 m2 m3 m4 : MSys} {k1 k3 : Nat} (h : MReach m1) (s1 : Step m1 k1 m2) (p1 : Proper m1 k1 m2) (r1 : Room m2.w)
    {p : Ino} {n : Bytes} {cs : List Bytes} {q q' : Done} {sr : BStat} {st : OsStat} (hb : p < W64) (hcs : ∀ c ∈ cs, Component c) (hn : n ≠ [])
    (hq : m2.hist = m1.hist ++ [q]) (hrq : q.rq = .lookup p n) (hpath : Cache.path m1.w.disk p = .ok (.ok (pathStr cs)))
    (hB : q.B.lstat 0 (pathStr (cs ++ [n])) = .ok sr) (hrep : q.rep = .entry st)
    (hl : Later (cs ++ [n]) (· = fromBackend sr) m2 m3)
    (s3 : Step m3 k3 m4) (p3 : Proper m3 k3 m4) (r3 : Room m4.w) (hq' : m4.hist = m3.hist ++ [q']) (hrq' : q'.rq = .lookup p n) (hoff : Offline q'.B) :
    q'.rep = .entry st := by
  have a1 := step_right h s1 p1 r1 hq (by rw [hrq]; rfl)
  have h2 : MReach m2 := .step h s1 p1 r1
  have a2 := step_right (hl.reach h2) s3 p3 r3 hq' (by rw [hrq']; rfl)
  rw [hrq, hrep] at a1
  rw [hrq'] at a2
  have e1 := (a1.2 _ hpath).1 sr (by rw [pathStr_snoc']; exact hB)
  by_cases hg : GoodName n
  · rw [if_pos hg] at e1
    obtain ⟨i, b1, b2, b3, b4⟩ := e1
    obtain ⟨c1, c2, a, c3, rfl⟩ := C85_kept h2 hb hcs hn (P := (· = fromBackend sr)) (by rintro a b rfl rfl; rfl) hl ⟨b2, b3, _, b4, rfl⟩
    obtain ⟨x, d1, d2⟩ := ((a2.2 _ c1).2.1 (hoff.lstat _ _)).1 i c2
    rw [c3] at d1; cases d1
    rw [d2, b1]
  · rw [if_neg hg] at e1; cases e1

/-! ### Example -/

section
variable {Q : Req → Backend → Prop} {fs : List Bytes} {P : Attrs → Prop}

structure Ready (Q : Req → Backend → Prop) (cap : Nat) (m : MSys) : Prop where
  reach : MReach m
  counts : ∀ i, (m.w.refs i).nrefs ≤ cap
  asks : ∀ (j : Nat) st, m.th[j]? = some st → st.Asks Q
  hist : ∀ q ∈ m.hist, Q q.rq q.B

theorem Ready.event {m m' : MSys} {cap cap' : Nat} {a : Ev} (h : Ready Q cap m) (ha : a.Asks Q) (hd : demoMT m cap [a] = some (m', cap')) :
    Ready Q cap' m' ∧ ∃ k, Step m k m' ∧ Proper m k m' ∧ Room m'.w := by
  cases a with
  | issue k t rq =>
    simp only [demoMT] at hd
    split at hd
    · rename_i hk
      split at hd
      · rename_i hv
        simp only [Bool.and_eq_true, decide_eq_true_eq] at hv
        obtain ⟨⟨⟨h1, h2⟩, h3⟩, h4⟩ := hv
        have hs : Step m k { m.to k (.recv rq t.backend) with held := fun i => m.held i - rq.returned i } := .issue hk
        have hlen : k < m.th.length := (List.getElem?_eq_some_iff.mp hk).1
        have hp : Proper m k { m.to k (.recv rq t.backend) with held := fun i => m.held i - rq.returned i } := .issue (rq := rq) (B := t.backend)
          (by simp only [MSys.to]; rw [List.getElem?_set, if_pos rfl, if_pos hlen])
          (by cases rq <;> simp_all [Req.inRangeB, Req.inRange]; exact h1) (returnedB_iff h2)
          (fun p names e hp => by have := Tbl.maxNames_ge hp; omega)
        cases hd
        refine ⟨⟨h.reach.step hs hp (roomB_iff h.counts h4), h.counts, fun j st hj => ?_, h.hist⟩, k, hs, hp, roomB_iff h.counts h4⟩
        have hj' : (m.th.set k (.recv rq t.backend))[j]? = some st := hj
        rw [List.getElem?_set] at hj'
        by_cases e : k = j
        · subst e
          rw [if_pos rfl, if_pos hlen] at hj'
          cases hj'; exact ha
        · rw [if_neg e] at hj'; exact h.asks j st hj'
      · cases hd
    · cases hd
  | go k =>
    simp only [demoMT] at hd
    split at hd
    · cases hd
    · rename_i m1 hm
      split at hd
      · rename_i hv
        rw [Bool.and_eq_true] at hv
        obtain ⟨h1, h2⟩ := hv
        have hs := MSys.go_step hm
        have hc' : ∀ i, (m1.w.refs i).nrefs ≤ cap + 1 := fun i => by
          have := step_counts hs i; have := h.counts i; omega
        have hp : Proper m k m1 := by
          by_cases hr : ∃ rq B, m.th[k]? = some (.recv rq B)
          · obtain ⟨rq, B, hr⟩ := hr
            unfold MSys.goB at h1
            rw [hr] at h1
            simp only at h1
            exact .begin_ hr (by cases rq <;> first | trivial | exact onDirB_iff h1)
          · exact .other (fun rq B hh => hr ⟨rq, B, hh⟩) (go_notRecv hm)
        obtain ⟨g1, g2⟩ := go_asks hm h.asks h.hist
        cases hd
        exact ⟨⟨h.reach.step hs hp (roomB_iff hc' h2), hc', g1, g2⟩, k, hs, hp, roomB_iff hc' h2⟩
      · cases hd

theorem demoMT_cons {m m' : MSys} {cap cap' : Nat} {a : Ev} {l : List Ev} (h : demoMT m cap (a :: l) = some (m', cap')) :
    ∃ m1 cap1, demoMT m cap [a] = some (m1, cap1) ∧ demoMT m1 cap1 l = some (m', cap') := by
  cases a with
  | issue k t rq =>
    simp only [demoMT] at h ⊢
    split at h
    · split at h
      · rename_i hv; exact ⟨_, _, if_pos hv, h⟩
      · cases h
    · cases h
  | go k =>
    simp only [demoMT] at h ⊢
    split at h
    · cases h
    · split at h
      · rename_i hv; exact ⟨_, _, if_pos hv, h⟩
      · cases h

theorem Ready.run {m0 : MSys} (hQ : ∀ rq B, Q rq B → Confirms B (along fs P) fs ∧ ∀ i, rq ≠ .readlink i) : ∀ {l : List Ev} {m m' : MSys} {cap cap' : Nat}, Ready Q cap m → (∀ a ∈ l, a.Asks Q) →
    demoMT m cap l = some (m', cap') → Ready Q cap' m' ∧ (Later fs P m0 m → Later fs P m0 m') := by
  intro l
  induction l with
  | nil => intro m m' cap cap' h _ hd; cases hd; exact ⟨h, id⟩
  | cons a l ih =>
    intro m m' cap cap' h hS hd
    obtain ⟨m1, cap1, h1, h2⟩ := demoMT_cons hd
    obtain ⟨g1, k, g2, g3, g4⟩ := h.event (hS a (by simp)) h1
    obtain ⟨f1, f2⟩ := ih g1 (fun a ha => hS a (List.mem_cons_of_mem _ ha)) h2
    refine ⟨f1, fun hl => f2 (.step hl g2 g3 g4 (fun q hq => ?_))⟩
    have := hQ _ _ (g1.hist q (by rw [hq]; simp))
    refine ⟨this.1, ?_⟩
    cases hrq : q.rq with
    | readlink i => exact absurd hrq (this.2 i)
    | _ => trivial

end

theorem ready_start {Q : Req → Backend → Prop} {d : DB} {r : Refs} {n : Nat} (h : MReach (MSys.start d r n)) (hc : ∀ i, (r i).nrefs ≤ 0) : Ready Q 0 (MSys.start d r n) := by
  refine ⟨h, hc, fun j st hj => ?_, fun q hq => by cases hq⟩
  have hj' : (List.replicate n TState.idle)[j]? = some st := hj
  rw [List.getElem?_replicate] at hj'
  split at hj'
  · cases hj'; trivial
  · cases hj'

theorem event_hist {m m' : MSys} {k : Nat} (hs : Step m k m') (h : m'.hist.length = m.hist.length + 1) : ∃ q, m'.hist = m.hist ++ [q] := by
  rcases step_hist hs with he | ⟨x, q, -, he, -⟩
  · rw [he] at h; omega
  · exact ⟨q, he⟩

/-- `a` is looked up, just before the commit. -/
def crash1 : List Ev := .issue 0 tblA (.lookup 1 [0x61]) :: List.replicate 4 (.go 0)

/-- The process dies while one thread lists the root directory and another has begun to read attributes. -/
def crash2 : List Ev := [.issue 1 tblA (.opendir 1), .go 1, .go 1, .go 1, .go 0, .go 0, .issue 0 tblA (.getattr 2), .go 0]

/-- The new process looks up `a` offline, while another thread reads attributes; just before the commit. -/
def crash3 : List Ev := [.issue 1 Tbl.offline (.getattr 2), .go 1, .issue 0 Tbl.offline (.lookup 1 [0x61])] ++ List.replicate 5 (.go 0)

def crashDemo : Option (MSys × MSys × MSys × MSys × MSys) := do
  let (m1, c1) ← demoMount 2 crash1
  let (m2, c2) ← demoMT m1 c1 [.go 0]
  let (m, _) ← demoMT m2 c2 crash2
  match openCleanDB (initDB m.w.disk 0 0 ⟨0, 0⟩) Refs.empty with
  | .error _ => none
  | .ok (d, r) =>
    if roomB (CWorld.start d r) 0 then do
      let (m3, c3) ← demoMT (MSys.start d r 2) 0 crash3
      let (m4, _) ← demoMT m3 c3 [.go 0]
      pure (m1, m2, m, m3, m4)
    else none

/-- Whether a transaction is open which has changed something. -/
def MSys.busy (m : MSys) : List Bool := m.th.map (fun | .run .. => true | _ => false)

theorem crashDemo_says : (match crashDemo with
    | some (m1, m2, m, m3, m4) => decide (Cache.path m1.w.disk 1 = .ok (.ok []) ∧ m1.hist.length = 0 ∧ m2.hist.map (·.rq) = [.lookup 1 [0x61]] ∧ (m2.hist.map (fun q => match q.rep with | .entry st => st.ino | _ => 0)) = [2] ∧
        m.busy = [true, true] ∧ m3.hist.length = 0 ∧ m4.hist.map (·.rq) = [.lookup 1 [0x61]] ∧ (m4.hist.map (fun q => match q.rep with | .entry st => st.ino | _ => 0)) = [2])
    | none => false) = true := by decide +kernel

/-- The hypotheses of `C85_offline` can be met: `a` is looked up online; the process dies while two requests are
under way; in the new process `a` is looked up offline.
(Among its steps are those of `C85_settled`, `C85_committed` and `C85_kept`.) -/
example : ∃ m1 m2 m3 m4 k1 k3 q q' st, MReach m1 ∧ Step m1 k1 m2 ∧ Proper m1 k1 m2 ∧ Room m2.w ∧ m2.hist = m1.hist ++ [q] ∧ q.rq = .lookup 1 [0x61] ∧
    Cache.path m1.w.disk 1 = .ok (.ok (pathStr [])) ∧ q.B.lstat 0 (pathStr ([] ++ [[0x61]])) = .ok bDir ∧ q.rep = .entry st ∧
    Later ([] ++ [[0x61]]) (· = fromBackend bDir) m2 m3 ∧ Step m3 k3 m4 ∧ Proper m3 k3 m4 ∧ Room m4.w ∧ m4.hist = m3.hist ++ [q'] ∧ q'.rq = .lookup 1 [0x61] ∧ Offline q'.B := by
  have hs := crashDemo_says
  generalize hd : crashDemo = o at hs
  obtain _ | ⟨m1, m2, m, m3, m4⟩ := o
  · cases hs
  simp only [decide_eq_true_eq] at hs
  obtain ⟨e1, e2, e3, e4, e5, e6, e7, e8⟩ := hs
  unfold crashDemo at hd
  obtain ⟨⟨m1', c1⟩, d1, hd⟩ := Option.bind_eq_some_iff.mp hd
  obtain ⟨⟨m2', c2⟩, d2, hd⟩ := Option.bind_eq_some_iff.mp hd
  obtain ⟨⟨m', c⟩, d3, hd⟩ := Option.bind_eq_some_iff.mp hd
  simp only at hd
  cases ho : openCleanDB (initDB m'.w.disk 0 0 ⟨0, 0⟩) Refs.empty with
  | error e => rw [ho] at hd; cases hd
  | ok x =>
  obtain ⟨d, r⟩ := x
  rw [ho] at hd
  simp only at hd
  by_cases hroom : roomB (CWorld.start d r) 0 = true
  case neg => rw [if_neg hroom] at hd; cases hd
  rw [if_pos hroom] at hd
  obtain ⟨⟨m3', c3⟩, d4, hd⟩ := Option.bind_eq_some_iff.mp hd
  obtain ⟨⟨m4', c4⟩, d5, hd⟩ := Option.bind_eq_some_iff.mp hd
  cases hd
  simp only at e6 e7 e8 d5
  have conf1 : ∀ rq B, (B = tblA.backend ∧ ∀ i, rq ≠ Req.readlink i) → Confirms B (along [[0x61]] (· = fromBackend bDir)) [[0x61]] ∧ ∀ i, rq ≠ .readlink i := by
    rintro rq B ⟨rfl, h⟩; exact ⟨tblA_confirms1, h⟩
  have off : Offline Tbl.offline.backend := ⟨fun _ _ => rfl, fun _ => rfl, fun _ => rfl⟩
  have conf2 : ∀ rq B, (B = Tbl.offline.backend ∧ ∀ i, rq ≠ Req.readlink i) → Confirms B (along [[0x61]] (· = fromBackend bDir)) [[0x61]] ∧ ∀ i, rq ≠ .readlink i := by
    rintro rq B ⟨rfl, h⟩; exact ⟨Offline.confirms off _ _, h⟩
  have asks1 : ∀ a ∈ crash1, a.Asks (fun rq B => B = tblA.backend ∧ ∀ i, rq ≠ Req.readlink i) := by
    intro a ha
    simp only [crash1, List.mem_cons, List.mem_replicate] at ha
    rcases ha with rfl | ⟨-, rfl⟩
    · exact ⟨rfl, by simp⟩
    · trivial
  have asks2 : ∀ a ∈ crash2, a.Asks (fun rq B => B = tblA.backend ∧ ∀ i, rq ≠ Req.readlink i) := by
    intro a ha
    simp only [crash2, List.mem_cons, List.not_mem_nil, or_false] at ha
    rcases ha with rfl | rfl | rfl | rfl | rfl | rfl | rfl | rfl <;> first | trivial | exact ⟨rfl, by simp⟩
  have asks3 : ∀ a ∈ crash3, a.Asks (fun rq B => B = Tbl.offline.backend ∧ ∀ i, rq ≠ Req.readlink i) := by
    intro a ha
    simp only [crash3, List.mem_append, List.mem_cons, List.not_mem_nil, or_false, List.mem_replicate] at ha
    rcases ha with (rfl | rfl | rfl) | ⟨-, rfl⟩ <;> first | trivial | exact ⟨rfl, by simp⟩
  -- the first process
  have r1 : Ready (fun rq B => B = tblA.backend ∧ ∀ i, rq ≠ Req.readlink i) c1 m1 := by
    unfold demoMount at d1
    split at d1
    · rename_i d r ho
      split at d1
      · rename_i hr
        have hc : ∀ i, ((CWorld.start d r).refs i).nrefs ≤ 0 := by
          obtain ⟨s, h1, h2, h3⟩ := root_rep 0 0 ⟨0, 0⟩
          exact fun i => Nat.le_of_eq (open_counts (si_empty h1 h2 h3) ho i)
        exact ((ready_start (.mount ho (roomB_iff hc hr)) hc).run (m0 := m1) conf1 asks1 d1).1
      · cases d1
    · cases d1
  obtain ⟨r2, k1, s1, p1, q1⟩ := r1.event (a := .go 0) trivial d2
  obtain ⟨r3, l3⟩ := r2.run (m0 := m2) conf1 asks2 d3
  -- it dies
  obtain ⟨-, -, -, -, -, d', r', -, -, -, g1, g2, -, -, -⟩ := C85_crash r3.reach 0 0 ⟨0, 0⟩
  rw [ho] at g1; cases g1
  have hc : ∀ i, (r i).nrefs ≤ 0 := fun i => Nat.le_of_eq (g2 i)
  have hR : Room (CWorld.start d r) := roomB_iff (cap := 0) hc hroom
  have l4 : Later [[0x61]] (· = fromBackend bDir) m2 (MSys.start d r 2) := .crash (l3 .refl) ho hR
  -- the second process
  obtain ⟨r5, l5⟩ := (ready_start (.remount r3.reach ho hR) hc).run (m0 := m2) conf2 asks3 d4
  obtain ⟨r6, k3, s3, p3, q3⟩ := r5.event (a := .go 0) trivial d5
  obtain ⟨q, hq⟩ := event_hist s1 (by have := congrArg List.length e3; simp at this; omega)
  obtain ⟨q', hq'⟩ := event_hist s3 (by have := congrArg List.length e7; simp at this; omega)
  have n1 := List.eq_nil_of_length_eq_zero e2
  have n2 := List.eq_nil_of_length_eq_zero e6
  rw [hq, n1] at e3 e4
  rw [hq', n2] at e7 e8
  have b1 := (r2.hist q (by rw [hq]; simp)).1
  have b2 := (r6.hist q' (by rw [hq']; simp)).1
  have hst : ∃ st, q.rep = .entry st := by
    have e4 : (match q.rep with | .entry st => st.ino | _ => 0) = 2 := by simpa using e4
    cases hr : q.rep with
    | entry st => exact ⟨st, rfl⟩
    | _ => rw [hr] at e4; simp at e4
  obtain ⟨st, hst⟩ := hst
  exact ⟨m1, m2, m3', m4', k1, k3, q, q', st, r1.reach, s1, p1, q1, hq, by simpa using e3, e1, by rw [b1]; decide +kernel, hst, l5 l4, s3, p3, q3, hq', by simpa using e7, by rw [b2]; exact off⟩

end Dragonstash.MT
