/-
  C57, C58, C59: several threads serving requests.
-/
import Verif.MT.Held
import Verif.MT.Demo
namespace Dragonstash.MT
open Cache FS Conc

/-! ### C57 -/

/-- C57: however the threads interleave, the requests which have ended got the replies, and left the
databases and the reference table, which the single-threaded filesystem gives when it handles them
one after the other, in the order in which they ended; requests which do not write may see the
databases which were the newest when they began. The reference table is compared when nobody has
the mutex. -/
theorem C57_serial {d : DB} {r : Refs} {n : Nat} {m : MSys} (h : Steps (MSys.start d r n) m) :
    ∃ ds R, OneByOne d r ds R m.hist ∧ ds.getLast? = some m.w.disk ∧ (m.w.mutex = none → R = m.w.refs) := by
  obtain ⟨L, H, vs, R, ds, hi⟩ := h.inv
  exact ⟨ds, R, hi.one, hi.last, hi.ser.noMutex⟩

/-- Threads which do not exist have no transactions. -/
theorem Steps.noThread {d : DB} {r : Refs} {n : Nat} {m : MSys} (h : Steps (MSys.start d r n) m) : ∀ k, m.th[k]? = none → m.w.txns k = none := by
  generalize hm : MSys.start d r n = m0 at h
  induction h with
  | refl => subst hm; intro k _; rfl
  | @step m1 m2 j _ hs ih =>
    have set : ∀ {st : TState} {x k}, m1.th[j]? = some x → (m1.th.set j st)[k]? = none → m1.th[k]? = none ∧ k ≠ j := by
      intro st x k hj hk
      have h1 : (m1.th.set j st).length ≤ k := List.getElem?_eq_none_iff.mp hk
      rw [List.length_set] at h1
      refine ⟨List.getElem?_eq_none_iff.mpr h1, ?_⟩
      rintro rfl
      have := (List.getElem?_eq_some_iff.mp hj).1
      omega
    have act : ∀ {st : TState} {x a w' out}, m1.th[j]? = some x → m1.w.step (.on j a) = .done w' out → ∀ k, (m1.th.set j st)[k]? = none → w'.txns k = none := by
      intro st x a w' out hj hst k hk
      obtain ⟨h1, h2⟩ := set hj hk
      rw [step_other hst k h2]; exact ih k h1
    intro k hk
    cases hs with
    | issue hj => exact ih k (set hj hk).1
    | direct hj => exact ih k (set hj hk).1
    | @begin_ rq B P w' out hj hp hst =>
      obtain ⟨h1, h2⟩ := set hj hk
      have : w'.txns k = m1.w.txns k := by
        cases hr : readOnly rq with
        | true => rw [hr, if_pos rfl] at hst; cases step_inv hst with | beginRO _ => exact set_other h2
        | false => rw [hr, if_neg (by simp)] at hst; cases step_inv hst with | beginRW _ _ => exact set_other h2
      exact this.trans (ih k h1)
    | call hj hst => exact act hj hst k hk
    | commit hj hst => exact act hj hst k hk
    | unlock hj hst => exact act hj hst k hk
    | answer hj => exact ih k (set hj hk).1
    | reply hj => exact ih k (set hj hk).1
    | leave hj hst => exact act hj hst k hk
    | finish hj hst => exact act hj hst k hk

/-- C57: when no request is being served, databases and reference table are those of the
single-threaded filesystem. -/
theorem C57_quiet {d : DB} {r : Refs} {n : Nat} {m : MSys} (h : Steps (MSys.start d r n) m) (hq : ∀ t ∈ m.th, t = .idle) :
    ∃ ds, OneByOne d r ds m.w.refs m.hist ∧ ds.getLast? = some m.w.disk := by
  obtain ⟨L, H, vs, R, ds, hi⟩ := h.inv
  have : m.w.mutex = none := by
    cases hm : m.w.mutex with
    | none => rfl
    | some k =>
      obtain ⟨t, ht, -⟩ := hi.ser.lock.mx' k hm
      have : m.w.txns k = none := by
        cases hk : m.th[k]? with
        | none => exact h.noThread k hk
        | some st =>
          have h1 := hi.threads k st hk
          rw [hq st (List.mem_of_getElem? hk)] at h1; exact h1
      rw [this] at ht; cases ht
  exact ⟨ds, hi.ser.noMutex this ▸ hi.one, hi.last⟩

/-- Replies which are decided but not sent: the transaction was committed. -/
def TState.unsent : TState → Option (Req × Reply)
  | .committed rq r | .answer rq r => some (rq, r)
  | _ => none

/-- Requests which were answered, but have not ended: the transaction is still to be destroyed. -/
def TState.unended : TState → Option (Req × Reply)
  | .leaving rq _ _ r => some (rq, r)
  | _ => none

theorem filterMap_set {α β : Type} (f : α → Option β) {l : List α} {k : Nat} {x y : α} (h : l[k]? = some x) :
    ∃ a b, l.filterMap f = a ++ (f x).toList ++ b ∧ (l.set k y).filterMap f = a ++ (f y).toList ++ b := by
  obtain ⟨hk, hx⟩ := List.getElem?_eq_some_iff.mp h
  have h1 : l = l.take k ++ x :: l.drop (k + 1) := by
    rw [← hx, ← List.drop_eq_getElem_cons hk, List.take_append_drop]
  have h2 : l.set k y = l.take k ++ y :: l.drop (k + 1) := by
    rw [List.set_eq_take_append_cons_drop, if_pos hk]
  refine ⟨(l.take k).filterMap f, (l.drop (k + 1)).filterMap f, ?_, ?_⟩
  · have h3 := congrArg (List.filterMap f) h1
    rw [h3, List.filterMap_append, List.filterMap_cons]
    cases f x <;> simp
  · rw [h2, List.filterMap_append, List.filterMap_cons]
    cases f y <;> simp

/-- C57: every request which has ended is answered exactly once, with the reply recorded there: the
answers sent, and those about to be sent, are those of the requests which ended, and of those which
are about to end. -/
theorem C57_answers {d : DB} {r : Refs} {n : Nat} {m : MSys} (h : Steps (MSys.start d r n) m) :
    (m.sent ++ m.th.filterMap TState.unsent).Perm (m.hist.map (fun q => (q.rq, q.rep)) ++ m.th.filterMap TState.unended) := by
  generalize hm : MSys.start d r n = m0 at h
  induction h with
  | refl =>
    subst hm
    have h1 : (List.replicate n TState.idle).filterMap TState.unsent = [] := by
      rw [List.filterMap_eq_nil_iff]; intro a ha; rw [(List.mem_replicate.mp ha).2]; rfl
    have h2 : (List.replicate n TState.idle).filterMap TState.unended = [] := by
      rw [List.filterMap_eq_nil_iff]; intro a ha; rw [(List.mem_replicate.mp ha).2]; rfl
    simp only [MSys.start, h1, h2]; exact List.Perm.refl _
  | @step m1 m2 j _ hs ih =>
    have key : ∀ {x y : TState} (s' : List (Req × Reply)) (h' : List (Req × Reply)), m1.th[j]? = some x →
        (s' ++ y.unsent.toList ++ x.unended.toList).Perm (x.unsent.toList ++ (h' ++ y.unended.toList)) →
        (m1.sent ++ s' ++ (m1.th.set j y).filterMap TState.unsent).Perm
          (m1.hist.map (fun q => (q.rq, q.rep)) ++ h' ++ (m1.th.set j y).filterMap TState.unended) := by
      intro x y s' h' hj hp
      obtain ⟨a, b, e1, e2⟩ := filterMap_set TState.unsent (y := y) hj
      obtain ⟨a', b', e3, e4⟩ := filterMap_set TState.unended (y := y) hj
      rw [e1, e3] at ih
      rw [e2, e4]
      classical
      rw [List.perm_iff_count] at ih hp ⊢
      intro z
      have h1 := ih z
      have h2 := hp z
      simp only [List.count_append] at h1 h2 ⊢
      omega
    cases hs with
    | issue hj => simpa [MSys.to] using key [] [] hj (by simp [TState.unsent, TState.unended])
    | @direct rq B hj => simpa [MSys.send, MSys.to] using key [(rq, directReply rq)] [(rq, directReply rq)] (y := .idle) hj (by simp [TState.unsent, TState.unended])
    | begin_ hj => simpa [MSys.to] using key [] [] hj (by simp [TState.unsent, TState.unended])
    | call hj => simpa [MSys.to] using key [] [] hj (by simp [TState.unsent, TState.unended])
    | @commit rq B v r w' out hj hst => simpa [MSys.to] using key [] [(rq, r)] (y := .committed rq r) hj (by simp [TState.unsent, TState.unended])
    | @unlock rq r w' out hj => simpa [MSys.to] using key [] [] (y := .answer rq r) hj (by simp [TState.unsent, TState.unended])
    | @answer rq r hj => simpa [MSys.send, MSys.to] using key [(rq, r)] [] (y := .idle) hj (by simp [TState.unsent, TState.unended])
    | @reply rq B v r hj => simpa [MSys.send, MSys.to] using key [(rq, r)] [] (y := .leaving rq B v r) hj (by simp [TState.unsent, TState.unended])
    | @leave rq B v r w' out hj => simpa [MSys.to] using key [] [(rq, r)] (y := .left rq) hj (by simp [TState.unsent, TState.unended])
    | finish hj => simpa [MSys.to] using key [] [] hj (by simp [TState.unsent, TState.unended])

/-- Thread `k` is serving this request, which began when `v` requests had ended. -/
def TState.Busy (rq : Req) (B : Backend) (v : Nat) : TState → Prop
  | .run rq' B' v' _ => rq' = rq ∧ B' = B ∧ v' = v
  | .leaving rq' B' v' _ => rq' = rq ∧ B' = B ∧ v' = v
  | _ => False

/-- C57: real time order. Requests end one after the other; a request which saw databases older than
those at some moment (`m`) had begun before that moment. -/
theorem C57_order {m m' : MSys} (h : Steps m m') :
    ∃ later, m'.hist = m.hist ++ later ∧
      ∀ q ∈ later, q.ver < m.hist.length → ∃ (k : Nat) (t : TState), m.th[k]? = some t ∧ t.Busy q.rq q.B q.ver := by
  have main : (∃ later, m'.hist = m.hist ++ later ∧
      ∀ q ∈ later, q.ver < m.hist.length → ∃ (k : Nat) (t : TState), m.th[k]? = some t ∧ t.Busy q.rq q.B q.ver) ∧
      ∀ (k : Nat) (t : TState) rq B v, m'.th[k]? = some t → t.Busy rq B v → v < m.hist.length → ∃ t0 : TState, m.th[k]? = some t0 ∧ t0.Busy rq B v := by
    induction h with
    | refl => exact ⟨⟨[], by simp, fun q hq => by cases hq⟩, fun k t rq B v h1 h2 _ => ⟨t, h1, h2⟩⟩
    | @step m1 m2 j _ hs ih =>
      obtain ⟨⟨l, e, ih1⟩, ih2⟩ := ih
      have hlen : m.hist.length ≤ m1.hist.length := by rw [e]; simp
      have thr : ∀ {st x : TState}, m1.th[j]? = some x → (∀ rq B v, st.Busy rq B v → v < m.hist.length → x.Busy rq B v) →
          ∀ (k : Nat) (t : TState) rq B v, (m1.th.set j st)[k]? = some t → t.Busy rq B v → v < m.hist.length → ∃ t0 : TState, m.th[k]? = some t0 ∧ t0.Busy rq B v := by
        intro st x hj hx k t rq B v hk hb hv
        rw [List.getElem?_set] at hk
        by_cases e : j = k
        · subst e
          rw [if_pos rfl] at hk
          split at hk
          · cases hk; exact ih2 j x rq B v hj (hx rq B v hb hv) hv
          · cases hk
        · rw [if_neg e] at hk; exact ih2 k t rq B v hk hb hv
      have add : ∀ (q : Done) {x : TState}, m1.th[j]? = some x → (q.ver < m.hist.length → x.Busy q.rq q.B q.ver) →
          ∃ later, m1.hist ++ [q] = m.hist ++ later ∧ ∀ q ∈ later, q.ver < m.hist.length → ∃ (k : Nat) (t : TState), m.th[k]? = some t ∧ t.Busy q.rq q.B q.ver := by
        intro q x hj hx
        refine ⟨l ++ [q], by rw [e]; simp, fun p hp hv => ?_⟩
        rw [List.mem_append, List.mem_singleton] at hp
        rcases hp with hp | rfl
        · exact ih1 p hp hv
        · obtain ⟨t0, h1, h2⟩ := ih2 j x _ _ _ hj (hx hv) hv
          exact ⟨j, t0, h1, h2⟩
      cases hs with
      | issue hj => exact ⟨⟨l, e, ih1⟩, thr hj (fun _ _ _ h => by cases h)⟩
      | @direct rq B hj hp => exact ⟨add _ hj (fun h => by simp only at h; omega), thr hj (fun _ _ _ h => by cases h)⟩
      | @begin_ rq B P w' out hj hp hst => exact ⟨⟨l, e, ih1⟩, thr hj (fun rq' B' v' h hv => by obtain ⟨-, -, rfl⟩ := h; omega)⟩
      | call hj hst => exact ⟨⟨l, e, ih1⟩, thr hj (fun rq' B' v' h hv => h)⟩
      | commit hj hst => exact ⟨add _ hj (fun _ => ⟨rfl, rfl, rfl⟩), thr hj (fun _ _ _ h => by cases h)⟩
      | unlock hj hst => exact ⟨⟨l, e, ih1⟩, thr hj (fun _ _ _ h => by cases h)⟩
      | answer hj => exact ⟨⟨l, e, ih1⟩, thr hj (fun _ _ _ h => by cases h)⟩
      | reply hj => exact ⟨⟨l, e, ih1⟩, thr hj (fun rq' B' v' h hv => h)⟩
      | leave hj hst => exact ⟨add _ hj (fun _ => ⟨rfl, rfl, rfl⟩), thr hj (fun _ _ _ h => by cases h)⟩
      | finish hj hst => exact ⟨⟨l, e, ih1⟩, thr hj (fun _ _ _ h => by cases h)⟩
  exact main.1

/-- Two threads: a `getattr` of the root begins, a `lookup` of `a` runs from beginning to end, then the
`getattr` is answered: it ended last, but saw the older databases. -/
def interleaved : List Ev :=
  [.issue 0 tblA (.getattr 1), .go 0, .issue 1 tblA (.lookup 1 [0x61]), .go 1, .go 1, .go 1, .go 1, .go 1, .go 1, .go 1, .go 0, .go 0, .go 0, .go 0]

/-- The hypotheses of `C57_serial`, `C57_quiet`, `C57_answers` and `C57_order`: two requests which overlap. -/
example : ∃ d r m, Steps (MSys.start d r 2) m ∧ m.hist.length = 2 ∧ m.hist.map (fun q => q.ver) = [0, 0] ∧ m.held 2 = 1 ∧ m.sent.length = 2 ∧ m.w.mutex = none :=
  demoMT_steps (l := interleaved) (by decide +kernel)

/-! ### C58 -/

theorem MReach.steps {m : MSys} (h : MReach m) : ∃ d0 r0 n, Steps (MSys.start d0 r0 n) m := by
  obtain ⟨d0, r0, n, _, _, _, _, _, _, hs, -⟩ := h.inv
  exact ⟨d0, r0, n, hs⟩

/-- C58: at every moment, whatever the threads do, the reference table has at least the lookups which
the kernel holds. -/
theorem C58_counts {m : MSys} (h : MReach m) (i : Ino) : m.held i ≤ (m.w.refs i).nrefs := by
  obtain ⟨d0, r0, n, L, H, vs, R, ds, s, hs, hM, hR⟩ := h.inv
  have hc := hR.cnt i
  cases hm : m.w.mutex with
  | none => rw [← hM.ser.noMutex hm]; omega
  | some k =>
    obtain ⟨t, ht, -⟩ := hM.ser.lock.mx' k hm
    cases hk : m.th[k]? with
    | none => rw [hs.noThread k hk] at ht; cases ht
    | some st =>
      have hth := hM.threads k st hk
      obtain ⟨-, hb⟩ := hR.fine k st hk
      have ho := owes_le (i := i) hk
      have ended : ∀ {u : CTxn}, m.w.txns k = some u → u.frames = [] → m.held i ≤ (m.w.refs i).nrefs := by
        intro u hu hf
        have : R = m.w.refs := hM.ser.refs (fun j v f hj hf' hmj => by
          rw [hm] at hmj; cases hmj
          rw [hu] at hj; cases hj
          rw [hf] at hf'; cases hf')
        rw [← this]; omega
      cases st with
      | idle => rw [show m.w.txns k = none from hth] at ht; cases ht
      | recv => rw [show m.w.txns k = none from hth] at ht; cases ht
      | answer => rw [show m.w.txns k = none from hth] at ht; cases ht
      | committed => obtain ⟨u, h1, h2, -⟩ := hth; exact ended h1 h2
      | left => obtain ⟨u, h1, h2, -⟩ := hth; exact ended h1 h2
      | run rq B v p =>
        obtain ⟨b, h1, h2, h3⟩ := hb
        have := h3 hm i
        simp only [TState.owes] at ho; omega
      | leaving rq B v r =>
        have := hb hm i
        simp only [TState.owes] at ho; omega

/-- C58: an inode which the kernel holds is in the database at every moment. -/
theorem C58_exists {m : MSys} (h : MReach m) {i : Ino} (hi : 0 < m.held i) : ∃ a, Cache.getattr m.w.disk i = .ok (i, a) := by
  obtain ⟨d0, r0, n, L, H, vs, R, ds, s, hs, hM, hR⟩ := h.inv
  have hc := hR.cnt i
  obtain ⟨nd, hn⟩ := hR.si.locked i (by omega)
  exact ⟨_, getattr_some hR.si hn⟩

theorem OneByOne.prefix {d0 : DB} {r0 : Refs} {ds r H} : ∀ {l : List Done}, OneByOne d0 r0 ds r (H ++ l.reverse) → ∃ ds1 r1 e, OneByOne d0 r0 ds1 r1 H ∧ ds = ds1 ++ e := by
  intro l
  induction l generalizing ds r with
  | nil => intro h; exact ⟨ds, r, [], by simpa using h, by simp⟩
  | cons q l ih =>
    intro h
    rw [List.reverse_cons, ← List.append_assoc] at h
    obtain ⟨ds1, r1, d, d1, st, g1, -, -, -, -, -, -, rfl⟩ := h.snoc_inv
    obtain ⟨ds2, r2, e, g2, rfl⟩ := ih g1
    exact ⟨ds2, r2, _, g2, by rw [List.append_assoc]⟩

theorem OneByOne.read {d0 : DB} {r0 : Refs} {ds r H} (h : OneByOne d0 r0 ds r H) : ∀ q ∈ H, readOnly q.rq = true →
    ∃ d r1 st, ds[q.ver]? = some d ∧ handle q.B { disk := d, refs := r1 } q.rq = .ok st ∧ st.sent = [q.rep] := by
  have more : ∀ {ds : List DB} {e d : DB} {v : Nat}, ds[v]? = some d → (ds ++ [e])[v]? = some d := by
    intro ds e d v h
    rw [List.getElem?_append_left (List.getElem?_eq_some_iff.mp h).1]; exact h
  induction h with
  | start => intro q hq; cases hq
  | @ro ds1 r1 H1 q1 d d1 st h1 h2 h3 h4 h5 h6 h7 ih =>
    intro q hq hr
    rw [List.mem_append, List.mem_singleton] at hq
    rcases hq with hq | rfl
    · obtain ⟨d', r', st', g1, g2⟩ := ih q hq hr
      exact ⟨d', r', st', more g1, g2⟩
    · exact ⟨d, r1, st, more h3, h5, h6⟩
  | @rw ds1 r1 H1 q1 d st h1 h2 h3 h4 h5 h6 ih =>
    intro q hq hr
    rw [List.mem_append, List.mem_singleton] at hq
    rcases hq with hq | rfl
    · obtain ⟨d', r', st', g1, g2⟩ := ih q hq hr
      exact ⟨d', r', st', more g1, g2⟩
    · rw [h2] at hr; cases hr

theorem Steps.trans {m m1 m2 : MSys} (h : Steps m m1) (h' : Steps m1 m2) : Steps m m2 := by
  induction h' with
  | refl => exact h
  | step _ hs ih => exact .step ih hs

/-- What a reading request which begins at some moment (`m`: when `m.hist.length` requests had ended)
is answered from: the databases of that moment. -/
theorem reads_at {m m' : MSys} {d0 r0 n} (h : Steps (MSys.start d0 r0 n) m) (h' : Steps m m') {q : Done} (hq : q ∈ m'.hist) (hr : readOnly q.rq = true) (hv : q.ver = m.hist.length) :
    ∃ r1 st, handle q.B { disk := m.w.disk, refs := r1 } q.rq = .ok st ∧ st.sent = [q.rep] := by
  obtain ⟨_, _, _, R, ds, hM⟩ := h.inv
  obtain ⟨_, _, _, R', ds', hM'⟩ := (h.trans h').inv
  obtain ⟨later, hl, -⟩ := C57_order h'
  have hone := hM'.one
  rw [hl, show later = later.reverse.reverse by simp] at hone
  obtain ⟨ds1, r1, e, g1, rfl⟩ := hone.prefix
  obtain ⟨rfl, rfl⟩ := hM.one.det g1
  obtain ⟨d, r2, st, g2, g3⟩ := hM'.one.read q hq hr
  have : d = m.w.disk := by
    have h1 := hM.last
    rw [List.getLast?_eq_getElem?, hM.one.length, show m.hist.length + 1 - 1 = m.hist.length by omega] at h1
    rw [hv, List.getElem?_append_left (List.getElem?_eq_some_iff.mp h1).1, h1] at g2
    exact (Option.some.inj g2).symm
  subst this
  exact ⟨r2, st, g3⟩

/-- C58: a `getattr` of an inode which the kernel holds when the request begins is answered with
attributes, whatever the other threads do before, meanwhile and after. -/
theorem C58_getattr {m m' : MSys} (h : MReach m) {i : Ino} (hi : 0 < m.held i) (h' : Steps m m') {q : Done} (hq : q ∈ m'.hist)
    (hr : q.rq = .getattr i) (hv : q.ver = m.hist.length) : ∃ st, q.rep = .attr st ∧ st.ino = i := by
  obtain ⟨d0, r0, n, hs⟩ := h.steps
  obtain ⟨r1, st, g1, g2⟩ := reads_at hs h' hq (by rw [hr]; rfl) hv
  obtain ⟨a, ha⟩ := C58_exists h hi
  rw [hr] at g1
  simp only [handle, FS.getattr, ha] at g1
  cases g1
  simp only [St.reply] at g2
  cases hx : q.rep with
  | attr st => rw [hx] at g2; cases g2; exact ⟨_, rfl, rfl⟩
  | _ => rw [hx] at g2; cases g2

/-- The hypotheses of `C58_counts`, `C58_exists` and `C58_getattr`: the kernel holds inode 2 while another thread removes it from
its directory, and `getattr` of it is answered afterwards. -/
example : ∃ m, MReach m ∧ m.held 2 = 1 ∧ (Cache.lookup m.w.disk 1 [0x61] = .ok (.error ENOENT)) ∧ (m.sent.map (·.2)).getLast? = some (.attr (osStat 2 (fromBackend bDir))) :=
  demoMT_ex (n := 2) (l := [.issue 0 tblA (.lookup 1 [0x61]), .go 0, .go 0, .go 0, .go 0, .go 0, .go 0, .go 0,
    .issue 1 {} (.lookup 1 [0x61]), .issue 0 tblA (.getattr 2), .go 1, .go 1, .go 0, .go 1, .go 0, .go 1, .go 1, .go 1, .go 0, .go 0, .go 0]) (by decide +kernel)

/-! ### C59 -/

/-- Thread `k` waits: for LMDB's writer lock, or for the mutex of the reference table. -/
inductive Waits (m : MSys) (k : Nat) : Prop
  | writer {rq B} : m.th[k]? = some (.recv rq B) → m.w.step (.beginRW k k) = .blocked → Waits m k
  | mutex {rq B v o c} : m.th[k]? = some (.run rq B v (.op o c)) → m.w.step (.on k (.op o)) = .blocked → Waits m k

/-- Thread `k` is about to reply twice to a `readdir` (missing `return`, fs.cpp 286): `reply_err` and then
`reply_buf`, which throws. -/
def TwoReplies (m : MSys) (k : Nat) : Prop :=
  ∃ i size off B v e r, m.th[k]? = some (.run (.readdir i size off) B v (.done false [.err e, r]))

/-- The full property: a thread which has a request can go on, or waits for a lock. -/
def C59_full : Prop := ∀ m, MReach m → ∀ (k : Nat) (st : TState), m.th[k]? = some st → st ≠ .idle → (∃ m', Step m k m') ∨ Waits m k

/-- Is a thread about to reply twice? -/
def TState.twice : TState → Bool
  | .run (.readdir _ _ _) _ _ (.done false [.err _, _]) => true
  | _ => false

theorem TState.twice_iff {st : TState} (h : st.twice = true) : ∃ i size off B v e r, st = .run (.readdir i size off) B v (.done false [.err e, r]) := by
  unfold TState.twice at h
  split at h
  · exact ⟨_, _, _, _, _, _, _, rfl⟩
  · cases h

/-- C59: false in full: listing a directory which was removed while the kernel held it. -/
theorem C59_counterexample : ¬ C59_full := by
  intro hfull
  obtain ⟨m, hm, h2⟩ : ∃ m, MReach m ∧ (m.th[0]?.map TState.twice) = some true :=
    demoMT_ex (n := 1) (l := [.issue 0 tblA (.lookup 1 [0x61]), .go 0, .go 0, .go 0, .go 0, .go 0, .go 0, .go 0,
      .issue 0 {} (.lookup 1 [0x61]), .go 0, .go 0, .go 0, .go 0, .go 0, .go 0,
      .issue 0 {} (.readdir 2 4096 0), .go 0, .go 0, .go 0, .go 0, .go 0]) (by decide +kernel)
  cases hk : m.th[0]? with
  | none => rw [hk] at h2; cases h2
  | some st =>
    rw [hk] at h2
    obtain ⟨i, size, off, B, v, e, r, rfl⟩ := TState.twice_iff (by simpa using h2)
    rcases hfull m hm 0 _ hk (by simp) with ⟨m', hs⟩ | hw
    · cases hs with
      | issue h => rw [hk] at h; cases h
      | direct h => rw [hk] at h; cases h
      | begin_ h => rw [hk] at h; cases h
      | call h => rw [hk] at h; cases h
      | commit h => rw [hk] at h; cases h
      | unlock h => rw [hk] at h; cases h
      | answer h => rw [hk] at h; cases h
      | reply h => rw [hk] at h; cases h
      | leave h => rw [hk] at h; cases h
      | finish h => rw [hk] at h; cases h
    · cases hw with
      | writer h => rw [hk] at h; cases h
      | mutex h => rw [hk] at h; cases h

theorem run_ok_op {o : Op} {c : Out → Prog} {x : Txn} {y} (h : (Prog.op o c).run x = .ok y) : ∃ x' out, doOp x o = .ok (x', out) := by
  unfold Prog.run at h
  split at h
  · cases h
  · exact ⟨_, _, by assumption⟩

/-- The handler which is running does not fail. -/
theorem runs_ok {d0 : DB} {r0 : Refs} {m : MSys} {L H vs R ds s} (hM : MInv d0 r0 m L H vs R ds) (hR : RInv m R ds s) {k : Nat} {rq B v p}
    (hk : m.th[k]? = some (.run rq B v p)) :
    ∃ t f x y, m.w.txns k = some t ∧ t.frames = [f] ∧ t.thread = k ∧ f.fr.ro = readOnly rq ∧ x = f.fr.txn (if m.w.mutex = some k then m.w.refs else R) ∧ p.run x = .ok y := by
  obtain ⟨⟨hq, hd⟩, -⟩ := hR.fine k _ hk
  obtain ⟨d, x, P, f, l, h1, h2, h3, -, -, -, ⟨t, h4, h5, h6⟩, h7, -, h8, -⟩ := hM.alone (hM.threads k _ hk)
  have hret : ∀ i, rq.returned i ≤ (R i).nrefs := by
    intro i
    have h1 := hR.cnt i
    have h2 := owes_le (i := i) hk
    simp only [TState.owes] at h2; omega
  have hseq := prog_seq (r := R) h2
  have hok : ∃ st, handle B { disk := d, refs := R } rq = .ok st := by
    obtain ⟨hroom1, hroom2, hroom3⟩ := hR.room
    cases hr : readOnly rq with
    | true =>
      rw [hr, if_pos rfl] at h1
      obtain ⟨⟨s0, hold⟩, hsz⟩ := hR.old d (List.mem_of_getElem? h1)
      have hro : ∀ p n i j, rq ≠ .lookup p n ∧ rq ≠ .readlink i ∧ rq ≠ .opendir j := by
        intro p n i j
        refine ⟨?_, ?_, ?_⟩ <;> (rintro rfl; cases hr)
      rcases read_served (B := B) hR.si hold hq.1 hro hret (fun i => by have := hR.bound i; omega) with ⟨r', rep', g1, -⟩ | ⟨dir, size, off, e, -, g1⟩
      · exact ⟨_, g1⟩
      · exact ⟨_, g1⟩
    | false =>
      rw [hr, if_neg (by simp), hM.last] at h1
      cases h1
      have hv : Valid ⟨m.w.disk, R, fun i => (R i).nrefs⟩ B rq := by
        refine ⟨hq.1, hd hr, hret, fun n hn => ?_, fun i => ?_⟩
        · have h1 := hroom3 n hn
          refine ⟨by omega, fun p names e hp => ?_⟩
          have := hq.2 p names e hp
          omega
        · have h1 := hR.bound i
          simp only; omega
      have hdisp : ∀ {st}, dispatch B m.w.disk R rq = .ok st → ∃ st, handle B { disk := m.w.disk, refs := R } rq = .ok st := by
        intro st hst
        unfold dispatch at hst
        cases hh : handle B { disk := m.w.disk, refs := R } rq with
        | error e => rw [hh] at hst; cases hst
        | ok st => exact ⟨st, rfl⟩
      rcases dispatch_served (y := ⟨m.w.disk, R, fun i => (R i).nrefs⟩) hR.si (fun i => Nat.le_refl _) hv with ⟨s', d', r', rep', g1, g2, g3⟩ | ⟨dir, size, off, e, -, -, g1⟩
      · exact hdisp g1
      · exact hdisp g1
  obtain ⟨st, hst⟩ := hok
  rw [hseq] at hst
  have hrun : ∃ y, P.run ⟨d, R, none, []⟩ = .ok y := by
    cases hx : P.run ⟨d, R, none, []⟩ with
    | error e => rw [hx] at hst; cases hst
    | ok y => exact ⟨y, rfl⟩
  obtain ⟨y, hy⟩ := hrun
  exact ⟨t, f, x, y, h4, h5, h6, h7, h8, by rw [← h3]; exact hy⟩

/-- Transactions belong to the thread with their number. -/
theorem owner_thread {d0 : DB} {r0 : Refs} {n : Nat} {m : MSys} {L H vs R ds} (hs : Steps (MSys.start d0 r0 n) m) (hM : MInv d0 r0 m L H vs R ds) {j : Nat} {t : CTxn}
    (hj : m.w.txns j = some t) : t.thread = j ∧ ∃ st, m.th[j]? = some st ∧ st ≠ .idle := by
  cases hk : m.th[j]? with
  | none => rw [hs.noThread j hk] at hj; cases hj
  | some st =>
    have hth := hM.threads j st hk
    cases st with
    | idle => rw [show m.w.txns j = none from hth] at hj; cases hj
    | recv => rw [show m.w.txns j = none from hth] at hj; cases hj
    | answer => rw [show m.w.txns j = none from hth] at hj; cases hj
    | committed => obtain ⟨u, h1, h2, h3⟩ := hth; rw [hj] at h1; cases h1; exact ⟨h3, _, rfl, by simp⟩
    | left => obtain ⟨u, h1, h2, h3⟩ := hth; rw [hj] at h1; cases h1; exact ⟨h3, _, rfl, by simp⟩
    | run => obtain ⟨u, f, l, P, h1, h2, h3, -⟩ := hth; rw [hj] at h1; cases h1; exact ⟨h3, _, rfl, by simp⟩
    | leaving => obtain ⟨u, f, l, P, h1, h2, h3, -⟩ := hth; rw [hj] at h1; cases h1; exact ⟨h3, _, rfl, by simp⟩

/-- C59: no request makes the process fail or hang: a thread which has a request can make its next
step, or waits for a lock, or is about to reply twice to a `readdir`. So `release` does not release
too much, no loop runs forever, no assertion fails, no lock reports a deadlock. -/
theorem C59_lives_partial {m : MSys} (h : MReach m) {k : Nat} {st : TState} (hk : m.th[k]? = some st) (hn : st ≠ .idle) :
    (∃ m', Step m k m') ∨ Waits m k ∨ TwoReplies m k := by
  obtain ⟨d0, r0, n, L, H, vs, R, ds, s, hs, hM, hR⟩ := h.inv
  have hth := hM.threads k st hk
  cases st with
  | idle => exact absurd rfl hn
  | recv rq B =>
    cases hp : prog B (m.w.disk.treei.size + 4) rq with
    | none => exact .inl ⟨_, .direct hk hp⟩
    | some P =>
      have ht : m.w.txns k = none := hth
      cases hr : readOnly rq with
      | true =>
        refine .inl ⟨_, .begin_ hk hp (w' := m.w.set k (some ⟨k, [⟨{ db := m.w.disk, ro := true }, false⟩], false, false⟩)) (out := .unit (.ok ())) ?_⟩
        rw [hr, if_pos rfl]; simp only [CWorld.step, ht]
      | false =>
        cases hw : m.w.writer with
        | none =>
          refine .inl ⟨_, .begin_ hk hp (w' := { m.w.set k (some ⟨k, [⟨{ db := m.w.disk }, false⟩], true, false⟩) with writer := some k }) (out := .unit (.ok ())) ?_⟩
          rw [hr, if_neg (by simp)]; simp only [CWorld.step, ht, hw]; rfl
        | some j => exact .inr (.inl (.writer hk (by simp only [CWorld.step, ht, hw]; rfl)))
  | answer rq r => exact .inl ⟨_, .answer hk⟩
  | committed rq r =>
    obtain ⟨t, h1, h2, -⟩ := hth
    exact .inl ⟨_, .unlock hk (w' := { m.w.set k none with writer := if t.wr then none else m.w.writer, mutex := if t.tailM then none else m.w.mutex }) (out := .unit (.ok ()))
      (by simp only [CWorld.step, h1, CWorld.act, h2])⟩
  | left rq =>
    obtain ⟨t, h1, h2, -⟩ := hth
    exact .inl ⟨_, .finish hk (w' := { m.w.set k none with writer := if t.wr then none else m.w.writer, mutex := if t.tailM then none else m.w.mutex }) (out := .unit (.ok ()))
      (by simp only [CWorld.step, h1, CWorld.act, h2])⟩
  | leaving rq B v r =>
    obtain ⟨t, f, l, P, h1, h2, -⟩ := hth
    exact .inl ⟨_, .leave hk (w' := { m.w.set k (some { t with frames := [] }) with mutex := if f.mx then none else m.w.mutex }) (out := .unit (.ok ()))
      (by simp only [CWorld.step, h1, CWorld.act, h2])⟩
  | run rq B v p =>
    obtain ⟨t, f, x, y, h1, h2, h3, h4, h5, h6⟩ := runs_ok hM hR hk
    obtain ⟨_, _, _, P, _, _, _, _, _, g1, g2, _⟩ := hth
    have hfine := g2.fine (prog_fine g1)
    cases p with
    | stuck f => cases h6
    | done c reps =>
      rcases hfine.2 with ⟨r, rfl⟩ | ⟨hd, rfl, e, r, rfl⟩
      · cases c with
        | true =>
          exact .inl ⟨_, .commit hk (w' := { m.w.set k (some { t with frames := [], wr := false, tailM := f.mx }) with
              disk := if f.fr.ro then m.w.disk else f.fr.db, writer := if t.wr then none else m.w.writer }) (out := .unit (.ok ()))
            (by simp only [CWorld.step, h1, CWorld.act, h2])⟩
        | false => exact .inl ⟨_, .reply hk⟩
      · cases rq with
        | readdir i size off => exact .inr (.inr ⟨i, size, off, B, v, e, r, hk⟩)
        | _ => cases hd
    | op o c =>
      obtain ⟨x', out, hdo⟩ := run_ok_op h6
      have hro : (f.fr.ro && !o.isRO) = false := by
        rw [h4]
        cases hr : readOnly rq with
        | false => rfl
        | true => rw [hfine.1 hr]; rfl
      have good : ∀ {z o1} (mx : Bool), doOp (f.fr.txn m.w.refs) o = .ok (z, o1) → ∃ w', m.w.runOp k t f [] o mx = .done w' o1 := by
        intro z o1 mx hz; unfold CWorld.runOp; rw [hz]; exact ⟨_, rfl⟩
      have step : ∀ {w' o1}, m.w.step (.on k (.op o)) = .done w' o1 → (∃ m', Step m k m') ∨ Waits m k ∨ TwoReplies m k :=
        fun hst => .inl ⟨_, .call hk hst⟩
      have hstep : m.w.step (.on k (.op o)) = if asksRefs f.fr.db o then
          match m.w.acquire t with
          | .have_ => m.w.runOp k t f [] o false
          | .got => m.w.runOp k t f [] o true
          | .wait => .blocked
          | .deadlk => .deadlk
        else m.w.runOp k t f [] o false := by
        simp only [CWorld.step, h1, CWorld.act, h2, hro]; rfl
      by_cases ha : asksRefs f.fr.db o = true
      · rw [if_pos ha] at hstep
        cases hacq : m.w.acquire t with
        | wait => rw [hacq] at hstep; exact .inr (.inl (.mutex hk hstep))
        | deadlk =>
          exfalso
          unfold CWorld.acquire at hacq
          split at hacq
          · cases hacq
          · rename_i hany
            split at hacq
            · rename_i hown
              rw [h3] at hown
              unfold CWorld.owner at hown
              split at hown
              · cases hown
              · rename_i j hj
                cases htj : m.w.txns j with
                | none => rw [htj] at hown; cases hown
                | some u =>
                  rw [htj] at hown
                  simp only [Option.map_some, Option.some.injEq] at hown
                  rw [(owner_thread hs hM htj).1] at hown
                  subst hown
                  obtain ⟨u', hu', hmx⟩ := hM.ser.lock.mx' j hj
                  rw [h1] at hu'; cases hu'
                  unfold CTxn.hasMutex at hmx
                  rw [(hM.ser.holds h1 h2).2] at hmx
                  simp only [Bool.false_or] at hmx
                  exact hany hmx
            · split at hacq <;> cases hacq
        | got =>
          rw [hacq] at hstep
          have hnone : m.w.mutex = none := by
            unfold CWorld.acquire at hacq
            split at hacq
            · cases hacq
            · split at hacq
              · cases hacq
              · split at hacq
                · cases hacq
                · rename_i hh; simpa using hh
          rw [h5, hnone, if_neg (by simp), hM.ser.noMutex hnone] at hdo
          obtain ⟨w', hw'⟩ := good true hdo
          exact step (hstep.trans hw')
        | have_ =>
          rw [hacq] at hstep
          have hmk : m.w.mutex = some k := by
            unfold CWorld.acquire at hacq
            split at hacq
            · rename_i hany; exact hM.ser.lock.mx k t h1 (by unfold CTxn.hasMutex; rw [hany]; simp)
            · split at hacq
              · cases hacq
              · split at hacq <;> cases hacq
          rw [h5, if_pos hmk] at hdo
          obtain ⟨w', hw'⟩ := good false hdo
          exact step (hstep.trans hw')
      · rw [if_neg ha] at hstep
        have ha' : asksRefs f.fr.db o = false := by simpa using ha
        have := (doOp_norefs (t := f.fr.txn (if m.w.mutex = some k then m.w.refs else R)) ha' m.w.refs).1
        rw [← h5, hdo] at this
        have e : ({ x with refs := m.w.refs } : Txn) = f.fr.txn m.w.refs := by rw [h5]; rfl
        rw [e] at this
        obtain ⟨w', hw'⟩ := good false this
        exact step (hstep.trans hw')

/-- C59: the thread which has the mutex of the reference table does not wait. -/
theorem C59_mutex {m : MSys} (h : MReach m) {k : Nat} (hm : m.w.mutex = some k) : ¬ Waits m k := by
  obtain ⟨d0, r0, n, L, H, vs, R, ds, s, hs, hM, hR⟩ := h.inv
  obtain ⟨t, ht, hmx⟩ := hM.ser.lock.mx' k hm
  intro hw
  cases hw with
  | writer hk => rw [show m.w.txns k = none from hM.threads k _ hk] at ht; cases ht
  | @mutex rq B v o c hk hb =>
    obtain ⟨u, f, l, P, h1, h2, -⟩ := hM.threads k _ hk
    rw [ht] at h1; cases h1
    have hany : t.frames.any (·.mx) = true := by
      unfold CTxn.hasMutex at hmx
      rw [(hM.ser.holds ht h2).2] at hmx
      simpa using hmx
    have hacq : m.w.acquire t = .have_ := by unfold CWorld.acquire; rw [if_pos hany]
    simp only [CWorld.step, ht, CWorld.act, h2] at hb
    have nb : ∀ mx, m.w.runOp k t f [] o mx ≠ .blocked := by
      intro mx hh; unfold CWorld.runOp at hh; split at hh <;> cases hh
    split at hb
    · cases hb
    · split at hb
      · rw [hacq] at hb; exact nb _ hb
      · exact nb _ hb

/-- C59: no deadlock: as long as there are requests, some thread can go on. -/
theorem C59_progress_partial {m : MSys} (h : MReach m) {k : Nat} {st : TState} (hk : m.th[k]? = some st) (hn : st ≠ .idle) :
    ∃ j st', m.th[j]? = some st' ∧ st' ≠ .idle ∧ ((∃ m', Step m j m') ∨ TwoReplies m j) := by
  obtain ⟨d0, r0, n, L, H, vs, R, ds, s, hs, hM, hR⟩ := h.inv
  have mutexCase : ∀ {i rq B v o c}, m.th[i]? = some (.run rq B v (.op o c)) → m.w.step (.on i (.op o)) = .blocked →
      ∃ j st', m.th[j]? = some st' ∧ st' ≠ .idle ∧ ((∃ m', Step m j m') ∨ TwoReplies m j) := by
    intro i rq B v o c hi hb
    have hmx : ∃ j, m.w.mutex = some j := by
      cases hm : m.w.mutex with
      | some j => exact ⟨j, rfl⟩
      | none =>
        exfalso
        obtain ⟨u, f, l, P, h1, h2, -⟩ := hM.threads i _ hi
        have nb : ∀ mx, m.w.runOp i u f [] o mx ≠ .blocked := by
          intro mx hh; unfold CWorld.runOp at hh; split at hh <;> cases hh
        simp only [CWorld.step, h1, CWorld.act, h2] at hb
        split at hb
        · cases hb
        · split at hb
          · cases hacq : m.w.acquire u with
            | wait =>
              unfold CWorld.acquire at hacq
              split at hacq
              · cases hacq
              · split at hacq
                · cases hacq
                · rw [hm] at hacq; cases hacq
            | have_ => rw [hacq] at hb; exact nb _ hb
            | got => rw [hacq] at hb; exact nb _ hb
            | deadlk => rw [hacq] at hb; cases hb
          · exact nb _ hb
    obtain ⟨j, hj⟩ := hmx
    obtain ⟨t, ht, -⟩ := hM.ser.lock.mx' j hj
    obtain ⟨-, st', g1, g2⟩ := owner_thread hs hM ht
    rcases C59_lives_partial h g1 g2 with h1 | h1 | h1
    · exact ⟨j, st', g1, g2, .inl h1⟩
    · exact absurd h1 (C59_mutex h hj)
    · exact ⟨j, st', g1, g2, .inr h1⟩
  rcases C59_lives_partial h hk hn with h1 | h1 | h1
  · exact ⟨k, st, hk, hn, .inl h1⟩
  · cases h1 with
    | @writer rq B hk' hb =>
      have hwr : ∃ j, m.w.writer = some j := by
        cases hw : m.w.writer with
        | some j => exact ⟨j, rfl⟩
        | none =>
          have ht : m.w.txns k = none := hM.threads k _ hk'
          simp only [CWorld.step, ht, hw] at hb; cases hb
      obtain ⟨j, hj⟩ := hwr
      obtain ⟨t, ht, -⟩ := hM.ser.lock.wr' j hj
      obtain ⟨-, st', g1, g2⟩ := owner_thread hs hM ht
      rcases C59_lives_partial h g1 g2 with h1 | h1 | h1
      · exact ⟨j, st', g1, g2, .inl h1⟩
      · cases h1 with
        | writer hk'' => rw [show m.w.txns j = none from hM.threads j _ hk''] at ht; cases ht
        | mutex hk'' hb' => exact mutexCase hk'' hb'
      · exact ⟨j, st', g1, g2, .inr h1⟩
    | mutex hk' hb => exact mutexCase hk' hb
  · exact ⟨k, st, hk, hn, .inr h1⟩

/-- Thread `k` goes from one state to another by a step of its own, while it has a request. -/
def Own (k : Nat) (st' st : TState) : Prop := ∃ m m', Step m k m' ∧ m.th[k]? = some st ∧ m'.th[k]? = some st' ∧ st ≠ .idle

/-- C59: a request ends after finitely many steps of its thread: there is no infinite sequence of steps
of one thread for one request. -/
theorem C59_finite (k : Nat) (st : TState) : Acc (Own k) st := by
  have set : ∀ {m : MSys} {x y z : TState}, m.th[k]? = some x → (m.th.set k y)[k]? = some z → z = y := by
    intro m x y z h1 h2
    rw [List.getElem?_set, if_pos rfl] at h2
    split at h2
    · cases h2; rfl
    · cases h2
  have idle : Acc (Own k) .idle := ⟨_, fun st' ⟨_, _, _, _, _, h⟩ => absurd rfl h⟩
  have from_ : ∀ st, (∀ m m' st', Step m k m' → m.th[k]? = some st → m'.th[k]? = some st' → Acc (Own k) st') → Acc (Own k) st :=
    fun st h => ⟨_, fun st' ⟨m, m', h1, h2, h3, _⟩ => h m m' st' h1 h2 h3⟩
  have left : ∀ rq, Acc (Own k) (.left rq) := fun rq => from_ _ fun m m' st' h1 h2 h3 => by
    cases h1 with
    | finish hk => obtain rfl := set hk h3; exact idle
    | issue hk => rw [hk] at h2; cases h2
    | direct hk => rw [hk] at h2; cases h2
    | begin_ hk => rw [hk] at h2; cases h2
    | call hk => rw [hk] at h2; cases h2
    | commit hk => rw [hk] at h2; cases h2
    | unlock hk => rw [hk] at h2; cases h2
    | answer hk => rw [hk] at h2; cases h2
    | reply hk => rw [hk] at h2; cases h2
    | leave hk => rw [hk] at h2; cases h2
  have leaving : ∀ rq B v r, Acc (Own k) (.leaving rq B v r) := fun rq B v r => from_ _ fun m m' st' h1 h2 h3 => by
    cases h1 with
    | leave hk => obtain rfl := set hk h3; exact left _
    | issue hk => rw [hk] at h2; cases h2
    | direct hk => rw [hk] at h2; cases h2
    | begin_ hk => rw [hk] at h2; cases h2
    | call hk => rw [hk] at h2; cases h2
    | commit hk => rw [hk] at h2; cases h2
    | unlock hk => rw [hk] at h2; cases h2
    | answer hk => rw [hk] at h2; cases h2
    | reply hk => rw [hk] at h2; cases h2
    | finish hk => rw [hk] at h2; cases h2
  have answer : ∀ rq r, Acc (Own k) (.answer rq r) := fun rq r => from_ _ fun m m' st' h1 h2 h3 => by
    cases h1 with
    | answer hk => obtain rfl := set hk h3; exact idle
    | issue hk => rw [hk] at h2; cases h2
    | direct hk => rw [hk] at h2; cases h2
    | begin_ hk => rw [hk] at h2; cases h2
    | call hk => rw [hk] at h2; cases h2
    | commit hk => rw [hk] at h2; cases h2
    | unlock hk => rw [hk] at h2; cases h2
    | leave hk => rw [hk] at h2; cases h2
    | reply hk => rw [hk] at h2; cases h2
    | finish hk => rw [hk] at h2; cases h2
  have committed : ∀ rq r, Acc (Own k) (.committed rq r) := fun rq r => from_ _ fun m m' st' h1 h2 h3 => by
    cases h1 with
    | unlock hk => obtain rfl := set hk h3; exact answer _ _
    | issue hk => rw [hk] at h2; cases h2
    | direct hk => rw [hk] at h2; cases h2
    | begin_ hk => rw [hk] at h2; cases h2
    | call hk => rw [hk] at h2; cases h2
    | commit hk => rw [hk] at h2; cases h2
    | answer hk => rw [hk] at h2; cases h2
    | leave hk => rw [hk] at h2; cases h2
    | reply hk => rw [hk] at h2; cases h2
    | finish hk => rw [hk] at h2; cases h2
  have run : ∀ p rq B v, Acc (Own k) (.run rq B v p) := by
    intro p
    induction p with
    | op o c ih =>
        intro rq B v
        refine from_ _ (fun m m' st' h1 h2 h3 => ?_)
        cases h1 with
        | call hk =>
          obtain rfl := set hk h3
          rw [hk] at h2; cases h2; exact ih _ _ _ _
        | issue hk => rw [hk] at h2; cases h2
        | direct hk => rw [hk] at h2; cases h2
        | begin_ hk => rw [hk] at h2; cases h2
        | commit hk => rw [hk] at h2; cases h2
        | unlock hk => rw [hk] at h2; cases h2
        | answer hk => rw [hk] at h2; cases h2
        | leave hk => rw [hk] at h2; cases h2
        | reply hk => rw [hk] at h2; cases h2
        | finish hk => rw [hk] at h2; cases h2
    | done c reps =>
        intro rq B v
        refine from_ _ (fun m m' st' h1 h2 h3 => ?_)
        cases h1 with
        | commit hk => obtain rfl := set hk h3; exact committed _ _
        | reply hk => obtain rfl := set hk h3; exact leaving _ _ _ _
        | issue hk => rw [hk] at h2; cases h2
        | direct hk => rw [hk] at h2; cases h2
        | begin_ hk => rw [hk] at h2; cases h2
        | call hk => rw [hk] at h2; cases h2
        | unlock hk => rw [hk] at h2; cases h2
        | answer hk => rw [hk] at h2; cases h2
        | leave hk => rw [hk] at h2; cases h2
        | finish hk => rw [hk] at h2; cases h2
    | stuck f =>
        intro rq B v
        refine from_ _ (fun m m' st' h1 h2 h3 => ?_)
        cases h1 with
        | commit hk => rw [hk] at h2; cases h2
        | reply hk => rw [hk] at h2; cases h2
        | issue hk => rw [hk] at h2; cases h2
        | direct hk => rw [hk] at h2; cases h2
        | begin_ hk => rw [hk] at h2; cases h2
        | call hk => rw [hk] at h2; cases h2
        | unlock hk => rw [hk] at h2; cases h2
        | answer hk => rw [hk] at h2; cases h2
        | leave hk => rw [hk] at h2; cases h2
        | finish hk => rw [hk] at h2; cases h2
  cases st with
  | idle => exact idle
  | left => exact left _
  | leaving => exact leaving _ _ _ _
  | answer => exact answer _ _
  | committed => exact committed _ _
  | run => exact run _ _ _ _
  | recv =>
      refine from_ _ (fun m m' st' h1 h2 h3 => ?_)
      cases h1 with
      | direct hk => obtain rfl := set hk h3; exact idle
      | begin_ hk => obtain rfl := set hk h3; exact run _ _ _ _
      | commit hk => rw [hk] at h2; cases h2
      | reply hk => rw [hk] at h2; cases h2
      | issue hk => rw [hk] at h2; cases h2
      | call hk => rw [hk] at h2; cases h2
      | unlock hk => rw [hk] at h2; cases h2
      | answer hk => rw [hk] at h2; cases h2
      | leave hk => rw [hk] at h2; cases h2
      | finish hk => rw [hk] at h2; cases h2

/-- The hypotheses of `C59_lives_partial`, `C59_mutex` and `C59_progress_partial`: two lookups at the same time, of which the second
one waits for the first one's write transaction (`C59_finite` has no hypotheses). -/
example : ∃ m, MReach m ∧ (match m.w.step (.beginRW 1 1) with | .blocked => true | _ => false) = true ∧ m.w.mutex = some 0 :=
  demoMT_ex (n := 2) (l := [.issue 0 tblA (.lookup 1 [0x61]), .issue 1 tblA (.lookup 1 [0x6c]), .go 0, .go 0, .go 0]) (by decide +kernel)

end Dragonstash.MT
