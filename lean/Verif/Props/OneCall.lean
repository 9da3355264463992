/-
  C64: the functions of `Cache` which run in a transaction of their own.
-/
import Verif.Cache.OneCall
import Verif.Props.CacheTxn
namespace Dragonstash.Cache
open Codec

/-- What callers have to respect (see `Allowed`): inode numbers are 64 bit numbers, `emplace` gets a valid
inode number as parent and there are inode numbers left, lock counts do not exceed 64 bits. -/
def FnAllowed (w : World) : Fn → Prop
  | .emplace p _ _ => p < W64 ∧ p ≠ 0 ∧ ∀ n, w.disk.next = some n → n + 1 < W64
  | .lock i => i < W64 ∧ w.locks i + 1 < W64
  | .name i | .parent i | .getattr i | .readlink i | .path i | .release i => i < W64
  | .lookup p _ => p < W64
  | .writelink i _ => i < W64

/-- The cache is open and nobody has a transaction. -/
def Idle (w : World) : Prop := w.phase = .up ∧ w.stack = []

/-- The world in which the write transaction of a call has just begun. -/
def World.begun (w : World) : World := { w with stack := [{ db := w.disk }] }

theorem begun_step {w : World} (hi : Idle w) : w.step .beginRW = .ok (w.begun, .unit (.ok ())) := by
  simp [World.step, hi.1, hi.2, World.begun]

theorem begun_reach {w : World} (h : Reach w) (hi : Idle w) : Reach w.begun :=
  .step (c := .beginRW) h trivial (begun_step hi)

theorem begun_allowed {w : World} {f : Fn} (ha : FnAllowed w f) : Allowed w.begun (.op f.op) := by
  cases f <;> simp [FnAllowed, Allowed, Fn.op, Op.inRange, World.begun, World.locks] at ha ⊢ <;> first | exact ha | skip
  all_goals first | (refine ⟨ha, ?_⟩; decide) | skip

/-- C64, reading: the functions answer from the committed contents, and change nothing. -/
theorem C64_reads {w : World} (hi : Idle w) :
    (∀ i, w.call (.name i) = .ok (w, .bytes (name w.disk i))) ∧
    (∀ i, w.call (.parent i) = .ok (w, .ino (parent w.disk i))) ∧
    (∀ p n, w.call (.lookup p n) = (lookup w.disk p n).map (fun r => (w, .ino r))) ∧
    (∀ i, w.call (.getattr i) = .ok (w, .attr (getattr w.disk i))) ∧
    (∀ i, w.call (.readlink i) = .ok (w, .bytes (readlink w.disk i))) ∧
    (∀ i, w.call (.path i) = (path w.disk i).map (fun r => (w, .bytes r))) := by
  obtain ⟨p, d, r, st⟩ := w
  obtain ⟨hp, hs⟩ := hi
  simp only at hp hs
  subst hp; subst hs
  refine ⟨fun i => ?_, fun i => ?_, fun p n => ?_, fun i => ?_, fun i => ?_, fun i => ?_⟩ <;>
    simp only [World.call, Fn.writes, Fn.op, withRO, World.step, Bool.false_eq_true, if_false, and_self, if_true, Op.isRO, Frame.txn,
      Bool.not_true, Bool.and_false, doOp, bind_ok, pure_eq_ok]
  · cases lookup d p n <;> rfl
  · cases path d i <;> rfl

/-- C64, failure: a call which returns an error leaves everything as it was: the contents on disk,
the lock counts, and which inodes cannot be locked any more. -/
theorem C64_failed {w w' : World} (h : Reach w) (hi : Idle w) {f : Fn} (ha : FnAllowed w f) {out : Out}
    (hc : w.call f = .ok (w', out)) (he : out.isErr = true) : w' = w := by
  by_cases hw : f.writes = true
  · unfold World.call at hc
    rw [if_pos hw] at hc
    unfold withRW at hc
    rw [begun_step hi] at hc
    simp only [bind_ok] at hc
    cases hs : w.begun.step (.op f.op) with
    | error e => rw [hs] at hc; cases hc
    | ok v =>
      obtain ⟨w2, out'⟩ := v
      rw [hs] at hc
      simp only [bind_ok] at hc
      have key : out'.isErr = true → w2 = w.begun := by
        intro he'
        obtain ⟨s, t, t', o1⟩ := (begun_reach h hi).op (begun_allowed ha) hs
        have ht : ∃ t', doOp (Frame.txn { db := w.disk } w.refs) f.op = .ok (t', out') ∧ w2 = { w with refs := t'.refs, stack := [⟨t'.db, t'.rewrite, t'.hooks, false⟩] } := by
          simp only [World.step, World.begun, Bool.false_and, Bool.false_eq_true, if_false] at hs
          cases hd : doOp (Frame.txn { db := w.disk } w.refs) f.op with
          | error e => rw [hd] at hs; cases hs
          | ok v => obtain ⟨t', o'⟩ := v; rw [hd] at hs; cases hs; exact ⟨t', rfl, rfl⟩
        obtain ⟨t2, ht2, rfl⟩ := ht
        suffices t2 = Frame.txn { db := w.disk } w.refs by subst this; rfl
        generalize hT : Frame.txn { db := w.disk } w.refs = T at ht2 ⊢
        have hrep : TRep s T := by
          have e1 := o1.trep; rw [← hT]
          refine ⟨?_, e1.2⟩
          have := e1.1; rw [o1.db] at this; exact this
        cases f with
        | emplace p n a =>
          obtain ⟨hp, hp0, hnx⟩ := ha
          have hnext : s.next + 1 < W64 := (o1.emp p n a rfl).2
          simp only [Fn.op, doOp] at ht2
          rcases emplace_cases hrep (n := n) (a := a) hp hp0 hnext with ⟨-, e⟩ | ⟨-, i, nd, t', -, -, -, e, -⟩ | ⟨-, s1, s', t', -, e, -⟩
          · rw [e] at ht2; simp only [bind_ok, pure_eq_ok] at ht2; cases ht2; rfl
          · rw [e] at ht2; simp only [bind_ok, pure_eq_ok] at ht2; cases ht2; cases he'
          · rw [e] at ht2; simp only [bind_ok, pure_eq_ok] at ht2; cases ht2; cases he'
        | lock i =>
          simp only [Fn.op, doOp] at ht2
          cases ht2
          unfold lock at he' ⊢
          split
          · rfl
          · rename_i hx; rw [hx] at he'; cases he'
        | release i =>
          simp only [Fn.op, doOp] at ht2
          cases hr : release T i 1 with
          | error e => rw [hr] at ht2; cases ht2
          | ok v =>
            obtain ⟨t', r⟩ := v
            rw [hr] at ht2; simp only [bind_ok, pure_eq_ok] at ht2; cases ht2
            unfold release at hr
            rw [if_neg (by decide)] at hr
            cases hd : T.refs.decref i 1 with
            | error e => rw [hd] at hr; cases hr
            | ok v =>
              obtain ⟨r', k⟩ := v
              rw [hd] at hr
              cases k with
              | error e => cases hr
              | ok k => cases hr; cases he'
        | writelink i dest =>
          simp only [Fn.op, doOp] at ht2
          cases ht2
          unfold writelink at he' ⊢
          split
          · rfl
          · rename_i nd hx
            rw [hx] at he'
            simp only at he'
            split
            · rfl
            · rename_i hx'; rw [if_neg hx'] at he'; cases he'
        | _ => cases hw
      cases ho : out'.isErr with
      | true =>
        rw [ho] at hc
        have e := key ho
        subst e
        simp only [if_true, World.step, World.begun, undoAll, List.reverse_nil, bind_ok, pure_eq_ok] at hc
        cases hc
        obtain ⟨p, d, r, st⟩ := w
        have := hi.2; simp only at this; subst this; rfl
      | false =>
        rw [ho] at hc
        simp only [Bool.false_eq_true, if_false] at hc
        cases h3 : w2.step (.op .clean) with
        | error e => rw [h3] at hc; cases hc
        | ok v =>
          obtain ⟨w3, o3⟩ := v
          rw [h3] at hc; simp only [bind_ok] at hc
          cases h4 : w3.step .commit with
          | error e => rw [h4] at hc; cases hc
          | ok v =>
            obtain ⟨w4, o4⟩ := v
            rw [h4] at hc; simp only [bind_ok, pure_eq_ok] at hc; cases hc
            rw [ho] at he; cases he
  · obtain ⟨r1, r2, r3, r4, r5, r6⟩ := C64_reads hi
    cases f with
    | name i => rw [r1] at hc; cases hc; rfl
    | parent i => rw [r2] at hc; cases hc; rfl
    | lookup p n => rw [r3] at hc; cases hl : lookup w.disk p n <;> rw [hl] at hc <;> cases hc; rfl
    | getattr i => rw [r4] at hc; cases hc; rfl
    | readlink i => rw [r5] at hc; cases hc; rfl
    | path i => rw [r6] at hc; cases hl : path w.disk i <;> rw [hl] at hc <;> cases hc; rfl
    | _ => exact absurd rfl hw

/-- The state which the transaction of a call sees after the function has done its work, before the
garbage is collected. -/
def Inner (w : World) (f : Fn) (out : Out) (w2 : World) : Prop := w.begun.step (.op f.op) = .ok (w2, out)

/-- C64, success: the effect of the function is committed, and the garbage is collected; no garbage is
left, and the lock counts are those after the function. -/
theorem C64_done {w w' : World} (h : Reach w) (hi : Idle w) {f : Fn} (hw : f.writes = true) (ha : FnAllowed w f) {out : Out}
    (hc : w.call f = .ok (w', out)) (he : out.isErr = false) :
    Reach w' ∧ Idle w' ∧ (∀ i, i < W64 → ¬ Garbage w'.disk w'.locks i) ∧
    ∃ w2, Inner w f out w2 ∧ CollectedObs w2.db w2.locks w'.disk ∧ w'.locks = w2.locks := by
  unfold World.call at hc
  rw [if_pos hw] at hc
  unfold withRW at hc
  rw [begun_step hi] at hc
  simp only [bind_ok] at hc
  cases hs : w.begun.step (.op f.op) with
  | error e => rw [hs] at hc; cases hc
  | ok v =>
    obtain ⟨w2, out'⟩ := v
    rw [hs] at hc
    simp only [bind_ok] at hc
    cases ho : out'.isErr with
    | true =>
      rw [ho] at hc
      simp only [if_true] at hc
      cases h3 : w2.step .abort with
      | error e => rw [h3] at hc; cases hc
      | ok v => rw [h3] at hc; simp only [bind_ok, pure_eq_ok] at hc; cases hc; rw [he] at ho; cases ho
    | false =>
      rw [ho] at hc
      simp only [Bool.false_eq_true, if_false] at hc
      have hr2 : Reach w2 := .step (begun_reach h hi) (begun_allowed ha) hs
      have hst : ∃ fr, w2.stack = [fr] ∧ fr.ro = false ∧ w2.phase = w.phase := by
        simp only [World.step, World.begun, Bool.false_and, Bool.false_eq_true, if_false] at hs
        cases hd : doOp (Frame.txn { db := w.disk } w.refs) f.op with
        | error e => rw [hd] at hs; cases hs
        | ok v => obtain ⟨t', o'⟩ := v; rw [hd] at hs; cases hs; exact ⟨_, rfl, rfl, rfl⟩
      obtain ⟨fr, hst, hro, hph⟩ := hst
      obtain ⟨w3, h3, h4, h5, h6⟩ := C26_clean hr2 hst hro
      have hst3 : ∃ fr3, w3.stack = [fr3] ∧ fr3.ro = false ∧ w3.phase = w2.phase := by
        have h3' := h3
        simp only [World.step, hst, hro, Bool.false_and, Bool.false_eq_true, if_false] at h3'
        cases hd : doOp (fr.txn w2.refs) .clean with
        | error e => rw [hd] at h3'; cases h3'
        | ok v => obtain ⟨t', o'⟩ := v; rw [hd] at h3'; cases h3'; exact ⟨_, rfl, rfl, rfl⟩
      obtain ⟨fr3, hst3, hro3, hph3⟩ := hst3
      have hc4 : w3.step .commit = .ok ({ w3 with disk := fr3.db, stack := [] }, .unit (.ok ())) := by
        simp [World.step, hst3, hro3]
      rw [h3] at hc
      simp only [bind_ok, hc4, pure_eq_ok] at hc
      cases hc
      have hdb : w3.db = fr3.db := by simp [World.db, hst3]
      rw [hdb] at h4 h5
      refine ⟨.step (c := .commit) (.step (c := .op .clean) hr2 ⟨trivial, fun _ _ _ => trivial⟩ h3) trivial hc4, ⟨?_, rfl⟩, h5, w2, hs, h4, h6⟩
      show w3.phase = .up
      rw [hph3, hph]; exact hi.1

theorem lock_inv {T t' : Txn} {i : Ino} {out : Out} (hlt : (T.refs i).nrefs + 1 < W64) (hd : doOp T (Fn.lock i).op = .ok (t', out)) (he : out.isErr = false) :
    t'.db = T.db ∧ ∀ j, (t'.refs j).nrefs = if j = i then (T.refs i).nrefs + 1 else (T.refs j).nrefs := by
  simp only [Fn.op, doOp, lock, Refs.incref] at hd
  by_cases h : (T.refs i).doomed = true
  · rw [if_pos h] at hd; cases hd; cases he
  · rw [if_neg h] at hd; cases hd
    refine ⟨rfl, fun j => ?_⟩
    simp only [Refs.set]
    split
    · subst_vars; exact Nat.mod_eq_of_lt hlt
    · rfl

theorem release_inv {T t' : Txn} {i : Ino} {out : Out} (hd : doOp T (Fn.release i).op = .ok (t', out)) :
    t'.db = T.db ∧ 0 < (T.refs i).nrefs ∧ out = .unit (.ok ()) ∧ ∀ j, (t'.refs j).nrefs = if j = i then (T.refs i).nrefs - 1 else (T.refs j).nrefs := by
  simp only [Fn.op, doOp, release, Refs.decref] at hd
  rw [if_neg (by decide), if_neg (by decide)] at hd
  by_cases h : (T.refs i).nrefs < 1
  · rw [if_pos h] at hd; cases hd
  · rw [if_neg h] at hd; cases hd
    refine ⟨rfl, by omega, rfl, fun j => ?_⟩
    simp only [Refs.set]
    split
    · subst_vars; rfl
    · rfl

/-- The function of the transaction returned what the call returned. -/
theorem call_op {w w' : World} (hi : Idle w) {f : Fn} (hw : f.writes = true) {out : Out} (hc : w.call f = .ok (w', out)) :
    ∃ t', doOp (Frame.txn { db := w.disk } w.refs) f.op = .ok (t', out) := by
  unfold World.call at hc
  rw [if_pos hw] at hc
  simp only [withRW, begun_step hi, bind_ok] at hc
  cases hs : w.begun.step (.op f.op) with
  | error e => rw [hs] at hc; cases hc
  | ok v =>
    obtain ⟨w2, o2⟩ := v
    rw [hs] at hc
    simp only [bind_ok] at hc
    have : o2 = out := by
      split at hc
      · cases h3 : w2.step .abort with
        | error e => rw [h3] at hc; cases hc
        | ok v => rw [h3] at hc; simp only [bind_ok, pure_eq_ok] at hc; cases hc; rfl
      · cases h3 : w2.step (.op .clean) with
        | error e => rw [h3] at hc; cases hc
        | ok v =>
          rw [h3] at hc; simp only [bind_ok] at hc
          cases h4 : v.1.step .commit with
          | error e => rw [h4] at hc; cases hc
          | ok v => rw [h4] at hc; simp only [bind_ok, pure_eq_ok] at hc; cases hc; rfl
    subst this
    simp only [World.step, World.begun, Bool.false_and, Bool.false_eq_true, if_false] at hs
    cases hd : doOp (Frame.txn { db := w.disk } w.refs) f.op with
    | error e => rw [hd] at hs; cases hs
    | ok v => obtain ⟨t', o'⟩ := v; rw [hd] at hs; cases hs; exact ⟨t', rfl⟩

/-- C64: `lock` and `release` change the count of one inode by one, and nothing else except that
the garbage (with the new counts) is removed. So giving back the last lock of an unlinked inode removes
it (`C64_last_release`). -/
theorem C64_locks {w w' : World} (h : Reach w) (hi : Idle w) {f : Fn} {i : Ino} (hf : f = .lock i ∨ f = .release i) (ha : FnAllowed w f) {out : Out}
    (hc : w.call f = .ok (w', out)) (he : out.isErr = false) :
    CollectedObs w.disk w'.locks w'.disk ∧ (∀ j, j ≠ i → w'.locks j = w.locks j) ∧
    (f = .lock i → w'.locks i = w.locks i + 1) ∧ (f = .release i → w'.locks i + 1 = w.locks i) := by
  have hw : f.writes = true := by rcases hf with rfl | rfl <;> rfl
  obtain ⟨-, -, -, w2, h2, h3, h4⟩ := C64_done h hi hw ha hc he
  unfold Inner at h2
  have hd2 : ∃ t', doOp (Frame.txn { db := w.disk } w.refs) f.op = .ok (t', out) ∧ w2.db = t'.db ∧ w2.refs = t'.refs := by
    simp only [World.step, World.begun, Bool.false_and, Bool.false_eq_true, if_false] at h2
    cases hd : doOp (Frame.txn { db := w.disk } w.refs) f.op with
    | error e => rw [hd] at h2; cases h2
    | ok v => obtain ⟨t', o'⟩ := v; rw [hd] at h2; cases h2; exact ⟨t', rfl, rfl, rfl⟩
  obtain ⟨t', e1, e2, e3⟩ := hd2
  have hl : ∀ j, w'.locks j = (t'.refs j).nrefs := by intro j; rw [h4]; unfold World.locks; rw [e3]
  rw [← h4] at h3
  rcases hf with rfl | rfl
  · obtain ⟨g1, g2⟩ := lock_inv (T := Frame.txn { db := w.disk } w.refs) ha.2 e1 he
    rw [e2, g1] at h3
    refine ⟨h3, fun j hj => ?_, fun _ => ?_, fun hf => by cases hf⟩
    · rw [hl, g2, if_neg hj]; rfl
    · rw [hl, g2, if_pos rfl]; rfl
  · obtain ⟨g1, g0, -, g2⟩ := release_inv (T := Frame.txn { db := w.disk } w.refs) e1
    rw [e2, g1] at h3
    refine ⟨h3, fun j hj => ?_, fun hf => (by cases hf), fun _ => ?_⟩
    · rw [hl, g2, if_neg hj]; rfl
    · rw [hl, g2, if_pos rfl]
      show (w.refs i).nrefs - 1 + 1 = (w.refs i).nrefs
      have : 0 < (w.refs i).nrefs := g0
      omega

/-- C64: giving back the last lock of an unlinked inode removes it. -/
theorem C64_last_release {w w' : World} (h : Reach w) (hi : Idle w) {i : Ino} (hb : i < W64) (h1 : i ≠ 1) (ho : parent w.disk i = .ok 0)
    (hl : w.locks i = 1) {out : Out} (hc : w.call (.release i) = .ok (w', out)) : Missing w'.disk i := by
  obtain ⟨t', ht⟩ := call_op hi rfl hc
  obtain ⟨-, -, rfl, -⟩ := release_inv ht
  obtain ⟨h2, h3, -, h4⟩ := C64_locks h hi (.inr rfl) hb hc rfl
  rw [h2.removed i hb]
  have : Missing w.disk i ∨ ¬ Missing w.disk i := Classical.em _
  rcases this with hm | hm
  · exact .inl hm
  · right
    obtain ⟨s, r1, ok⟩ := h.inv.view (d := w.disk) (.inl ⟨hi.1, rfl⟩)
    rw [r1.missing ok hb] at hm
    cases hn : s.nodes i with
    | none => exact absurd hn hm
    | some nd =>
      refine .orphan (x := (i, nd.attr)) ?_ h1 ho (by have := h4 rfl; omega)
      rw [r1.getattr ok hb, hn]

theorem PathTo.set {s : Tree} {i : Ino} {nd nd' : Node} (h1 : s.nodes i = some nd) (h2 : nd'.loc = nd.loc) {j cs} (h : s.PathTo j cs) :
    (s.set i nd').PathTo j cs := by
  induction h with
  | root => exact .root
  | child hat _ ih => exact .child ((at_set h1 h2).mpr hat) ih

/-- Lock counts are left alone by the other functions. -/
theorem keeps_locks {s : Tree} {T t' : Txn} {o : Op} {out : Out} {s' : Tree} (sh : Shape s T o out s' t')
    (ho : (∃ p n a, o = .emplace p n a) ∨ ∃ i d, o = .writelink i d) : ∀ j, (t'.refs j).nrefs = (T.refs j).nrefs := by
  rcases ho with ⟨p, n, a, rfl⟩ | ⟨i, d, rfl⟩
  · cases sh with
    | same _ h => intro j; rw [h]
    | put _ _ _ h => intro j; rw [h]
    | new _ _ h => exact fun j => (h.refs j).1
    | replace _ _ _ _ h => exact fun j => (h.refs j).1
  · cases sh with
    | same _ h => intro j; rw [h]
    | link _ _ h => intro j; rw [h]

/-- C64: after `emplace` returned `i`, the entry is on disk with these attributes, without flags, if the
directory can be reached from the root or is locked; the lock counts are as before. -/
theorem C64_emplace {w w' : World} (h : Reach w) (hi : Idle w) {p : Ino} {n : Bytes} {a : Attrs} {i : Ino} (ha : FnAllowed w (.emplace p n a))
    (hc : w.call (.emplace p n a) = .ok (w', .ino (.ok i))) (hs : Safe w p) :
    lookup w'.disk p n = .ok (.ok i) ∧ getattr w'.disk i = .ok (i, a) ∧ (∀ f, testFlag w'.disk i f = .ok (hasFlag 0 f)) ∧ w'.locks = w.locks := by
  obtain ⟨-, -, -, w2, h2, h3, h4⟩ := C64_done h hi rfl ha hc rfl
  have hr := begun_reach h hi
  have hal := begun_allowed ha
  have hdb : w.begun.db = w.disk := rfl
  have hs' : Safe w.begun p := by
    rcases hs with ⟨b, hb⟩ | hl
    · left; refine ⟨b, ?_⟩; rw [hdb]; have : w.db = w.disk := by simp [World.db, hi.2]
      rw [← this]; exact hb
    · exact .inr hl
  have e1 := C18_emplace_partial hr hal hs' h2
  obtain ⟨e2, e3, -⟩ := C19_attributes hr hal hs' h2
  obtain ⟨s, t, s', t', r1, ok, r1', ok', sh, hrf, hrf', o1⟩ := hr.op' hal h2
  have hp : p < W64 := ha.1
  have hlk : w2.locks = w.locks := by
    funext j
    unfold World.locks
    rw [hrf', keeps_locks sh (.inl ⟨_, _, _, rfl⟩) j, hrf]; rfl
  have hsafe := r1.safe ok hp hs'
  -- the directory is still reachable or locked
  have hnp : ¬ Gone s' (locked w2.refs) p := by
    rcases hsafe with hcn | hl
    · refine Conn.not_gone ok' ?_
      rcases sh.emplace_inv with ⟨nd, g1, g2, -, -, rfl⟩ | ⟨gn, -, g1, g2⟩ | ⟨gn, -, j, nd, g1, g2, -, g3⟩
      · obtain ⟨cs, hcs⟩ := hcn
        exact ⟨cs, PathTo.set g1 (by rfl) hcs⟩
      · obtain ⟨cs, hcs⟩ := Conn.add ok (n := n) (a := a) (p := p) hcn
        exact ⟨cs, PathTo.collected (OK.addNode ok (Nat.pos_of_ne_zero ha.2.1) hp gn (o1.emp _ _ _ rfl).2 g1) g2.coll hcs⟩
      · obtain ⟨cs, hcs⟩ := Conn.add (OK.orphan ok j) (n := n) (a := a) (p := p) (Conn.orphan ok hcn ⟨nd, g1, g2⟩)
        exact ⟨cs, PathTo.collected (OK.addNode (OK.orphan ok j) (Nat.pos_of_ne_zero ha.2.1) hp gn (o1.emp _ _ _ rfl).2 (orphan_free ok ⟨nd, g1, g2⟩)) g3.coll hcs⟩
    · exact fun hg => hg.not_locked (by
        show 0 < w2.locks p; rw [hlk]; exact hl)
  have hgp : ¬ Garbage w2.db w2.locks p := fun hg => hnp ((r1'.garbage ok' hp).mp hg)
  have f1 : lookup w'.disk p n = .ok (.ok i) := (h3.entries p n i hp).mpr ⟨e1, fun hx => hgp hx.1⟩
  have hat := (r1'.lookup_iff ok' hp).mp e1
  obtain ⟨nd, g1, g2⟩ := hat
  have hb : i < W64 := by have := (ok'.bound i nd g1).2; have := ok'.next_lt; omega
  have hgi : ¬ Garbage w2.db w2.locks i := by
    intro hg
    have hg := (r1'.garbage ok' hb).mp hg
    cases hg with
    | orphan x1 x2 x3 => rw [g1] at x1; cases x1; rw [g2] at x3; cases x3
    | child x1 x2 x3 => rw [g1] at x1; cases x1; rw [g2] at x2; cases x2; exact hnp x3
  obtain ⟨k1, k2, k3⟩ := h3.kept i hb hgi
  exact ⟨f1, by rw [k1]; exact e2, fun f => by rw [k3]; exact e3 f, by rw [h4]; exact hlk⟩

/-- C64: after `writelink` succeeded, the target is on disk, if the inode is not garbage; the lock counts
are as before. -/
theorem C64_writelink {w w' : World} (h : Reach w) (hi : Idle w) {i : Ino} {dest : Bytes} (ha : FnAllowed w (.writelink i dest))
    (hc : w.call (.writelink i dest) = .ok (w', .unit (.ok ()))) (hs : Safe w i) :
    readlink w'.disk i = .ok dest ∧ (∃ a, getattr w.disk i = .ok (i, a) ∧ getattr w'.disk i = .ok (i, { a with size := dest.length })) ∧ w'.locks = w.locks := by
  obtain ⟨-, -, -, w2, h2, h3, h4⟩ := C64_done h hi rfl ha hc rfl
  have hr := begun_reach h hi
  have hal := begun_allowed ha
  obtain ⟨e1, ⟨a, e2, -, e3⟩, -, -, -⟩ := C28_writelink hr hal h2
  obtain ⟨s, t, s', t', r1, ok, r1', ok', sh, hrf, hrf', o1⟩ := hr.op' hal h2
  have hb : i < W64 := ha
  have hdb : w.db = w.disk := by simp [World.db, hi.2]
  have hlk : w2.locks = w.locks := by
    funext j
    unfold World.locks
    rw [hrf', keeps_locks sh (.inr ⟨_, _, rfl⟩) j, hrf]; rfl
  have hs' : Safe w.begun i := by
    rcases hs with ⟨b, hb⟩ | hl
    · left; exact ⟨b, by show path w.disk i = _; rw [← hdb]; exact hb⟩
    · exact .inr hl
  have hg : ¬ Garbage w2.db w2.locks i := by
    intro hg
    have hg := (r1'.garbage ok' hb).mp hg
    rcases r1.safe ok hb hs' with ⟨cs, hcs⟩ | hl
    · generalize hop : (Fn.writelink i dest).op = o at sh
      generalize hout : Out.unit (.ok ()) = out at sh
      refine Conn.not_gone ok' ⟨cs, ?_⟩ hg
      cases sh with
      | same => exact hcs
      | link g1 => exact PathTo.set g1 (by rfl) hcs
      | _ => cases hop
    · exact hg.not_locked (by show 0 < w2.locks i; rw [hlk]; exact hl)
  obtain ⟨k1, k2, k3⟩ := h3.kept i hb hg
  exact ⟨by rw [k2]; exact e1, ⟨a, e2, by rw [k1]; exact e3⟩, by rw [h4]; exact hlk⟩

/-- C64: the writing functions return, if `release` is called only on locked inodes (otherwise it
throws). -/
theorem C64_returns {w : World} (h : Reach w) (hi : Idle w) {f : Fn} (hw : f.writes = true) (ha : FnAllowed w f)
    (hl : ∀ i, f = .release i → 0 < w.locks i) : ∃ w' out, w.call f = .ok (w', out) := by
  obtain ⟨s, r1, ok⟩ := h.inv.view (d := w.disk) (.inl ⟨hi.1, rfl⟩)
  have hT : TRep s (Frame.txn { db := w.disk } w.refs) := ⟨r1, ok⟩
  have hd : ∃ t' out, doOp (Frame.txn { db := w.disk } w.refs) f.op = .ok (t', out) ∧ (out.isErr = true → t'.hooks = []) := by
    cases f with
    | emplace p n a =>
      obtain ⟨hp, hp0, hnx⟩ := ha
      rcases emplace_cases hT (n := n) (a := a) hp hp0 (hnx _ r1.next) with ⟨-, e⟩ | ⟨-, i, nd, t', -, -, -, e, -⟩ | ⟨-, s1, s', t', -, e, -⟩
      · exact ⟨Frame.txn { db := w.disk } w.refs, .ino (.error (if n.length > 503 then ENAMETOOLONG else EINVAL)),
          by simp only [Fn.op, doOp, e, bind_ok, pure_eq_ok], fun _ => rfl⟩
      · exact ⟨t', .ino (.ok i), by simp only [Fn.op, doOp, e, bind_ok, pure_eq_ok], fun h => (by cases h)⟩
      · exact ⟨t', .ino (.ok s.next), by simp only [Fn.op, doOp, e, bind_ok, pure_eq_ok], fun h => (by cases h)⟩
    | lock i =>
      refine ⟨_, _, rfl, ?_⟩
      unfold lock
      split
      · exact fun _ => rfl
      · exact fun h => (by cases h)
    | release i =>
      have hl := hl i rfl
      refine ⟨⟨w.disk, w.refs.set i { w.refs i with nrefs := (w.refs i).nrefs - 1 }, none, [.relock i 1]⟩, .unit (.ok ()), ?_, fun h => (by cases h)⟩
      · simp only [Fn.op, doOp, release, Refs.decref]
        rw [if_neg (by decide), if_neg (by decide), if_neg (by show ¬ w.locks i < 1; omega)]
        rfl
    | writelink i dest =>
      refine ⟨_, _, rfl, ?_⟩
      unfold writelink
      split
      · exact fun _ => rfl
      · split
        · exact fun _ => rfl
        · exact fun h => (by cases h)
    | _ => cases hw
  obtain ⟨t', out, hd, hh⟩ := hd
  have h2 : w.begun.step (.op f.op) = .ok ({ w with refs := t'.refs, stack := [⟨t'.db, t'.rewrite, t'.hooks, false⟩] }, out) := by
    simp only [World.step, World.begun, Bool.false_and, Bool.false_eq_true, if_false, hd, bind_ok, pure_eq_ok]
  unfold World.call
  rw [if_pos hw]
  simp only [withRW, begun_step hi, bind_ok, h2]
  cases he : out.isErr with
  | true =>
    simp only [if_true, World.step, hh he, List.reverse_nil, undoAll, bind_ok, pure_eq_ok]
    exact ⟨_, _, rfl⟩
  | false =>
    have hr2 : Reach { w with refs := t'.refs, stack := [⟨t'.db, t'.rewrite, t'.hooks, false⟩] } := .step (begun_reach h hi) (begun_allowed ha) h2
    obtain ⟨w3, h3, -⟩ := C26_clean hr2 rfl rfl
    have hc : ∃ w4 o4, w3.step .commit = .ok (w4, o4) := by
      have h3' := h3
      simp only [World.step, Bool.false_and, Bool.false_eq_true, if_false] at h3'
      cases hx : doOp (Frame.txn ⟨t'.db, t'.rewrite, t'.hooks, false⟩ t'.refs) .clean with
      | error e => rw [hx] at h3'; cases h3'
      | ok v => obtain ⟨t3, o3⟩ := v; rw [hx] at h3'; cases h3'; exact ⟨_, _, rfl⟩
    obtain ⟨w4, o4, h4⟩ := hc
    simp only [Bool.false_eq_true, if_false, h3, bind_ok, h4, pure_eq_ok]
    exact ⟨_, _, rfl⟩

/-- A directory, a link in it, locks; then the link is unlinked and its last lock is given back. -/
example : ∃ w, Reach w ∧ Idle w ∧ FnAllowed w (.emplace 1 "a".toUTF8.toList dirA)
    ∧ (w.calls [.emplace 1 "a".toUTF8.toList dirA, .emplace 2 "l".toUTF8.toList linkA, .writelink 3 "x".toUTF8.toList, .lock 3, .emplace 2 "l".toUTF8.toList (fileA 1),
        .readlink 3, .parent 3, .release 3, .getattr 3, .writelink 2 [], .path 4, .lock 3]).map Prod.snd
      = .ok [.ino (.ok 2), .ino (.ok 3), .unit (.ok ()), .unit (.ok ()), .ino (.ok 4), .bytes (.ok "x".toUTF8.toList), .ino (.ok 0), .unit (.ok ()), .attr (.error ENOENT),
        .unit (.error EINVAL), .bytes (.ok "/a/l".toUTF8.toList), .unit (.error ESTALE)] := by
  obtain ⟨w, h1, h2⟩ := demo_ex (cs := opened) (P := fun w => (w.phase = .up ∧ w.stack.length = 0) ∧ w.disk.next = some 2
    ∧ (w.calls [.emplace 1 "a".toUTF8.toList dirA, .emplace 2 "l".toUTF8.toList linkA, .writelink 3 "x".toUTF8.toList, .lock 3, .emplace 2 "l".toUTF8.toList (fileA 1),
        .readlink 3, .parent 3, .release 3, .getattr 3, .writelink 2 [], .path 4, .lock 3]).map Prod.snd
      = .ok [.ino (.ok 2), .ino (.ok 3), .unit (.ok ()), .unit (.ok ()), .ino (.ok 4), .bytes (.ok "x".toUTF8.toList), .ino (.ok 0), .unit (.ok ()), .attr (.error ENOENT),
        .unit (.error EINVAL), .bytes (.ok "/a/l".toUTF8.toList), .unit (.error ESTALE)]) (by decide +kernel)
  refine ⟨w, h1, ⟨h2.1.1, List.length_eq_zero_iff.mp h2.1.2⟩, ⟨by decide, by decide, ?_⟩, h2.2.2⟩
  intro n hn
  rw [h2.2.1] at hn; cases hn; decide

/-- Decides `FnAllowed` (for examples only). -/
def fnAllowedB (w : World) : Fn → Bool
  | .emplace p _ _ => decide (p < W64 ∧ p ≠ 0) && (match w.disk.next with | none => true | some n => decide (n + 1 < W64))
  | .lock i => decide (i < W64 ∧ w.locks i + 1 < W64)
  | .name i | .parent i | .getattr i | .readlink i | .path i | .release i => decide (i < W64)
  | .lookup p _ => decide (p < W64)
  | .writelink i _ => decide (i < W64)

theorem fnAllowedB_ok {w : World} {f : Fn} (h : fnAllowedB w f = true) : FnAllowed w f := by
  cases f <;> simp only [fnAllowedB, FnAllowed, decide_eq_true_eq, Bool.and_eq_true] at h ⊢ <;> try exact h
  refine ⟨h.1.1, h.1.2, ?_⟩
  intro n hn; rw [hn] at h; simpa using h.2

/-- A world given by a checked call sequence, without a transaction, and one call with its result. -/
theorem demo_call {cs : List Call} {f : Fn} {out : Out} {P : World → World → Prop} [∀ w w', Decidable (P w w')]
    (h : (match demo World.init cs with
      | some w => decide (w.phase = .up ∧ w.stack.length = 0) && fnAllowedB w f && (match w.call f with | .ok (w', o) => decide (o = out ∧ P w w') | .error _ => false)
      | none => false) = true) : ∃ w w', Reach w ∧ Idle w ∧ FnAllowed w f ∧ w.call f = .ok (w', out) ∧ P w w' := by
  split at h
  · rename_i w hw
    rw [Bool.and_eq_true, Bool.and_eq_true] at h
    obtain ⟨⟨h0, h1⟩, h2⟩ := h
    obtain ⟨h0, h0'⟩ := of_decide_eq_true h0
    split at h2
    · rename_i w' o hs
      obtain ⟨rfl, h3⟩ := of_decide_eq_true h2
      exact ⟨w, w', demo_reach .init hw, ⟨h0, List.length_eq_zero_iff.mp h0'⟩, fnAllowedB_ok h1, hs, h3⟩
    · cases h2
  · cases h

/-- A directory 2 with a link 3 (locked once, target `x`) and a file 4 (unlinked, locked once). -/
def demoIdle : List Call := opened ++ [.beginRW, .op (.emplace 1 "a".toUTF8.toList dirA), .op (.emplace 2 "l".toUTF8.toList linkA), .op (.writelink 3 "x".toUTF8.toList), .op (.lock 3),
  .op (.emplace 2 "f".toUTF8.toList (fileA 1)), .op (.lock 4), .op (.unlinkIno 4), .commit]

/-- The hypotheses of `C64_failed`; `C64_reads` applies to the same world. -/
example : ∃ w w', Reach w ∧ Idle w ∧ FnAllowed w (.writelink 2 []) ∧ w.call (.writelink 2 []) = .ok (w', .unit (.error EINVAL)) ∧ getattr w.disk 2 = .ok (2, dirA) :=
  demo_call (cs := demoIdle) (by decide +kernel)

/-- The hypotheses of `C64_done` and of `C64_emplace` (directory 2 has a path): the link is replaced by a file … -/
example : ∃ w w', Reach w ∧ Idle w ∧ FnAllowed w (.emplace 2 "l".toUTF8.toList (fileA 7)) ∧ w.call (.emplace 2 "l".toUTF8.toList (fileA 7)) = .ok (w', .ino (.ok 5)) ∧
    path w.db 2 = .ok (.ok "/a".toUTF8.toList) ∧ lookup w.disk 2 "l".toUTF8.toList = .ok (.ok 3) :=
  demo_call (cs := demoIdle) (by decide +kernel)

/-- … and of `C64_writelink` … -/
example : ∃ w w', Reach w ∧ Idle w ∧ FnAllowed w (.writelink 3 "new".toUTF8.toList) ∧ w.call (.writelink 3 "new".toUTF8.toList) = .ok (w', .unit (.ok ())) ∧
    path w.db 3 = .ok (.ok "/a/l".toUTF8.toList) ∧ readlink w.disk 3 = .ok "x".toUTF8.toList :=
  demo_call (cs := demoIdle) (by decide +kernel)

/-- … and of `C64_locks`, for both calls; `C64_returns` applies to each of them. -/
example : (∃ w w', Reach w ∧ Idle w ∧ FnAllowed w (.lock 3) ∧ w.call (.lock 3) = .ok (w', .unit (.ok ())) ∧ w.locks 3 = 1) ∧
    ∃ w w', Reach w ∧ Idle w ∧ FnAllowed w (.release 3) ∧ w.call (.release 3) = .ok (w', .unit (.ok ())) ∧ w.locks 3 = 1 :=
  ⟨demo_call (cs := demoIdle) (by decide +kernel), demo_call (cs := demoIdle) (by decide +kernel)⟩

/-- The hypotheses of `C64_last_release`. -/
example : ∃ w w', Reach w ∧ Idle w ∧ FnAllowed w (.release 4) ∧ w.call (.release 4) = .ok (w', .unit (.ok ())) ∧
    parent w.disk 4 = .ok 0 ∧ w.locks 4 = 1 ∧ getattr w.disk 4 = .ok (4, fileA 1) :=
  demo_call (cs := demoIdle) (by decide +kernel)

end Dragonstash.Cache
