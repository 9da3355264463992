/-
  A program of `Verif.MT.Prog` which runs alone does what the handler in `Verif.FS.Model` does.
-/
import Verif.MT.Prog
namespace Dragonstash.MT
open Cache FS Conc

/-- The state after a handler: the transaction `x` it used was committed or not, replies `reps`. -/
def served (ro : Bool) (d : DB) (x : Txn) (commit : Bool) (reps : List Reply) : St :=
  reps.foldl St.reply { disk := if commit && !ro then x.db else d, refs := x.refs }

def toSt (ro : Bool) (d : DB) (y : Txn × Bool × List Reply) : St := served ro d y.1 y.2.1 y.2.2

theorem run_op {t : Txn} {o : Op} {k : Out → Prog} {t' out} (h : doOp t o = .ok (t', out)) : (Prog.op o k).run t = (k out).run t' := by
  simp only [Prog.run, h]

theorem run_op_err {t : Txn} {o : Op} {k : Out → Prog} {e} (h : doOp t o = .error e) : (Prog.op o k).run t = .error e := by
  simp only [Prog.run, h]

theorem seq_lockAndReply {d : DB} {t : Txn} {i a r} : (.ok (FS.lockAndReply { disk := d, refs := r } t i a) : M St) =
    ((lockAndReply i a).run t).map (toSt false d) := by
  unfold FS.lockAndReply lockAndReply
  simp only [Prog.run, doOp]
  rcases hl : Cache.lock t i with ⟨t', e | u⟩ <;> rfl

theorem seq_lookup {B : Backend} {d : DB} {r : Refs} {p n} :
    FS.lookup B { disk := d, refs := r } p n = ((lookup B p n).run ⟨d, r, none, []⟩).map (toSt false d) := by
  unfold FS.lookup lookup
  simp only [Prog.run, doOp, St.txn]
  cases hp : path d p with
  | error e => rfl
  | ok b =>
    simp only [bind_ok, pure_eq_ok]
    cases b with
    | error e => rfl
    | ok b =>
      simp only
      cases hB : B.lstat 0 (b ++ 0x2f :: n) with
      | ok sr =>
        simp only [Prog.run, doOp]
        cases he : emplace ⟨d, r, none, []⟩ p n (fromBackend sr) with
        | error e => rfl
        | ok x =>
          obtain ⟨t, res⟩ := x
          simp only [bind_ok, pure_eq_ok]
          cases res with
          | error e => rfl
          | ok i => exact seq_lockAndReply
      | error be =>
        simp only
        by_cases hbe : be = ENOTCONN
        · rw [if_pos hbe, if_pos hbe]
          simp only [Prog.run, doOp]
          cases hl : Cache.lookup d p n with
          | error e => rfl
          | ok x =>
            simp only [bind_ok, pure_eq_ok]
            cases x with
            | error e =>
              simp only
              by_cases h1 : e = ENOENT
              · rw [if_pos h1]
                simp only [Prog.run, doOp, h1, true_and]
                by_cases h2 : testFlag d p SYNCED = .ok true
                · rw [h2]; rfl
                · rw [if_pos h2, if_pos (by simpa using h2)]; rfl
              · rw [if_neg h1]
                exact (if_neg (fun h => h1 h.1)).trans rfl
            | ok i =>
              simp only [Prog.run, doOp]
              cases hg : Cache.getattr d i with
              | error e => rfl
              | ok x => obtain ⟨j, a⟩ := x; exact seq_lockAndReply
        · rw [if_neg hbe, if_neg hbe]
          simp only [Prog.run, doOp]
          cases hu : unlinkName ⟨d, r, none, []⟩ p n with
          | error e => rfl
          | ok x => rfl

theorem seq_forget {d : DB} {r : Refs} {i n} :
    FS.forget { disk := d, refs := r } i n = ((forget i n).run ⟨d, r, none, []⟩).map (toSt true d) := by
  unfold FS.forget forget
  simp only [Prog.run, doOp, St.txn]
  cases hu : release ⟨d, r, none, []⟩ i n with
  | error e => rfl
  | ok x => obtain ⟨t, e | u⟩ := x <;> rfl

theorem seq_getattr {d : DB} {r : Refs} {i} :
    FS.getattr { disk := d, refs := r } i = ((getattr i).run ⟨d, r, none, []⟩).map (toSt true d) := by
  unfold FS.getattr getattr
  simp only [Prog.run, doOp]
  rcases Cache.getattr d i with e | ⟨j, a⟩ <;> rfl

theorem seq_readlink {B : Backend} {d : DB} {r : Refs} {i} :
    FS.readlink B { disk := d, refs := r } i = ((readlink B i).run ⟨d, r, none, []⟩).map (toSt false d) := by
  unfold FS.readlink readlink
  simp only [Prog.run, doOp, St.txn]
  cases hp : path d i with
  | error e => rfl
  | ok b =>
    simp only [bind_ok, pure_eq_ok]
    cases b with
    | error e => rfl
    | ok b =>
      simp only
      cases hB : B.readlink (backendPath b) with
      | ok dest => rfl
      | error be =>
        simp only
        by_cases hbe : be = ENOTCONN
        · rw [if_pos hbe, if_pos hbe]
          simp only [Prog.run, doOp]
          rcases Cache.readlink d i with e | dest <;> rfl
        · rw [if_neg hbe, if_neg hbe]
          simp only [Prog.run, doOp]
          cases hu : unlinkIno ⟨d, r, none, []⟩ i with
          | error e => rfl
          | ok x => rfl

theorem seq_syncLoop {B : Backend} {base i k} : ∀ (l : List Bytes) (c : Nat) (t : Txn),
    (syncLoop B base i c l k).run t = (FS.syncLoop B base i c l t >>= fun t' => k.run t') := by
  intro l
  induction l with
  | nil => intro c t; rfl
  | cons n l ih =>
    intro c t
    unfold syncLoop FS.syncLoop
    cases hB : B.lstat c (entryPath base n) with
    | error e => exact ih _ _
    | ok sr =>
      simp only [Prog.run, doOp]
      cases he : emplace t i n (fromBackend sr) with
      | error e => rfl
      | ok x => obtain ⟨t', res⟩ := x; exact ih _ _

theorem seq_opendir {B : Backend} {d : DB} {r : Refs} {i} :
    FS.opendir B { disk := d, refs := r } i = ((opendir B i).run ⟨d, r, none, []⟩).map (toSt false d) := by
  unfold FS.opendir opendir
  simp only [Prog.run, doOp, St.txn]
  cases hp : path d i with
  | error e => rfl
  | ok b =>
    simp only [bind_ok, pure_eq_ok]
    cases b with
    | error e => rfl
    | ok b =>
      simp only
      rcases hB : B.opendir (backendPath b) with be | ⟨names, err⟩
      · simp only
        by_cases hbe : be = ENOTCONN
        · rw [if_pos hbe, if_pos hbe]; rfl
        · rw [if_neg hbe, if_neg hbe]; rfl
      · simp only [Prog.run, doOp, sync]
        cases hu : startRewrite ⟨d, r, none, []⟩ i with
        | error e => rfl
        | ok x =>
          obtain ⟨t, res⟩ := x
          simp only [bind_ok, pure_eq_ok]
          rw [seq_syncLoop]
          cases FS.syncLoop B (backendPath b) i 0 names t with
          | error e => rfl
          | ok t' => rfl

theorem seq_readdirLoop {dir size k} (t : Txn) : ∀ (f : Nat) (cursor : Ino) (buf : List DEnt) (toSend : Nat),
    (readdirLoop dir size k f cursor buf toSend).run t = (FS.readdirLoop t.db dir size f cursor buf toSend >>= fun pg => (k pg).run t) := by
  intro f
  induction f with
  | zero => intros; rfl
  | succ f ih =>
    intro cursor buf toSend
    unfold readdirLoop FS.readdirLoop
    by_cases hlt : bufLen 24 buf < size
    · rw [if_pos hlt, if_pos hlt]
      simp only [Prog.run, doOp]
      rcases Cache.readdir t.db dir cursor with e | e | ⟨i, n⟩
      · rfl
      · rfl
      · simp only [Prog.run, doOp, bind_ok, pure_eq_ok]
        rcases Cache.getattr t.db i with e | ⟨j, a⟩
        · rfl
        · exact ih _ _ _
    · rw [if_neg hlt, if_neg hlt]; rfl

theorem seq_readdir {d : DB} {r : Refs} {dir size off} :
    FS.readdir { disk := d, refs := r } dir size off = ((readdir dir size off (d.treei.size + 4)).run ⟨d, r, none, []⟩).map (toSt true d) := by
  unfold FS.readdir readdir
  rw [seq_readdirLoop]
  cases FS.readdirLoop d dir size (d.treei.size + 4) off [] 0 with
  | error e => rfl
  | ok pg =>
    simp only [bind_ok, pure_eq_ok]
    have hd : ∀ (b : Bool), (if b = true then St.reply { disk := d, refs := r } (.err pg.error) else { disk := d, refs := r }).disk = d := by
      intro b; cases b <;> simp [St.reply]
    by_cases he : pg.error = 0
    · simp only [he, ne_eq, not_true_eq_false, if_false, List.nil_append]
      by_cases h1 : pg.atEof = true ∧ bufLen 24 pg.buf = 0
      · rw [if_pos h1]
        simp only [Prog.run, doOp]
        by_cases h2 : testFlag d dir SYNCED = .ok true
        · rw [h2, if_neg (by simp), if_neg (by simp)]; rfl
        · rw [if_pos ⟨h1.1, h1.2, h2⟩, if_pos (by simpa using h2)]; rfl
      · rw [if_neg h1, if_neg (fun h => h1 ⟨h.1, h.2.1⟩)]; rfl
    · simp only [he, ne_eq, not_false_eq_true, if_true]
      by_cases h1 : pg.atEof = true ∧ bufLen 24 pg.buf = 0
      · rw [if_pos h1]
        simp only [Prog.run, doOp]
        by_cases h2 : testFlag d dir SYNCED = .ok true
        · rw [h2, if_neg (by simp [St.reply, h2]), if_neg (by simp)]; rfl
        · rw [if_pos ⟨h1.1, h1.2, by simpa [St.reply] using h2⟩, if_pos (by simpa using h2)]; rfl
      · rw [if_neg h1, if_neg (fun h => h1 ⟨h.1, h.2.1⟩)]; rfl

theorem seq_plusLoop {dir size k} : ∀ (f : Nat) (t : Txn) (cursor : Ino) (buf : List DEnt) (toSend : Nat),
    (plusLoop dir size k f cursor buf toSend).run t = (FS.plusLoop t dir size f cursor buf toSend >>= fun
      | .inl (t', pg) => (k pg).run t'
      | .inr t' => .ok (t', false, [.err EIO])) := by
  intro f
  induction f with
  | zero => intros; rfl
  | succ f ih =>
    intro t cursor buf toSend
    unfold plusLoop FS.plusLoop
    by_cases hlt : bufLen 152 buf < size
    · rw [if_pos hlt, if_pos hlt]
      simp only [Prog.run, doOp]
      rcases Cache.readdir t.db dir cursor with e | e | ⟨i, n⟩
      · rfl
      · rfl
      · simp only [Prog.run, doOp, bind_ok, pure_eq_ok]
        rcases Cache.getattr t.db i with e | ⟨j, a⟩
        · rfl
        · simp only
          cases hdot : isDot n with
          | true => simp only [if_true]; exact ih _ _ _ _
          | false =>
            simp only [Bool.false_eq_true, if_false, Prog.run, doOp]
            rcases hl : Cache.lock t i with ⟨t', e | u⟩
            · simp only
              by_cases hs : e = ESTALE
              · rw [if_pos hs, if_pos hs]; exact ih _ _ _ _
              · rw [if_neg hs, if_neg hs]; rfl
            · exact ih _ _ _ _
    · rw [if_neg hlt, if_neg hlt]; rfl

theorem seq_readdirplus {d : DB} {r : Refs} {dir size off} :
    FS.readdirplus { disk := d, refs := r } dir size off = ((readdirplus dir size off (d.treei.size + 4)).run ⟨d, r, none, []⟩).map (toSt true d) := by
  unfold FS.readdirplus readdirplus
  rw [seq_plusLoop]
  have : (St.txn { disk := d, refs := r }) = ⟨d, r, none, []⟩ := rfl
  rw [this]
  rcases FS.plusLoop ⟨d, r, none, []⟩ dir size (d.treei.size + 4) off [] 0 with e | ⟨t, pg⟩ | t
  · rfl
  · simp only [bind_ok]
    by_cases he : pg.error = 0
    · simp only [he, ne_eq, not_true_eq_false, if_false]; rfl
    · simp only [he, ne_eq, not_false_eq_true, if_true]; rfl
  · rfl

theorem seq_forgetMulti {d : DB} {r : Refs} : ∀ (l : List (Ino × Nat)) (t : Txn),
    (FS.forgetLoop l t >>= fun t => pure ((St.drop { disk := d, refs := r } t).reply .none)) = ((forgetMulti l).run t).map (toSt true d) := by
  intro l
  induction l with
  | nil => intro t; rfl
  | cons x l ih =>
    obtain ⟨i, n⟩ := x
    intro t
    unfold forgetMulti forgetLoop
    simp only [Prog.run, doOp]
    rcases release t i n with e | ⟨t', res⟩
    · rfl
    · exact ih t'

/-- A request which is served without any other at the same time: the program has the effect of the
handler in `Verif.FS.Model`. -/
theorem prog_seq {B : Backend} {d : DB} {r : Refs} {rq : Req} {P : Prog} (h : prog B (d.treei.size + 4) rq = some P) :
    handle B { disk := d, refs := r } rq = (P.run ⟨d, r, none, []⟩).map (toSt (readOnly rq) d) := by
  cases rq with
  | lookup => cases h; exact seq_lookup
  | forget => cases h; exact seq_forget
  | getattr => cases h; exact seq_getattr
  | readlink => cases h; exact seq_readlink
  | opendir => cases h; exact seq_opendir
  | readdir => cases h; exact seq_readdir
  | releasedir => cases h
  | readdirplus => cases h; exact seq_readdirplus
  | forgetMulti l => cases h; exact seq_forgetMulti l _
  | other => cases h

theorem direct_seq {B : Backend} {d : DB} {r : Refs} {rq : Req} {fuel} (h : prog B fuel rq = none) :
    handle B { disk := d, refs := r } rq = .ok (served true d ⟨d, r, none, []⟩ false [directReply rq]) := by
  cases rq with
  | releasedir => rfl
  | other => rfl
  | _ => cases h

/-! ### More fuel -/

theorem readdirLoop_more {dir size k} {t : Txn} {y} : ∀ (f g : Nat) (cursor : Ino) (buf : List DEnt) (toSend : Nat), f ≤ g →
    (readdirLoop dir size k f cursor buf toSend).run t = .ok y → (readdirLoop dir size k g cursor buf toSend).run t = .ok y := by
  intro f
  induction f generalizing t with
  | zero => intro g c b s _ h; cases h
  | succ f ih =>
    intro g c b s hle h
    obtain ⟨g, rfl⟩ : ∃ g', g = g' + 1 := ⟨g - 1, by omega⟩
    unfold readdirLoop at h ⊢
    by_cases hlt : bufLen 24 b < size
    · rw [if_pos hlt] at h ⊢
      simp only [Prog.run, doOp] at h ⊢
      rcases hr : Cache.readdir t.db dir c with e | e | ⟨i, n⟩
      · rw [hr] at h; cases h
      · rw [hr] at h; exact h
      · rw [hr] at h
        simp only [Prog.run, doOp, bind_ok, pure_eq_ok] at h ⊢
        rcases hg : Cache.getattr t.db i with e | ⟨j, a⟩
        · rw [hg] at h; exact h
        · rw [hg] at h; exact ih g _ _ _ (by omega) h
    · rw [if_neg hlt] at h ⊢; exact h

theorem plusLoop_more {dir size k} {y} : ∀ (f g : Nat) (t : Txn) (cursor : Ino) (buf : List DEnt) (toSend : Nat), f ≤ g →
    (plusLoop dir size k f cursor buf toSend).run t = .ok y → (plusLoop dir size k g cursor buf toSend).run t = .ok y := by
  intro f
  induction f with
  | zero => intro g t c b s _ h; cases h
  | succ f ih =>
    intro g t c b s hle h
    obtain ⟨g, rfl⟩ : ∃ g', g = g' + 1 := ⟨g - 1, by omega⟩
    unfold plusLoop at h ⊢
    by_cases hlt : bufLen 152 b < size
    · rw [if_pos hlt] at h ⊢
      simp only [Prog.run, doOp] at h ⊢
      rcases hr : Cache.readdir t.db dir c with e | e | ⟨i, n⟩
      · rw [hr] at h; cases h
      · rw [hr] at h; exact h
      · rw [hr] at h
        simp only [Prog.run, doOp, bind_ok, pure_eq_ok] at h ⊢
        rcases hg : Cache.getattr t.db i with e | ⟨j, a⟩
        · rw [hg] at h; exact h
        · rw [hg] at h
          simp only at h ⊢
          cases hdot : isDot n with
          | true => rw [hdot] at h; simp only [if_true] at h ⊢; exact ih g _ _ _ _ (by omega) h
          | false =>
            rw [hdot] at h
            simp only [Bool.false_eq_true, if_false, Prog.run, doOp] at h ⊢
            rcases hl : Cache.lock t i with ⟨t', e | u⟩
            · rw [hl] at h
              simp only at h ⊢
              by_cases hs : e = ESTALE
              · rw [if_pos hs] at h ⊢; exact ih g _ _ _ _ (by omega) h
              · rw [if_neg hs] at h ⊢; exact h
            · rw [hl] at h; exact ih g _ _ _ _ (by omega) h
    · rw [if_neg hlt] at h ⊢; exact h

theorem prog_more {B : Backend} {rq : Req} {t : Txn} {f g : Nat} {P Q : Prog} {y} (hle : f ≤ g) (hP : prog B f rq = some P)
    (hQ : prog B g rq = some Q) (h : P.run t = .ok y) : Q.run t = .ok y := by
  cases rq with
  | readdir => cases hP; cases hQ; exact readdirLoop_more f g _ _ _ hle h
  | readdirplus => cases hP; cases hQ; exact plusLoop_more f g _ _ _ _ hle h
  | releasedir => cases hP
  | other => cases hP
  | _ => cases hP; cases hQ; exact h

/-- The bound on the number of iterations does not matter, if the handler ends within it. -/
theorem prog_fuel {B : Backend} {rq : Req} {t : Txn} {f g : Nat} {P Q : Prog} {y z} (hP : prog B f rq = some P)
    (hQ : prog B g rq = some Q) (h : P.run t = .ok y) (h' : Q.run t = .ok z) : y = z := by
  rcases Nat.le_total f g with hle | hle
  · rw [prog_more hle hP hQ h] at h'; cases h'; rfl
  · rw [prog_more hle hQ hP h'] at h; cases h; rfl

end Dragonstash.MT
