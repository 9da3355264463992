/-
  The filesystem on bytes and the filesystem on records run in lockstep.
-/
import Verif.FS.ByteModel
import Verif.MT.Seq
import Verif.FS.Answer
namespace Dragonstash.FSB
open Cache FS

/-- All calls of a handler have arguments which fit. -/
inductive Fits : MT.Prog → Prop
  | op {o k} : o.Fits → (∀ out, Fits (k out)) → Fits (.op o k)
  | done {c reps} : Fits (.done c reps)
  | stuck {f} : Fits (.stuck f)

theorem fits_lockAndReply (i a) : Fits (MT.lockAndReply i a) := by
  refine .op trivial fun out => ?_
  split <;> constructor

theorem fits_lookup {B : Backend} (hB : BackendFits B) {p : Ino} (hp : p < W64) (n : Bytes) : Fits (MT.lookup B p n) := by
  refine .op trivial fun out => ?_
  split
  · constructor
  · split
    · rename_i sr hs
      refine .op ⟨hp, hB.lstat _ _ _ hs⟩ fun out => ?_
      split
      · constructor
      · exact fits_lockAndReply _ _
      · constructor
    · split
      · refine .op trivial fun out => ?_
        split
        · split
          · refine .op trivial fun out => ?_
            split <;> constructor
          · constructor
        · refine .op trivial fun out => ?_
          split
          · constructor
          · exact fits_lockAndReply _ _
          · constructor
        · constructor
      · exact .op trivial fun out => .done
  · constructor

theorem fits_readlink {B : Backend} (hB : BackendFits B) (i : Ino) : Fits (MT.readlink B i) := by
  refine .op trivial fun out => ?_
  split
  · constructor
  · split
    · rename_i dest hs
      exact .op (hB.readlink _ _ hs) fun out => .done
    · split
      · refine .op trivial fun out => ?_
        split <;> constructor
      · exact .op trivial fun out => .done
  · constructor

theorem fits_syncLoop {B : Backend} (hB : BackendFits B) {base : Bytes} {i : Ino} (hi : i < W64) {k : MT.Prog} (hk : Fits k) :
    ∀ (l : List Bytes) (c : Nat), Fits (MT.syncLoop B base i c l k) := by
  intro l
  induction l with
  | nil => intro c; exact hk
  | cons n l ih =>
    intro c
    unfold MT.syncLoop
    split
    · exact ih _
    · rename_i sr hs
      exact .op ⟨hi, hB.lstat _ _ _ hs⟩ fun out => ih _

theorem fits_opendir {B : Backend} (hB : BackendFits B) {i : Ino} (hi : i < W64) : Fits (MT.opendir B i) := by
  refine .op trivial fun out => ?_
  split
  · constructor
  · split
    · split <;> constructor
    · have hk : Fits (.op (.updateFlags i [SYNCED] []) fun _ => .op .finishRewrite fun _ => .done true [.opened]) :=
        .op trivial fun _ => .op trivial fun _ => .done
      exact .op trivial fun out => fits_syncLoop hB hi hk _ _
  · constructor

theorem fits_readdirLoop {dir size k} (hk : ∀ p, Fits (k p)) : ∀ f c b s, Fits (MT.readdirLoop dir size k f c b s) := by
  intro f
  induction f with
  | zero => intro c b s; constructor
  | succ f ih =>
    intro c b s
    unfold MT.readdirLoop
    split
    · refine .op trivial fun out => ?_
      split
      · exact hk _
      · refine .op trivial fun out => ?_
        split
        · exact hk _
        · exact ih _ _ _
        · constructor
      · constructor
    · exact hk _

theorem fits_plusLoop {dir size k} (hk : ∀ p, Fits (k p)) : ∀ f c b s, Fits (MT.plusLoop dir size k f c b s) := by
  intro f
  induction f with
  | zero => intro c b s; constructor
  | succ f ih =>
    intro c b s
    unfold MT.plusLoop
    split
    · refine .op trivial fun out => ?_
      split
      · exact hk _
      · refine .op trivial fun out => ?_
        split
        · exact hk _
        · split
          · exact ih _ _ _
          · refine .op trivial fun out => ?_
            split
            · split
              · exact ih _ _ _
              · constructor
            · exact ih _ _ _
            · constructor
        · constructor
      · constructor
    · exact hk _

theorem fits_forgetMulti : ∀ l, Fits (MT.forgetMulti l) := by
  intro l
  induction l with
  | nil => constructor
  | cons x l ih => exact .op trivial fun out => ih

theorem fits_prog {B : Backend} (hB : BackendFits B) {rq : Req} (hr : rq.inRange) {f : Nat} {P : MT.Prog} (h : MT.prog B f rq = some P) : Fits P := by
  cases rq with
  | lookup p n => cases h; exact fits_lookup hB hr n
  | forget i n =>
    cases h
    refine .op trivial fun out => ?_
    split <;> constructor
  | getattr i =>
    cases h
    refine .op trivial fun out => ?_
    split <;> constructor
  | readlink i => cases h; exact fits_readlink hB i
  | opendir i => cases h; exact fits_opendir hB hr
  | readdir i size off =>
    cases h
    refine fits_readdirLoop (fun p => ?_) _ _ _ _
    simp only
    split
    · refine .op trivial fun out => ?_
      split <;> constructor
    · constructor
  | releasedir => cases h
  | readdirplus i size off =>
    cases h
    refine fits_plusLoop (fun p => ?_) _ _ _ _
    split <;> constructor
  | forgetMulti l => cases h; exact fits_forgetMulti l
  | other => cases h

/-- A handler on corresponding transactions. -/
theorem run_lock (pads : Nat → Ino → Nat) {P : MT.Prog} (hP : Fits P) : ∀ {c : Nat} {t : Cache.B.Txn} {u : Txn}, TRel t u →
    MRel RRel (runB pads c t P) (P.run u) := by
  induction hP with
  | @op o k ho _ ih =>
    intro c t u h
    have hd := doOp_rel (pads c) h o ho
    unfold runB MT.Prog.run
    generalize Cache.B.doOp (pads c) t o = x at hd ⊢
    generalize doOp u o = y at hd ⊢
    cases hd with
    | error e => exact .error _
    | @ok a b hab =>
      obtain ⟨t', out⟩ := a
      obtain ⟨u', out'⟩ := b
      obtain ⟨h1, h2⟩ := hab
      simp only at h1 h2
      subst h2
      exact ih out h1
  | done => intro c t u h; exact .ok ⟨h, rfl⟩
  | stuck => intro c t u h; exact .error _

/-- The same, as `serve`, on records. -/
def serveR (B : Backend) (y : FS.Sys) (rq : Req) : M (FS.Sys × Reply) :=
  match dispatch B y.disk y.refs rq with
  | .error f => .error f
  | .ok st => match st.fault, st.sent with
    | some f, _ => .error f
    | none, [r] => .ok (y.after rq st, r)
    | none, _ => .error (.ub 0)

theorem serveR_answered {B : Backend} {y y' : FS.Sys} {rq : Req} {r : Reply} : serveR B y rq = .ok (y', r) ↔ Answered y B rq r y' := by
  unfold serveR Answered
  cases dispatch B y.disk y.refs rq with
  | error f => simp
  | ok st =>
    obtain ⟨d, rf, sent, fault⟩ := st
    cases fault with
    | some f => simp
    | none =>
      rcases sent with _ | ⟨a, _ | ⟨b, l⟩⟩
      · simp
      · simp only [Except.ok.injEq, Prod.mk.injEq, exists_eq_left', true_and, List.cons.injEq, and_true]
        exact ⟨fun ⟨a, b⟩ => ⟨b, a.symm⟩, fun ⟨a, b⟩ => ⟨b.symm, a⟩⟩
      · simp

/-- Corresponding systems. -/
structure SRel (b : Sys) (y : FS.Sys) : Prop where
  disk : DRel b.disk y.disk
  refs : b.refs = y.refs
  held : b.held = y.held

theorem served_answers (ro : Bool) (d : DB) (x : Txn) (c : Bool) (reps : List Reply) :
    (MT.served ro d x c reps).finish.disk = (if c && !ro then x.db else d) ∧ (MT.served ro d x c reps).finish.refs = x.refs ∧
    match answers reps with
    | .ok r => (MT.served ro d x c reps).finish.fault = none ∧ (MT.served ro d x c reps).finish.sent = [r]
    | .error f => (MT.served ro d x c reps).finish.fault = some f := by
  have two : ∀ (l : List Reply) (st : St), st.sent ≠ [] → (l.foldl St.reply st).disk = st.disk ∧ (l.foldl St.reply st).refs = st.refs ∧ (l.foldl St.reply st).sent = st.sent ∧
      (st.fault = some (.thrown 94) → (l.foldl St.reply st).fault = some (.thrown 94)) := by
    intro l
    induction l with
    | nil => intro st _; exact ⟨rfl, rfl, rfl, id⟩
    | cons a l ih =>
      intro st hs
      have key : (st.reply a).disk = st.disk ∧ (st.reply a).refs = st.refs ∧ (st.reply a).sent = st.sent ∧ (st.fault = some (.thrown 94) → (st.reply a).fault = some (.thrown 94)) := by
        unfold St.reply
        by_cases e : st.fault.isSome
        · rw [if_pos e]; exact ⟨rfl, rfl, rfl, id⟩
        · rw [if_neg e, if_neg hs]; exact ⟨rfl, rfl, rfl, fun _ => rfl⟩
      obtain ⟨k1, k2, k3, k4⟩ := key
      obtain ⟨g1, g2, g3, g4⟩ := ih (st.reply a) (by rw [k3]; exact hs)
      rw [List.foldl_cons, g1, g2, g3]
      exact ⟨k1, k2, k3, fun h => g4 (k4 h)⟩
  unfold MT.served
  rcases reps with _ | ⟨a, _ | ⟨b, l⟩⟩
  · exact ⟨rfl, rfl, rfl, rfl⟩
  · exact ⟨rfl, rfl, rfl, rfl⟩
  · simp only [List.foldl_cons, answers]
    obtain ⟨g1, g2, g3, g4⟩ := two l (((⟨if c && !ro then x.db else d, x.refs, [], none⟩ : St).reply a).reply b) (by simp [St.reply])
    have hs : (l.foldl St.reply (((⟨if c && !ro then x.db else d, x.refs, [], none⟩ : St).reply a).reply b)).sent ≠ [] := by
      rw [g3]; simp [St.reply]
    unfold St.finish
    rw [if_neg hs]
    exact ⟨g1, g2, g4 rfl⟩

/-- One request. -/
theorem serve_rel (pads : Nat → Ino → Nat) {b : Sys} {y : FS.Sys} (h : SRel b y) {B : Backend} (hB : BackendFits B) {rq : Req} (hr : rq.inRange) :
    MRel (fun x z => SRel x.1 z.1 ∧ x.2 = z.2) (serve pads B b rq) (serveR B y rq) := by
  obtain ⟨bd, br, bh⟩ := b
  obtain ⟨yd, yr, yh⟩ := y
  obtain ⟨h1, h2, h3⟩ := h
  simp only at h1 h2 h3
  subst h2 h3
  have hsz : bd.treei.size = yd.treei.size := h1.treei.size
  unfold serve serveR dispatch
  simp only [hsz]
  cases hP : MT.prog B (yd.treei.size + 4) rq with
  | none =>
    rw [MT.direct_seq hP]
    exact .ok ⟨⟨h1, rfl, rfl⟩, rfl⟩
  | some P =>
    simp only
    rw [MT.prog_seq hP]
    have hl := run_lock pads (fits_prog hB hr hP) (c := 0) (t := ⟨bd, br, none, []⟩) (u := ⟨yd, br, none, []⟩) ⟨h1, rfl, rfl, rfl⟩
    generalize runB pads 0 ⟨bd, br, none, []⟩ P = x at hl ⊢
    generalize P.run ⟨yd, br, none, []⟩ = z at hl ⊢
    cases hl with
    | error e => exact .error _
    | @ok a c hac =>
      obtain ⟨t, cm, reps⟩ := a
      obtain ⟨u, cm', reps'⟩ := c
      obtain ⟨ht, he⟩ := hac
      simp only at ht he
      cases he
      obtain ⟨g1, g2, g3⟩ := served_answers (MT.readOnly rq) yd u cm reps
      simp only [bind_ok, Except.map, pure_eq_ok, MT.toSt]
      generalize MT.served (MT.readOnly rq) yd u cm reps = st at g1 g2 g3
      cases ha : answers reps with
      | error f =>
        rw [ha] at g3
        simp only at g3
        rw [g3]
        exact .error _
      | ok r =>
        rw [ha] at g3
        obtain ⟨g3, g4⟩ := g3
        rw [g3, g4]
        refine .ok ⟨⟨?_, ?_, ?_⟩, rfl⟩
        · simp only [FS.Sys.after, g1]
          cases hx : (cm && !MT.readOnly rq) with
          | true => exact ht.db
          | false => exact h1
        · simp only [FS.Sys.after, g2]; exact ht.refs
        · simp only [FS.Sys.after, g4]

/-- Mounting. -/
theorem mount_rel (pad pad' : Ino → Nat) {b : Cache.B.DB} {d : DB} (h : DRel b d) {uid gid : Nat} {now : Timespec} (hf : uid < 256 ^ 4 ∧ gid < 256 ^ 4 ∧ now.Fits) :
    MRel SRel (mount pad pad' b uid gid now) (do let (d, r) ← openCleanDB (initDB d uid gid now) Refs.empty; pure ⟨d, r, fun _ => 0⟩) := by
  unfold mount
  refine MRel.bind (R := fun x y => DRel x.1 y.1 ∧ x.2 = y.2) ?_ ?_
  · unfold Cache.B.openCleanDB openCleanDB
    refine (cleanOrphans_rel pad' (initDB_rel pad h hf) _).bind ?_
    rintro ⟨b1, r1⟩ ⟨d1, r2⟩ ⟨h, rfl⟩
    exact cleanOrphans_rel pad' h r1
  · rintro ⟨b1, r1⟩ ⟨d1, r2⟩ ⟨h, rfl⟩
    exact .ok ⟨h, rfl, rfl⟩

theorem SRel.valid {b : Sys} {y : FS.Sys} (h : SRel b y) {B : Backend} {rq : Req} (hv : Valid b B rq) : FS.Valid y B rq := by
  obtain ⟨v1, v2, v3, v4, v5, v6⟩ := hv
  refine ⟨v1, ?_, fun i => by rw [← h.held]; exact v3 i, ?_, fun i => by rw [← h.refs, ← h.disk.treei.size]; exact v5 i⟩
  · cases rq with
    | lookup p n => intro x hx; exact v2 x (by rw [getattr_rel h.disk, hx])
    | opendir i => intro x hx; exact v2 x (by rw [getattr_rel h.disk, hx])
    | _ => trivial
  · intro n hn
    have := v4 (leEnc 8 n) (by rw [h.disk.next, hn]; rfl)
    rwa [leDec_leEnc 8 n (lt64.mp (h.disk.small n hn))] at this

theorem MRel.ok_left {α β : Type} {R : α → β → Prop} {x : M α} {y : M β} (h : MRel R x y) {a : α} (ha : x = .ok a) : ∃ b, y = .ok b ∧ R a b := by
  cases h with
  | error e => cases ha
  | ok h => cases ha; exact ⟨_, rfl, h⟩

theorem MRel.ok_right {α β : Type} {R : α → β → Prop} {x : M α} {y : M β} (h : MRel R x y) {b : β} (hb : y = .ok b) : ∃ a, x = .ok a ∧ R a b := by
  cases h with
  | error e => cases hb
  | ok h => cases hb; exact ⟨_, rfl, h⟩

theorem mount_ok {pad pad' : Ino → Nat} {b : Cache.B.DB} {d : DB} (h : DRel b d) {uid gid : Nat} {now : Timespec} (hf : uid < 256 ^ 4 ∧ gid < 256 ^ 4 ∧ now.Fits) {b' : Sys}
    (hm : mount pad pad' b uid gid now = .ok b') :
    ∃ d' r', openCleanDB (initDB d uid gid now) Refs.empty = .ok (d', r') ∧ SRel b' ⟨d', r', fun _ => 0⟩ := by
  obtain ⟨z, h1, h2⟩ := MRel.ok_left (mount_rel pad pad' h hf) hm
  cases ho : openCleanDB (initDB d uid gid now) Refs.empty with
  | error e => rw [ho] at h1; cases h1
  | ok x => rw [ho] at h1; cases h1; exact ⟨x.1, x.2, rfl, h2⟩

/-- States on bytes correspond to states on records. -/
theorem Live.rel {b : Sys} (h : Live b) : ∃ y, FS.Live y ∧ SRel b y := by
  induction h with
  | mount hf hm =>
    obtain ⟨d, r, h1, h2⟩ := mount_ok DRel.empty hf hm
    exact ⟨_, .mount h1, h2⟩
  | remount _ hf hm ih =>
    obtain ⟨y, hy, hr⟩ := ih
    obtain ⟨d, r, h1, h2⟩ := mount_ok hr.disk hf hm
    exact ⟨_, .remount hy h1, h2⟩
  | @serve b pads B rq b' r _ hv hs ih =>
    obtain ⟨y, hy, hr⟩ := ih
    obtain ⟨z, h1, h2, h3⟩ := MRel.ok_left (serve_rel pads hr hv.backend hv.inRange) hs
    obtain ⟨y', r'⟩ := z
    exact ⟨y', (serveR_answered.mp h1).live hy (hr.valid hv), h2⟩

theorem Between.rel {fs : List Bytes} {P : Attrs → Prop} {b b' : Sys} (h : Between fs P b b') {y : FS.Sys} (hr : SRel b y) : ∃ y', FS.Between fs P y y' ∧ SRel b' y' := by
  induction h with
  | refl => exact ⟨y, .refl, hr⟩
  | @step b1 b2 pads B rq r _ hv hlk hc hs ih =>
    obtain ⟨y1, k1, k2⟩ := ih
    obtain ⟨⟨y2, r'⟩, h1, h2, h3⟩ := MRel.ok_left (serve_rel pads k2 hv.backend hv.inRange) hs
    refine ⟨y2, .step k1 (k2.valid hv) ?_ hc (serveR_answered.mp h1), h2⟩
    cases rq with
    | readlink i => intro x hx; exact hlk x (by rw [getattr_rel k2.disk, hx])
    | _ => trivial
  | restart _ hf hm ih =>
    obtain ⟨y1, k1, k2⟩ := ih
    obtain ⟨d, r, h1, h2⟩ := mount_ok k2.disk hf hm
    exact ⟨_, .restart k1 h1, h2⟩

end Dragonstash.FSB
