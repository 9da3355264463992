/-
  The filesystem with several threads: on bytes and on records it runs in lockstep.
-/
import Verif.MT.ByteModel
import Verif.Conc.Bytewise
import Verif.FS.Bytewise
import Verif.Props.FSCrash
namespace Dragonstash.MTB
open Cache FS Conc ConcB
open MT (TState Done prog readOnly directReply)

/-- The request of a thread and the calls it has still to make fit. -/
def TFits : TState → Prop
  | .recv rq B => rq.inRange ∧ FSB.BackendFits B
  | .run rq B _ p => FSB.Fits p ∧ rq.inRange ∧ FSB.BackendFits B
  | .leaving rq B _ _ => rq.inRange ∧ FSB.BackendFits B
  | _ => True

/-- Corresponding systems. -/
structure MSRel (b : MSys) (m : MT.MSys) : Prop where
  w : CWRel b.w m.w
  th : b.th = m.th
  held : b.held = m.held
  hist : b.hist = m.hist
  sent : b.sent = m.sent
  fits : ∀ st ∈ m.th, TFits st
  ended : ∀ q ∈ m.hist, q.rq.inRange ∧ FSB.BackendFits q.B

theorem MSRel.start {b : Cache.B.DB} {d : DB} (h : DRel b d) (r : Refs) (n : Nat) : MSRel (.start b r n) (.start d r n) :=
  ⟨start_rel h r, rfl, rfl, rfl, rfl, fun st hst => by rw [(List.mem_replicate.mp hst).2]; trivial, fun q hq => by cases hq⟩

/-- A request which comes in fits. -/
def NewFits (th th' : List TState) (k : Nat) : Prop := th[k]? = some .idle → ∀ rq B, th'[k]? = some (.recv rq B) → rq.inRange ∧ FSB.BackendFits B

theorem fits_set {l : List TState} {k : Nat} {x : TState} (h : ∀ st ∈ l, TFits st) (hx : TFits x) : ∀ st ∈ l.set k x, TFits st := by
  intro st hst
  rcases List.mem_or_eq_of_mem_set hst with h1 | h1
  · exact h st h1
  · rw [h1]; exact hx

theorem fits_snoc {l : List Done} {q : Done} (h : ∀ q ∈ l, q.rq.inRange ∧ FSB.BackendFits q.B) (hq : q.rq.inRange ∧ FSB.BackendFits q.B) :
    ∀ x ∈ l ++ [q], x.rq.inRange ∧ FSB.BackendFits x.B := by
  intro x hx
  rcases List.mem_append.mp hx with h1 | h1
  · exact h x h1
  · rw [List.mem_singleton.mp h1]; exact hq

theorem set_at {l : List TState} {k : Nat} {x y : TState} (h : l[k]? = some y) : (l.set k x)[k]? = some x :=
  List.getElem?_set_self (List.getElem?_eq_some_iff.mp h).1

theorem fits_op {o : Op} {c : Out → MT.Prog} (h : FSB.Fits (.op o c)) : o.Fits ∧ ∀ out, FSB.Fits (c out) := by
  cases h with
  | op h1 h2 => exact ⟨h1, h2⟩

theorem notOp {c : CCall} (h : ∀ k o, c ≠ .on k (.op o)) : ∀ k o, c = .on k (.op o) → o.Fits := fun k o e => absurd e (h k o)

/-- A step on bytes is a step on records. -/
theorem step_left {b b' : MSys} {m : MT.MSys} {k : Nat} (h : MSRel b m) (hs : Step b k b') (hf : NewFits b.th b'.th k) :
    ∃ m', MT.Step m k m' ∧ MSRel b' m' := by
  obtain ⟨bw, bth, bh, bhi, bse⟩ := b
  obtain ⟨w, th, he, hi, se⟩ := m
  obtain ⟨h1, h2, h3, h4, h5, h6, h7⟩ := h
  simp only at h1 h2 h3 h4 h5 h6 h7
  subst h2 h3 h4 h5
  have hsz : bw.disk.treei.size = w.disk.treei.size := h1.disk.treei.size
  cases hs with
  | @issue rq B hk =>
    simp only at hk
    refine ⟨_, .issue (rq := rq) (B := B) hk, h1, rfl, rfl, rfl, rfl, fits_set h6 (hf hk rq B (set_at hk)), h7⟩
  | @direct rq B hk hp =>
    simp only at hk hp
    rw [hsz] at hp
    exact ⟨_, .direct hk hp, h1, rfl, rfl, rfl, rfl, fits_set h6 trivial, fits_snoc h7 (h6 (.recv rq B) (List.mem_of_getElem? hk))⟩
  | @begin_ pad rq B P w' out hk hp hst =>
    simp only at hk hp hst
    rw [hsz] at hp
    obtain ⟨v, g1, g2⟩ := (step_rel pad h1 _ (notOp (by intro j o; split <;> simp))).left hst
    obtain ⟨f1, f2⟩ : TFits (.recv rq B) := h6 _ (List.mem_of_getElem? hk)
    exact ⟨_, .begin_ hk hp g1, g2, rfl, rfl, rfl, rfl, fits_set h6 ⟨FSB.fits_prog f2 f1 hp, f1, f2⟩, h7⟩
  | @call pad rq B v o c w' out hk hst =>
    simp only at hk hst
    obtain ⟨f0, f3⟩ : TFits (.run rq B v (.op o c)) := h6 _ (List.mem_of_getElem? hk)
    obtain ⟨f1, f2⟩ := fits_op f0
    obtain ⟨v, g1, g2⟩ := (step_rel pad h1 _ (fun j o' e => by cases e; exact f1)).left hst
    exact ⟨_, .call hk g1, g2, rfl, rfl, rfl, rfl, fits_set h6 ⟨f2 out, f3⟩, h7⟩
  | @commit pad rq B v r w' out hk hst =>
    obtain ⟨v, g1, g2⟩ := (step_rel pad h1 _ (notOp (by simp))).left hst
    exact ⟨_, .commit hk g1, g2, rfl, rfl, rfl, rfl, fits_set h6 trivial, fits_snoc h7 (h6 (.run rq B _ _) (List.mem_of_getElem? hk)).2⟩
  | @unlock pad rq r w' out hk hst =>
    obtain ⟨v, g1, g2⟩ := (step_rel pad h1 _ (notOp (by simp))).left hst
    exact ⟨_, .unlock hk g1, g2, rfl, rfl, rfl, rfl, fits_set h6 trivial, h7⟩
  | answer hk => exact ⟨_, .answer hk, h1, rfl, rfl, rfl, rfl, fits_set h6 trivial, h7⟩
  | @reply rq B v r hk => exact ⟨_, .reply hk, h1, rfl, rfl, rfl, rfl, fits_set h6 (x := .leaving rq B v r) (h6 (.run rq B v _) (List.mem_of_getElem? hk)).2, h7⟩
  | @leave pad rq B v r w' out hk hst =>
    obtain ⟨v, g1, g2⟩ := (step_rel pad h1 _ (notOp (by simp))).left hst
    exact ⟨_, .leave hk g1, g2, rfl, rfl, rfl, rfl, fits_set h6 trivial, fits_snoc h7 (h6 (.leaving rq B _ r) (List.mem_of_getElem? hk))⟩
  | @finish pad rq w' out hk hst =>
    obtain ⟨v, g1, g2⟩ := (step_rel pad h1 _ (notOp (by simp))).left hst
    exact ⟨_, .finish hk g1, g2, rfl, rfl, rfl, rfl, fits_set h6 trivial, h7⟩

/-- A step on records is a step on bytes, whatever the padding. -/
theorem step_right (pad : Ino → Nat) {b : MSys} {m m' : MT.MSys} {k : Nat} (h : MSRel b m) (hs : MT.Step m k m') (hf : NewFits m.th m'.th k) :
    ∃ b', Step b k b' ∧ MSRel b' m' := by
  obtain ⟨bw, bth, bh, bhi, bse⟩ := b
  obtain ⟨w, th, he, hi, se⟩ := m
  obtain ⟨h1, h2, h3, h4, h5, h6, h7⟩ := h
  simp only at h1 h2 h3 h4 h5 h6 h7
  subst h2 h3 h4 h5
  have hsz : bw.disk.treei.size = w.disk.treei.size := h1.disk.treei.size
  cases hs with
  | @issue rq B hk =>
    simp only at hk
    refine ⟨_, .issue (rq := rq) (B := B) hk, h1, rfl, rfl, rfl, rfl, fits_set h6 (hf hk rq B (set_at hk)), h7⟩
  | @direct rq B hk hp =>
    simp only at hk hp
    rw [← hsz] at hp
    exact ⟨_, .direct hk hp, h1, rfl, rfl, rfl, rfl, fits_set h6 trivial, fits_snoc h7 (h6 (.recv rq B) (List.mem_of_getElem? hk))⟩
  | @begin_ rq B P w' out hk hp hst =>
    simp only at hk hp hst
    rw [← hsz] at hp
    obtain ⟨v, g1, g2⟩ := (step_rel pad h1 _ (notOp (by intro j o; split <;> simp))).right hst
    obtain ⟨f1, f2⟩ : TFits (.recv rq B) := h6 _ (List.mem_of_getElem? hk)
    exact ⟨_, .begin_ hk hp g1, g2, rfl, rfl, rfl, rfl, fits_set h6 ⟨FSB.fits_prog f2 f1 hp, f1, f2⟩, h7⟩
  | @call rq B v o c w' out hk hst =>
    simp only at hk hst
    obtain ⟨f0, f3⟩ : TFits (.run rq B v (.op o c)) := h6 _ (List.mem_of_getElem? hk)
    obtain ⟨f1, f2⟩ := fits_op f0
    obtain ⟨v, g1, g2⟩ := (step_rel pad h1 _ (fun j o' e => by cases e; exact f1)).right hst
    exact ⟨_, .call hk g1, g2, rfl, rfl, rfl, rfl, fits_set h6 ⟨f2 out, f3⟩, h7⟩
  | @commit rq B v r w' out hk hst =>
    obtain ⟨v, g1, g2⟩ := (step_rel pad h1 _ (notOp (by simp))).right hst
    exact ⟨_, .commit hk g1, g2, rfl, rfl, rfl, rfl, fits_set h6 trivial, fits_snoc h7 (h6 (.run rq B _ _) (List.mem_of_getElem? hk)).2⟩
  | @unlock rq r w' out hk hst =>
    obtain ⟨v, g1, g2⟩ := (step_rel pad h1 _ (notOp (by simp))).right hst
    exact ⟨_, .unlock hk g1, g2, rfl, rfl, rfl, rfl, fits_set h6 trivial, h7⟩
  | answer hk => exact ⟨_, .answer hk, h1, rfl, rfl, rfl, rfl, fits_set h6 trivial, h7⟩
  | @reply rq B v r hk => exact ⟨_, .reply hk, h1, rfl, rfl, rfl, rfl, fits_set h6 (x := .leaving rq B v r) (h6 (.run rq B v _) (List.mem_of_getElem? hk)).2, h7⟩
  | @leave rq B v r w' out hk hst =>
    obtain ⟨v, g1, g2⟩ := (step_rel pad h1 _ (notOp (by simp))).right hst
    exact ⟨_, .leave hk g1, g2, rfl, rfl, rfl, rfl, fits_set h6 trivial, fits_snoc h7 (h6 (.leaving rq B _ r) (List.mem_of_getElem? hk))⟩
  | @finish rq w' out hk hst =>
    obtain ⟨v, g1, g2⟩ := (step_rel pad h1 _ (notOp (by simp))).right hst
    exact ⟨_, .finish hk g1, g2, rfl, rfl, rfl, rfl, fits_set h6 trivial, h7⟩

theorem onDir_rel {b : Cache.B.DB} {d : DB} (h : DRel b d) (rq : Req) : FSB.onDir b rq ↔ rq.onDir d := by
  have key : ∀ (i : Ino), (∀ x, Cache.B.getattr b i = .ok (.ok x) → fmt x.2.mode = S_IFDIR) ↔ ∀ x, Cache.getattr d i = .ok x → fmt x.2.mode = S_IFDIR := by
    intro i
    rw [getattr_rel h]
    exact ⟨fun k x hx => k x (by rw [hx]), fun k x hx => k x (Except.ok.inj hx)⟩
  cases rq <;> first | exact key _ | exact Iff.rfl

theorem onLink_rel {b : Cache.B.DB} {d : DB} (h : DRel b d) (rq : Req) : FSB.onLink b rq ↔ rq.onLink d := by
  have key : ∀ (i : Ino), (∀ x, Cache.B.getattr b i = .ok (.ok x) → fmt x.2.mode = S_IFLNK) ↔ ∀ x, Cache.getattr d i = .ok x → fmt x.2.mode = S_IFLNK := by
    intro i
    rw [getattr_rel h]
    exact ⟨fun k x hx => k x (by rw [hx]), fun k x hx => k x (Except.ok.inj hx)⟩
  cases rq <;> first | exact key _ | exact Iff.rfl

theorem room_rel {b : ConcB.CWorld} {w : Conc.CWorld} (h : CWRel b w) : Room b ↔ MT.Room w := by
  unfold Room MT.Room
  rw [h.refs, h.disk.treei.size, h.disk.next]
  refine and_congr_right fun _ => and_congr_right fun _ => ?_
  constructor
  · intro k n hn
    have := k (leEnc 8 n) (by rw [hn]; rfl)
    rwa [leDec_leEnc 8 n (lt64.mp (h.disk.small n hn))] at this
  · intro k v hv
    cases hm : w.disk.next with
    | none => rw [hm] at hv; cases hv
    | some n =>
      rw [hm] at hv; cases hv
      rw [leDec_leEnc 8 n (lt64.mp (h.disk.small n hm))]
      exact k n hm

theorem Proper.new {b b' : MSys} {k : Nat} (h : Proper b k b') : NewFits b.th b'.th k := by
  intro hk rq B hr
  cases h with
  | issue h1 h2 h3 h4 h5 => rw [h1] at hr; cases hr; exact ⟨h2, h5⟩
  | begin_ h1 _ => rw [hk] at h1; cases h1
  | other _ h2 => exact absurd hr (h2 rq B)

theorem proper_left {b b' : MSys} {m m' : MT.MSys} {k : Nat} (h : MSRel b m) (h' : MSRel b' m') (hp : Proper b k b') : MT.Proper m k m' := by
  cases hp with
  | issue h1 h2 h3 h4 h5 => exact .issue (by rw [← h'.th]; exact h1) h2 (fun i => by rw [← h.held]; exact h3 i) h4
  | begin_ h1 h2 => exact .begin_ (by rw [← h.th]; exact h1) ((onDir_rel h.w.disk _).mp h2)
  | other h1 h2 => exact .other (by rw [← h.th]; exact h1) (by rw [← h'.th]; exact h2)

theorem proper_right {b b' : MSys} {m m' : MT.MSys} {k : Nat} (h : MSRel b m) (h' : MSRel b' m') (hp : MT.Proper m k m')
    (hf : ∀ rq B, m'.th[k]? = some (.recv rq B) → FSB.BackendFits B) : Proper b k b' := by
  cases hp with
  | issue h1 h2 h3 h4 => exact .issue (by rw [h'.th]; exact h1) h2 (fun i => by rw [h.held]; exact h3 i) h4 (hf _ _ h1)
  | begin_ h1 h2 => exact .begin_ (by rw [h.th]; exact h1) ((onDir_rel h.w.disk _).mpr h2)
  | other h1 h2 => exact .other (by rw [h.th]; exact h1) (by rw [h'.th]; exact h2)

/-- Mounting. -/
theorem mount_rel (pad pad' : Ino → Nat) {b : Cache.B.DB} {d : DB} (h : DRel b d) {uid gid : Nat} {now : Timespec} (hf : MountFits uid gid now) (n : Nat) :
    MRel MSRel (mount pad pad' b uid gid now n) (do let (d, r) ← openCleanDB (initDB d uid gid now) Refs.empty; pure (MT.MSys.start d r n)) := by
  unfold mount
  refine MRel.bind (R := fun x y => DRel x.1 y.1 ∧ x.2 = y.2) ?_ ?_
  · unfold Cache.B.openCleanDB openCleanDB
    refine (cleanOrphans_rel pad' (initDB_rel pad h hf) _).bind ?_
    rintro ⟨b1, r1⟩ ⟨d1, r2⟩ ⟨h, rfl⟩
    exact cleanOrphans_rel pad' h r1
  · rintro ⟨b1, r1⟩ ⟨d1, r2⟩ ⟨h, rfl⟩
    exact .ok (.start h r1 n)

theorem mount_left {pad pad' : Ino → Nat} {b : Cache.B.DB} {d : DB} (h : DRel b d) {uid gid : Nat} {now : Timespec} (hf : MountFits uid gid now) {n : Nat} {b' : MSys}
    (hm : mount pad pad' b uid gid now n = .ok b') :
    ∃ d' r', openCleanDB (initDB d uid gid now) Refs.empty = .ok (d', r') ∧ MSRel b' (.start d' r' n) := by
  obtain ⟨z, h1, h2⟩ := FSB.MRel.ok_left (mount_rel pad pad' h hf n) hm
  cases ho : openCleanDB (initDB d uid gid now) Refs.empty with
  | error e => rw [ho] at h1; cases h1
  | ok x => rw [ho] at h1; cases h1; exact ⟨x.1, x.2, rfl, h2⟩

theorem mount_right (pad pad' : Ino → Nat) {b : Cache.B.DB} {d : DB} (h : DRel b d) {uid gid : Nat} {now : Timespec} (hf : MountFits uid gid now) (n : Nat) {d' : DB} {r' : Refs}
    (ho : openCleanDB (initDB d uid gid now) Refs.empty = .ok (d', r')) : ∃ b', mount pad pad' b uid gid now n = .ok b' ∧ MSRel b' (.start d' r' n) := by
  have hm := mount_rel pad pad' h hf n
  rw [ho] at hm
  exact FSB.MRel.ok_right hm rfl

/-- States on bytes correspond to states on records. -/
theorem MReach.rel {b : MSys} (h : MReach b) : ∃ m, MT.MReach m ∧ MSRel b m := by
  induction h with
  | mount hf hm hr =>
    obtain ⟨d, r, h1, h2⟩ := mount_left DRel.empty hf hm
    exact ⟨_, .mount h1 ((room_rel h2.w).mp hr), h2⟩
  | remount _ hf hm hr ih =>
    obtain ⟨m, h1, h2⟩ := ih
    obtain ⟨d, r, h3, h4⟩ := mount_left h2.w.disk hf hm
    exact ⟨_, .remount h1 h3 ((room_rel h4.w).mp hr), h4⟩
  | step _ hs hp hr ih =>
    obtain ⟨m, h1, h2⟩ := ih
    obtain ⟨m', h3, h4⟩ := step_left h2 hs hp.new
    exact ⟨m', .step h1 h3 (proper_left h2 h4 hp) ((room_rel h4.w).mp hr), h4⟩

theorem Later.rel {fs : List Bytes} {P : Attrs → Prop} {b b' : MSys} (h : Later fs P b b') {m : MT.MSys} (hr : MSRel b m) : ∃ m', MT.Later fs P m m' ∧ MSRel b' m' := by
  induction h with
  | refl => exact ⟨m, .refl, hr⟩
  | step _ hs hp hroom hq ih =>
    obtain ⟨m1, k1, k2⟩ := ih
    obtain ⟨m2, k3, k4⟩ := step_left k2 hs hp.new
    refine ⟨m2, .step k1 k3 (proper_left k2 k4 hp) ((room_rel k4.w).mp hroom) (fun q e => ?_), k4⟩
    obtain ⟨g1, g2⟩ := hq q (by rw [k4.hist, k2.hist]; exact e)
    exact ⟨g1, (onLink_rel k2.w.disk _).mp g2⟩
  | crash _ hf hm hroom ih =>
    obtain ⟨m1, k1, k2⟩ := ih
    obtain ⟨d, r, h3, h4⟩ := mount_left k2.w.disk hf hm
    exact ⟨_, .crash k1 h3 ((room_rel h4.w).mp hroom), h4⟩

end Dragonstash.MTB
