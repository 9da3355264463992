/-
  Inode numbers keep their meaning, and nothing goes back to an earlier state: on the stored bytes (C101).
-/
import Verif.Props.Monotonic
import Verif.Props.FSBytesMulti
namespace Dragonstash.MTB
open Cache FS Cache.B

/-! ### Specification -/

/-- As `MT.Life`, on the bytes of the database file: a cache in use, and all answers which its earlier processes
have sent. -/
inductive Life : List (Req × Reply) → MSys → Prop
  | mount {pad pad' uid gid now n m} : MountFits uid gid now → mount pad pad' Cache.B.emptyDB uid gid now n = .ok m → Room m.w → Life [] m
  | remount {past m pad pad' uid gid now n m'} : Life past m → MountFits uid gid now → MTB.mount pad pad' m.w.disk uid gid now n = .ok m' → Room m'.w →
      Life (past ++ m.sent) m'
  | step {past m m' k} : Life past m → Step m k m' → Proper m k m' → Room m'.w → Life past m'

/-- As `MT.Since`: what may happen after `m`, if all requests which end satisfy `Q`. -/
inductive Since (Q : Cache.B.DB → Req → Backend → Prop) (m : MSys) : Nat → MSys → Prop
  | refl : Since Q m m.hist.length m
  | step {b m1 m2 k} : Since Q m b m1 → Step m1 k m2 → Proper m1 k m2 → Room m2.w → (∀ q, m2.hist = m1.hist ++ [q] → Q m1.w.disk q.rq q.B) → Since Q m b m2
  | crash {b m1 pad pad' uid gid now n m2} : Since Q m b m1 → MountFits uid gid now → mount pad pad' m1.w.disk uid gid now n = .ok m2 → Room m2.w →
      Since Q m 0 m2

/-- Reachable, if the kernel looks up, and the backend lists, no empty names. -/
inductive TidyReach : MSys → Prop
  | mount {pad pad' uid gid now n m} : MountFits uid gid now → mount pad pad' Cache.B.emptyDB uid gid now n = .ok m → Room m.w → TidyReach m
  | remount {m pad pad' uid gid now n m'} : TidyReach m → MountFits uid gid now → MTB.mount pad pad' m.w.disk uid gid now n = .ok m' → Room m'.w → TidyReach m'
  | step {m m' k} : TidyReach m → Step m k m' → Proper m k m' → Room m'.w → (∀ q ∈ m'.hist, MT.Tidy q.rq q.B) → TidyReach m'

/-- What the backend reports about inode `i` is in `S` (as `MT.Reports`). -/
def Reports (S : Attrs → Prop) (i : Ino) (d : Cache.B.DB) (B : Backend) : Prop :=
  ∀ b, Cache.B.path d i = .ok (.ok b) → (∀ c sr, B.lstat c b = .ok sr → S (fromBackend sr)) ∧ ∀ t, B.readlink b = .ok t → ∀ a, S a → fmt a.mode = S_IFLNK → S { a with size := t.length }

/-! ### Transfer -/

theorem Life.rel {past : List (Req × Reply)} {b : MSys} (h : Life past b) : ∃ m, MT.Life past m ∧ MSRel b m := by
  induction h with
  | mount hf hm hr =>
    obtain ⟨d, r, h1, h2⟩ := mount_left DRel.empty hf hm
    exact ⟨_, .mount h1 ((room_rel h2.w).mp hr), h2⟩
  | remount _ hf hm hr ih =>
    obtain ⟨m, h1, h2⟩ := ih
    obtain ⟨d, r, h3, h4⟩ := mount_left h2.w.disk hf hm
    refine ⟨_, ?_, h4⟩
    rw [h2.sent]
    exact .remount h1 h3 ((room_rel h4.w).mp hr)
  | step _ hs hp hr ih =>
    obtain ⟨m, h1, h2⟩ := ih
    obtain ⟨m', h3, h4⟩ := step_left h2 hs hp.new
    exact ⟨m', .step h1 h3 (proper_left h2 h4 hp) ((room_rel h4.w).mp hr), h4⟩

theorem Since.rel {Q : Cache.B.DB → Req → Backend → Prop} {Q' : Cache.DB → Req → Backend → Prop} (hQ : ∀ {b d rq B}, DRel b d → Q b rq B → Q' d rq B) {b b' : MSys} {n : Nat}
    (h : Since Q b n b') {m : MT.MSys} (hr : MSRel b m) : ∃ m', MT.Since Q' m n m' ∧ MSRel b' m' := by
  induction h with
  | refl => exact ⟨m, by rw [hr.hist]; exact .refl, hr⟩
  | step _ hs hp hroom hq ih =>
    obtain ⟨m1, k1, k2⟩ := ih
    obtain ⟨m2, k3, k4⟩ := step_left k2 hs hp.new
    exact ⟨m2, .step k1 k3 (proper_left k2 k4 hp) ((room_rel k4.w).mp hroom) (fun q e => hQ k2.w.disk (hq q (by rw [k4.hist, k2.hist]; exact e))), k4⟩
  | crash _ hf hm hroom ih =>
    obtain ⟨m1, k1, k2⟩ := ih
    obtain ⟨d, r, h3, h4⟩ := mount_left k2.w.disk hf hm
    exact ⟨_, .crash k1 h3 ((room_rel h4.w).mp hroom), h4⟩

theorem TidyReach.rel {b : MSys} (h : TidyReach b) : ∃ m, MT.MReachQ MT.Tidy m ∧ MSRel b m := by
  induction h with
  | mount hf hm hr =>
    obtain ⟨d, r, h1, h2⟩ := mount_left DRel.empty hf hm
    exact ⟨_, .mount h1 ((room_rel h2.w).mp hr), h2⟩
  | remount _ hf hm hr ih =>
    obtain ⟨m, h1, h2⟩ := ih
    obtain ⟨d, r, h3, h4⟩ := mount_left h2.w.disk hf hm
    exact ⟨_, .remount h1 h3 ((room_rel h4.w).mp hr), h4⟩
  | step _ hs hp hr hq ih =>
    obtain ⟨m, h1, h2⟩ := ih
    obtain ⟨m', h3, h4⟩ := step_left h2 hs hp.new
    exact ⟨m', .step h1 h3 (proper_left h2 h4 hp) ((room_rel h4.w).mp hr) (fun q e => hq q (by rw [h4.hist]; exact e)), h4⟩

theorem reports_rel {S : Attrs → Prop} {i : Ino} {b : Cache.B.DB} {d : Cache.DB} {rq : Req} {B : Backend} (h : DRel b d) (hq : MT.Tidy rq B ∧ Reports S i b B) :
    MT.Tidy rq B ∧ MT.Reports S i d B := ⟨hq.1, fun p hp => hq.2 p (by rw [path_rel h]; exact hp)⟩

/-! ### Theorems -/

/-- C101: as `MT.C99_kind`. -/
theorem C101_kind {past : List (Req × Reply)} {m : MSys} (h : Life past m) {a b : Req × Reply} (ha : a ∈ past ++ m.sent) (hb : b ∈ past ++ m.sent) {x y : OsStat}
    (hx : MT.Stats a.2 x) (hy : MT.Stats b.2 y) (hi : x.ino = y.ino) : x.mode &&& 0o170000 = y.mode &&& 0o170000 := by
  obtain ⟨m', h1, h2⟩ := h.rel
  rw [h2.sent] at ha hb
  exact MT.C99_kind h1 ha hb hx hy hi

/-- C101: as `MT.C99_place`. -/
theorem C101_place {past : List (Req × Reply)} {m : MSys} (h : Life past m) {a b : Req × Reply} (ha : a ∈ past ++ m.sent) (hb : b ∈ past ++ m.sent) {i p p' : Ino} {n n' : Bytes}
    (hx : MT.Under a p n i) (hy : MT.Under b p' n' i) : p = p' ∧ n = n' := by
  obtain ⟨m', h1, h2⟩ := h.rel
  rw [h2.sent] at ha hb
  exact MT.C99_place h1 ha hb hx hy

/-- C101: as `MT.C99_gone`. -/
theorem C101_gone {past : List (Req × Reply)} {m m' : MSys} (h : Life past m) {a : Req × Reply} (ha : a ∈ past ++ m.sent) {i p : Ino} {n : Bytes} (hp : p < W64) (hx : MT.Under a p n i)
    (hg : Cache.B.lookup m.w.disk p n ≠ .ok (.ok i)) {b : Nat} (hs : Since (fun _ _ _ => True) m b m') :
    Cache.B.lookup m'.w.disk p n ≠ .ok (.ok i) ∧ ∀ (k : Nat) (q : MT.Done), m'.hist[k]? = some q → q.after k b → ¬ MT.Under (q.rq, q.rep) p n i := by
  obtain ⟨m1, h1, h2⟩ := h.rel
  obtain ⟨m2, h3, h4⟩ := hs.rel (Q' := fun _ _ _ => True) (fun _ h => h) h2
  rw [h2.sent] at ha
  rw [lookup_rel h2.w.disk] at hg
  rw [lookup_rel h4.w.disk, h4.hist]
  exact MT.C99_gone h1 ha hp hx hg h3

/-- C101: as `MT.C99_removed`. -/
theorem C101_removed {past : List (Req × Reply)} {m m' : MSys} (h : Life past m) {a : Req × Reply} (ha : a ∈ past ++ m.sent) {x : OsStat} (hx : MT.Stats a.2 x)
    {e : Errno} (hg : Cache.B.getattr m.w.disk x.ino = .ok (.error e)) {b : Nat} (hs : Since (fun _ _ _ => True) m b m') :
    Cache.B.getattr m'.w.disk x.ino = .ok (.error ENOENT) ∧ ∀ (k : Nat) (q : MT.Done), m'.hist[k]? = some q → q.after k b → ∀ y, MT.Stats q.rep y → y.ino ≠ x.ino := by
  obtain ⟨m1, h1, h2⟩ := h.rel
  obtain ⟨m2, h3, h4⟩ := hs.rel (Q' := fun _ _ _ => True) (fun _ h => h) h2
  rw [h2.sent] at ha
  rw [getattr_rel h2.w.disk] at hg
  rw [getattr_rel h4.w.disk, h4.hist]
  obtain ⟨g1, g2⟩ := MT.C99_removed h1 ha hx (Except.ok.inj hg) h3
  exact ⟨by rw [g1], g2⟩

/-- C101: as `MT.C99_new`. -/
theorem C101_new {past : List (Req × Reply)} {m m' : MSys} {k : Nat} (h : Life past m) (hs : Step m k m') (hp : Proper m k m') (hroom : Room m'.w)
    {q : MT.Done} (hq : m'.hist = m.hist ++ [q]) {p : Ino} {n : Bytes} (hb : p < W64) (hrq : q.rq = .lookup p n) {st : OsStat} (hrep : q.rep = .entry st)
    (hnew : Cache.B.lookup m.w.disk p n ≠ .ok (.ok st.ino)) : ∀ a ∈ past ++ m.sent, ∀ x, MT.Stats a.2 x → x.ino ≠ st.ino := by
  obtain ⟨m1, h1, h2⟩ := h.rel
  obtain ⟨m2, h3, h4⟩ := step_left h2 hs hp.new
  rw [h2.sent]
  rw [h4.hist, h2.hist] at hq
  rw [lookup_rel h2.w.disk] at hnew
  exact MT.C99_new h1 h3 (proper_left h2 h4 hp) ((room_rel h4.w).mp hroom) hq hb hrq hrep hnew

/-- C101: as `MT.C100_kept`. -/
theorem C101_kept {S : Attrs → Prop} {i : Ino} {m m' : MSys} {b : Nat} (h : TidyReach m) (hs : Since (fun d rq B => MT.Tidy rq B ∧ Reports S i d B) m b m') (hi : i < W64)
    {a : Attrs} (ha : Cache.B.getattr m.w.disk i = .ok (.ok (i, a))) (hS : S a) :
    (∀ a', Cache.B.getattr m'.w.disk i = .ok (.ok (i, a')) → S a') ∧ ∀ (k : Nat) (q : MT.Done), m'.hist[k]? = some q → q.after k b → ∀ a', MT.Stats q.rep (osStat i a') → S a' := by
  obtain ⟨m1, h1, h2⟩ := h.rel
  obtain ⟨m2, h3, h4⟩ := hs.rel (Q' := fun d rq B => MT.Tidy rq B ∧ MT.Reports S i d B) reports_rel h2
  rw [getattr_rel h2.w.disk] at ha
  rw [getattr_rel h4.w.disk, h4.hist]
  obtain ⟨g1, g2⟩ := MT.C100_kept h1 h3 hi (Except.ok.inj ha) hS
  exact ⟨fun a' h' => g1 a' (Except.ok.inj h'), g2⟩

/-- C101: as `MT.C100_replies`. -/
theorem C101_replies {S : Attrs → Prop} {i : Ino} {m m' m'' : MSys} {b b' : Nat} (h : TidyReach m) (hs : Since (fun d rq B => MT.Tidy rq B ∧ Reports S i d B) m b m')
    {k : Nat} {q : MT.Done} (hk : m'.hist[k]? = some q) (hq : q.after k b) {a : Attrs} (hst : MT.Stats q.rep (osStat i a)) (hS : S a)
    (hs' : Since (fun d rq B => MT.Tidy rq B ∧ Reports S i d B) m' b' m'') {k' : Nat} {q' : MT.Done} (hk' : m''.hist[k']? = some q') (hq' : q'.after k' b')
    {a' : Attrs} (hst' : MT.Stats q'.rep (osStat i a')) : S a' := by
  obtain ⟨m1, h1, h2⟩ := h.rel
  obtain ⟨m2, h3, h4⟩ := hs.rel (Q' := fun d rq B => MT.Tidy rq B ∧ MT.Reports S i d B) reports_rel h2
  obtain ⟨m3, h5, h6⟩ := hs'.rel (Q' := fun d rq B => MT.Tidy rq B ∧ MT.Reports S i d B) reports_rel h4
  rw [h4.hist] at hk
  rw [h6.hist] at hk'
  exact MT.C100_replies h1 h3 hk hq hst hS h5 hk' hq' hst'

/-! ### Examples -/

/-- Checked histories on records are histories on bytes. -/
theorem lrun_bytes (pad : Ino → Nat) {Q : Cache.B.DB → Req → Backend → Prop} {Qe : Req → Backend → Prop} (hQ : ∀ d rq B, Qe rq B → Q d rq B) (hF : ∀ rq B, Qe rq B → FSB.BackendFits B) (hT : ∀ rq B, Qe rq B → MT.Tidy rq B) {b0 : MSys} :
    ∀ {l : List MT.LEv} {past m cap past' m' cap' n b}, MT.Life past m → MT.Ready Qe cap m → (∀ e ∈ l, e.Asks Qe) → MT.lrun past m cap l = some (past', m', cap') →
    MSRel b m → Life past b → TidyReach b → Since Q b0 n b → ∃ b' n', MSRel b' m' ∧ Life past' b' ∧ TidyReach b' ∧ Since Q b0 n' b' ∧ (l.any MT.LEv.isDie = true → n' = 0) ∧ (l.any MT.LEv.isDie = false → n' = n) := by
  intro l
  induction l with
  | nil => intro past m cap past' m' cap' n b _ _ _ hd h1 h2 h3 h4; cases hd; exact ⟨b, n, h1, h2, h3, h4, by simp, by simp⟩
  | cons e l ih =>
    intro past m cap past' m' cap' n b hL hr hA hd h1 h2 h3 h4
    cases e with
    | ev a =>
      simp only [MT.lrun] at hd
      split at hd
      · cases hd
      · rename_i m1 cap1 hm
        obtain ⟨g1, k, g2, g3, g4⟩ := hr.event (hA _ (List.mem_cons_self ..)) hm
        have hf : ∀ rq B, m1.th[k]? = some (.recv rq B) → FSB.BackendFits B := fun rq B hk => hF _ _ (g1.asks k _ hk)
        have hnew : NewFits m.th m1.th k := by
          intro hk rq B hrc
          cases g3 with
          | issue e1 e2 e3 e4 => rw [e1] at hrc; cases hrc; exact ⟨e2, hf _ _ e1⟩
          | begin_ e1 _ => rw [hk] at e1; cases e1
          | other _ e2 => exact absurd hrc (e2 rq B)
        obtain ⟨b1, k1, k2⟩ := step_right pad h1 g2 hnew
        have hp := proper_right h1 k2 g3 hf
        have hroom := (room_rel k2.w).mpr g4
        obtain ⟨b', n', f0, f1, f2, f3, f4, f5⟩ := ih (.step hL g2 g3 g4) g1 (fun e he => hA e (List.mem_cons_of_mem _ he)) hd k2 (.step h2 k1 hp hroom)
          (.step h3 k1 hp hroom (fun q hq => hT _ _ (g1.hist q (by rw [← k2.hist]; exact hq)))) (.step h4 k1 hp hroom (fun q hq => hQ _ _ _ (g1.hist q (by rw [← k2.hist, hq]; simp))))
        exact ⟨b', n', f0, f1, f2, f3, fun h => f4 (by simpa [MT.LEv.isDie] using h), fun h => f5 (by simpa [MT.LEv.isDie] using h)⟩
    | die t =>
      simp only [MT.lrun] at hd
      split at hd
      · cases hd
      · rename_i d r ho
        split at hd
        · rename_i hroom
          obtain ⟨_, _, _, _, _, _, _, _, s, _, _, hR, _⟩ := hr.reach.any.inv MT.kept_true
          have hi : Cache.initDB m.w.disk 0 0 ⟨0, 0⟩ = m.w.disk := by unfold Cache.initDB; rw [hR.si.rep.next]
          have ho' := ho
          rw [hi] at ho'
          have hc : ∀ i, ((Conc.CWorld.start d r).refs i).nrefs ≤ 0 := fun i => Nat.le_of_eq (open_counts (MT.si_empty hR.si.rep hR.si.ok hR.si.wf) ho' i)
          have hroom' := MT.roomB_iff hc hroom
          obtain ⟨b1, k1, k2⟩ := mount_right pad pad h1.w.disk zero_fits t ho
          have hr1 := (room_rel k2.w).mpr hroom'
          obtain ⟨b', n', f0, f1, f2, f3, f4, f5⟩ := ih (.remount hL ho hroom') (MT.ready_start (.remount hr.reach ho hroom') hc) (fun e he => hA e (List.mem_cons_of_mem _ he)) hd k2
            (by rw [← h1.sent]; exact .remount h2 zero_fits k1 hr1) (.remount h3 zero_fits k1 hr1) (.crash h4 zero_fits k1 hr1)
          refine ⟨b', n', f0, f1, f2, f3, fun _ => ?_, fun h => by simp [MT.LEv.isDie] at h⟩
          cases hx : l.any MT.LEv.isDie with
          | true => exact f4 hx
          | false => exact f5 hx
        · cases hd

theorem lstart_bytes (pad : Ino → Nat) {Qe : Req → Backend → Prop} (hF : ∀ rq B, Qe rq B → FSB.BackendFits B) (hT : ∀ rq B, Qe rq B → MT.Tidy rq B) {n : Nat} {l : List MT.LEv} {past m cap}
    (hA : ∀ e ∈ l, e.Asks Qe) (h : MT.lstart n l = some (past, m, cap)) : ∃ b, MSRel b m ∧ Life past b ∧ TidyReach b ∧ MT.Life past m ∧ MT.Ready Qe cap m := by
  have hlife := MT.lstart_life hA h
  unfold MT.lstart at h
  split at h
  · cases h
  · rename_i d r ho
    split at h
    · rename_i hroom
      have hc : ∀ i, ((Conc.CWorld.start d r).refs i).nrefs ≤ 0 := by
        obtain ⟨s, h1, h2, h3⟩ := Cache.root_rep 0 0 ⟨0, 0⟩
        exact fun i => Nat.le_of_eq (open_counts (MT.si_empty h1 h2 h3) ho i)
      have hroom' := MT.roomB_iff hc hroom
      obtain ⟨b, k1, k2⟩ := mount_right pad pad DRel.empty zero_fits n ho
      have hr := (room_rel k2.w).mpr hroom'
      obtain ⟨b', -, f0, f1, f2, -⟩ := lrun_bytes pad (Q := fun _ _ _ => True) (fun _ _ _ _ => trivial) hF hT (.mount ho hroom') (MT.ready_start (.mount ho hroom') hc) hA h k2
        (.mount zero_fits k1 hr) (.mount zero_fits k1 hr) .refl
      exact ⟨b', f0, f1, f2, hlife⟩
    · cases h

/-- What happens in the examples. -/
def asksFits (rq : Req) (B : Backend) : Prop := FSB.BackendFits B ∧ MT.Tidy rq B

def tidyT (t : Tbl) : Bool := t.dirs.all (fun x => match x.2 with | .ok (l, _) => !l.contains [] | _ => true)

theorem tidyT_iff {t : Tbl} (h : tidyT t = true) {p names e} (ho : t.backend.opendir p = .ok (names, e)) : [] ∉ names := by
  cases hx : t.dirs.lookup p with
  | none => simp only [Tbl.backend, hx] at ho; cases ho
  | some v =>
    simp only [Tbl.backend, hx, Option.getD_some] at ho
    have := List.all_eq_true.mp h _ (lookup_mem hx)
    rw [ho] at this
    simpa using this

theorem tbl_ok {t : Tbl} (h1 : FSB.fitsT t = true) (h2 : tidyT t = true) {rq : Req} (h : rq.named) : asksFits rq t.backend :=
  ⟨FSB.fitsT_iff h1, h, fun _ _ _ ho => tidyT_iff h2 ho⟩

theorem demo1_ok : ∀ e ∈ MT.lifeDemo1, e.Asks asksFits := by
  intro e he
  rcases List.mem_append.mp he with he | he
  · exact MT.asks_Asks (tbl_ok (by decide +kernel) (by decide +kernel) (rq := .lookup 1 [0x61]) (List.cons_ne_nil _ _)) e he
  · exact MT.asks_Asks (tbl_ok (by decide +kernel) (by decide +kernel) (rq := .lookup 1 [0x61]) (List.cons_ne_nil _ _)) e he

theorem demo2_ok : ∀ e ∈ MT.lifeDemo2, e.Asks asksFits := by
  intro e he
  rcases List.mem_append.mp he with he | he
  · exact MT.asks_Asks (tbl_ok (by decide +kernel) (by decide +kernel) (rq := .getattr 2) trivial) e he
  · rw [List.mem_singleton.mp he]; trivial

theorem demo3_ok : ∀ e ∈ MT.lifeDemo3, e.Asks asksFits := fun e he =>
  MT.asks_Asks (tbl_ok (by decide +kernel) (by decide +kernel) (rq := .readdirplus 1 500 0) trivial) e he

theorem twoLives_bytes (pad : Ino → Nat) {l1 l2 : List MT.LEv} (h1 : ∀ e ∈ l1, e.Asks asksFits) (h2 : ∀ e ∈ l2, e.Asks asksFits) {past1 m1 c1 past m c} (h : MT.twoLives l1 l2 = some ((past1, m1, c1), (past, m, c))) :
    ∃ b1 b n, MSRel b1 m1 ∧ MSRel b m ∧ Life past1 b1 ∧ Life past b ∧ Since (fun _ _ _ => True) b1 n b ∧ (l2.any MT.LEv.isDie = true → n = 0) ∧ (l2.any MT.LEv.isDie = false → n = b1.hist.length) := by
  unfold MT.twoLives at h
  obtain ⟨x, g1, h⟩ := Option.bind_eq_some_iff.mp h
  obtain ⟨y, g2, h⟩ := Option.bind_eq_some_iff.mp h
  cases h
  obtain ⟨b1, f1, f2, f3, f4, f5⟩ := lstart_bytes pad (fun _ _ h => h.1) (fun _ _ h => h.2) h1 g1
  obtain ⟨b, n, e1, e2, e3, e4, e5, e6⟩ := lrun_bytes pad (Q := fun _ _ _ => True) (fun _ _ _ _ => trivial) (fun _ _ h => h.1) (fun _ _ h => h.2) f4 f5 h2 g2 f1 f2 f3 .refl
  exact ⟨b1, b, n, f1, e1, f2, e2, e4, e5, e6⟩

/-- The hypotheses of `C101_kind`, `C101_place` and `C101_removed` can be met. -/
example (pad : Ino → Nat) : ∃ past m m' b, Life past m ∧ Since (fun _ _ _ => True) m b m' ∧
    (∃ a ∈ past ++ m.sent, ∃ c ∈ past ++ m.sent, a ≠ c ∧ MT.Stats a.2 (osStat 2 (fromBackend bDir)) ∧ MT.Stats c.2 (osStat 2 (fromBackend bDir)) ∧ MT.Under a 1 [0x61] 2) ∧
    Cache.B.getattr m.w.disk 2 = .ok (.error ENOENT) ∧ ∃ q, m'.hist[0]? = some q ∧ q.after 0 b ∧ q.rq = .readdirplus 1 500 0 := by
  have hs := MT.lifeDemo_says
  generalize hd : MT.twoLives (MT.lifeDemo1 ++ MT.lifeDemo2) MT.lifeDemo3 = o at hs
  obtain _ | ⟨⟨past1, m1, c1⟩, past, m, c⟩ := o
  · cases hs
  simp only [Bool.and_eq_true, decide_eq_true_eq] at hs
  obtain ⟨⟨e1, e2, e3, e4, e5⟩, h2⟩ := hs
  obtain ⟨b1, b, n, r1, r2, l1, -, hsn, -, hb⟩ := twoLives_bytes pad (fun e he => (List.mem_append.mp he).elim (demo1_ok e) (demo2_ok e)) demo3_ok hd
  have hb := hb (by decide)
  rw [r1.hist, e4] at hb; subst hb
  subst e1
  refine ⟨_, b1, b, _, l1, hsn, ⟨(.lookup 1 [0x61], .entry (osStat 2 (fromBackend bDir))), by simp, (.getattr 2, .attr (osStat 2 (fromBackend bDir))), by simp, by simp, rfl, rfl, ⟨rfl, rfl, rfl⟩⟩,
    by rw [getattr_rel r1.w.disk, e3], ?_⟩
  rw [r2.hist]
  unfold MT.listsB at h2
  split at h2
  · rename_i l n hm
    cases hh : m.hist with
    | nil => rw [hh, hm] at e5; cases e5
    | cons q t =>
      rw [hh, hm] at e5
      simp only [List.map_cons, List.cons.injEq, Prod.mk.injEq] at e5
      exact ⟨q, rfl, ⟨Nat.zero_le _, fun _ => Nat.zero_le _⟩, e5.1.1⟩
  · cases h2

/-- The hypotheses of `C101_gone` can be met. -/
example (pad : Ino → Nat) : ∃ past m m' b, Life past m ∧ Since (fun _ _ _ => True) m b m' ∧ (∃ a ∈ past ++ m.sent, MT.Under a 1 [0x61] 2) ∧ Cache.B.lookup m.w.disk 1 [0x61] ≠ .ok (.ok 2) ∧
    ∃ q, m'.hist[0]? = some q ∧ q.after 0 b ∧ q.rq = .readdirplus 1 500 0 := by
  have hs := MT.lifeDemo_gone
  generalize hd : MT.twoLives MT.lifeDemo1 (MT.lifeDemo2 ++ MT.lifeDemo3) = o at hs
  obtain _ | ⟨⟨past1, m1, c1⟩, past, m, c⟩ := o
  · cases hs
  simp only [decide_eq_true_eq] at hs
  obtain ⟨e1, e2, e3, e4⟩ := hs
  obtain ⟨b1, b, n, r1, r2, l1, -, hsn, hb, -⟩ := twoLives_bytes pad demo1_ok (fun e he => (List.mem_append.mp he).elim (demo2_ok e) (demo3_ok e)) hd
  have hb := hb (by decide)
  subst hb
  refine ⟨_, b1, b, _, l1, hsn, ⟨(.lookup 1 [0x61], .entry (osStat 2 (fromBackend bDir))), List.mem_append_right _ (by rw [r1.sent, e2]; exact List.mem_cons_self ..), ⟨rfl, rfl, rfl⟩⟩,
    by rw [lookup_rel r1.w.disk, e3]; decide, ?_⟩
  rw [r2.hist]
  cases hh : m.hist with
  | nil => rw [hh] at e4; cases e4
  | cons q t =>
    rw [hh] at e4
    simp only [List.map_cons, List.cons.injEq] at e4
    exact ⟨q, rfl, ⟨Nat.zero_le _, fun _ => Nat.zero_le _⟩, e4.1⟩

/-- The hypotheses of `C101_new` can be met: the directory `a` was shown; now a file is found at its place. -/
example (pad : Ino → Nat) : ∃ past m m' k q st, Life past m ∧ Step m k m' ∧ Proper m k m' ∧ Room m'.w ∧ m'.hist = m.hist ++ [q] ∧ q.rq = .lookup 1 [0x61] ∧ q.rep = .entry st ∧ st.ino = 3 ∧
    Cache.B.lookup m.w.disk 1 [0x61] ≠ .ok (.ok st.ino) ∧ ∃ a ∈ past ++ m.sent, ∃ x, MT.Stats a.2 x ∧ x.ino = 2 := by
  have hs := MT.lifeDemo_new
  generalize hd : MT.twoLives (MT.asks tblA (.lookup 1 [0x61]) 7 ++ MT.asks MT.tblF (.lookup 1 [0x61]) 4) [.ev (.go 0)] = o at hs
  obtain _ | ⟨⟨past1, m1, c1⟩, past, m, c⟩ := o
  · cases hs
  simp only [decide_eq_true_eq] at hs
  obtain ⟨e1, e2, e3⟩ := hs
  unfold MT.twoLives at hd
  obtain ⟨x, g1, hd⟩ := Option.bind_eq_some_iff.mp hd
  obtain ⟨y, g2, hd⟩ := Option.bind_eq_some_iff.mp hd
  cases hd
  obtain ⟨b1, f1, f2, f3, f4, f5⟩ := lstart_bytes pad (Qe := asksFits) (fun _ _ h => h.1) (fun _ _ h => h.2) (fun e he => by
    rcases List.mem_append.mp he with he | he
    · exact MT.asks_Asks (tbl_ok (by decide +kernel) (by decide +kernel) (rq := .lookup 1 [0x61]) (List.cons_ne_nil _ _)) e he
    · exact MT.asks_Asks (tbl_ok (by decide +kernel) (by decide +kernel) (rq := .lookup 1 [0x61]) (List.cons_ne_nil _ _)) e he) g1
  simp only [MT.lrun] at g2
  split at g2
  · cases g2
  · rename_i m' cap' hm
    cases g2
    obtain ⟨j1, k, j2, j3, j4⟩ := f5.event (a := .go 0) trivial hm
    have hf : ∀ rq B, m.th[k]? = some (.recv rq B) → FSB.BackendFits B := fun rq B hk => (j1.asks k _ hk).1
    have hnew : NewFits m1.th m.th k := by
      intro hk rq B hrc
      cases j3 with
      | issue e1 e2 e3 e4 => rw [e1] at hrc; cases hrc; exact ⟨e2, hf _ _ e1⟩
      | begin_ e1 _ => rw [hk] at e1; cases e1
      | other _ e2 => exact absurd hrc (e2 rq B)
    obtain ⟨b2, k1, k2⟩ := step_right pad f1 j2 hnew
    obtain ⟨q, hq⟩ := MT.event_hist j2 (by have := congrArg List.length e3; simpa using this)
    rw [hq, List.map_append] at e3
    have e4 := List.append_cancel_left e3
    simp only [List.map_cons, List.map_nil, List.cons.injEq, Prod.mk.injEq, and_true] at e4
    exact ⟨_, b1, b2, k, q, _, f2, k1, proper_right f1 k2 j3 hf, (room_rel k2.w).mpr j4, by rw [k2.hist, f1.hist]; exact hq, e4.1, e4.2, rfl, by rw [lookup_rel f1.w.disk, e2]; decide,
      (.lookup 1 [0x61], .entry (osStat 2 (fromBackend bDir))), List.mem_append_right _ (by rw [f1.sent, e1]; exact List.mem_cons_self ..), osStat 2 (fromBackend bDir), rfl, rfl⟩

theorem mono_fits : ∀ e ∈ MT.monoDemo1 ++ MT.monoDemo2, e.Asks (fun rq B => FSB.BackendFits B ∧ MT.fromFive rq B) := by
  intro e he
  simp only [MT.monoDemo1, MT.monoDemo2, List.mem_append] at he
  rcases he with he | (he | he) | he
  · exact MT.asks_Asks ⟨FSB.fitsT_iff (by decide +kernel), MT.fromFive_tbl (rq := .lookup 1 [0x61]) (List.cons_ne_nil _ _) (by decide)⟩ e he
  · exact MT.asks_Asks ⟨FSB.fitsT_iff (by decide +kernel), MT.fromFive_tbl (rq := .lookup 1 [0x61]) (List.cons_ne_nil _ _) (by decide)⟩ e he
  · rw [List.mem_singleton.mp he]; trivial
  · exact MT.asks_Asks ⟨FSB.fitsT_iff (by decide +kernel), MT.fromFive_off (rq := .getattr 2) trivial⟩ e he

/-- The hypotheses of `C101_replies` and `C101_kept` can be met: the file is shown as modified at 5, and later, after the process died, as modified at 7. -/
example (pad : Ino → Nat) : ∃ (m m' m'' : MSys) (b : Nat) (q q' : MT.Done) (a a' : Attrs), TidyReach m ∧ Since (fun d rq B => MT.Tidy rq B ∧ Reports (fun a => MT.notBefore ⟨5, 0⟩ a.mtime) 2 d B) m b m' ∧
    Since (fun d rq B => MT.Tidy rq B ∧ Reports (fun a => MT.notBefore ⟨5, 0⟩ a.mtime) 2 d B) m' 0 m'' ∧ m'.hist[0]? = some q ∧ q.after 0 b ∧ m''.hist[0]? = some q' ∧ q'.after 0 0 ∧
    MT.Stats q.rep (osStat 2 a) ∧ a.mtime = ⟨5, 0⟩ ∧ MT.Stats q'.rep (osStat 2 a') ∧ a'.mtime = ⟨7, 0⟩ ∧ TidyReach m' ∧ Cache.B.getattr m'.w.disk 2 = .ok (.ok (2, a)) := by
  have hs := MT.threeMoments_says
  generalize hd : MT.threeMoments = o at hs
  obtain _ | ⟨m, m', m''⟩ := o
  · cases hs
  simp only [decide_eq_true_eq] at hs
  obtain ⟨e1, e2, e3⟩ := hs
  have hd0 := hd
  unfold MT.threeMoments at hd
  obtain ⟨x, h1, hd⟩ := Option.bind_eq_some_iff.mp hd
  obtain ⟨y, h2, hd⟩ := Option.bind_eq_some_iff.mp hd
  obtain ⟨z, h3, hd⟩ := Option.bind_eq_some_iff.mp hd
  cases hd
  have hQ : ∀ (d : Cache.B.DB) rq B, (FSB.BackendFits B ∧ MT.fromFive rq B) → MT.Tidy rq B ∧ Reports (fun a => MT.notBefore ⟨5, 0⟩ a.mtime) 2 d B :=
    fun d rq B hq => ⟨hq.2.1, fun b _ => ⟨fun c sr hl => hq.2.2 c b sr hl, fun _ _ _ ha _ => ha⟩⟩
  obtain ⟨b0, f1, f2, f3, f4, f5⟩ := lstart_bytes pad (Qe := fun rq B => FSB.BackendFits B ∧ MT.fromFive rq B) (fun _ _ h => h.1) (fun _ _ h => h.2.1) (fun e he => by cases he) h1
  obtain ⟨b1, n1, k1, k2, k3, k4, -, k5⟩ := lrun_bytes pad hQ (fun _ _ h => h.1) (fun _ _ h => h.2.1) f4 f5 (fun e he => mono_fits e (List.mem_append_left _ he)) h2 f1 f2 f3 .refl
  obtain ⟨g1, g2, -⟩ := MT.lrun_since (Q := fun _ rq B => FSB.BackendFits B ∧ MT.fromFive rq B) (fun _ _ _ h => h) .refl f4 f5 (fun e he => mono_fits e (List.mem_append_left _ he)) h2
  obtain ⟨b2, n2, j1, j2, j3, j4, j5, -⟩ := lrun_bytes pad hQ (fun _ _ h => h.1) (fun _ _ h => h.2.1) g1 g2 (fun e he => mono_fits e (List.mem_append_right _ he)) h3 k1 k2 k3 .refl
  have hb := k5 (by decide)
  have hb' := j5 (by decide)
  subst hb hb'
  have one : ∀ {l : List MT.Done} {rq rep}, l.map (fun q => (q.rq, q.rep)) = [(rq, rep)] → ∃ q, l[0]? = some q ∧ q.rq = rq ∧ q.rep = rep := by
    intro l rq rep h
    match l, h with
    | [q], h =>
      simp only [List.map_cons, List.map_nil, List.cons.injEq, Prod.mk.injEq, and_true] at h
      exact ⟨q, rfl, h.1, h.2⟩
  obtain ⟨q, q1, q2, q3⟩ := one e2
  obtain ⟨q', q4, q5, q6⟩ := one e3
  have hga : (match MT.threeMoments with | some (_, m', _) => decide (Cache.getattr m'.w.disk 2 = .ok (2, fromBackend { bFile 9 with mtime := ⟨5, 0⟩ })) | none => false) = true := by decide +kernel
  rw [hd0] at hga
  refine ⟨b0, b1, b2, _, q, q', fromBackend { bFile 9 with mtime := ⟨5, 0⟩ }, fromBackend { bFile 9 with mtime := ⟨7, 0⟩ }, f3, k4, j4, by rw [k1.hist]; exact q1, ?_, by rw [j1.hist]; exact q4,
    ⟨Nat.le_refl _, fun _ => Nat.zero_le _⟩, ?_, rfl, ?_, rfl, k3, ?_⟩
  · rw [f1.hist, e1]; exact ⟨Nat.le_refl _, fun _ => Nat.zero_le _⟩
  · rw [q3]; rfl
  · rw [q6]; rfl
  · rw [getattr_rel k1.w.disk]; exact congrArg _ (of_decide_eq_true hga)

end Dragonstash.MTB
