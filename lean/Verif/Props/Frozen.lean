/-
  C106: disconnected, the mount shows an unchanging picture.
-/
import Verif.MT.Frozen
import Verif.Props.Monotonic
namespace Dragonstash.MT
open Cache FS Conc
variable {m m' m1 m2 : MSys} {b b1 b2 : Nat}

/-- The inode which a request is about. -/
def _root_.Dragonstash.FS.Req.about : Req → Option Ino
  | .lookup p _ => some p
  | .forget _ _ => none
  | .getattr i => some i
  | .readlink i => some i
  | .opendir i => some i
  | .readdir i _ _ => some i
  | .releasedir _ => none
  | .readdirplus i _ _ => some i
  | .forgetMulti _ => none
  | .other => none

/-- An inode and what is in it look the same in two databases. -/
structure SameAt (d d' : DB) (i : Ino) : Prop where
  path : Cache.path d' i = Cache.path d i
  attr : Cache.getattr d' i = Cache.getattr d i
  link : Cache.readlink d' i = Cache.readlink d i
  flag : ∀ f, testFlag d' i f = testFlag d i f
  names : ∀ n, Cache.lookup d' i n = Cache.lookup d i n
  list : ∀ c, c < W64 → Cache.readdir d' i c = Cache.readdir d i c

/-- What databases `d` tell about a request when nothing else can be asked. -/
def Told (d : DB) : Req → Reply → Prop
  | .lookup p n, rep =>
    (∀ i, Cache.lookup d p n = .ok (.ok i) → ∃ a, Cache.getattr d i = .ok (i, a) ∧ rep = .entry (osStat i a)) ∧
    ((∀ i, Cache.lookup d p n ≠ .ok (.ok i)) → rep = .err (if 503 < n.length then ENAMETOOLONG else if testFlag d p SYNCED = .ok true then ENOENT else EIO))
  | .getattr i, rep => ∃ a, Cache.getattr d i = .ok (i, a) ∧ rep = .attr (osStat i a)
  | .readlink i, rep => (∀ t, Cache.readlink d i = .ok t → rep = .readlink (t.takeWhile (· != 0))) ∧ ∀ e, Cache.readlink d i = .error e → rep = .err e
  | .opendir _, rep => rep = .opened
  | .readdir dir size off, rep => ∃ l, Stream d dir off l 0 true ∧
      rep = if 0 < size ∧ l = [] ∧ testFlag d dir SYNCED ≠ .ok true then .err EIO else .buf (fitFrom 24 size 0 (l.map Ent.dent)) (bufLen 24 (fitFrom 24 size 0 (l.map Ent.dent)))
  | .readdirplus dir size off, rep => ∃ l, Stream d dir off l 0 true ∧ rep = .bufPlus (fitFrom 152 size 0 (l.map Ent.dent)) (bufLen 152 (fitFrom 152 size 0 (l.map Ent.dent)))
  | .forget _ _, rep | .forgetMulti _, rep | .releasedir _, rep => rep = .none
  | .other, rep => rep = .err ENOSYS

theorem stream_unique {d : DB} {dir c : Ino} {l l' : List Ent} {e e' : Errno} {b b' : Bool} (h : Stream d dir c l e b) (h' : Stream d dir c l' e' b') : l = l' := by
  induction h generalizing l' e' b' with
  | stop h1 =>
    cases h' with
    | stop => rfl
    | noattr => rfl
    | entry k1 => rw [h1] at k1; cases k1
  | noattr h1 h2 =>
    cases h' with
    | stop => rfl
    | noattr => rfl
    | entry k1 k2 => rw [h1] at k1; cases k1; rw [h2] at k2; cases k2
  | entry h1 h2 _ ih =>
    cases h' with
    | stop k1 => rw [h1] at k1; cases k1
    | noattr k1 k2 => rw [h1] at k1; cases k1; rw [h2] at k2; cases k2
    | entry k1 k2 k3 => rw [h1] at k1; cases k1; rw [h2] at k2; cases k2; rw [ih k3]

/-- There is one thing the databases tell. -/
theorem told_unique {d : DB} {rq : Req} {rep rep' : Reply} (h : Told d rq rep) (h' : Told d rq rep') : rep = rep' := by
  cases rq with
  | lookup p n =>
    by_cases hx : ∃ i, Cache.lookup d p n = .ok (.ok i)
    · obtain ⟨i, hx⟩ := hx
      obtain ⟨a, h1, h2⟩ := h.1 i hx
      obtain ⟨a', h1', h2'⟩ := h'.1 i hx
      rw [h1] at h1'; cases h1'; rw [h2, h2']
    · rw [h.2 (fun i hi => hx ⟨i, hi⟩), h'.2 (fun i hi => hx ⟨i, hi⟩)]
  | getattr i =>
    obtain ⟨a, h1, h2⟩ := h
    obtain ⟨a', h1', h2'⟩ := h'
    rw [h1] at h1'; cases h1'; rw [h2, h2']
  | readlink i =>
    cases hx : Cache.readlink d i with
    | ok t => rw [h.1 t hx, h'.1 t hx]
    | error e => rw [h.2 e hx, h'.2 e hx]
  | readdir dir size off =>
    obtain ⟨l, h1, h2⟩ := h
    obtain ⟨l', h1', h2'⟩ := h'
    rw [h2, h2', stream_unique h1 h1']
  | readdirplus dir size off =>
    obtain ⟨l, h1, h2⟩ := h
    obtain ⟨l', h1', h2'⟩ := h'
    rw [h2, h2', stream_unique h1 h1']
  | opendir i => exact Eq.trans h (Eq.symm h')
  | forget i n => exact Eq.trans h (Eq.symm h')
  | forgetMulti l => exact Eq.trans h (Eq.symm h')
  | releasedir i => exact Eq.trans h (Eq.symm h')
  | other => exact Eq.trans h (Eq.symm h')

theorem conn_of_path {s : Tree} {d : DB} {r : Refs} (k : SI s d r) {i : Ino} (hi : i < W64) {p : Bytes} (h : Cache.path d i = .ok (.ok p)) : s.Conn i := by
  obtain ⟨cs, h1, -⟩ := k.rep.path_iff k.ok hi h
  exact ⟨cs, h1⟩

theorem agree_sameAt {s s' : Tree} {d d' : DB} {r r' : Refs} (h : Agree s s') (k : SI s d r) (k' : SI s' d' r') {i} (hi : s.Conn i) : SameAt d d' i :=
  ⟨agree_path h k k' hi, agree_getattr h k k' hi, agree_readlink h k k' hi, agree_flag h k k' hi, agree_lookup h k k' hi, fun _ hc => agree_readdir h k k' hi hc⟩

/-- **C106.** Whatever is reachable from the root stays as it is while the backend is not connected: paths, inode numbers, attributes, link
targets, flags, entries and their order — with any number of threads, and however often the process dies and is started again. -/
theorem C106_frozen (hm : MReach m) (h : Since Off m b m') {i : Ino} (hi : i < W64)
    (hp : (∃ p, Cache.path m.w.disk i = .ok (.ok p)) ∨ ∃ p, Cache.path m'.w.disk i = .ok (.ok p)) : SameAt m.w.disk m'.w.disk i := by
  obtain ⟨d0, r0, n, L, H, vs, R, ds, s, -, hM, hR⟩ := hm.inv
  obtain ⟨d0', r0', n', L', H', vs', R', ds', s', -, hM', hR'⟩ := (h.reach hm).inv
  obtain ⟨⟨t, h1, h2, h3⟩, -⟩ := h.fits (holds_off s) hm (fun t h1 h2 => by rw [Rep.inj h1 h2 hR.si.rep hR.si.ok]; exact .refl s)
  obtain rfl := Rep.inj h1 h2 hR'.si.rep hR'.si.ok
  refine agree_sameAt h3 hR.si hR'.si ?_
  rcases hp with ⟨p, hp⟩ | ⟨p, hp⟩
  · exact conn_of_path hR.si hi hp
  · exact h3.conn i (conn_of_path hR'.si hi hp)

/-- The trees which a request saw: the one it read, and the one the reference table belongs to. -/
theorem Since.saw {Q : DB → Req → Backend → Prop} {P : Tree → Prop} (hH : Holds Q P) (h : Since Q m b m') (hm : MReach m) (hP : ∀ s, Rep s m.w.disk → s.OK → P s)
    {k : Nat} {q : Done} (hkq : m'.hist[k]? = some q) (ha : q.after k b) :
    ∃ d d' e, (∀ s, Rep s d → s.OK → P s) ∧ (∀ s, Rep s d' → s.OK → P s) ∧ Saw (fun _ => True) d d' q ∧ Q e q.rq q.B := by
  obtain ⟨d0, r0, n, L, H, vs, R, ds, s, hst, hM, hR, hPI, hb, hQ, hk⟩ := h.inv hm
  have hl := hM.one.length
  obtain ⟨e1, he1⟩ : ∃ e1, ds[b]? = some e1 := ⟨_, List.getElem?_eq_getElem (by omega)⟩
  obtain ⟨t1, t2, t3, -⟩ := hPI.all e1 (List.mem_of_getElem? he1)
  have all : ∀ (j : Nat) (d : DB) (s : Tree), b ≤ j → ds[j]? = some d → Rep s d → s.OK → P s := fun j d s hj hd hs ok => by
    obtain ⟨s', f1, f2, f3⟩ := chain hH hM.one hPI he1 t2 t3 (hk hH hP e1 t1 he1 t2 t3) j d hj hd (fun l q e h1 h2 h3 h4 => hQ l q e h1 h3 h4)
    obtain rfl := Rep.inj f1 f2 hs ok
    exact f3
  have hkl := (List.getElem?_eq_some_iff.mp hkq).1
  obtain ⟨e, he⟩ : ∃ e, ds[k]? = some e := ⟨_, List.getElem?_eq_getElem (by omega)⟩
  obtain ⟨d, d', h1, h2, h3⟩ := hPI.saw k q hkq
  have : ∃ j, b ≤ j ∧ ds[j]? = some d := by
    unfold seen at h1
    split at h1
    · rename_i hr; exact ⟨_, ha.2 hr, h1⟩
    · exact ⟨_, ha.1, h1⟩
  obtain ⟨j, hj, hd⟩ := this
  exact ⟨d, d', e, fun s => all j d s hj hd, fun s => all (k + 1) d' s (by have := ha.1; omega) h2, h3, hQ k q e ha.1 hkq he⟩

/-- **C106.** Every request which begins after the backend was last connected is answered with what the databases told then. -/
theorem C106_told (hm : MReach m) (h : Since Off m b m') {k : Nat} {q : Done} (hq : m'.hist[k]? = some q) (ha : q.after k b)
    (hp : ∀ i, q.rq.about = some i → ∃ p, Cache.path m.w.disk i = .ok (.ok p)) : Told m.w.disk q.rq q.rep := by
  obtain ⟨d0, r0, n, L, H, vs, R, ds, s, -, hM, hR⟩ := hm.inv
  obtain ⟨d, d', e, h1, h2, h3, hB⟩ := h.saw (holds_off s) hm (fun t h1 h2 => by rw [Rep.inj h1 h2 hR.si.rep hR.si.ok]; exact .refl s) hq ha
  have hright := saw_right h3
  have K := hR.si
  obtain ⟨rq, B, v, rep⟩ := q
  simp only at hp hright hB ⊢
  have hconn : ∀ i, rq.about = some i → i < W64 → s.Conn i := fun i hi hb => by obtain ⟨p, hp⟩ := hp i hi; exact conn_of_path K hb hp
  cases h3 with
  | @wrote s1 r s2 r2 hr k1 ho hin hon hnx hnx2 k3 k4 =>
    simp only at hr hin hon
    have hag := h1 s1 k1.rep k1.ok
    cases rq with
    | lookup p n =>
      have hc := hconn p rfl hin
      have S := agree_sameAt hag K k1 hc
      obtain ⟨x, hx⟩ := hp p rfl
      obtain ⟨-, g⟩ := hright
      obtain ⟨-, g, -⟩ := g x (by rw [S.path]; exact hx)
      obtain ⟨g1, g2⟩ := g (hB.lstat _ _)
      rw [S.names, S.flag] at g2
      refine ⟨fun i hi => ?_, g2⟩
      obtain ⟨a, g3, g4⟩ := g1 i (by rw [S.names]; exact hi)
      refine ⟨a, ?_, g4⟩
      obtain ⟨cs, hcs⟩ := hc
      rw [agree_getattr hag K k1 ⟨_, .child ((K.rep.lookup_iff K.ok hin).mp hi) hcs⟩] at g3
      exact g3
    | readlink i =>
      have S := agree_sameAt hag K k1 (hconn i rfl hin)
      obtain ⟨x, hx⟩ := hp i rfl
      obtain ⟨-, g⟩ := hright
      obtain ⟨-, g, -⟩ := g x (by rw [S.path]; exact hx)
      have g := g (hB.readlink _)
      rw [S.link] at g
      exact g
    | opendir i =>
      have S := agree_sameAt hag K k1 (hconn i rfl hin)
      obtain ⟨x, hx⟩ := hp i rfl
      obtain ⟨-, g⟩ := hright
      obtain ⟨-, g, -⟩ := g x (by rw [S.path]; exact hx)
      exact g (hB.opendir _)
    | releasedir i => exact hright
    | other => exact hright
    | forget => cases hr
    | forgetMulti => cases hr
    | getattr => cases hr
    | readdir => cases hr
    | readdirplus => cases hr
  | @read s1 r st s2 hr hrep ok wf ho hin hret hcnt hh hsent hf k3 =>
    simp only at hr hin hh hsent
    have hag := h1 s1 hrep ok
    have hag2 := h2 s2 k3.rep k3.ok
    have k1 : SI s1 d Refs.empty := si_empty hrep ok wf
    cases rq with
    | lookup => cases hr
    | readlink => cases hr
    | opendir => cases hr
    | forget i n => exact hright
    | forgetMulti l => exact hright
    | releasedir i => exact hright
    | other => exact hright
    | getattr i =>
      have S := agree_sameAt hag K k1 (hconn i rfl hin)
      obtain ⟨nd, hnd⟩ := conn_exists K.ok (hconn i rfl hin)
      have hg := getattr_some K hnd
      refine ⟨_, hg, ?_⟩
      have g : rep = match Cache.getattr d i with | .ok (_, a) => .attr (osStat i a) | .error e => .err e := hright
      rw [S.attr, hg] at g
      exact g
    | readdir dir size off =>
      have hc := hconn dir rfl hin.1
      have S := agree_sameAt hag K k1 hc
      obtain ⟨x, hx⟩ := hp dir rfl
      obtain ⟨l, e0, b0, hs, hl, -, hlk, -⟩ := stream_exists k1 (dir := dir) (c := off) hin.1
      obtain ⟨rfl, rfl⟩ := hlk (path_linked hrep ok hin.1 (by rw [S.path]; exact hx))
      refine ⟨l, (agree_stream hag.symm k1 K (hag.symm.conn _ hc) hin.2 hs).1, ?_⟩
      simp only [handle] at hh
      rw [readdir_page (st := { disk := d, refs := r }) ⟨rfl, rfl⟩ hs hl] at hh
      cases hh
      simp only [reply_fresh, done, List.cons.injEq, and_true] at hsent
      rw [← hsent, S.flag]
    | readdirplus dir size off =>
      have hc := hconn dir rfl hin.1
      have S := agree_sameAt hag K k1 hc
      obtain ⟨x, hx⟩ := hp dir rfl
      obtain ⟨l, e0, b0, hs, hl, -, hlk, -⟩ := stream_exists k1 (dir := dir) (c := off) hin.1
      obtain ⟨rfl, rfl⟩ := hlk (path_linked hrep ok hin.1 (by rw [S.path]; exact hx))
      obtain ⟨f1, f2⟩ := agree_stream hag.symm k1 K (hag.symm.conn _ hc) hin.2 hs
      refine ⟨l, f1, ?_⟩
      have hlen : ∀ i, (r i).nrefs + l.length < W64 := fun i => by have := hcnt i; omega
      have hlock : lockable r l = l := by
        refine List.filter_eq_self.mpr fun y hy => ?_
        cases hd : (r y.1).doomed with
        | false => simp
        | true =>
          have hcy := hag2.symm.conn y.1 (hag.conn y.1 (f2 y hy))
          obtain ⟨nd, hnd⟩ := conn_exists k3.ok hcy
          rw [(k3.fresh y.1 hd).2] at hnd; cases hnd
      simp only [handle] at hh
      rcases readdirplus_stale (r := r) hs hl hlen (size := size) with ⟨-, g0, g⟩ | ⟨g0, g⟩ | ⟨-, P, x, Q, -, g0, g⟩
      · rw [g] at hh; cases hh
        simp only [done, ne_eq, not_true, if_false, List.cons.injEq, and_true] at hsent
        rw [hlock] at g0 hsent
        rw [g0]; exact hsent.symm
      · subst g0
        rw [g] at hh; cases hh; cases hsent
        cases l <;> simp [fitFrom]
      · rw [g] at hh; cases hh; cases hsent
        rw [hlock] at g0
        rw [g0]

/-- **C106.** So equal requests have equal replies: two requests which begin after the backend was last connected, in the same process or in
different ones, and however things went on in between. -/
theorem C106_same (hm : MReach m) (h1 : Since Off m b1 m1) (h2 : Since Off m b2 m2) {k1 k2 : Nat} {q1 q2 : Done} (hq1 : m1.hist[k1]? = some q1) (ha1 : q1.after k1 b1)
    (hq2 : m2.hist[k2]? = some q2) (ha2 : q2.after k2 b2) (he : q1.rq = q2.rq) (hp : ∀ i, q1.rq.about = some i → ∃ p, Cache.path m.w.disk i = .ok (.ok p)) :
    q1.rep = q2.rep := by
  have g1 := C106_told hm h1 hq1 ha1 hp
  have g2 := C106_told hm h2 hq2 ha2 (by rw [← he]; exact hp)
  rw [← he] at g2
  exact told_unique g1 g2

/-- What may happen without the process ending. -/
inductive Goes (Q : DB → Req → Backend → Prop) (m : MSys) : MSys → Prop
  | refl : Goes Q m m
  | step {m1 m2 k} : Goes Q m m1 → Step m1 k m2 → Proper m1 k m2 → Room m2.w → (∀ q, m2.hist = m1.hist ++ [q] → Q m1.w.disk q.rq q.B) → Goes Q m m2

theorem Goes.since {Q : DB → Req → Backend → Prop} (h : Goes Q m m') : Since Q m m.hist.length m' := by
  induction h with
  | refl => exact .refl
  | step _ h1 h2 h3 h4 ih => exact .step ih h1 h2 h3 h4

/-- **C106.** As long as the process runs, the database file is not changed at all. -/
theorem C106_untouched (hm : MReach m) (h : Goes Off m m') : m'.w.disk = m.w.disk := by
  induction h with
  | refl => rfl
  | @step m1 m2 k h hs hp hroom hq ih =>
    rw [← ih]
    obtain ⟨d0, r0, n, L, H, vs, R, ds, s, -, hM, hR⟩ := (h.since.reach hm).inv
    obtain ⟨L', H', vs', R', ds', hM', -⟩ := hM.step hs
    have h1 := hM'.one
    have hl' := hM'.last
    rcases step_hist hs with he | ⟨x, q, -, he, -⟩
    · rw [he] at h1
      obtain ⟨rfl, -⟩ := hM.one.det h1
      rw [hM.last] at hl'
      exact (Option.some.inj hl').symm
    · rw [he] at h1
      obtain ⟨ds1, r1, d, d1, st, g1, g2, g3, g4, -, -, -, rfl⟩ := h1.snoc_inv
      obtain ⟨rfl, -⟩ := hM.one.det g1
      rw [hM.last] at g3; cases g3
      rw [List.getLast?_concat] at hl'
      have hl' := (Option.some.inj hl').symm
      rw [hl']
      split
      · rfl
      · rename_i hro
        rw [if_neg hro, hM.last] at g2; cases g2
        have hd : dispatch q.B m1.w.disk r1 q.rq = .ok st.finish := by unfold dispatch; rw [g4]; rfl
        have := offline_disk (hq q he) hd
        rw [← this]
        unfold St.finish St.reply; split
        · split <;> rfl
        · rfl

/-! ### Non-vacuity -/

/-- Online, `a` is found and the root directory is read. The process ends, and the directory is mounted again. -/
def frozenDemo1 : List LEv := asks tblA (.lookup 1 [0x61]) 7 ++ asks tblA (.opendir 1) 10 ++ [.die 2]

/-- Disconnected: `a`, a name which does not exist, a listing. -/
def frozenDemo2 : List LEv := asks .offline (.lookup 1 [0x61]) 8 ++ asks .offline (.lookup 1 [0x62]) 7 ++ asks .offline (.readdirplus 1 500 0) 13

theorem frozen_asks : ∀ e ∈ frozenDemo2, e.Asks (fun _ B => Offline B) := by
  intro e he
  simp only [frozenDemo2, List.mem_append] at he
  rcases he with (he | he) | he
  · exact asks_Asks (rq := .lookup 1 [0x61]) offline_table e he
  · exact asks_Asks (rq := .lookup 1 [0x62]) offline_table e he
  · exact asks_Asks (rq := .readdirplus 1 500 0) offline_table e he

/-- The replies which are expected. -/
def frozenB (h : List (Req × Reply)) : Bool := match h with
  | [(.lookup 1 [0x61], .entry st), (.lookup 1 [0x62], .err e), (.readdirplus 1 500 0, .bufPlus l _)] =>
    decide (st = osStat 2 (fromBackend bDir)) && decide (e = ENOENT) && decide (l.map (·.name) = [[0x2e], [0x61], [0x6c]])
  | _ => false

/-- Online; then disconnected; then the process dies and is started again, disconnected. -/
def frozenRun : Option ((List (Req × Reply) × MSys × Nat) × (List (Req × Reply) × MSys × Nat) × (List (Req × Reply) × MSys × Nat)) := do
  let x ← lstart 2 frozenDemo1
  let y ← lrun x.1 x.2.1 x.2.2 frozenDemo2
  let z ← lrun y.1 y.2.1 y.2.2 (.die 3 :: frozenDemo2)
  pure (x, y, z)

theorem frozen_says : (match frozenRun with
    | some ((_, m, c), (_, m1, _), (_, m2, _)) => frozenB (m1.hist.map (fun q => (q.rq, q.rep))) && frozenB (m2.hist.map (fun q => (q.rq, q.rep))) &&
        decide (c = 0 ∧ m.hist = [] ∧ Cache.path m.w.disk 1 = .ok (.ok []) ∧ Cache.lookup m.w.disk 1 [0x61] = .ok (.ok 2) ∧
          m.th.all (fun t => match t with | .idle => true | _ => false) = true)
    | none => false) = true := by decide +kernel

theorem lrun_goes {Q : DB → Req → Backend → Prop} {Qe : Req → Backend → Prop} (hQ : ∀ d rq B, Qe rq B → Q d rq B) {m0 : MSys} : ∀ {l : List LEv} {past m cap past' m' cap'}, Goes Q m0 m →
    Ready Qe cap m → (∀ e ∈ l, e.Asks Qe) → (∀ e ∈ l, e.isDie = false) → lrun past m cap l = some (past', m', cap') → Goes Q m0 m' := by
  intro l
  induction l with
  | nil => intro past m cap past' m' cap' h _ _ _ hd; cases hd; exact h
  | cons e l ih =>
    intro past m cap past' m' cap' h hr hA hno hd
    cases e with
    | ev a =>
      simp only [lrun] at hd
      split at hd
      · cases hd
      · rename_i m1 cap1 hm
        obtain ⟨g1, k, g2, g3, g4⟩ := hr.event (hA _ (List.mem_cons_self ..)) hm
        exact ih (.step h g2 g3 g4 (fun q hq => hQ _ _ _ (g1.hist q (by rw [hq]; simp)))) g1 (fun e he => hA e (List.mem_cons_of_mem _ he)) (fun e he => hno e (List.mem_cons_of_mem _ he)) hd
    | die n => have := hno _ (List.mem_cons_self ..); cases this

/-- The hypotheses of `C106_frozen`, `C106_told`, `C106_same` and `C106_untouched` can be met: a listing in one process, and one in the next process; both show
`.`, `a` and `l`. -/
example : ∃ m m1 m2 b1 b2, MReach m ∧ Goes Off m m1 ∧ Since Off m b1 m1 ∧ Since Off m b2 m2 ∧ Cache.path m.w.disk 1 = .ok (.ok []) ∧ Cache.lookup m.w.disk 1 [0x61] = .ok (.ok 2) ∧
    ∃ q1 q2 l n, m1.hist[2]? = some q1 ∧ q1.after 2 b1 ∧ m2.hist[2]? = some q2 ∧ q2.after 2 b2 ∧ q1.rq = .readdirplus 1 500 0 ∧ q2.rq = .readdirplus 1 500 0 ∧
      q1.rep = .bufPlus l n ∧ l.map (·.name) = [[0x2e], [0x61], [0x6c]] := by
  have hs := frozen_says
  generalize hd : frozenRun = o at hs
  obtain _ | ⟨⟨p0, m, c0⟩, ⟨p1, m1, c1⟩, p2, m2, c2⟩ := o
  · cases hs
  unfold frozenRun at hd
  obtain ⟨⟨p0', y0, c0'⟩, h1, hd⟩ := Option.bind_eq_some_iff.mp hd
  obtain ⟨⟨p1', y1, c1'⟩, h2, hd⟩ := Option.bind_eq_some_iff.mp hd
  obtain ⟨⟨p2', y2, c2'⟩, h3, hd⟩ := Option.bind_eq_some_iff.mp hd
  cases hd
  simp only at h2 h3
  simp only [Bool.and_eq_true, decide_eq_true_eq] at hs
  obtain ⟨⟨e1, e2⟩, e3, e4, e5, e6, e7⟩ := hs
  obtain ⟨g1, g2⟩ := lstart_life (Qe := fun _ _ => True) (fun e _ => anyAsks e) h1
  have g2' : Ready (fun _ B => Offline B) c0 m := by
    refine ⟨g2.reach, g2.counts, fun j st hj => ?_, fun q hq => by rw [e4] at hq; cases hq⟩
    have := List.all_eq_true.mp e7 st (List.mem_of_getElem? hj)
    cases st with
    | idle => trivial
    | recv => cases this
    | run => cases this
    | committed => cases this
    | answer => cases this
    | leaving => cases this
    | left => cases this
  obtain ⟨f1, f2, b1, f3, -, f4⟩ := lrun_since (Q := Off) (fun _ _ _ h => h) (.refl (m := m)) g1 g2' frozen_asks h2
  obtain ⟨j1, j2, b2, j3, j4, -⟩ := lrun_since (Q := Off) (fun _ _ _ h => h) f3 f1 f2 (fun e he => by
    rcases List.mem_cons.mp he with rfl | he
    · trivial
    · exact frozen_asks e he) h3
  have hb1 := f4 (by decide)
  have hb2 := j4 (by decide)
  rw [e4] at hb1
  simp only [List.length_nil] at hb1
  subst hb2 hb1
  have key : ∀ {y : MSys}, frozenB (y.hist.map (fun q => (q.rq, q.rep))) = true → ∃ q l n, y.hist[2]? = some q ∧ q.rq = .readdirplus 1 500 0 ∧ q.rep = .bufPlus l n ∧
      l.map (·.name) = [[0x2e], [0x61], [0x6c]] := by
    intro y hy
    unfold frozenB at hy
    split at hy
    · rename_i st e l n he
      simp only [Bool.and_eq_true, decide_eq_true_eq] at hy
      have : (y.hist.map (fun q => (q.rq, q.rep)))[2]? = some (.readdirplus 1 500 0, .bufPlus l n) := by rw [he]; rfl
      rw [List.getElem?_map] at this
      obtain ⟨q, hq, hh⟩ := Option.map_eq_some_iff.mp this
      cases q with
      | mk rq B v rep => cases hh; exact ⟨_, l, n, hq, rfl, rfl, hy.2⟩
    · cases hy
  have hno : ∀ e ∈ frozenDemo2, e.isDie = false := by
    have h : (frozenDemo2.all (fun e => !e.isDie)) = true := by decide
    intro e he
    have := List.all_eq_true.mp h e he
    simpa using this
  obtain ⟨q1, l, n, k1, k2, k3, k4⟩ := key e1
  obtain ⟨q2, -, -, k5, k6, -⟩ := key e2
  exact ⟨m, m1, m2, 0, 0, g1.reach, lrun_goes (Q := Off) (fun _ _ _ h => h) .refl g2' frozen_asks hno h2, f3, j3, e5, e6, q1, q2, l, n, k1, ⟨Nat.zero_le _, fun _ => Nat.zero_le _⟩, k5, ⟨Nat.zero_le _, fun _ => Nat.zero_le _⟩, k2, k6, k3, k4⟩

end Dragonstash.MT
