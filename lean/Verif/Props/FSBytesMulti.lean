/-
  C86: several threads serve requests on the bytes of the database file; the process may die at any moment.
-/
import Verif.MT.Bytewise
import Verif.Props.FSBytes
namespace Dragonstash.MTB
open Cache FS Conc ConcB
open MT (TState Done prog readOnly directReply)

/-! ### Specification -/

/-- All reading functions give the same results on two database files. (They may differ in padding bytes.) -/
structure SameReads (b b' : Cache.B.DB) : Prop where
  path : ∀ i, Cache.B.path b i = Cache.B.path b' i
  lookup : ∀ p n, Cache.B.lookup b p n = Cache.B.lookup b' p n
  getattr : ∀ i, Cache.B.getattr b i = Cache.B.getattr b' i
  readlink : ∀ i, Cache.B.readlink b i = Cache.B.readlink b' i
  readdir : ∀ d i, Cache.B.readdir b d i = Cache.B.readdir b' d i
  testFlag : ∀ i f, Cache.B.testFlag b i f = Cache.B.testFlag b' i f
  parent : ∀ i, Cache.B.parent b i = Cache.B.parent b' i
  name : ∀ i, Cache.B.name b i = Cache.B.name b' i
  next : b.next = b'.next

/-- `OneByOne pads d0 r0 ds r H` (as `MT.OneByOne`): starting with the database file `d0` and reference table
`r0`, the requests of `H` are served one after the other, without threads (`FSB.serve`); the replies are as
`H` says, `ds` are the files after 0, 1, 2, ... requests, `r` is the reference table at the end.
Requests which only read the databases see those after `q.ver` requests, the others the newest
ones. `pads` is the content of padding bytes. -/
inductive OneByOne (pads : Nat → Ino → Nat) (d0 : Cache.B.DB) (r0 : Refs) : List Cache.B.DB → Refs → List Done → Prop
  | start : OneByOne pads d0 r0 [d0] r0 []
  | ro {ds r H q d d1 held y} : OneByOne pads d0 r0 ds r H → readOnly q.rq = true → ds[q.ver]? = some d → ds.getLast? = some d1 →
      FSB.serve pads q.B ⟨d, r, held⟩ q.rq = .ok (y, q.rep) → OneByOne pads d0 r0 (ds ++ [d1]) y.refs (H ++ [q])
  | rw {ds r H q d held y} : OneByOne pads d0 r0 ds r H → readOnly q.rq = false → ds.getLast? = some d →
      FSB.serve pads q.B ⟨d, r, held⟩ q.rq = .ok (y, q.rep) → OneByOne pads d0 r0 (ds ++ [y.disk]) y.refs (H ++ [q])

/-- Steps of threads, no restart. -/
inductive Steps : MSys → MSys → Prop
  | refl {m} : Steps m m
  | step {m m1 m2 k} : Steps m m1 → Step m1 k m2 → Steps m m2

/-! ### Proofs -/

theorem same_of {b b' : Cache.B.DB} {d : DB} (h : DRel b d) (h' : DRel b' d) : SameReads b b' where
  path i := by rw [path_rel h, path_rel h']
  lookup p n := by rw [lookup_rel h, lookup_rel h']
  getattr i := by rw [getattr_rel h, getattr_rel h']
  readlink i := by rw [readlink_rel h, readlink_rel h']
  readdir d i := by rw [readdir_rel h, readdir_rel h']
  testFlag i f := by rw [testFlag_rel h, testFlag_rel h']
  parent i := by rw [parent_rel h, parent_rel h']
  name i := by rw [name_rel h, name_rel h']
  next := by rw [h.next, h'.next]

theorem forall2_get {α β : Type} {R : α → β → Prop} {l : List α} {m : List β} (h : List.Forall₂ R l m) : ∀ {k : Nat} {y : β}, m[k]? = some y → ∃ x, l[k]? = some x ∧ R x y := by
  induction h with
  | nil => intro k y hy; cases hy
  | @cons a b l m hab _ ih =>
    intro k y hy
    cases k with
    | zero => cases hy; exact ⟨a, rfl, hab⟩
    | succ k => exact ih hy

theorem forall2_last {α β : Type} {R : α → β → Prop} {l : List α} {m : List β} (h : List.Forall₂ R l m) {y : β} (hy : m.getLast? = some y) : ∃ x, l.getLast? = some x ∧ R x y := by
  rw [List.getLast?_eq_getElem?] at hy ⊢
  rw [← h.length_eq] at hy
  exact forall2_get h hy

theorem forall2_snoc {α β : Type} {R : α → β → Prop} {l : List α} {m : List β} (h : List.Forall₂ R l m) {x : α} {y : β} (hxy : R x y) : List.Forall₂ R (l ++ [x]) (m ++ [y]) := by
  induction h with
  | nil => exact .cons hxy .nil
  | cons h1 _ ih => exact .cons h1 ih

theorem handle_serveR {B : Backend} {d : DB} {r : Refs} {rq : Req} {st : St} {rep : Reply} (held : Ino → Nat) (h : handle B { disk := d, refs := r } rq = .ok st) (hs : st.sent = [rep])
    (hf : st.fault = none) : ∃ y, FSB.serveR B ⟨d, r, held⟩ rq = .ok (y, rep) ∧ y.disk = st.disk ∧ y.refs = st.refs := by
  refine ⟨(⟨d, r, held⟩ : FS.Sys).after rq st, FSB.serveR_answered.mpr ⟨st, ?_, hf, hs, rfl⟩, rfl, rfl⟩
  unfold dispatch
  rw [h]
  show Except.ok st.finish = _
  unfold St.finish
  rw [if_neg (by rw [hs]; simp)]

/-- Requests served one after the other on records are served so on bytes. -/
theorem one_bytes (pads : Nat → Ino → Nat) {d0 : DB} {r0 : Refs} {ds : List DB} {r : Refs} {H : List Done} (h : MT.OneByOne d0 r0 ds r H) {b0 : Cache.B.DB} (h0 : DRel b0 d0)
    (hf : ∀ q ∈ H, q.rq.inRange ∧ FSB.BackendFits q.B) : ∃ bs, OneByOne pads b0 r0 bs r H ∧ List.Forall₂ DRel bs ds := by
  induction h with
  | start => exact ⟨[b0], .start, .cons h0 .nil⟩
  | @ro ds r H q d d1 st _ h1 h2 h3 h4 h5 h6 ih =>
    obtain ⟨bs, g1, g2⟩ := ih (fun q hq => hf q (List.mem_append_left _ hq))
    obtain ⟨f1, f2⟩ := hf q (by simp)
    obtain ⟨b, e1, e2⟩ := forall2_get g2 h2
    obtain ⟨b1, e3, e4⟩ := forall2_last g2 h3
    obtain ⟨y, k1, k2, k3⟩ := handle_serveR (fun _ => 0) h4 h5 h6
    obtain ⟨⟨y', rep'⟩, k4, k5, k6⟩ := FSB.MRel.ok_right (FSB.serve_rel pads (b := ⟨b, r, fun _ => 0⟩) ⟨e2, rfl, rfl⟩ f2 f1) k1
    simp only at k5 k6
    subst k6
    rw [← k3, ← k5.refs]
    exact ⟨_, .ro g1 h1 e1 e3 k4, forall2_snoc g2 e4⟩
  | @rw ds r H q d st _ h1 h3 h4 h5 h6 ih =>
    obtain ⟨bs, g1, g2⟩ := ih (fun q hq => hf q (List.mem_append_left _ hq))
    obtain ⟨f1, f2⟩ := hf q (by simp)
    obtain ⟨b1, e3, e4⟩ := forall2_last g2 h3
    obtain ⟨y, k1, k2, k3⟩ := handle_serveR (fun _ => 0) h4 h5 h6
    obtain ⟨⟨y', rep'⟩, k4, k5, k6⟩ := FSB.MRel.ok_right (FSB.serve_rel pads (b := ⟨b1, r, fun _ => 0⟩) ⟨e4, rfl, rfl⟩ f2 f1) k1
    simp only at k5 k6
    subst k6
    rw [← k3, ← k5.refs]
    exact ⟨_, .rw g1 h1 e3 k4, forall2_snoc g2 (k2 ▸ k5.disk)⟩

/-- **C86**: every state of the threads on bytes has a counterpart in the model of `Verif.MT.Model`: the same
threads, replies and counts; each thread can make the same steps in both (whatever the padding), and they lead
to such states again. So all properties stated there hold for the bytes. -/
theorem C86_transfer {b : MSys} (h : MReach b) : ∃ m, MT.MReach m ∧ MSRel b m ∧ b.th = m.th ∧ b.held = m.held ∧ b.hist = m.hist ∧ b.sent = m.sent ∧ b.w.refs = m.w.refs ∧
    (∀ i, Cache.B.path b.w.disk i = path m.w.disk i) ∧ (∀ p n, Cache.B.lookup b.w.disk p n = lookup m.w.disk p n) ∧ (∀ i, Cache.B.getattr b.w.disk i = .ok (getattr m.w.disk i)) ∧
    (∀ k b', Step b k b' → Proper b k b' → Room b'.w → ∃ m', MT.Step m k m' ∧ MSRel b' m' ∧ MT.Proper m k m' ∧ MT.Room m'.w) ∧
    (∀ k m', MT.Step m k m' → MT.Proper m k m' → MT.Room m'.w → (∀ rq B, m'.th[k]? = some (.recv rq B) → FSB.BackendFits B) → ∃ b', Step b k b' ∧ MSRel b' m' ∧ Proper b k b' ∧ Room b'.w) := by
  obtain ⟨m, h1, h2⟩ := h.rel
  refine ⟨m, h1, h2, h2.th, h2.held, h2.hist, h2.sent, h2.w.refs, fun i => path_rel h2.w.disk i, fun p n => lookup_rel h2.w.disk p n, fun i => getattr_rel h2.w.disk i, ?_, ?_⟩
  · intro k b' hs hp hr
    obtain ⟨m', k1, k2⟩ := step_left h2 hs hp.new
    exact ⟨m', k1, k2, proper_left h2 k2 hp, (room_rel k2.w).mp hr⟩
  · intro k m' hs hp hr hf
    have hnew : NewFits m.th m'.th k := by
      intro hk rq B hrc
      cases hp with
      | issue g1 g2 g3 g4 => rw [g1] at hrc; cases hrc; exact ⟨g2, hf _ _ g1⟩
      | begin_ g1 _ => rw [hk] at g1; cases g1
      | other _ g2 => exact absurd hrc (g2 rq B)
    obtain ⟨b', k1, k2⟩ := step_right (fun _ => 0) h2 hs hnew
    exact ⟨b', k1, k2, proper_right h2 k2 hp hf, (room_rel k2.w).mpr hr⟩

/-- At every moment, so also when the process dies, the database file has the layout of C66. -/
theorem C86_layout {b : MSys} (h : MReach b) : Layout b.w.disk := by
  obtain ⟨m, h1, h2⟩ := h.rel
  obtain ⟨d0, r0, n, L, H, vs, R, ds, s, hst, hM, hR, -⟩ := h1.any.inv MT.kept_true
  exact h2.w.disk.layout hR.si.rep hR.si.ok

/-- Any interleaving of any number of threads gives the replies, and leaves the contents of the file, which the
requests produce when they are served one after the other in the order in which they ended, by one
thread (`FSB.serve`; the padding may be anything). -/
theorem C86_serial {b : MSys} (h : MReach b) (pads : Nat → Ino → Nat) :
    ∃ d0 r0 n bs R d, Steps (.start d0 r0 n) b ∧ OneByOne pads d0 r0 bs R b.hist ∧ bs.getLast? = some d ∧ SameReads d b.w.disk ∧ (b.w.mutex = none → R = b.w.refs) := by
  have key : ∃ b0 d0 r0 n m, DRel b0 d0 ∧ Steps (.start b0 r0 n) b ∧ MT.Steps (.start d0 r0 n) m ∧ MSRel b m := by
    induction h with
    | mount hf hm hr =>
      have hm0 := hm
      obtain ⟨d, r, h1, h2⟩ := mount_left DRel.empty hf hm
      unfold mount at hm
      obtain ⟨⟨b1, r1⟩, -, h4⟩ := Codec.bind_eq_ok hm
      cases h4
      obtain rfl : r1 = r := h2.w.refs
      exact ⟨b1, d, r1, _, _, h2.w.disk, .refl, .refl, h2⟩
    | @remount m0 pad pad' uid gid now n m' h0 hf hm hr ih =>
      obtain ⟨_, _, _, _, m, _, _, _, hR⟩ := ih
      obtain ⟨d, r, h1, h2⟩ := mount_left hR.w.disk hf hm
      unfold mount at hm
      obtain ⟨⟨b1, r1⟩, -, h4⟩ := Codec.bind_eq_ok hm
      cases h4
      obtain rfl : r1 = r := h2.w.refs
      exact ⟨b1, d, r1, _, _, h2.w.disk, .refl, .refl, h2⟩
    | step _ hs hp hr ih =>
      obtain ⟨b0, d0, r0, n, m, h0, h1, h2, h3⟩ := ih
      obtain ⟨m', k1, k2⟩ := step_left h3 hs hp.new
      exact ⟨b0, d0, r0, n, m', h0, .step h1 hs, .step h2 k1, k2⟩
  obtain ⟨b0, d0, r0, n, m, h0, h1, h2, h3⟩ := key
  obtain ⟨ds, R, g1, g2, g3⟩ := MT.C57_serial h2
  obtain ⟨bs, g4, g5⟩ := one_bytes pads g1 h0 h3.ended
  obtain ⟨d, g6, g7⟩ := forall2_last g5 g2
  refine ⟨b0, r0, n, bs, R, d, h1, by rw [h3.hist]; exact g4, g6, same_of g7 h3.w.disk, fun hx => ?_⟩
  rw [h3.w.refs]
  exact g3 (by rw [← h3.w.mutex]; exact hx)

/-- The kernel never holds more lookups of an inode than are counted in memory. -/
theorem C86_counts {b : MSys} (h : MReach b) (i : Ino) : b.held i ≤ (b.w.refs i).nrefs := by
  obtain ⟨m, h1, h2⟩ := h.rel
  rw [h2.held, h2.w.refs]
  exact MT.C58_counts h1 i

/-- An inode which the kernel holds has a record in the file. -/
theorem C86_exists {b : MSys} (h : MReach b) {i : Ino} (hi : 0 < b.held i) : ∃ a, Cache.B.getattr b.w.disk i = .ok (.ok (i, a)) := by
  obtain ⟨m, h1, h2⟩ := h.rel
  rw [h2.held] at hi
  obtain ⟨a, ha⟩ := MT.C58_exists h1 hi
  exact ⟨a, by rw [getattr_rel h2.w.disk, ha]⟩

/-- No thread fails whatever bytes the file got in the history: a thread with a request makes its next step, or
waits for a lock, or is the one with the known double reply of `readdir`. -/
theorem C86_lives {b : MSys} (h : MReach b) {k : Nat} {st : TState} (hk : b.th[k]? = some st) (hn : st ≠ .idle) :
    (∃ b', Step b k b') ∨ Waits b k ∨ TwoReplies b k := by
  obtain ⟨m, h1, h2⟩ := h.rel
  rw [h2.th] at hk
  have wait : ∀ c, (∀ k o, c = .on k (.op o) → o.Fits) → m.w.step c = .blocked → ∀ pad, b.w.step pad c = .blocked := by
    intro c hc hb pad
    exact (step_rel pad h2.w c hc).blocked'.mpr hb
  rcases MT.C59_lives_partial h1 hk hn with ⟨m', hs⟩ | hw | ht
  · obtain ⟨b', g1, -⟩ := step_right (fun _ => 0) h2 hs (fun hi => by rw [hk] at hi; exact absurd (Option.some.inj hi) hn)
    exact .inl ⟨b', g1⟩
  · right; left
    cases hw with
    | writer e1 e2 => exact .writer (by rw [h2.th]; exact e1) (wait _ (by intro k o e; cases e) e2)
    | @mutex rq B v o c e1 e2 =>
      have hf : TFits (.run rq B v (.op o c)) := h2.fits _ (List.mem_of_getElem? e1)
      exact .mutex (by rw [h2.th]; exact e1) (wait _ (by intro k o' e; cases e; exact (fits_op hf.1).1) e2)
  · obtain ⟨i, size, off, B, v, e, r, ht⟩ := ht
    exact .inr (.inr ⟨i, size, off, B, v, e, r, by rw [h2.th]; exact ht⟩)

/-- The process dies at any moment, whatever the threads are doing. Mounting again succeeds, no inode is
locked, and all inodes which have a path have it again, with the same attributes, link target, flags and
entries. -/
theorem C86_crash {b : MSys} (h : MReach b) (pad pad' : Ino → Nat) {uid gid : Nat} {now : Timespec} (hf : MountFits uid gid now) (n : Nat) :
    ∃ b', mount pad pad' b.w.disk uid gid now n = .ok b' ∧ (∀ i, (b'.w.refs i).nrefs = 0) ∧
      ∀ i p, i < W64 → Cache.B.path b.w.disk i = .ok (.ok p) → Cache.B.path b'.w.disk i = .ok (.ok p) ∧
        Cache.B.getattr b'.w.disk i = Cache.B.getattr b.w.disk i ∧ Cache.B.readlink b'.w.disk i = Cache.B.readlink b.w.disk i ∧
        (∀ f, Cache.B.testFlag b'.w.disk i f = Cache.B.testFlag b.w.disk i f) ∧
        ∀ nm j, Cache.B.lookup b'.w.disk i nm = .ok (.ok j) ↔ Cache.B.lookup b.w.disk i nm = .ok (.ok j) := by
  obtain ⟨m, h1, h2⟩ := h.rel
  obtain ⟨d0, r0, t, ds, R, d, r, -, -, -, g1, g2, -, -, g5⟩ := MT.C85_crash h1 uid gid now
  obtain ⟨b', k1, k2⟩ := mount_right pad pad' h2.w.disk hf n g1
  have hd : DRel b'.w.disk d := k2.w.disk
  have hr : b'.w.refs = r := k2.w.refs
  refine ⟨b', k1, fun i => by rw [hr]; exact g2 i, fun i p hb hp => ?_⟩
  rw [path_rel h2.w.disk] at hp
  obtain ⟨e1, e2, e3, e4, e5⟩ := g5 i p hb hp
  refine ⟨by rw [path_rel hd]; exact e1, by rw [getattr_rel hd, getattr_rel h2.w.disk, e2], by rw [readlink_rel hd, readlink_rel h2.w.disk, e3],
    fun f => by rw [testFlag_rel hd, testFlag_rel h2.w.disk, e4], fun nm j => ?_⟩
  rw [lookup_rel hd, lookup_rel h2.w.disk]
  exact e5 nm j

/-- What was seen online is served offline, on bytes, with any number of threads and crashes at any moment in
between: a lookup which the connected backend answered ends (step `b1`, `b2`); a lookup of the same name
which ends later (step `b3`, `b4`), when there is no connection, gets the same reply. -/
theorem C86_offline {b1 b2 b3 b4 : MSys} {k1 k3 : Nat} (h : MReach b1) (s1 : Step b1 k1 b2) (p1 : Proper b1 k1 b2) (r1 : Room b2.w)
    {p : Ino} {n : Bytes} {cs : List Bytes} {q q' : Done} {sr : BStat} {st : OsStat} (hb : p < W64) (hcs : ∀ c ∈ cs, Component c) (hn : n ≠ [])
    (hq : b2.hist = b1.hist ++ [q]) (hrq : q.rq = .lookup p n) (hpath : Cache.B.path b1.w.disk p = .ok (.ok (pathStr cs)))
    (hB : q.B.lstat 0 (pathStr (cs ++ [n])) = .ok sr) (hrep : q.rep = .entry st)
    (hl : Later (cs ++ [n]) (· = fromBackend sr) b2 b3)
    (s3 : Step b3 k3 b4) (p3 : Proper b3 k3 b4) (r3 : Room b4.w) (hq' : b4.hist = b3.hist ++ [q']) (hrq' : q'.rq = .lookup p n) (hoff : Offline q'.B) :
    q'.rep = .entry st ∧ st = osStat st.ino (fromBackend sr) := by
  obtain ⟨m1, h1, h2⟩ := h.rel
  obtain ⟨m2, e1, e2⟩ := step_left h2 s1 p1.new
  obtain ⟨m3, e3, e4⟩ := hl.rel e2
  obtain ⟨m4, e5, e6⟩ := step_left e4 s3 p3.new
  rw [path_rel h2.w.disk] at hpath
  have hq2 : m2.hist = m1.hist ++ [q] := by rw [← e2.hist, ← h2.hist]; exact hq
  have pp := proper_left h2 e2 p1
  have rr := (room_rel e2.w).mp r1
  refine ⟨MT.C85_offline h1 e1 pp rr hb hcs hn hq2 hrq hpath hB hrep e3 e5 (proper_left e4 e6 p3) ((room_rel e6.w).mp r3)
    (by rw [← e6.hist, ← e4.hist]; exact hq') hrq' hoff, ?_⟩
  have a1 := MT.step_right h1 e1 pp rr hq2 (by rw [hrq]; rfl)
  rw [hrq, hrep] at a1
  have g1 := (a1.2 _ hpath).1 sr (by rw [pathStr_snoc']; exact hB)
  by_cases hg : GoodName n
  · rw [if_pos hg] at g1
    obtain ⟨i, g2, -⟩ := g1
    cases g2; rfl
  · rw [if_neg hg] at g1; cases g1

/-! ### Examples -/

/-- A checked interleaving on records is one on bytes. -/
theorem demo_bytes (pad : Ino → Nat) : ∀ {l : List MT.Ev} {m m' : MT.MSys} {cap cap' : Nat} {b : MSys}, MT.Ready (fun _ B => FSB.BackendFits B) cap m → (∀ a ∈ l, a.Asks (fun _ B => FSB.BackendFits B)) →
    MT.demoMT m cap l = some (m', cap') → MReach b → MSRel b m → ∃ b', MReach b' ∧ MSRel b' m' := by
  intro l
  induction l with
  | nil => intro m m' cap cap' b _ _ hd hb hr; cases hd; exact ⟨b, hb, hr⟩
  | cons a l ih =>
    intro m m' cap cap' b h hS hd hb hr
    obtain ⟨m1, cap1, h1, h2⟩ := MT.demoMT_cons hd
    obtain ⟨g1, k, g2, g3, g4⟩ := h.event (hS a (by simp)) h1
    have hf : ∀ rq B, m1.th[k]? = some (.recv rq B) → FSB.BackendFits B := fun rq B hk => g1.asks k _ hk
    have hnew : NewFits m.th m1.th k := by
      intro hk rq B hrc
      cases g3 with
      | issue e1 e2 e3 e4 => rw [e1] at hrc; cases hrc; exact ⟨e2, hf _ _ e1⟩
      | begin_ e1 _ => rw [hk] at e1; cases e1
      | other _ e2 => exact absurd hrc (e2 rq B)
    obtain ⟨b1, k1, k2⟩ := step_right pad hr g2 hnew
    exact ih g1 (fun a ha => hS a (List.mem_cons_of_mem _ ha)) h2 (.step hb k1 (proper_right hr k2 g3 hf) ((room_rel k2.w).mpr g4)) k2

theorem zero_fits : MountFits 0 0 ⟨0, 0⟩ := ⟨by decide, by decide, by decide, by decide⟩

theorem demoMount_bytes (pad : Ino → Nat) {n : Nat} {l : List MT.Ev} (hS : ∀ a ∈ l, a.Asks (fun _ B => FSB.BackendFits B)) {P : MT.MSys → Prop} [DecidablePred P]
    (h : (match MT.demoMount n l with | some (m, _) => decide (P m) | none => false) = true) : ∃ b m, MReach b ∧ MSRel b m ∧ P m := by
  split at h
  · rename_i m x hm
    unfold MT.demoMount at hm
    split at hm
    · rename_i d r ho
      split at hm
      · rename_i hr
        have hc : ∀ i, ((Conc.CWorld.start d r).refs i).nrefs ≤ 0 := by
          obtain ⟨s, h1, h2, h3⟩ := Cache.root_rep 0 0 ⟨0, 0⟩
          exact fun i => Nat.le_of_eq (FS.open_counts (MT.si_empty h1 h2 h3) ho i)
        obtain ⟨b, k1, k2⟩ := mount_right pad pad DRel.empty zero_fits n ho
        have hroom := MT.roomB_iff hc hr
        obtain ⟨b', g1, g2⟩ := demo_bytes pad (MT.ready_start (.mount ho hroom) hc) hS hm (.mount zero_fits k1 ((room_rel k2.w).mpr hroom)) k2
        exact ⟨b', m, g1, g2, by simpa using h⟩
      · cases hm
    · cases hm
  · cases h

theorem tblA_fits : FSB.BackendFits tblA.backend := FSB.fitsT_iff (by decide +kernel)
theorem offline_fits : FSB.BackendFits Tbl.offline.backend := FSB.fitsT_iff (by decide +kernel)

theorem manyA_fits : ∀ a ∈ MT.manyA, a.Asks (fun _ B => FSB.BackendFits B) := by
  have h1 := tblA_fits
  have h2 := offline_fits
  intro a ha
  simp only [MT.manyA, List.mem_append, List.mem_cons, List.not_mem_nil, or_false, List.mem_replicate] at ha
  rcases ha with (((((rfl | rfl | rfl | rfl | rfl | rfl | rfl | rfl | rfl | rfl | rfl | rfl | rfl | rfl | rfl) | ⟨-, rfl⟩) | (rfl | rfl | rfl | rfl | rfl | rfl)) | ⟨-, rfl⟩) | ⟨-, rfl⟩) <;>
    first | trivial | exact h1 | exact h2

/-- Two threads serve overlapping requests, online and offline; five replies were sent, the kernel holds lookups: the hypotheses
of `C86_transfer`, `C86_layout`, `C86_serial`, `C86_counts` and `C86_exists`. -/
example (pad : Ino → Nat) : ∃ b, MReach b ∧ b.sent.length = 5 ∧ b.hist.length = 5 ∧ 0 < b.held 2 ∧ Cache.B.path b.w.disk 2 = .ok (.ok (pathStr [[0x61]])) := by
  obtain ⟨b, m, h1, h2, h3, h4, h5, h6⟩ := demoMount_bytes pad (n := 2) (l := MT.manyA) manyA_fits
    (P := fun m => m.sent.length = 5 ∧ m.hist.length = 5 ∧ 0 < m.held 2 ∧ path m.w.disk 2 = .ok (.ok (pathStr [[0x61]]))) (by decide +kernel)
  exact ⟨b, h1, by rw [h2.sent]; exact h3, by rw [h2.hist]; exact h4, by rw [h2.held]; exact h5, by rw [path_rel h2.w.disk]; exact h6⟩

/-- The process dies, and is mounted again, while both threads have open transactions. -/
theorem crash2_fits : ∀ a ∈ MT.crash1 ++ .go 0 :: MT.crash2, a.Asks (fun _ B => FSB.BackendFits B) := by
  have h1 := tblA_fits
  intro a ha
  simp only [MT.crash1, MT.crash2, List.mem_append, List.mem_cons, List.not_mem_nil, or_false, List.mem_replicate] at ha
  rcases ha with (rfl | ⟨-, rfl⟩) | rfl | rfl | rfl | rfl | rfl | rfl | rfl | rfl | rfl <;> first | trivial | exact h1

/-- The hypotheses of `C86_crash` and, for both threads, of `C86_lives`. -/
example (pad : Ino → Nat) : ∃ b b', MReach b ∧ (b.th.map (fun | .run .. => true | _ => false)) = [true, true] ∧ Cache.B.path b.w.disk 2 = .ok (.ok (pathStr [[0x61]])) ∧
    mount pad pad b.w.disk 0 0 ⟨0, 0⟩ 3 = .ok b' ∧ Cache.B.path b'.w.disk 2 = .ok (.ok (pathStr [[0x61]])) := by
  obtain ⟨b, m, h1, h2, h3, h4⟩ := demoMount_bytes pad (n := 2) (l := MT.crash1 ++ .go 0 :: MT.crash2) crash2_fits
    (P := fun m => m.busy = [true, true] ∧ path m.w.disk 2 = .ok (.ok (pathStr [[0x61]]))) (by decide +kernel)
  rw [← path_rel h2.w.disk] at h4
  obtain ⟨b', k1, -, k2⟩ := C86_crash h1 pad pad zero_fits 3
  exact ⟨b, b', h1, by rw [h2.th]; exact h3, h4, k1, (k2 2 _ (by decide) h4).1⟩

end Dragonstash.MTB
