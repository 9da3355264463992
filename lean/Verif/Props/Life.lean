/-
  Inode numbers keep their meaning over the whole life of a cache (C99).
-/
import Verif.MT.Since
namespace Dragonstash.MT
open Cache FS Conc

/-- Every reachable state is one in the life of a cache. -/
theorem MReach.life {m : MSys} (h : MReach m) : ∃ past, Life past m := by
  induction h with
  | mount h1 h2 => exact ⟨_, .mount h1 h2⟩
  | remount _ h1 h2 ih => obtain ⟨past, ih⟩ := ih; exact ⟨_, .remount ih h1 h2⟩
  | step _ h1 h2 h3 ih => obtain ⟨past, ih⟩ := ih; exact ⟨_, .step ih h1 h2 h3⟩

/-- C99: an inode number never changes its kind. Whatever two replies were sent in the life of a cache (by any
processes, one after the other, with any number of threads, which die at any moment): if attributes in them are
those of the same inode, then they tell the same file type. -/
theorem C99_kind {past : List (Req × Reply)} {m : MSys} (h : Life past m) {a b : Req × Reply} (ha : a ∈ past ++ m.sent) (hb : b ∈ past ++ m.sent) {x y : OsStat}
    (hx : Stats a.2 x) (hy : Stats b.2 y) (hi : x.ino = y.ino) : x.mode &&& 0o170000 = y.mode &&& 0o170000 := by
  obtain ⟨ts, h1, h2, h3⟩ := h.answers
  obtain ⟨s, sa, fa, -⟩ := h3 a ha
  obtain ⟨t, tb, fb, -⟩ := h3 b hb
  obtain ⟨nd, n1, e1⟩ := fa x hx
  obtain ⟨nd', n2, e2⟩ := fb y hy
  rw [← hi] at n2
  have c1 : x.mode = nd.attr.mode := by rw [e1]; rfl
  have c2 : y.mode = nd'.attr.mode := by rw [e2]; rfl
  rw [c1, c2]
  rcases mem_pairwise h1 sa tb with rfl | h4 | h4
  · rw [n1] at n2; cases n2; rfl
  · exact (Keep.same h4 (h2 s sa) n1 n2).1.symm
  · exact (Keep.same h4 (h2 t tb) n2 n1).1

/-- C99: an inode number never moves. Whatever two replies were sent in the life of a cache: if both tell where
the same inode is, then they tell the same directory and the same name. -/
theorem C99_place {past : List (Req × Reply)} {m : MSys} (h : Life past m) {a b : Req × Reply} (ha : a ∈ past ++ m.sent) (hb : b ∈ past ++ m.sent) {i p p' : Ino} {n n' : Bytes}
    (hx : Under a p n i) (hy : Under b p' n' i) : p = p' ∧ n = n' := by
  obtain ⟨ts, h1, h2, h3⟩ := h.answers
  obtain ⟨s, sa, -, fa⟩ := h3 a ha
  obtain ⟨t, tb, -, fb⟩ := h3 b hb
  obtain ⟨nd, n1, e1⟩ := fa _ _ _ hx
  obtain ⟨nd', n2, e2⟩ := fb _ _ _ hy
  have hl : nd'.loc = nd.loc := by
    rcases mem_pairwise h1 sa tb with rfl | h4 | h4
    · rw [n1] at n2; cases n2; rfl
    · rcases (Keep.same h4 (h2 s sa) n1 n2).2 with g | g
      · exact g
      · rw [e2] at g; cases g
    · rcases (Keep.same h4 (h2 t tb) n2 n1).2 with g | g
      · exact g.symm
      · rw [e1] at g; cases g
  rw [e1, e2] at hl; cases hl; exact ⟨rfl, rfl⟩

theorem abs_keep {B d s r rq rep s' r'} (h : Abs B d s r rq rep s' r') (hi : SI s d r) (hr : rq.inRange) (hd : rq.onDir d) (hn : s.next + 1 < W64) : Keep s s' := by
  obtain ⟨_, h⟩ := abs_eff h hi hr hd hn; exact h.keep_

theorem keep_holds {P : Tree → Prop} (h : ∀ {s s'}, Keep s s' → P s → P s') : Holds (fun _ _ _ => True) P :=
  ⟨fun hs _ hc => h hc.keep_ hs, fun ha hi hr hd hn _ _ hs => h (abs_keep ha hi hr hd hn) hs⟩

theorem Keep.gone {i p : Ino} {n : Bytes} : ∀ {s s' : Tree}, Keep s s' → (i < s.next ∧ ¬ s.At p n i) → i < s'.next ∧ ¬ s'.At p n i := by
  rintro s s' hk ⟨h1, h2⟩
  refine ⟨Nat.lt_of_lt_of_le h1 hk.1, fun ⟨nd, h3, h4⟩ => h2 ?_⟩
  obtain ⟨x, g1, -, g3⟩ := hk.2 i nd h3 h1
  rcases g3 with g3 | g3
  · exact ⟨x, g1, by rw [← g3]; exact h4⟩
  · rw [h4] at g3; cases g3

theorem Keep.removed {i : Ino} : ∀ {s s' : Tree}, Keep s s' → (i < s.next ∧ s.nodes i = none) → i < s'.next ∧ s'.nodes i = none := by
  rintro s s' hk ⟨h1, h2⟩
  refine ⟨Nat.lt_of_lt_of_le h1 hk.1, ?_⟩
  cases h3 : s'.nodes i with
  | none => rfl
  | some nd => obtain ⟨x, g1, -⟩ := hk.2 i nd h3 h1; rw [h2] at g1; cases g1

/-- C99: what has gone does not come back. A reply has told, at any time in the life of a cache, that an inode is at some
place. Now (`m`) it is not there any more. Then it never will be again, and no request which
begins now or later tells so: not in this process (any number of threads), and not in later ones. -/
theorem C99_gone {past : List (Req × Reply)} {m m' : MSys} (h : Life past m) {a : Req × Reply} (ha : a ∈ past ++ m.sent) {i p : Ino} {n : Bytes} (hp : p < W64) (hx : Under a p n i)
    (hg : Cache.lookup m.w.disk p n ≠ .ok (.ok i)) {b : Nat} (hs : Since (fun _ _ _ => True) m b m') :
    Cache.lookup m'.w.disk p n ≠ .ok (.ok i) ∧ ∀ (k : Nat) (q : Done), m'.hist[k]? = some q → q.after k b → ¬ Under (q.rq, q.rep) p n i := by
  obtain ⟨s0, s, ok0, hf, hr, ok, hle⟩ := h.shown_lt ha
  obtain ⟨nd, hn, -⟩ := hf.2 _ _ _ hx
  have hlt : i < s.next := Nat.lt_of_lt_of_le (ok0.bound i nd hn).2 hle
  obtain ⟨⟨s', f1, f2, -, f3⟩, f4⟩ := hs.fits (keep_holds Keep.gone) h.reach (P := fun s => i < s.next ∧ ¬ s.At p n i) (fun t ht okt => by
    obtain rfl := Rep.inj hr ok ht okt
    exact ⟨hlt, fun hat => hg ((hr.lookup_iff ok hp).mpr hat)⟩)
  refine ⟨fun hl => f3 ((f1.lookup_iff f2 hp).mp hl), fun k q hk hq hu => ?_⟩
  obtain ⟨t, -, ⟨-, g2⟩, g3⟩ := f4 k q hk hq
  exact g2 (g3.2 _ _ _ hu)

/-- C99: what was removed does not come back. A reply has shown attributes of an inode, at any time in the life of
a cache; now (`m`) it does not exist. Then it never will again, and no request which begins now or
later shows it. -/
theorem C99_removed {past : List (Req × Reply)} {m m' : MSys} (h : Life past m) {a : Req × Reply} (ha : a ∈ past ++ m.sent) {x : OsStat} (hx : Stats a.2 x)
    {e : Errno} (hg : Cache.getattr m.w.disk x.ino = .error e) {b : Nat} (hs : Since (fun _ _ _ => True) m b m') :
    Cache.getattr m'.w.disk x.ino = .error ENOENT ∧ ∀ (k : Nat) (q : Done), m'.hist[k]? = some q → q.after k b → ∀ y, Stats q.rep y → y.ino ≠ x.ino := by
  obtain ⟨s0, s, ok0, hf, hr, ok, hle⟩ := h.shown_lt ha
  obtain ⟨nd, hn, -⟩ := hf.1 x hx
  have hlt : x.ino < s.next := Nat.lt_of_lt_of_le (ok0.bound _ nd hn).2 hle
  have hb : x.ino < W64 := Nat.lt_trans hlt ok.next_lt
  obtain ⟨⟨s', f1, f2, -, f3⟩, f4⟩ := hs.fits (keep_holds Keep.removed) h.reach (P := fun s => x.ino < s.next ∧ s.nodes x.ino = none) (fun t ht okt => by
    obtain rfl := Rep.inj hr ok ht okt
    refine ⟨hlt, ?_⟩
    cases hi : s.nodes x.ino with
    | none => rfl
    | some nd => rw [hr.getattr ok hb, hi] at hg; cases hg)
  refine ⟨by rw [f1.getattr f2 hb, f3], fun k q hk hq y hy he => ?_⟩
  obtain ⟨t, -, ⟨-, g2⟩, g3⟩ := f4 k q hk hq
  obtain ⟨nd', h1, -⟩ := g3.1 y hy
  rw [he, g2] at h1; cases h1

/-- C99: a new object has a new number. A lookup ends (in the step from `m` to `m'`) and tells of an inode
which was not at this place before. Then no reply which was sent in the life of the cache before has shown this number. -/
theorem C99_new {past : List (Req × Reply)} {m m' : MSys} {k : Nat} (h : Life past m) (hs : Step m k m') (hp : Proper m k m') (hroom : Room m'.w)
    {q : Done} (hq : m'.hist = m.hist ++ [q]) {p : Ino} {n : Bytes} (hb : p < W64) (hrq : q.rq = .lookup p n) {st : OsStat} (hrep : q.rep = .entry st)
    (hnew : Cache.lookup m.w.disk p n ≠ .ok (.ok st.ino)) : ∀ a ∈ past ++ m.sent, ∀ x, Stats a.2 x → x.ino ≠ st.ino := by
  intro a ha x hx he
  obtain ⟨s0, s, ok0, hf, hr, ok, hle⟩ := h.shown_lt ha
  obtain ⟨nd, hn, -⟩ := hf.1 x hx
  have hlt : x.ino < s.next := Nat.lt_of_lt_of_le (ok0.bound _ nd hn).2 hle
  rw [he] at hlt
  have hsn : Since (fun _ _ _ => True) m m.hist.length m' := .step .refl hs hp hroom (fun _ _ => trivial)
  obtain ⟨-, f4⟩ := hsn.fits (keep_holds Keep.gone) h.reach (P := fun s => st.ino < s.next ∧ ¬ s.At p n st.ino) (fun t ht okt => by
    obtain rfl := Rep.inj hr ok ht okt
    exact ⟨hlt, fun hat => hnew ((hr.lookup_iff ok hb).mpr hat)⟩)
  obtain ⟨t, -, ⟨-, g2⟩, g3⟩ := f4 m.hist.length q (by rw [hq]; simp) ⟨Nat.le_refl _, fun hro => by rw [hrq] at hro; cases hro⟩
  exact g2 (g3.2 _ _ _ (by rw [hrq, hrep]; exact ⟨rfl, rfl, rfl⟩))

/-! ### Example -/

/-- What happens to a cache: something in its process, or the process dies and is started again with `n` threads. -/
inductive LEv
  | ev (a : Ev)
  | die (n : Nat)

def lrun (past : List (Req × Reply)) (m : MSys) (cap : Nat) : List LEv → Option (List (Req × Reply) × MSys × Nat)
  | [] => some (past, m, cap)
  | .ev a :: l => match demoMT m cap [a] with
    | none => none
    | some (m', cap') => lrun past m' cap' l
  | .die n :: l => match openCleanDB (initDB m.w.disk 0 0 ⟨0, 0⟩) Refs.empty with
    | .error _ => none
    | .ok (d, r) => if roomB (CWorld.start d r) 0 then lrun (past ++ m.sent) (MSys.start d r n) 0 l else none

def lstart (n : Nat) (l : List LEv) : Option (List (Req × Reply) × MSys × Nat) :=
  match openCleanDB (initDB emptyDB 0 0 ⟨0, 0⟩) Refs.empty with
  | .error _ => none
  | .ok (d, r) => if roomB (CWorld.start d r) 0 then lrun [] (MSys.start d r n) 0 l else none

def LEv.Asks (Q : Req → Backend → Prop) : LEv → Prop
  | .ev a => a.Asks Q
  | .die _ => True

def LEv.isDie : LEv → Bool
  | .ev _ => false
  | .die _ => true

theorem lrun_since {Q : DB → Req → Backend → Prop} {Qe : Req → Backend → Prop} (hQ : ∀ d rq B, Qe rq B → Q d rq B) {m0 : MSys} : ∀ {l : List LEv} {past m cap past' m' cap' b}, Since Q m0 b m →
    Life past m → Ready Qe cap m → (∀ e ∈ l, e.Asks Qe) → lrun past m cap l = some (past', m', cap') →
    Life past' m' ∧ Ready Qe cap' m' ∧ ∃ b', Since Q m0 b' m' ∧ (l.any LEv.isDie = true → b' = 0) ∧ (l.any LEv.isDie = false → b' = b) := by
  intro l
  induction l with
  | nil => intro past m cap past' m' cap' b h hL hr _ hd; cases hd; exact ⟨hL, hr, b, h, by simp, by simp⟩
  | cons e l ih =>
    intro past m cap past' m' cap' b h hL hr hA hd
    cases e with
    | ev a =>
      simp only [lrun] at hd
      split at hd
      · cases hd
      · rename_i m1 cap1 hm
        obtain ⟨g1, k, g2, g3, g4⟩ := hr.event (hA _ (List.mem_cons_self ..)) hm
        obtain ⟨e1, e2, b', f1, f2, f3⟩ := ih (.step h g2 g3 g4 (fun q hq => hQ _ _ _ (g1.hist q (by rw [hq]; simp)))) (.step hL g2 g3 g4) g1 (fun e he => hA e (List.mem_cons_of_mem _ he)) hd
        exact ⟨e1, e2, b', f1, fun h => f2 (by simpa [LEv.isDie] using h), fun h => f3 (by simpa [LEv.isDie] using h)⟩
    | die n =>
      simp only [lrun] at hd
      split at hd
      · cases hd
      · rename_i d r ho
        split at hd
        · rename_i hroom
          obtain ⟨_, _, _, _, _, _, _, _, s, _, _, hR, _⟩ := hr.reach.any.inv kept_true
          have hi : initDB m.w.disk 0 0 ⟨0, 0⟩ = m.w.disk := by unfold initDB; rw [hR.si.rep.next]
          have ho' := ho
          rw [hi] at ho'
          have hc : ∀ i, ((CWorld.start d r).refs i).nrefs ≤ 0 := fun i => Nat.le_of_eq (open_counts (si_empty hR.si.rep hR.si.ok hR.si.wf) ho' i)
          have hroom' := roomB_iff hc hroom
          obtain ⟨e1, e2, b', f1, f2, f3⟩ := ih (.crash h ho hroom') (.remount hL ho hroom') (ready_start (.remount hr.reach ho hroom') hc) (fun e he => hA e (List.mem_cons_of_mem _ he)) hd
          refine ⟨e1, e2, b', f1, fun _ => ?_, fun h => by simp [LEv.isDie] at h⟩
          cases hx : l.any LEv.isDie with
          | true => exact f2 hx
          | false => exact f3 hx
        · cases hd

theorem lstart_life {Qe : Req → Backend → Prop} {n : Nat} {l : List LEv} {past m cap} (hA : ∀ e ∈ l, e.Asks Qe) (h : lstart n l = some (past, m, cap)) : Life past m ∧ Ready Qe cap m := by
  unfold lstart at h
  split at h
  · cases h
  · rename_i d r ho
    split at h
    · rename_i hroom
      have hc : ∀ i, ((CWorld.start d r).refs i).nrefs ≤ 0 := by
        obtain ⟨s, h1, h2, h3⟩ := root_rep 0 0 ⟨0, 0⟩
        exact fun i => Nat.le_of_eq (open_counts (si_empty h1 h2 h3) ho i)
      have hroom' := roomB_iff hc hroom
      obtain ⟨g1, g2, -⟩ := lrun_since (Q := fun _ => Qe) (fun _ _ _ h => h) .refl (.mount ho hroom') (ready_start (.mount ho hroom') hc) hA h
      exact ⟨g1, g2⟩
    · cases h

theorem anyAsks (a : LEv) : a.Asks (fun _ _ => True) := by
  rcases a with (_ | _) | n <;> trivial

/-- `/a` is a file. -/
def tblF : Tbl where
  stats := [([0x2f, 0x61], .ok (bFile 9))]
  dirs := [([0x2f], .ok ([[0x61]], 0))]

/-- A request with the first `n` steps in which it is served. -/
def asks (t : Tbl) (rq : Req) (n : Nat) : List LEv := .ev (.issue 0 t rq) :: List.replicate n (.ev (.go 0))

/-- The directory `a` is found; it is replaced by a file, which is found. -/
def lifeDemo1 : List LEv := asks tblA (.lookup 1 [0x61]) 7 ++ asks tblF (.lookup 1 [0x61]) 7

/-- The directory is asked for again; the process dies before this request has ended. The next one is not connected. -/
def lifeDemo2 : List LEv := asks tblF (.getattr 2) 3 ++ [.die 2]

def lifeDemo3 : List LEv := asks .offline (.readdirplus 1 500 0) 10

def twoLives (l1 l2 : List LEv) : Option ((List (Req × Reply) × MSys × Nat) × (List (Req × Reply) × MSys × Nat)) := do
  let x ← lstart 2 l1
  let y ← lrun x.1 x.2.1 x.2.2 l2
  pure (x, y)

theorem twoLives_life {l1 l2 : List LEv} {past1 m1 c1 past m c} (h : twoLives l1 l2 = some ((past1, m1, c1), (past, m, c))) :
    Life past1 m1 ∧ Life past m ∧ ∃ b, Since (fun _ _ _ => True) m1 b m ∧ (l2.any LEv.isDie = true → b = 0) ∧ (l2.any LEv.isDie = false → b = m1.hist.length) := by
  unfold twoLives at h
  obtain ⟨x, h1, h⟩ := Option.bind_eq_some_iff.mp h
  obtain ⟨y, h2, h⟩ := Option.bind_eq_some_iff.mp h
  cases h
  obtain ⟨g1, g2⟩ := lstart_life (fun e _ => anyAsks e) h1
  obtain ⟨f1, f2, f3⟩ := lrun_since (Q := fun _ _ _ => True) (fun _ _ _ _ => trivial) .refl g1 g2 (fun e _ => anyAsks e) h2
  exact ⟨g1, f1, f3⟩

/-- Whether the only reply lists `name` with attributes `st`. -/
def listsB (l : List (Req × Reply)) (name : Bytes) (st : OsStat) : Bool := match l with
  | [(.readdirplus 1 500 0, .bufPlus l _)] => l.any (fun e => e.name == name && decide (e.stat = st))
  | _ => false

theorem lifeDemo_says : (match twoLives (lifeDemo1 ++ lifeDemo2) lifeDemo3 with
    | some ((past1, m1, _), (past, m, _)) => decide (past1 = [(.lookup 1 [0x61], .entry (osStat 2 (fromBackend bDir))), (.lookup 1 [0x61], .entry (osStat 3 (fromBackend (bFile 9)))),
          (.getattr 2, .attr (osStat 2 (fromBackend bDir)))] ∧ past = past1 ∧
        Cache.getattr m1.w.disk 2 = .error ENOENT ∧ m1.hist = [] ∧ m.hist.map (fun q => (q.rq, q.rep)) = m.sent) && listsB m.sent [0x61] (osStat 3 (fromBackend (bFile 9)))
    | none => false) = true := by decide +kernel

theorem lifeDemo_gone : (match twoLives lifeDemo1 (lifeDemo2 ++ lifeDemo3) with
    | some ((past1, m1, _), (past, m, _)) => decide (past1 = [] ∧ m1.sent = [(.lookup 1 [0x61], .entry (osStat 2 (fromBackend bDir))), (.lookup 1 [0x61], .entry (osStat 3 (fromBackend (bFile 9))))] ∧
        Cache.lookup m1.w.disk 1 [0x61] = .ok (.ok 3) ∧ m.hist.map (·.rq) = [.readdirplus 1 500 0])
    | none => false) = true := by decide +kernel

theorem lifeDemo_new : (match twoLives (asks tblA (.lookup 1 [0x61]) 7 ++ asks tblF (.lookup 1 [0x61]) 4) [.ev (.go 0)] with
    | some ((past1, m1, _), (past, m, _)) => decide (m1.sent = [(.lookup 1 [0x61], .entry (osStat 2 (fromBackend bDir)))] ∧
        Cache.lookup m1.w.disk 1 [0x61] = .ok (.ok 2) ∧ m.hist.map (fun q => (q.rq, q.rep)) = m1.hist.map (fun q => (q.rq, q.rep)) ++ [(.lookup 1 [0x61], .entry (osStat 3 (fromBackend (bFile 9))))])
    | none => false) = true := by decide +kernel

/-- The hypotheses of `C99_kind` and `C99_place` can be met: the file is shown twice, before the process died and after it, and so is the
directory. What was at the same place as something else, and is of another kind, has another number. -/
example : ∃ past m, Life past m ∧ ∃ a ∈ past, ∃ b ∈ m.sent, ∃ x y, Stats a.2 x ∧ Stats b.2 y ∧ x.ino = 3 ∧ y.ino = 3 ∧ Under a 1 [0x61] 3 ∧ Under b 1 [0x61] 3 ∧
    ∃ c ∈ past, ∃ d ∈ past, c ≠ d ∧ ∃ z w, Stats c.2 z ∧ Stats d.2 w ∧ z.ino = 2 ∧ w.ino = 2 ∧ Under c 1 [0x61] 2 := by
  have hs := lifeDemo_says
  generalize hd : twoLives (lifeDemo1 ++ lifeDemo2) lifeDemo3 = o at hs
  obtain _ | ⟨⟨past1, m1, c1⟩, past, m, c⟩ := o
  · cases hs
  simp only [Bool.and_eq_true, decide_eq_true_eq] at hs
  obtain ⟨⟨e1, rfl, -⟩, h2⟩ := hs
  subst e1
  obtain ⟨-, hl, -⟩ := twoLives_life hd
  unfold listsB at h2
  split at h2
  · rename_i l n hm
    obtain ⟨e, he, h3⟩ := List.any_eq_true.mp h2
    simp only [Bool.and_eq_true, beq_iff_eq, decide_eq_true_eq] at h3
    refine ⟨_, m, hl, _, List.mem_cons_of_mem _ (List.mem_cons_self ..), (.readdirplus 1 500 0, .bufPlus l n), by rw [hm]; exact List.mem_cons_self .., _, e.stat, rfl, ⟨e, he, rfl⟩, rfl, by rw [h3.2]; rfl, ⟨rfl, rfl, rfl⟩,
      ⟨rfl, by decide, by decide, e, he, h3.1.symm, by rw [h3.2]; rfl⟩, _, List.mem_cons_self .., _, List.mem_cons_of_mem _ (List.mem_cons_of_mem _ (List.mem_cons_self ..)),
      by simp, _, _, rfl, rfl, rfl, rfl, ⟨rfl, rfl, rfl⟩⟩
  · cases h2

/-- The hypotheses of `C99_removed` can be met: the new process has removed the directory, and lists the root. -/
example : ∃ past m m' b, Life past m ∧ Since (fun _ _ _ => True) m b m' ∧ (∃ a ∈ past ++ m.sent, ∃ x, Stats a.2 x ∧ Cache.getattr m.w.disk x.ino = .error ENOENT) ∧
    ∃ q, m'.hist[0]? = some q ∧ q.after 0 b ∧ q.rq = .readdirplus 1 500 0 := by
  have hs := lifeDemo_says
  generalize hd : twoLives (lifeDemo1 ++ lifeDemo2) lifeDemo3 = o at hs
  obtain _ | ⟨⟨past1, m1, c1⟩, past, m, c⟩ := o
  · cases hs
  simp only [Bool.and_eq_true, decide_eq_true_eq] at hs
  obtain ⟨⟨e1, e2, e3, e4, e5⟩, h2⟩ := hs
  obtain ⟨hl, -, b, hsn, -, hb⟩ := twoLives_life hd
  have hb := hb (by decide)
  rw [e4] at hb; subst hb
  unfold listsB at h2
  split at h2
  · rename_i l n hm
    rw [hm] at e5
    cases hh : m.hist with
    | nil => rw [hh] at e5; cases e5
    | cons q t =>
      rw [hh] at e5
      simp only [List.map_cons, List.cons.injEq, Prod.mk.injEq] at e5
      refine ⟨_, _, m, _, hl, hsn, ⟨(.lookup 1 [0x61], .entry (osStat 2 (fromBackend bDir))), List.mem_append_left _ (by rw [e1]; exact List.mem_cons_self ..), osStat 2 (fromBackend bDir), rfl, e3⟩, q, by rw [hh]; rfl, ⟨Nat.zero_le _, fun _ => Nat.zero_le _⟩, e5.1.1⟩
  · cases h2

/-- The hypotheses of `C99_new` can be met: the lookup which finds the file in place of the directory ends. -/
example : ∃ past m m' k q st, Life past m ∧ Step m k m' ∧ Proper m k m' ∧ Room m'.w ∧ m'.hist = m.hist ++ [q] ∧ q.rq = .lookup 1 [0x61] ∧ q.rep = .entry st ∧ st.ino = 3 ∧
    Cache.lookup m.w.disk 1 [0x61] ≠ .ok (.ok st.ino) ∧ ∃ a ∈ past ++ m.sent, ∃ x, Stats a.2 x ∧ x.ino = 2 := by
  have hs := lifeDemo_new
  generalize hd : twoLives _ _ = o at hs
  obtain _ | ⟨⟨past1, m1, c1⟩, past, m, c⟩ := o
  · cases hs
  simp only [decide_eq_true_eq] at hs
  obtain ⟨e1, e2, e3⟩ := hs
  unfold twoLives at hd
  obtain ⟨x, h1, hd⟩ := Option.bind_eq_some_iff.mp hd
  obtain ⟨y, h2, hd⟩ := Option.bind_eq_some_iff.mp hd
  cases hd
  obtain ⟨g1, g2⟩ := lstart_life (fun e _ => anyAsks e) h1
  simp only [lrun] at h2
  split at h2
  · cases h2
  · rename_i m2 c2 hm
    cases h2
    obtain ⟨-, k, f1, f2, f3⟩ := g2.event (a := .go 0) trivial hm
    obtain ⟨q, hq⟩ := event_hist f1 (by have := congrArg List.length e3; simpa using this)
    rw [hq, List.map_append] at e3
    have e4 := List.append_cancel_left e3
    simp only [List.map_cons, List.map_nil, List.cons.injEq, Prod.mk.injEq, and_true] at e4
    exact ⟨_, _, _, k, q, _, g1, f1, f2, f3, hq, e4.1, e4.2, rfl, by rw [e2]; decide, (.lookup 1 [0x61], .entry (osStat 2 (fromBackend bDir))), List.mem_append_right _ (by rw [e1]; exact List.mem_cons_self ..), osStat 2 (fromBackend bDir), rfl, rfl⟩

/-- The hypotheses of `C99_gone` can be met: the directory has been replaced when the process dies. -/
example : ∃ past m m' b, Life past m ∧ Since (fun _ _ _ => True) m b m' ∧ (∃ a ∈ past ++ m.sent, Under a 1 [0x61] 2) ∧ Cache.lookup m.w.disk 1 [0x61] ≠ .ok (.ok 2) ∧
    ∃ q, m'.hist[0]? = some q ∧ q.after 0 b ∧ q.rq = .readdirplus 1 500 0 := by
  have hs := lifeDemo_gone
  generalize hd : twoLives lifeDemo1 (lifeDemo2 ++ lifeDemo3) = o at hs
  obtain _ | ⟨⟨past1, m1, c1⟩, past, m, c⟩ := o
  · cases hs
  simp only [decide_eq_true_eq] at hs
  obtain ⟨e1, e2, e3, e4⟩ := hs
  obtain ⟨hl, -, b, hsn, hb, -⟩ := twoLives_life hd
  have hb := hb (by decide)
  subst hb
  refine ⟨_, _, m, _, hl, hsn, ⟨(.lookup 1 [0x61], .entry (osStat 2 (fromBackend bDir))), List.mem_append_right _ (by rw [e2]; exact List.mem_cons_self ..), ⟨rfl, rfl, rfl⟩⟩, by rw [e3]; decide, ?_⟩
  cases hh : m.hist with
  | nil => rw [hh] at e4; cases e4
  | cons q t =>
    rw [hh] at e4
    simp only [List.map_cons, List.cons.injEq] at e4
    exact ⟨q, rfl, ⟨Nat.zero_le _, fun _ => Nat.zero_le _⟩, e4.1⟩

end Dragonstash.MT
