/-
  What is shown of an object never goes back to an earlier state (C100).
-/
import Verif.Props.Life
namespace Dragonstash.MT
open Cache FS Conc

/-! ### Specification -/

/-- The kernel does not look up empty names, and the backend lists none. -/
def Tidy (rq : Req) (B : Backend) : Prop := rq.named ∧ ∀ p names e, B.opendir p = .ok (names, e) → [] ∉ names

/-- What the backend reports about inode `i` is in `S`. (`d` are the databases when the request ends; the length of a
link target becomes the size of the link.) -/
def Reports (S : Attrs → Prop) (i : Ino) (d : DB) (B : Backend) : Prop :=
  ∀ b, Cache.path d i = .ok (.ok b) → (∀ c sr, B.lstat c b = .ok sr → S (fromBackend sr)) ∧ ∀ t, B.readlink b = .ok t → ∀ a, S a → fmt a.mode = S_IFLNK → S { a with size := t.length }

/-! ### One request -/

/-- Attributes of inode `i`, which has been in use, are in `S`. -/
def In (S : Attrs → Prop) (i : Ino) (s : Tree) : Prop := i < s.next ∧ ∀ nd, s.nodes i = some nd → S nd.attr

section
variable {S : Attrs → Prop} {i : Ino} {s s' : Tree} {r r' : Refs}

theorem In.orphan (h : In S i s) (j : Ino) : In S i (s.orphan j) := by
  refine ⟨h.1, fun nd hn => ?_⟩
  by_cases hij : i = j
  · subst hij
    cases hx : s.nodes i with
    | none => rw [orphan_none hx] at hn; cases hn
    | some x => rw [Tree.orphan_self hx] at hn; cases hn; exact h.2 x hx
  · rw [Tree.orphan_ne hij] at hn; exact h.2 nd hn

theorem In.coll {L : Ino → Prop} (h : In S i s) (hc : Collected s L s') : In S i s' := by
  refine ⟨by rw [hc.next]; exact h.1, fun nd hn => ?_⟩
  obtain ⟨-, x, h1, h2, -⟩ := hc.back hn
  rw [h2]; exact h.2 x h1

theorem In.set {j : Ino} {nd : Node} (h : In S i s) (hj : i = j → S nd.attr) : In S i (s.set j nd) := by
  refine ⟨h.1, fun x hx => ?_⟩
  by_cases hij : i = j
  · subst hij; rw [Tree.set_self] at hx; cases hx; exact hj rfl
  · rw [Tree.set_ne hij] at hx; exact h.2 x hx

theorem In.orphans (h : In S i s) (l : List Ino) : In S i (s.orphans l) := by
  induction l generalizing s with
  | nil => exact h
  | cons j l ih => exact ih (h.orphan j)

theorem In.put {p n a res} (h : In S i s) (hp : Put p n a s r res s' r') (ha : s.At p n i → S a) : In S i s' := by
  cases hp with
  | bad => exact h
  | @same j nd h1 h2 h3 => exact h.set (fun e => ha (by subst e; exact ⟨nd, h1, h2⟩))
  | @new s1 _ _ hn' h1 h2 h3 h4 =>
    have h5 : In S i s1 := by
      rcases h1 with ⟨rfl, -⟩ | ⟨j, nd, rfl, -⟩
      · exact h
      · exact h.orphan j
    refine In.coll ⟨Nat.lt_succ_of_lt h5.1, fun nd hn => ?_⟩ h3
    rw [Tree.add_ne (Nat.ne_of_lt h5.1)] at hn; exact h5.2 nd hn

theorem In.puts {B : Backend} {j k names cs s0} (h : Puts B (backendPath (pathStr cs)) j k names s r s' r') (hi : In S i s) (hk : Keep s0 s) (hi0 : i < s0.next) (ok : s.OK)
    (hd : s.IsDir j) (hp : s.PathTo j cs) (hlen : s.next + names.length < W64) (hn : ∀ c ∈ cs, c ≠ [])
    (ha : ∀ n, s0.At j n i → ∀ c sr, B.lstat c (pathStr (cs ++ [n])) = .ok sr → S (fromBackend sr)) : In S i s' := by
  induction h with
  | nil => exact hi
  | skip _ _ ih => exact ih hi hk ok hd hp (by simp at hlen; omega)
  | @put k n l s r s1 r1 s' r' sr res h1 h2 h3 ih =>
    simp only [List.length_cons] at hlen
    rw [entryPath_eq hn] at h1
    have e := h2.eff ok hd (by omega)
    have hp1 := Put.path h2 ok hd (by omega) hp
    refine ih (hi.put h2 (fun ⟨nd, g1, g2⟩ => ?_)) (hk.trans e.1.keep_) (e.1.ok ok) (eff_dir e.1 ok ⟨cs, hp1⟩ hd) hp1 (by have := h2.next; omega)
    obtain ⟨x, f1, -, f3⟩ := hk.2 i nd g1 hi0
    refine ha n ⟨x, f1, ?_⟩ _ _ h1
    rcases f3 with f3 | f3
    · rw [← f3]; exact g2
    · rw [g2] at f3; cases f3

theorem abs_in {B : Backend} {d : DB} {rq rep} (h : Abs B d s r rq rep s' r') (hI : SI s d r) (hr : rq.inRange) (hd : rq.onDir d)
    (hn2 : ∀ p names e, B.opendir p = .ok (names, e) → s.next + names.length + 1 < W64)
    (hne : ∀ j ds, s.PathTo j ds → ∀ c ∈ ds, c ≠ []) (hR : Reports S i d B) (hi : In S i s) : In S i s' := by
  have dir : ∀ {p cs}, p < W64 → s.PathTo p cs → (∀ x, Cache.getattr d p = .ok x → fmt x.2.mode = S_IFDIR) → s.IsDir p := by
    intro p cs hb hp hd
    obtain ⟨nd, hnd⟩ := conn_exists hI.ok ⟨cs, hp⟩
    exact isDir_of hI hb hd hnd
  have rep : ∀ {cs}, s.PathTo i cs → _ := fun hp => hR _ (hI.rep.path_found hI.ok hp)
  cases h with
  | lkBad h1 h2 h3 => exact hi.put h3 (fun hat => (rep (.child hat h1)).1 _ _ h2)
  | lkPut h1 h2 h3 => exact hi.put h3 (fun hat => (rep (.child hat h1)).1 _ _ h2)
  | lkErr _ _ _ _ h3 => exact (hi.orphan _).coll h3.coll
  | rlErr _ _ _ _ h3 => exact (hi.orphan _).coll h3.coll
  | @rlPut j cs dest nd h1 h2 h3 h4 =>
    refine hi.set (fun e => ?_)
    subst e
    have hcs : cs ≠ [] := by
      rintro rfl
      have : i = ROOT := PathTo.inj hI.ok h1 .root
      subst this
      obtain ⟨x, h5, h6, -⟩ := hI.ok.root
      rw [h5] at h3; cases h3; rw [h6] at h4; cases h4
    rw [backendPath_ne hcs] at h2
    exact (rep h1).2 _ h2 _ (hi.2 nd h3) h4
  | @odSync j cs names e _ _ h1 h2 h3 =>
    cases h3 with
    | @mk s1 _ nd rw g1 g2 g3 g4 g5 g6 =>
      have hs1 := In.puts g1 hi (.refl s) hi.1 hI.ok (dir hr h1 hd) h1 (by have := hn2 _ _ _ h2; omega) (hne _ _ h1) (fun n hat c sr hl => (rep (.child hat h1)).1 _ _ hl)
      exact In.orphans (hs1.set (fun e => by subst e; exact hs1.2 nd g3)) _
  | _ => exact hi

end

theorem in_holds {S : Attrs → Prop} {i : Ino} : Holds (fun d rq B => Tidy rq B ∧ Reports S i d B) (fun s => Orig (fun _ _ => True) (fun _ _ => True) s ∧ In S i s) :=
  ⟨fun h _ hc => ⟨h.1.collected hc, h.2.coll hc⟩, fun ha hI hr hd hn hn2 hQ hP =>
    ⟨abs_orig ha hI hr hd hQ.1.1 hn2 ⟨fun _ _ _ _ => trivial, fun _ _ _ => trivial, hQ.1.2⟩ hP.1, abs_in ha hI hr hd hn2 (fun _ _ hp => hP.1.named hI.ok hp) hQ.2 hP.2⟩⟩

theorem orig_holds {S : Attrs → Prop} {i : Ino} : Holds (fun d rq B => Tidy rq B ∧ Reports S i d B) (Orig (fun _ _ => True) (fun _ _ => True)) :=
  ⟨fun h _ hc => h.collected hc, fun ha hI hr hd _ hn2 hQ hP => abs_orig ha hI hr hd hQ.1.1 hn2 ⟨fun _ _ _ _ => trivial, fun _ _ _ => trivial, hQ.1.2⟩ hP⟩

theorem kept_tidy : Kept (fun _ => Tidy) (Orig (fun _ _ => True) (fun _ _ => True)) where
  root := kept_orig.root
  coll := kept_orig.coll
  abs := fun h hI hr hd hn hn2 hQ ho => kept_orig.abs h hI hr hd hn hn2 ⟨hQ.1, fun _ _ _ _ => trivial, fun _ _ _ => trivial, hQ.2⟩ ho

theorem tidy_orig {m : MSys} (h : MReachQ Tidy m) (s : Tree) (hs : Rep s m.w.disk) (ok : s.OK) : Orig (fun _ _ => True) (fun _ _ => True) s := by
  obtain ⟨d0, r0, n, L, H, vs, R, ds, s1, hst, hM, hR, hP⟩ := h.inv kept_tidy
  obtain ⟨s', f1, f2, f3⟩ := hP.all _ (List.mem_of_getLast? hM.last)
  obtain rfl := Rep.inj f1 f2 hs ok
  exact f3

theorem osStat_inj {i j : Ino} {a b : Attrs} (h : osStat i a = osStat j b) : i = j ∧ a = b := by
  cases a; cases b
  simp only [osStat, OsStat.mk.injEq] at h
  obtain ⟨h1, h2, -, h3, h4, h5, -, h6, h7, h8, h9⟩ := h
  subst h1 h2 h3 h4 h5 h6 h7 h8 h9
  exact ⟨rfl, rfl⟩

/-- C100: attributes of an object stay where the backend's reports are. Inode `i` has attributes in `S` in `m`. From now on,
what the backend reports about it, whenever it is asked, is in `S`. Then all attributes of `i` which are
ever stored are in `S`, and so are those in replies to requests which begin from now on: in all
threads, and in all later processes. -/
theorem C100_kept {S : Attrs → Prop} {i : Ino} {m m' : MSys} {b : Nat} (h : MReachQ Tidy m) (hs : Since (fun d rq B => Tidy rq B ∧ Reports S i d B) m b m') (hi : i < W64)
    {a : Attrs} (ha : Cache.getattr m.w.disk i = .ok (i, a)) (hS : S a) :
    (∀ a', Cache.getattr m'.w.disk i = .ok (i, a') → S a') ∧ ∀ (k : Nat) (q : Done), m'.hist[k]? = some q → q.after k b → ∀ a', Stats q.rep (osStat i a') → S a' := by
  obtain ⟨⟨s', f1, f2, -, f3⟩, f4⟩ := hs.fits in_holds h.reach (fun s hs ok => ⟨tidy_orig h s hs ok, by
    rw [hs.getattr ok hi] at ha
    cases hn : s.nodes i with
    | none => rw [hn] at ha; cases ha
    | some nd =>
      rw [hn] at ha
      cases ha
      exact ⟨(ok.bound i nd hn).2, fun nd' hn' => by rw [hn] at hn'; cases hn'; exact hS⟩⟩)
  refine ⟨fun a' h' => ?_, fun k q hk hq a' hst => ?_⟩
  · rw [f1.getattr f2 hi] at h'
    cases hn : s'.nodes i with
    | none => rw [hn] at h'; cases h'
    | some nd => rw [hn] at h'; cases h'; exact f3.2 nd hn
  · obtain ⟨t, -, ⟨-, g2⟩, g3⟩ := f4 k q hk hq
    obtain ⟨nd, h1, h2⟩ := g3.1 _ hst
    obtain ⟨-, rfl⟩ := osStat_inj h2
    exact g2.2 nd h1

/-- C100: from a reply on. A request which began after `m` was answered with attributes of inode `i` in `S`.
Then those which are stored now (`m'`) are in `S` too, if the backend has reported nothing else since `m`. -/
theorem C100_shown {S : Attrs → Prop} {i : Ino} {m m' : MSys} {b : Nat} (h : MReachQ Tidy m) (hs : Since (fun d rq B => Tidy rq B ∧ Reports S i d B) m b m')
    {k : Nat} {q : Done} (hk : m'.hist[k]? = some q) (hq : q.after k b) {a : Attrs} (hst : Stats q.rep (osStat i a)) (hS : S a) :
    ∀ a', Cache.getattr m'.w.disk i = .ok (i, a') → S a' := by
  obtain ⟨s', f1, f2, -, f3⟩ := hs.from_ orig_holds in_holds h.reach (tidy_orig h) hk hq (fun s ok ho hf => ⟨ho, by
    obtain ⟨nd, h1, h2⟩ := hf.1 _ hst
    obtain ⟨-, rfl⟩ := osStat_inj h2
    exact ⟨(ok.bound i nd h1).2, fun nd' hn' => by rw [show s.nodes i = some nd from h1] at hn'; cases hn'; exact hS⟩⟩)
  intro a' h'
  have hb : i < W64 := Nat.lt_trans f3.1 f2.next_lt
  rw [f1.getattr f2 hb] at h'
  cases hn : s'.nodes i with
  | none => rw [hn] at h'; cases h'
  | some nd => rw [hn] at h'; cases h'; exact f3.2 nd hn

theorem Since.tidy {S : Attrs → Prop} {i : Ino} {m m' : MSys} {b : Nat} (h : MReachQ Tidy m) (hs : Since (fun d rq B => Tidy rq B ∧ Reports S i d B) m b m') : MReachQ Tidy m' := by
  induction hs with
  | refl => exact h
  | @step b m1 m2 k h0 h1 h2 h3 h4 ih =>
    refine .step ih h1 h2 h3 (fun q hq => ?_)
    rcases step_hist h1 with he | ⟨x, q', -, he, -⟩
    · rw [he] at hq; exact ih.all q hq
    · rw [he] at hq
      rcases List.mem_append.mp hq with hq | hq
      · exact ih.all q hq
      · rw [List.mem_singleton.mp hq]; exact (h4 q' he).1
  | crash _ h1 h2 ih => exact .remount ih h1 h2

/-- C100: from reply to reply. A request which began after `m` was answered with attributes of inode `i` in `S`; this
was seen in `m'`. A request which began after `m'`, in this process or a later one, was answered with
attributes of the same inode. Then these are in `S`, if the backend has reported nothing else about the inode since `m`. -/
theorem C100_replies {S : Attrs → Prop} {i : Ino} {m m' m'' : MSys} {b b' : Nat} (h : MReachQ Tidy m) (hs : Since (fun d rq B => Tidy rq B ∧ Reports S i d B) m b m')
    {k : Nat} {q : Done} (hk : m'.hist[k]? = some q) (hq : q.after k b) {a : Attrs} (hst : Stats q.rep (osStat i a)) (hS : S a)
    (hs' : Since (fun d rq B => Tidy rq B ∧ Reports S i d B) m' b' m'') {k' : Nat} {q' : Done} (hk' : m''.hist[k']? = some q') (hq' : q'.after k' b')
    {a' : Attrs} (hst' : Stats q'.rep (osStat i a')) : S a' := by
  obtain ⟨s', f1, f2, f3⟩ := hs.from_ orig_holds in_holds h.reach (tidy_orig h) hk hq (fun s ok ho hf => ⟨ho, by
    obtain ⟨nd, h1, h2⟩ := hf.1 _ hst
    obtain ⟨-, rfl⟩ := osStat_inj h2
    exact ⟨(ok.bound i nd h1).2, fun nd' hn' => by rw [show s.nodes i = some nd from h1] at hn'; cases hn'; exact hS⟩⟩)
  obtain ⟨-, f4⟩ := hs'.fits in_holds (hs.tidy h).reach (fun s hs ok => by
    obtain rfl := Rep.inj f1 f2 hs ok
    exact f3)
  obtain ⟨t, -, ⟨-, g2⟩, g3⟩ := f4 k' q' hk' hq'
  obtain ⟨nd, h1, h2⟩ := g3.1 _ hst'
  obtain ⟨-, rfl⟩ := osStat_inj h2
  exact g2.2 nd h1

/-- Points in time (not before 1970: `Timespec` holds the bits of `time_t`). -/
def notBefore (t u : Timespec) : Prop := t.sec < u.sec ∨ (t.sec = u.sec ∧ t.nsec ≤ u.nsec)

/-- What the backend reports about inode `i` was modified at `t` or later. -/
def ReportsFrom (t : Timespec) (i : Ino) (d : DB) (B : Backend) : Prop :=
  ∀ b, Cache.path d i = .ok (.ok b) → ∀ c sr, B.lstat c b = .ok sr → notBefore t sr.mtime

/-- C100 for times of modification: once an inode was shown as modified at `t`, it is never again shown as modified earlier,
as long as the backend reports no earlier time for it. -/
theorem C100_mtime {t : Timespec} {i : Ino} {m m' m'' : MSys} {b b' : Nat} (h : MReachQ Tidy m) (hs : Since (fun d rq B => Tidy rq B ∧ ReportsFrom t i d B) m b m')
    {k : Nat} {q : Done} (hk : m'.hist[k]? = some q) (hq : q.after k b) {x : OsStat} (hst : Stats q.rep x) (hx : x.ino = i) (ht : x.mtime = t)
    (hs' : Since (fun d rq B => Tidy rq B ∧ ReportsFrom t i d B) m' b' m'') {k' : Nat} {q' : Done} (hk' : m''.hist[k']? = some q') (hq' : q'.after k' b')
    {y : OsStat} (hst' : Stats q'.rep y) (hy : y.ino = i) : notBefore t y.mtime := by
  have mono : ∀ {m m' b}, Since (fun d rq B => Tidy rq B ∧ ReportsFrom t i d B) m b m' → Since (fun d rq B => Tidy rq B ∧ Reports (fun a => notBefore t a.mtime) i d B) m b m' := by
    intro m m' b hs
    induction hs with
    | refl => exact .refl
    | step _ h1 h2 h3 h4 ih => exact .step ih h1 h2 h3 (fun q hq => ⟨(h4 q hq).1, fun b hb => ⟨fun c sr hl => (h4 q hq).2 b hb c sr hl, fun _ _ a ha _ => ha⟩⟩)
    | crash _ h1 h2 ih => exact .crash ih h1 h2
  have stat : ∀ {m m' b} {k : Nat} {q : Done} {x}, MReach m → Since (fun d rq B => Tidy rq B ∧ ReportsFrom t i d B) m b m' → m'.hist[k]? = some q → Stats q.rep x → ∃ a, x = osStat x.ino a := by
    intro m m' b k q x hm hs hk hx
    obtain ⟨d0, r0, n, L, H, vs, R, ds, s, hst, hM, hR, hPI, -⟩ := hs.inv hm
    obtain ⟨d, d', h1, h2, h3⟩ := hPI.saw k q hk
    obtain ⟨s, g1, g2, g3⟩ := saw_fits h3
    obtain ⟨nd, -, h5⟩ := g3.1 x hx
    exact ⟨nd.attr, h5⟩
  obtain ⟨a, ha⟩ := stat h.reach hs hk hst
  obtain ⟨a', ha'⟩ := stat (hs.reach h.reach) hs' hk' hst'
  rw [hx] at ha; rw [hy] at ha'
  subst ha ha'
  refine C100_replies (S := fun a => notBefore t a.mtime) h (mono hs) hk hq hst ?_ (mono hs') hk' hq' hst'
  rw [← ht]; exact .inr ⟨rfl, Nat.le_refl _⟩

/-! ### Example -/

theorem lstart_nil {Q : Req → Backend → Prop} {n : Nat} {past m cap} (h : lstart n [] = some (past, m, cap)) : MReachQ Q m := by
  unfold lstart at h
  split at h
  · cases h
  · rename_i d r ho
    split at h
    · rename_i hroom
      have hc : ∀ i, ((CWorld.start d r).refs i).nrefs ≤ 0 := by
        obtain ⟨s, h1, h2, h3⟩ := root_rep 0 0 ⟨0, 0⟩
        exact fun i => Nat.le_of_eq (open_counts (si_empty h1 h2 h3) ho i)
      cases h
      exact .mount ho (roomB_iff hc hroom)
    · cases h

/-- `/a` is a file which was modified at `t`. -/
def tblT (t : Nat) : Tbl where
  stats := [([0x2f, 0x61], .ok { bFile 9 with mtime := ⟨t, 0⟩ })]
  dirs := [([0x2f], .ok ([[0x61]], 0))]

def fromFive (rq : Req) (B : Backend) : Prop := Tidy rq B ∧ ∀ c b sr, B.lstat c b = .ok sr → notBefore ⟨5, 0⟩ sr.mtime

theorem fromFive_tbl {rq : Req} (hr : rq.named) {t : Nat} (ht : 5 ≤ t) : fromFive rq (tblT t).backend := by
  refine ⟨⟨hr, fun p names e h hn => ?_⟩, fun c b sr h => ?_⟩
  · cases hx : (tblT t).dirs.lookup p with
    | none => simp only [Tbl.backend, hx] at h; cases h
    | some v =>
      simp only [Tbl.backend, hx, Option.getD_some] at h
      have hm := lookup_mem hx
      simp only [tblT, List.mem_singleton, Prod.mk.injEq] at hm
      rw [hm.2] at h; cases h
      simp at hn
  · cases hx : (tblT t).stats.lookup b with
    | none => simp only [Tbl.backend, hx] at h; cases h
    | some v =>
      simp only [Tbl.backend, hx, Option.getD_some] at h
      have hm := lookup_mem hx
      simp only [tblT, List.mem_singleton, Prod.mk.injEq] at hm
      rw [hm.2] at h; cases h
      by_cases he : t = 5
      · exact .inr ⟨he.symm, Nat.le_refl _⟩
      · exact .inl (by show 5 < t; omega)

theorem fromFive_off {rq : Req} (hr : rq.named) : fromFive rq Tbl.offline.backend :=
  ⟨⟨hr, fun p names e h _ => by cases h⟩, fun c b sr h => by cases h⟩

theorem asks_Asks {Q : Req → Backend → Prop} {t : Tbl} {rq : Req} {n : Nat} (h : Q rq t.backend) : ∀ e ∈ asks t rq n, e.Asks Q := by
  intro e he
  rcases List.mem_cons.mp he with rfl | he
  · exact h
  · rw [(List.mem_replicate.mp he).2]; trivial

/-- The file is found, modified at 5; found again, modified at 7; then the process dies. The next one is not connected, and lists the root. -/
def monoDemo1 : List LEv := asks (tblT 5) (.lookup 1 [0x61]) 7
def monoDemo2 : List LEv := asks (tblT 7) (.lookup 1 [0x61]) 7 ++ [.die 1] ++ asks .offline (.getattr 2) 5

theorem mono_asks : ∀ e ∈ monoDemo1 ++ monoDemo2, e.Asks fromFive := by
  intro e he
  simp only [monoDemo1, monoDemo2, List.mem_append] at he
  rcases he with he | (he | he) | he
  · exact asks_Asks (fromFive_tbl (rq := .lookup 1 [0x61]) (List.cons_ne_nil _ _) (by decide)) e he
  · exact asks_Asks (fromFive_tbl (rq := .lookup 1 [0x61]) (List.cons_ne_nil _ _) (by decide)) e he
  · rw [List.mem_singleton.mp he]; trivial
  · exact asks_Asks (fromFive_off (rq := .getattr 2) trivial) e he

def threeMoments : Option (MSys × MSys × MSys) := do
  let x ← lstart 1 []
  let y ← lrun x.1 x.2.1 x.2.2 monoDemo1
  let z ← lrun y.1 y.2.1 y.2.2 monoDemo2
  pure (x.2.1, y.2.1, z.2.1)

theorem threeMoments_since {m m' m'' : MSys} (h : threeMoments = some (m, m', m'')) : MReachQ Tidy m ∧ Since (fun d rq B => Tidy rq B ∧ ReportsFrom ⟨5, 0⟩ 2 d B) m m.hist.length m' ∧
    Since (fun d rq B => Tidy rq B ∧ ReportsFrom ⟨5, 0⟩ 2 d B) m' 0 m'' := by
  unfold threeMoments at h
  obtain ⟨x, h1, h⟩ := Option.bind_eq_some_iff.mp h
  obtain ⟨y, h2, h⟩ := Option.bind_eq_some_iff.mp h
  obtain ⟨z, h3, h⟩ := Option.bind_eq_some_iff.mp h
  cases h
  have hQ : ∀ (d : DB) rq B, fromFive rq B → Tidy rq B ∧ ReportsFrom ⟨5, 0⟩ 2 d B := fun d rq B hq => ⟨hq.1, fun b _ c sr hl => hq.2 c b sr hl⟩
  obtain ⟨g1, g2⟩ := lstart_life (Qe := fromFive) (fun e he => by cases he) h1
  obtain ⟨f1, f2, b, f3, -, f4⟩ := lrun_since hQ .refl g1 g2 (fun e he => mono_asks e (List.mem_append_left _ he)) h2
  obtain ⟨-, -, b', e3, e4, -⟩ := lrun_since hQ .refl f1 f2 (fun e he => mono_asks e (List.mem_append_right _ he)) h3
  have hb := f4 (by decide)
  have hb' := e4 (by decide)
  subst hb hb'
  exact ⟨lstart_nil h1, f3, e3⟩

theorem threeMoments_says : (match threeMoments with
    | some (m, m', m'') => decide (m.hist = [] ∧ m'.hist.map (fun q => (q.rq, q.rep)) = [(.lookup 1 [0x61], .entry (osStat 2 (fromBackend { bFile 9 with mtime := ⟨5, 0⟩ })))] ∧
        m''.hist.map (fun q => (q.rq, q.rep)) = [(.getattr 2, .attr (osStat 2 (fromBackend { bFile 9 with mtime := ⟨7, 0⟩ })))])
    | none => false) = true := by decide +kernel

/-- The hypotheses of `C100_mtime` can be met (and so can those of `C100_replies` and `C100_shown`): the file is shown as modified at 5, and later as modified at 7. -/
example : ∃ (m m' m'' : MSys) (q q' : Done) (x y : OsStat), MReachQ Tidy m ∧ Since (fun d rq B => Tidy rq B ∧ ReportsFrom ⟨5, 0⟩ 2 d B) m m.hist.length m' ∧
    Since (fun d rq B => Tidy rq B ∧ ReportsFrom ⟨5, 0⟩ 2 d B) m' 0 m'' ∧ m'.hist[0]? = some q ∧ q.after 0 m.hist.length ∧ m''.hist[0]? = some q' ∧ q'.after 0 0 ∧
    Stats q.rep x ∧ x.ino = 2 ∧ x.mtime = ⟨5, 0⟩ ∧ Stats q'.rep y ∧ y.ino = 2 ∧ y.mtime = ⟨7, 0⟩ := by
  have hs := threeMoments_says
  generalize hd : threeMoments = o at hs
  obtain _ | ⟨m, m', m''⟩ := o
  · cases hs
  simp only [decide_eq_true_eq] at hs
  obtain ⟨e1, e2, e3⟩ := hs
  obtain ⟨g1, g2, g3⟩ := threeMoments_since hd
  have one : ∀ {l : List Done} {rq rep}, l.map (fun q => (q.rq, q.rep)) = [(rq, rep)] → ∃ q, l[0]? = some q ∧ q.rq = rq ∧ q.rep = rep := by
    intro l rq rep h
    match l, h with
    | [q], h =>
      simp only [List.map_cons, List.map_nil, List.cons.injEq, Prod.mk.injEq, and_true] at h
      exact ⟨q, rfl, h.1, h.2⟩
  obtain ⟨q, q1, q2, q3⟩ := one e2
  obtain ⟨q', q4, q5, q6⟩ := one e3
  refine ⟨m, m', m'', q, q', osStat 2 (fromBackend { bFile 9 with mtime := ⟨5, 0⟩ }), osStat 2 (fromBackend { bFile 9 with mtime := ⟨7, 0⟩ }), g1, g2, g3, q1, ?_, q4, ⟨Nat.le_refl _, fun _ => Nat.zero_le _⟩, ?_, rfl, rfl, ?_, rfl, rfl⟩
  · rw [e1]; exact ⟨Nat.le_refl _, fun _ => Nat.zero_le _⟩
  · rw [q3]; rfl
  · rw [q6]; rfl

end Dragonstash.MT
