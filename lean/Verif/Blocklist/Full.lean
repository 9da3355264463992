import Verif.Blocklist.FullModel
import Verif.Blocklist.Crash
import Verif.Blocklist.Fsck
/-
  What a `mark` which fails for lack of space leaves behind.
-/
namespace Dragonstash.Blocklist

open Spec (setRange Clean)

/-- `x` does what `m` does, or fails leaving a list as `F` says. -/
def Agree {α : Type} (F : File → Prop) (x : X α) (m : M α) : Prop := x = up m ∨ ∃ g, F g ∧ x = .error (.full g)

variable {F G : File → Prop} {room : Nat → Bool} {f : File}

theorem Agree.up {α : Type} (m : M α) : Agree F (up m) m := .inl rfl
theorem Agree.pure {α : Type} (a : α) : Agree F (Pure.pure a) (.ok a : M α) := .inl rfl

theorem Agree.bind {α β : Type} {x : X α} {m : M α} {k : α → X β} {k' : α → M β} (h : Agree F x m)
    (hk : ∀ a, m = .ok a → Agree F (k a) (k' a)) : Agree F (x >>= k) (m >>= k') := by
  rcases h with h | ⟨g, hg, h⟩
  · cases m with
    | error e => exact .inl (by rw [h]; rfl)
    | ok a =>
      rcases hk a rfl with h' | ⟨g, hg, h'⟩
      · exact .inl (by rw [h]; exact h')
      · exact .inr ⟨g, hg, by rw [h]; exact h'⟩
  · exact .inr ⟨g, hg, by rw [h]; rfl⟩

theorem Agree.mono {α : Type} {x : X α} {m : M α} (h : Agree F x m) (hf : ∀ g, F g → G g) : Agree G x m := by
  rcases h with h | ⟨g, hg, h⟩
  · exact .inl h
  · exact .inr ⟨g, hf g hg, h⟩

theorem insertBefore_agree (f : File) (d : Nat) (e : Entry) :
    Agree (fun g => stuck room f = true ∧ g = ensureUnmapped f) (insertBeforeX room f d e) (insertBefore f d e) := by
  unfold insertBeforeX insertBefore
  refine Agree.bind (m := requireSpace f) ?_ (fun f1 _ => ?_)
  · unfold requireSpaceX
    by_cases h : stuck room f = true
    · rw [if_pos h]; exact .inr ⟨_, ⟨h, rfl⟩, rfl⟩
    · rw [if_neg h]; exact .up _
  by_cases h : f.n - d ≠ 0
  · simp only [if_pos h]
    refine Agree.bind (.up _) (fun f2 _ => ?_)
    refine Agree.bind (.up _) (fun f3 _ => ?_)
    exact .pure _
  · simp only [if_neg h]
    refine Agree.bind (.up _) (fun f2 _ => ?_)
    refine Agree.bind (.up _) (fun f3 _ => ?_)
    exact .pure _

/-- What a split which fails leaves (blocklist.cpp 316-317). -/
def SplitFull (room : Nat → Bool) (f : File) (at' s : Nat) (g : File) : Prop :=
  ∃ a f1, stuck room f1 = true ∧ deref f at' 309 = .ok a ∧ a.start ≤ s ∧ s < a.fin ∧ store f at' { a with count := u16 (sub64 s a.start) } 317 = .ok f1 ∧
    g = ensureUnmapped f1

theorem chk_inv {l : Nat} {p : Prop} [Decidable p] (h : chk l (decide p) = .ok ()) : p := by
  by_cases hp : p
  · exact hp
  · rw [decide_eq_false hp] at h; cases h

theorem splitEntry_agree (f : File) (a s : Nat) : Agree (SplitFull room f a s) (splitEntryX room f a s) (splitEntry f a s) := by
  unfold splitEntryX splitEntry
  refine Agree.bind (.up _) (fun x hx => ?_)
  refine Agree.bind (.up _) (fun u1 h1 => ?_)
  refine Agree.bind (.up _) (fun u2 h2 => ?_)
  refine Agree.bind (.up _) (fun f1 hf1 => ?_)
  refine Agree.bind ((insertBefore_agree _ _ _).mono (fun g hg => ⟨x, f1, hg.1, hx, chk_inv h1, chk_inv h2, hf1, hg.2⟩)) (fun r _ => ?_)
  obtain ⟨f2, j⟩ := r
  refine Agree.bind (.up _) (fun x _ => ?_)
  refine Agree.bind (.up _) (fun x _ => ?_)
  refine Agree.bind (.up _) (fun x _ => ?_)
  refine Agree.bind (.up _) (fun x _ => ?_)
  refine Agree.bind (.up _) (fun x _ => ?_)
  exact .pure _

theorem finishMark_agree (f : File) (so eo : Nat) (e e' : Entry) (st : State) :
    Agree (fun g => ∃ f1, finishMark f so eo e' .absent = .ok f1 ∧ st ≠ .absent ∧ stuck room f1 = true ∧ g = ensureUnmapped f1) (finishMarkX room f so eo e st) (finishMark f so eo e st) := by
  unfold finishMarkX finishMark
  refine Agree.bind (.up _) (fun r hr => ?_)
  obtain ⟨f1, j⟩ := r
  by_cases hst : st = .absent
  · simp only [hst, if_true]; exact .pure _
  · simp only [hst, if_false]
    refine Agree.bind ((insertBefore_agree _ _ _).mono (fun g hg => ⟨f1, ?_, ?_⟩)) (fun r2 _ => ?_)
    · simp only [hr, bind_ok, if_true]; rfl
    · exact ⟨hst, hg⟩
    · obtain ⟨f2, j2⟩ := r2
      refine Agree.bind (.up _) (fun f3 _ => ?_)
      exact .up _

theorem caseSplit_agree (f : File) (so eo s : Nat) :
    Agree (fun g => so ≠ f.n ∧ so = eo ∧ SplitFull room f so s g) (caseSplitX room f so eo s) (caseSplit f so eo s) := by
  unfold caseSplitX caseSplit
  by_cases h : so ≠ f.n ∧ so = eo
  · rw [if_pos h, if_pos h]
    rcases splitEntry_agree (room := room) f so s with h' | ⟨g, hg, h'⟩
    · rw [h']
      left
      cases splitEntry f so s <;> rfl
    · exact .inr ⟨g, ⟨h.1, h.2, hg⟩, by rw [h']; rfl⟩
  · rw [if_neg h, if_neg h]; exact .pure _

theorem markInternal_agree (f : File) (s c : Nat) (st : State) :
    Agree (fun g => (∃ so, findOverlapping f s c = .ok (so, so) ∧ so ≠ f.n ∧ SplitFull room f so s g) ∨
      ∃ f1, markInternal f s c .absent = .ok f1 ∧ st ≠ .absent ∧ stuck room f1 = true ∧ g = ensureUnmapped f1)
      (markInternalX room f s c st) (markInternal f s c st) := by
  unfold markInternalX
  conv => arg 3; unfold markInternal
  refine Agree.bind (.up _) (fun o ho => ?_)
  obtain ⟨so, eo⟩ := o
  refine Agree.bind ((caseSplit_agree f so eo s).mono (fun g hg => .inl ⟨so, ?_, hg.1, hg.2.2⟩)) (fun r hr => ?_)
  · rw [ho, hg.2.1]
  obtain ⟨f1, so1, eo1⟩ := r
  refine Agree.bind (.up _) (fun sc hsc => ?_)
  refine Agree.bind (.up _) (fun ec hec => ?_)
  cases sc with
  | true =>
    simp only [if_true]
    refine Agree.bind (.up _) (fun x hx => ?_)
    by_cases hxs : x.start = s ∧ x.count ≤ c
    · rw [if_pos hxs, if_pos hxs]
      by_cases hst : st = .absent
      · rw [if_pos hst, if_pos hst]
        refine Agree.bind (.up _) (fun r2 _ => ?_)
        exact .pure _
      · rw [if_neg hst, if_neg hst]
        refine Agree.bind (.up _) (fun f2 _ => ?_)
        refine Agree.bind (.up _) (fun f3 _ => ?_)
        refine Agree.bind (.up _) (fun f4 _ => ?_)
        refine Agree.bind (.up _) (fun r5 _ => ?_)
        exact .up _
    · rw [if_neg hxs, if_neg hxs]
      refine Agree.bind (.up _) (fun f2 h2 => ?_)
      refine Agree.bind (.up _) (fun u1 h3 => ?_)
      refine Agree.bind (.up _) (fun u2 h4 => ?_)
      refine Agree.bind (.up _) (fun u3 h5 => ?_)
      refine Agree.bind (.up _) (fun f3 h6 => ?_)
      refine Agree.bind (.up _) (fun f4 h7 => ?_)
      refine (finishMark_agree f4 so1 eo1 _ ⟨s, c, State.code .absent⟩ st).mono (fun g hg => .inr ?_)
      obtain ⟨f5, h8, h9, h10⟩ := hg
      refine ⟨f5, ?_, h9, h10⟩
      unfold markInternal
      simp only [ho, bind_ok, hr, hsc, hec, if_true, hx, if_neg hxs, h2, h3, h4, h5, h6, h7, h8]
  | false =>
    simp only [Bool.false_eq_true, if_false]
    refine Agree.bind (.up _) (fun f4 h7 => ?_)
    refine (finishMark_agree f4 so1 eo1 _ ⟨s, c, State.code .absent⟩ st).mono (fun g hg => .inr ?_)
    obtain ⟨f5, h8, h9, h10⟩ := hg
    refine ⟨f5, ?_, h9, h10⟩
    unfold markInternal
    simp only [ho, bind_ok, hr, hsc, hec, Bool.false_eq_true, if_false, h7, h8]

/-- Every call does what `mark` does, or has to grow the file and cannot. -/
theorem markLoop_agree (st : State) (fuel : Nat) : ∀ (f : File) (s c : Nat),
    Agree (fun g => ∃ f', stuck room f' = true ∧ g = ensureUnmapped f') (markLoopX room st fuel f s c) (markLoop st fuel f s c) := by
  have h1 : ∀ (f : File) (s c : Nat), Agree (fun g => ∃ f', stuck room f' = true ∧ g = ensureUnmapped f') (markInternalX room f s c st) (markInternal f s c st) := by
    intro f s c
    refine (markInternal_agree f s c st).mono (fun g hg => ?_)
    rcases hg with ⟨_, _, _, _, f1, h, _, _, _, _, hg⟩ | ⟨f1, _, _, h, hg⟩
    · exact ⟨f1, h, hg⟩
    · exact ⟨f1, h, hg⟩
  induction fuel with
  | zero => intro f s c; exact .inl rfl
  | succ n ih =>
    intro f s c
    unfold markLoopX markLoop
    by_cases hc : c > limit
    · rw [if_pos hc, if_pos hc]
      exact Agree.bind (h1 ..) (fun f1 _ => ih ..)
    · rw [if_neg hc, if_neg hc]
      by_cases h0 : c > 0
      · rw [if_pos h0, if_pos h0]; exact h1 ..
      · rw [if_neg h0, if_neg h0]; exact .pure _

/-! ### The lists left -/

theorem Inv.unmapped {f : File} {L : List Entry} (h : Inv f L) : Inv (ensureUnmapped f) L := by
  unfold ensureUnmapped
  split
  · exact ⟨h.slots, h.n, h.cnt, h.len, h.msize, h.msize_le, fun hh => absurd hh (by simp), h.w0, h.small⟩
  · exact h

theorem Rep.remap {f : File} {L S : List Entry} {G : Nat → Int} (h : Rep f L S G) : ensureMapped (ensureUnmapped f) = f :=
  reopen_of h.mapped (by rw [h.msize, h.slots]; simp)

theorem Rep.stateAt_unmapped {f : File} {L S : List Entry} {G : Nat → Int} (h : Rep f L S G) (hok : ∀ e ∈ L, EOk e) (b : Nat) :
    stateAt (ensureUnmapped f) b = .ok (sem L b) := by
  have := stateAt_rep h hok b
  unfold stateAt at this ⊢
  rw [h.remap]
  rw [ensureMapped_of h.mapped] at this
  have hn : (ensureUnmapped f).n = f.n := by unfold ensureUnmapped; split <;> rfl
  rw [hn]; exact this

/-- One chunk of a mark, with the list as in `Inv`. -/
theorem Inv.markInternal {f : File} {L : List Entry} (h : Inv f L) (hm : f.mapped = true) {s c : Nat} (st : State)
    (hc : 0 < c) (hc' : c ≤ 65535) (he : s + c < W64) :
    ∃ f', Blocklist.markInternal f s c st = .ok f' ∧ Inv f' (markL L s c st) ∧ f'.mapped = true := by
  obtain ⟨S, hr⟩ := h.rep
  rw [ensureMapped_of hm] at hr
  obtain ⟨f', S', e, r⟩ := markInternal_rep (st := st) hr h.w0 hc hc' he
  have hl := markInternal_len (by omega) hc' e h.small
  refine ⟨f', e, Inv.of_rep (r.congrG (fun t => by omega)) (by rw [hl.1, h.len]) hl.2 (markL_w0 h.w0 hc' he), r.mapped⟩

/-- The list after a split which failed: the entry around `s` has been cut there. -/
theorem splitFull_rep {f : File} {L S : List Entry} {G : Nat → Int} {s c so : Nat} {g : File} (hr : Rep f L S G) (hw : Wf L) (he : s + c < W64)
    (ho : findOverlapping f s c = .ok (so, so)) (hso : so ≠ f.n) (h : SplitFull room f so s g) :
    ∃ A r B f1, L = A ++ r :: B ∧ r.start ≤ s ∧ s + c < r.start + r.count ∧ Rep f1 (A ++ leftOf s r :: B) S G ∧ g = ensureUnmapped f1 := by
  obtain ⟨h1, h2, h3, h4, -⟩ := overlap_facts (R := fun _ _ _ => False) hr hw.w0 he ho (fun _ _ _ h => h.elim)
  obtain ⟨a, f1, -, hd, hs1, hs2, hst, hg⟩ := h
  have hslot := deref_inv hd
  have hend := h4 hso a hslot
  have hlt : so < L.length := by rw [← hr.n]; omega
  rw [hr.slots, List.getElem?_append_left hlt] at hslot
  have hL : L = L.take so ++ a :: L.drop (so + 1) := by
    obtain ⟨h', rfl⟩ := List.getElem?_eq_some_iff.mp hslot
    rw [← List.drop_eq_getElem_cons hlt, List.take_append_drop]
  have hlen : (L.take so).length = so := by rw [List.length_take]; omega
  have ha := hw.ok a (by rw [hL]; simp)
  have hr' : Rep f (L.take so ++ a :: L.drop (so + 1)) S G := hr.congrL hL
  obtain ⟨f2, e2, r2⟩ := store_rep hr' (leftOf s a) 317
  have hu : u16 (sub64 s a.start) = s - a.start := by
    have := ha.count; have := ha.range; unfold u16 sub64; omega
  rw [hlen] at e2
  rw [hu] at hst
  have : f1 = f2 := by
    have hh : store f so (leftOf s a) 317 = .ok f1 := hst
    rw [hh] at e2; injection e2
  subst this
  exact ⟨_, a, _, f1, hL, hs1, hend, r2, hg⟩

/-- What it reads as. -/
theorem cut_sem {A B : List Entry} {r : Entry} {s : Nat} (hw : Wf (A ++ r :: B)) (h1 : r.start ≤ s) (h2 : s < r.start + r.count) :
    sem (A ++ leftOf s r :: B) = setRange (sem (A ++ r :: B)) s (r.start + r.count - s) .absent := by
  have hp := List.pairwise_append.1 hw.disj
  have hB := (List.pairwise_cons.1 hp.2.1).1
  have hA : ∀ e ∈ A, e.start + e.count ≤ r.start := fun e he => hp.2.2 e he r (by simp)
  funext b
  unfold setRange
  by_cases hb : s ≤ b ∧ b < s + (r.start + r.count - s)
  · rw [if_pos hb]
    apply sem_none
    intro e he hc
    have c1 := hc.1
    have c2 := hc.2
    simp only [List.mem_append, List.mem_cons] at he
    rcases he with he | rfl | he
    · have := hA e he; omega
    · simp only [leftOf] at c1 c2; omega
    · have := hB e he; omega
  · rw [if_neg hb]
    apply sem_congr_append
    simp only [sem]
    by_cases hr : r.covers b
    · have c1 := hr.1
      have c2 := hr.2
      rw [if_pos hr, if_pos ⟨c1, by simp only [leftOf]; omega⟩]
      rfl
    · rw [if_neg hr, if_neg (fun h => hr ⟨h.1, by have := h.2; simp only [leftOf] at this; omega⟩)]

/-- The run of blocks which is cut. -/
theorem cut_run {A B : List Entry} {r : Entry} (hw : Wf (A ++ r :: B)) {b : Nat} (h1 : r.start ≤ b) (h2 : b < r.start + r.count) :
    sem (A ++ r :: B) b = dec r.state :=
  sem_of_cov hw ⟨r, by simp, ⟨h1, h2⟩, rfl⟩

/-- `fsck` finds that blocks are missing. -/
theorem cut_fsck {f : File} {A B S : List Entry} {r : Entry} {s : Nat} (hr : Rep f (A ++ leftOf s r :: B) S (fun t => total t (A ++ r :: B)))
    (hw : Wf (A ++ r :: B)) (h1 : r.start ≤ s) (h2 : s < r.start + r.count) : ∃ l, fsck (ensureUnmapped f) = .error (.thrown l) := by
  have hro := hw.ok r (by simp)
  have hok : ∀ e ∈ A ++ leftOf s r :: B, EOk e := by
    intro e he
    simp only [List.mem_append, List.mem_cons] at he
    rcases he with he | rfl | he
    · exact hw.ok e (by simp [he])
    · have := hro.range; have := hro.count
      exact ⟨by simp only [leftOf]; omega, by simp only [leftOf]; omega, hro.state⟩
    · exact hw.ok e (by simp [he])
  unfold fsck
  rw [hr.remap]
  have e1 : fsckLoop f f.n 0 0 0 (fun _ => 0) = fsckL (A ++ leftOf s r :: B) 0 0 (fun _ => 0) := by
    rw [hr.n]; exact fsckLoop_rep _ [] 0 0 _ (by simpa using hr)
  simp only [e1]
  rcases fsckL_no_ub _ 0 0 (fun _ => 0) (fun e he => (hok e he).state) with ⟨a, ha⟩ | ⟨l, hl⟩
  · rw [ha, bind_ok]
    have h3 := (fsckL_iff (A ++ leftOf s r :: B) (pe := 0) (ps := 0) (acc := fun _ => 0) (Nat.le_refl _) (fun e he => (hok e he).range)
      (fun _ => by decide)).2 a ha r.state
    have h4 := hr.cnt r.state
    have hne : a r.state ≠ f.cnt r.state := by
      rw [h3, h4]
      simp only [total_append, total_cons, leftOf, if_true]
      have := hro.range
      unfold u64 wrapI
      omega
    refine ⟨671, if_neg ?_⟩
    have hst := hro.state
    intro ⟨x0, x1, x2, x3⟩
    have : r.state = 0 ∨ r.state = 1 ∨ r.state = 2 ∨ r.state = 3 := by omega
    rcases this with h | h | h | h <;> (rw [h] at hne; contradiction)
  · rw [hl, bind_err]; exact ⟨_, rfl⟩

/-- What a mark of `[s, s + c)` which fails in its `k`-th piece leaves, if the blocks were `m`: the pieces
before are marked, the blocks from `p` to `q` are absent. -/
structure Outcome (m : Spec.Map) (s c : Nat) (st : State) (k q : Nat) (g : File) : Prop where
  piece : k * 65535 < c
  reach : s + min ((k + 1) * 65535) c ≤ q
  reads : ∀ b, stateAt g b = .ok (setRange (setRange m s (k * 65535) st) (s + k * 65535) (q - (s + k * 65535)) .absent b)
  kind : (q = s + min ((k + 1) * 65535) c ∧ ∃ L, Inv g L ∧ Wf L) ∨
    ((∀ b, s + k * 65535 ≤ b → b < q → m b = m (s + k * 65535)) ∧ m (s + k * 65535) ≠ .absent ∧ s + min ((k + 1) * 65535) c < q ∧
      ∃ l, fsck g = .error (.thrown l))

/-- An entry which begins at the start of the range and ends inside of it is overwritten: no space is needed
(blocklist.cpp 451-473). -/
theorem exact_agree {f : File} {L S R : List Entry} {G : Nat → Int} {r : Entry} {s c : Nat} (st : State) (h : Rep f L S G) (hw : W0 L)
    (he : s + c < W64) (hR : hi s L = r :: R) (h1 : r.start = s) (h2 : r.start + r.count ≤ s + c) :
    Agree (fun _ => False) (markInternalX room f s c st) (markInternal f s c st) := by
  have hfin : u64 (s + c) = s + c := by unfold u64; omega
  have hse : s ≤ s + c := by omega
  have hlen : f.n = (lo s L).length + (hi s L).length := by rw [h.n, ← List.length_append, lo_append_hi]
  have hlo : (lo (s+c) L).length = (lo s L).length + (lo (s+c) (hi s L)).length := by
    rw [lo_lo hse L]; simp
  have hsearch := searchEntry_rep h hw
  have hr : EOk r := hw.ok r (by rw [← lo_append_hi s L, hR]; simp)
  have hrs : s < r.start + r.count := hw.hi_gt s r (by rw [hR]; simp)
  have hn0 : ¬ f.n = 0 := by rw [hlen, hR]; simp
  have hnA : ¬ (lo s L).length = f.n := by rw [hlen, hR]; simp
  have hrepR : Rep f (lo s L ++ r :: R) S G := h.congrL (by rw [← hR, lo_append_hi])
  have hct : r.contains s = true := (hr.contains_iff s).2 ⟨by omega, hrs⟩
  have hfo : findOverlapping f s c = .ok ((lo s L).length, (lo s L).length + (lo (s+c) (hi s L)).length) := by
    unfold findOverlapping
    rw [if_neg hn0]
    simp only [hsearch, bind_ok]
    rw [if_neg hnA, deref_rep hrepR]
    simp only [bind_ok, hfin, hsearch, pure_eq_ok, hlo, hct, if_true]
  have hM : lo (s+c) (hi s L) = r :: lo (s+c) R := by
    rw [hR]; unfold lo; rw [List.takeWhile_cons]; simp [h2]
  unfold markInternalX markInternal
  refine Agree.bind (.up _) (fun o ho => ?_)
  rw [hfo] at ho
  injection ho with ho
  subst ho
  have hne : ¬ ((lo s L).length ≠ f.n ∧ (lo s L).length = (lo s L).length + (lo (s+c) (hi s L)).length) := by
    rw [hM]; simp
  refine Agree.bind (m := caseSplit f _ _ s) ?_ (fun r1 hr1 => ?_)
  · unfold caseSplitX caseSplit
    simp only
    rw [if_neg hne, if_neg hne]; exact .pure _
  have : caseSplit f (lo s L).length ((lo s L).length + (lo (s+c) (hi s L)).length) s = .ok (f, (lo s L).length, (lo s L).length + (lo (s+c) (hi s L)).length) := by
    unfold caseSplit; rw [if_neg hne]
  rw [this] at hr1
  injection hr1 with hr1
  subst hr1
  refine Agree.bind (.up _) (fun sc hsc => ?_)
  have : containsAt f (lo s L).length s 445 = .ok true := by
    unfold containsAt
    rw [if_pos hnA, deref_rep hrepR]; simp [Except.map, hct]
  rw [this] at hsc
  injection hsc with hsc
  subst hsc
  refine Agree.bind (.up _) (fun ec _ => ?_)
  simp only [if_true]
  refine Agree.bind (.up _) (fun x hx => ?_)
  rw [deref_rep hrepR] at hx
  injection hx with hx
  subst hx
  have hxs : r.start = s ∧ r.count ≤ c := ⟨h1, by omega⟩
  rw [if_pos hxs, if_pos hxs]
  by_cases hst : st = .absent
  · rw [if_pos hst, if_pos hst]
    refine Agree.bind (.up _) (fun r2 _ => ?_)
    exact .pure _
  · rw [if_neg hst, if_neg hst]
    refine Agree.bind (.up _) (fun f2 _ => ?_)
    refine Agree.bind (.up _) (fun f3 _ => ?_)
    refine Agree.bind (.up _) (fun f4 _ => ?_)
    refine Agree.bind (.up _) (fun r5 _ => ?_)
    exact .up _

/-- One piece. -/
theorem markInternal_full {f : File} {L : List Entry} (h : Inv f L) (hm : f.mapped = true) (hw : Wf L) {s c : Nat} {st : State}
    (hc : 0 < c) (hc' : c ≤ 65535) (he : s + c < W64) :
    Agree (fun g => ∃ q, Outcome (sem L) s c st 0 q g) (markInternalX room f s c st) (markInternal f s c st) := by
  by_cases hns : Straddle L s (s + c)
  · obtain ⟨S, hr⟩ := h.rep
    rw [ensureMapped_of hm] at hr
    obtain ⟨r, R, hR, h1, h2, -⟩ := hns
    exact (exact_agree st hr hw.w0 he hR h1 h2).mono (fun _ h => h.elim)
  refine (markInternal_agree f s c st).mono (fun g hg => ?_)
  have hmin : min ((0 + 1) * 65535) c = c := by omega
  have hz : setRange (sem L) s (0 * 65535) st = sem L := by rw [Nat.zero_mul, setRange_zero]
  rcases hg with ⟨so, ho, hso, hsf⟩ | ⟨f1, h1, hst, -, rfl⟩
  · obtain ⟨S, hr⟩ := h.rep
    rw [ensureMapped_of hm] at hr
    obtain ⟨A, r, B, f1, hL, h1, h2, hr1, rfl⟩ := splitFull_rep hr hw he ho hso hsf
    subst hL
    have hro := hw.ok r (by simp)
    have hok : ∀ e ∈ A ++ leftOf s r :: B, EOk e := by
      intro e he
      simp only [List.mem_append, List.mem_cons] at he
      rcases he with he | rfl | he
      · exact hw.ok e (by simp [he])
      · have := hro.range; have := hro.count
        exact ⟨by simp only [leftOf]; omega, by simp only [leftOf]; omega, hro.state⟩
      · exact hw.ok e (by simp [he])
    refine ⟨r.start + r.count, by rw [Nat.zero_mul]; exact hc, by rw [hmin]; omega, ?_, .inr ?_⟩
    rotate_left
    · rw [hmin, Nat.zero_mul, Nat.add_zero]
      refine ⟨?_, ?_, h2, cut_fsck hr1 hw h1 (by omega)⟩
      · intro b hb1 hb2
        rw [cut_run hw (by omega) hb2, cut_run hw (by omega) (by omega)]
      · rw [cut_run hw (by omega) (by omega)]
        exact dec_ne_absent hro.state
    · intro b
      rw [hr1.stateAt_unmapped hok, hz, cut_sem hw h1 (by omega), Nat.zero_mul, Nat.add_zero]
  · obtain ⟨f2, h2, i2, -⟩ := h.markInternal hm (s := s) (c := c) .absent hc hc' he
    rw [h1] at h2
    injection h2 with h2
    subst h2
    have hw2 := markL_wf (st := .absent) hw hc' he hns
    refine ⟨s + c, by rw [Nat.zero_mul]; exact hc, by rw [hmin]; omega, ?_, .inl ⟨by rw [hmin], _, i2.unmapped, hw2⟩⟩
    intro b
    rw [i2.unmapped.state, markL_sem hw hc' he hns, hz, Nat.zero_mul, Nat.add_zero, Nat.add_sub_cancel_left]

theorem setRange_twice (m : Spec.Map) (s a b : Nat) (st : State) : setRange (setRange m s a st) (s + a) b st = setRange m s (a + b) st := by
  funext x
  unfold setRange
  by_cases h1 : s + a ≤ x ∧ x < s + a + b
  · rw [if_pos h1, if_pos (by omega)]
  · rw [if_neg h1]
    by_cases h2 : s ≤ x ∧ x < s + a
    · rw [if_pos h2, if_pos (by omega)]
    · rw [if_neg h2, if_neg (by omega)]

theorem lt_step {k c : Nat} (h : k * 65535 < c - 65535) : (k + 1) * 65535 < c := by
  rw [Nat.succ_mul]; generalize k * 65535 = x at *; omega

theorem Outcome.later {m : Spec.Map} {s c : Nat} {st : State} {k q : Nat} {g : File} (hc : 65535 < c)
    (h : Outcome (setRange m s 65535 st) (s + 65535) (c - 65535) st k q g) : Outcome m s c st (k + 1) q g := by
  obtain ⟨h1, h2, h3, h4⟩ := h
  have e1 : s + 65535 + k * 65535 = s + (k + 1) * 65535 := by rw [Nat.succ_mul]; omega
  have e2 : s + 65535 + min ((k + 1) * 65535) (c - 65535) = s + min ((k + 1 + 1) * 65535) c := by
    rw [Nat.succ_mul (k + 1)]; generalize (k + 1) * 65535 = x; omega
  have e3 : (k + 1) * 65535 < c := lt_step h1
  rw [e2] at h2
  refine ⟨e3, h2, ?_, ?_⟩
  · intro b
    rw [h3 b, setRange_twice, e1, show 65535 + k * 65535 = (k + 1) * 65535 by rw [Nat.succ_mul]; omega]
  · rcases h4 with ⟨h4, h5⟩ | ⟨h4, h5, h6, h7⟩
    · exact .inl ⟨by rw [h4, e2], h5⟩
    · rw [e1] at h4 h5
      rw [e2] at h6
      have hout : ∀ b, s + (k + 1) * 65535 ≤ b → setRange m s 65535 st b = m b := by
        intro b hb
        unfold setRange
        rw [if_neg]
        rw [Nat.succ_mul] at hb
        omega
      refine .inr ⟨fun b hb1 hb2 => ?_, by rw [← hout _ (Nat.le_refl _)]; exact h5, h6, h7⟩
      have := h4 b hb1 hb2
      rwa [hout b hb1, hout _ (Nat.le_refl _)] at this

theorem markLoop_full (st : State) (fuel : Nat) : ∀ {f : File} {L : List Entry} {s c : Nat}, c / 65535 < fuel →
    Inv f L → f.mapped = true → Wf L → s + c < W64 → (c ≤ 65535 ∨ Clean (sem L) s c) →
    Agree (fun g => ∃ k q, Outcome (sem L) s c st k q g) (markLoopX room st fuel f s c) (markLoop st fuel f s c) := by
  induction fuel with
  | zero => intro f L s c h; omega
  | succ n ih =>
    intro f L s c hk hi hm hw hsc hcl
    unfold markLoopX markLoop
    by_cases h1 : c > 65535
    · simp only [limit, h1, if_true]
      have hcl : Clean (sem L) s c := by rcases hcl with h | h; omega; exact h
      have hns := not_straddle_of_clean hw (s := s) (e := s + 65535) (by omega) (.inr (clean_head h1 hcl))
      have hms := markL_sem (st := st) hw (by omega) (by omega) hns
      have hw1 := markL_wf (st := st) hw (by omega) (by omega) hns
      obtain ⟨f1, e1, i1, m1⟩ := hi.markInternal hm (s := s) (c := 65535) st (by omega) (by omega) (by omega)
      refine Agree.bind ((markInternal_full hi hm hw (by omega) (by omega) (by omega)).mono (fun g ⟨q, hq⟩ => ⟨0, q, ?_⟩)) (fun f2 h2 => ?_)
      · obtain ⟨q1, q2, q3, q4⟩ := hq
        have e2 : min ((0 + 1) * 65535) 65535 = min ((0 + 1) * 65535) c := by omega
        rw [e2] at q2 q4
        exact ⟨by rw [Nat.zero_mul]; omega, q2, q3, q4⟩
      · rw [e1] at h2
        injection h2 with h2
        subst h2
        have hu : u64 (s + 65535) = s + 65535 := by unfold u64; omega
        rw [hu]
        refine (ih (s := s + 65535) (c := c - 65535) (by omega) i1 m1 hw1 (by omega) (.inr (by rw [hms]; exact clean_tail h1 hcl))).mono ?_
        rintro g ⟨k, q, hq⟩
        rw [hms] at hq
        exact ⟨k + 1, q, hq.later h1⟩
    · simp only [limit, h1, if_false]
      by_cases h2 : c > 0
      · simp only [h2, if_true]
        exact (markInternal_full hi hm hw (by omega) (by omega) (by omega)).mono (fun g ⟨q, hq⟩ => ⟨0, q, hq⟩)
      · simp only [h2, if_false]
        exact .pure _

theorem mark_full {f : File} {L : List Entry} {s c : Nat} {st : State} (hi : Inv f L) (hw : Wf L) (hsc : s + c < W64)
    (hcl : c ≤ 65535 ∨ Clean (sem L) s c) :
    Agree (fun g => ∃ k q, Outcome (sem L) s c st k q g) (markX room f s c st) (mark f s c st) :=
  markLoop_full st _ (by simp only [limit]; omega) hi.mapped (ensureMapped_mapped f) hw hsc hcl

end Dragonstash.Blocklist
