import Verif.Blocklist.Disk
/-
  C01-C12: the block list.

  `calls fresh cs` is the block list after a history `cs` of calls (`mark`, `shrink`, `fsck`,
  reopening) on a new block list; `Spec.run Spec.empty (marksOf cs)` is the plain block map
  described by the same marks (Spec.lean).
-/
namespace Dragonstash.Blocklist

open Spec

/-- The marks of a history. -/
def marksOf : List Call → List Op
  | [] => []
  | .mark s c st :: cs => (s, c, st) :: marksOf cs
  | _ :: cs => marksOf cs

/-! ### Lemmas about clean histories -/

theorem good_inRange {cs : List Call} : ∀ {m : Map}, GoodHist m (marksOf cs) → CallsInRange cs := by
  induction cs with
  | nil => intro m _ s c st h; simp at h
  | cons c cs ih =>
    intro m h s n st hm
    cases c with
    | mark s' n' st' =>
      simp only [List.mem_cons, Call.mark.injEq] at hm
      rcases hm with ⟨rfl, rfl, rfl⟩ | hm
      · exact h.1
      · exact ih h.2.2 s n st hm
    | shrink => exact ih h s n st (by simpa using hm)
    | fsck => exact ih h s n st (by simpa using hm)
    | reopen => exact ih h s n st (by simpa using hm)

theorem good_entries (cs : List Call) : ∀ {L : List Entry}, Wf L → GoodHist (sem L) (marksOf cs) →
    Wf (cs.foldl callL L) ∧ sem (cs.foldl callL L) = run (sem L) (marksOf cs) := by
  induction cs with
  | nil => intro L h _; exact ⟨h, rfl⟩
  | cons c cs ih =>
    intro L h hg
    cases c with
    | mark s n st =>
      obtain ⟨g1, g2, g3⟩ := hg
      obtain ⟨a, b⟩ := chunkL_sem st (n / 65535 + 1) (s := s) (c := n) (by omega) h g1 g2
      rw [← b] at g3
      obtain ⟨a', b'⟩ := ih a g3
      refine ⟨a', ?_⟩
      rw [List.foldl_cons, callL, b', b]; rfl
    | shrink => exact ih h hg
    | fsck => exact ih h hg
    | reopen => exact ih h hg

theorem Spec.CleanHist.good {h : List Op} : ∀ {m : Map}, CleanHist m h → GoodHist m h := by
  induction h with
  | nil => intro m _; trivial
  | cons o h ih =>
    intro m ⟨a, b, c⟩
    exact ⟨a, .inr b, ih c⟩

theorem clean_entries (cs : List Call) : ∀ {L : List Entry}, SWf L → CleanHist (sem L) (marksOf cs) →
    SWf (cs.foldl callL L) := by
  induction cs with
  | nil => intro L h _; exact h
  | cons c cs ih =>
    intro L h hg
    cases c with
    | mark s n st =>
      obtain ⟨g1, g2, g3⟩ := hg
      obtain ⟨a, b⟩ := chunkL_sem st (n / 65535 + 1) (s := s) (c := n) (by omega) h.toWf g1 (.inr g2)
      rw [← b] at g3
      exact ih (chunkL_swf st _ (by omega) h g1 g2) g3
    | shrink => exact ih h hg
    | fsck => exact ih h hg
    | reopen => exact ih h hg

theorem sem_nil : sem [] = Spec.empty := rfl

/-- Everything known about a block list with a good history. -/
theorem good_calls {cs : List Call} (h : GoodHist Spec.empty (marksOf cs)) :
    ∃ f L, calls fresh cs = .ok f ∧ Inv f L ∧ Wf L ∧ sem L = run Spec.empty (marksOf cs) := by
  obtain ⟨f, e, i⟩ := Inv.calls cs Inv.fresh (good_inRange h)
  obtain ⟨a, b⟩ := good_entries cs (L := []) ⟨by simp, by simp⟩ h
  exact ⟨f, _, e, i, a, b⟩

theorem ok_unique {α : Type} {m : M α} {a b : α} (h : m = .ok a) (h' : m = .ok b) : a = b := by
  rw [h] at h'; injection h'

/-- Evaluating an observation after a history. -/
theorem calls_obs {α : Type} {cs : List Call} (hr : CallsInRange cs) {obs : File → M α} {v : M α}
    (h : (calls fresh cs >>= obs) = v) : ∃ f, calls fresh cs = .ok f ∧ obs f = v := by
  obtain ⟨f, e, _⟩ := Inv.calls cs Inv.fresh hr
  exact ⟨f, e, by rw [e, bind_ok] at h; exact h⟩

/-- `CallsInRange`, as a test. -/
def inRange : List Call → Bool
  | [] => true
  | .mark s c _ :: cs => decide (s + c < W64) && inRange cs
  | _ :: cs => inRange cs

theorem callsInRange {cs : List Call} (h : inRange cs = true) : CallsInRange cs := by
  induction cs with
  | nil => intro s c st hm; simp at hm
  | cons x cs ih =>
    intro s c st hm
    cases x with
    | mark s' c' st' =>
      simp only [inRange, Bool.and_eq_true, decide_eq_true_eq] at h
      simp only [List.mem_cons, Call.mark.injEq] at hm
      rcases hm with ⟨rfl, rfl, rfl⟩ | hm
      · exact h.1
      · exact ih h.2 s c st hm
    | shrink => exact ih h s c st (by simpa using hm)
    | fsck => exact ih h s c st (by simpa using hm)
    | reopen => exact ih h s c st (by simpa using hm)

/-- A history used in the examples below: overlapping, adjacent and long marks, all clean. -/
def demo : List Call :=
  [.mark 10 5 .read, .mark 8 4 .pinned, .shrink, .mark 100 70000 .written, .reopen,
   .mark 14 3 .readahead, .fsck, .mark 200 1 .absent]

theorem demo_good : GoodHist Spec.empty (marksOf demo) := by
  refine ⟨by decide, .inr ?_, by decide, .inr ?_, by decide, .inr ?_, by decide, .inr ?_, by decide, .inl rfl, trivial⟩
  all_goals
    intro k hk
    have hk2 : k = 0 ∨ k = 1 := by omega
    rcases hk2 with rfl | rfl <;> (unfold CleanChunk) <;> first | decide | omega

/-! ### C01 -/

/-- C01, in full: `mark` sets exactly the requested range, from every reachable block list. -/
def C01_full : Prop :=
  ∀ (cs : List Call) (s c : Nat) (st : State) (f f' : File), CallsInRange cs → s + c < W64 →
    calls fresh cs = .ok f → mark f s c st = .ok f' →
    ∀ b, ∃ old, stateAt f b = .ok old ∧ stateAt f' b = .ok (if s ≤ b ∧ b < s + c then st else old)

/-- C01 fails: after marking blocks 0-1 and 3-7 as read, marking 0-4 as absent leaves 3 and 4
as read (blocklist.cpp 451-456 do not trim the entry that contains the end). -/
theorem C01_counterexample : ¬ C01_full := by
  intro h
  obtain ⟨f, hf, ho⟩ := calls_obs (cs := [.mark 0 2 .read, .mark 3 5 .read]) (callsInRange (by decide))
    (obs := fun f => mark f 0 5 .absent >>= fun f => stateAt f 3) (v := .ok .read) (by decide +kernel)
  obtain ⟨f', hf', ho'⟩ := bind_inv ho
  obtain ⟨old, _, h2⟩ := h _ 0 5 .absent f f' (callsInRange (by decide)) (by decide) hf hf' 3
  rw [ho', if_pos (by decide)] at h2
  cases h2

/-- C01 for block lists with a good history, if the mark itself is clean, of one block, or marks
at most 65535 blocks with a state other than ABSENT. Missing: the marks of the counterexample. -/
theorem C01_mark_partial (cs : List Call) (s c : Nat) (st : State)
    (hg : GoodHist Spec.empty (marksOf cs)) (hr : s + c < W64)
    (hc : c = 1 ∨ Clean (run Spec.empty (marksOf cs)) s c ∨ (st ≠ .absent ∧ c ≤ 65535)) :
    ∃ f f', calls fresh cs = .ok f ∧ mark f s c st = .ok f' ∧
      ∀ b, ∃ old, stateAt f b = .ok old ∧
        stateAt f' b = .ok (if s ≤ b ∧ b < s + c then st else old) := by
  obtain ⟨f, L, e, i, w, hs⟩ := good_calls hg
  obtain ⟨f', e', i'⟩ := i.mark st hr
  refine ⟨f, f', e, e', fun b => ⟨sem L b, i.state b, ?_⟩⟩
  rw [i'.state b]
  have : sem (chunkL st (c / 65535 + 1) L s c) = setRange (sem L) s c st := by
    by_cases hc2 : c = 1 ∨ Clean (sem L) s c
    · exact (chunkL_sem st _ (by omega) w hr hc2).2
    · have hc3 : st ≠ .absent ∧ c ≤ 65535 := by
        rcases hc with h | h | h
        · exact absurd (.inl h) hc2
        · exact absurd (.inr (hs ▸ h)) hc2
        · exact h
      unfold chunkL
      rw [if_neg (by omega)]
      by_cases h0 : c > 0
      · rw [if_pos h0]; exact markL_sem_present w hc3.1
      · rw [if_neg h0]
        have : c = 0 := by omega
        subst this; exact (setRange_zero _ _ _).symm
  rw [this]; rfl

/-- The hypotheses of `C01_mark_partial` are met by the demo history and an overlapping mark. -/
example : ∃ f f', calls fresh demo = .ok f ∧ mark f 9 100 .pinned = .ok f' ∧
    ∀ b, ∃ old, stateAt f b = .ok old ∧
      stateAt f' b = .ok (if 9 ≤ b ∧ b < 9 + 100 then .pinned else old) :=
  C01_mark_partial demo 9 100 .pinned demo_good (by decide) (.inr (.inr ⟨by decide, by decide⟩))

/-- Beyond the stated range: block 2^64 - 1 can be marked, but its state is never found. -/
theorem C01_last_block_counterexample :
    (mark fresh (W64 - 1) 1 .read >>= fun f => stateAt f (W64 - 1)) = .ok .absent := by decide +kernel

/-! ### C02 -/

/-- C02, in full. -/
def C02_full : Prop :=
  ∀ (cs : List Call) (f : File), CallsInRange cs → calls fresh cs = .ok f →
    ∀ b, stateAt f b = .ok (run Spec.empty (marksOf cs) b)

theorem C02_counterexample : ¬ C02_full := by
  intro h
  obtain ⟨f, hf, ho⟩ := calls_obs (cs := [.mark 0 2 .read, .mark 3 5 .read, .mark 0 5 .absent]) (callsInRange (by decide))
    (obs := fun f => stateAt f 3) (v := .ok .read) (by decide +kernel)
  have key := h _ f (callsInRange (by decide)) hf 3
  rw [ho] at key
  revert key
  decide

/-- Another failure of C02: a mark over an overlapping entry makes an overwritten state
reappear (blocks 3-7 read, then pinned up to 4, then 0-4 absent; block 4 is read again). -/
theorem C02_counterexample_present :
    (calls fresh [.mark 0 2 .read, .mark 3 5 .read, .mark 0 5 .pinned, .mark 0 5 .absent] >>= fun f =>
      stateAt f 4) = .ok .read := by decide +kernel

/-- C02 for good histories: every mark is of one block, or each of its chunks of 65535 blocks
begins or ends at an absent block, or ends where the state changes.  Missing: the marks that
start at a present block and end inside a run of blocks of one state. -/
theorem C02_history_partial (cs : List Call) (hg : GoodHist Spec.empty (marksOf cs)) :
    ∃ f, calls fresh cs = .ok f ∧ ∀ b, stateAt f b = .ok (run Spec.empty (marksOf cs) b) := by
  obtain ⟨f, L, e, i, _, hs⟩ := good_calls hg
  exact ⟨f, e, fun b => by rw [i.state b, hs]⟩

/-- `C02_history_partial` for a history with overlapping marks. -/
example : ∃ f, calls fresh demo = .ok f ∧ ∀ b, stateAt f b = .ok (run Spec.empty (marksOf demo) b) :=
  C02_history_partial demo demo_good

/-- Histories of marks of single blocks are always good. -/
theorem good_of_single (cs : List Call) : ∀ (m : Map), (∀ s c st, Call.mark s c st ∈ cs → c = 1 ∧ s < W64 - 1) →
    GoodHist m (marksOf cs) := by
  induction cs with
  | nil => intro m _; trivial
  | cons c cs ih =>
    intro m h
    cases c with
    | mark s n st =>
      have := h s n st (by simp)
      exact ⟨by omega, .inl this.1, ih _ (fun s c st hm => h s c st (by simp [hm]))⟩
    | shrink => exact ih _ (fun s c st hm => h s c st (by simp [hm]))
    | fsck => exact ih _ (fun s c st hm => h s c st (by simp [hm]))
    | reopen => exact ih _ (fun s c st hm => h s c st (by simp [hm]))

/-- C02 for every history of marks of single blocks (any states, any order). -/
theorem C02_single_blocks_partial (cs : List Call)
    (h : ∀ s c st, Call.mark s c st ∈ cs → c = 1 ∧ s < W64 - 1) :
    ∃ f, calls fresh cs = .ok f ∧ ∀ b, stateAt f b = .ok (run Spec.empty (marksOf cs) b) :=
  C02_history_partial cs (good_of_single cs _ h)

/-- `C02_single_blocks_partial` for overlapping marks of single blocks, with maintenance between them. -/
example : ∃ f, calls fresh [.mark 7 1 .read, .fsck, .mark 8 1 .pinned, .mark 7 1 .absent, .shrink] = .ok f ∧
    ∀ b, stateAt f b = .ok (run Spec.empty (marksOf [.mark 7 1 .read, .fsck, .mark 8 1 .pinned, .mark 7 1 .absent, .shrink]) b) :=
  C02_single_blocks_partial _ (by intro s c st h; simp at h; rcases h with ⟨rfl, rfl, _⟩ | ⟨rfl, rfl, _⟩ | ⟨rfl, rfl, _⟩ <;> exact ⟨rfl, by decide⟩)

/-! ### C03 -/

/-- C03, in full: the counters count blocks, for every reachable block list. -/
def C03_full : Prop :=
  ∀ (cs : List Call) (f : File), CallsInRange cs → calls fresh cs = .ok f →
    ∀ m : Map, (∀ b, stateAt f b = .ok (m b)) →
    (∀ s, s ≠ .absent → blocks f s = countBelow (fun b => decide (m b = s)) W64) ∧
    presentBlocks f = countBelow (fun b => decide (m b ≠ .absent)) W64 ∧
    blocks f .absent = W64 - 1

theorem C03_counters_partial (cs : List Call) (hg : GoodHist Spec.empty (marksOf cs)) :
    ∃ f, calls fresh cs = .ok f ∧ ∀ m : Map, (∀ b, stateAt f b = .ok (m b)) →
      (∀ s, s ≠ .absent → blocks f s = countBelow (fun b => decide (m b = s)) W64) ∧
      presentBlocks f = countBelow (fun b => decide (m b ≠ .absent)) W64 ∧
      blocks f .absent = W64 - 1 := by
  obtain ⟨f, L, e, i, w, _⟩ := good_calls hg
  refine ⟨f, e, fun m hm => ?_⟩
  have hmL : m = sem L := by
    funext b
    have := hm b
    rw [i.state b] at this
    injection this with this
    exact this.symm
  subst hmL
  have hc : ∀ t, t < 4 → f.cnt t = countBelow (fun b => decide (sem L b = dec t)) W64 :=
    fun t ht => i.cnt_eq w ht
  refine ⟨?_, ?_, rfl⟩
  · intro s hs
    cases s with
    | absent => exact absurd rfl hs
    | readahead => exact hc 0 (by omega)
    | read => exact hc 1 (by omega)
    | pinned => exact hc 2 (by omega)
    | written => exact hc 3 (by omega)
  · have hp := count_present (sem L) W64
    have hlt : countBelow (fun b => decide (sem L b ≠ .absent)) W64 < W64 := by
      apply countBelow_lt (b := W64 - 1) (by decide)
      apply decide_eq_false
      intro hh
      obtain ⟨x, hx, hcx⟩ := present_cov hh
      have := (w.ok x hx).range
      unfold Entry.covers at hcx
      omega
    have h0 : f.cnt 0 = countBelow (fun b => decide (sem L b = .readahead)) W64 := hc 0 (by omega)
    have h1 : f.cnt 1 = countBelow (fun b => decide (sem L b = .read)) W64 := hc 1 (by omega)
    have h2 : f.cnt 2 = countBelow (fun b => decide (sem L b = .pinned)) W64 := hc 2 (by omega)
    have h3 : f.cnt 3 = countBelow (fun b => decide (sem L b = .written)) W64 := hc 3 (by omega)
    unfold presentBlocks
    rw [h0, h1, h2, h3]
    unfold u64
    omega

/-- `C03_counters_partial` for a history with overlapping marks. -/
example : ∃ f, calls fresh demo = .ok f ∧ ∀ m : Map, (∀ b, stateAt f b = .ok (m b)) →
      (∀ s, s ≠ .absent → blocks f s = countBelow (fun b => decide (m b = s)) W64) ∧
      presentBlocks f = countBelow (fun b => decide (m b ≠ .absent)) W64 ∧
      blocks f .absent = W64 - 1 := C03_counters_partial demo demo_good

/-- C03 fails after a straddling mark: blocks 3 and 4 are counted as pinned and as read. -/
theorem C03_counterexample : ¬ C03_full := by
  intro h
  obtain ⟨f, e, i⟩ := Inv.calls [.mark 0 2 .read, .mark 3 5 .read, .mark 0 5 .pinned] Inv.fresh
    (callsInRange (by decide))
  obtain ⟨f2, e2, ho⟩ := calls_obs (cs := [.mark 0 2 .read, .mark 3 5 .read, .mark 0 5 .pinned])
    (callsInRange (by decide)) (obs := fun f => .ok (blocks f .read)) (v := .ok 5) (by decide +kernel)
  obtain rfl := ok_unique e e2
  have hL : [Call.mark 0 2 .read, .mark 3 5 .read, .mark 0 5 .pinned].foldl callL [] =
      [(⟨0, 5, 2⟩ : Entry), ⟨3, 5, 1⟩] := by decide +kernel
  rw [hL] at i
  -- blocks 0-4 pinned, 5-7 read; the counter says 5 read blocks
  have hb : ∀ b, stateAt f b = .ok (if b < 5 then .pinned else if b < 8 then .read else .absent) := by
    intro b
    rw [i.state b]
    by_cases h1 : b < 5
    · rw [sem_hit (by simp only; omega), if_pos h1]; rfl
    · rw [sem_miss (by simp only; omega), if_neg h1]
      by_cases h2 : b < 8
      · rw [sem_hit (by simp only; omega), if_pos h2]; rfl
      · rw [sem_miss (by simp only; omega), if_neg h2]; rfl
  have key := (h _ f (callsInRange (by decide)) e _ hb).1 .read (by decide)
  have hcount : countBelow (fun b => decide ((if b < 5 then State.pinned else if b < 8 then .read else .absent) = State.read)) W64 = 3 := by
    rw [countBelow_congr (q := fun b => decide (5 ≤ b ∧ b < 5 + 3))]
    · exact countBelow_range 5 3 W64 (by decide)
    · intro b _
      by_cases h1 : b < 5
      · rw [if_pos h1]; simp; omega
      · rw [if_neg h1]
        by_cases h2 : b < 8
        · rw [if_pos h2]; simp; omega
        · rw [if_neg h2]; simp; omega
  rw [hcount] at key
  injection ho with ho
  omega

/-! ### C04 -/

/-- C04, in full. -/
def C04_full : Prop :=
  ∀ (cs : List Call) (f : File), CallsInRange cs → calls fresh cs = .ok f → ∃ f', fsck f = .ok f'

/-- C04 fails: marking the beginning of a range of another state leaves an empty entry, which
`fsck` rejects. -/
theorem C04_counterexample : ¬ C04_full := by
  intro h
  obtain ⟨f, hf, ho⟩ := calls_obs (cs := [.mark 0 10 .read, .mark 0 5 .pinned]) (callsInRange (by decide))
    (obs := fun f => (fsck f).map fun _ => ()) (v := .error (.thrown 659)) (by decide +kernel)
  obtain ⟨f', hf'⟩ := h _ f (callsInRange (by decide)) hf
  simp only [hf'] at ho
  cases ho

/-- C04 for clean histories (GoodHist without the exception for single blocks). -/
theorem C04_fsck_partial (cs : List Call) (hg : CleanHist Spec.empty (marksOf cs)) :
    ∃ f f', calls fresh cs = .ok f ∧ fsck f = .ok f' := by
  obtain ⟨f, e, i⟩ := Inv.calls cs Inv.fresh (good_inRange hg.good)
  have hs := clean_entries cs (L := []) ⟨⟨by simp, by simp⟩, by simp⟩ hg
  obtain ⟨f', e'⟩ := i.fsck_ok hs
  exact ⟨f, f', e, e'⟩

/-- A clean history with overwriting, splitting and merging marks. -/
def demo2 : List Call :=
  [.mark 10 5 .read, .mark 8 4 .pinned, .mark 14 3 .readahead, .mark 5 30 .written, .mark 0 60 .absent]

/-- `C04_fsck_partial` for a history of five marks. -/
example : ∃ f f', calls fresh demo2 = .ok f ∧ fsck f = .ok f' := by
  refine C04_fsck_partial demo2 ⟨by decide, ?_, by decide, ?_, by decide, ?_, by decide, ?_, by decide, ?_, trivial⟩
  all_goals
    intro k hk
    have hk2 : k = 0 := by omega
    subst hk2
    unfold CleanChunk
    decide

/-! ### C05 -/

/-- The entries and counters of a file are as they should be (true arithmetic, `entries f` are
the first `superblock.entries` entries). -/
abbrev Sane (f : File) : Prop := Consistent f

/-- C05, in full, for a file as opened. -/
def C05_full : Prop :=
  ∀ f : File, f.mapped = true → f.msize = f.fileSize → f.fileSize % 4096 = 0 →
    (∀ e ∈ f.slots, EntryFits e) →
    ((∃ f', fsck f = .ok f') ↔ Sane f)

/-- C05 fails for entries that end at 2^64: their end wraps to 0 and the overlap is not seen. -/
theorem C05_counterexample : ¬ C05_full := by
  intro h
  have key := h ⟨2, fun t => if t = 0 then 2 else 0,
    [⟨W64 - 1, 1, 0⟩, ⟨W64 - 1, 1, 0⟩] ++ List.replicate 222 zeroEntry, true, 4096⟩ rfl (by decide +kernel) (by decide +kernel)
    (by intro e he
        simp only [List.mem_append, List.mem_cons, List.not_mem_nil, or_false, or_self] at he
        rcases he with rfl | he
        · exact ⟨by decide, by decide, by decide⟩
        · rw [List.eq_of_mem_replicate he]; exact ⟨by decide, by decide, by decide⟩)
  have hs := (key.1 ⟨_, rfl⟩).disjoint
  revert hs
  decide +kernel

/-- C05 when no entry reaches 2^64: `fsck` returns iff the file is sane; and if it does not
return and the states are valid, it throws.  Missing: entries that end at or behind 2^64. -/
theorem C05_fsck_partial (f : File) (hm : f.mapped = true) (hsz : f.msize = f.fileSize)
    (h4 : f.fileSize % 4096 = 0) (hw : ∀ e ∈ entries f, e.start + e.count < W64) :
    ((∃ f', fsck f = .ok f') ↔ Sane f) ∧
    (¬ Sane f → f.n ≤ f.slots.length → (∀ e ∈ entries f, e.state < 4) →
      ∃ line, fsck f = .error (.thrown line)) := by
  have hmap : ensureMapped f = f := by unfold ensureMapped; rw [if_pos hm]
  have hiff : (∃ f', fsck f = .ok f') ↔ Sane f := by
    constructor
    · rintro ⟨f', e⟩; exact fsck_sound hw e
    · intro hs
      rw [fsck_complete hw hs, hmap]
      exact shrink_ok hsz h4 hs.fits
  refine ⟨hiff, fun hns hn hst => ?_⟩
  have hl : (entries f).length = f.n := by unfold entries; rw [List.length_take]; omega
  have hloop := fsckLoop_list (f := f) hm (entries f) [] (f.slots.drop f.n)
    (pe := 0) (ps := 0) (acc := fun _ => 0) (by simp [entries])
  rw [hl, List.length_nil] at hloop
  rcases fsckL_no_ub (entries f) 0 0 (fun _ => 0) hst with ⟨a, ha⟩ | ⟨l, hl⟩
  · refine ⟨671, ?_⟩
    unfold fsck
    simp only [hmap, hloop, ha, bind_ok]
    rw [if_neg]
    intro hc
    apply hns
    rw [← hiff]
    rw [fsck_of_list hn ha (fun t ht => by
      match t, ht with
      | 0, _ => exact hc.1
      | 1, _ => exact hc.2.1
      | 2, _ => exact hc.2.2.1
      | 3, _ => exact hc.2.2.2), hmap]
    exact shrink_ok hsz h4 hn
  · refine ⟨l, ?_⟩
    unfold fsck
    simp only [hmap, hloop, hl, bind_err]

/-- For `C05_fsck_partial`: a sane file with two entries, and one whose counter is wrong. -/
example : Sane ⟨2, fun t => if t = 1 then 5 else if t = 2 then 3 else 0,
    [⟨0, 5, 1⟩, ⟨5, 3, 2⟩] ++ List.replicate 222 zeroEntry, true, 4096⟩ :=
  ⟨by decide +kernel, by decide +kernel, by decide +kernel, by decide +kernel, by decide +kernel⟩
example : ¬ Sane ⟨1, fun _ => 0, ⟨0, 5, 1⟩ :: List.replicate 223 zeroEntry, true, 4096⟩ :=
  fun h => absurd (h.counters 1 (by decide)) (by decide +kernel)

/-! ### C06 -/

/-- What can be observed of a block list through `state`, `blocks`, `present_blocks` and
`nentries`. -/
structure SameObs (f g : File) : Prop where
  state : ∀ b, stateAt f b = stateAt g b
  blocks : ∀ s, blocks f s = blocks g s
  present : presentBlocks f = presentBlocks g
  nentries : nentries f = nentries g

theorem SameObs.of_inv {f g : File} {L : List Entry} (hf : Inv f L) (hg : Inv g L) : SameObs f g := by
  have hc : f.cnt = g.cnt := by funext t; rw [hf.cnt, hg.cnt]
  refine ⟨fun b => by rw [hf.state, hg.state], fun s => ?_, ?_, ?_⟩
  · cases s <;> simp [Blocklist.blocks, hc]
  · unfold presentBlocks; rw [hc]
  · unfold Blocklist.nentries; rw [hf.n, hg.n]

theorem foldl_marks (cs : List Call) : ∀ L,
    cs.foldl callL L = ((marksOf cs).map fun o => Call.mark o.1 o.2.1 o.2.2).foldl callL L := by
  induction cs with
  | nil => intro L; rfl
  | cons c cs ih =>
    intro L
    cases c with
    | mark s n st => exact ih _
    | shrink => exact ih _
    | fsck => exact ih _
    | reopen => exact ih _

/-- C06: leaving out every `shrink`, `fsck` and reopening from a history gives a block list with
the same states, counters and number of entries (so they are invisible to all later marks and
observations). -/
theorem C06_maintenance (cs : List Call) (hr : CallsInRange cs) :
    ∃ f g, calls fresh cs = .ok f ∧
      calls fresh ((marksOf cs).map fun o => .mark o.1 o.2.1 o.2.2) = .ok g ∧ SameObs f g := by
  obtain ⟨f, e, i⟩ := Inv.calls cs Inv.fresh hr
  obtain ⟨g, e', i'⟩ := Inv.calls ((marksOf cs).map fun o => .mark o.1 o.2.1 o.2.2) Inv.fresh (by
    intro s c st hm
    apply hr s c st
    clear e i hr
    induction cs with
    | nil => simp [marksOf] at hm
    | cons x cs ih =>
      cases x <;> simp only [marksOf, List.map_cons, List.mem_cons] at hm ⊢
      · rcases hm with hm | hm
        · exact .inl hm
        · exact .inr (ih hm)
      all_goals exact .inr (ih hm))
  rw [← foldl_marks] at i'
  exact ⟨f, g, e, e', SameObs.of_inv i i'⟩

/-- `state` of a file with a linear scan over its entries. -/
theorem stateScan_list {f : File} (hm : f.mapped = true) (b : Nat) (B : List Entry) : ∀ (A S : List Entry),
    f.slots = A ++ B ++ S → ∀ g : File, g.mapped = true → ∀ S', g.slots = A ++ B ++ S' →
    stateScan f b A.length B.length = stateScan g b A.length B.length := by
  induction B with
  | nil => intro A S _ g _ S' _; rfl
  | cons e B ih =>
    intro A S h g hg S' h'
    have hd : deref f A.length 551 = .ok e := by unfold deref; rw [hm, h]; simp
    have hd' : deref g A.length 551 = .ok e := by unfold deref; rw [hg, h']; simp
    have := ih (A ++ [e]) S (by rw [h]; simp) g hg S' (by rw [h']; simp)
    simp only [List.length_append, List.length_singleton] at this
    simp only [List.length_cons, stateScan, hd, hd', bind_ok, this]

/-- C06 for arbitrary file contents: `shrink` does not change what can be observed. -/
theorem C06_shrink_any_file (f f' : File) (hn : f.n ≤ f.slots.length) (h : shrink f = .ok f') : SameObs f f' := by
  unfold shrink at h
  simp only at h
  split at h
  · injection h with h; subst h; exact ⟨fun _ => rfl, fun _ => rfl, rfl, rfl⟩
  · split at h
    · injection h with h; subst h; exact ⟨fun _ => rfl, fun _ => rfl, rfl, rfl⟩
    · obtain ⟨_, _, h⟩ := bind_inv h
      obtain ⟨_, hcap, h⟩ := bind_inv h
      injection h with h
      have hcap : f.n ≤ ((superblockSize + f.n * entrySize + growSize - 1) / growSize * growSize - superblockSize) / entrySize := by
        unfold chk at hcap
        split at hcap
        · rename_i hd; simpa using hd
        · cases hcap
      generalize ((superblockSize + f.n * entrySize + growSize - 1) / growSize * growSize - superblockSize) / entrySize = k at *
      have hc : f'.cnt = f.cnt := by rw [← h]; unfold ensureUnmapped; split <;> rfl
      have hnn : f'.n = f.n := by rw [← h]; unfold ensureUnmapped; split <;> rfl
      have hsl : f'.slots = f.slots.take k := by rw [← h]; simp only [ensureUnmapped_slots]
      refine ⟨fun b => ?_, fun s => ?_, ?_, hnn.symm⟩
      · unfold stateAt
        rw [hnn]
        have hl : (entries f).length = f.n := by unfold entries; rw [List.length_take]; omega
        have := stateScan_list (f := ensureMapped f) (ensureMapped_mapped f) b (entries f) [] (f.slots.drop f.n)
          (by rw [ensureMapped_slots]; simp [entries]) (ensureMapped f') (ensureMapped_mapped f')
          ((f.slots.take k).drop f.n)
          (by rw [ensureMapped_slots, hsl]
              simp only [List.nil_append, entries]
              conv => lhs; rw [← List.take_append_drop f.n (f.slots.take k)]
              rw [List.take_take, Nat.min_eq_left hcap])
        rw [hl] at this
        exact this
      · cases s <;> simp [Blocklist.blocks, hc]
      · unfold presentBlocks; rw [hc]

theorem C06_fsck_any_file (f f' : File) (hn : f.n ≤ f.slots.length) (h : fsck f = .ok f') : SameObs f f' := by
  have hs : shrink (ensureMapped f) = .ok f' := by
    unfold fsck at h
    obtain ⟨_, _, h⟩ := bind_inv h
    split at h
    · exact h
    · cases h
  have := C06_shrink_any_file (ensureMapped f) f' (by rw [ensureMapped_n, ensureMapped_slots]; exact hn) hs
  refine ⟨fun b => ?_, fun s => ?_, ?_, ?_⟩
  · rw [← this.state b]; unfold stateAt; rw [ensureMapped_idem, ensureMapped_n]
  · rw [← this.blocks s]; cases s <;> simp [Blocklist.blocks, ensureMapped_cnt]
  · rw [← this.present]; unfold presentBlocks; rw [ensureMapped_cnt]
  · rw [← this.nentries]; unfold Blocklist.nentries; rw [ensureMapped_n]

/-- The hypothesis of `C06_maintenance`; the files it gives are those of `C06_shrink_any_file` and `C06_fsck_any_file`. -/
example : CallsInRange demo := good_inRange demo_good

/-- `truncate_access` is not among the observations of C06, because it reads one entry behind
the last one: a file which holds exactly 224 entries in 8192 bytes answers an access, and after
`shrink` the same access reads outside the mapping. -/
def full224 : File :=
  ⟨224, fun t => if t = 1 ∨ t = 2 then 112 else 0,
    (List.range 224).map (fun i => ⟨i, 1, i % 2 + 1⟩) ++ List.replicate 256 zeroEntry, true, 8192⟩

set_option maxRecDepth 100000 in
theorem C06_truncate_access_counterexample :
    truncateAccess full224 0 (300 * 4096) = .ok (224 * 4096) ∧
    (shrink full224 >>= fun f => truncateAccess f 0 (300 * 4096)) = .error (.ub 618) := by
  constructor <;> decide +kernel

/-! ### C07 -/

/-- C07: on every reachable block list `shrink` succeeds; if the file is mapped (as after every
other call), the new size is the smallest positive multiple of 4096 that holds the superblock
and all entries. -/
theorem C07_shrink (cs : List Call) (hr : CallsInRange cs) :
    ∃ f f', calls fresh cs = .ok f ∧ shrink f = .ok f' ∧ nentries f' = nentries f ∧
      (f.mapped = true →
        f'.fileSize % 4096 = 0 ∧ 512 + 16 * nentries f' ≤ f'.fileSize ∧ nentries f' ≤ capacity f' ∧
        (∀ size, 0 < size → size % 4096 = 0 → 512 + 16 * nentries f' ≤ size → f'.fileSize ≤ size)) := by
  obtain ⟨f, e, i⟩ := Inv.calls cs Inv.fresh hr
  obtain ⟨f', e', i', hn, hc, hsz⟩ := i.shrink
  refine ⟨f, f', e, e', hn, fun hm => ?_⟩
  have hs := hsz hm
  have hn' : nentries f' = (cs.foldl callL []).length := i'.n
  obtain ⟨S, hrep⟩ := i'.rep
  have hcap := capacity_rep hrep
  have hcap' : capacity f' = capacity (ensureMapped f') := by unfold capacity; rw [ensureMapped_idem]
  refine ⟨by omega, by omega, by omega, fun size h1 h2 h3 => by omega⟩

/-- A history as in `C07_shrink` whose file is mapped; it also meets the hypotheses of `C07_shrink_any_file`. -/
example : ∃ f, calls fresh demo2 = .ok f ∧ (.ok f.mapped : M Bool) = .ok true :=
  calls_obs (callsInRange (by decide)) (obs := fun f => .ok f.mapped) (by decide +kernel)

/-- C07 also directly: any file of a size that growth steps can produce. -/
theorem C07_shrink_any_file (f : File) (hm : f.msize = f.fileSize) (h4 : f.fileSize % 4096 = 0)
    (hn : f.n ≤ f.slots.length) : ∃ f', shrink f = .ok f' := shrink_ok hm h4 hn

/-- A file of another size that `open` accepts (a multiple of 512) can fail the assertion. -/
theorem C07_odd_size_counterexample :
    (shrink ⟨500, fun _ => 0, List.replicate 512 zeroEntry, true, 8704⟩).map (fun _ => ()) =
      .error (.assertFail 702) := by decide +kernel

/-! ### C08 -/

/-- C08: no history of calls fails an assertion, accesses memory outside the mapping or runs out
of capacity; and `state` works on the result. -/
theorem C08_no_crash (cs : List Call) (hr : CallsInRange cs) :
    ∃ f, calls fresh cs = .ok f ∧ nentries f ≤ capacity f ∧ ∀ b, ∃ s, stateAt f b = .ok s := by
  obtain ⟨f, e, i⟩ := Inv.calls cs Inv.fresh hr
  refine ⟨f, e, ?_, fun b => ⟨_, i.state b⟩⟩
  obtain ⟨S, hrep⟩ := i.rep
  have hcap := capacity_rep hrep
  have hcap' : capacity f = capacity (ensureMapped f) := by unfold capacity; rw [ensureMapped_idem]
  have := i.n
  unfold nentries
  omega

/-- A history as in `C08_no_crash`, with marks which are wrong by C01 and C02. -/
example : CallsInRange [.mark 0 10 .read, .mark 0 5 .pinned, .mark 3 4 .absent] :=
  callsInRange (by decide)

/-- Without the bound on the ranges an assertion can fail. -/
theorem C08_wrap_counterexample :
    (calls fresh [.mark (W64 - 4) 3 .read, .mark 0 5 .read, .mark (W64 - 3) 5 .pinned]).map (fun _ => ()) =
      .error (.assertFail 227) := by decide +kernel

/-! ### C09 -/

/-- C09, in full. -/
def C09_full : Prop :=
  ∀ (cs : List Call) (f : File) (start size n : Nat), CallsInRange cs → calls fresh cs = .ok f →
    start + size < 9223372036854775808 → truncateAccess f (start : Int) size = .ok n →
    n ≤ size ∧ ∀ x, start ≤ x → x < start + n → ∃ s, stateAt f (x / 4096) = .ok s ∧ s ≠ .absent

/-- C09 fails for unaligned accesses: with only block 0 present, `truncate_access(100, 4096)` is
4096, which reaches into block 1. -/
theorem C09_unaligned_counterexample : ¬ C09_full := by
  intro h
  obtain ⟨f, hf, ho⟩ := calls_obs (cs := [.mark 0 1 .read]) (callsInRange (by decide))
    (obs := fun f => truncateAccess f ((100 : Nat) : Int) 4096 >>= fun n => (stateAt f 1).map fun s => (n, s))
    (v := .ok (4096, .absent)) (by decide +kernel)
  obtain ⟨n, hn, h1⟩ := bind_inv ho
  obtain ⟨s, hs, h2⟩ := map_inv h1
  injection h2 with h2 h3
  subst h2; subst h3
  obtain ⟨s, h1, h2⟩ := (h _ f 100 4096 4096 (callsInRange (by decide)) hf (by decide) hn).2 4096 (by decide) (by decide)
  exact h2 (ok_unique h1 hs)

/-- C09 also fails for aligned accesses, because the entry behind the last one is read: after
block 1 was present and is absent again, `truncate_access(0, 8192)` is 8192. -/
theorem C09_stale_counterexample :
    (calls fresh [.mark 0 1 .read, .mark 1 1 .readahead, .mark 1 1 .absent] >>= fun f =>
      truncateAccess f 0 8192 >>= fun n => (stateAt f 1).map fun s => (n, s)) = .ok (8192, .absent) := by
  decide +kernel

/-- C09 after every history, if some block at or behind the end of the access is present: nothing
beyond `start % 4096` bytes is overstated; in particular nothing for aligned accesses. -/
theorem C09_truncate_partial (cs : List Call) (hcs : CallsInRange cs) (f : File)
    (hf : calls fresh cs = .ok f) (start size n : Nat) (hr : start + size < 9223372036854775808)
    (hb : ∃ b s, (start + size + 4095) / 4096 ≤ b ∧ stateAt f b = .ok s ∧ s ≠ .absent)
    (he : truncateAccess f (start : Int) size = .ok n) :
    n ≤ size ∧ ∀ x, start ≤ x → x + start % 4096 < start + n →
      ∃ s, stateAt f (x / 4096) = .ok s ∧ s ≠ .absent := by
  obtain ⟨f2, e, i⟩ := Inv.calls cs Inv.fresh hcs
  obtain rfl := ok_unique hf e
  obtain ⟨b, s, h1, h2, h3⟩ := hb
  rw [i.state b] at h2
  injection h2 with h2
  obtain ⟨h1, h2⟩ := access_sound i hr ⟨b, h1, by rw [h2]; exact h3⟩ he
  exact ⟨h1, fun x hx1 hx2 => ⟨_, i.state _, h2 x hx1 hx2⟩⟩

/-- The hypotheses of `C09_truncate_partial` are met: an access which is cut short. -/
example : ∃ f, calls fresh [.mark 0 2 .read, .mark 9 1 .read] = .ok f ∧
    (truncateAccess f ((4096 : Nat) : Int) 20000 >>= fun n => (stateAt f 9).map fun s => (n, s)) = .ok (4096, .read) :=
  calls_obs (callsInRange (by decide)) (by decide +kernel)

/-! ### C10 -/

/-- C10, in full: `truncate_access` returns, at least the bytes up to any block `F` inside the
access such that all blocks from the start to `F` are present (so `size` if the whole access is
present, and everything before the first absent block otherwise); 0 if the first block is absent
or the offset negative. -/
def C10_full : Prop :=
  ∀ (cs : List Call) (f : File) (size : Nat), CallsInRange cs → calls fresh cs = .ok f →
    (∀ start : Nat, start + size < 9223372036854775808 →
      ∃ n, truncateAccess f (start : Int) size = .ok n ∧
        (∀ F, start / 4096 < F → F ≤ (start + size + 4095) / 4096 →
          (∀ b, start / 4096 ≤ b → b < F → stateAt f b ≠ .ok .absent) → min size (F * 4096 - start) ≤ n) ∧
        (stateAt f (start / 4096) = .ok .absent → n = 0)) ∧
    (∀ start : Int, start < 0 → truncateAccess f start size = .ok 0)

/-- C10 fails: with 224 entries in the initial 4096 bytes the entry behind the last one lies
outside the mapping. -/
def h224 : List Call :=
  (List.range 224).map fun i => .mark i 1 (if i % 2 = 0 then .read else .pinned)

set_option maxRecDepth 100000 in
theorem C10_crash_counterexample :
    (calls fresh h224 >>= fun f => truncateAccess f 0 (300 * 4096)) = .error (.ub 618) := by
  decide +kernel

theorem C10_counterexample : ¬ C10_full := by
  intro h
  have hr : CallsInRange h224 := by
    intro s c st hm
    unfold h224 at hm
    rw [List.mem_map] at hm
    obtain ⟨i, hi, he⟩ := hm
    rw [List.mem_range] at hi
    rw [Call.mark.injEq] at he
    have h1 := he.1
    have h2 := he.2.1
    omega
  obtain ⟨f, hf, _⟩ := C08_no_crash h224 hr
  obtain ⟨n, hn, _⟩ := (h h224 f (300 * 4096) hr hf).1 0 (by decide)
  have := C10_crash_counterexample
  rw [hf, bind_ok] at this
  rw [show ((0 : Nat) : Int) = 0 from rfl] at hn
  rw [hn] at this
  cases this

/-- C10: maximality for good histories, whenever the call returns; after every history the call
returns if there is room behind the last entry (or a block present behind the access), and it is
0 if the first block is absent or the offset negative. -/
theorem C10_truncate_partial (cs : List Call) (hcs : CallsInRange cs) (f : File)
    (hf : calls fresh cs = .ok f) (start size : Nat) (hr : start + size < 9223372036854775808) :
    (GoodHist Spec.empty (marksOf cs) → ∀ n F, truncateAccess f (start : Int) size = .ok n →
      start / 4096 < F → F ≤ (start + size + 4095) / 4096 →
      (∀ b, start / 4096 ≤ b → b < F → stateAt f b ≠ .ok .absent) →
      min size (F * 4096 - start) ≤ n) ∧
    (nentries f < capacity f ∨
        (∃ b, (start + size + 4095) / 4096 ≤ b ∧ stateAt f b ≠ .ok .absent) →
      ∃ n, truncateAccess f (start : Int) size = .ok n) ∧
    (stateAt f (start / 4096) = .ok .absent → truncateAccess f (start : Int) size = .ok 0) ∧
    (∀ neg : Int, neg < 0 → truncateAccess f neg size = .ok 0) := by
  obtain ⟨f2, e, i⟩ := Inv.calls cs Inv.fresh hcs
  obtain rfl := ok_unique hf e
  refine ⟨fun hg n F he h1 h2 h3 => ?_, fun h => access_ok i hr ?_,
    fun h => access_zero i (by rw [i.state] at h; injection h), fun neg hneg => ?_⟩
  · obtain ⟨f3, L, e3, i3, w, hs⟩ := good_calls hg
    obtain rfl := ok_unique hf e3
    exact access_maximal i3 w hr (fun b hb1 hb2 hc => h3 b hb1 hb2 (by rw [i3.state, hc])) h2 h1 he
  · rcases h with h | ⟨b, h1, h2⟩
    · exact .inl h
    · exact .inr ⟨b, h1, fun hc => h2 (by rw [i.state, hc])⟩
  · unfold truncateAccess
    rw [if_pos hneg]

/-- After marks which leave overlapping entries the result is not maximal: blocks 0-7 are present,
but only 5 blocks are offered. -/
theorem C10_overlap_counterexample :
    (calls fresh [.mark 0 2 .read, .mark 3 5 .read, .mark 0 5 .pinned] >>= fun f =>
      truncateAccess f 0 (8 * 4096) >>= fun n => (stateAt f 7).map fun s => (n, s)) = .ok (5 * 4096, .read) := by
  decide +kernel

/-- A file as in `C10_truncate_partial`, not full. -/
example : ∃ f, calls fresh demo = .ok f ∧ nentries f < capacity f := by
  obtain ⟨f, e, i⟩ := Inv.calls demo Inv.fresh (good_inRange demo_good)
  have h : (calls fresh demo).map (fun f => decide (nentries f < capacity f)) = .ok true := by decide +kernel
  rw [e] at h
  injection h with h
  exact ⟨f, e, of_decide_eq_true h⟩

/-! ### C11 -/

theorem wrapI_lt (x : Int) : wrapI x < W64 := by unfold wrapI; omega

theorem total_zero {L : List Entry} (h : ∀ e ∈ L, EOk e) {t : Nat} (ht : 4 ≤ t) : total t L = 0 := by
  induction L with
  | nil => rfl
  | cons e L ih =>
    have := (h e (by simp)).state
    rw [total_cons, if_neg (by omega), ih (fun x hx => h x (by simp [hx]))]

/-- C11: the bytes of the file of a reachable block list (as long as it has less than 2^64
entries) can be opened again, with the same states, counters, number of entries and capacity. -/
theorem C11_reopen (cs : List Call) (hr : CallsInRange cs) (f : File) (hf : calls fresh cs = .ok f)
    (hn : nentries f < W64) :
    ∃ g, openBytes (encFile f) = .ok g ∧ SameObs f g ∧ capacity g = (f.fileSize - 512) / 16 ∧
      (f.mapped = true → capacity g = capacity f) := by
  obtain ⟨f2, e, i⟩ := Inv.calls cs Inv.fresh hr
  obtain rfl := ok_unique hf e
  have hopen := open_enc (f := f) hn (fun t => by rw [i.cnt]; exact wrapI_lt _)
    (fun t ht => by rw [i.cnt, total_zero i.w0.ok ht]; rfl) i.small
    (by have := i.len; simp only [File.fileSize, superblockSize, entrySize]; omega)
  have hinv : Inv { f with mapped := true, msize := f.fileSize } (cs.foldl callL []) := by
    have h4 : f.fileSize % 4096 = 0 := by
      have := i.len; simp only [File.fileSize, superblockSize, entrySize]; omega
    exact ⟨i.slots, i.n, i.cnt, i.len, h4, Nat.le_refl _, fun _ => rfl, i.w0, i.small⟩
  refine ⟨_, hopen, SameObs.of_inv i hinv, rfl, fun hm => ?_⟩
  simp only [capacity, ensureMapped, hm, if_true, i.msize_eq hm]

/-- Opening an empty (or new) file gives the empty block list. -/
theorem C11_open_empty : openBytes [] = .ok fresh ∧ (∀ b, stateAt fresh b = .ok .absent) ∧
    (∀ s, s ≠ .absent → blocks fresh s = 0) :=
  ⟨open_empty, fun b => Inv.fresh.state b, fun s hs => by cases s <;> first | exact absurd rfl hs | rfl⟩

/-- Files of a wrong size or without the magic number are rejected. -/
theorem C11_reject (b : Bytes) (h : b.length % 512 ≠ 0 ∨ (b.length ≠ 0 ∧ leDec (b.take 4) ≠ 0x4c427344)) :
    ∃ line, openBytes b = .error (.thrown line) := by
  unfold openBytes
  by_cases h1 : b.length % 512 ≠ 0
  · rw [if_pos h1]; exact ⟨_, rfl⟩
  · rw [if_neg h1]
    rcases h with h | ⟨h2, h3⟩
    · exact absurd h h1
    · rw [if_neg h2, if_pos (by unfold fieldAt; rw [List.drop_zero]; exact h3)]
      exact ⟨_, rfl⟩

/-- A history as in `C11_reopen` (`C11_open_empty` has no hypotheses). -/
example : ∃ f, calls fresh demo2 = .ok f ∧ (.ok (decide (nentries f < W64)) : M Bool) = .ok true :=
  calls_obs (callsInRange (by decide)) (obs := fun f => .ok (decide (nentries f < W64))) (by decide +kernel)
/-- A file as in `C11_reject`. -/
example : ([1, 2, 3] : Bytes).length % 512 ≠ 0 := by decide

/-! ### C12 -/

/-- The pieces of a long mark. -/
def pieces : (fuel s c : Nat) → State → List (Nat × Nat × State)
  | 0, _, _, _ => []
  | fuel + 1, s, c, st =>
    if c > 65535 then (s, 65535, st) :: pieces fuel (s + 65535) (c - 65535) st else [(s, c, st)]

/-- C12: on every reachable block list, one mark of any length is the same as marking its
pieces of 65535 blocks one after another (as files, so in every observation). -/
theorem C12_pieces (cs : List Call) (hr : CallsInRange cs) (s c : Nat) (st : State) (hsc : s + c < W64) :
    ∃ f f', calls fresh cs = .ok f ∧ mark f s c st = .ok f' ∧
      marks f (pieces (c / 65535 + 1) s c st) = .ok f' := by
  obtain ⟨f, e, i⟩ := Inv.calls cs Inv.fresh hr
  obtain ⟨f', e', i2⟩ := i.mark st hsc
  refine ⟨f, f', e, e', ?_⟩
  rw [← e']
  clear e' e i2 f'
  generalize cs.foldl callL [] = L at i
  have key : ∀ fuel, ∀ {f : File} {L : List Entry} {s c : Nat}, Inv f L → c / 65535 < fuel → s + c < W64 →
      marks f (pieces fuel s c st) = markLoop st fuel (ensureMapped f) s c := by
    intro fuel
    induction fuel with
    | zero => intro f L s c _ h; omega
    | succ k ih =>
      intro f L s c i hk hsc
      unfold pieces markLoop
      by_cases h1 : c > 65535
      · simp only [limit, h1, if_true]
        unfold marks
        have hm : mark f s 65535 st = markInternal (ensureMapped f) s 65535 st := by
          unfold mark
          rw [show 65535 / limit + 1 = 2 from rfl, markLoop, if_neg (by decide), if_pos (by decide)]
        rw [hm]
        obtain ⟨f1, e1, i1⟩ := i.mark (s := s) (c := 65535) st (by omega)
        rw [hm] at e1
        rw [e1, bind_ok, bind_ok]
        have hmap : ensureMapped f1 = f1 := by
          obtain ⟨S, hrep⟩ := i.rep
          obtain ⟨f3, S3, e3, r3⟩ := markInternal_rep (st := st) hrep i.w0 (s := s) (c := 65535) (by omega) (by omega) (by omega)
          obtain rfl := ok_unique e3 e1
          unfold ensureMapped; rw [if_pos r3.mapped]
        have hu : u64 (s + 65535) = s + 65535 := by unfold u64; omega
        rw [ih i1 (by omega) (by omega), hmap, hu]
      · simp only [limit, h1, if_false]
        unfold marks marks
        have hm : mark f s c st = if c > 0 then markInternal (ensureMapped f) s c st else .ok (ensureMapped f) := by
          unfold mark
          rw [markLoop, if_neg (by simpa using h1)]
        rw [hm]
        by_cases h2 : c > 0
        · simp only [h2, if_true]
          cases markInternal (ensureMapped f) s c st <;> rfl
        · simp only [h2, if_false]; rfl
  exact key _ i (by omega) hsc

/-- And it covers the whole range, for every length, if clean. -/
theorem C12_covers_partial (cs : List Call) (s c : Nat) (st : State)
    (hg : GoodHist Spec.empty (marksOf cs)) (hr : s + c < W64)
    (hc : Clean (run Spec.empty (marksOf cs)) s c) :
    ∃ f f', calls fresh cs = .ok f ∧ mark f s c st = .ok f' ∧
      ∀ b, s ≤ b → b < s + c → stateAt f' b = .ok st := by
  obtain ⟨f, f', e, e', h⟩ := C01_mark_partial cs s c st hg hr (.inr (.inl hc))
  refine ⟨f, f', e, e', fun b h1 h2 => ?_⟩
  obtain ⟨old, _, h3⟩ := h b
  rw [h3, if_pos ⟨h1, h2⟩]

/-- `C12_pieces` for a mark of three pieces across an entry. -/
example : ∃ f f', calls fresh [.mark 70000 5 .read] = .ok f ∧ mark f 10 140000 .pinned = .ok f' ∧
    marks f (pieces (140000 / 65535 + 1) 10 140000 .pinned) = .ok f' :=
  C12_pieces _ (callsInRange (by decide)) 10 140000 .pinned (by decide)

/-- Long marks on a new block list: any count up to 2^64 - 1 - start. -/
example (s c : Nat) (st : State) (hr : s + c < W64) :
    ∃ f f', calls fresh [] = .ok f ∧ mark f s c st = .ok f' ∧
      ∀ b, s ≤ b → b < s + c → stateAt f' b = .ok st :=
  C12_covers_partial [] s c st trivial hr (fun _ _ => .inl rfl)

end Dragonstash.Blocklist
