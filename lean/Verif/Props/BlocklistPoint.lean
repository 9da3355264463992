import Verif.Blocklist.Point
import Verif.Props.Blocklist
/-
  C01-C03, C12, block by block: what holds after *every* history of calls, including those with
  the marks `mark_internal` gets wrong.
-/
namespace Dragonstash.Blocklist

open Spec

/-- No mark of the history contains block `b`. -/
def Untouched (cs : List Call) (b : Nat) : Prop :=
  ∀ s c st, Call.mark s c st ∈ cs → ¬ (s ≤ b ∧ b < s + c)

theorem calls_at (cs : List Call) : ∀ {f : File} {L : List Entry} {m : Map}, Inv f L → CallsInRange cs → ∀ b,
    ((m b ≠ .absent → At L b (m b)) →
      (run m (marksOf cs) b ≠ .absent → At (cs.foldl callL L) b (run m (marksOf cs) b))) ∧
    (∀ v, At L b v → Untouched cs b → At (cs.foldl callL L) b v) := by
  induction cs with
  | nil => intro f L m _ _ b; exact ⟨fun h => h, fun v h _ => h⟩
  | cons c cs ih =>
    intro f L m hi hr b
    obtain ⟨f1, e1, i1⟩ := hi.step c (fun s n st e => hr s n st (by simp [e]))
    have hr' : CallsInRange cs := fun s n st hm => hr s n st (by simp [hm])
    cases c with
    | mark s n st =>
      have hsn := hr s n st (by simp)
      constructor
      · intro ha
        refine (ih (m := setRange m s n st) i1 hr' b).1 (fun hne => ?_)
        unfold setRange at hne ⊢
        by_cases hb : s ≤ b ∧ b < s + n
        · rw [if_pos hb] at hne ⊢
          exact At.chunks_inside st hne _ (by omega) hi.w0 hsn hb.1 hb.2
        · rw [if_neg hb] at hne ⊢
          exact At.chunks_outside st _ hi.w0 hsn (ha hne) hb
      · intro v hv hu
        refine (ih (m := m) i1 hr' b).2 v ?_ (fun s n st hm => hu s n st (by simp [hm]))
        exact At.chunks_outside st _ hi.w0 hsn hv (hu s n st (by simp))
    | shrink => exact ⟨(ih i1 hr' b).1, fun v hv hu => (ih (m := m) i1 hr' b).2 v hv (fun s n st hm => hu s n st (by simp [hm]))⟩
    | fsck => exact ⟨(ih i1 hr' b).1, fun v hv hu => (ih (m := m) i1 hr' b).2 v hv (fun s n st hm => hu s n st (by simp [hm]))⟩
    | reopen => exact ⟨(ih i1 hr' b).1, fun v hv hu => (ih (m := m) i1 hr' b).2 v hv (fun s n st hm => hu s n st (by simp [hm]))⟩

theorem calls_cov (cs : List Call) : ∀ {f : File} {L : List Entry}, Inv f L → CallsInRange cs → ∀ {b t : Nat},
    Cov (cs.foldl callL L) b t → Cov L b t ∨
      ∃ s c st, Call.mark s c st ∈ cs ∧ s ≤ b ∧ b < s + c ∧ st ≠ .absent ∧ t = st.code := by
  induction cs with
  | nil => intro f L _ _ b t h; exact .inl h
  | cons c cs ih =>
    intro f L hi hr b t hc
    obtain ⟨f1, e1, i1⟩ := hi.step c (fun s n st e => hr s n st (by simp [e]))
    have hr' : CallsInRange cs := fun s n st hm => hr s n st (by simp [hm])
    rcases ih i1 hr' hc with h | ⟨s, n, st, hm, h⟩
    · cases c with
      | mark s n st =>
        rcases chunkL_cov_sub st _ hi.w0 (hr s n st (by simp)) h with h | ⟨h1, h2, h3, h4⟩
        · exact .inl h
        · exact .inr ⟨s, n, st, by simp, h3, h4, h1, h2⟩
      | shrink => exact .inl h
      | fsck => exact .inl h
      | reopen => exact .inl h
    · exact .inr ⟨s, n, st, by simp [hm], h⟩

theorem marksOf_append (a b : List Call) : marksOf (a ++ b) = marksOf a ++ marksOf b := by
  induction a with
  | nil => rfl
  | cons c a ih => cases c <;> simp [marksOf, ih]

theorem at_nil (b : Nat) : At [] b .absent := ⟨rfl, rfl⟩

/-! ### C02 -/

/-- C02 after every history, block by block: a block whose last mark was not with ABSENT has the
state of that mark; a block which was never marked is absent; a state reported for a block was
given to it by some mark.  (What is missing to C02 in full: blocks whose last mark was with
ABSENT may still show an earlier state, see `C02_counterexample`.) -/
theorem C02_blocks_partial (cs : List Call) (hr : CallsInRange cs) :
    ∃ f, calls fresh cs = .ok f ∧ ∀ b,
      (run Spec.empty (marksOf cs) b ≠ .absent → stateAt f b = .ok (run Spec.empty (marksOf cs) b)) ∧
      (Untouched cs b → stateAt f b = .ok .absent) ∧
      (∀ v, stateAt f b = .ok v → v ≠ .absent →
        ∃ s c, Call.mark s c v ∈ cs ∧ s ≤ b ∧ b < s + c) := by
  obtain ⟨f, e, i⟩ := Inv.calls cs Inv.fresh hr
  refine ⟨f, e, fun b => ⟨fun h => ?_, fun h => ?_, fun v hv hne => ?_⟩⟩
  · rw [i.state b, ((calls_at cs (m := Spec.empty) Inv.fresh hr b).1 (fun _ => at_nil b) h).1]
  · rw [i.state b, ((calls_at cs (m := Spec.empty) Inv.fresh hr b).2 _ (at_nil b) h).1]
  · rw [i.state b] at hv
    injection hv with hv
    rw [← hv] at hne
    obtain ⟨t, ht, hd⟩ := cov_of_sem hne
    rcases calls_cov cs Inv.fresh hr ht with h | ⟨s, c, st, hm, h1, h2, _, h4⟩
    · simp at h
    · refine ⟨s, c, ?_, h1, h2⟩
      rw [← hv, ← hd, h4, dec_code]
      exact hm

/-- The history of `C02_counterexample_present`, which breaks block 4, keeps 5-7 and loses
nothing else. -/
example : ∃ f, calls fresh [.mark 0 2 .read, .mark 3 5 .read, .mark 0 5 .pinned, .mark 0 5 .absent] = .ok f ∧
    stateAt f 6 = .ok .read ∧ stateAt f 9 = .ok .absent := by
  obtain ⟨f, e, h⟩ := C02_blocks_partial [.mark 0 2 .read, .mark 3 5 .read, .mark 0 5 .pinned, .mark 0 5 .absent]
    (callsInRange (by decide))
  exact ⟨f, e, (h 6).1 (by decide), (h 9).2.1 (by
    intro s c st hm
    simp only [List.mem_cons, Call.mark.injEq, List.not_mem_nil, or_false] at hm
    omega)⟩

/-- A history without ABSENT marks is exact: every block has the state of its last mark. -/
theorem C02_no_absent (cs : List Call) (hr : CallsInRange cs)
    (hn : ∀ s c st, Call.mark s c st ∈ cs → st ≠ .absent) :
    ∃ f, calls fresh cs = .ok f ∧ ∀ b, stateAt f b = .ok (run Spec.empty (marksOf cs) b) := by
  obtain ⟨f, e, h⟩ := C02_blocks_partial cs hr
  refine ⟨f, e, fun b => ?_⟩
  by_cases ha : run Spec.empty (marksOf cs) b = .absent
  · rw [ha]
    refine (h b).2.1 ?_
    -- a touched block cannot be absent
    have key : ∀ (cs : List Call) (m : Map), (∀ s c st, Call.mark s c st ∈ cs → st ≠ .absent) →
        run m (marksOf cs) b = .absent → Untouched cs b ∧ m b = .absent := by
      intro cs
      induction cs with
      | nil => intro m _ h; exact ⟨fun s c st hm => by simp at hm, h⟩
      | cons c cs ih =>
        intro m hn h
        cases c with
        | mark s n st =>
          obtain ⟨a, b'⟩ := ih (setRange m s n st) (fun s c st hm => hn s c st (by simp [hm])) h
          unfold setRange at b'
          by_cases hb : s ≤ b ∧ b < s + n
          · rw [if_pos hb] at b'
            exact absurd b' (hn s n st (by simp))
          · rw [if_neg hb] at b'
            refine ⟨?_, b'⟩
            intro s' n' st' hm
            simp only [List.mem_cons, Call.mark.injEq] at hm
            rcases hm with ⟨rfl, rfl, rfl⟩ | hm
            · exact hb
            · exact a s' n' st' hm
        | shrink =>
          obtain ⟨a, b'⟩ := ih m (fun s c st hm => hn s c st (by simp [hm])) h
          exact ⟨fun s c st hm => a s c st (by simpa using hm), b'⟩
        | fsck =>
          obtain ⟨a, b'⟩ := ih m (fun s c st hm => hn s c st (by simp [hm])) h
          exact ⟨fun s c st hm => a s c st (by simpa using hm), b'⟩
        | reopen =>
          obtain ⟨a, b'⟩ := ih m (fun s c st hm => hn s c st (by simp [hm])) h
          exact ⟨fun s c st hm => a s c st (by simpa using hm), b'⟩
    exact (key cs _ hn ha).1
  · exact (h b).1 ha

example : ∃ f, calls fresh [.mark 0 2 .read, .mark 3 5 .read, .mark 0 5 .pinned, .mark 1 70000 .written] = .ok f ∧
    stateAt f 4 = .ok .written ∧ stateAt f 0 = .ok .pinned := by
  obtain ⟨f, e, h⟩ := C02_no_absent [.mark 0 2 .read, .mark 3 5 .read, .mark 0 5 .pinned, .mark 1 70000 .written]
    (callsInRange (by decide)) (by
      intro s c st hm
      simp only [List.mem_cons, Call.mark.injEq, List.not_mem_nil, or_false] at hm
      rcases hm with ⟨-, -, rfl⟩ | ⟨-, -, rfl⟩ | ⟨-, -, rfl⟩ | ⟨-, -, rfl⟩ <;> decide)
  exact ⟨f, e, h 4, h 0⟩

theorem sound_entries (cs : List Call) : ∀ {f : File} {L : List Entry} {first : Bool}, Inv f L →
    (first = true → Wf L) → (∀ b, At L b (sem L b)) → SoundHist first (sem L) (marksOf cs) →
    CallsInRange cs ∧ sem (cs.foldl callL L) = run (sem L) (marksOf cs) ∧
      ∀ b, At (cs.foldl callL L) b (sem (cs.foldl callL L) b) := by
  induction cs with
  | nil => intro f L first _ _ ha _; exact ⟨fun s c st h => by simp at h, rfl, ha⟩
  | cons c cs ih =>
    intro f L first hi hw ha hs
    cases c with
    | mark s n st =>
      obtain ⟨g1, g2⟩ := hs
      obtain ⟨f1, e1, i1⟩ := hi.mark st g1
      have hrange : CallsInRange cs → CallsInRange (Call.mark s n st :: cs) := by
        intro h s' c' st' hm
        simp only [List.mem_cons, Call.mark.injEq] at hm
        rcases hm with ⟨rfl, rfl, rfl⟩ | hm
        · exact g1
        · exact h s' c' st' hm
      rcases g2 with ⟨g2, g3, g4⟩ | ⟨g2, g3⟩
      · obtain ⟨a, b⟩ := chunkL_sem st (n / 65535 + 1) (s := s) (c := n) (by omega) (hw g2) g1 g3
        rw [← b] at g4
        obtain ⟨r1, r2, r3⟩ := ih i1 (fun _ => a) a.at g4
        exact ⟨hrange r1, by rw [List.foldl_cons, callL, r2, b]; rfl, r3⟩
      · have hat : ∀ b, At (chunkL st (n / 65535 + 1) L s n) b (setRange (sem L) s n st b) := by
          by_cases hst : st = .absent
          · subst hst
            exact At.chunks_cleared _ (by omega) hi.w0 g1 ha (g2.resolve_left (fun h => h rfl))
          · intro b
            unfold setRange
            by_cases hb : s ≤ b ∧ b < s + n
            · rw [if_pos hb]; exact At.chunks_inside st hst _ (by omega) hi.w0 g1 hb.1 hb.2
            · rw [if_neg hb]; exact At.chunks_outside st _ hi.w0 g1 (ha b) hb
        have hsem : sem (chunkL st (n / 65535 + 1) L s n) = setRange (sem L) s n st := funext (fun b => (hat b).1)
        rw [← hsem] at g3
        obtain ⟨r1, r2, r3⟩ := ih i1 (fun h => by cases h) (fun b => by rw [hsem]; exact hat b) g3
        exact ⟨hrange r1, by rw [List.foldl_cons, callL, r2, hsem]; rfl, r3⟩
    | shrink =>
      obtain ⟨f1, e1, i1⟩ := hi.step .shrink (fun s n st e => by cases e)
      obtain ⟨r1, r2, r3⟩ := ih i1 hw ha hs
      exact ⟨fun s c st hm => r1 s c st (by simpa using hm), r2, r3⟩
    | fsck =>
      obtain ⟨f1, e1, i1⟩ := hi.step .fsck (fun s n st e => by cases e)
      obtain ⟨r1, r2, r3⟩ := ih i1 hw ha hs
      exact ⟨fun s c st hm => r1 s c st (by simpa using hm), r2, r3⟩
    | reopen =>
      obtain ⟨f1, e1, i1⟩ := hi.step .reopen (fun s n st e => by cases e)
      obtain ⟨r1, r2, r3⟩ := ih i1 hw ha hs
      exact ⟨fun s c st hm => r1 s c st (by simpa using hm), r2, r3⟩

/-- C02 for a larger class of histories: good ones, followed by arbitrary marks with states other
than ABSENT and marks with ABSENT which end at a block that is absent already. -/
theorem C02_sound_partial (cs : List Call) (hg : SoundHist true Spec.empty (marksOf cs)) :
    ∃ f, calls fresh cs = .ok f ∧ ∀ b, stateAt f b = .ok (run Spec.empty (marksOf cs) b) := by
  obtain ⟨h1, h2, _⟩ := sound_entries cs (L := []) (first := true) Inv.fresh (fun _ => ⟨by simp, by simp⟩) at_nil hg
  obtain ⟨f, e, i⟩ := Inv.calls cs Inv.fresh h1
  exact ⟨f, e, fun b => by rw [i.state b, h2]; rfl⟩

/-- Good histories are among them. -/
theorem sound_of_good (h : List Op) : ∀ {m : Map}, GoodHist m h → SoundHist true m h := by
  induction h with
  | nil => intro m _; trivial
  | cons o h ih =>
    intro m ⟨a, b, c⟩
    exact ⟨a, .inl ⟨rfl, b, ih c⟩⟩

/-- The third mark here is not good (it starts at a present block and ends inside a run); block
6-9 are removed afterwards, up to the absent block 9. -/
def demoSound : List Call :=
  [.mark 0 2 .read, .mark 3 5 .read, .mark 0 5 .pinned, .shrink, .mark 6 4 .absent, .mark 1 70000 .written]

theorem demoSound_sound : SoundHist true Spec.empty (marksOf demoSound) := by
  refine ⟨by decide, .inl ⟨rfl, .inr ?_, by decide, .inl ⟨rfl, .inr ?_, by decide, .inr ⟨.inl (by decide), by decide,
    .inr ⟨.inr ?_, by decide, .inr ⟨.inl (by decide), trivial⟩⟩⟩⟩⟩⟩
  all_goals
    intro k hk
    have hk2 : k = 0 := by omega
    subst hk2
    first | decide | (unfold CleanChunk; decide)

example : ∃ f, calls fresh demoSound = .ok f ∧ ∀ b, stateAt f b = .ok (run Spec.empty (marksOf demoSound) b) :=
  C02_sound_partial demoSound demoSound_sound

/-! ### C01, C12 -/

/-- C01 after every history, block by block.  After marking with a state other than ABSENT, every
block of the range has that state, however long the range.  Blocks behind the range never change;
blocks before the range keep their state if they were never marked or their last mark was with a
state other than ABSENT. -/
theorem C01_blocks_partial (cs : List Call) (hr : CallsInRange cs) (s c : Nat) (st : State) (hsc : s + c < W64) :
    ∃ f f', calls fresh cs = .ok f ∧ mark f s c st = .ok f' ∧ ∀ b,
      (s ≤ b → b < s + c → st ≠ .absent → stateAt f' b = .ok st) ∧
      (s + c ≤ b → stateAt f' b = stateAt f b) ∧
      (b < s → run Spec.empty (marksOf cs) b ≠ .absent ∨ Untouched cs b → stateAt f' b = stateAt f b) := by
  obtain ⟨f, e, i⟩ := Inv.calls cs Inv.fresh hr
  obtain ⟨f', e', i'⟩ := i.mark st hsc
  refine ⟨f, f', e, e', fun b => ⟨fun h1 h2 hst => ?_, fun hb => ?_, fun hb h => ?_⟩⟩
  · rw [i'.state b, (At.chunks_inside st hst _ (by omega) i.w0 hsc h1 h2).1]
  · rw [i'.state b, i.state b, chunkL_behind st _ i.w0 hsc hb]
  · have key : ∃ v, At (cs.foldl callL []) b v := by
      rcases h with h | h
      · exact ⟨_, (calls_at cs (m := Spec.empty) Inv.fresh hr b).1 (fun _ => at_nil b) h⟩
      · exact ⟨_, (calls_at cs (m := Spec.empty) Inv.fresh hr b).2 _ (at_nil b) h⟩
    obtain ⟨v, hv⟩ := key
    rw [i'.state b, i.state b, (At.chunks_outside st _ i.w0 hsc hv (by omega)).1, hv.1]

/-- The exceptions exist: a mark with a state other than ABSENT can change a block before its range
(block 3 wrongly survives `mark(0,4,ABSENT)` and disappears when 4-8 are written). -/
theorem C01_before_counterexample :
    (calls fresh [.mark 0 2 .read, .mark 3 5 .read, .mark 0 5 .pinned, .mark 0 4 .absent] >>= fun f =>
      stateAt f 3) = .ok .read ∧
    (calls fresh [.mark 0 2 .read, .mark 3 5 .read, .mark 0 5 .pinned, .mark 0 4 .absent] >>= fun f =>
      mark f 4 5 .written >>= fun f => stateAt f 3) = .ok .absent := by
  constructor <;> decide +kernel

/-- From a block list with a sound history, a mark with a state other than ABSENT sets exactly its
range, for every length, and a mark with ABSENT changes nothing outside. -/
theorem C01_present_partial (cs : List Call) (s c : Nat) (st : State)
    (hg : SoundHist true Spec.empty (marksOf cs)) (hsc : s + c < W64) :
    ∃ f f', calls fresh cs = .ok f ∧ mark f s c st = .ok f' ∧
      ∀ b, ∃ old, stateAt f b = .ok old ∧
        (¬ (s ≤ b ∧ b < s + c) → stateAt f' b = .ok old) ∧
        (s ≤ b ∧ b < s + c → st ≠ .absent → stateAt f' b = .ok st) := by
  have hw : (true = true → Wf []) := fun _ => ⟨by simp, by simp⟩
  obtain ⟨h1, _, hat⟩ := sound_entries cs (L := []) (first := true) Inv.fresh hw at_nil hg
  obtain ⟨f, e, i⟩ := Inv.calls cs Inv.fresh h1
  obtain ⟨f', e', i'⟩ := i.mark st hsc
  refine ⟨f, f', e, e', fun b => ⟨_, i.state b, fun hb => ?_, fun hb hst => ?_⟩⟩
  · rw [i'.state b, (At.chunks_outside st _ i.w0 hsc (hat b) hb).1]
  · rw [i'.state b, (At.chunks_inside st hst _ (by omega) i.w0 hsc hb.1 hb.2).1]

example : ∃ f f', calls fresh demoSound = .ok f ∧ mark f 2 200000 .readahead = .ok f' ∧
    ∀ b, ∃ old, stateAt f b = .ok old ∧
      (¬ (2 ≤ b ∧ b < 2 + 200000) → stateAt f' b = .ok old) ∧
      (2 ≤ b ∧ b < 2 + 200000 → State.readahead ≠ .absent → stateAt f' b = .ok .readahead) :=
  C01_present_partial demoSound 2 200000 .readahead demoSound_sound (by decide)

/-- C12 after every history: a mark of any length with a state other than ABSENT covers its whole
range. -/
theorem C12_covers_present (cs : List Call) (hr : CallsInRange cs) (s c : Nat) (st : State)
    (hst : st ≠ .absent) (hsc : s + c < W64) :
    ∃ f f', calls fresh cs = .ok f ∧ mark f s c st = .ok f' ∧
      ∀ b, s ≤ b → b < s + c → stateAt f' b = .ok st := by
  obtain ⟨f, f', e, e', h⟩ := C01_blocks_partial cs hr s c st hsc
  exact ⟨f, f', e, e', fun b h1 h2 => (h b).1 h1 h2 hst⟩

example : ∃ f f', calls fresh demoSound = .ok f ∧ mark f 2 200000 .readahead = .ok f' ∧
    ∀ b, 2 ≤ b → b < 2 + 200000 → stateAt f' b = .ok .readahead :=
  C12_covers_present demoSound (callsInRange (by decide)) 2 200000 .readahead (by decide) (by decide)

/-! ### C03 -/

/-- C03 after every history: the counters never count too few blocks, as long as the list has
fewer than 2^48 entries. -/
theorem C03_at_least_partial (cs : List Call) (hr : CallsInRange cs) (f : File) (hf : calls fresh cs = .ok f)
    (hn : nentries f < 281474976710656) (m : Map) (hm : ∀ b, stateAt f b = .ok (m b)) :
    (∀ s, s ≠ .absent → countBelow (fun b => decide (m b = s)) W64 ≤ blocks f s) ∧
    countBelow (fun b => decide (m b ≠ .absent)) W64 ≤ presentBlocks f := by
  obtain ⟨f2, e, i⟩ := Inv.calls cs Inv.fresh hr
  obtain rfl := ok_unique hf e
  revert i
  generalize cs.foldl callL [] = L
  intro i
  have hmL : m = sem L := by
    funext b
    have := hm b
    rw [i.state b] at this
    injection this with this
    exact this.symm
  subst hmL
  have hle := total_le L i.w0.ok
  have hlen : L.length < 281474976710656 := by rw [← i.n]; exact hn
  have hc : ∀ t, t < 4 → countBelow (fun b => decide (sem L b = dec t)) W64 ≤ total t L :=
    fun t ht => count_le_total ht i.w0.ok W64
  have hw : ∀ t, total t L < W64 → f.cnt t = total t L := by
    intro t ht
    rw [i.cnt]; unfold wrapI; omega
  have w0 := hw 0 (by omega)
  have w1 := hw 1 (by omega)
  have w2 := hw 2 (by omega)
  have w3 := hw 3 (by omega)
  have c0 : countBelow (fun b => decide (sem L b = .readahead)) W64 ≤ total 0 L := hc 0 (by omega)
  have c1 : countBelow (fun b => decide (sem L b = .read)) W64 ≤ total 1 L := hc 1 (by omega)
  have c2 : countBelow (fun b => decide (sem L b = .pinned)) W64 ≤ total 2 L := hc 2 (by omega)
  have c3 : countBelow (fun b => decide (sem L b = .written)) W64 ≤ total 3 L := hc 3 (by omega)
  constructor
  · intro s hs
    cases s with
    | absent => exact absurd rfl hs
    | readahead => show _ ≤ f.cnt 0; rw [w0]; exact c0
    | read => show _ ≤ f.cnt 1; rw [w1]; exact c1
    | pinned => show _ ≤ f.cnt 2; rw [w2]; exact c2
    | written => show _ ≤ f.cnt 3; rw [w3]; exact c3
  · rw [count_present (sem L) W64]
    unfold presentBlocks
    rw [w0, w1, w2, w3]
    unfold u64
    omega

/-- The history of the counterexample to C03 meets the hypotheses.
(Theorem `C03_at_least_partial`.) -/
example : ∃ f, calls fresh [.mark 0 2 .read, .mark 3 5 .read, .mark 0 5 .pinned] = .ok f ∧
    (.ok (decide (nentries f < 281474976710656)) : M Bool) = .ok true :=
  calls_obs (callsInRange (by decide)) (obs := fun f => .ok (decide (nentries f < 281474976710656))) (by decide +kernel)

/-- `C01_blocks_partial` after the history of the counterexample. -/
example : ∃ f f', calls fresh [.mark 0 2 .read, .mark 3 5 .read, .mark 0 5 .pinned] = .ok f ∧ mark f 2 5 .written = .ok f' ∧
    stateAt f' 4 = .ok .written ∧ stateAt f' 7 = stateAt f 7 := by
  obtain ⟨f, f', h1, h2, h3⟩ := C01_blocks_partial [.mark 0 2 .read, .mark 3 5 .read, .mark 0 5 .pinned] (callsInRange (by decide)) 2 5 .written (by decide)
  exact ⟨f, f', h1, h2, (h3 4).1 (by decide) (by decide) (by decide), (h3 7).2.1 (by decide)⟩

end Dragonstash.Blocklist
