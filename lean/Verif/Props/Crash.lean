import Verif.Blocklist.Crash
import Verif.Props.BlocklistPoint
/-
  C68, C69: a process which dies inside `mark`.
-/
namespace Dragonstash.Blocklist

open Spec

/-! ### Specification -/

/-- What the next process finds in the file: a process which dies at any point inside
`mark(s, c, st)` on `f` may leave `g`. -/
def LeftBy (f : File) (s c : Nat) (st : State) (g : File) : Prop := ∃ g0, (markT f s c st).crash g0 ∧ g = reopen g0

/-- The mark itself, if nobody dies, is the one all other theorems are about. -/
theorem C68_same_mark (f : File) (s c : Nat) (st : State) : (markT f s c st).res = mark f s c st :=
  markT_res f s c st

/-- C68 in full: after a crash inside a mark every block reads as before, or ABSENT, or, within the
range, as marked. -/
def C68_full : Prop :=
  ∀ (cs : List Call) (s c : Nat) (st : State) (f g : File), GoodHist Spec.empty (marksOf cs) → s + c < W64 →
    calls fresh cs = .ok f → LeftBy f s c st g →
    ∀ b, ∃ v old, stateAt g b = .ok v ∧ stateAt f b = .ok old ∧
      (v = old ∨ v = .absent ∨ (s ≤ b ∧ b < s + c ∧ v = st))

/-- C69 in full: after a crash inside a mark, `fsck` rejects the file or every block outside the
range reads as before. -/
def C69_full : Prop :=
  ∀ (cs : List Call) (s c : Nat) (st : State) (f g g' : File), GoodHist Spec.empty (marksOf cs) → s + c < W64 →
    calls fresh cs = .ok f → LeftBy f s c st g → fsck g = .ok g' →
    ∀ b, ¬ (s ≤ b ∧ b < s + c) → stateAt g' b = stateAt f b

/-! ### What holds -/

theorem cov_sem_good {L : List Entry} (hw : Wf L) {b t : Nat} (h : Cov L b t) : sem L b = dec t ∧ t < 4 := by
  obtain ⟨e, he, hc, hs⟩ := h
  refine ⟨?_, by rw [← hs]; exact (hw.ok e he).state⟩
  induction L with
  | nil => simp at he
  | cons a L ih =>
    unfold sem
    by_cases ha : a.covers b
    · rw [if_pos ha]
      rcases List.mem_cons.1 he with rfl | he
      · rw [hs]
      · have := (List.pairwise_cons.1 hw.disj).1 e he
        have := hc.1; have := ha.2
        omega
    · rw [if_neg ha]
      rcases List.mem_cons.1 he with rfl | he
      · exact absurd hc ha
      · exact ih hw.tail he

/-- C68, with its one exception: if the range (or one of the pieces of 65535 blocks in which it is
marked) ends in the middle of a run of blocks with one state, blocks behind that point may read as
having that state. -/
theorem C68_crash_partial (cs : List Call) (s c : Nat) (st : State) (f g : File)
    (hg : GoodHist Spec.empty (marksOf cs)) (hsc : s + c < W64) (hf : calls fresh cs = .ok f)
    (hl : LeftBy f s c st g) :
    ∀ b, ∃ v old, stateAt g b = .ok v ∧ stateAt f b = .ok old ∧
      (v = old ∨ v = .absent ∨ (s ≤ b ∧ b < s + c ∧ v = st) ∨
        ∃ k p, k * 65535 < c ∧ p = s + min ((k + 1) * 65535) c ∧ p ≤ b ∧
          stateAt f (p - 1) = .ok v ∧ stateAt f p = .ok v) := by
  obtain ⟨f2, L, e, i, hw, hs⟩ := good_calls hg
  obtain rfl := ok_unique hf e
  obtain ⟨g0, hc, rfl⟩ := hl
  have hcl := markT_crash (R := fun _ _ _ => False) i hsc (fun _ _ _ h => h.elim) hc
  intro b
  rcases hcl.read b with h | ⟨t, ht, h, h'⟩
  · exact ⟨_, _, h, i.state b, .inr (.inl rfl)⟩
  · refine ⟨_, _, h, i.state b, ?_⟩
    rcases h' with (h' | ⟨_, h2, h3, h4⟩) | ⟨p, ⟨k, hk, hp⟩, h2, h3, h4⟩
    · exact .inl (cov_sem_good hw h').1.symm
    · exact .inr (.inr (.inl ⟨h3, h4, by rw [h2, dec_code]⟩))
    · exact .inr (.inr (.inr ⟨k, p, hk, hp, h2, by rw [i.state, (cov_sem_good hw h3).1], by rw [i.state, (cov_sem_good hw h4).1]⟩))

/-- C68 after every history: a state found after a crash was given to the block by some mark,
finished or not, with the same exception. -/
theorem C68_history_partial (cs : List Call) (s c : Nat) (st : State) (f g : File) (hr : CallsInRange cs)
    (hsc : s + c < W64) (hf : calls fresh cs = .ok f) (hl : LeftBy f s c st g) :
    ∀ b, ∃ v, stateAt g b = .ok v ∧
      (v = .absent ∨ (∃ s' c', Call.mark s' c' v ∈ cs ∧ s' ≤ b ∧ b < s' + c') ∨ (s ≤ b ∧ b < s + c ∧ v = st) ∨
        ∃ k p, k * 65535 < c ∧ p = s + min ((k + 1) * 65535) c ∧ p ≤ b ∧
          (∃ s' c', Call.mark s' c' v ∈ cs ∧ s' ≤ p - 1 ∧ p - 1 < s' + c') ∧
          (∃ s' c', Call.mark s' c' v ∈ cs ∧ s' ≤ p ∧ p < s' + c')) := by
  obtain ⟨f2, e, i⟩ := Inv.calls cs Inv.fresh hr
  obtain rfl := ok_unique hf e
  obtain ⟨g0, hc, rfl⟩ := hl
  have hcl := markT_crash (R := fun _ _ _ => False) i hsc (fun _ _ _ h => h.elim) hc
  have key : ∀ {b t}, Cov (cs.foldl callL []) b t → ∃ s' c', Call.mark s' c' (dec t) ∈ cs ∧ s' ≤ b ∧ b < s' + c' := by
    intro b t h
    rcases calls_cov cs Inv.fresh hr h with h | ⟨s', c', st', hm, h1, h2, _, h4⟩
    · simp at h
    · exact ⟨s', c', by rw [h4, dec_code]; exact hm, h1, h2⟩
  intro b
  rcases hcl.read b with h | ⟨t, ht, h, h'⟩
  · exact ⟨_, h, .inl rfl⟩
  · refine ⟨_, h, ?_⟩
    rcases h' with (h' | ⟨_, h2, h3, h4⟩) | ⟨p, ⟨k, hk, hp⟩, h2, h3, h4⟩
    · exact .inr (.inl (key h'))
    · exact .inr (.inr (.inl ⟨h3, h4, by rw [h2, dec_code]⟩))
    · exact .inr (.inr (.inr ⟨k, p, hk, hp, h2, key h3, key h4⟩))

/-- C69 for the blocks before the range: whatever the crash point, and whatever `fsck` says, they
read as before. -/
theorem C69_before_partial (cs : List Call) (s c : Nat) (st : State) (f g : File)
    (hg : GoodHist Spec.empty (marksOf cs)) (hsc : s + c < W64) (hf : calls fresh cs = .ok f)
    (hl : LeftBy f s c st g) : ∀ b, b < s → stateAt g b = stateAt f b := by
  obtain ⟨f2, L, e, i, hw, hs⟩ := good_calls hg
  obtain rfl := ok_unique hf e
  obtain ⟨g0, hc, rfl⟩ := hl
  intro b hb
  have hcl := markT_crash (R := fun i b t => b < s ∧ Cov L b t ∧ i = (lo b L).length) i hsc (fun _ b t ⟨h1, h2, h5⟩ => by
    obtain ⟨h3, h4⟩ := cov_sem_good hw h2
    refine ⟨h1, h4, ?_, h5⟩
    rw [← h3]; exact hw.at b) hc
  rw [i.state b]
  by_cases ha : sem L b = .absent
  · rw [ha]
    rcases hcl.read b with h | ⟨t, ht, h, h'⟩
    · exact h
    · rcases h' with (h' | h') | ⟨p, ⟨k, hk, hp⟩, h2, _⟩
      · have := (cov_sem_good hw h').1
        rw [ha] at this
        exact absurd this.symm (dec_ne_absent ht)
      · omega
      · omega
  · obtain ⟨t, ht, hd⟩ := cov_of_sem ha
    rw [← hd]
    exact hcl.kept (t := t) ⟨hb, ht, rfl⟩ (cov_sem_good hw ht).2 hb (fun u hu => by
      have h1 := cov_sem_good hw hu
      have h2 := cov_sem_good hw ht
      rw [← code_dec h1.2, ← code_dec h2.2, ← h1.1, h2.1])

/-! ### Crash points of a concrete mark -/

/-- The result of a successful call. -/
def okOr {α : Type} (d : α) : M α → α
  | .ok a => a
  | .error _ => d

def isOk {α : Type} : M α → Bool
  | .ok _ => true
  | .error _ => false

theorem ok_okOr {α : Type} {d : α} {m : M α} (h : isOk m = true) : m = .ok (okOr d m) := by
  cases m with
  | ok a => rfl
  | error e => cases h

theorem crash_in {α β : Type} {x : T α} {k : α → T β} {p : File → Prop} (h : ∃ g, x.crash g ∧ p g) :
    ∃ g, (x >>= k).crash g ∧ p g := by
  obtain ⟨g, h1, h2⟩ := h
  exact ⟨g, .inl h1, h2⟩

theorem crash_after {α β : Type} (d : α) {x : T α} {k : α → T β} {p : File → Prop} (hx : isOk x.res = true)
    (h : ∃ g, (k (okOr d x.res)).crash g ∧ p g) : ∃ g, (x >>= k).crash g ∧ p g := by
  obtain ⟨g, h1, h2⟩ := h
  exact ⟨g, .inr ⟨_, ok_okOr hx, h1⟩, h2⟩

theorem crash_here {m : M File} {p : File → Prop} (d : File) (hm : isOk m = true) (h : p (okOr d m)) :
    ∃ g, (T.point m).crash g ∧ p g := ⟨_, ok_okOr hm, h⟩

/-- The block list with blocks 5-14 read. -/
def f515 : File := okOr fresh (calls fresh [.mark 5 10 .read])

/-- Dying between the stores of 486 and 487 while marking 0-9: blocks 15-19, never marked, are left
as read, and `fsck` accepts the file. -/
theorem torn : ∃ g0, (markT f515 0 10 .pinned).crash g0 ∧
    (stateAt (reopen g0) 15 = .ok .read ∧ isOk (fsck (reopen g0)) = true) := by
  unfold markT
  refine crash_after fresh (by decide +kernel) ?_
  unfold markLoopT
  rw [if_neg (by decide), if_pos (by decide)]
  unfold markInternalT
  refine crash_after (0, 0) (by decide +kernel) (crash_after (fresh, 0, 0) (by decide +kernel)
    (crash_after false (by decide +kernel) (crash_after false (by decide +kernel) ?_)))
  rw [if_neg (by decide +kernel)]
  refine crash_in ?_
  unfold trimEndT
  rw [if_pos (by decide +kernel)]
  refine crash_after ⟨0, 0, 0⟩ (by decide +kernel) (crash_in ?_)
  exact crash_here fresh (by decide +kernel) (by decide +kernel)

theorem good_first {s c : Nat} {st : State} (h : s + c < W64) : GoodHist Spec.empty (marksOf [.mark s c st]) :=
  ⟨h, .inr (fun _ _ => .inl rfl), trivial⟩

theorem f515_calls : calls fresh [.mark 5 10 .read] = .ok f515 := ok_okOr (by decide +kernel)

/-- C68 in full is false: a block which was never marked may read as present after a crash. -/
theorem C68_counterexample : ¬ C68_full := by
  intro h
  obtain ⟨g0, hc, hs, _⟩ := torn
  obtain ⟨v, old, h1, h2, h3⟩ := h [.mark 5 10 .read] 0 10 .pinned f515 _ (good_first (by decide)) (by decide) f515_calls
    ⟨g0, hc, rfl⟩ 15
  rw [hs] at h1
  injection h1 with h1
  have : stateAt f515 15 = .ok .absent := by decide +kernel
  rw [this] at h2
  injection h2 with h2
  subst h1; subst h2
  rcases h3 with h3 | h3 | ⟨_, h3, _⟩
  · cases h3
  · cases h3
  · omega

/-- The crash point of the counterexample is the exception of `C68_crash_partial`, with `p = 10`. -/
example : ∃ g, LeftBy f515 0 10 .pinned g ∧ ∀ b, ∃ v old, stateAt g b = .ok v ∧ stateAt f515 b = .ok old ∧
    (v = old ∨ v = .absent ∨ (0 ≤ b ∧ b < 0 + 10 ∧ v = .pinned) ∨
      ∃ k p, k * 65535 < 10 ∧ p = 0 + min ((k + 1) * 65535) 10 ∧ p ≤ b ∧
        stateAt f515 (p - 1) = .ok v ∧ stateAt f515 p = .ok v) := by
  obtain ⟨g0, hc, _⟩ := torn
  exact ⟨_, ⟨g0, hc, rfl⟩, C68_crash_partial [.mark 5 10 .read] 0 10 .pinned f515 _ (good_first (by decide)) (by decide)
    f515_calls ⟨g0, hc, rfl⟩⟩

example : ∃ g, LeftBy f515 0 10 .pinned g ∧ ∀ b, ∃ v, stateAt g b = .ok v ∧
      (v = .absent ∨ (∃ s' c', Call.mark s' c' v ∈ [Call.mark 5 10 .read] ∧ s' ≤ b ∧ b < s' + c') ∨
        (0 ≤ b ∧ b < 0 + 10 ∧ v = .pinned) ∨
        ∃ k p, k * 65535 < 10 ∧ p = 0 + min ((k + 1) * 65535) 10 ∧ p ≤ b ∧
          (∃ s' c', Call.mark s' c' v ∈ [Call.mark 5 10 .read] ∧ s' ≤ p - 1 ∧ p - 1 < s' + c') ∧
          (∃ s' c', Call.mark s' c' v ∈ [Call.mark 5 10 .read] ∧ s' ≤ p ∧ p < s' + c')) := by
  obtain ⟨g0, hc, _⟩ := torn
  exact ⟨_, ⟨g0, hc, rfl⟩, C68_history_partial [.mark 5 10 .read] 0 10 .pinned f515 _ (callsInRange (by decide)) (by decide)
    f515_calls ⟨g0, hc, rfl⟩⟩

/-- The block list with blocks 0-1 pinned and 10-14 read. -/
def f1015 : File := okOr fresh (calls fresh [.mark 0 2 .pinned, .mark 10 5 .read])

theorem f1015_calls : calls fresh [.mark 0 2 .pinned, .mark 10 5 .read] = .ok f1015 := ok_okOr (by decide +kernel)

/-- Dying right before 301 (`++entries`) while marking 4-8 as read: blocks 10-14 are gone, and
`fsck` accepts the file. -/
theorem lost : ∃ g0, (markT f1015 4 5 .read).crash g0 ∧
    (stateAt (reopen g0) 10 = .ok .absent ∧ stateAt (reopen g0) 4 = .ok .read ∧ isOk (fsck (reopen g0)) = true ∧
      stateAt (okOr fresh (fsck (reopen g0))) 10 = .ok .absent) := by
  unfold markT
  refine crash_after fresh (by decide +kernel) ?_
  unfold markLoopT
  rw [if_neg (by decide), if_pos (by decide)]
  unfold markInternalT
  refine crash_after (0, 0) (by decide +kernel) (crash_after (fresh, 0, 0) (by decide +kernel)
    (crash_after false (by decide +kernel) (crash_after false (by decide +kernel) ?_)))
  rw [if_neg (by decide +kernel)]
  refine crash_after fresh (by decide +kernel) ?_
  unfold finishMarkT
  refine crash_after (fresh, 0) (by decide +kernel) ?_
  rw [if_neg (by decide)]
  refine crash_in ?_
  unfold insertBeforeT
  refine crash_after fresh (by decide +kernel) (crash_after fresh (by decide +kernel) (crash_in ?_))
  exact crash_here fresh (by decide +kernel) (by decide +kernel)

theorem f1015_good : GoodHist Spec.empty (marksOf [.mark 0 2 .pinned, .mark 10 5 .read]) := by
  refine ⟨by decide, .inr (fun _ _ => .inl rfl), by decide, .inr (fun k hk => .inl ?_), trivial⟩
  have : k = 0 := by omega
  subst this
  decide

/-- C69 in full is false: blocks outside the range may be lost, unnoticed by `fsck`. -/
theorem C69_counterexample : ¬ C69_full := by
  intro h
  obtain ⟨g0, hc, _, _, hf, hs⟩ := lost
  have := h [.mark 0 2 .pinned, .mark 10 5 .read] 4 5 .read f1015 _ _ f1015_good (by decide) f1015_calls ⟨g0, hc, rfl⟩
    (ok_okOr (d := fresh) hf) 10 (by omega)
  rw [hs] at this
  have h2 : stateAt f1015 10 = .ok .read := by decide +kernel
  rw [h2] at this
  cases this

/-- At that crash point the blocks before the range are as they were. -/
example : ∃ g, LeftBy f1015 4 5 .read g ∧ stateAt g 1 = .ok .pinned ∧ stateAt g 3 = .ok .absent := by
  obtain ⟨g0, hc, _⟩ := lost
  have h := C69_before_partial [.mark 0 2 .pinned, .mark 10 5 .read] 4 5 .read f1015 _ f1015_good (by decide) f1015_calls
    ⟨g0, hc, rfl⟩
  refine ⟨_, ⟨g0, hc, rfl⟩, ?_, ?_⟩
  · rw [h 1 (by decide)]; decide +kernel
  · rw [h 3 (by decide)]; decide +kernel

/-! ### C70: a process which dies while creating the file -/

/-- The contents of the file at every point of `Blocklist::open` (blocklist.cpp 104-150) on a file
with contents `b`: nothing is written unless the file is empty; then it is extended by zeros (126)
and the superblock is written (132). -/
def openPoints (b : Bytes) : List Bytes :=
  if b.length = 0 then [b, List.replicate 4096 0, initBytes] else [b]

/-- C70 in full: whatever the point at which a process dies while opening a block list which can be
opened, the next one can open it. -/
def C70_full : Prop := ∀ b f, openBytes b = .ok f → ∀ b' ∈ openPoints b, ∃ f', openBytes b' = .ok f'

/-- C70 is false: a process dying between the two steps of the creation leaves a file which can
never be opened again (145, "invalid magic"). -/
theorem C70_counterexample : ¬ C70_full := by
  intro h
  obtain ⟨f', hf'⟩ := h [] fresh open_empty (List.replicate 4096 0)
    (by unfold openPoints; rw [if_pos List.length_nil]; exact .tail _ (.head _))
  have : openBytes (List.replicate 4096 0) = .error (.thrown 145) := by
    unfold openBytes
    rw [if_neg (by rw [List.length_replicate]; decide), if_neg (by rw [List.length_replicate]; decide), if_pos]
    have : fieldAt (List.replicate 4096 0) 0 4 = 0 := by
      unfold fieldAt
      rw [List.drop_replicate, List.take_replicate]
      rfl
    rw [this]
    decide
  rw [this] at hf'
  cases hf'

/-- What holds: opening never changes a file which is not empty, and the next process can open the
file with the same contents unless the creation was interrupted right between its two steps. -/
theorem C70_open_partial (b : Bytes) (f : File) (h : openBytes b = .ok f) :
    (b ≠ [] → openPoints b = [b]) ∧
    ∀ b' ∈ openPoints b, b' ≠ List.replicate 4096 0 → openBytes b' = .ok f := by
  unfold openPoints
  by_cases hb : b = []
  · subst hb
    refine ⟨fun h => absurd rfl h, fun b' hb' hne => ?_⟩
    simp only [List.length_nil, if_true, List.mem_cons, List.not_mem_nil, or_false] at hb'
    rcases hb' with rfl | rfl | rfl
    · exact h
    · exact absurd rfl hne
    · rw [← h]
      have hl : initBytes.length = 4096 := by rw [initBytes, List.length_append, leEnc_length, List.length_replicate]
      have hm : fieldAt initBytes 0 4 = magic := fieldAt_enc (by decide)
      unfold openBytes
      rw [hl, if_neg (by decide), if_neg (by decide), if_neg (by rw [hm]; simp), if_neg (by simp), if_pos (by simp)]
  · have hl : b.length ≠ 0 := fun h => hb (List.length_eq_zero_iff.1 h)
    rw [if_neg hl]
    refine ⟨fun _ => rfl, fun b' hb' _ => ?_⟩
    simp only [List.mem_cons, List.not_mem_nil, or_false] at hb'
    rw [hb']; exact h

example : ∃ f, openBytes (encFile f515) = .ok f ∧ stateAt f 7 = .ok .read ∧ openPoints (encFile f515) = [encFile f515] := by
  obtain ⟨f, h, ho, _⟩ := C11_reopen [.mark 5 10 .read] (callsInRange (by decide)) f515 f515_calls (by decide +kernel)
  refine ⟨f, h, ?_, (C70_open_partial _ _ h).1 ?_⟩
  · rw [← ho.state 7]; decide +kernel
  · intro he
    have := encFile_length f515
    rw [he] at this
    simp only [List.length_nil, File.fileSize, superblockSize] at this
    omega

/-- `C68_same_mark` at the mark of the counterexample. -/
example : (markT f515 0 10 .pinned).res = mark f515 0 10 .pinned := C68_same_mark _ _ _ _

end Dragonstash.Blocklist
