import Verif.Blocklist.Full
import Verif.Props.Crash
/-
  C76: a mark which fails because the file cannot grow.
-/
namespace Dragonstash.Blocklist
open Spec

/-- The mark throws, and leaves the list `g` (`room n`: the file can be made `n` bytes large). -/
def Throws (room : Nat → Bool) (f : File) (s c : Nat) (st : State) (g : File) : Prop := markX room f s c st = .error (.full g)

/-- A mark either does what all other theorems say, or it throws, leaving the list unmapped, at a point at
which all slots are in use and the file cannot be made larger. -/
theorem C76_same (room : Nat → Bool) (f : File) (s c : Nat) (st : State) :
    markX room f s c st = up (mark f s c st) ∨
      ∃ g f', Throws room f s c st g ∧ g = ensureUnmapped f' ∧ capacity f' = f'.n ∧ room (f'.fileSize + 4096) = false := by
  rcases markLoop_agree (room := room) st (c / limit + 1) (ensureMapped f) s c with h | ⟨g, ⟨f', hf, hg⟩, h⟩
  · exact .inl h
  · simp only [stuck, Bool.and_eq_true, decide_eq_true_eq, Bool.not_eq_true'] at hf
    exact .inr ⟨g, f', h, hg, hf.1, hf.2⟩

/-- With an unlimited disk it never throws. -/
theorem C76_room (f : File) (s c : Nat) (st : State) : markX (fun _ => true) f s c st = up (mark f s c st) := by
  rcases C76_same (fun _ => true) f s c st with h | ⟨_, _, _, _, _, h⟩
  · exact h
  · cases h

/-- C76 in full: a mark which throws changes nothing. -/
def C76_full : Prop :=
  ∀ (cs : List Call) (s c : Nat) (st : State) (room : Nat → Bool) (f g : File), GoodHist Spec.empty (marksOf cs) →
    s + c < W64 → (c ≤ 65535 ∨ Clean (run Spec.empty (marksOf cs)) s c) → calls fresh cs = .ok f → Throws room f s c st g →
    ∀ b, stateAt g b = stateAt f b

theorem piece_le {s k c : Nat} (h : k * 65535 < c) : s + k * 65535 ≤ s + min ((k + 1) * 65535) c ∧ s + min ((k + 1) * 65535) c ≤ s + c := by
  rw [Nat.succ_mul]; generalize k * 65535 = x at *; omega

theorem no_second {k c : Nat} (h : c ≤ 65535) : ¬ (k + 1) * 65535 < c := by
  rw [Nat.succ_mul]; generalize k * 65535 = x at *; omega

/-- C76, what holds: the range is marked in pieces of 65535 blocks; the pieces before the one which fails
are marked; the failing piece is ABSENT; and either everything else is as before, or a run of blocks of
one state which contains the whole piece is ABSENT from the piece on, and `fsck` throws. -/
theorem C76_reads_partial (cs : List Call) (s c : Nat) (st : State) (room : Nat → Bool) (f g : File)
    (hg : GoodHist Spec.empty (marksOf cs)) (hsc : s + c < W64) (hcl : c ≤ 65535 ∨ Clean (run Spec.empty (marksOf cs)) s c)
    (hf : calls fresh cs = .ok f) (ht : Throws room f s c st g) :
    ∃ k p e q, k * 65535 < c ∧ p = s + k * 65535 ∧ e = s + min ((k + 1) * 65535) c ∧ e ≤ q ∧
      (∀ b, s ≤ b → b < p → stateAt g b = .ok st) ∧
      (∀ b, p ≤ b → b < q → stateAt g b = .ok .absent) ∧
      (∀ b, b < s ∨ q ≤ b → stateAt g b = stateAt f b) ∧
      (q = e ∨ ((∀ b, p ≤ b → b < q → stateAt f b = stateAt f p) ∧ stateAt f p ≠ .ok .absent ∧ ∃ l, fsck g = .error (.thrown l))) := by
  obtain ⟨f2, L, e, i, hw, hs⟩ := good_calls hg
  obtain rfl := ok_unique hf e
  rcases mark_full (room := room) (st := st) i hw hsc (by rw [hs]; exact hcl) with h | ⟨g', ⟨k, q, h1, h2, h3, h4⟩, h⟩
  · unfold Throws at ht
    rw [ht] at h
    cases hm : mark f s c st with
    | ok _ => rw [hm] at h; cases h
    | error _ => rw [hm] at h; cases h
  · unfold Throws at ht
    rw [ht] at h
    injection h with h
    injection h with h
    subst h
    refine ⟨k, _, _, q, h1, rfl, rfl, h2, ?_, ?_, ?_, ?_⟩
    · intro b hb1 hb2
      rw [h3]; unfold setRange
      rw [if_neg (by omega), if_pos (by omega)]
    · intro b hb1 hb2
      rw [h3]; unfold setRange
      rw [if_pos (by omega)]
    · intro b hb
      have hpe := (piece_le (s := s) h1).1
      rw [h3, i.state]; unfold setRange
      rw [if_neg (by omega), if_neg (by omega)]
    · rcases h4 with ⟨h4, _⟩ | ⟨h4, h5, _, h6⟩
      · exact .inl h4
      · refine .inr ⟨fun b hb1 hb2 => by rw [i.state, i.state, h4 b hb1 hb2], ?_, h6⟩
        rw [i.state]
        intro h
        injection h with h
        exact h5 h

/-- C76: if `fsck` accepts what is left, no block outside the range has changed, and the list goes on
working as specified: every further good history of calls has the effect it should have. -/
theorem C76_noticed (cs : List Call) (s c : Nat) (st : State) (room : Nat → Bool) (f g g' : File)
    (hg : GoodHist Spec.empty (marksOf cs)) (hsc : s + c < W64) (hcl : c ≤ 65535 ∨ Clean (run Spec.empty (marksOf cs)) s c)
    (hf : calls fresh cs = .ok f) (ht : Throws room f s c st g) (hk : fsck g = .ok g') :
    (∀ b, ¬ (s ≤ b ∧ b < s + c) → stateAt g b = stateAt f b) ∧
    ∃ m : Nat → State, (∀ b, stateAt g b = .ok (m b)) ∧
      ∀ cs', GoodHist m (marksOf cs') → ∃ f', calls g cs' = .ok f' ∧ ∀ b, stateAt f' b = .ok (run m (marksOf cs') b) := by
  obtain ⟨f2, L, e, i, hw, hs⟩ := good_calls hg
  obtain rfl := ok_unique hf e
  rcases mark_full (room := room) (st := st) i hw hsc (by rw [hs]; exact hcl) with h | ⟨g', ⟨k, q, h1, h2, h3, h4⟩, h⟩
  · unfold Throws at ht
    rw [ht] at h
    cases hm : mark f s c st with
    | ok _ => rw [hm] at h; cases h
    | error _ => rw [hm] at h; cases h
  · unfold Throws at ht
    rw [ht] at h
    injection h with h
    injection h with h
    subst h
    rcases h4 with ⟨h4, L', i', hw'⟩ | ⟨_, _, _, l, h6⟩
    · refine ⟨fun b hb => ?_, sem L', fun b => i'.state b, fun cs' hg' => ?_⟩
      · rw [h3, i.state]; unfold setRange
        have hpe := (piece_le (s := s) h1)
        rw [if_neg (by omega), if_neg (by omega)]
      · obtain ⟨f', e', i2⟩ := Inv.calls cs' i' (good_inRange hg')
        obtain ⟨_, b'⟩ := good_entries cs' hw' hg'
        exact ⟨f', e', fun b => by rw [i2.state, b']⟩
    · rw [h6] at hk; cases hk

/-- C76: marking blocks which are all ABSENT (at most 65535 of them) either succeeds or changes nothing. -/
theorem C76_absent (cs : List Call) (s c : Nat) (st : State) (room : Nat → Bool) (f g : File)
    (hg : GoodHist Spec.empty (marksOf cs)) (hsc : s + c < W64) (hf : calls fresh cs = .ok f) (ht : Throws room f s c st g)
    (hc : c ≤ 65535) (ha : ∀ b, s ≤ b → b < s + c → stateAt f b = .ok .absent) : ∀ b, stateAt g b = stateAt f b := by
  obtain ⟨k, p, e, q, h1, h2, h3, h4, h5, h6, h7, h8⟩ := C76_reads_partial cs s c st room f g hg hsc (.inl hc) hf ht
  have hk : k = 0 := by
    cases k with
    | zero => rfl
    | succ k => exact absurd h1 (no_second hc)
  subst hk
  rw [Nat.zero_mul] at h1 h2
  have he : e = s + c := by rw [h3]; omega
  have hqe : q = e := by
    rcases h8 with h | ⟨_, h, _⟩
    · exact h
    · exact absurd (ha p (by omega) (by omega)) h
  intro b
  by_cases hb : s ≤ b ∧ b < s + c
  · rw [h6 b (by omega) (by omega), ha b hb.1 hb.2]
  · exact h7 b (by omega)

/-! ### A full list -/

/-- 224 entries, as many as a new file has slots for: a run of ten blocks and 223 single ones. -/
def fullHist : List Call :=
  (List.range 10).map (fun i => Call.mark (i + 1000) 1 .pinned) ++ (List.range 223).map (fun i => Call.mark (2 * i + 2000) 1 .read)

/-- Marking 1003-1005 in this list throws if the file cannot grow, and blocks 1006-1009 are lost with them;
marking 1008-1011 throws too, and nothing outside the range is lost. -/
theorem full_runs : ∃ f g h h' j, calls fresh fullHist = .ok f ∧ Throws (fun _ => false) f 1003 3 .written g ∧ stateAt f 1008 = .ok .pinned ∧ stateAt g 1008 = .ok .absent ∧
    Throws (fun _ => false) f 1008 4 .written h ∧ fsck h = .ok h' ∧ stateAt h 1008 = .ok .absent ∧
    Throws (fun _ => false) f 1500 2 .written j ∧ stateAt f 1500 = .ok .absent ∧ stateAt f 1501 = .ok .absent := by
  have key : (match calls fresh fullHist with
    | .ok f => (match markX (fun _ => false) f 1003 3 .written, markX (fun _ => false) f 1008 4 .written, markX (fun _ => false) f 1500 2 .written with
      | .error (.full g), .error (.full h), .error (.full _) => decide (stateAt f 1500 = .ok .absent ∧ stateAt f 1501 = .ok .absent ∧ stateAt f 1008 = .ok .pinned ∧ stateAt g 1008 = .ok .absent ∧ stateAt h 1008 = .ok .absent) && isOk (fsck h)
      | _, _, _ => false)
    | .error _ => false) = true := by decide +kernel
  split at key
  · rename_i f hf
    split at key
    · rename_i g h j hg hh hj
      simp only [Bool.and_eq_true, decide_eq_true_eq] at key
      obtain ⟨⟨k1, k2, k3, k4, k5⟩, k6⟩ := key
      exact ⟨f, g, h, _, j, hf, hg, k3, k4, hh, ok_okOr (d := fresh) k6, k5, hj, k1, k2⟩
    · cases key
  · cases key

theorem fullHist_good : GoodHist Spec.empty (marksOf fullHist) := by
  refine good_of_single _ _ (fun s c st hm => ?_)
  simp only [fullHist, List.mem_append, List.mem_map, List.mem_range, Call.mark.injEq] at hm
  rcases hm with ⟨i, hi, rfl, rfl, rfl⟩ | ⟨i, hi, rfl, rfl, rfl⟩ <;> exact ⟨rfl, by omega⟩

/-- C76 in full is false: blocks behind the range are lost. -/
theorem C76_counterexample : ¬ C76_full := by
  intro hfull
  obtain ⟨f, g, _, _, _, h1, h2, h3, h4, _⟩ := full_runs
  have := hfull fullHist 1003 3 .written _ f g fullHist_good (by decide) (.inl (by decide)) h1 h2 1008
  rw [h3, h4] at this
  cases this

/-- The hypotheses of `C76_reads_partial` and `C76_noticed` are met by that list. -/
example : ∃ f g, Throws (fun _ => false) f 1003 3 .written g ∧ (∀ b, b < 1003 → stateAt g b = stateAt f b) ∧ ∃ l, fsck g = .error (.thrown l) := by
  obtain ⟨f, g, _, _, _, h1, h2, h3, h4, _⟩ := full_runs
  obtain ⟨k, p, e, q, a1, a2, a3, a4, a5, a6, a7, a8⟩ :=
    C76_reads_partial fullHist 1003 3 .written _ f g fullHist_good (by decide) (.inl (by decide)) h1 h2
  refine ⟨f, g, h2, fun b hb => a7 b (.inl hb), ?_⟩
  rcases a8 with a8 | ⟨_, _, a8⟩
  · have := a7 1008 (.inr (by omega))
    rw [h3, h4] at this
    cases this
  · exact a8

/-- The hypotheses of `C76_noticed`. -/
example : ∃ f g, Throws (fun _ => false) f 1008 4 .written g ∧ (∀ b, ¬ (1008 ≤ b ∧ b < 1008 + 4) → stateAt g b = stateAt f b) := by
  obtain ⟨f, _, g, g', _, h1, _, _, _, h2, h3, h4, _⟩ := full_runs
  exact ⟨f, g, h2, (C76_noticed fullHist 1008 4 .written _ f g g' fullHist_good (by decide) (.inl (by decide)) h1 h2 h3).1⟩

/-- The hypotheses of `C76_absent`; both cases of `C76_same` occur (`C76_room`: it has no hypotheses). -/
example : ∃ f g, Throws (fun _ => false) f 1500 2 .written g ∧ ∀ b, stateAt g b = stateAt f b := by
  obtain ⟨f, _, _, _, g, h1, _, _, _, _, _, _, h2, h3, h4⟩ := full_runs
  refine ⟨f, g, h2, C76_absent fullHist 1500 2 .written _ f g fullHist_good (by decide) h1 h2 (by decide) (fun b hb1 hb2 => ?_)⟩
  rcases (by omega : b = 1500 ∨ b = 1501) with rfl | rfl
  · exact h3
  · exact h4

end Dragonstash.Blocklist
