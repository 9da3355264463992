import Verif.Blocklist.Sane
import Verif.Props.Power
/-
  C112: a block list over many lives, with processes dying and power failing again and again.
-/
namespace Dragonstash.Blocklist

/-! ### Specification -/

/-- C112 in full: after any number of deaths and power failures the state of every block can be read,
it is a state given to this block by some mark, `truncate_access` offers only blocks which were given
a state, and marking works. -/
def C112_full : Prop :=
  ∀ (cs : List Call) (V : File → Prop) (f : File), Life True cs V f →
    (∀ b, ∃ v, stateAt f b = .ok v ∧ (v = .absent ∨ MarkedAs cs b v)) ∧
    (∀ start size n : Nat, start + size < 9223372036854775808 → truncateAccess f (start : Int) size = .ok n →
      ∀ x, start ≤ x → x < start + n → ∃ v, v ≠ .absent ∧ MarkedAs cs (x / 4096) v) ∧
    ∀ s c st, s + c < W64 → ∃ g, mark f s c st = .ok g

/-! ### What holds -/

/-- C112, first part, with the exception of C68: whatever is read after any number of deaths and power
failures was given to the block by some mark; or a mark ended behind a block with this state, and the
block is behind that point. -/
theorem C112_claims_partial (cs : List Call) (V : File → Prop) (f : File) (h : Life True cs V f) (b : Nat) (v : State)
    (hv : stateAt f b = .ok v) :
    v = .absent ∨ MarkedAs cs b v ∨
      ∃ s c st k p, Call.mark s c st ∈ cs ∧ k * 65535 < c ∧ p = s + min ((k + 1) * 65535) c ∧ p ≤ b ∧ MarkedAs cs (p - 1) v := by
  have ha := h.al.1.same (ensureMapped_slots f)
  have key : ∀ {b t}, Given cs b t → MarkedAs cs b (dec t) := by
    rintro b t ⟨s, c, st, hm, h1, h2, _, rfl⟩
    exact ⟨s, c, by rw [dec_code]; exact hm, h1, h2⟩
  rcases scan_ov ha b _ _ _ hv with h | ⟨t, _, rfl, h | ⟨p, ⟨s, c, st, hm, k, hk, hp⟩, _, h2, h3⟩⟩
  · exact .inl h
  · exact .inr (.inl (key h))
  · exact .inr (.inr ⟨s, c, st, k, p, hm, hk, hp, h2, key h3⟩)

/-- C112, second part: without power failures the state of every block can be read. -/
theorem C112_readable_partial (cs : List Call) (V : File → Prop) (f : File) (h : Life False cs V f) (b : Nat) :
    ∃ v, stateAt f b = .ok v := by
  have ht := h.tame
  have hs := ht.mapped
  unfold stateAt
  rcases scan_of (X := fun _ _ => True) hs.mapped b f.n 0 (by have := hs.le; rw [ensureMapped_n] at this; omega)
    (fun m e _ he => ⟨hs.states m e he, fun _ _ => trivial⟩) with h | ⟨t, _, h, _⟩
  · exact ⟨_, h.1⟩
  · exact ⟨_, h⟩

/-- The call returns, or it ends the process by a failing assertion. -/
def Returns {α : Type} (m : M α) : Prop := (∃ a, m = .ok a) ∨ ∃ line, m = .error (.assertFail line)

theorem shrink_returns (f : File) : Returns (shrink f) := by
  unfold shrink
  simp only
  by_cases h1 : f.msize / growSize ≤ 1
  · rw [if_pos h1]; exact .inl ⟨_, rfl⟩
  rw [if_neg h1]
  by_cases h2 : (superblockSize + f.n * entrySize + growSize - 1) / growSize = f.msize / growSize
  · rw [if_pos h2]; exact .inl ⟨_, rfl⟩
  rw [if_neg h2]
  generalize (superblockSize + f.n * entrySize + growSize - 1) / growSize * growSize = z
  by_cases c1 : z < f.msize
  · rw [decide_eq_true c1]
    by_cases c2 : (z - superblockSize) / entrySize ≥ f.n
    · rw [decide_eq_true c2]; exact .inl ⟨_, rfl⟩
    · rw [decide_eq_false c2]; exact .inr ⟨704, rfl⟩
  · rw [decide_eq_false c1]; exact .inr ⟨702, rfl⟩

theorem fsckLoop_mapd {f : File} (h : Mapd f) (k : Nat) : ∀ i pe ps acc, i + k ≤ f.n →
    (∃ a, fsckLoop f k i pe ps acc = .ok a) ∨ ∃ l, fsckLoop f k i pe ps acc = .error (.thrown l) := by
  induction k with
  | zero => intro i pe ps acc _; exact .inl ⟨_, rfl⟩
  | succ k ih =>
    intro i pe ps acc hi
    have hl : i < f.slots.length := by have := h.le; omega
    unfold fsckLoop
    rw [(h.deref hl 642).1]
    simp only [bind_ok]
    by_cases h1 : f.slots[i].start < pe
    · rw [if_pos h1]; exact .inr ⟨_, rfl⟩
    rw [if_neg h1]
    by_cases h2 : f.slots[i].start < ps
    · rw [if_pos h2]; exact .inr ⟨_, rfl⟩
    rw [if_neg h2]
    by_cases h3 : f.slots[i].count = 0
    · rw [if_pos h3]; exact .inr ⟨_, rfl⟩
    rw [if_neg h3, if_pos (h.deref hl 642).2]
    exact ih _ _ _ _ (by omega)

/-- C112, third part: without power failures no call uses memory outside of the mapping or runs
forever: `mark` and `shrink` return or an assertion fails, `fsck` may also throw. -/
theorem C112_memory_partial (cs : List Call) (V : File → Prop) (f : File) (h : Life False cs V f) :
    (∀ s c st, Returns (mark f s c st)) ∧ Returns (shrink f) ∧
    (Returns (fsck f) ∨ ∃ line, fsck f = .error (.thrown line)) := by
  have ht := h.tame
  refine ⟨fun s c st => ?_, shrink_returns f, ?_⟩
  · have := (markT_mild ht s c st).mild
    rw [markT_res] at this
    exact this
  · unfold fsck
    simp only
    rcases fsckLoop_mapd ht.mapped (ensureMapped f).n 0 0 0 (fun _ => 0) (by omega) with ⟨a, ha⟩ | ⟨l, hl⟩
    · rw [ha]
      simp only [bind_ok]
      by_cases hc : a 0 = (ensureMapped f).cnt 0 ∧ a 1 = (ensureMapped f).cnt 1 ∧ a 2 = (ensureMapped f).cnt 2 ∧ a 3 = (ensureMapped f).cnt 3
      · rw [if_pos hc]; exact .inl (shrink_returns _)
      · rw [if_neg hc]; exact .inr ⟨671, rfl⟩
    · rw [hl]; exact .inr ⟨l, rfl⟩

theorem truncLoop_ov {Q : Nat → Nat → Prop} {f : File} (h : Al (Ov Q) f) {req lo : Nat} (hreq : req < 9223372036854775808)
    (fuel : Nat) : ∀ it avail r, avail < W64 → (∀ b, lo ≤ b → b < avail → ∃ t, t < 4 ∧ Q b t) →
    truncLoop f req fuel it avail = .ok r → r < W64 ∧ avail ≤ r ∧ ∀ b, lo ≤ b → b < r → ∃ t, t < 4 ∧ Q b t := by
  induction fuel with
  | zero => intro it avail r _ _ hr; cases hr
  | succ k ih =>
    intro it avail r ha hc hr
    unfold truncLoop at hr
    by_cases h1 : it ≠ f.n ∧ avail < req
    · rw [if_pos h1] at hr
      obtain ⟨e, hd, hr⟩ := bind_inv hr
      by_cases h2 : e.start ≠ avail
      · rw [if_pos h2] at hr; injection hr with hr; subst hr; exact ⟨ha, Nat.le_refl _, hc⟩
      · rw [if_neg h2] at hr
        simp only [ne_eq, Decidable.not_not] at h2
        have ov := h _ _ (deref_inv hd)
        have hfin : e.fin = e.start + e.count := by
          have := ov.count
          unfold Entry.fin u64; omega
        obtain ⟨r1, r2, r3⟩ := ih _ _ _ (by have := ov.count; omega) (fun b hb1 hb2 => by
          by_cases hb : b < avail
          · exact hc b hb1 hb
          · exact ⟨_, ov.state, ov.covers b (by omega) hb2⟩) hr
        exact ⟨r1, by omega, r3⟩
    · rw [if_neg h1] at hr; injection hr with hr; subst hr; exact ⟨ha, Nat.le_refl _, hc⟩

/-- C112, fourth part, with the exceptions of C09 and C68: after any number of deaths and power failures
`truncate_access` offers only blocks which were given a state other than ABSENT by some mark (now or
earlier), or which lie behind the end of a mark, or of a piece of 65535 blocks of it, the last block of
which was given such a state by some mark.  Up to
`start % 4096` bytes are overstated. -/
theorem C112_access_partial (cs : List Call) (V : File → Prop) (f : File) (h : Life True cs V f) (start size n : Nat)
    (hr : start + size < 9223372036854775808) (he : truncateAccess f (start : Int) size = .ok n) :
    n ≤ size ∧ ∀ x, start ≤ x → x + start % 4096 < start + n → ∃ v, v ≠ .absent ∧ (MarkedAs cs (x / 4096) v ∨
      ∃ s c st k p, Call.mark s c st ∈ cs ∧ k * 65535 < c ∧ p = s + min ((k + 1) * 65535) c ∧ p ≤ x / 4096 ∧ MarkedAs cs (p - 1) v) := by
  have ha := h.al.1.same (ensureMapped_slots f)
  unfold truncateAccess at he
  rw [if_neg (by omega)] at he
  simp only [Int.toNat_natCast, pageSize] at he
  have e1 : u64 (u64 (start + size) + 4096 - 1) / 4096 = (start + size + 4095) / 4096 := by unfold u64; omega
  rw [e1] at he
  generalize hfm : ensureMapped f = fm at he ha
  obtain ⟨it, _, he⟩ := bind_inv he
  by_cases h1 : it = fm.n
  · rw [if_pos h1] at he; injection he with he; subst he
    exact ⟨Nat.zero_le _, fun x h1 h2 => by omega⟩
  rw [if_neg h1] at he
  obtain ⟨e, hd, he⟩ := bind_inv he
  cases hc : e.contains (start / 4096) with
  | false =>
    rw [hc] at he
    injection he with he; subst he
    exact ⟨Nat.zero_le _, fun x h1 h2 => by omega⟩
  | true =>
    rw [hc] at he
    simp only [Bool.not_true, Bool.false_eq_true, if_false] at he
    obtain ⟨avail, hl, he⟩ := bind_inv he
    injection he with he
    have ov := ha _ _ (deref_inv hd)
    obtain ⟨c1, c2⟩ := contains_inv hc
    obtain ⟨f1, f2⟩ := fin_of ov.start ov.count c1 c2
    obtain ⟨a1, a0, a2⟩ := truncLoop_ov ha (by omega) _ _ _ _ (by omega)
      (fun b hb1 hb2 => ⟨_, ov.state, ov.covers b (by omega) hb2⟩) hl
    rw [← he]
    refine ⟨Nat.min_le_left _ _, fun x hx1 hx2 => ?_⟩
    have hx : x / 4096 < avail := by
      apply Classical.byContradiction
      intro hge
      have hnsz : min size (u64 (sub64 (min ((start + size + 4095) / 4096 + 1) avail) (start / 4096) * 4096)) ≤ size := Nat.min_le_left _ _
      have : u64 (sub64 (min ((start + size + 4095) / 4096 + 1) avail) (start / 4096) * 4096) ≤ (avail - start / 4096) * 4096 := by
        rw [sub64_of (by omega) (by omega)]
        unfold u64
        refine Nat.le_trans (Nat.mod_le _ _) (Nat.mul_le_mul_right _ ?_)
        omega
      have hm := Nat.min_le_right size (u64 (sub64 (min ((start + size + 4095) / 4096 + 1) avail) (start / 4096) * 4096))
      omega
    obtain ⟨t, ht, hq⟩ := a2 (x / 4096) (by have := Nat.div_le_div_right (c := 4096) hx1; omega) hx
    have key : ∀ {b}, Given cs b t → MarkedAs cs b (dec t) := by
      rintro b ⟨s, c, st, hm, h1, h2, _, rfl⟩
      exact ⟨s, c, by rw [dec_code]; exact hm, h1, h2⟩
    refine ⟨dec t, dec_ne_absent ht, ?_⟩
    rcases hq with hq | ⟨p, ⟨s, c, st, hm, k, hk, hp⟩, _, h2, h3⟩
    · exact .inl (key hq)
    · exact .inr ⟨s, c, st, k, p, hm, hk, hp, h2, key h3⟩

/-! ### What does not hold -/

theorem Life.calls {P : Prop} (cs : List Call) : ∀ {cs0 : List Call} {V : File → Prop} {f g : File}, Life P cs0 V f → V f →
    CallsInRange cs → (∀ c ∈ cs, c ≠ .reopen) → Blocklist.calls f cs = .ok g →
    ∃ V', Life P (cs0 ++ cs) V' g ∧ V' g ∧ ∀ v, V v → V' v := by
  induction cs with
  | nil =>
    intro cs0 V f g h hf _ _ hg
    injection hg with hg
    subst hg
    exact ⟨V, by rw [List.append_nil]; exact h, hf, fun _ h => h⟩
  | cons c cs ih =>
    intro cs0 V f g h hf hr hn hg
    rw [Blocklist.calls] at hg
    cases hs : step f c with
    | error e => rw [hs] at hg; cases hg
    | ok f1 =>
      rw [hs, bind_ok] at hg
      have hc := hn c (by simp)
      have h1 := Life.call c h (fun s n st hm => hr s n st (by
        rw [List.mem_singleton.1 hm]; exact List.mem_cons_self)) hs
      obtain ⟨V', h2, h3, h4⟩ := ih h1 (by rw [if_neg hc]; exact .inr (.inr rfl))
        (fun s n st hm => hr s n st (List.mem_cons_of_mem _ hm)) (fun c hm => hn c (List.mem_cons_of_mem _ hm)) hg
      refine ⟨V', by rw [List.append_assoc] at h2; exact h2, h3, fun v hv => h4 v ?_⟩
      rw [if_neg hc]
      exact .inl hv

/-- The block list with blocks 5-14 read. -/
theorem life515 {P : Prop} : ∃ V, Life P [.mark 5 10 .read] V f515 ∧ V f515 := by
  obtain ⟨V, h1, h2, _⟩ := Life.calls (P := P) [.mark 5 10 .read] Life.start rfl (callsInRange (by decide)) (by simp) f515_calls
  exact ⟨V, h1, h2⟩

/-- The first part is false without the exception: a process dies as in C68. -/
theorem C112_claims_counterexample : ¬ ∀ (cs : List Call) (V : File → Prop) (f : File), Life False cs V f →
    ∀ b v, stateAt f b = .ok v → v = .absent ∨ MarkedAs cs b v := by
  intro h
  obtain ⟨V, hl, _⟩ := life515 (P := False)
  obtain ⟨g0, hc, hs, _⟩ := torn
  rcases h _ _ _ (Life.die 0 10 .pinned hl (by decide) hc) 15 .read hs with h' | ⟨s, c, hm, h1, h2⟩
  · cases h'
  · simp only [List.cons_append, List.nil_append, List.mem_cons, Call.mark.injEq, List.not_mem_nil, or_false] at hm
    omega

/-- The second part is false with power failures: a process dies after 225 marks, the number of
entries reaches the disk, the new size of the file does not. -/
theorem C112_readable_counterexample : ¬ ∀ (cs : List Call) (V : File → Prop) (f : File), Life True cs V f →
    ∀ b, ∃ v, stateAt f b = .ok v := by
  intro h
  obtain ⟨f, he, i⟩ := Inv.calls (everyOther 225) Inv.fresh (everyOther_inRange (by decide))
  have hn : f.n = 225 := by rw [i.n]; decide +kernel
  obtain ⟨V, hl, h1, h2⟩ := Life.calls (P := True) (everyOther 225) Life.start rfl (everyOther_inRange (by decide))
    (fun c hc => by
      unfold everyOther at hc
      obtain ⟨k, _, rfl⟩ := List.mem_map.1 hc
      exact fun h => by cases h) he
  have hp : Life True _ _ (reopen (mixture f fresh)) := Life.power trivial hl ⟨f, h1, rfl⟩ (fun t => ⟨f, h1, rfl⟩)
    ⟨fresh, h2 _ rfl, rfl⟩ (fun i e he => ⟨fresh, h2 _ rfl, by
      have : fresh.slots[i]? = some e := he
      rw [List.getD_eq_getElem?_getD, this]; rfl⟩)
  obtain ⟨v, hv⟩ := h _ _ _ hp 7
  have e : reopen (mixture f fresh) = { reopen { fresh with n := 225 } with cnt := f.cnt } := by
    unfold mixture
    rw [hn]
    rfl
  have : isOk (stateScan (reopen { fresh with n := 225 }) 7 0 225) = false := by decide +kernel
  unfold stateAt at hv
  rw [ensureMapped_of (reopen_mapped _), e] at hv
  have hv : stateScan { reopen { fresh with n := 225 } with cnt := f.cnt } 7 0 225 = .ok v := hv
  rw [scan_cnt] at hv
  rw [hv] at this
  cases this

/-- The block list with blocks 5-14 read and 16-17 pinned. -/
def f516 : File := okOr fresh (calls fresh [.mark 5 10 .read, .mark 16 2 .pinned])

theorem f516_calls : calls fresh [.mark 5 10 .read, .mark 16 2 .pinned] = .ok f516 := ok_okOr (by decide +kernel)

/-- Dying between the stores of 486 and 487 while marking 0-9 leaves two entries which overlap:
marking blocks 10-17 then fails in 478, and marking block 18 has no effect. -/
theorem torn516 : ∃ g0, (markT f516 0 10 .pinned).crash g0 ∧
    (mark (reopen g0) 10 8 .written).map (fun _ => ()) = .error (.assertFail 478) ∧
    ((mark (reopen g0) 18 1 .written) >>= fun g => stateAt g 18) = .ok .read ∧
    isOk (step (reopen g0) (.mark 18 1 .written)) = true ∧
    truncateAccess (reopen g0) ((10 * 4096 : Nat) : Int) (20 * 4096) = .ok (10 * 4096) := by
  unfold markT
  refine crash_after fresh (by decide +kernel) ?_
  unfold markLoopT
  rw [if_neg (by decide), if_pos (by decide)]
  unfold markInternalT
  refine crash_after (0, 0) (by decide +kernel) (crash_after (fresh, 0, 0) (by decide +kernel)
    (crash_after false (by decide +kernel) (crash_after false (by decide +kernel) ?_)))
  rw [if_neg (by decide +kernel)]
  refine crash_in ?_
  unfold trimEndT
  rw [if_pos (by decide +kernel)]
  refine crash_after ⟨0, 0, 0⟩ (by decide +kernel) (crash_in ?_)
  exact crash_here fresh (by decide +kernel) (by decide +kernel)

theorem life516 : ∃ g0 V, Life False [.mark 5 10 .read, .mark 16 2 .pinned, .mark 0 10 .pinned] V (reopen g0) ∧
    (mark (reopen g0) 10 8 .written).map (fun _ => ()) = .error (.assertFail 478) ∧
    ((mark (reopen g0) 18 1 .written) >>= fun g => stateAt g 18) = .ok .read ∧
    isOk (step (reopen g0) (.mark 18 1 .written)) = true ∧
    truncateAccess (reopen g0) ((10 * 4096 : Nat) : Int) (20 * 4096) = .ok (10 * 4096) := by
  obtain ⟨V, hl, _, _⟩ := Life.calls (P := False) [.mark 5 10 .read, .mark 16 2 .pinned] Life.start rfl (callsInRange (by decide))
    (by simp) f516_calls
  obtain ⟨g0, hc, hs⟩ := torn516
  exact ⟨g0, _, Life.die 0 10 .pinned hl (by decide) hc, hs⟩

/-- Marking need not work any more after a process died. -/
theorem C112_mark_counterexample : ¬ ∀ (cs : List Call) (V : File → Prop) (f : File), Life False cs V f →
    ∀ s c st, s + c < W64 → ∃ g, mark f s c st = .ok g := by
  intro h
  obtain ⟨g0, V, hl, h1, _⟩ := life516
  obtain ⟨g, hg⟩ := h _ _ _ hl 10 8 .written (by decide)
  rw [hg] at h1
  cases h1

/-- Nor need a mark which returns have an effect. -/
theorem C112_effect_counterexample : ¬ ∀ (cs : List Call) (V : File → Prop) (f g : File), Life False cs V f →
    ∀ s c st, s + c < W64 → mark f s c st = .ok g → ∀ b, s ≤ b → b < s + c → stateAt g b = .ok st := by
  intro h
  obtain ⟨g0, V, hl, _, h2, h3, _⟩ := life516
  have e := ok_okOr (d := fresh) h3
  have e : mark (reopen g0) 18 1 .written = .ok (okOr fresh (step (reopen g0) (.mark 18 1 .written))) := e
  have := h _ _ _ _ hl 18 1 .written (by decide) e 18 (by omega) (by omega)
  rw [e, bind_ok, this] at h2
  cases h2

theorem Life.true {P : Prop} {cs : List Call} {V : File → Prop} {f : File} (h : Life P cs V f) : Life True cs V f := by
  induction h with
  | start => exact .start
  | call c _ h1 h2 ih => exact .call c ih h1 h2
  | die s n st _ h1 h2 ih => exact .die s n st ih h1 h2
  | power _ _ h1 h2 h3 h4 ih => exact .power trivial ih h1 h2 h3 h4

theorem C112_counterexample : ¬ C112_full := by
  intro h
  refine C112_mark_counterexample (fun cs V f hl s c st hr => ?_)
  exact (h cs V f hl.true).2.2 s c st hr

/-! ### Non-vacuity -/

/-- A life with a death, a mark by the next process and then a power failure, which leaves the
superblock as it was at the start and the entries as they are now; everything is lost then. -/
example : ∃ cs V f, Life True cs V f ∧ cs.length = 4 ∧ stateAt f 5 = .ok .absent := by
  obtain ⟨V, hl, h1, h2⟩ := Life.calls (P := True) [.mark 5 10 .read, .mark 16 2 .pinned] Life.start rfl (callsInRange (by decide))
    (by simp) f516_calls
  obtain ⟨g0, hc, _, _, hs, _⟩ := torn516
  have e := ok_okOr (d := fresh) hs
  have l1 := Life.die 0 10 .pinned hl (by decide) hc
  have l2 := Life.call (.mark 18 1 .written) l1 (callsInRange (by decide)) e
  generalize okOr fresh (step (reopen g0) (.mark 18 1 .written)) = g at e l2
  refine ⟨_, _, _, Life.power trivial l2 (g := mixture fresh g) ⟨fresh, ?_, rfl⟩
    (fun t => ⟨fresh, ?_, rfl⟩) ⟨g, ?_, rfl⟩ (fun i x hx => ⟨g, ?_, ?_⟩), by simp, ?_⟩
  · rw [if_neg (by simp)]; exact .inl (.inl (h2 _ rfl))
  · rw [if_neg (by simp)]; exact .inl (.inl (h2 _ rfl))
  · rw [if_neg (by simp)]; exact .inr (.inr rfl)
  · rw [if_neg (by simp)]; exact .inr (.inr rfl)
  · have : g.slots[i]? = some x := hx
    rw [List.getD_eq_getElem?_getD, this]; rfl
  · unfold stateAt
    rw [ensureMapped_of (reopen_mapped _), reopen_n]
    rfl

/-- The theorems on the torn file. -/
example : ∃ f, (∃ cs V, Life False cs V f) ∧ (∀ b, ∃ v, stateAt f b = .ok v) ∧ (∀ s c st, Returns (mark f s c st)) := by
  obtain ⟨g0, V, hl, _⟩ := life516
  exact ⟨_, ⟨_, _, hl⟩, C112_readable_partial _ _ _ hl, (C112_memory_partial _ _ _ hl).1⟩

/-- There blocks 10-19 are offered: 15-19 are behind the torn mark of 0-9, which ended in 5-14. -/
example : ∃ f, (∃ V, Life True [.mark 5 10 .read, .mark 16 2 .pinned, .mark 0 10 .pinned] V f) ∧
    truncateAccess f ((10 * 4096 : Nat) : Int) (20 * 4096) = .ok (10 * 4096) ∧ ∀ x, 10 * 4096 ≤ x → x < 20 * 4096 →
    ∃ v, v ≠ .absent ∧ (MarkedAs [.mark 5 10 .read, .mark 16 2 .pinned, .mark 0 10 .pinned] (x / 4096) v ∨
      ∃ s c st k p, Call.mark s c st ∈ [Call.mark 5 10 .read, .mark 16 2 .pinned, .mark 0 10 .pinned] ∧ k * 65535 < c ∧
        p = s + min ((k + 1) * 65535) c ∧ p ≤ x / 4096 ∧
        MarkedAs [.mark 5 10 .read, .mark 16 2 .pinned, .mark 0 10 .pinned] (p - 1) v) := by
  obtain ⟨g0, V, hl, _, _, _, ht⟩ := life516
  exact ⟨_, ⟨V, hl.true⟩, ht, fun x h1 h2 =>
    (C112_access_partial _ _ _ hl.true (10 * 4096) (20 * 4096) _ (by decide) ht).2 x h1 (by omega)⟩

end Dragonstash.Blocklist
