import Verif.Blocklist.Grid
import Verif.Props.Lives
import Verif.Props.AccessExact
/-
  C113: a block list which `fsck` accepts is as good as new, whatever happened to it.
-/
namespace Dragonstash.Blocklist
open Spec

/-! ### Specification -/

/-- The counters of the block list are those of the map `m`. -/
structure Counts (f : File) (m : Map) : Prop where
  each : ∀ s, s ≠ .absent → blocks f s = countBelow (fun b => decide (m b = s)) W64
  present : presentBlocks f = countBelow (fun b => decide (m b ≠ .absent)) W64
  absent : blocks f .absent = W64 - 1

/-- Accesses are offered what C09 and C10 say, up to what is wrong there: if all blocks of the access are
present, everything; if it meets the absent block `F` first and some block behind `F` is present, the
whole blocks before `F`; and in any case at least that, if the file has room for another entry. -/
structure Grants (f : File) : Prop where
  whole : ∀ start size : Nat, start + size < 2 ^ 63 →
    (∀ b, start / 4096 ≤ b → b < (start + size + 4095) / 4096 → Present f b) → truncateAccess f (start : Int) size = .ok size
  stop : ∀ start size F : Nat, start + size < 2 ^ 63 → MeetsFirst f start size F → (∃ b, F < b ∧ Present f b) →
    truncateAccess f (start : Int) size = .ok (min size ((F - start / 4096) * 4096))
  room : ∀ start size F : Nat, start + size < 2 ^ 63 → MeetsFirst f start size F → nentries f < capacity f →
    ∃ n, truncateAccess f (start : Int) size = .ok n ∧ min size ((F - start / 4096) * 4096) ≤ n ∧ n ≤ size

/-- The block list works, and what it holds is `m`.  `GoodHist` and `CleanHist` are the histories for
which C02, C03 and C04 hold from an empty block list. -/
structure Works (f : File) (m : Map) : Prop where
  state : ∀ b, stateAt f b = .ok (m b)
  counts : Counts f m
  returns : ∀ cs, CallsInRange cs → ∃ h, calls f cs = .ok h ∧ ∀ b, ∃ s, stateAt h b = .ok s
  good : ∀ cs h, GoodHist m (marksOf cs) → calls f cs = .ok h →
    (∀ b, stateAt h b = .ok (run m (marksOf cs) b)) ∧ Counts h (run m (marksOf cs)) ∧ Grants h
  clean : ∀ cs h, CleanHist m (marksOf cs) → calls f cs = .ok h → ∃ h', fsck h = .ok h'

/-! ### Proofs -/

theorem Inv.counts {f : File} {L : List Entry} (i : Inv f L) (w : Wf L) : Counts f (sem L) := by
  have hc : ∀ t, t < 4 → f.cnt t = countBelow (fun b => decide (sem L b = dec t)) W64 :=
    fun t ht => i.cnt_eq w ht
  refine ⟨?_, ?_, rfl⟩
  · intro s hs
    cases s with
    | absent => exact absurd rfl hs
    | readahead => exact hc 0 (by omega)
    | read => exact hc 1 (by omega)
    | pinned => exact hc 2 (by omega)
    | written => exact hc 3 (by omega)
  · have hp := count_present (sem L) W64
    have hlt : countBelow (fun b => decide (sem L b ≠ .absent)) W64 < W64 := by
      apply countBelow_lt (b := W64 - 1) (by decide)
      apply decide_eq_false
      intro hh
      obtain ⟨x, hx, hcx⟩ := present_cov hh
      have := (w.ok x hx).range
      unfold Entry.covers at hcx
      omega
    have h0 : f.cnt 0 = countBelow (fun b => decide (sem L b = .readahead)) W64 := hc 0 (by omega)
    have h1 : f.cnt 1 = countBelow (fun b => decide (sem L b = .read)) W64 := hc 1 (by omega)
    have h2 : f.cnt 2 = countBelow (fun b => decide (sem L b = .pinned)) W64 := hc 2 (by omega)
    have h3 : f.cnt 3 = countBelow (fun b => decide (sem L b = .written)) W64 := hc 3 (by omega)
    unfold presentBlocks
    rw [h0, h1, h2, h3]
    unfold u64
    omega

theorem Inv.grants {f : File} {L : List Entry} (i : Inv f L) (w : Wf L) : Grants f := by
  refine ⟨fun start size hr hp => access_whole i w start size hr hp, fun start size F hr hF hb => ?_,
    fun start size F hr hF hn => (access_exact i w start size F hr hF).2.2 hn⟩
  refine (access_exact i w start size F hr hF).1 (.inr ?_)
  obtain ⟨b, hb1, hb2⟩ := hb
  obtain ⟨x, hx, hc⟩ := present_cov ((present_iff i).1 hb2)
  have hF2 : sem L F = .absent := by
    have := hF.absent
    rw [i.state F] at this
    injection this
  have hn : ¬ x.covers F := fun h => cov_present i.w0.ok hx h hF2
  unfold Entry.covers at hc hn
  exact ⟨x, by rw [i.entries]; exact hx, by omega⟩

theorem Inv.works {f : File} {L : List Entry} (i : Inv f L) (w : SWf L) : Works f (sem L) := by
  refine ⟨i.state, i.counts w.toWf, fun cs hr => ?_, fun cs h hg hc => ?_, fun cs h hg hc => ?_⟩
  · obtain ⟨h, e, j⟩ := Inv.calls cs i hr
    exact ⟨h, e, fun b => ⟨_, j.state b⟩⟩
  · obtain ⟨h', e, j⟩ := Inv.calls cs i (good_inRange hg)
    rw [hc] at e
    injection e with e
    subst e
    obtain ⟨a, b⟩ := good_entries cs w.toWf hg
    rw [← b]
    exact ⟨j.state, j.counts a, j.grants a⟩
  · obtain ⟨h', e, j⟩ := Inv.calls cs i (good_inRange hg.good)
    rw [hc] at e
    injection e with e
    subst e
    exact j.fsck_ok (clean_entries cs w hg)

theorem total_none {L : List Entry} {t : Nat} (h : ∀ e ∈ L, e.state ≠ t) : total t L = 0 := by
  induction L with
  | nil => rfl
  | cons e L ih =>
    rw [total_cons, if_neg (h e (by simp)), ih (fun x hx => h x (by simp [hx]))]

/-- What an accepted file is. -/
theorem accepted {f g : File} (hf : fsck f = .ok g) (len : f.slots.length % 256 = 224) (ms : f.msize % 4096 = 0)
    (ms_le : f.fileSize ≤ f.msize) (ms_eq : f.mapped = true → f.msize = f.fileSize)
    (high : ∀ t, 4 ≤ t → f.cnt t = 0) (small : Small f)
    (hw : ∀ e ∈ entries f, e.start + e.count < W64) :
    Inv f (entries f) ∧ Inv g (entries f) ∧ SWf (entries f) := by
  have c := fsck_sound hw hf
  have sw : SWf (entries f) := by
    refine ⟨⟨fun e he => ⟨hw e he, (small e ?_).count, c.states e he⟩, c.disjoint⟩, c.nonempty⟩
    exact List.mem_of_mem_take he
  have i : Inv f (entries f) := by
    refine ⟨⟨f.slots.drop f.n, (List.take_append_drop _ _).symm⟩, ?_, fun t => ?_, len, ms, ms_le, ms_eq, sw.w0, small⟩
    · unfold entries; rw [List.length_take]; have := c.fits; omega
    · by_cases ht : t < 4
      · rw [c.counters t ht]
        have := total_lt (b := 0) (L := entries f) (fun e he => ⟨Nat.zero_le _, hw e he⟩) (by omega) c.disjoint t
        unfold wrapI; omega
      · rw [high t (by omega), total_none (fun e he => by have := c.states e he; omega)]
        rfl
  refine ⟨i, ?_, sw⟩
  rw [fsck_complete hw c] at hf
  obtain ⟨f', e, j⟩ := i.mapped.shrink
  rw [hf] at e
  injection e with e
  subst e
  exact j.1

/-- C113: whatever happened to a block list, also if processes died inside `mark` and the power failed,
again and again: if `fsck` accepts it, it works, before and after the `fsck`, from what it reports then.
The marks are of blocks below 2^64 - 65536, more than a file can have. -/
theorem C113_recovered (cs : List Call) (V : File → Prop) (f g : File) (h : Life True cs V f)
    (hb : ∀ s c st, Call.mark s c st ∈ cs → s + c < W64 - 65536) (hf : fsck f = .ok g) :
    ∃ m : Map, Works f m ∧ Works g m ∧ SameObs f g := by
  obtain ⟨l, _⟩ := h.lattice (B := W64 - 65537) (fun s c st hm => by have := hb s c st hm; omega)
  have al := h.al.1
  have mem : ∀ e ∈ f.slots, ∃ k : Nat, f.slots[k]? = some e := by
    intro e he
    obtain ⟨k, hk, hke⟩ := List.getElem_of_mem he
    exact ⟨k, by rw [List.getElem?_eq_getElem hk, hke]⟩
  obtain ⟨i, j, w⟩ := accepted hf l.len l.msize l.msize_le l.msize_eq l.high
    (fun e he => by
      obtain ⟨k, hk⟩ := mem e he
      have := al k e hk
      exact ⟨this.start, this.count, by have := this.state; omega⟩)
    (fun e he => by
      obtain ⟨k, hk⟩ := mem e (List.mem_of_mem_take he)
      have h1 := (al k e hk).count
      have h2 : e.start ≤ W64 - 65537 := l.starts k e hk
      have : W64 - 65537 + 65535 < W64 := by decide
      omega)
  exact ⟨_, i.works w, j.works w, SameObs.of_inv i j⟩

theorem fieldAt_lt (b : Bytes) (o k : Nat) : fieldAt b o k < 256 ^ k := by
  unfold fieldAt
  refine Nat.lt_of_lt_of_le (leDec_lt _) (Nat.pow_le_pow_right (by decide) ?_)
  rw [List.length_take]; omega

theorem decEntries_length (k : Nat) : ∀ b, (decEntries k b).length = k := by
  induction k with
  | zero => intro b; rfl
  | succ k ih => intro b; simp [decEntries, ih]

theorem decEntries_fits (k : Nat) : ∀ b, ∀ e ∈ decEntries k b, EntryFits e := by
  induction k with
  | zero => intro b e he; cases he
  | succ k ih =>
    intro b e he
    simp only [decEntries, List.mem_cons] at he
    rcases he with rfl | he
    · refine ⟨?_, ?_, ?_⟩
      · exact fieldAt_lt _ _ 8
      · have := fieldAt_lt b 8 2; unfold decEntry; simp only; omega
      · exact fieldAt_lt _ _ 1
    · exact ih _ e he

/-- The same for a file with any contents, of a size which is a multiple of 4096 (grow and shrink
keep it): if it can be opened and `fsck` accepts it, it works.  Entries which end at or behind 2^64
are left out, see `C05_counterexample`. -/
theorem C113_any_file (b : Bytes) (f g : File) (hb : b.length % 4096 = 0) (ho : openBytes b = .ok f)
    (hw : ∀ e ∈ entries f, e.start + e.count < W64) (hf : fsck f = .ok g) :
    ∃ m : Map, Works f m ∧ Works g m ∧ SameObs f g := by
  have key : ∀ b : Bytes, b.length % 4096 = 0 → b.length ≠ 0 → f = decFile b → ∃ m : Map, Works f m ∧ Works g m ∧ SameObs f g := by
    intro b hb h0 e
    have hl : f.slots.length = (b.length - 512) / 16 := by rw [e]; exact decEntries_length _ _
    have hm : f.msize = b.length := by rw [e]; rfl
    have hsz : f.fileSize = f.msize := by rw [File.fileSize, hl, hm]; simp only [superblockSize, entrySize]; omega
    obtain ⟨i, j, w⟩ := accepted hf (by rw [hl]; omega) (by rw [hm]; exact hb) (by omega) (fun _ => hsz.symm)
      (fun t ht => by rw [e]; simp only [decFile]; rw [if_neg (by omega)])
      (by rw [e]; exact decEntries_fits _ _) hw
    exact ⟨_, i.works w, j.works w, SameObs.of_inv i j⟩
  unfold openBytes at ho
  by_cases h1 : b.length % 512 ≠ 0
  · rw [if_pos h1] at ho; cases ho
  rw [if_neg h1] at ho
  by_cases h2 : b.length = 0
  · rw [if_pos h2] at ho
    injection ho with ho
    exact key initBytes (by decide +kernel) (by decide +kernel) ho.symm
  rw [if_neg h2] at ho
  by_cases h3 : fieldAt b 0 4 ≠ magic
  · rw [if_pos h3] at ho; cases ho
  rw [if_neg h3] at ho
  injection ho with ho
  exact key b hb h2 ho.symm

/-! ### The exception -/

theorem countBelow_none {p : Nat → Bool} (n : Nat) (h : ∀ b, p b = false) : countBelow p n = 0 := by
  induction n with
  | zero => rfl
  | succ n ih => unfold countBelow; rw [ih, h n]; rfl

/-- Two entries for the last block below 2^64, as in `C05_counterexample`. -/
def wrapped : File :=
  ⟨2, fun t => if t = 0 then 2 else 0, [⟨W64 - 1, 1, 0⟩, ⟨W64 - 1, 1, 0⟩] ++ List.replicate 222 zeroEntry, true, 4096⟩

/-- Without the condition on entries at 2^64 C113 is false: `fsck` accepts, but the counters count two
blocks and no block is reported as present. -/
theorem C113_wrap_counterexample : ¬ ∀ (b : Bytes) (f g : File), b.length % 4096 = 0 → openBytes b = .ok f →
    fsck f = .ok g → ∃ m : Map, Works f m := by
  intro h
  have hd : openBytes (encFile wrapped) = .ok wrapped := by
    have hz : wrapped.fileSize = wrapped.msize := by decide +kernel
    have := open_enc (f := wrapped) (by decide) (fun t => ?_) (fun t ht => ?_) (fun e he => ?_) (by decide +kernel)
    · rw [hz] at this; exact this
    · show (if t = 0 then 2 else 0) < W64
      by_cases h0 : t = 0
      · rw [if_pos h0]; decide
      · rw [if_neg h0]; decide
    · show (if t = 0 then 2 else 0) = 0
      rw [if_neg (by omega)]
    · have he : e ∈ [⟨W64 - 1, 1, 0⟩, ⟨W64 - 1, 1, 0⟩] ++ List.replicate 222 zeroEntry := he
      simp only [List.mem_append, List.mem_cons, List.not_mem_nil, or_false, or_self] at he
      rcases he with rfl | he
      · exact ⟨by decide, by decide, by decide⟩
      · rw [List.eq_of_mem_replicate he]; exact ⟨by decide, by decide, by decide⟩
  obtain ⟨m, w⟩ := h (encFile wrapped) wrapped wrapped (by rw [encFile_length]; decide +kernel) hd rfl
  have hm : ∀ b, m b = .absent := by
    intro b
    have := w.state b
    have d0 : deref wrapped 0 551 = .ok ⟨W64 - 1, 1, 0⟩ := rfl
    have d1 : deref wrapped 1 551 = .ok ⟨W64 - 1, 1, 0⟩ := rfl
    have hf : (⟨W64 - 1, 1, 0⟩ : Entry).fin = 0 := by decide
    have e : stateAt wrapped b = .ok .absent := by
      show stateScan wrapped b 0 2 = .ok .absent
      unfold stateScan
      rw [d0, bind_ok, if_neg (by rw [hf]; omega)]
      unfold stateScan
      rw [d1, bind_ok, if_neg (by rw [hf]; omega)]
      rfl
    exact ok_unique this e
  have := w.counts.each .readahead (by simp)
  rw [countBelow_none _ (fun b => by rw [hm b]; rfl)] at this
  exact absurd this (by decide)

/-! ### Non-vacuity -/

/-- A process dies inside of a mark, `fsck` accepts what it leaves, and from then on the block list
works, from a map in which block 15, never marked, is read (C68). -/
example : ∃ cs V f g m, Life True cs V f ∧ fsck f = .ok g ∧ m 15 = State.read ∧ Works f m ∧ Works g m ∧ SameObs f g := by
  obtain ⟨V, hl, _⟩ := life515 (P := True)
  obtain ⟨g0, hc, hs, ha⟩ := torn
  have l1 := Life.die 0 10 .pinned hl (by decide) hc
  have e := ok_okOr (d := fresh) ha
  obtain ⟨m, h1, h2, h3⟩ := C113_recovered _ _ _ _ l1 (by
    intro s c st hm
    simp only [List.cons_append, List.nil_append, List.mem_cons, Call.mark.injEq, List.not_mem_nil, or_false] at hm
    rcases hm with ⟨rfl, rfl, _⟩ | ⟨rfl, rfl, _⟩ <;> decide) e
  refine ⟨_, _, _, _, m, l1, e, ?_, h1, h2, h3⟩
  have := h1.state 15
  rw [hs] at this
  injection this with this
  exact this.symm

/-- The access to a block which is reported as present is offered all of it. -/
example {f : File} {m : Map} (h : Works f m) (h15 : m 15 = State.read) : truncateAccess f ((15 * 4096 : Nat) : Int) 4096 = .ok 4096 := by
  refine (h.good [] f trivial rfl).2.2.whole (15 * 4096) 4096 (by decide) (fun b h1 h2 => ?_)
  have : b = 15 := by omega
  subst this
  exact ⟨_, h.state 15, by rw [h15]; decide⟩

/-- A mark after that: it is exact. -/
example {f g : File} {m : Map} (h : Works f m) (hg : mark f 15 5 .absent = .ok g) (h19 : m 19 ≠ m 20) :
    ∀ b, stateAt g b = .ok (if 15 ≤ b ∧ b < 20 then .absent else m b) := by
  refine (h.good [.mark 15 5 .absent] g ⟨by decide, .inr (fun k hk => ?_), trivial⟩ (by
    show (mark f 15 5 .absent >>= fun f => calls f []) = .ok g
    rw [hg]; rfl)).1
  have : k = 0 := by omega
  subst this
  exact .inr (.inr h19)

end Dragonstash.Blocklist
