import Verif.Blocklist.Power
import Verif.Props.Crash
/-
  C111: a power failure while the block list is in use.
-/
namespace Dragonstash.Blocklist

open Spec

/-! ### Specification -/

/-- The block list after the calls `cs0` and after it has been closed (which writes it to the disk)
and opened again. -/
def Saved (cs0 : List Call) (f : File) : Prop := calls fresh (cs0 ++ [.reopen]) = .ok f

/-- The history has a mark which gives block `b` the state `v`. -/
def MarkedAs (cs : List Call) (b : Nat) (v : State) : Prop := ∃ s c, Call.mark s c v ∈ cs ∧ s ≤ b ∧ b < s + c

/-- C111 in full: after a power failure at any time during `cs` the state of every block can be
read, it is a state given to it by some mark, and blocks not marked since the block list was saved
are as they were then. -/
def C111_full : Prop :=
  ∀ (cs0 cs : List Call) (f g : File), GoodHist Spec.empty (marksOf cs0) → CallsInRange cs → Saved cs0 f → PowerLoss f cs g →
    ∀ b, ∃ v, stateAt (reopen g) b = .ok v ∧ (v = .absent ∨ MarkedAs (cs0 ++ cs) b v) ∧
      ((∀ s c st, Call.mark s c st ∈ cs → ¬ (s ≤ b ∧ b < s + c)) → stateAt f b = .ok v)

/-! ### What holds -/

theorem inRange_saved {cs0 cs : List Call} (h : CallsInRange cs0) (h' : CallsInRange cs) :
    CallsInRange ((cs0 ++ [.reopen]) ++ cs) := by
  intro s c st hm
  rcases List.mem_append.1 hm with hm | hm
  · rcases List.mem_append.1 hm with hm | hm
    · exact h s c st hm
    · simp at hm
  · exact h' s c st hm

theorem reopen_mapped (g : File) : (reopen g).mapped = true := by
  unfold reopen ensureMapped
  by_cases h : (ensureUnmapped g).mapped = true
  · rw [if_pos h]; exact h
  · rw [if_neg h]

theorem reopen_slots (g : File) : (reopen g).slots = g.slots := by
  unfold reopen
  rw [ensureMapped_slots]
  unfold ensureUnmapped
  by_cases h : g.mapped = true
  · rw [if_pos h]
  · rw [if_neg h]

theorem reopen_n (g : File) : (reopen g).n = g.n := by
  unfold reopen
  rw [ensureMapped_n]
  unfold ensureUnmapped
  by_cases h : g.mapped = true
  · rw [if_pos h]
  · rw [if_neg h]

theorem power_al {cs0 cs : List Call} {f g : File} (h0 : CallsInRange cs0) (hr : CallsInRange cs) (hs : Saved cs0 f)
    (hl : PowerLoss f cs g) : Al (Poss (EndOf cs) (Given (cs0 ++ cs))) g := by
  obtain ⟨f2, e, i⟩ := Inv.calls (cs0 ++ [.reopen]) Inv.fresh
    (fun s c st hm => inRange_saved h0 hr s c st (List.mem_append_left _ hm))
  obtain rfl := ok_unique hs e
  have hgiven : ∀ s n st, Call.mark s n st ∈ cs0 ++ cs → st ≠ .absent → ∀ b, s ≤ b → b < s + n → Given (cs0 ++ cs) b st.code :=
    fun s n st hm hst b h1 h2 => ⟨s, n, st, hm, h1, h2, hst, rfl⟩
  have hfresh : Al (Over (Given (cs0 ++ cs))) fresh := by
    intro k x hx
    have hm := List.mem_of_getElem? hx
    rw [(List.mem_replicate.1 hm).2]; exact over_zero
  have hf : Al (Over (Given (cs0 ++ cs))) f := by
    refine calls_al (cs0 ++ [Call.reopen]) Inv.fresh hfresh (fun s n st hm => ?_) hs
    rcases List.mem_append.1 hm with hm | hm
    · exact ⟨h0 s n st hm, hgiven s n st (List.mem_append_left _ hm)⟩
    · simp at hm
  have hv : ∀ v, Was f cs v → Al (Poss (EndOf cs) (Given (cs0 ++ cs))) v := fun v hv =>
    was_al cs i hf (fun s n st hm => ⟨hr s n st hm, fun p hp => ⟨s, n, st, hm, hp⟩, hgiven s n st (List.mem_append_right _ hm)⟩) hv
  intro k x hx
  obtain ⟨v, hw, rfl⟩ := hl.slot k x hx
  rw [List.getD_eq_getElem?_getD]
  cases hk : v.slots[k]? with
  | none => exact .inl over_zero
  | some y => exact hv v hw k y hk

/-- C111, first part, with the exception of C68: whatever is read after a power failure was given to
the block by some mark, before or after the block list was saved; or a mark ended in the middle of a
run of blocks with one state, and the block is behind that point. -/
theorem C111_claims_partial (cs0 cs : List Call) (f g : File) (h0 : CallsInRange cs0) (hr : CallsInRange cs)
    (hs : Saved cs0 f) (hl : PowerLoss f cs g) (b : Nat) (v : State) (hv : stateAt (reopen g) b = .ok v) :
    v = .absent ∨ MarkedAs (cs0 ++ cs) b v ∨
      ∃ s c st k p, Call.mark s c st ∈ cs ∧ k * 65535 < c ∧ p = s + min ((k + 1) * 65535) c ∧ p ≤ b ∧
        MarkedAs (cs0 ++ cs) (p - 1) v ∧ MarkedAs (cs0 ++ cs) p v := by
  have ha := (power_al h0 hr hs hl).same (reopen_slots g)
  unfold stateAt at hv
  rw [ensureMapped_of (reopen_mapped g)] at hv
  have key : ∀ {b t}, Given (cs0 ++ cs) b t → MarkedAs (cs0 ++ cs) b (dec t) := by
    rintro b t ⟨s, c, st, hm, h1, h2, _, rfl⟩
    exact ⟨s, c, by rw [dec_code]; exact hm, h1, h2⟩
  rcases scan_poss (reopen_mapped g) ha b _ _ _ hv with h | ⟨t, _, rfl, h | ⟨p, ⟨s, c, st, hm, k, hk, hp⟩, _, h2, h3, h4⟩⟩
  · exact .inl h
  · exact .inr (.inl (key h))
  · exact .inr (.inr ⟨s, c, st, k, p, hm, hk, hp, h2, key h3, key h4⟩)

theorem was_le {cs : List Call} : ∀ {f : File} {L : List Entry}, Inv f L → CallsInRange cs → ∀ {v}, Was f cs v →
    v.n ≤ v.slots.length := by
  have base : ∀ {f : File} {L : List Entry}, Inv f L → f.n ≤ f.slots.length := by
    intro f L hi
    obtain ⟨S, hS⟩ := hi.slots
    rw [hS, hi.n, List.length_append]; omega
  induction cs with
  | nil => intro f L hi _ v hv; rw [show v = f from hv]; exact base hi
  | cons c cs ih =>
    intro f L hi hr v hv
    rcases hv with rfl | ⟨s, n, st, rfl, hv⟩ | ⟨f1, hf1, hv⟩
    · exact base hi
    · rcases markT_crash (R := fun _ _ _ => False) hi (hr s n st (by simp)) (fun _ _ _ h => h.elim) hv with
        ⟨_, h⟩ | ⟨_, _, _, _, _, _, h⟩
      · exact h.le
      · exact h.le
    · obtain ⟨f2, e2, i2⟩ := hi.step c (fun s n st e => hr s n st (by simp [e]))
      have : f1 = f2 := by rw [hf1] at e2; injection e2
      subst this
      exact ih i2 (fun s n st hm => hr s n st (by simp [hm])) hv

/-- C111, second part: the state of every block can be read if the file was not extended or shrunk
since it was saved, and whenever the number of entries fits the size of the file. -/
theorem C111_readable_partial (cs0 cs : List Call) (f g : File) (h0 : CallsInRange cs0) (hr : CallsInRange cs)
    (hs : Saved cs0 f) (hl : PowerLoss f cs g) :
    ((∀ v, Was f cs v → v.slots.length = f.slots.length) → g.n ≤ g.slots.length) ∧
    (g.n ≤ g.slots.length → ∀ b, ∃ v, stateAt (reopen g) b = .ok v) := by
  constructor
  · intro hsame
    obtain ⟨f2, e, i⟩ := Inv.calls (cs0 ++ [.reopen]) Inv.fresh
      (fun s c st hm => inRange_saved h0 hr s c st (List.mem_append_left _ hm))
    obtain rfl := ok_unique hs e
    obtain ⟨v, hv, hn⟩ := hl.n
    obtain ⟨w, hw, hlen⟩ := hl.length
    have := was_le i hr hv
    rw [hn, hlen, hsame w hw, ← hsame v hv]
    exact this
  · intro hle b
    have ha := (power_al h0 hr hs hl).same (reopen_slots g)
    unfold stateAt
    rw [ensureMapped_of (reopen_mapped g)]
    rcases scan_of (X := fun _ _ => True) (reopen_mapped g) b (reopen g).n 0
      (by rw [reopen_slots, reopen_n]; omega) (fun m e _ he => by
        rcases ha m e he with h | h
        · exact ⟨h.1.state, fun _ _ => trivial⟩
        · exact ⟨h.2.2.1, fun _ _ => trivial⟩) with h | ⟨t, _, h, _⟩
    · exact ⟨_, h.1⟩
    · exact ⟨_, h⟩

theorem scan_says {g : File} (hm : g.mapped = true) {i b t : Nat} (ht : t < 4) (hlen : i < g.slots.length)
    (here : ∃ e : Entry, g.slots[i]? = some e ∧ e.start ≤ b ∧ b < e.fin ∧ e.state = t)
    (before : ∀ (m : Nat) (e : Entry), m ≤ i → g.slots[m]? = some e → e.start ≤ b → b < e.fin → e.state = t) (k : Nat) :
    ∀ m, m ≤ i → i < m + k → stateScan g b m k = .ok (dec t) := by
  induction k with
  | zero => intro m h1 h2; omega
  | succ k ih =>
    intro m h1 h2
    have hlt : m < g.slots.length := by omega
    have hd : deref g m 551 = .ok g.slots[m] := by
      unfold deref; rw [if_pos hm, List.getElem?_eq_getElem hlt]
    unfold stateScan
    rw [hd]
    simp only [bind_ok]
    by_cases hc : g.slots[m].start ≤ b ∧ g.slots[m].fin > b
    · rw [if_pos hc, before m _ h1 (List.getElem?_eq_getElem hlt) hc.1 hc.2, ofCode_dec ht]
    · rw [if_neg hc]
      have hne : m ≠ i := by
        rintro rfl
        obtain ⟨e, he, h3, h4, _⟩ := here
        rw [List.getElem?_eq_getElem hlt] at he
        injection he with he
        subst he
        exact hc ⟨h3, h4⟩
      exact ih (m + 1) (by omega) (by omega)

/-- C111, third part: blocks which were present when the block list was saved, and which lie before
everything marked since, are as they were, whatever the power failure does. -/
theorem C111_before_partial (cs0 cs : List Call) (f g : File) (hg : GoodHist Spec.empty (marksOf cs0))
    (hr : CallsInRange cs) (hs : Saved cs0 f) (hl : PowerLoss f cs g) (b : Nat)
    (hb : ∀ s c st, Call.mark s c st ∈ cs → b < s) (hv : stateAt f b ≠ .ok .absent) :
    stateAt (reopen g) b = stateAt f b := by
  have hg' : GoodHist Spec.empty (marksOf (cs0 ++ [.reopen])) := by
    have : marksOf (cs0 ++ [.reopen]) = marksOf cs0 := by
      clear hg hs
      induction cs0 with
      | nil => rfl
      | cons c cs0 ih => cases c <;> simp only [List.cons_append, marksOf, ih]
    rw [this]; exact hg
  obtain ⟨f2, L, e, i, hw, _⟩ := good_calls hg'
  obtain rfl := ok_unique hs e
  rw [i.state b] at hv ⊢
  have hne : sem L b ≠ .absent := fun h => hv (by rw [h])
  obtain ⟨t, ht, hd⟩ := cov_of_sem hne
  have ht4 := (cov_sem_good hw ht).2
  have hu : ∀ u, Cov L b u → u = t := fun u hu => by
    have h1 := cov_sem_good hw hu
    have h2 := cov_sem_good hw ht
    rw [← code_dec h1.2, ← code_dec h2.2, ← h1.1, h2.1]
  have ha : At L b (dec t) := by rw [hd]; exact hw.at b
  have says : ∀ v, Was f cs v → Says (lo b L).length b t v := fun v hv =>
    was_says cs i ht4 ha hu (fun s n st hm => ⟨hr s n st hm, hb s n st hm⟩) hv
  obtain ⟨v, hv1, hn⟩ := hl.n
  obtain ⟨w, hw1, hlen⟩ := hl.length
  have hlt : (lo b L).length < g.slots.length := by
    have := (says w hw1).lt; have := (says w hw1).le; omega
  have slot : ∀ (m : Nat) (x : Entry), m ≤ (lo b L).length → g.slots[m]? = some x →
      ∃ v, Says (lo b L).length b t v ∧ v.slots[m]? = some x := by
    intro m x hm hx
    obtain ⟨v, hv, rfl⟩ := hl.slot m x hx
    have hsv := says v hv
    refine ⟨v, hsv, ?_⟩
    have hml : m < v.slots.length := by have := hsv.lt; have := hsv.le; omega
    rw [List.getD_eq_getElem?_getD, List.getElem?_eq_getElem hml]; rfl
  rw [← hd]
  unfold stateAt
  rw [ensureMapped_of (reopen_mapped g)]
  refine scan_says (reopen_mapped g) ht4 (i := (lo b L).length) (by rw [reopen_slots]; exact hlt) ?_ ?_ _ 0 (by omega)
    (by rw [reopen_n, hn]; have := (says v hv1).lt; omega)
  · rw [reopen_slots]
    obtain ⟨v, hsv, hx⟩ := slot _ _ (Nat.le_refl _) (List.getElem?_eq_getElem hlt)
    obtain ⟨y, hy, h1, h2, h3⟩ := hsv.here
    rw [hx] at hy
    injection hy with hy
    exact ⟨_, List.getElem?_eq_getElem hlt, by rw [hy]; exact h1, by rw [hy]; exact h2, by rw [hy]; exact h3⟩
  · intro m x hm hx h1 h2
    rw [reopen_slots] at hx
    obtain ⟨v, hsv, hx'⟩ := slot m x hm hx
    exact hsv.before m x hm hx' h1 h2

/-- C111, last part: what has been saved is not lost if nothing was marked since. -/
theorem C111_saved (cs0 : List Call) (f g : File) (h0 : CallsInRange cs0) (hs : Saved cs0 f) (hl : PowerLoss f [] g) :
    (∀ b, stateAt (reopen g) b = stateAt f b) ∧ (∀ st, blocks (reopen g) st = blocks f st) ∧ nentries (reopen g) = nentries f := by
  have same : ∀ v, Was f [] v → v = f := fun v hv => hv
  obtain ⟨v, hv, hn⟩ := hl.n
  rw [same v hv] at hn
  obtain ⟨w, hw, hlen⟩ := hl.length
  rw [same w hw] at hlen
  have hslots : g.slots = f.slots := by
    apply List.ext_getElem?
    intro i
    cases hg : g.slots[i]? with
    | none =>
      rw [List.getElem?_eq_none_iff] at hg
      rw [List.getElem?_eq_none (by omega)]
    | some e =>
      obtain ⟨u, hu, he⟩ := hl.slot i e hg
      rw [same u hu, List.getD_eq_getElem?_getD] at he
      have hi : i < f.slots.length := by
        obtain ⟨h, _⟩ := List.getElem?_eq_some_iff.1 hg
        omega
      rw [List.getElem?_eq_getElem hi] at he ⊢
      rw [he]; rfl
  have hcnt : ∀ t, (reopen g).cnt t = f.cnt t := by
    intro t
    obtain ⟨u, hu, h⟩ := hl.cnt t
    rw [same u hu] at h
    have : (reopen g).cnt = g.cnt := by
      unfold reopen ensureUnmapped ensureMapped
      by_cases hm : g.mapped = true
      · rw [if_pos hm]; rfl
      · rw [if_neg hm, if_neg hm]
    rw [this, h]
  obtain ⟨f2, e, i⟩ := Inv.calls (cs0 ++ [.reopen]) Inv.fresh
    (fun s c st hm => inRange_saved (cs := []) h0 (fun _ _ _ h => by simp at h) s c st (List.mem_append_left _ hm))
  obtain rfl := ok_unique hs e
  have hscan : ∀ b k m, stateScan (reopen g) b m k = stateScan (ensureMapped f) b m k := by
    intro b k
    induction k with
    | zero => intro m; rfl
    | succ k ih =>
      intro m
      unfold stateScan deref
      have hm2 : (ensureMapped f).mapped = true := by
        unfold ensureMapped
        by_cases h : f.mapped = true
        · rw [if_pos h]; exact h
        · rw [if_neg h]
      rw [reopen_mapped, hm2, reopen_slots, ensureMapped_slots, hslots]
      simp only [ih]
  refine ⟨fun b => ?_, fun st => ?_, ?_⟩
  · unfold stateAt
    rw [ensureMapped_of (reopen_mapped g), hscan, reopen_n, hn]
  · cases st <;> simp only [blocks, hcnt]
  · unfold nentries
    rw [reopen_n, hn]

/-! ### What does not hold -/

theorem Was.power {f v : File} {cs : List Call} (h : Was f cs v) : PowerLoss f cs v := by
  refine ⟨⟨v, h, rfl⟩, fun t => ⟨v, h, rfl⟩, ⟨v, h, rfl⟩, fun i e he => ⟨v, h, ?_⟩⟩
  rw [List.getD_eq_getElem?_getD, he]; rfl

/-- A mixture of two points: the superblock of `v`, the entries of `w`. -/
def mixture (v w : File) : File := { w with n := v.n, cnt := v.cnt }

theorem mixture_power {f v w : File} {cs : List Call} (hv : Was f cs v) (hw : Was f cs w) : PowerLoss f cs (mixture v w) := by
  refine ⟨⟨v, hv, rfl⟩, fun t => ⟨v, hv, rfl⟩, ⟨w, hw, rfl⟩, fun i e he => ⟨w, hw, ?_⟩⟩
  have : w.slots[i]? = some e := he
  rw [List.getD_eq_getElem?_getD, this]; rfl

theorem was_start (f : File) (cs : List Call) : Was f cs f := by
  cases cs with
  | nil => rfl
  | cons c cs => exact .inl rfl

theorem was_end {f v : File} {cs : List Call} (h : calls f cs = .ok v) : Was f cs v := by
  induction cs generalizing f with
  | nil => injection h with h; exact h.symm
  | cons c cs ih =>
    rw [calls] at h
    cases hs : step f c with
    | error e => rw [hs] at h; cases h
    | ok f1 => rw [hs, bind_ok] at h; exact .inr (.inr ⟨f1, hs, ih h⟩)

/-- The block list with blocks 10-14 read, saved. -/
def f10 : File := okOr fresh (calls fresh ([.mark 10 5 .read] ++ [.reopen]))

theorem f10_saved : Saved [.mark 10 5 .read] f10 := ok_okOr (by decide +kernel)

/-- Then blocks 0-1 are pinned. -/
def f10' : File := okOr fresh (calls f10 [.mark 0 2 .pinned])

theorem f10'_calls : calls f10 [.mark 0 2 .pinned] = .ok f10' := ok_okOr (by decide +kernel)

/-- The superblock was written back before the mark, the entries after it. -/
theorem gap_power : PowerLoss f10 [.mark 0 2 .pinned] (mixture f10 f10') :=
  mixture_power (was_start _ _) (was_end f10'_calls)

/-- C111 in full is false: blocks which were saved and never marked again are lost, if the superblock
reached the disk before a mark and the entries after it. -/
theorem C111_counterexample : ¬ C111_full := by
  intro h
  obtain ⟨v, h1, _, h3⟩ := h [.mark 10 5 .read] [.mark 0 2 .pinned] f10 _ (good_first (by decide)) (callsInRange (by decide))
    f10_saved gap_power 10
  have h3 := h3 (fun s c st hm => by
    simp only [List.mem_singleton, Call.mark.injEq] at hm
    omega)
  have e1 : stateAt (reopen (mixture f10 f10')) 10 = .ok .absent := by decide +kernel
  have e2 : stateAt f10 10 = .ok .read := by decide +kernel
  rw [e1] at h1
  rw [e2] at h3
  injection h1 with h1
  injection h3 with h3
  rw [← h1] at h3
  cases h3

/-- There the present blocks before the mark would have been kept, and nothing is invented. -/
example : ∀ b v, stateAt (reopen (mixture f10 f10')) b = .ok v → v = .absent ∨ MarkedAs [.mark 10 5 .read, .mark 0 2 .pinned] b v ∨
    ∃ s c st k p, Call.mark s c st ∈ [Call.mark 0 2 .pinned] ∧ k * 65535 < c ∧ p = s + min ((k + 1) * 65535) c ∧ p ≤ b ∧
      MarkedAs [.mark 10 5 .read, .mark 0 2 .pinned] (p - 1) v ∧ MarkedAs [.mark 10 5 .read, .mark 0 2 .pinned] p v :=
  fun b v hv => C111_claims_partial [.mark 10 5 .read] [.mark 0 2 .pinned] f10 _ (callsInRange (by decide)) (callsInRange (by decide))
    f10_saved gap_power b v hv

/-- That part is false without the exception: the file of C68 (`torn`), after the block list was
saved. -/
theorem C111_claims_counterexample : ¬ ∀ (cs0 cs : List Call) (f g : File), GoodHist Spec.empty (marksOf cs0) →
    CallsInRange cs → Saved cs0 f → PowerLoss f cs g → ∀ b v, stateAt (reopen g) b = .ok v →
    v = .absent ∨ MarkedAs (cs0 ++ cs) b v := by
  intro h
  obtain ⟨g0, hc, hs, _⟩ := torn
  have hsave : Saved [.mark 5 10 .read] f515 := by
    unfold Saved
    have e : calls fresh ([.mark 5 10 .read] ++ [.reopen]) = (calls fresh [.mark 5 10 .read] >>= fun f => .ok (reopen f)) := by
      simp only [List.cons_append, List.nil_append, calls, step]
      cases mark fresh 5 10 .read <;> rfl
    have hm : f515.mapped = true := by decide +kernel
    have hz : f515.msize = 512 + 16 * f515.slots.length := by decide +kernel
    rw [e, f515_calls, bind_ok, reopen_of hm hz]
  rcases h [.mark 5 10 .read] [.mark 0 10 .pinned] f515 g0 (good_first (by decide)) (callsInRange (by decide)) hsave
    (Was.power (.inr (.inl ⟨0, 10, .pinned, rfl, hc⟩))) 15 .read hs with h' | ⟨s, c, hm, h1, h2⟩
  · cases h'
  · simp only [List.cons_append, List.nil_append, List.mem_cons, Call.mark.injEq, List.not_mem_nil, or_false] at hm
    omega

/-- Marks of every other block. -/
def everyOther (n : Nat) : List Call := (List.range n).map (fun k => .mark (2 * k) 1 .read)

theorem everyOther_inRange {n : Nat} (h : n ≤ 1000) : CallsInRange (everyOther n) := by
  intro s c st hm
  unfold everyOther at hm
  obtain ⟨k, hk, he⟩ := List.mem_map.1 hm
  rw [List.mem_range] at hk
  injection he with h1 h2 h3
  omega

theorem calls_reopen (f : File) (cs : List Call) : calls f (.reopen :: cs) = calls (reopen f) cs := rfl

theorem f225_ex : ∃ f, calls (reopen fresh) (everyOther 225) = .ok f ∧ f.n = 225 := by
  obtain ⟨f, e, i⟩ := Inv.calls (.reopen :: everyOther 225) Inv.fresh (fun s c st hm => by
    rcases List.mem_cons.1 hm with h | h
    · cases h
    · exact everyOther_inRange (n := 225) (by decide) s c st h)
  rw [calls_reopen] at e
  refine ⟨f, e, ?_⟩
  rw [i.n]
  decide +kernel

theorem scan_cnt (f : File) (c : Nat → Nat) (b : Nat) (k : Nat) : ∀ i, stateScan { f with cnt := c } b i k = stateScan f b i k := by
  induction k with
  | zero => intro i; rfl
  | succ k ih =>
    intro i
    unfold stateScan
    simp only [ih]
    rfl

/-- The second part is false if the file was extended: the superblock reached the disk with 225
entries, the new size of the file did not.  Reading a state runs off the end of the mapping. -/
theorem C111_readable_counterexample : ¬ ∀ (cs0 cs : List Call) (f g : File), GoodHist Spec.empty (marksOf cs0) →
    CallsInRange cs → Saved cs0 f → PowerLoss f cs g → ∀ b, ∃ v, stateAt (reopen g) b = .ok v := by
  intro h
  obtain ⟨f, he, hn⟩ := f225_ex
  obtain ⟨v, hv⟩ := h [] (everyOther 225) (reopen fresh) (mixture f (reopen fresh)) trivial (everyOther_inRange (by decide)) rfl
    (mixture_power (was_end he) (was_start _ _)) 7
  have e : reopen (mixture f (reopen fresh)) = { reopen { reopen fresh with n := 225 } with cnt := f.cnt } := by
    unfold mixture
    rw [hn]
    rfl
  have : isOk (stateScan (reopen { reopen fresh with n := 225 }) 7 0 225) = false := by decide +kernel
  unfold stateAt at hv
  rw [ensureMapped_of (reopen_mapped _), e] at hv
  have hv : stateScan { reopen { reopen fresh with n := 225 } with cnt := f.cnt } 7 0 225 = .ok v := hv
  rw [scan_cnt] at hv
  rw [hv] at this
  cases this

/-! ### Non-vacuity -/

/-- Blocks 0-1 pinned and saved; while blocks 4-8 and 10-14 are read in, the power fails. -/
def fPin : File := okOr fresh (calls fresh ([.mark 0 2 .pinned] ++ [.reopen]))

theorem fPin_saved : Saved [.mark 0 2 .pinned] fPin := ok_okOr (by decide +kernel)

def fPin' : File := okOr fresh (calls fPin [.mark 4 5 .read, .mark 10 5 .read])

theorem fPin'_calls : calls fPin [.mark 4 5 .read, .mark 10 5 .read] = .ok fPin' := ok_okOr (by decide +kernel)

/-- The pinned blocks survive; with the superblock from the end and the entries from the start. -/
example : PowerLoss fPin [.mark 4 5 .read, .mark 10 5 .read] (mixture fPin' fPin) ∧
    stateAt (reopen (mixture fPin' fPin)) 1 = .ok .pinned ∧ stateAt (reopen (mixture fPin' fPin)) 4 = .ok .absent := by
  have hp := mixture_power (f := fPin) (was_end fPin'_calls) (was_start _ [.mark 4 5 .read, .mark 10 5 .read])
  have he : stateAt fPin 1 = .ok .pinned := by decide +kernel
  refine ⟨hp, ?_, by decide +kernel⟩
  rw [C111_before_partial [.mark 0 2 .pinned] [.mark 4 5 .read, .mark 10 5 .read] fPin _ (good_first (by decide))
    (callsInRange (by decide)) fPin_saved hp 1 (fun s c st hm => by
      simp only [List.mem_cons, Call.mark.injEq, List.not_mem_nil, or_false] at hm
      omega) (by rw [he]; simp), he]

example : ∀ b, stateAt (reopen fPin) b = stateAt fPin b :=
  (C111_saved [.mark 0 2 .pinned] fPin fPin (callsInRange (by decide)) fPin_saved (Was.power (was_start _ _))).1

/-- The file of the first counterexample can still be read. -/
example : ∀ b, ∃ v, stateAt (reopen (mixture f10 f10')) b = .ok v :=
  (C111_readable_partial [.mark 10 5 .read] [.mark 0 2 .pinned] f10 _ (callsInRange (by decide)) (callsInRange (by decide))
    f10_saved gap_power).2 (by decide +kernel)

/-- A history in which the size of the file does not change. -/
example : fPin.n ≤ fPin.slots.length :=
  (C111_readable_partial [.mark 0 2 .pinned] [.shrink] fPin fPin (callsInRange (by decide)) (fun _ _ _ h => by simp at h)
    fPin_saved (Was.power (was_start _ _))).1 (fun v hv => by
      rcases hv with h0 | ⟨_, _, _, h, _⟩ | ⟨f', h, hv⟩
      · rw [h0]
      · cases h
      · have e : isOk (step fPin .shrink) = true := by decide +kernel
        have hf := ok_okOr (d := fresh) e
        have hl : (okOr fresh (step fPin .shrink)).slots.length = fPin.slots.length := by decide +kernel
        have hv' : v = f' := hv
        rw [hv', ok_unique h hf]
        exact hl)

end Dragonstash.Blocklist
