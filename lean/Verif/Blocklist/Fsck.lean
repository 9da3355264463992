import Verif.Blocklist.Access
/-
  `fsck` on arbitrary files.
-/
namespace Dragonstash.Blocklist

/-- The live entries of a file. -/
def entries (f : File) : List Entry := f.slots.take f.n

theorem fsckLoop_inv {f : File} (k : Nat) : ∀ {i pe ps : Nat} {acc a : Nat → Nat},
    fsckLoop f k i pe ps acc = .ok a →
    ((f.slots.drop i).take k).length = k ∧ fsckL ((f.slots.drop i).take k) pe ps acc = .ok a := by
  induction k with
  | zero => intro i pe ps acc a h; exact ⟨by simp, by simpa [fsckL, fsckLoop] using h⟩
  | succ k ih =>
    intro i pe ps acc a h
    unfold fsckLoop at h
    obtain ⟨e, he, h⟩ := bind_inv h
    have hslot : f.slots[i]? = some e := by
      unfold deref at he
      split at he
      · split at he
        · rename_i h'; injection he with he; rw [h', he]
        · cases he
      · cases he
    have hlt : i < f.slots.length := by
      rcases Nat.lt_or_ge i f.slots.length with h' | h'
      · exact h'
      · rw [List.getElem?_eq_none h'] at hslot; cases hslot
    have hdrop : f.slots.drop i = e :: f.slots.drop (i + 1) := by
      rw [List.drop_eq_getElem_cons hlt]
      rw [List.getElem?_eq_getElem hlt] at hslot
      injection hslot with hslot
      rw [hslot]
    rw [hdrop]
    simp only [List.take_succ_cons, List.length_cons, fsckL]
    split at h
    · cases h
    · split at h
      · cases h
      · split at h
        · cases h
        · split at h
          · rename_i h1 h2 h3 h4
            obtain ⟨a1, a2⟩ := ih h
            refine ⟨by rw [a1], ?_⟩
            rw [if_neg h1, if_neg h2, if_neg h3, if_pos h4]; exact a2
          · cases h

theorem fsckLoop_list {f : File} (hm : f.mapped = true) (B : List Entry) : ∀ (A S : List Entry) {pe ps : Nat} {acc : Nat → Nat},
    f.slots = A ++ B ++ S → fsckLoop f B.length A.length pe ps acc = fsckL B pe ps acc := by
  induction B with
  | nil => intro A S pe ps acc _; rfl
  | cons e B ih =>
    intro A S pe ps acc h
    have h2 : f.slots = (A ++ [e]) ++ B ++ S := by rw [h]; simp
    have := fun pe ps acc => ih (A ++ [e]) S (pe := pe) (ps := ps) (acc := acc) h2
    simp only [List.length_append, List.length_singleton] at this
    have hd : deref f A.length 642 = .ok e := by unfold deref; rw [hm, h]; simp
    simp only [List.length_cons, fsckLoop, hd, bind_ok, fsckL, this]

/-- The walk passes iff the entries are sorted, disjoint, not empty (no entry crossing 2^64). -/
theorem fsckL_iff (B : List Entry) : ∀ {pe ps : Nat} {acc : Nat → Nat}, ps ≤ pe →
    (∀ e ∈ B, e.start + e.count < W64) → (∀ t, acc t < W64) →
    ((∃ a, fsckL B pe ps acc = .ok a) ↔
      (∀ e ∈ B, pe ≤ e.start ∧ 0 < e.count ∧ e.state < 4) ∧
      B.Pairwise (fun a b => a.start + a.count ≤ b.start)) ∧
    (∀ a, fsckL B pe ps acc = .ok a → ∀ t, a t = u64 (acc t + total t B)) := by
  induction B with
  | nil =>
    intro pe ps acc _ _ hacc
    refine ⟨⟨fun _ => ⟨by simp, by simp⟩, fun _ => ⟨_, rfl⟩⟩, fun a h t => ?_⟩
    injection h with h; subst h
    have := hacc t
    simp only [total_nil, u64]; omega
  | cons e B ih =>
    intro pe ps acc hps hw hacc
    have he := hw e (by simp)
    have hfin : e.fin = e.start + e.count := by unfold Entry.fin u64; omega
    have hacc' : ∀ t, (if t = e.state then u64 (acc t + e.count) else acc t) < W64 := by
      intro t; split
      · unfold u64; omega
      · exact hacc t
    obtain ⟨i1, i2⟩ := ih (pe := e.fin) (ps := e.start)
      (acc := fun t => if t = e.state then u64 (acc t + e.count) else acc t)
      (by omega) (fun x hx => hw x (by simp [hx])) hacc'
    unfold fsckL
    by_cases h1 : e.start < pe
    · rw [if_pos h1]
      refine ⟨⟨fun ⟨a, h⟩ => (by cases h), fun ⟨h, _⟩ => ?_⟩, fun a h => (by cases h)⟩
      have := (h e (by simp)).1; omega
    · rw [if_neg h1, if_neg (by omega)]
      by_cases h3 : e.count = 0
      · rw [if_pos h3]
        refine ⟨⟨fun ⟨a, h⟩ => (by cases h), fun ⟨h, _⟩ => ?_⟩, fun a h => (by cases h)⟩
        have := (h e (by simp)).2.1; omega
      · rw [if_neg h3]
        by_cases h4 : e.state < 4
        · rw [if_pos h4]
          refine ⟨?_, fun a h t => ?_⟩
          · rw [i1]
            constructor
            · rintro ⟨j1, j2⟩
              refine ⟨?_, ?_⟩
              · intro x hx
                simp only [List.mem_cons] at hx
                rcases hx with rfl | hx
                · exact ⟨by omega, by omega, h4⟩
                · have := j1 x hx
                  exact ⟨by omega, this.2⟩
              · rw [List.pairwise_cons]
                exact ⟨fun x hx => by have := (j1 x hx).1; omega, j2⟩
            · rintro ⟨j1, j2⟩
              rw [List.pairwise_cons] at j2
              exact ⟨fun x hx => ⟨by have := j2.1 x hx; omega, (j1 x (by simp [hx])).2⟩, j2.2⟩
          · rw [i2 a h t, total_cons]
            simp only [show (t = e.state) = (e.state = t) from propext eq_comm]
            split
            · unfold u64; omega
            · unfold u64; omega
        · rw [if_neg h4]
          refine ⟨⟨fun ⟨a, h⟩ => (by cases h), fun ⟨h, _⟩ => ?_⟩, fun a h => (by cases h)⟩
          exact absurd (h e (by simp)).2.2 h4

/-- The entries of a file are sorted, disjoint, non-empty, with valid states, and the stored
counters are the sums of the entry counts. -/
structure Consistent (f : File) : Prop where
  fits : f.n ≤ f.slots.length
  nonempty : ∀ e ∈ entries f, 0 < e.count
  states : ∀ e ∈ entries f, e.state < 4
  disjoint : (entries f).Pairwise (fun a b => a.start + a.count ≤ b.start)
  counters : ∀ t, t < 4 → f.cnt t = total t (entries f)

/-- Total of disjoint non-wrapping entries. -/
theorem total_lt {L : List Entry} : ∀ {b : Nat}, (∀ e ∈ L, b ≤ e.start ∧ e.start + e.count < W64) → b < W64 →
    L.Pairwise (fun a b => a.start + a.count ≤ b.start) → ∀ t, b + total t L < W64 := by
  induction L with
  | nil => intro b _ hb _ t; simpa using hb
  | cons e L ih =>
    intro b h hb hp t
    rw [List.pairwise_cons] at hp
    have he := h e (by simp)
    have := ih (b := e.start + e.count) (fun x hx => ⟨hp.1 x hx, (h x (by simp [hx])).2⟩) he.2 hp.2 t
    rw [total_cons]
    split <;> omega

/-- `shrink` succeeds on any file whose size is a multiple of 4096. -/
theorem shrink_ok {f : File} (hm : f.msize = f.fileSize) (hs : f.fileSize % 4096 = 0)
    (hn : f.n ≤ f.slots.length) : ∃ f', shrink f = .ok f' := by
  unfold File.fileSize at hm hs
  simp only [superblockSize, entrySize] at hm hs
  unfold shrink
  simp only [growSize, superblockSize, entrySize]
  by_cases h1 : f.msize / 4096 ≤ 1
  · rw [if_pos h1]; exact ⟨_, rfl⟩
  · rw [if_neg h1]
    by_cases h2 : (512 + f.n * 16 + 4096 - 1) / 4096 = f.msize / 4096
    · rw [if_pos h2]; exact ⟨_, rfl⟩
    · rw [if_neg h2]
      rw [chk_of (decide_eq_true (by omega)), bind_ok,
        chk_of (decide_eq_true (by omega)), bind_ok]
      exact ⟨_, rfl⟩

theorem fsck_ok_inv {f f' : File} (h : fsck f = .ok f') :
    ∃ acc, fsckL (entries f) 0 0 (fun _ => 0) = .ok acc ∧ f.n ≤ f.slots.length ∧
      ∀ t, t < 4 → acc t = f.cnt t := by
  unfold fsck at h
  obtain ⟨acc, h1, h⟩ := bind_inv h
  obtain ⟨h2, h3⟩ := fsckLoop_inv _ h1
  simp only [ensureMapped_slots, ensureMapped_n, List.drop_zero] at h2 h3
  refine ⟨acc, h3, ?_, ?_⟩
  · rw [List.length_take] at h2; omega
  · split at h
    · rename_i hc
      rw [ensureMapped_cnt] at hc
      intro t ht
      match t, ht with
      | 0, _ => exact hc.1
      | 1, _ => exact hc.2.1
      | 2, _ => exact hc.2.2.1
      | 3, _ => exact hc.2.2.2
    · cases h

theorem fsck_of_list {f : File} {acc : Nat → Nat} (hn : f.n ≤ f.slots.length)
    (h : fsckL (entries f) 0 0 (fun _ => 0) = .ok acc) (hc : ∀ t, t < 4 → acc t = f.cnt t) :
    fsck f = shrink (ensureMapped f) := by
  unfold fsck
  have hl : (entries f).length = f.n := by unfold entries; rw [List.length_take]; omega
  have := fsckLoop_list (f := ensureMapped f) (ensureMapped_mapped f) (entries f) [] (f.slots.drop f.n)
    (pe := 0) (ps := 0) (acc := fun _ => 0) (by rw [ensureMapped_slots]; simp [entries])
  rw [hl, h] at this
  simp only [ensureMapped_n]
  rw [List.length_nil] at this
  rw [this, bind_ok, ensureMapped_cnt]
  rw [if_pos ⟨hc 0 (by omega), hc 1 (by omega), hc 2 (by omega), hc 3 (by omega)⟩]

theorem fsck_sound {f f' : File} (hw : ∀ e ∈ entries f, e.start + e.count < W64)
    (h : fsck f = .ok f') : Consistent f := by
  obtain ⟨acc, h1, h2, h3⟩ := fsck_ok_inv h
  obtain ⟨i1, i2⟩ := fsckL_iff (entries f) (pe := 0) (ps := 0) (acc := fun _ => 0) (Nat.le_refl _) hw (by simp)
  obtain ⟨j1, j2⟩ := i1.1 ⟨acc, h1⟩
  refine ⟨h2, fun e he => (j1 e he).2.1, fun e he => (j1 e he).2.2, j2, fun t ht => ?_⟩
  rw [← h3 t ht, i2 acc h1 t]
  have := total_lt (b := 0) (fun e he => ⟨Nat.zero_le _, hw e he⟩) (by omega) j2 t
  unfold u64; omega

theorem fsck_complete {f : File} (hw : ∀ e ∈ entries f, e.start + e.count < W64)
    (h : Consistent f) : fsck f = shrink (ensureMapped f) := by
  obtain ⟨i1, i2⟩ := fsckL_iff (entries f) (pe := 0) (ps := 0) (acc := fun _ => 0) (Nat.le_refl _) hw (by simp)
  obtain ⟨acc, ha⟩ := i1.2 ⟨fun e he => ⟨Nat.zero_le _, h.nonempty e he, h.states e he⟩, h.disjoint⟩
  refine fsck_of_list h.fits ha (fun t ht => ?_)
  rw [i2 acc ha t, h.counters t ht]
  have := total_lt (b := 0) (fun e he => ⟨Nat.zero_le _, hw e he⟩) (by omega) h.disjoint t
  unfold u64; omega

theorem Inv.entries {f : File} {L : List Entry} (h : Inv f L) : Blocklist.entries f = L := by
  obtain ⟨S, hS⟩ := h.slots
  unfold Blocklist.entries
  rw [hS, h.n]; simp

theorem Inv.fsck_ok {f : File} {L : List Entry} (h : Inv f L) (hw : SWf L) : ∃ f', Blocklist.fsck f = .ok f' := by
  have hr : ∀ e ∈ Blocklist.entries f, e.start + e.count < W64 := by
    rw [h.entries]; exact fun e he => (h.w0.ok e he).range
  have hc : Consistent f := by
    refine ⟨by rw [h.n]; exact h.n_le, ?_, ?_, ?_, fun t ht => ?_⟩
    · rw [h.entries]; exact hw.pos
    · rw [h.entries]; exact fun e he => (h.w0.ok e he).state
    · rw [h.entries]; exact hw.disj
    · rw [h.entries, h.cnt]
      have := total_lt (b := 0) (L := L) (fun e he => ⟨Nat.zero_le _, (h.w0.ok e he).range⟩) (by omega) hw.disj t
      unfold wrapI; omega
  rw [fsck_complete hr hc]
  obtain ⟨f', e, _⟩ := h.mapped.shrink
  exact ⟨f', e⟩

end Dragonstash.Blocklist
