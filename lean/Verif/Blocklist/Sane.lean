import Verif.Blocklist.Lives
/-
  Whatever a sequence of dying processes leaves in the file, no call accesses memory outside of the
  mapping: it returns, or an assertion fails.
-/
namespace Dragonstash.Blocklist

/-- The file is mapped in full, the entries are within the file, all states are in range.  Nothing is
said about order, overlap and counters. -/
structure Mapd (f : File) : Prop where
  mapped : f.mapped = true
  ms : f.msize = 512 + 16 * f.slots.length
  le : f.n ≤ f.slots.length
  states : Al (fun e => e.state < 4) f

/-- A computation which leaves sane files, and returns or fails by an assertion. -/
structure Mild {α : Type} (x : T α) (Q : α → Prop) : Prop where
  crash : ∀ g, x.crash g → Mapd g
  res : ∀ a, x.res = .ok a → Q a
  mild : (∃ a, x.res = .ok a) ∨ ∃ l, x.res = .error (.assertFail l)

theorem Mild.bind {α β : Type} {x : T α} {k : α → T β} {Q : α → Prop} {R : β → Prop}
    (h : Mild x Q) (hk : ∀ a, x.res = .ok a → Q a → Mild (k a) R) : Mild (x >>= k) R := by
  refine ⟨?_, ?_, ?_⟩
  · rintro g (hg | ⟨a, ha, hg⟩)
    · exact h.crash g hg
    · exact (hk a ha (h.res a ha)).crash g hg
  · intro b hb
    change (x.res >>= fun a => (k a).res) = .ok b at hb
    cases hx : x.res with
    | error e => rw [hx] at hb; cases hb
    | ok a => rw [hx] at hb; exact (hk a hx (h.res a hx)).res b hb
  · change (∃ b, (x.res >>= fun a => (k a).res) = .ok b) ∨ ∃ l, (x.res >>= fun a => (k a).res) = .error (.assertFail l)
    rcases h.mild with ⟨a, ha⟩ | ⟨l, hl⟩
    · rw [ha]; exact (hk a ha (h.res a ha)).mild
    · rw [hl]; exact .inr ⟨l, rfl⟩

theorem Mild.pure {α : Type} {a : α} {Q : α → Prop} (h : Q a) : Mild (Pure.pure a : T α) Q :=
  ⟨fun _ hg => hg.elim, fun b hb => by cases hb; exact h, .inl ⟨a, rfl⟩⟩

theorem Mild.quiet {α : Type} {m : M α} {Q : α → Prop} {a : α} (hm : m = .ok a) (h : Q a) : Mild (T.quiet m) Q :=
  ⟨fun _ hg => hg.elim, fun b hb => by
    have : m = .ok b := hb
    rw [hm] at this; cases this; exact h, .inl ⟨a, hm⟩⟩

theorem Mild.chk {β : Type} {l : Nat} {p : Prop} [Decidable p] {k : Unit → T β} {R : β → Prop}
    (hk : p → Mild (k ()) R) : Mild (T.quiet (Dragonstash.chk l (decide p)) >>= k) R := by
  by_cases hp : p
  · refine Mild.bind (Q := fun _ => p) (Mild.quiet (a := ()) (by rw [decide_eq_true hp]; rfl) hp) (fun _ _ h => hk h)
  · refine Mild.bind (Q := fun _ => p) ⟨fun _ hg => hg.elim, fun a ha => ?_, .inr ⟨l, ?_⟩⟩ (fun _ _ h => hk h)
    · have : Dragonstash.chk l (decide p) = .ok a := ha
      rw [decide_eq_false hp] at this; cases this
    · rw [decide_eq_false hp]; rfl

theorem Mild.point {m : M File} {Q : File → Prop} {g : File} (hm : m = .ok g) (hc : Mapd g) (h : Q g) : Mild (T.point m) Q :=
  ⟨fun b hb => by
    have : m = .ok b := hb
    rw [hm] at this; cases this; exact hc, fun b hb => by
    have : m = .ok b := hb
    rw [hm] at this; cases this; exact h, .inl ⟨g, hm⟩⟩

variable {f g : File}

theorem Mapd.deref (h : Mapd f) {i : Nat} (hi : i < f.slots.length) (l : Nat) :
    deref f i l = .ok f.slots[i] ∧ f.slots[i].state < 4 := by
  refine ⟨?_, h.states i _ (List.getElem?_eq_getElem hi)⟩
  unfold Blocklist.deref
  rw [if_pos h.mapped, List.getElem?_eq_getElem hi]

theorem Mild.deref (h : Mapd f) {i : Nat} (hi : i < f.slots.length) (l : Nat) :
    Mild (T.quiet (Blocklist.deref f i l)) (fun e => e.state < 4) := Mild.quiet (h.deref hi l).1 (h.deref hi l).2

theorem storeT_mild (h : Mapd f) {i : Nat} (hi : i < f.slots.length) {e : Entry} (he : e.state < 4) (l : Nat) :
    Mild (storeT f i e l) (fun g => Mapd g ∧ g.n = f.n ∧ g.slots.length = f.slots.length) := by
  have hs : Mapd { f with slots := f.slots.set i e } :=
    ⟨h.mapped, by simp only [List.length_set]; exact h.ms, by simp only [List.length_set]; exact h.le,
      h.states.set (k := i) (x := e) rfl he⟩
  refine Mild.point (g := { f with slots := f.slots.set i e }) ?_ hs ⟨hs, rfl, by simp only [List.length_set]⟩
  unfold store
  rw [h.mapped, decide_eq_true hi]
  rfl

theorem Mapd.count {c : Nat → Nat} (h : Mapd f) : Mapd { f with cnt := c } := ⟨h.mapped, h.ms, h.le, h.states⟩

theorem addCntT_mild (h : Mapd f) {s : Nat} (hs : s < 4) (d l : Nat) :
    Mild (addCntT f s d l) (fun g => Mapd g ∧ g.n = f.n ∧ g.slots = f.slots) := by
  refine Mild.point (g := { f with cnt := fun t => if t = s then u64 (f.cnt t + d) else f.cnt t }) ?_ h.count ⟨h.count, rfl, rfl⟩
  unfold addCnt
  rw [if_pos hs]

theorem subCntT_mild (h : Mapd f) {s : Nat} (hs : s < 4) (d l : Nat) :
    Mild (subCntT f s d l) (fun g => Mapd g ∧ g.n = f.n ∧ g.slots = f.slots) := by
  refine Mild.point (g := { f with cnt := fun t => if t = s then sub64 (f.cnt t) d else f.cnt t }) ?_ h.count ⟨h.count, rfl, rfl⟩
  unfold subCnt
  rw [if_pos hs]

theorem uncountT_mild (k : Nat) : ∀ {f : File}, Mapd f → ∀ {i : Nat}, i + k ≤ f.slots.length →
    Mild (uncountT f i k) (fun g => Mapd g ∧ g.n = f.n ∧ g.slots = f.slots) := by
  induction k with
  | zero => intro f h i _; exact Mild.pure ⟨h, rfl, rfl⟩
  | succ k ih =>
    intro f h i hi
    refine Mild.bind (Mild.deref h (by omega) 240) (fun e _ he => ?_)
    refine Mild.bind (subCntT_mild h he _ _) (fun f1 _ ⟨h1, n1, s1⟩ => ?_)
    have := ih h1 (i := i + 1) (by rw [s1]; omega)
    rw [n1, s1] at this
    exact this

theorem memmoveT_mild (h : Mapd f) {d s k : Nat} (hd : d + k ≤ f.slots.length) (hs : s + k ≤ f.slots.length) (l : Nat) :
    Mild (memmoveT f d s k l) (fun g => Mapd g ∧ g.n = f.n ∧ g.slots.length = f.slots.length) := by
  have hm : memmove f d s k l = .ok { f with slots := f.slots.take d ++ (f.slots.drop s).take k ++ f.slots.drop (d + k) } := by
    unfold memmove
    rw [h.mapped, decide_eq_true hd, decide_eq_true hs]
    rfl
  have hinv := memmove_inv hm
  have al := memmoveT_al h.states d s k l
  refine ⟨?_, ?_, .inl ⟨_, hm⟩⟩
  · rintro g ⟨f2, hf2, hx⟩
    exact ⟨by rw [hx.mapped]; exact h.mapped, by rw [hx.msize, hx.length]; exact h.ms, by rw [hx.n, hx.length]; exact h.le,
      al.crash g ⟨f2, hf2, hx⟩⟩
  · intro g hg
    have e : memmove f d s k l = .ok g := hg
    have hal := al.res g hg
    rw [hm] at e
    injection e with e
    subst e
    exact ⟨⟨h.mapped, by rw [hinv.2.2.1]; exact h.ms, by rw [hinv.2.2.1]; exact h.le, hal⟩, rfl, hinv.2.2.1⟩

theorem deleteRangeT_mild (h : Mapd f) (b e : Nat) :
    Mild (deleteRangeT f b e) (fun r => Mapd r.1 ∧ r.2 = b ∧ b ≤ e ∧ e ≤ f.n ∧ r.1.n = f.n - (e - b)) := by
  unfold deleteRangeT
  refine Mild.chk (fun hb => Mild.chk (fun he => Mild.chk (fun _ => ?_)))
  have := h.le
  refine Mild.bind (uncountT_mild _ h (by omega)) (fun f1 _ ⟨h1, n1, s1⟩ => ?_)
  refine Mild.bind (memmoveT_mild h1 (by rw [s1]; omega) (by rw [s1]; omega) 243) (fun f2 _ ⟨h2, n2, s2⟩ => ?_)
  have h3 : Mapd { f2 with n := f2.n - (e - b) } := ⟨h2.mapped, h2.ms, by have := h2.le; simp only; omega, h2.states⟩
  refine Mild.bind (Q := fun g => Mapd g ∧ g.n = f.n - (e - b)) (Mild.point rfl h3 ⟨h3, by simp only; rw [n2, n1]⟩)
    (fun f3 _ ⟨h3, n3⟩ => Mild.pure ⟨h3, rfl, hb, he, n3⟩)

theorem Mapd.ensureMapped (h : Mapd f) : ensureMapped f = f := ensureMapped_of h.mapped

theorem deleteEntryT_mild (h : Mapd f) {i : Nat} (hi : i < f.n) :
    Mild (deleteEntryT f i) (fun r => Mapd r.1 ∧ r.2 = i ∧ r.1.n = f.n - 1) := by
  unfold deleteEntryT
  simp only [h.ensureMapped]
  rw [if_neg (by omega)]
  have := deleteRangeT_mild h i (i + 1)
  exact ⟨this.crash, fun a ha => by
    obtain ⟨h1, h2, _, _, h3⟩ := this.res a ha
    exact ⟨h1, h2, by rw [h3]; omega⟩, this.mild⟩

theorem tryMergeT_mild (h : Mapd f) {i : Nat} (hi : i < f.n) :
    Mild (tryMergeT f i) (fun r => Mapd r.1 ∧ (r.2.1 = true → 0 < i ∧ r.2.2 = i - 1 ∧ r.1.n = f.n - 1) ∧ (r.2.1 = false → r.1 = f)) := by
  have hle := h.le
  unfold tryMergeT
  by_cases h0 : i = 0
  · rw [if_pos h0]; exact Mild.pure ⟨h, (fun hh => by cases hh), (fun _ => rfl)⟩
  rw [if_neg h0]
  refine Mild.bind (Mild.deref h (by omega) 262) (fun prev _ hp => ?_)
  refine Mild.bind (Mild.deref h (by omega) 262) (fun it _ hit => ?_)
  by_cases h1 : prev.fin ≠ it.start
  · rw [if_pos h1]; exact Mild.pure ⟨h, (fun hh => by cases hh), (fun _ => rfl)⟩
  rw [if_neg h1]
  by_cases h2 : prev.state ≠ it.state
  · rw [if_pos h2]; exact Mild.pure ⟨h, (fun hh => by cases hh), (fun _ => rfl)⟩
  rw [if_neg h2]
  simp only
  by_cases h3 : prev.count + it.count > limit
  · rw [if_pos h3]; exact Mild.pure ⟨h, (fun hh => by cases hh), (fun _ => rfl)⟩
  rw [if_neg h3]
  refine Mild.bind (storeT_mild h (by omega) (e := { prev with count := u16 (prev.count + it.count) }) hp 280)
    (fun f1 _ ⟨g1, n1, _⟩ => ?_)
  refine Mild.bind (addCntT_mild g1 hp _ _) (fun f2 _ ⟨g2, n2, _⟩ => ?_)
  refine Mild.bind (deleteEntryT_mild g2 (by omega)) (fun r _ ⟨g3, e3, n3⟩ => ?_)
  exact Mild.pure ⟨g3, fun _ => ⟨by omega, by simp only; rw [e3], by rw [n3]; omega⟩, fun h => by cases h⟩

theorem mergeAroundT_mild (h : Mapd f) {i : Nat} (hi : i < f.n) : Mild (mergeAroundT f i) Mapd := by
  unfold mergeAroundT
  refine Mild.bind (Q := fun r => Mapd r.1 ∧ r.2 < r.1.n) ?_ (fun r _ ⟨h1, h2⟩ => ?_)
  · unfold mergeNextT
    by_cases hn : i + 1 ≠ f.n
    · rw [if_pos hn]
      refine Mild.bind (tryMergeT_mild h (i := i + 1) (by omega)) (fun r _ ⟨h1, h2, h3⟩ => Mild.pure ⟨h1, ?_⟩)
      simp only
      by_cases hr : r.2.1 = true
      · rw [if_pos hr]
        obtain ⟨_, a, b⟩ := h2 hr
        omega
      · rw [if_neg hr, h3 (by simpa using hr)]; exact hi
    · rw [if_neg hn]; exact Mild.pure ⟨h, hi⟩
  · exact Mild.bind (tryMergeT_mild h1 h2) (fun r2 _ h2 => Mild.pure h2.1)

theorem requireSpaceT_mild (h : Mapd f) :
    Mild (requireSpaceT f) (fun g => Mapd g ∧ g.n = f.n ∧ g.n < g.slots.length) := by
  have key : ∀ g, requireSpace f = .ok g → Mapd g ∧ g.n = f.n ∧ g.n < g.slots.length := by
    intro g hg
    obtain ⟨h1, h2, h3, _, h5⟩ := requireSpace_inv hg h.mapped h.ms
    refine ⟨⟨h1, h5, by omega, ?_⟩, h2, h3⟩
    rcases requireSpace_slots hg with hs | hs
    · exact h.states.same hs
    · intro i e he
      rw [hs] at he
      rcases List.mem_append.1 (List.mem_of_getElem? he) with hm | hm
      · obtain ⟨k, hk, hke⟩ := List.getElem_of_mem hm
        exact h.states k e (by rw [List.getElem?_eq_getElem hk, hke])
      · rw [(List.mem_replicate.1 hm).2]; decide
  refine ⟨fun g hg => (key g hg).1, fun g hg => key g hg, ?_⟩
  change (∃ a, requireSpace f = .ok a) ∨ ∃ l, requireSpace f = .error (.assertFail l)
  unfold requireSpace
  simp only
  generalize (if capacity f = nentries f then Blocklist.ensureMapped (grow f) else Blocklist.ensureMapped f) = x
  unfold chk
  by_cases hc : decide (capacity x > nentries x) = true
  · rw [if_pos hc]; exact .inl ⟨x, rfl⟩
  · rw [if_neg hc]; exact .inr ⟨208, rfl⟩

theorem insertBeforeT_mild (h : Mapd f) {d : Nat} (hd : d ≤ f.n) {e : Entry} (he : e.state < 4) :
    Mild (insertBeforeT f d e) (fun r => Mapd r.1 ∧ r.2 = d ∧ r.1.n = f.n + 1) := by
  unfold insertBeforeT
  simp only
  refine Mild.bind (requireSpaceT_mild h) (fun f1 _ ⟨h1, n1, l1⟩ => ?_)
  refine Mild.bind (Q := fun g => Mapd g ∧ g.n = f.n ∧ g.n < g.slots.length) ?_ (fun f2 _ ⟨h2, n2, l2⟩ => ?_)
  · by_cases ht : f.n - d ≠ 0
    · rw [if_pos ht]
      have := memmoveT_mild h1 (d := d + 1) (s := d) (k := f.n - d) (by omega) (by omega) 295
      exact ⟨this.crash, fun a ha => by
        obtain ⟨a1, a2, a3⟩ := this.res a ha
        exact ⟨a1, by omega, by omega⟩, this.mild⟩
    · rw [if_neg ht]; exact Mild.pure ⟨h1, n1, l1⟩
  · refine Mild.bind (storeT_mild h2 (by omega) he 300) (fun f3 _ ⟨h3, n3, l3⟩ => ?_)
    have h4 : Mapd { f3 with n := f3.n + 1 } := ⟨h3.mapped, h3.ms, by simp only; omega, h3.states⟩
    refine Mild.bind (Q := fun g => Mapd g ∧ g.n = f.n + 1) (Mild.point rfl h4 ⟨h4, by simp only; omega⟩)
      (fun f4 _ ⟨h4, n4⟩ => Mild.pure ⟨h4, rfl, n4⟩)

theorem splitEntryT_mild (h : Mapd f) {j : Nat} (hj : j < f.n) (s : Nat) :
    Mild (splitEntryT f j s) (fun r => Mapd r.1 ∧ r.2 = j ∧ r.1.n = f.n + 1) := by
  have hle := h.le
  unfold splitEntryT
  refine Mild.bind (Mild.deref h (by omega) 309) (fun a _ ha => ?_)
  refine Mild.chk (fun _ => Mild.chk (fun _ => ?_))
  simp only
  refine Mild.bind (storeT_mild h (by omega) (e := { a with count := u16 (sub64 s a.start) }) ha 317) (fun f1 _ ⟨h1, n1, _⟩ => ?_)
  refine Mild.bind (insertBeforeT_mild h1 (d := j + 1) (by omega) (e := { a with start := s, count := u16 (sub64 a.fin s) }) ha)
    (fun r _ ⟨h2, e2, n2⟩ => ?_)
  have := h2.le
  refine Mild.bind (Mild.deref h2 (by omega) 320) (fun x _ _ => ?_)
  refine Mild.bind (Mild.deref h2 (by omega) 321) (fun y _ _ => ?_)
  exact Mild.chk (fun _ => Mild.chk (fun _ => Mild.chk (fun _ => Mild.pure ⟨h2, by simp only; omega, by simp only; omega⟩)))

theorem upperBound_mapd (h : Mapd f) (b : Nat) (fuel : Nat) : ∀ first len, len ≤ fuel → first + len ≤ f.n →
    ∃ r, upperBound f b fuel first len = .ok r ∧ r ≤ f.n := by
  have hle := h.le
  induction fuel with
  | zero =>
    intro first len h1 h2
    have : len = 0 := by omega
    subst this
    exact ⟨first, by unfold upperBound; rfl, by omega⟩
  | succ fuel ih =>
    intro first len h1 h2
    cases len with
    | zero => exact ⟨first, by unfold upperBound; rfl, by omega⟩
    | succ len =>
      unfold upperBound
      simp only
      rw [(h.deref (i := first + (len + 1) / 2) (by omega) 335).1]
      simp only [bind_ok]
      by_cases hc : b < (f.slots[first + (len + 1) / 2]'(by omega)).fin
      · rw [if_pos hc]; exact ih _ _ (by omega) (by omega)
      · rw [if_neg hc]; exact ih _ _ (by omega) (by omega)

theorem findOverlapping_mapd (h : Mapd f) (s c : Nat) :
    ∃ o : Nat × Nat, findOverlapping f s c = .ok o ∧ o.1 ≤ f.n ∧ o.2 ≤ f.n := by
  have hle := h.le
  unfold findOverlapping
  by_cases h0 : f.n = 0
  · rw [if_pos h0]; exact ⟨_, rfl, by simp only; omega, by simp only; omega⟩
  rw [if_neg h0]
  unfold searchEntry
  obtain ⟨r, e1, l1⟩ := upperBound_mapd h s f.n 0 f.n (by omega) (by omega)
  rw [e1]
  simp only [bind_ok]
  by_cases hr : r = f.n
  · rw [if_pos hr]; exact ⟨_, rfl, by simp only; omega, by simp only; omega⟩
  rw [if_neg hr, (h.deref (i := r) (by omega) 370).1]
  simp only [bind_ok]
  obtain ⟨q, e2, l2⟩ := upperBound_mapd h (u64 (s + c)) f.n 0 f.n (by omega) (by omega)
  rw [e2]
  refine ⟨_, rfl, ?_, l2⟩
  simp only
  by_cases hc : (f.slots[r]'(by omega)).contains s = true
  · rw [if_pos hc]; omega
  · rw [if_neg hc]
    by_cases h1 : r = 0
    · rw [if_pos h1]; omega
    · rw [if_neg h1]; omega

theorem containsAt_mild (h : Mapd f) {i : Nat} (hi : i ≤ f.n) (b l : Nat) :
    Mild (T.quiet (containsAt f i b l)) (fun r => r = true → i < f.n) := by
  have hle := h.le
  by_cases h0 : i ≠ f.n
  · have : containsAt f i b l = .ok ((f.slots[i]'(by omega)).contains b) := by
      unfold containsAt
      rw [if_pos h0, (h.deref (i := i) (by omega) l).1]
      rfl
    exact Mild.quiet this (fun _ => by omega)
  · have : containsAt f i b l = .ok false := by
      unfold containsAt
      rw [if_neg h0]
    exact Mild.quiet this (fun h => by cases h)

theorem trimEndT_mild (h : Mapd f) {ec : Bool} {eo : Nat} (hec : ec = true → eo < f.n) (fin : Nat) :
    Mild (trimEndT f ec eo fin) (fun g => Mapd g ∧ g.n = f.n) := by
  have hle := h.le
  unfold trimEndT
  cases ec with
  | false => exact Mild.pure ⟨h, rfl⟩
  | true =>
    have := hec rfl
    simp only [if_true]
    refine Mild.bind (Mild.deref h (by omega) 484) (fun x _ hx => ?_)
    refine Mild.bind (storeT_mild h (by omega) (e := { x with start := fin }) hx 486) (fun f1 _ ⟨h1, n1, l1⟩ => ?_)
    refine Mild.bind (storeT_mild h1 (by omega) (e := { x with start := fin, count := u16 (sub64 x.fin fin) }) hx 486)
      (fun f2 _ ⟨h2, n2, l2⟩ => ?_)
    have e488 : (!({ x with start := fin, count := u16 (sub64 x.fin fin) } : Entry).contains (sub64 fin 1)) =
        decide ((!({ x with start := fin, count := u16 (sub64 x.fin fin) } : Entry).contains (sub64 fin 1)) = true) := by
      cases (!({ x with start := fin, count := u16 (sub64 x.fin fin) } : Entry).contains (sub64 fin 1)) <;> rfl
    rw [e488]
    refine Mild.chk (fun _ => Mild.chk (fun _ => ?_))
    have := subCntT_mild h2 (s := x.state) hx (x.count - u16 (sub64 x.fin fin)) 490
    exact ⟨this.crash, fun a ha => by
      obtain ⟨a1, a2, _⟩ := this.res a ha
      exact ⟨a1, by omega⟩, this.mild⟩

theorem finishMarkT_mild (h : Mapd f) (so eo : Nat) {x : Entry} {st : State} (hx : st ≠ .absent → x.state < 4) :
    Mild (finishMarkT f so eo x st) Mapd := by
  unfold finishMarkT
  simp only
  refine Mild.bind (deleteRangeT_mild h _ _) (fun r _ ⟨h1, e1, l1, l2, n1⟩ => ?_)
  by_cases hst : st = .absent
  · rw [if_pos hst]; exact Mild.pure h1
  rw [if_neg hst]
  refine Mild.bind (insertBeforeT_mild h1 (d := r.2) (by omega) (hx hst)) (fun r2 _ ⟨h2, e2, n2⟩ => ?_)
  refine Mild.bind (addCntT_mild h2 (hx hst) _ _) (fun f3 _ ⟨h3, n3, _⟩ => ?_)
  exact mergeAroundT_mild h3 (by omega)

theorem markInternalT_mild (h : Mapd f) (s c : Nat) (st : State) : Mild (markInternalT f s c st) Mapd := by
  have hcode : st ≠ .absent → st.code < 4 := by cases st <;> simp [State.code]
  unfold markInternalT
  simp only
  obtain ⟨o, ho, o1, o2⟩ := findOverlapping_mapd h s c
  refine Mild.bind (Q := fun x : Nat × Nat => x.1 ≤ f.n ∧ x.2 ≤ f.n) (Mild.quiet ho ⟨o1, o2⟩) (fun x _ ⟨o1, o2⟩ => ?_)
  refine Mild.bind (Q := fun r => Mapd r.1 ∧ r.2.1 ≤ r.1.n ∧ r.2.2 ≤ r.1.n) ?_ (fun r _ ⟨h1, s1, s2⟩ => ?_)
  · unfold caseSplitT
    by_cases hsp : x.1 ≠ f.n ∧ x.1 = x.2
    · rw [if_pos hsp]
      refine Mild.bind (splitEntryT_mild h (by omega) s) (fun r _ ⟨h1, e1, n1⟩ => ?_)
      exact Mild.pure ⟨h1, by simp only; omega, by simp only; omega⟩
    · rw [if_neg hsp]; exact Mild.pure ⟨h, o1, o2⟩
  obtain ⟨fa, so, eo⟩ := r
  simp only at h1 s1 s2 ⊢
  refine Mild.bind (containsAt_mild h1 s1 s 445) (fun sc _ hsc => ?_)
  refine Mild.bind (containsAt_mild h1 s2 _ 446) (fun ec _ hec => ?_)
  have hle := h1.le
  by_cases hs : sc = true
  · rw [if_pos hs]
    have hso := hsc hs
    refine Mild.bind (Mild.deref h1 (by omega) 451) (fun y _ hy => ?_)
    by_cases hex : y.start = s ∧ y.count ≤ c
    · rw [if_pos hex]
      by_cases hst : st = .absent
      · rw [if_pos hst]
        exact Mild.bind (deleteRangeT_mild h1 _ _) (fun r _ h2 => Mild.pure h2.1)
      · rw [if_neg hst]
        refine Mild.bind (subCntT_mild h1 hy _ _) (fun f2 _ ⟨h2, n2, l2⟩ => ?_)
        refine Mild.bind (storeT_mild h2 (by rw [l2]; omega) (e := ⟨s, c, st.code⟩) (hcode hst) 458) (fun f3 _ ⟨h3, n3, _⟩ => ?_)
        refine Mild.bind (addCntT_mild h3 (hcode hst) _ _) (fun f4 _ ⟨h4, n4, _⟩ => ?_)
        refine Mild.bind (deleteRangeT_mild h4 _ _) (fun r _ ⟨h5, e5, l5, l6, n5⟩ => ?_)
        exact mergeAroundT_mild h5 (by omega)
    · rw [if_neg hex]
      refine Mild.bind (storeT_mild h1 (by omega) (e := { y with count := u16 (sub64 s y.start) }) hy 475) (fun f2 _ ⟨h2, n2, _⟩ => ?_)
      refine Mild.chk (fun _ => Mild.chk (fun _ => Mild.chk (fun _ => ?_)))
      refine Mild.bind (subCntT_mild h2 (s := y.state) hy _ _) (fun f3 _ ⟨h3, n3, _⟩ => ?_)
      refine Mild.bind (trimEndT_mild h3 (fun hh => by have := hec hh; omega) _) (fun f4 _ ⟨h4, _⟩ => finishMarkT_mild h4 _ _ hcode)
  · rw [if_neg hs]
    exact Mild.bind (trimEndT_mild h1 hec _) (fun f4 _ ⟨h4, _⟩ => finishMarkT_mild h4 _ _ hcode)

theorem markLoopT_mild (st : State) (fuel : Nat) : ∀ {f : File} {s c : Nat}, c / limit < fuel → Mapd f →
    Mild (markLoopT st fuel f s c) Mapd := by
  induction fuel with
  | zero => intro f s c h; exact absurd h (Nat.not_lt_zero _)
  | succ n ih =>
    intro f s c hc h
    unfold markLoopT
    by_cases h1 : c > limit
    · rw [if_pos h1]
      refine Mild.bind (markInternalT_mild h s limit st) (fun f2 _ h2 => ?_)
      refine ih ?_ h2
      simp only [limit] at hc h1 ⊢
      omega
    · rw [if_neg h1]
      by_cases h2 : c > 0
      · rw [if_pos h2]; exact markInternalT_mild h s c st
      · rw [if_neg h2]; exact Mild.pure h

/-- Between calls the file may be unmapped (`shrink`). -/
structure Tame (f : File) : Prop where
  ms : f.mapped = true → f.msize = 512 + 16 * f.slots.length
  le : f.n ≤ f.slots.length
  states : Al (fun e => e.state < 4) f

theorem Mapd.tame (h : Mapd f) : Tame f := ⟨fun _ => h.ms, h.le, h.states⟩

theorem Tame.mapped (h : Tame f) : Mapd (ensureMapped f) := by
  have hm : (ensureMapped f).mapped = true ∧ (ensureMapped f).msize = 512 + 16 * f.slots.length := by
    unfold ensureMapped
    by_cases hm : f.mapped = true
    · rw [if_pos hm]; exact ⟨hm, h.ms hm⟩
    · rw [if_neg hm]; exact ⟨rfl, rfl⟩
  exact ⟨hm.1, by rw [ensureMapped_slots]; exact hm.2, by rw [ensureMapped_slots, ensureMapped_n]; exact h.le,
    h.states.same (ensureMapped_slots f)⟩

theorem markT_mild (h : Tame f) (s c : Nat) (st : State) : Mild (markT f s c st) Mapd := by
  unfold markT
  refine Mild.bind (Q := Mapd) (Mild.point rfl h.mapped h.mapped) (fun f1 _ h1 => ?_)
  exact markLoopT_mild st _ (Nat.lt_succ_self _) h1

theorem shrink_tame (h : Tame f) (hs : shrink f = .ok g) : Tame g := by
  have hst := shrink_al h.states hs
  unfold shrink at hs
  simp only at hs
  by_cases h1 : f.msize / growSize ≤ 1
  · rw [if_pos h1] at hs; injection hs with hs; rw [← hs]; exact h
  rw [if_neg h1] at hs
  by_cases h2 : (superblockSize + f.n * entrySize + growSize - 1) / growSize = f.msize / growSize
  · rw [if_pos h2] at hs; injection hs with hs; rw [← hs]; exact h
  rw [if_neg h2] at hs
  generalize (superblockSize + f.n * entrySize + growSize - 1) / growSize * growSize = z at hs
  obtain ⟨u, c1, hs⟩ := bind_inv hs
  obtain ⟨u2, c2, hs⟩ := bind_inv hs
  have c2 : (z - superblockSize) / entrySize ≥ f.n := by
    apply Classical.byContradiction
    intro hc
    rw [decide_eq_false hc] at c2
    cases c2
  injection hs with hs
  have e : (ensureUnmapped f).slots = f.slots ∧ (ensureUnmapped f).n = f.n ∧ (ensureUnmapped f).mapped = false := by
    unfold ensureUnmapped
    by_cases hm : f.mapped = true
    · rw [if_pos hm]; exact ⟨rfl, rfl, rfl⟩
    · rw [if_neg hm]; exact ⟨rfl, rfl, by simpa using hm⟩
  refine ⟨fun hm => ?_, ?_, hst⟩
  · rw [← hs] at hm
    simp only [e.2.2] at hm
    cases hm
  · rw [← hs]
    simp only [List.length_take, e.1, e.2.1]
    have := h.le
    omega

theorem fsck_tame (h : Tame f) (hs : fsck f = .ok g) : Tame g := by
  unfold fsck at hs
  simp only at hs
  obtain ⟨acc, _, hs⟩ := bind_inv hs
  by_cases hc : acc 0 = (ensureMapped f).cnt 0 ∧ acc 1 = (ensureMapped f).cnt 1 ∧ acc 2 = (ensureMapped f).cnt 2 ∧ acc 3 = (ensureMapped f).cnt 3
  · rw [if_pos hc] at hs; exact shrink_tame h.mapped.tame hs
  · rw [if_neg hc] at hs; cases hs

theorem reopen_tame (h1 : f.n ≤ f.slots.length) (h2 : Al (fun e => e.state < 4) f) : Tame (reopen f) := by
  have : Tame (ensureUnmapped f) := by
    unfold ensureUnmapped
    by_cases hm : f.mapped = true
    · rw [if_pos hm]; exact ⟨(fun h => by cases h), h1, h2⟩
    · rw [if_neg hm]; exact ⟨(fun h => absurd h hm), h1, h2⟩
  exact this.mapped.tame

/-- Without power failures the file stays tame, also over the deaths of processes. -/
theorem Life.tame {cs : List Call} {V : File → Prop} {f : File} (h : Life False cs V f) : Tame f := by
  induction h with
  | start =>
    refine ⟨fun _ => by decide +kernel, by decide +kernel, fun i e he => ?_⟩
    rw [(List.mem_replicate.1 (List.mem_of_getElem? he)).2]; decide
  | @call cs V f g c _ hr hs ih =>
    cases c with
    | mark s n st => exact ((markT_mild ih s n st).res g (by rw [markT_res]; exact hs)).tame
    | shrink => exact shrink_tame ih hs
    | fsck =>
      unfold step at hs
      cases hf : fsck f with
      | ok a => rw [hf] at hs; injection hs with hs; subst hs; exact fsck_tame ih hf
      | error e =>
        rw [hf] at hs
        cases e with
        | thrown l => injection hs with hs; subst hs; exact ih.mapped.tame
        | _ => cases hs
    | reopen => injection hs with hs; subst hs; exact reopen_tame ih.le ih.states
  | @die cs V f g s n st _ h1 hc ih =>
    have := (markT_mild ih s n st).crash g hc
    exact reopen_tame this.le this.states
  | power hp => exact hp.elim

end Dragonstash.Blocklist
