import Verif.Blocklist.Model
/-
  Raw file operations act on the list of live entries.
  `Rep f L S g`: the mapped file `f` has live entries `L`, slack slots `S` behind them, and its
  counters are the integers `g` modulo 2^64.
-/
namespace Dragonstash.Blocklist

/-- Counter value representing an integer modulo 2^64. -/
def wrapI (x : Int) : Nat := (x % (W64 : Int)).toNat

structure Rep (f : File) (L S : List Entry) (g : Nat → Int) : Prop where
  slots : f.slots = L ++ S
  n : f.n = L.length
  mapped : f.mapped = true
  msize : f.msize = 512 + 16 * (L.length + S.length)
  cnt : ∀ t, f.cnt t = wrapI (g t)

/-- Sum of the counts of the entries with state `t`. -/
def total (t : Nat) : List Entry → Nat
  | [] => 0
  | e :: L => (if e.state = t then e.count else 0) + total t L

@[simp] theorem total_nil (t) : total t [] = 0 := rfl
@[simp] theorem total_cons (t e L) : total t (e :: L) = (if e.state = t then e.count else 0) + total t L := rfl
@[simp] theorem total_append (t) (A B : List Entry) : total t (A ++ B) = total t A + total t B := by
  induction A with
  | nil => simp
  | cons a A ih => simp [ih]; omega

theorem wrapI_add (x : Int) (d : Nat) : u64 (wrapI x + d) = wrapI (x + d) := by
  unfold u64 wrapI; omega

theorem wrapI_sub (x : Int) (d : Nat) (h : d < W64) : sub64 (wrapI x) d = wrapI (x - d) := by
  unfold sub64 wrapI; omega

/-- An entry whose range lies below 2^64, whose fields fit, and whose state is a valid index. -/
structure EOk (e : Entry) : Prop where
  range : e.start + e.count < W64
  count : e.count ≤ 65535
  state : e.state < 4

theorem EOk.fin_eq {e : Entry} (h : EOk e) : e.fin = e.start + e.count := by
  have := h.range
  unfold Entry.fin u64; omega

theorem EOk.contains_iff {e : Entry} (h : EOk e) (b : Nat) :
    e.contains b = true ↔ e.start ≤ b ∧ b < e.start + e.count := by
  unfold Entry.contains
  rw [h.fin_eq]; simp

variable {f : File} {S : List Entry} {g : Nat → Int}

theorem deref_rep {A B : List Entry} {x : Entry} (h : Rep f (A ++ x :: B) S g) (line : Nat) :
    deref f A.length line = .ok x := by
  unfold deref
  rw [h.mapped, h.slots]
  simp

theorem store_rep {A B : List Entry} {x : Entry} (h : Rep f (A ++ x :: B) S g) (y : Entry) (line : Nat) :
    ∃ f', store f A.length y line = .ok f' ∧ Rep f' (A ++ y :: B) S g := by
  refine ⟨{ f with slots := A ++ y :: B ++ S }, ?_, ?_⟩
  · unfold store
    rw [h.mapped]
    have hl : A.length < f.slots.length := by rw [h.slots]; simp
    simp only [hl, decide_true, Bool.and_self, if_true]
    congr 2
    rw [h.slots]
    simp
  · exact ⟨rfl, by simp [h.n], h.mapped, by simp [h.msize], h.cnt⟩

theorem addCnt_rep {L : List Entry} (h : Rep f L S g) {s d : Nat} (hs : s < 4) (line : Nat) :
    ∃ f', addCnt f s d line = .ok f' ∧ Rep f' L S (fun t => g t + if t = s then (d : Int) else 0) := by
  refine ⟨_, if_pos hs, ⟨h.slots, h.n, h.mapped, h.msize, ?_⟩⟩
  intro t
  by_cases ht : t = s
  · simp only [ht, if_true, h.cnt]; exact wrapI_add _ _
  · simp [ht, h.cnt]

theorem subCnt_rep {L : List Entry} (h : Rep f L S g) {s d : Nat} (hs : s < 4) (hd : d < W64) (line : Nat) :
    ∃ f', subCnt f s d line = .ok f' ∧ Rep f' L S (fun t => g t - if t = s then (d : Int) else 0) := by
  refine ⟨_, if_pos hs, ⟨h.slots, h.n, h.mapped, h.msize, ?_⟩⟩
  intro t
  by_cases ht : t = s
  · simp only [ht, if_true, h.cnt]; exact wrapI_sub _ _ hd
  · simp [ht, h.cnt]

theorem Rep.congr {L L' S' : List Entry} {g' : Nat → Int} (h : Rep f L S g) (hL : L = L') (hS : S = S') (hg : ∀ t, g t = g' t) :
    Rep f L' S' g' := by
  subst hL; subst hS
  have : g = g' := funext hg
  subst this; exact h

theorem Rep.congrL {L L' : List Entry} (h : Rep f L S g) (hL : L = L') : Rep f L' S g := hL ▸ h

theorem Rep.congrG {L : List Entry} {g' : Nat → Int} (h : Rep f L S g) (hg : ∀ t, g t = g' t) : Rep f L S g' := by
  have : g = g' := funext hg
  exact this ▸ h

theorem uncount_rep (D : List Entry) : ∀ {f : File} {A B : List Entry} {g : Nat → Int},
    Rep f (A ++ D ++ B) S g → (∀ e ∈ D, EOk e) →
    ∃ f', uncount f A.length D.length = .ok f' ∧ Rep f' (A ++ D ++ B) S (fun t => g t - total t D) := by
  induction D with
  | nil => intro f A B g h _; exact ⟨f, rfl, h.congrG (by simp)⟩
  | cons d D ih =>
    intro f A B g h hD
    have hd := hD d (by simp)
    have h1 : Rep f (A ++ d :: (D ++ B)) S g := h.congrL (by simp)
    obtain ⟨f', hf', hr⟩ := subCnt_rep h1 (d := d.count) hd.state (by have := hd.count; omega) 240
    obtain ⟨f'', hf'', hr2⟩ := ih (A := A ++ [d]) (B := B) (hr.congrL (by simp)) (fun e he => hD e (by simp [he]))
    refine ⟨f'', ?_, hr2.congr (by simp) rfl ?_⟩
    · simp only [List.length_cons, uncount]
      rw [deref_rep h1]
      simp only [bind_ok, hf']
      simpa using hf''
    · intro t
      by_cases ht : d.state = t
      · simp [ht]; omega
      · simp [ht, Ne.symm ht]

theorem memmove_down {A D B S : List Entry} {g : Nat → Int} {f : File}
    (h : Rep f (A ++ D ++ B) S g) (line : Nat) :
    memmove f A.length (A.length + D.length) B.length line =
      .ok { f with slots := A ++ B ++ (D ++ B ++ S).drop B.length } := by
  unfold memmove
  rw [h.mapped, h.slots]
  have h1 : A.length + B.length ≤ (A ++ D ++ B ++ S).length := by simp; omega
  have h2 : A.length + D.length + B.length ≤ (A ++ D ++ B ++ S).length := by simp; omega
  simp only [h1, h2, decide_true, Bool.and_self, if_true]
  have t1 : (A ++ D ++ B ++ S).take A.length = A := by simp
  have t2 : ((A ++ D ++ B ++ S).drop (A.length + D.length)).take B.length = B := by
    rw [show A ++ D ++ B ++ S = (A ++ D) ++ (B ++ S) by simp, ← List.length_append,
      List.drop_left, List.take_left]
  have t3 : (A ++ D ++ B ++ S).drop (A.length + B.length) = (D ++ B ++ S).drop B.length := by
    rw [← List.drop_drop, show A ++ D ++ B ++ S = A ++ (D ++ B ++ S) by simp, List.drop_left]
  rw [t1, t2, t3]

theorem deleteRange_rep {A D B : List Entry} {g : Nat → Int} {f : File} (h : Rep f (A ++ D ++ B) S g)
    (hD : ∀ e ∈ D, EOk e) :
    ∃ f' S', deleteRange f A.length (A.length + D.length) = .ok (f', A.length) ∧
      Rep f' (A ++ B) S' (fun t => g t - total t D) := by
  obtain ⟨f1, hf1, hr1⟩ := uncount_rep D h hD
  have hm := memmove_down hr1 243
  have hn : f.n = A.length + D.length + B.length := by rw [h.n]; simp; omega
  have e1 : A.length + D.length - A.length = D.length := by omega
  have e2 : f.n - (A.length + D.length) = B.length := by omega
  refine ⟨{ f1 with slots := A ++ B ++ (D ++ B ++ S).drop B.length, n := f1.n - D.length },
    (D ++ B ++ S).drop B.length, ?_, ?_⟩
  · unfold deleteRange
    rw [chk_of (by simp), chk_of (by simp; omega), chk_of (by simp; omega)]
    simp only [bind_ok, e1, e2, hf1, hm, pure_eq_ok]
  · constructor
    · simp
    · have := hr1.n
      simp at this ⊢; omega
    · exact hr1.mapped
    · have := hr1.msize
      simp at this ⊢; omega
    · exact hr1.cnt

theorem capacity_rep {L : List Entry} (h : Rep f L S g) : capacity f = L.length + S.length := by
  unfold capacity ensureMapped
  rw [h.mapped]
  simp only [if_true, h.msize, superblockSize, entrySize]
  omega

theorem requireSpace_rep {L : List Entry} (h : Rep f L S g) :
    ∃ f' x S', requireSpace f = .ok f' ∧ Rep f' L (x :: S') g := by
  have hc := capacity_rep h
  by_cases he : S.length = 0
  · have hS : S = [] := List.length_eq_zero_iff.mp he
    subst hS
    have hcn : capacity f = nentries f := by rw [hc]; unfold nentries; rw [h.n]; simp
    let f' : File := ensureMapped (grow f)
    have hr : Rep f' L (zeroEntry :: List.replicate 255 zeroEntry) g := by
      have hs := h.slots
      have hm := h.mapped
      have hf : f' = File.mk f.n f.cnt (f.slots ++ List.replicate 256 zeroEntry) true
          (512 + 16 * (f.slots ++ List.replicate 256 zeroEntry).length) := by
        simp only [f', grow, ensureUnmapped, hm, if_true, ensureMapped, File.fileSize]
        rfl
      rw [hf]
      constructor
      · show f.slots ++ _ = _
        rw [hs, List.append_nil, List.replicate_succ]
      · exact h.n
      · rfl
      · show 512 + 16 * _ = _
        rw [hs]; simp only [List.length_append, List.length_cons, List.length_replicate, List.length_nil]
      · exact h.cnt
    refine ⟨f', _, _, ?_, hr⟩
    unfold requireSpace
    simp only [hcn, if_true]
    rw [chk_of]
    · rfl
    · have := capacity_rep hr
      have hn := hr.n
      show decide (capacity f' > nentries f') = true
      rw [this]; unfold nentries; rw [hn, List.length_cons]
      exact decide_eq_true (by omega)
  · have hcn : ¬ capacity f = nentries f := by rw [hc]; unfold nentries; rw [h.n]; omega
    have hem : ensureMapped f = f := by unfold ensureMapped; rw [h.mapped]; simp
    cases hS : S with
    | nil => simp [hS] at he
    | cons x S' =>
      refine ⟨f, x, S', ?_, hS ▸ h⟩
      unfold requireSpace
      simp only [hcn, if_false, hem]
      rw [chk_of]
      · rfl
      · rw [hc]; unfold nentries; rw [h.n]; simp; omega

theorem insertBefore_rep {A B : List Entry} {g : Nat → Int} {f : File} (h : Rep f (A ++ B) S g) (e : Entry) :
    ∃ f' S', insertBefore f A.length e = .ok (f', A.length) ∧ Rep f' (A ++ e :: B) S' g := by
  obtain ⟨f1, x, S', hf1, hr1⟩ := requireSpace_rep h
  have hn : f.n - A.length = B.length := by rw [h.n]; simp
  have hslots := hr1.slots
  have hlen : f1.slots.length = A.length + B.length + (S'.length + 1) := by rw [hslots]; simp; omega
  refine ⟨{ f1 with slots := A ++ e :: B ++ S', n := f1.n + 1 }, S', ?_, ?_⟩
  · unfold insertBefore
    simp only [hf1, bind_ok, hn]
    by_cases hB : B = []
    · subst hB
      simp only [List.length_nil, ne_eq, not_true_eq_false, if_false, bind_ok]
      unfold store
      rw [hr1.mapped]
      have : A.length < f1.slots.length := by omega
      simp only [this, decide_true, Bool.and_self, if_true, bind_ok, pure_eq_ok]
      rw [hslots]; simp
    · have hB' : B.length ≠ 0 := fun hh => hB (List.length_eq_zero_iff.mp hh)
      simp only [hB', ne_eq, not_false_eq_true, if_true]
      unfold memmove
      rw [hr1.mapped]
      have i1 : A.length + 1 + B.length ≤ f1.slots.length := by omega
      have i2 : A.length + B.length ≤ f1.slots.length := by omega
      simp only [i1, i2, decide_true, Bool.and_self, if_true, bind_ok]
      have d1 : (f1.slots.drop A.length).take B.length = B := by
        rw [hslots, List.append_assoc, List.drop_left, List.take_left]
      have d2 : f1.slots.drop (A.length + 1 + B.length) = S' := by
        rw [hslots, show A.length + 1 + B.length = (A ++ B).length + 1 by simp; omega, ← List.drop_drop,
          List.drop_left]; rfl
      obtain ⟨y, hy⟩ : ∃ y, f1.slots.take (A.length + 1) = A ++ [y] := by
        have : A.length < f1.slots.length := by omega
        refine ⟨f1.slots[A.length], ?_⟩
        have hA : f1.slots.take A.length = A := by rw [hslots, List.append_assoc, List.take_left]
        rw [List.take_succ_eq_append_getElem this, hA]
      rw [d1, d2, hy]
      unfold store
      simp only [hr1.mapped]
      have : A.length < (A ++ [y] ++ B ++ S').length := by simp
      simp only [this, decide_true, Bool.and_self, if_true, bind_ok, pure_eq_ok]
      simp
  · constructor
    · simp
    · have := hr1.n; simp at this ⊢; omega
    · exact hr1.mapped
    · have := hr1.msize; simp at this ⊢; omega
    · exact hr1.cnt

end Dragonstash.Blocklist
