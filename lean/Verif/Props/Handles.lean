/-
  C48: descriptors are closed exactly once.
-/
import Verif.Backend.Handles
namespace Dragonstash.Handles

/-- Object `k` holds the descriptor `fd`. -/
def World.Holds (w : World) (k : Nat) (fd : Int) : Prop := w.obj k = some fd

/-- Nothing happens to descriptors which were never handed over; each one which was is held by exactly
one object and neither closed nor released; or it is held by none, and has been closed exactly once
or released exactly once, but not both. -/
def Accounted (given : List Int) (w : World) : Prop :=
  ∀ fd, 0 ≤ fd →
    (fd ∉ given → w.closed.count fd = 0 ∧ w.released.count fd = 0 ∧ ∀ k, ¬ w.Holds k fd) ∧
    (fd ∈ given →
      (w.closed.count fd = 0 ∧ w.released.count fd = 0 ∧ ∃ k, w.Holds k fd ∧ ∀ j, w.Holds j fd → j = k) ∨
      (w.closed.count fd + w.released.count fd = 1 ∧ ∀ k, ¬ w.Holds k fd))

/-- What an operation can do to one descriptor. -/
inductive Change (given given' : List Int) (w w' : World) (fd : Int) : Prop
  | same : (fd ∈ given' ↔ fd ∈ given) → w'.closed.count fd = w.closed.count fd → w'.released.count fd = w.released.count fd →
      (∀ j, w'.Holds j fd ↔ w.Holds j fd) → Change given given' w w' fd
  | moved (src k : Nat) : (fd ∈ given' ↔ fd ∈ given) → w'.closed.count fd = w.closed.count fd → w'.released.count fd = w.released.count fd →
      w.Holds src fd → (∀ j, w'.Holds j fd ↔ j = k) → Change given given' w w' fd
  | gone (k : Nat) : (fd ∈ given' ↔ fd ∈ given) → w'.closed.count fd + w'.released.count fd = w.closed.count fd + w.released.count fd + 1 →
      w.Holds k fd → (∀ j, ¬ w'.Holds j fd) → Change given given' w w' fd
  | given (k : Nat) : fd ∉ given → fd ∈ given' → w'.closed.count fd = w.closed.count fd → w'.released.count fd = w.released.count fd →
      (∀ j, w'.Holds j fd ↔ j = k) → Change given given' w w' fd

theorem Change.accounted {given given' : List Int} {w w' : World} (h : Accounted given w) (hc : ∀ fd, 0 ≤ fd → Change given given' w w' fd) :
    Accounted given' w' := by
  intro fd hfd
  obtain ⟨h1, h2⟩ := h fd hfd
  cases hc fd hfd with
  | same g1 g2 g3 g4 => simp only [g1, g2, g3, g4]; exact ⟨h1, h2⟩
  | moved src k g1 g2 g3 g4 g5 =>
    simp only [g1, g2, g3, g5]
    refine ⟨fun hn => absurd g4 ((h1 hn).2.2 src), fun hm => ?_⟩
    rcases h2 hm with ⟨a, b, -⟩ | ⟨-, b⟩
    · exact .inl ⟨a, b, k, rfl, fun j hj => hj⟩
    · exact absurd g4 (b src)
  | gone k g1 g2 g3 g4 =>
    simp only [g1]
    refine ⟨fun hn => absurd g3 ((h1 hn).2.2 k), fun hm => ?_⟩
    rcases h2 hm with ⟨a, b, -⟩ | ⟨-, b⟩
    · exact .inr ⟨by omega, g4⟩
    · exact absurd g3 (b k)
  | given k g1 g2 g3 g4 g5 =>
    obtain ⟨a, b, -⟩ := h1 g1
    refine ⟨fun hn => absurd g2 hn, fun _ => .inl ⟨by omega, by omega, k, (g5 k).mpr rfl, fun j hj => (g5 j).mp hj⟩⟩

/-- A descriptor has at most one holder. -/
theorem Accounted.unique {given : List Int} {w : World} (h : Accounted given w) {fd : Int} (hfd : 0 ≤ fd) {j k : Nat} (hj : w.Holds j fd) (hk : w.Holds k fd) : j = k := by
  obtain ⟨h1, h2⟩ := h fd hfd
  by_cases hm : fd ∈ given
  · rcases h2 hm with ⟨-, -, i, -, u⟩ | ⟨-, u⟩
    · rw [u j hj, u k hk]
    · exact absurd hj (u j)
  · exact absurd hj ((h1 hm).2.2 j)

/-- The objects after `reset`. -/
theorem reset_holds {w : World} {k : Nat} {old new fd : Int} (j : Nat) : (w.reset k old new).Holds j fd ↔ if j = k then new = fd else w.Holds j fd := by
  unfold World.reset World.Holds World.set
  simp only
  by_cases hj : j = k
  · rw [if_pos hj, if_pos hj]; simp
  · rw [if_neg hj, if_neg hj]; split <;> exact Iff.rfl

theorem reset_closed {w : World} {k : Nat} {old new fd : Int} (hfd : 0 ≤ fd) : (w.reset k old new).closed.count fd = w.closed.count fd + if old = fd then 1 else 0 := by
  unfold World.reset World.set
  simp only
  by_cases ho : old ≥ 0
  · rw [if_pos ho]; simp only [List.count_cons, beq_iff_eq]
  · rw [if_neg ho, if_neg (by omega)]; rfl

theorem reset_released {w : World} {k : Nat} {old new : Int} : (w.reset k old new).released = w.released := by
  unfold World.reset World.set; split <;> rfl

theorem set_holds {w : World} {k : Nat} {v : Option Int} {fd : Int} (j : Nat) : (w.set k v).Holds j fd ↔ if j = k then v = some fd else w.Holds j fd := by
  unfold World.Holds World.set
  simp only
  by_cases hj : j = k
  · rw [if_pos hj, if_pos hj]
  · rw [if_neg hj, if_neg hj]

theorem step_accounted {given : List Int} {w w' : World} {op : Op} (h : Accounted given w) (hs : step w op = some w')
    (hg : ∀ fd, op.gives = some fd → 0 ≤ fd → fd ∉ given) : Accounted (op.gives.toList ++ given) w' := by
  refine Change.accounted h (fun fd hfd => ?_)
  cases op with
  | make k =>
    simp only [step] at hs
    split at hs
    · rename_i hk
      cases hs
      refine .same (by simp [Op.gives]) rfl rfl (fun j => ?_)
      rw [set_holds]
      by_cases hj : j = k
      · subst hj; rw [if_pos rfl]; unfold World.Holds; rw [hk]; simp; omega
      · rw [if_neg hj]
    · cases hs
  | makeFd k v =>
    simp only [step] at hs
    split at hs
    · rename_i hk
      cases hs
      by_cases hv : v = fd
      · subst hv
        have hn := hg v rfl hfd
        refine .given k hn (by simp [Op.gives]) rfl rfl (fun j => ?_)
        rw [set_holds]
        by_cases hj : j = k
        · simp [hj]
        · rw [if_neg hj]; simp only [hj, iff_false]; exact ((h v hfd).1 hn).2.2 j
      · refine .same (by simp [Op.gives]; rintro rfl; exact absurd rfl hv) rfl rfl (fun j => ?_)
        rw [set_holds]
        by_cases hj : j = k
        · subst hj; rw [if_pos rfl]; unfold World.Holds; rw [hk]; simp [hv]
        · rw [if_neg hj]
    · cases hs
  | moveNew k src =>
    simp only [step] at hs
    split at hs
    · rename_i v hk hsrc
      cases hs
      have hks : k ≠ src := by rintro rfl; rw [hk] at hsrc; cases hsrc
      by_cases hv : v = fd
      · subst hv
        refine .moved src k (by simp [Op.gives]) rfl rfl hsrc (fun j => ?_)
        rw [set_holds]
        by_cases hj : j = k
        · simp [hj]
        · rw [if_neg hj, set_holds]
          simp only [hj, iff_false]
          by_cases hj2 : j = src
          · rw [if_pos hj2]; simp; omega
          · rw [if_neg hj2]; intro hh; exact hj2 (h.unique hfd hh hsrc)
      · refine .same (by simp [Op.gives]) rfl rfl (fun j => ?_)
        rw [set_holds]
        by_cases hj : j = k
        · subst hj; rw [if_pos rfl]; unfold World.Holds; rw [hk]; simp [hv]
        · rw [if_neg hj, set_holds]
          by_cases hj2 : j = src
          · subst hj2; rw [if_pos rfl]; unfold World.Holds; rw [hsrc]; simp [hv]; omega
          · rw [if_neg hj2]
    · cases hs
  | moveAssign k src =>
    simp only [step] at hs
    split at hs
    · rename_i o v hk hsrc
      by_cases hks : k = src
      · subst hks
        rw [hk] at hsrc; cases hsrc
        have e : (w.set k (some (-1))).obj k = some (-1) := by simp [World.set]
        rw [e] at hs
        simp only [Option.some.injEq] at hs
        subst hs
        refine .same (by simp [Op.gives]) ?_ ?_ (fun j => ?_)
        · rw [reset_closed hfd, if_neg (by omega)]; rfl
        · rw [reset_released]; rfl
        · rw [reset_holds]
          by_cases hj : j = k
          · subst hj; rw [if_pos rfl]; unfold World.Holds; rw [hk]; simp
          · rw [if_neg hj, set_holds, if_neg hj]
      · have e : (w.set src (some (-1))).obj k = some o := by simp [World.set, hks, hk]
        rw [e] at hs
        simp only [Option.some.injEq] at hs
        subst hs
        have hcl := reset_closed (w := w.set src (some (-1))) (k := k) (old := o) (new := v) hfd
        have hrl := reset_released (w := w.set src (some (-1))) (k := k) (old := o) (new := v)
        by_cases hv : v = fd
        · subst hv
          have hov : o ≠ v := by rintro rfl; exact hks (h.unique hfd hk hsrc)
          rw [if_neg hov] at hcl
          refine .moved src k (by simp [Op.gives]) hcl (by rw [hrl]; rfl) hsrc (fun j => ?_)
          rw [reset_holds]
          by_cases hj : j = k
          · simp [hj]
          · rw [if_neg hj, set_holds]
            simp only [hj, iff_false]
            by_cases hj2 : j = src
            · rw [if_pos hj2]; simp; omega
            · rw [if_neg hj2]; intro hh; exact hj2 (h.unique hfd hh hsrc)
        · have hh : ∀ j, ((w.set src (some (-1))).reset k o v).Holds j fd ↔ j ≠ k ∧ w.Holds j fd := by
            intro j
            rw [reset_holds]
            by_cases hj : j = k
            · simp [hj, hv]
            · rw [if_neg hj, set_holds]
              by_cases hj2 : j = src
              · subst hj2; rw [if_pos rfl]; unfold World.Holds; rw [hsrc]; simp [hv]; omega
              · rw [if_neg hj2]; simp [hj]
          by_cases ho : o = fd
          · subst ho
            rw [if_pos rfl] at hcl
            refine .gone k (by simp [Op.gives]) (by rw [hcl, hrl]; simp only [World.set]; omega) hk (fun j hj => ?_)
            obtain ⟨h1, h2⟩ := (hh j).mp hj
            exact h1 (h.unique hfd h2 hk)
          · rw [if_neg ho] at hcl
            refine .same (by simp [Op.gives]) hcl (by rw [hrl]; rfl) (fun j => ?_)
            rw [hh]
            refine ⟨fun h => h.2, fun h => ⟨?_, h⟩⟩
            rintro rfl
            unfold World.Holds at h; rw [hk] at h; cases h; exact ho rfl
    · cases hs
  | release k =>
    simp only [step] at hs
    split at hs
    · rename_i v hk
      cases hs
      have hh : ∀ j, World.Holds { w.set k (some (-1)) with released := v :: w.released } j fd ↔ j ≠ k ∧ w.Holds j fd := by
        intro j
        have := set_holds (w := w) (k := k) (v := some (-1)) (fd := fd) j
        refine Iff.trans this ?_
        by_cases hj : j = k
        · simp [hj]; omega
        · simp [hj]
      by_cases hv : v = fd
      · subst hv
        refine .gone k (by simp [Op.gives]) (by simp [World.set]; omega) hk (fun j hj => ?_)
        obtain ⟨h1, h2⟩ := (hh j).mp hj
        exact h1 (h.unique hfd h2 hk)
      · refine .same (by simp [Op.gives]) rfl (by simp [List.count_cons, hv]) (fun j => ?_)
        rw [hh]
        refine ⟨fun h => h.2, fun h => ⟨?_, h⟩⟩
        rintro rfl
        unfold World.Holds at h; rw [hk] at h; cases h; exact hv rfl
    · cases hs
  | reset k v =>
    simp only [step] at hs
    split at hs
    · rename_i o hk
      cases hs
      have hcl := reset_closed (w := w) (k := k) (old := o) (new := v) hfd
      have hrl := reset_released (w := w) (k := k) (old := o) (new := v)
      by_cases hv : v = fd
      · subst hv
        have hn := hg v rfl hfd
        have hno := ((h v hfd).1 hn).2.2
        have hov : o ≠ v := by rintro rfl; exact hno k hk
        rw [if_neg hov] at hcl
        refine .given k hn (by simp [Op.gives]) hcl (by rw [hrl]) (fun j => ?_)
        rw [reset_holds]
        by_cases hj : j = k
        · simp [hj]
        · rw [if_neg hj]; simp only [hj, iff_false]; exact hno j
      · have hmem : fd ∈ (Op.reset k v).gives.toList ++ given ↔ fd ∈ given := by simp [Op.gives]; rintro rfl; exact absurd rfl hv
        have hh : ∀ j, (w.reset k o v).Holds j fd ↔ j ≠ k ∧ w.Holds j fd := by
          intro j
          rw [reset_holds]
          by_cases hj : j = k
          · simp [hj, hv]
          · simp [hj]
        by_cases ho : o = fd
        · subst ho
          rw [if_pos rfl] at hcl
          refine .gone k hmem (by rw [hcl, hrl]; omega) hk (fun j hj => ?_)
          obtain ⟨h1, h2⟩ := (hh j).mp hj
          exact h1 (h.unique hfd h2 hk)
        · rw [if_neg ho] at hcl
          refine .same hmem hcl (by rw [hrl]) (fun j => ?_)
          rw [hh]
          refine ⟨fun h => h.2, fun h => ⟨?_, h⟩⟩
          rintro rfl
          unfold World.Holds at h; rw [hk] at h; cases h; exact ho rfl
    · cases hs
  | destroy k =>
    simp only [step] at hs
    split at hs
    · rename_i o hk
      cases hs
      have hcl := reset_closed (w := w) (k := k) (old := o) (new := -1) hfd
      have hrl := reset_released (w := w) (k := k) (old := o) (new := -1)
      have hh : ∀ j, ((w.reset k o (-1)).set k none).Holds j fd ↔ j ≠ k ∧ w.Holds j fd := by
        intro j
        rw [set_holds]
        by_cases hj : j = k
        · simp [hj]
        · rw [if_neg hj, reset_holds]; simp [hj]
      by_cases ho : o = fd
      · subst ho
        rw [if_pos rfl] at hcl
        refine .gone k (by simp [Op.gives]) (by show (w.reset k o (-1)).closed.count o + _ = _; rw [hcl]; show _ + (w.reset k o (-1)).released.count o = _; rw [hrl]; omega) hk (fun j hj => ?_)
        obtain ⟨h1, h2⟩ := (hh j).mp hj
        exact h1 (h.unique hfd h2 hk)
      · rw [if_neg ho] at hcl
        refine .same (by simp [Op.gives]) hcl (by show (w.reset k o (-1)).released.count fd = _; rw [hrl]) (fun j => ?_)
        rw [hh]
        refine ⟨fun h => h.2, fun h => ⟨?_, h⟩⟩
        rintro rfl
        unfold World.Holds at h; rw [hk] at h; cases h; exact ho rfl
    · cases hs

/-- `FileHandle`: after every history, each descriptor which was handed to an object is held by exactly
one object and open, or it has been closed exactly once, or given back to the caller; no other
descriptor is ever closed. -/
theorem C48_filehandle {given : List Int} {w : World} (h : Run given w) : Accounted given w := by
  induction h with
  | init => exact fun fd _ => ⟨fun _ => ⟨rfl, rfl, fun k h => (by cases h)⟩, fun h => (by cases h)⟩
  | step _ hs hg ih => exact step_accounted ih hs hg

/-- Once all objects are destroyed, every descriptor which was not given back has been closed, exactly
once. -/
theorem C48_all_closed {given : List Int} {w : World} (h : Run given w) (hd : ∀ k, w.obj k = none) {fd : Int} (hf : fd ∈ given) (h0 : 0 ≤ fd)
    (hr : fd ∉ w.released) : w.closed.count fd = 1 := by
  rcases (C48_filehandle h fd h0).2 hf with ⟨-, -, k, hk, -⟩ | ⟨h1, -⟩
  · unfold World.Holds at hk; rw [hd k] at hk; cases hk
  · rw [List.count_eq_zero.mpr hr] at h1; omega

/-- A history: a handle is moved, assigned to itself, reset, and everything is destroyed. -/
def demoOps : List Op := [.makeFd 0 5, .moveNew 1 0, .moveAssign 1 1, .reset 0 6, .moveAssign 0 1, .makeFd 2 7, .release 2, .destroy 0, .destroy 1, .destroy 2]

def runOps : List Op → World → Option World
  | [], w => some w
  | o :: l, w => match step w o with | some w' => runOps l w' | none => none

example : (runOps demoOps World.init).map (fun w => (w.closed, w.released)) = some ([5, 6], [7]) := by decide

theorem run_ops : ∀ (l : List Op) (given : List Int) (w w' : World), Run given w → runOps l w = some w' →
    (l.filterMap Op.gives ++ given).Nodup → Run ((l.filterMap Op.gives).reverse ++ given) w' := by
  intro l
  induction l with
  | nil => intro given w w' h hr _; cases hr; exact h
  | cons o l ih =>
    intro given w w' h hr hn
    simp only [runOps] at hr
    split at hr
    · rename_i w1 h1
      cases hg : o.gives with
      | none =>
        have : List.filterMap Op.gives (o :: l) = List.filterMap Op.gives l := by simp [hg]
        rw [this] at hn ⊢
        have := Run.step h h1 (by rw [hg]; intro fd hh; cases hh)
        rw [hg] at this
        exact ih _ _ _ this hr hn
      | some fd =>
        have : List.filterMap Op.gives (o :: l) = fd :: List.filterMap Op.gives l := by simp [hg]
        rw [this] at hn ⊢
        simp only [List.cons_append, List.nodup_cons, List.mem_append, not_or] at hn
        have := Run.step h h1 (by rw [hg]; intro fd' hh _; cases hh; exact hn.1.2)
        rw [hg] at this
        have := ih _ _ _ this hr (by
          simp only [Option.toList_some, List.singleton_append]
          rw [List.nodup_append] at hn ⊢
          refine ⟨hn.2.1, List.nodup_cons.mpr ⟨hn.1.2, hn.2.2.1⟩, ?_⟩
          intro a ha b hb hab
          subst hab
          rcases List.mem_cons.mp hb with rfl | hb
          · exact hn.1.1 ha
          · exact hn.2.2.2 a ha a hb rfl)
        simpa using this
    · cases hr

/-- The hypotheses can be met: a history with all kinds of operations which ends with no objects.
(Theorems `C48_filehandle` and `C48_all_closed`; `C48_localfile_partial` and `C48_localdir` only ask for a valid descriptor or pointer.) -/
example : ∃ given w, Run given w ∧ (∀ k, w.obj k = none) ∧ 5 ∈ given ∧ 6 ∈ given ∧ w.closed = [5, 6] ∧ w.released = [7] := by
  have h : ∃ w, runOps demoOps World.init = some w ∧ (∀ k, w.obj k = none) ∧ w.closed = [5, 6] ∧ w.released = [7] := by
    refine ⟨_, rfl, ?_, by decide, by decide⟩
    intro k
    show (if k = 2 then none else _) = none
    by_cases h2 : k = 2
    · rw [if_pos h2]
    · rw [if_neg h2]
      by_cases h1 : k = 1
      · subst h1; rfl
      · by_cases h0 : k = 0
        · subst h0; rfl
        · simp [World.reset, World.set, World.init, h0, h1, h2]
  obtain ⟨w, hw, h1, h2, h3⟩ := h
  exact ⟨_, w, run_ops demoOps [] _ _ .init hw (by decide), h1, by decide, by decide, h2, h3⟩

/-! ### LocalFile, LocalDir -/

/-- Explicit closes, then destruction, of a `LocalFile` which was made for `fd`; the booleans are the
results of the calls of `::close`. -/
def fileLife (fd : Int) (closes : List Bool) (last : Bool) : List Int := (closes.foldl LFile.close ⟨fd, []⟩).destroy last

/-- The claim in full: the descriptor is closed exactly once, and no other is. -/
def C48_localfile_full : Prop := ∀ (fd : Int) (closes : List Bool) (last : Bool), 0 ≤ fd → closes.length ≤ 1 → fileLife fd closes last = [fd]

/-- It is false: after a successful `close()` the destructor closes descriptor 0. -/
theorem C48_localfile_counterexample : fileLife 5 [true] true = [0, 5] ∧ ¬ C48_localfile_full := by
  refine ⟨by decide, fun h => ?_⟩
  have := h 5 [true] true (by decide) (by decide)
  exact absurd this (by decide)

/-- And after an unsuccessful one it closes the same descriptor again (which the host has freed, and may
have given to another file, whatever the result was). -/
theorem C48_localfile_failed_counterexample : fileLife 5 [false] true = [5, 5] := by decide

/-- It holds if `close()` is not called. -/
theorem C48_localfile_partial (fd : Int) (last : Bool) (h : 0 ≤ fd) : fileLife fd [] last = [fd] := by
  unfold fileLife LFile.destroy LFile.close
  rw [List.foldl_nil, if_pos h]
  cases last <;> rfl

def dirLife (dp : Nat) (closes : List Bool) (last : Bool) : List Nat := (closes.foldl LDir.closedir ⟨dp, []⟩).destroy last

/-- `LocalDir` closes its stream exactly once, whether `closedir()` is called (once, successfully) or
not. -/
theorem C48_localdir {dp : Nat} (h : dp ≠ 0) (last : Bool) : dirLife dp [true] last = [dp] ∧ dirLife dp [] last = [dp] := by
  unfold dirLife LDir.destroy LDir.closedir
  constructor
  · rfl
  · rw [List.foldl_nil, if_pos h]; cases last <;> rfl

end Dragonstash.Handles
