import Verif.Blocklist.Sane
/-
  The size of the file and the place of its entries over many lives: whatever happens, the size of the
  file stays a multiple of 4096 bytes, and no entry starts behind the last block any mark reached.
  Nothing is assumed about the entries or their number.
-/
namespace Dragonstash.Blocklist

variable {B : Nat} {f g : File}

/-- The mapped file inside of a call. -/
structure Grid (B : Nat) (f : File) : Prop where
  mapped : f.mapped = true
  ms : f.msize = 512 + 16 * f.slots.length
  len : f.slots.length % 256 = 224
  starts : Al (fun e => e.start ≤ B) f
  high : ∀ t, 4 ≤ t → f.cnt t = 0

theorem Grid.eq (h : Grid B f) (hm : g.mapped = f.mapped) (hz : g.msize = f.msize) (hs : g.slots = f.slots)
    (hh : ∀ t, 4 ≤ t → g.cnt t = f.cnt t) : Grid B g :=
  ⟨hm.trans h.mapped, by rw [hz, hs]; exact h.ms, by rw [hs]; exact h.len, h.starts.same hs, fun t ht => (hh t ht).trans (h.high t ht)⟩

theorem addCnt_high {s d l : Nat} (h : addCnt f s d l = .ok g) : ∀ t, 4 ≤ t → g.cnt t = f.cnt t := by
  unfold addCnt at h
  by_cases hs : s < 4
  · rw [if_pos hs] at h; injection h with h; subst h
    intro t ht
    simp only
    rw [if_neg (by omega)]
  · rw [if_neg hs] at h; cases h

theorem subCnt_high {s d l : Nat} (h : subCnt f s d l = .ok g) : ∀ t, 4 ≤ t → g.cnt t = f.cnt t := by
  unfold subCnt at h
  by_cases hs : s < 4
  · rw [if_pos hs] at h; injection h with h; subst h
    intro t ht
    simp only
    rw [if_neg (by omega)]
  · rw [if_neg hs] at h; cases h

theorem storeT_grid (h : Grid B f) (i : Nat) {e : Entry} (he : e.start ≤ B) (l : Nat) :
    Safe (Grid B) (storeT f i e l) (Grid B) := by
  refine Safe.point (fun g hg => ?_)
  obtain ⟨_, y⟩ := store_inv hg
  subst y
  have : Grid B { f with slots := f.slots.set i e } :=
    ⟨h.mapped, by simp only [List.length_set]; exact h.ms, by simp only [List.length_set]; exact h.len, h.starts.set rfl he, h.high⟩
  exact ⟨this, this⟩

theorem addCntT_grid (h : Grid B f) (s d l : Nat) : Safe (Grid B) (addCntT f s d l) (Grid B) :=
  Safe.point (fun _ hg => by
    have c := addCnt_high hg
    obtain ⟨m, z, _, s⟩ := addCnt_inv hg
    exact ⟨h.eq m z s c, h.eq m z s c⟩)

theorem subCntT_grid (h : Grid B f) (s d l : Nat) : Safe (Grid B) (subCntT f s d l) (Grid B) :=
  Safe.point (fun _ hg => by
    have c := subCnt_high hg
    obtain ⟨m, z, _, s⟩ := subCnt_inv hg
    exact ⟨h.eq m z s c, h.eq m z s c⟩)

theorem uncountT_grid (k : Nat) : ∀ {f : File} (_ : Grid B f) (i : Nat), Safe (Grid B) (uncountT f i k) (Grid B) := by
  induction k with
  | zero => intro f h i; exact Safe.pure h
  | succ k ih =>
    intro f h i
    refine Safe.bind (Q := fun _ => True) (Safe.quiet (fun _ _ => trivial)) (fun e _ _ => ?_)
    exact Safe.bind (subCntT_grid h _ _ _) (fun f1 _ h1 => ih h1 (i + 1))

theorem memmove_rest {d s k l : Nat} (h : memmove f d s k l = .ok g) : g.msize = f.msize ∧ g.cnt = f.cnt := by
  unfold memmove at h
  by_cases hc : (f.mapped && decide (d + k ≤ f.slots.length) && decide (s + k ≤ f.slots.length)) = true
  · rw [if_pos hc] at h
    injection h with h
    subst h; exact ⟨rfl, rfl⟩
  · rw [if_neg hc] at h; cases h

theorem memmoveT_grid (h : Grid B f) (d s k l : Nat) : Safe (Grid B) (memmoveT f d s k l) (Grid B) := by
  have ha := memmoveT_al h.starts d s k l
  refine ⟨fun g hg => ?_, fun a hm => ?_⟩
  · have hal := ha.crash g hg
    obtain ⟨f2, hm, hx⟩ := hg
    exact ⟨hx.mapped.trans h.mapped, by rw [hx.msize, hx.length]; exact h.ms, by rw [hx.length]; exact h.len, hal, by rw [hx.cnt]; exact h.high⟩
  · have hal := ha.res a hm
    obtain ⟨hz, hc⟩ := memmove_rest hm
    obtain ⟨m, _, l1, _, _, _⟩ := memmove_inv hm
    exact ⟨m.trans h.mapped, by rw [hz, l1]; exact h.ms, by rw [l1]; exact h.len, hal, by rw [hc]; exact h.high⟩

theorem deleteRangeT_grid (h : Grid B f) (b e : Nat) : Safe (Grid B) (deleteRangeT f b e) (fun r => Grid B r.1) := by
  unfold deleteRangeT
  refine Safe.chk (fun _ => Safe.chk (fun _ => Safe.chk (fun _ => ?_)))
  refine Safe.bind (uncountT_grid _ h _) (fun f1 _ h1 => ?_)
  refine Safe.bind (memmoveT_grid h1 _ _ _ _) (fun f2 _ h2 => ?_)
  refine Safe.bind (Q := Grid B) (Safe.point (fun g hg => ?_)) (fun f3 _ h3 => Safe.pure h3)
  injection hg with hg
  subst hg
  exact ⟨h2.eq rfl rfl rfl (fun _ _ => rfl), h2.eq rfl rfl rfl (fun _ _ => rfl)⟩

theorem deleteEntryT_grid (h : Grid B f) (i : Nat) : Safe (Grid B) (deleteEntryT f i) (fun r => Grid B r.1) := by
  unfold deleteEntryT
  simp only [ensureMapped_of h.mapped]
  by_cases hi : i = f.n
  · rw [if_pos hi]; exact Safe.pure h
  · rw [if_neg hi]; exact deleteRangeT_grid h _ _

theorem tryMergeT_grid (h : Grid B f) (i : Nat) : Safe (Grid B) (tryMergeT f i) (fun r => Grid B r.1) := by
  unfold tryMergeT
  by_cases h0 : i = 0
  · rw [if_pos h0]; exact Safe.pure h
  rw [if_neg h0]
  refine Safe.bind (Q := fun e => f.slots[i - 1]? = some e) (Safe.quiet (fun _ => deref_inv)) (fun prev _ hp => ?_)
  refine Safe.bind (Q := fun _ => True) (Safe.quiet (fun _ _ => trivial)) (fun it _ _ => ?_)
  have op := h.starts _ _ hp
  by_cases h1 : prev.fin ≠ it.start
  · rw [if_pos h1]; exact Safe.pure h
  rw [if_neg h1]
  by_cases h2 : prev.state ≠ it.state
  · rw [if_pos h2]; exact Safe.pure h
  rw [if_neg h2]
  simp only
  by_cases h3 : prev.count + it.count > limit
  · rw [if_pos h3]; exact Safe.pure h
  rw [if_neg h3]
  refine Safe.bind (storeT_grid h _ (by exact op) _) (fun f1 _ j1 => ?_)
  refine Safe.bind (addCntT_grid j1 _ _ _) (fun f2 _ j2 => ?_)
  refine Safe.bind (deleteEntryT_grid j2 _) (fun r _ j3 => ?_)
  exact Safe.pure j3

theorem mergeAroundT_grid (h : Grid B f) (i : Nat) : Safe (Grid B) (mergeAroundT f i) (Grid B) := by
  unfold mergeAroundT
  refine Safe.bind (Q := fun r => Grid B r.1) ?_ (fun r _ h1 => ?_)
  · unfold mergeNextT
    by_cases hn : i + 1 ≠ f.n
    · rw [if_pos hn]
      exact Safe.bind (tryMergeT_grid h (i + 1)) (fun r _ hr => Safe.pure hr)
    · rw [if_neg hn]; exact Safe.pure h
  · exact Safe.bind (tryMergeT_grid h1 _) (fun r2 _ h2 => Safe.pure h2)

theorem requireSpace_cnt (h : requireSpace f = .ok g) : g.cnt = f.cnt := by
  unfold requireSpace at h
  obtain ⟨u, _, h⟩ := bind_inv h
  injection h with h
  subst h
  by_cases he : capacity f = nentries f
  · rw [if_pos he, ensureMapped_cnt]
    unfold grow ensureUnmapped
    by_cases hm : f.mapped = true
    · rw [if_pos hm]
    · rw [if_neg hm]
  · rw [if_neg he, ensureMapped_cnt]

theorem insertBeforeT_grid (h : Grid B f) (d : Nat) {x : Entry} (hx : x.start ≤ B) :
    Safe (Grid B) (insertBeforeT f d x) (fun r => Grid B r.1) := by
  unfold insertBeforeT
  refine Safe.bind (Q := Grid B) (Safe.point (fun g hg => ?_)) (fun f1 _ h1 => ?_)
  · obtain ⟨m, _, _, _, z⟩ := requireSpace_inv hg h.mapped h.ms
    have hh : ∀ t, 4 ≤ t → g.cnt t = 0 := by rw [requireSpace_cnt hg]; exact h.high
    have : Grid B g := by
      rcases requireSpace_slots hg with hs | hs
      · exact ⟨m, z, by rw [hs]; exact h.len, h.starts.same hs, hh⟩
      · refine ⟨m, z, ?_, fun i e he => ?_, hh⟩
        · rw [hs, List.length_append, List.length_replicate]; have := h.len; omega
        · rw [hs] at he
          rcases List.mem_append.1 (List.mem_of_getElem? he) with hm | hm
          · obtain ⟨k, hk, hke⟩ := List.getElem_of_mem hm
            exact h.starts k e (by rw [List.getElem?_eq_getElem hk, hke])
          · rw [(List.mem_replicate.1 hm).2]; exact Nat.zero_le _
    exact ⟨this, this⟩
  refine Safe.bind (Q := Grid B) ?_ (fun f2 _ h2 => ?_)
  · by_cases ht : f.n - d ≠ 0
    · rw [if_pos ht]; exact memmoveT_grid h1 _ _ _ _
    · rw [if_neg ht]; exact Safe.pure h1
  refine Safe.bind (storeT_grid h2 _ hx _) (fun f3 _ h3 => ?_)
  refine Safe.bind (Q := Grid B) (Safe.point (fun g hg => ?_)) (fun f4 _ h4 => Safe.pure h4)
  injection hg with hg
  subst hg
  exact ⟨h3.eq rfl rfl rfl (fun _ _ => rfl), h3.eq rfl rfl rfl (fun _ _ => rfl)⟩

theorem splitEntryT_grid (h : Grid B f) (j : Nat) {s : Nat} (hs : s ≤ B) :
    Safe (Grid B) (splitEntryT f j s) (fun r => Grid B r.1) := by
  unfold splitEntryT
  refine Safe.bind (Q := fun e => f.slots[j]? = some e) (Safe.quiet (fun _ => deref_inv)) (fun a _ ha => ?_)
  refine Safe.chk (fun h1 => Safe.chk (fun h2 => ?_))
  refine Safe.bind (storeT_grid h _ (by have := h.starts _ _ ha; exact this) _) (fun f1 _ h1 => ?_)
  refine Safe.bind (insertBeforeT_grid h1 (j + 1) hs) (fun r _ h2 => ?_)
  refine Safe.bind (Q := fun _ => True) (Safe.quiet (fun _ _ => trivial)) (fun x _ _ => ?_)
  refine Safe.bind (Q := fun _ => True) (Safe.quiet (fun _ _ => trivial)) (fun y _ _ => ?_)
  exact Safe.chk (fun _ => Safe.chk (fun _ => Safe.chk (fun _ => Safe.pure h2)))

theorem trimEndT_grid (h : Grid B f) (ec : Bool) (eo : Nat) {fin : Nat} (hf : fin ≤ B) :
    Safe (Grid B) (trimEndT f ec eo fin) (Grid B) := by
  unfold trimEndT
  cases ec with
  | false => exact Safe.pure h
  | true =>
    simp only [if_true]
    refine Safe.bind (Q := fun _ => True) (Safe.quiet (fun _ _ => trivial)) (fun x _ _ => ?_)
    refine Safe.bind (storeT_grid h _ hf _) (fun f1 _ h1 => ?_)
    refine Safe.bind (storeT_grid h1 _ hf _) (fun f2 _ h2 => ?_)
    refine Safe.bind (Q := fun _ => True) (Safe.quiet (fun _ _ => trivial)) (fun _ _ _ => ?_)
    refine Safe.chk (fun _ => ?_)
    exact subCntT_grid h2 _ _ _

theorem finishMarkT_grid (h : Grid B f) (so eo : Nat) {x : Entry} (hx : x.start ≤ B) (st : State) :
    Safe (Grid B) (finishMarkT f so eo x st) (Grid B) := by
  unfold finishMarkT
  simp only
  refine Safe.bind (deleteRangeT_grid h _ _) (fun r _ h1 => ?_)
  by_cases hst : st = .absent
  · rw [if_pos hst]; exact Safe.pure h1
  rw [if_neg hst]
  refine Safe.bind (insertBeforeT_grid h1 _ hx) (fun r2 _ h2 => ?_)
  refine Safe.bind (addCntT_grid h2 _ _ _) (fun f3 _ h3 => ?_)
  exact mergeAroundT_grid h3 _

theorem markInternalT_grid (h : Grid B f) {s c : Nat} (hs : s ≤ B) (hf : u64 (s + c) ≤ B) (st : State) :
    Safe (Grid B) (markInternalT f s c st) (Grid B) := by
  unfold markInternalT
  refine Safe.bind (Q := fun _ => True) (Safe.quiet (fun _ _ => trivial)) (fun o _ _ => ?_)
  refine Safe.bind (Q := fun r => Grid B r.1) ?_ (fun r _ g1 => ?_)
  · unfold caseSplitT
    by_cases hsp : o.1 ≠ f.n ∧ o.1 = o.2
    · rw [if_pos hsp]
      refine Safe.bind (splitEntryT_grid h o.1 hs) (fun r _ h1 => ?_)
      exact Safe.pure h1
    · rw [if_neg hsp]
      exact Safe.pure h
  obtain ⟨fa, sa, ea⟩ := r
  simp only at g1 ⊢
  refine Safe.bind (Q := fun _ => True) (Safe.quiet (fun _ _ => trivial)) (fun sc _ _ => ?_)
  refine Safe.bind (Q := fun _ => True) (Safe.quiet (fun _ _ => trivial)) (fun ec _ _ => ?_)
  have hrest : ∀ fb : File, Grid B fb →
      Safe (Grid B) (trimEndT fb ec ea (u64 (s + c)) >>= fun f => finishMarkT f sa ea ⟨s, c, st.code⟩ st) (Grid B) :=
    fun fb hb => Safe.bind (trimEndT_grid hb _ _ hf) (fun fc _ h2 => finishMarkT_grid h2 _ _ hs _)
  by_cases hsct : sc = true
  · rw [if_pos hsct]
    refine Safe.bind (Q := fun e => fa.slots[sa]? = some e) (Safe.quiet (fun _ => deref_inv)) (fun x _ hxs => ?_)
    by_cases hex : x.start = s ∧ x.count ≤ c
    · rw [if_pos hex]
      by_cases hst : st = .absent
      · rw [if_pos hst]
        exact Safe.bind (deleteRangeT_grid g1 _ _) (fun r _ h1 => Safe.pure h1)
      · rw [if_neg hst]
        refine Safe.bind (subCntT_grid g1 _ _ _) (fun fb _ hb => ?_)
        refine Safe.bind (storeT_grid hb _ hs _) (fun fc _ hc => ?_)
        refine Safe.bind (addCntT_grid hc _ _ _) (fun fd _ hd => ?_)
        exact Safe.bind (deleteRangeT_grid hd _ _) (fun r _ h1 => mergeAroundT_grid h1 _)
    · rw [if_neg hex]
      refine Safe.bind (storeT_grid g1 _ (by have := g1.starts _ _ hxs; exact this) _) (fun fb _ hb => ?_)
      refine Safe.chk (fun _ => Safe.chk (fun _ => Safe.chk (fun _ => ?_)))
      exact Safe.bind (subCntT_grid hb _ _ _) (fun fc _ hc => hrest fc hc)
  · rw [if_neg hsct]
    exact hrest fa g1

theorem markLoopT_grid (st : State) (fuel : Nat) : ∀ {f : File} {s c : Nat},
    s + c < W64 → s + c ≤ B → Grid B f → Safe (Grid B) (markLoopT st fuel f s c) (Grid B) := by
  induction fuel with
  | zero => intro f s c _ _ _; exact Safe.quiet (fun a ha => by cases ha)
  | succ n ih =>
    intro f s c hsc hB h
    unfold markLoopT
    by_cases h1 : c > limit
    · rw [if_pos h1]
      simp only [limit] at h1 ⊢
      have hu : u64 (s + 65535) = s + 65535 := by unfold u64; omega
      refine Safe.bind (markInternalT_grid h (by omega) (by rw [hu]; omega) st) (fun f2 _ h2 => ?_)
      rw [hu]
      exact ih (by omega) (by omega) h2
    · rw [if_neg h1]
      by_cases h2 : c > 0
      · rw [if_pos h2]
        exact markInternalT_grid h (by omega) (by unfold u64; omega) st
      · rw [if_neg h2]
        exact Safe.pure h

/-- Between calls: the file may be unmapped (`shrink`); the remembered length is then that of the last
mapping. -/
structure Lattice (B : Nat) (f : File) : Prop where
  len : f.slots.length % 256 = 224
  msize : f.msize % 4096 = 0
  msize_le : f.fileSize ≤ f.msize
  msize_eq : f.mapped = true → f.msize = f.fileSize
  starts : Al (fun e => e.start ≤ B) f
  high : ∀ t, 4 ≤ t → f.cnt t = 0

theorem Grid.lattice (h : Grid B f) : Lattice B f := by
  have e : f.msize = f.fileSize := h.ms
  refine ⟨h.len, ?_, by omega, fun _ => e, h.starts, h.high⟩
  have := h.ms
  have := h.len
  omega

theorem Lattice.grid (h : Lattice B f) : Grid B (ensureMapped f) := by
  have hm : (ensureMapped f).mapped = true ∧ (ensureMapped f).msize = 512 + 16 * f.slots.length := by
    unfold ensureMapped
    by_cases hm : f.mapped = true
    · rw [if_pos hm]; exact ⟨hm, h.msize_eq hm⟩
    · rw [if_neg hm]; exact ⟨rfl, rfl⟩
  exact ⟨hm.1, by rw [ensureMapped_slots]; exact hm.2, by rw [ensureMapped_slots]; exact h.len,
    h.starts.same (ensureMapped_slots f), by rw [ensureMapped_cnt]; exact h.high⟩

theorem markT_grid (h : Lattice B f) {s c : Nat} (st : State) (hsc : s + c < W64) (hB : s + c ≤ B) :
    Safe (Grid B) (markT f s c st) (Grid B) := by
  unfold markT
  refine Safe.bind (Q := Grid B) (Safe.point (fun g hg => ?_)) (fun f1 _ h1 => ?_)
  · injection hg with hg
    subst hg
    exact ⟨h.grid, h.grid⟩
  · exact markLoopT_grid st _ hsc hB h1

theorem shrink_lattice (h : Lattice B f) (hs : shrink f = .ok g) : Lattice B g := by
  have hst := shrink_al h.starts hs
  unfold shrink at hs
  simp only at hs
  by_cases h1 : f.msize / growSize ≤ 1
  · rw [if_pos h1] at hs; injection hs with hs; rw [← hs]; exact h
  rw [if_neg h1] at hs
  by_cases h2 : (superblockSize + f.n * entrySize + growSize - 1) / growSize = f.msize / growSize
  · rw [if_pos h2] at hs; injection hs with hs; rw [← hs]; exact h
  rw [if_neg h2] at hs
  have hz : 1 ≤ (superblockSize + f.n * entrySize + growSize - 1) / growSize := by
    simp only [superblockSize, growSize, entrySize]; omega
  generalize (superblockSize + f.n * entrySize + growSize - 1) / growSize = z at hs hz
  obtain ⟨u, c1, hs⟩ := bind_inv hs
  obtain ⟨u2, c2, hs⟩ := bind_inv hs
  injection hs with hs
  have e : (ensureUnmapped f).slots = f.slots ∧ (ensureUnmapped f).msize = f.msize ∧ (ensureUnmapped f).mapped = false ∧ (ensureUnmapped f).cnt = f.cnt := by
    unfold ensureUnmapped
    by_cases hm : f.mapped = true
    · rw [if_pos hm]; exact ⟨rfl, rfl, rfl, rfl⟩
    · rw [if_neg hm]; exact ⟨rfl, rfl, by simpa using hm, rfl⟩
  have hl := h.len
  have hle := h.msize_le
  simp only [File.fileSize, superblockSize, entrySize] at hle
  refine ⟨?_, ?_, ?_, fun hm => ?_, hst, ?_⟩
  · rw [← hs]
    simp only [List.length_take, e.1, superblockSize, growSize, entrySize]
    omega
  · rw [← hs]; simp only [e.2.1]; exact h.msize
  · rw [← hs]
    simp only [File.fileSize, e.2.1, List.length_take, e.1, superblockSize, growSize, entrySize]
    omega
  · rw [← hs] at hm
    simp only [e.2.2.1] at hm
    cases hm
  · rw [← hs]
    simp only [e.2.2.2]
    exact h.high

theorem fsck_lattice (h : Lattice B f) (hs : fsck f = .ok g) : Lattice B g := by
  unfold fsck at hs
  simp only at hs
  obtain ⟨acc, _, hs⟩ := bind_inv hs
  by_cases hc : acc 0 = (ensureMapped f).cnt 0 ∧ acc 1 = (ensureMapped f).cnt 1 ∧ acc 2 = (ensureMapped f).cnt 2 ∧ acc 3 = (ensureMapped f).cnt 3
  · rw [if_pos hc] at hs; exact shrink_lattice h.grid.lattice hs
  · rw [if_neg hc] at hs; cases hs

theorem reopen_grid (h1 : f.slots.length % 256 = 224) (h2 : Al (fun e => e.start ≤ B) f)
    (h3 : ∀ t, 4 ≤ t → f.cnt t = 0) : Grid B (reopen f) := by
  have e : (ensureUnmapped f).slots = f.slots ∧ (ensureUnmapped f).mapped = false ∧ (ensureUnmapped f).cnt = f.cnt := by
    unfold ensureUnmapped
    by_cases hm : f.mapped = true
    · rw [if_pos hm]; exact ⟨rfl, rfl, rfl⟩
    · rw [if_neg hm]; exact ⟨rfl, by simpa using hm, rfl⟩
  have s : (reopen f).slots = f.slots := by unfold reopen; rw [ensureMapped_slots]; exact e.1
  refine ⟨ensureMapped_mapped _, ?_, by rw [s]; exact h1, h2.same s,
    by unfold reopen; rw [ensureMapped_cnt, e.2.2]; exact h3⟩
  rw [s]
  unfold reopen ensureMapped
  rw [if_neg (by rw [e.2.1]; exact Bool.false_ne_true)]
  simp only [File.fileSize, e.1, superblockSize, entrySize]

/-- No mark of `cs` reaches beyond block `B`. -/
def Below (B : Nat) (cs : List Call) : Prop := ∀ s c st, Call.mark s c st ∈ cs → s + c ≤ B

/-- The file, at all times and in all versions. -/
theorem Life.lattice {P : Prop} {cs : List Call} {V : File → Prop} {f : File} (h : Life P cs V f) (hB : Below B cs) :
    Lattice B f ∧ ∀ v, V v → Lattice B v := by
  induction h with
  | start =>
    have : Lattice B fresh := by
      refine ⟨by rw [fresh_len], by decide +kernel, by decide +kernel, fun _ => by decide +kernel, fun i e he => ?_, fun t _ => rfl⟩
      rw [(List.mem_replicate.1 (List.mem_of_getElem? he)).2]; exact Nat.zero_le _
    exact ⟨this, fun v hv => by rw [hv]; exact this⟩
  | @call cs V f g c _ hr hs ih =>
    obtain ⟨i1, i2⟩ := ih (fun s n st hm => hB s n st (List.mem_append_left _ hm))
    have mark : ∀ s n st, c = .mark s n st → Safe (Grid B) (markT f s n st) (Grid B) := by
      intro s n st hc
      exact markT_grid i1 st (hr s n st (by simp [hc])) (hB s n st (by simp [hc]))
    have hg : Lattice B g := by
      cases c with
      | mark s n st => exact ((mark s n st rfl).res g (by rw [markT_res]; exact hs)).lattice
      | shrink => exact shrink_lattice i1 hs
      | fsck =>
        unfold step at hs
        cases hf : fsck f with
        | ok a => rw [hf] at hs; injection hs with hs; subst hs; exact fsck_lattice i1 hf
        | error e =>
          rw [hf] at hs
          cases e with
          | thrown l => injection hs with hs; subst hs; exact i1.grid.lattice
          | _ => cases hs
      | reopen => injection hs with hs; subst hs; exact (reopen_grid i1.len i1.starts i1.high).lattice
    refine ⟨hg, fun v hv => ?_⟩
    simp only at hv
    by_cases hc : c = .reopen
    · rw [if_pos hc] at hv; rw [hv]; exact hg
    · rw [if_neg hc] at hv
      rcases hv with hv | ⟨s, n, st, he, hv⟩ | hv
      · exact i2 v hv
      · exact ((mark s n st he).crash v hv).lattice
      · rw [hv]; exact hg
  | @die cs V f g s n st _ h1 hc ih =>
    obtain ⟨i1, i2⟩ := ih (fun s n st hm => hB s n st (List.mem_append_left _ hm))
    have hm := markT_grid i1 st h1 (hB s n st (by simp))
    have hg := hm.crash g hc
    refine ⟨(reopen_grid hg.len hg.starts hg.high).lattice, fun v hv => ?_⟩
    rcases hv with hv | hv
    · exact i2 v hv
    · exact (hm.crash v hv).lattice
  | @power cs V f g _ _ _ hcnt hlen hslot ih =>
    obtain ⟨i1, i2⟩ := ih hB
    obtain ⟨v, hv, hl⟩ := hlen
    have : Al (fun e => e.start ≤ B) g := by
      intro k x hx
      obtain ⟨v, hv, rfl⟩ := hslot k x hx
      rw [List.getD_eq_getElem?_getD]
      cases hk : v.slots[k]? with
      | none => exact Nat.zero_le _
      | some y => exact (i2 v hv).starts k y hk
    have hg := (reopen_grid (by rw [hl]; exact (i2 v hv).len) this (fun t ht => by
      obtain ⟨w, hw, e⟩ := hcnt t
      rw [e]; exact (i2 w hw).high t ht)).lattice
    exact ⟨hg, fun v hv => by rw [hv]; exact hg⟩

end Dragonstash.Blocklist
