/-
  C80: what happens if the host refuses a system call of the block list, and that mappings are given back.
-/
import Verif.Blocklist.MapModel
namespace Dragonstash.BMap

/-! ### Specification -/

/-- The call was refused. -/
def Sys.refused : Sys → Bool
  | .fstat ok | .ftruncate ok _ | .pread ok => !ok
  | .mmapFails _ | .munmapFails => true
  | .mmap .. | .munmap .. | .fsync => false

/-- The mappings which exist after these system calls; none if something was given back which was not there. -/
def live : List Sys → Option (List (Nat × Nat))
  | [] => some []
  | l => go [] l
where
  go : List (Nat × Nat) → List Sys → Option (List (Nat × Nat))
  | m, [] => some m
  | m, .mmap a z :: l => go ((a, z) :: m) l
  | m, .munmap a z :: l => if (a, z) ∈ m then go (m.erase (a, z)) l else none
  | m, _ :: l => go m l

/-- C80 in full: whatever the host refuses, nothing crashes; a refusal is reported by an exception. -/
def C80_full : Prop := ∀ (h : Host) (l : List Api), .error .crash ∉ (life h l).1 ∧ .error .terminate ∉ (life h l).1

/-! ### Proofs -/

variable {h : Host}

theorem go_append : ∀ (l l' : List Sys) (m : List (Nat × Nat)), live.go m (l ++ l') = (live.go m l).bind (fun m => live.go m l')
  | [], l', m => rfl
  | c :: l, l', m => by
    cases c with
    | mmap a z => simp only [List.cons_append, live.go]; exact go_append l l' _
    | munmap a z =>
      simp only [List.cons_append, live.go]
      split
      · exact go_append l l' _
      · rfl
    | _ => simp only [List.cons_append, live.go]; exact go_append l l' _

theorem live_go (l : List Sys) : live l = live.go [] l := by cases l <;> rfl

/-- The mappings which the pointer stands for. -/
def owns (s : St) : List (Nat × Nat) :=
  match s.ptr with
  | .addr a => [(a, s.size)]
  | _ => []

/-- The invariant. -/
def Inv (s : St) : Prop := live s.log = some (owns s) ∧ (s.ptr = .mapFailed → ∃ z, .mmapFails z ∈ s.log)

/-- What is proved of every function. -/
structure Good (s : St) (x : Run Unit) : Prop where
  log : ∃ new, x.2.log = s.log ++ new ∧
    (x.1 = .ok () → ∀ c ∈ new, c.refused = true → ∃ z, c = .mmapFails z) ∧
    (x.1 = .error .throws → ∃ c ∈ new, c.refused = true ∧ (∀ z, c ≠ .mmapFails z))
  inv : Inv x.2
  crash : x.1 = .error .crash → x.2.ptr = .mapFailed
  term : x.1 ≠ .error .terminate

/-- A function which leaves a mapping, or `MAP_FAILED`, if it returns. -/
def Maps (x : Run Unit) : Prop := x.1 = .ok () → x.2.ptr ≠ .null

theorem live_say {s : St} {c : Sys} {m : List (Nat × Nat)} (hl : live s.log = some m) : live (s.log ++ [c]) = live.go m [c] := by
  rw [live_go] at hl ⊢
  rw [go_append, hl]; rfl

theorem Good.andThen {s : St} {x : Run Unit} {f : St → Run Unit} (hx : Good s x) (hf : x.1 = .ok () → Good x.2 (f x.2)) : Good s (andThen x f) := by
  obtain ⟨r, s1⟩ := x
  cases r with
  | error e => exact ⟨hx.log, hx.inv, hx.crash, hx.term⟩
  | ok u =>
    have h2 := hf rfl
    obtain ⟨n1, a1, a2, a3⟩ := hx.log
    obtain ⟨n2, b1, b2, b3⟩ := h2.log
    refine ⟨⟨n1 ++ n2, ?_, ?_, ?_⟩, h2.inv, h2.crash, h2.term⟩
    · show (f s1).2.log = _
      simp only at a1 b1
      rw [b1, a1, List.append_assoc]
    · intro hr c hc hcr
      rcases List.mem_append.mp hc with hc | hc
      · exact a2 rfl c hc hcr
      · exact b2 hr c hc hcr
    · intro hr
      obtain ⟨c, c1, c2⟩ := b3 hr
      exact ⟨c, List.mem_append_right _ c1, c2⟩

theorem Maps.andThen {x : Run Unit} {f : St → Run Unit} (hf : x.1 = .ok () → Maps (f x.2)) : Maps (BMap.andThen x f) := by
  obtain ⟨r, s1⟩ := x
  cases r with
  | error e => intro h; cases h
  | ok u => exact hf rfl

theorem good_quiet {s : St} (hs : Inv s) : Good s (.ok (), s) :=
  ⟨⟨[], by simp, by simp, fun h => by cases h⟩, hs, fun h => (by cases h), fun h => (by cases h)⟩

/-- A call which touches no mapping. -/
theorem good_say {s : St} (hs : Inv s) {c : Sys} (hc : ∀ m, live.go m [c] = some m) (r : Except Stop Unit) (hr : (r = .ok () ∧ c.refused = false) ∨ (r = .error .throws ∧ c.refused = true ∧ ∀ z, c ≠ .mmapFails z)) :
    Good s (r, s.say c) := by
  refine ⟨⟨[c], rfl, ?_, ?_⟩, ⟨?_, ?_⟩, ?_, ?_⟩
  · intro h1 c' hc' hcr
    rw [List.mem_singleton.mp hc'] at hcr
    rcases hr with ⟨-, h2⟩ | ⟨h2, -⟩
    · rw [h2] at hcr; cases hcr
    · simp only at h1; rw [h1] at h2; cases h2
  · intro h1
    rcases hr with ⟨h2, -⟩ | ⟨-, h2⟩
    · simp only at h1; rw [h1] at h2; cases h2
    · exact ⟨c, by simp, h2⟩
  · show live (s.log ++ [c]) = _
    rw [live_say hs.1, hc]; rfl
  · intro h1
    obtain ⟨z, hz⟩ := hs.2 h1
    exact ⟨z, List.mem_append_left _ hz⟩
  · intro h1; simp only at h1
    rcases hr with ⟨h2, -⟩ | ⟨h2, -⟩ <;> rw [h1] at h2 <;> cases h2
  · intro h1; simp only at h1
    rcases hr with ⟨h2, -⟩ | ⟨h2, -⟩ <;> rw [h1] at h2 <;> cases h2

theorem ensureMapped_good {s : St} (hs : Inv s) : Good s (ensureMapped h s) := by
  unfold ensureMapped
  cases hp : s.ptr with
  | mapFailed => exact good_quiet hs
  | addr a => exact good_quiet hs
  | null =>
    simp only
    have hl : live s.log = some [] := by have := hs.1; unfold owns at this; rw [hp] at this; exact this
    split
    · have e1 : live (s.say (.fstat true)).log = some [] := by show live (s.log ++ _) = _; rw [live_say hl]; rfl
      split
      · refine ⟨⟨[.fstat true, .mmap (s.say (.fstat true)).n (h.size s.n)], by simp [St.say], ?_, fun h => by cases h⟩, ⟨?_, ?_⟩, fun h => (by cases h), fun h => (by cases h)⟩
        · intro _ c hc hcr
          simp only [List.mem_cons, List.not_mem_nil, or_false] at hc
          rcases hc with rfl | rfl <;> cases hcr
        · show live ((s.say (.fstat true)).log ++ _) = _
          rw [live_say e1]; rfl
        · intro h; cases h
      · refine ⟨⟨[.fstat true, .mmapFails (h.size s.n)], by simp [St.say], ?_, fun h => by cases h⟩, ⟨?_, ?_⟩, fun h => (by cases h), fun h => (by cases h)⟩
        · intro _ c hc hcr
          simp only [List.mem_cons, List.not_mem_nil, or_false] at hc
          rcases hc with rfl | rfl
          · cases hcr
          · exact ⟨_, rfl⟩
        · show live ((s.say (.fstat true)).log ++ _) = _
          rw [live_say e1]; rfl
        · intro _; exact ⟨h.size s.n, by simp [St.say]⟩
    · exact good_say hs (fun _ => rfl) _ (.inr ⟨rfl, rfl, fun _ h => by cases h⟩)

theorem ensureMapped_maps {s : St} : Maps (ensureMapped h s) := by
  unfold ensureMapped Maps
  cases hp : s.ptr with
  | mapFailed => intro _ h; rw [hp] at h; cases h
  | addr a => intro _ h; rw [hp] at h; cases h
  | null =>
    simp only
    split
    · split <;> intro _ h <;> cases h
    · intro h; cases h

theorem ensureUnmapped_good {s : St} (hs : Inv s) : Good s (ensureUnmapped h s) := by
  unfold ensureUnmapped
  cases hp : s.ptr with
  | null => exact good_quiet hs
  | mapFailed => exact good_say hs (fun _ => rfl) _ (.inr ⟨rfl, rfl, fun _ h => by cases h⟩)
  | addr a =>
    simp only
    have hl : live s.log = some [(a, s.size)] := by have := hs.1; unfold owns at this; rw [hp] at this; exact this
    split
    · refine ⟨⟨[.munmap a s.size], rfl, ?_, fun h => by cases h⟩, ⟨?_, fun h => by cases h⟩, fun h => (by cases h), fun h => (by cases h)⟩
      · intro _ c hc hcr
        rw [List.mem_singleton.mp hc] at hcr; cases hcr
      · show live (s.log ++ _) = _
        rw [live_say hl]
        simp [live.go, owns]
    · exact good_say hs (fun _ => rfl) _ (.inr ⟨rfl, rfl, fun _ h => by cases h⟩)

theorem access_good {s : St} (hs : Inv s) (hp : s.ptr ≠ .null) : Good s (access s) := by
  unfold access
  cases hq : s.ptr with
  | null => exact absurd hq hp
  | addr a => exact good_quiet hs
  | mapFailed => exact ⟨⟨[], by simp, by simp, fun h => by cases h⟩, hs, fun _ => hq, fun h => (by cases h)⟩

theorem access_maps {s : St} : Maps (access s) := by
  unfold access Maps
  cases hq : s.ptr with
  | addr a => intro _ h; simp only at h; rw [hq] at h; cases h
  | _ => intro h; cases h

theorem superblock_good {s : St} (hs : Inv s) : Good s (superblock h s) := by
  unfold superblock
  cases hq : s.ptr with
  | null =>
    simp only
    split
    · exact good_say hs (fun _ => rfl) _ (.inl ⟨rfl, rfl⟩)
    · exact good_say hs (fun _ => rfl) _ (.inr ⟨rfl, rfl, fun _ h => by cases h⟩)
  | addr a => exact access_good hs (by rw [hq]; simp)
  | mapFailed => exact access_good hs (by rw [hq]; simp)

theorem superblock_maps {s : St} (hp : s.ptr ≠ .null) : Maps (superblock h s) := by
  unfold superblock
  cases hq : s.ptr with
  | null => exact absurd hq hp
  | addr a => exact access_maps
  | mapFailed => exact access_maps

theorem grow_good {s : St} (hs : Inv s) : Good s (grow h s) := by
  unfold grow
  refine (ensureUnmapped_good hs).andThen fun _ => ?_
  have hi := (ensureUnmapped_good (h := h) hs).inv
  generalize (ensureUnmapped h s).2 = s at hi
  simp only
  split
  · have g1 := good_say hi (c := .fstat true) (fun _ => rfl) (.ok ()) (.inl ⟨rfl, rfl⟩)
    have := g1.andThen (f := fun s' => if h.ok s'.n then (.ok (), s'.say (.ftruncate true (h.size s.n + 4096))) else (.error .throws, s'.say (.ftruncate false (h.size s.n + 4096)))) (fun _ => by
      simp only
      split
      · exact good_say g1.inv (fun _ => rfl) _ (.inl ⟨rfl, rfl⟩)
      · exact good_say g1.inv (fun _ => rfl) _ (.inr ⟨rfl, rfl, fun _ h => by cases h⟩))
    exact this
  · exact good_say hi (fun _ => rfl) _ (.inr ⟨rfl, rfl, fun _ h => by cases h⟩)

theorem requireSpace_good {s : St} (hs : Inv s) (full : Bool) : Good s (requireSpace h full s) := by
  unfold requireSpace
  refine (ensureMapped_good hs).andThen fun hk => ?_
  have h1 := (ensureMapped_good (h := h) hs).inv
  have hp := ensureMapped_maps (h := h) (s := s) hk
  generalize (ensureMapped h s).2 = s at h1 hp
  refine (superblock_good h1).andThen fun hk => ?_
  have h2 := (superblock_good (h := h) h1).inv
  have hp2 := superblock_maps (h := h) hp hk
  generalize (superblock h s).2 = s at h2 hp2
  cases full with
  | false => exact access_good h2 hp2
  | true =>
    refine (grow_good h2).andThen fun hk => ?_
    have h3 := (grow_good (h := h) h2).inv
    generalize (grow h s).2 = s at h3
    refine (ensureMapped_good h3).andThen fun hk => ?_
    exact access_good (ensureMapped_good (h := h) h3).inv (ensureMapped_maps (h := h) hk)

theorem requireSpace_maps {s : St} (full : Bool) : Maps (requireSpace h full s) := by
  unfold requireSpace
  refine Maps.andThen fun _ => Maps.andThen fun _ => ?_
  cases full with
  | false => exact access_maps
  | true => exact Maps.andThen fun _ => Maps.andThen fun _ => access_maps

theorem shrink_good {s : St} (hs : Inv s) (new : Option Nat) : Good s (shrink h new s) := by
  unfold shrink
  refine (superblock_good hs).andThen fun hk => ?_
  have h2 := (superblock_good (h := h) hs).inv
  generalize (superblock h s).2 = s at h2
  cases new with
  | none => exact good_quiet h2
  | some z =>
    refine (ensureUnmapped_good h2).andThen fun _ => ?_
    have h3 := (ensureUnmapped_good (h := h) h2).inv
    generalize (ensureUnmapped h s).2 = s at h3
    split
    · exact good_say h3 (fun _ => rfl) _ (.inl ⟨rfl, rfl⟩)
    · exact good_say h3 (fun _ => rfl) _ (.inr ⟨rfl, rfl, fun _ h => by cases h⟩)

theorem micros_good : ∀ (l : List Micro) {s : St}, Inv s → s.ptr ≠ .null → Good s (micros h l s)
  | [], s, hs, _ => good_quiet hs
  | m :: l, s, hs, hp => by
    unfold micros
    cases m with
    | access => exact (access_good hs hp).andThen fun hk => micros_good l (access_good hs hp).inv (access_maps hk)
    | space full => exact (requireSpace_good hs full).andThen fun hk => micros_good l (requireSpace_good hs full).inv (requireSpace_maps full hk)

theorem api_good {s : St} (hs : Inv s) (c : Api) : Good s (api h c s) := by
  unfold api
  cases c with
  | work l => exact (ensureMapped_good hs).andThen fun hk => micros_good l (ensureMapped_good hs).inv (ensureMapped_maps hk)
  | peek => exact superblock_good hs
  | fsck new =>
    refine (ensureMapped_good hs).andThen fun hk => ?_
    have hg := access_good (ensureMapped_good (h := h) hs).inv (ensureMapped_maps (h := h) hk)
    exact hg.andThen fun _ => shrink_good hg.inv new
  | shrink new => exact shrink_good hs new

theorem inv_start : Inv ⟨.null, 0, []⟩ := ⟨rfl, fun h => by cases h⟩

theorem mem_log {s : St} {x : Run Unit} (hg : Good s x) {c : Sys} (hc : c ∈ s.log) : c ∈ x.2.log := by
  obtain ⟨n, h1, -⟩ := hg.log
  rw [h1]; exact List.mem_append_left _ hc

theorem calls_good : ∀ (l : List Api) {s : St}, Inv s → Inv (calls h l s).2 ∧ (∀ c ∈ s.log, c ∈ (calls h l s).2.log) ∧
    (.error .crash ∈ (calls h l s).1 → ∃ z, .mmapFails z ∈ (calls h l s).2.log) ∧ .error .terminate ∉ (calls h l s).1
  | [], s, hs => ⟨hs, fun _ h => h, by simp [calls], by simp [calls]⟩
  | c :: l, s, hs => by
    have hg := api_good (h := h) hs c
    unfold calls
    generalize hx : api h c s = x at hg
    obtain ⟨r, s1⟩ := x
    have hm : ∀ c ∈ s.log, c ∈ s1.log := fun _ hc => mem_log hg hc
    obtain ⟨k1, k2, k3, k4⟩ := calls_good l hg.inv
    simp only at k1 k2 k3 k4
    cases r with
    | ok u =>
      cases u
      simp only
      refine ⟨k1, fun _ hc => k2 _ (hm _ hc), fun hc => k3 (by simpa using hc), by simpa using k4⟩
    | error e =>
      cases e with
      | crash =>
        simp only
        exact ⟨hg.inv, hm, fun _ => hg.inv.2 (hg.crash rfl), by simp⟩
      | terminate => exact absurd rfl hg.term
      | throws =>
        simp only
        refine ⟨k1, fun _ hc => k2 _ (hm _ hc), fun hc => k3 (by simpa using hc), by simpa using k4⟩

/-- C80, the part which holds: if the host never refuses a mapping, then nothing crashes; if it does not
refuse to take mappings back either, the process is not terminated. -/
theorem C80_crash_partial (h : Host) (l : List Api) :
    ((∀ z, .mmapFails z ∉ (life h l).2.log) → .error .crash ∉ (life h l).1) ∧
    ((∀ z, .mmapFails z ∉ (life h l).2.log) → .munmapFails ∉ (life h l).2.log → .error .terminate ∉ (life h l).1) := by
  have hc := ensureMapped_good (h := h) inv_start
  unfold life ctor
  generalize ensureMapped h ⟨.null, 0, []⟩ = x at hc
  obtain ⟨r, s⟩ := x
  cases r with
  | error e =>
    have h1 := hc.crash
    have h2 := hc.term
    refine ⟨fun hm => ?_, fun hm _ => ?_⟩
    · intro he
      simp only [List.mem_singleton] at he
      cases he
      obtain ⟨z, hz⟩ := hc.inv.2 (h1 rfl)
      exact hm z hz
    · intro he
      simp only [List.mem_singleton] at he
      cases he
      exact h2 rfl
  | ok u =>
    cases u
    obtain ⟨k1, k2, k3, k4⟩ := calls_good (h := h) l hc.inv
    simp only at k1 k2 k3 k4 ⊢
    generalize calls h l s = y at k1 k2 k3 k4
    obtain ⟨rs, s'⟩ := y
    simp only at k1 k2 k3 k4 ⊢
    by_cases hr : (.error .crash) ∈ rs
    · rw [if_pos hr]
      obtain ⟨z, hz⟩ := k3 hr
      exact ⟨fun hm => absurd hz (hm z), fun hm => absurd hz (hm z)⟩
    · rw [if_neg hr]
      have hu := ensureUnmapped_good (h := h) k1
      unfold dtor
      generalize hx : ensureUnmapped h s' = x at hu
      obtain ⟨r2, s2⟩ := x
      cases r2 with
      | ok u =>
        cases u
        simp only [List.mem_cons, List.mem_append, List.not_mem_nil, or_false, reduceCtorEq, false_or]
        exact ⟨fun _ => hr, fun _ _ => k4⟩
      | error e =>
        simp only [List.mem_cons, List.mem_append, List.not_mem_nil, or_false, reduceCtorEq, false_or, Except.error.injEq]
        refine ⟨fun _ => hr, fun hm hn => ?_⟩
        exfalso
        unfold ensureUnmapped at hx
        cases hp : s'.ptr with
        | null => rw [hp] at hx; cases hx
        | mapFailed =>
          rw [hp] at hx; cases hx
          exact hn (by simp [St.say])
        | addr a =>
          rw [hp] at hx
          simp only at hx
          split at hx
          · cases hx
          · cases hx; exact hn (by simp [St.say])

/-- C80: calls report refusals. In every state of a life: a call throws only if the host refused something, and
if it returns then the host refused nothing - but a mapping, perhaps. -/
theorem C80_reported (h : Host) (l : List Api) (c : Api) {s : St} (hs : ctor h = (.ok (), s)) :
    ∃ new, (api h c (calls h l s).2).2.log = (calls h l s).2.log ++ new ∧
      ((api h c (calls h l s).2).1 = .error .throws → ∃ x ∈ new, x.refused = true ∧ ∀ z, x ≠ .mmapFails z) ∧
      ((api h c (calls h l s).2).1 = .ok () → ∀ x ∈ new, x.refused = true → ∃ z, x = .mmapFails z) := by
  have hc : Inv s := by
    have := (ensureMapped_good (h := h) inv_start).inv
    unfold ctor at hs; rw [hs] at this; exact this
  obtain ⟨new, h1, h2, h3⟩ := (api_good (h := h) (calls_good (h := h) l hc).1 c).log
  exact ⟨new, h1, h3, h2⟩

/-- C80: mappings are given back: when the destructor is done every mapping which was made has been given back,
with its size, and once. If the constructor throws there was none. -/
theorem C80_given_back (h : Host) (l : List Api) (hc : .error .crash ∉ (life h l).1) (ht : .error .terminate ∉ (life h l).1) :
    live (life h l).2.log = some [] := by
  have hi := ensureMapped_good (h := h) inv_start
  unfold life at *
  unfold ctor at *
  generalize hx : ensureMapped h ⟨.null, 0, []⟩ = x at *
  obtain ⟨r, s⟩ := x
  cases r with
  | error e =>
    simp only
    have := hi.inv.1
    simp only at this
    rw [this]
    unfold owns
    unfold ensureMapped at hx
    simp only at hx
    split at hx
    · split at hx <;> cases hx
    · cases hx; rfl
  | ok u =>
    cases u
    obtain ⟨k1, -, -, -⟩ := calls_good (h := h) l hi.inv
    simp only at k1 hc ht ⊢
    generalize calls h l s = y at *
    obtain ⟨rs, s'⟩ := y
    simp only at k1 hc ht ⊢
    by_cases hr : (.error .crash) ∈ rs
    · rw [if_pos hr] at hc
      exact absurd (List.mem_cons_of_mem _ hr) hc
    · rw [if_neg hr] at hc ht ⊢
      have hu := ensureUnmapped_good (h := h) k1
      unfold dtor at *
      cases hp : s'.ptr with
      | null =>
        have e : ensureUnmapped h s' = (.ok (), s') := by unfold ensureUnmapped; rw [hp]
        rw [e]
        simp only
        have h1 : live s'.log = some [] := by have := k1.1; unfold owns at this; rw [hp] at this; exact this
        show live (s'.log ++ _) = _
        rw [live_say h1]; rfl
      | mapFailed =>
        have e : ensureUnmapped h s' = (.error .throws, s'.say .munmapFails) := by unfold ensureUnmapped; rw [hp]
        rw [e] at ht
        simp at ht
      | addr a =>
        by_cases ho : h.ok s'.n
        · have e : ensureUnmapped h s' = (.ok (), { s'.say (.munmap a s'.size) with ptr := .null }) := by unfold ensureUnmapped; rw [hp]; simp only [ho, if_true]
          rw [e] at hu ⊢
          simp only
          have h1 := hu.inv.1
          simp only at h1
          have h2 : live (s'.say (.munmap a s'.size)).log = some [] := h1
          show live ((s'.say (.munmap a s'.size)).log ++ _) = _
          rw [live_say h2]; rfl
        · have e : ensureUnmapped h s' = (.error .throws, s'.say .munmapFails) := by unfold ensureUnmapped; rw [hp]; simp only [ho]; rfl
          rw [e] at ht
          simp at ht

/-- C80: after any refusals except of mappings the object still works: once the host refuses nothing any more,
every call and the destructor succeed. -/
theorem C80_recovers (h : Host) (l : List Api) {s : St} (hs : ctor h = (.ok (), s)) (hm : ∀ z, .mmapFails z ∉ (calls h l s).2.log)
    {h' : Host} (hok : ∀ n, h'.ok n = true) (l' : List Api) :
    (∀ r ∈ (calls h' l' (calls h l s).2).1, r = .ok ()) ∧ (dtor h' (calls h' l' (calls h l s).2).2).1 = .ok () := by
  have hc : Inv s := by
    have := (ensureMapped_good (h := h) inv_start).inv
    unfold ctor at hs; rw [hs] at this; exact this
  have hi := (calls_good (h := h) l hc).1
  have hp : (calls h l s).2.ptr ≠ .mapFailed := by
    intro e
    obtain ⟨z, hz⟩ := hi.2 e
    exact hm z hz
  generalize (calls h l s).2 = s at hi hp
  clear hm hc hs
  -- each piece succeeds and does not leave MAP_FAILED
  have em : ∀ {s : St}, s.ptr ≠ .mapFailed → (ensureMapped h' s).1 = .ok () ∧ ∃ a, (ensureMapped h' s).2.ptr = .addr a := by
    intro s hp
    unfold ensureMapped
    cases hq : s.ptr with
    | mapFailed => exact absurd hq hp
    | addr a => exact ⟨rfl, a, hq⟩
    | null => simp only [hok, if_true]; exact ⟨trivial, _, rfl⟩
  have eu : ∀ {s : St}, s.ptr ≠ .mapFailed → (ensureUnmapped h' s).1 = .ok () ∧ (ensureUnmapped h' s).2.ptr = .null := by
    intro s hp
    unfold ensureUnmapped
    cases hq : s.ptr with
    | mapFailed => exact absurd hq hp
    | null => exact ⟨rfl, hq⟩
    | addr a => simp only [hok, if_true]; exact ⟨trivial, trivial⟩
  have ea : ∀ {s : St} {a}, s.ptr = .addr a → access s = (.ok (), s) := by
    intro s a hp; unfold access; rw [hp]
  have es : ∀ {s : St}, s.ptr ≠ .mapFailed → (superblock h' s).1 = .ok () ∧ (superblock h' s).2.ptr = s.ptr := by
    intro s hp
    unfold superblock
    cases hq : s.ptr with
    | mapFailed => exact absurd hq hp
    | null => simp only [hok, if_true]; exact ⟨trivial, hq⟩
    | addr a => rw [ea hq]; exact ⟨rfl, hq⟩
  have thn : ∀ {x : Run Unit} {f : St → Run Unit} {P : St → Prop}, x.1 = .ok () → (f x.2).1 = .ok () ∧ P (f x.2).2 → (andThen x f).1 = .ok () ∧ P (andThen x f).2 := by
    intro x f P hx hf
    obtain ⟨r, s⟩ := x
    simp only at hx; subst hx
    exact hf
  have eg : ∀ {s : St}, s.ptr ≠ .mapFailed → (grow h' s).1 = .ok () ∧ (grow h' s).2.ptr = .null := by
    intro s hp
    unfold grow
    obtain ⟨a1, a2⟩ := eu hp
    refine thn (P := fun s => s.ptr = .null) a1 ?_
    simp only [hok, if_true]
    exact ⟨trivial, a2⟩
  have er : ∀ {s : St} (full : Bool), s.ptr ≠ .mapFailed → (requireSpace h' full s).1 = .ok () ∧ ∃ a, (requireSpace h' full s).2.ptr = .addr a := by
    intro s full hp
    unfold requireSpace
    obtain ⟨a1, a, a2⟩ := em hp
    refine thn (P := fun s => ∃ a, s.ptr = .addr a) a1 ?_
    obtain ⟨b1, b2⟩ := es (s := (ensureMapped h' s).2) (by rw [a2]; simp)
    refine thn (P := fun s => ∃ a, s.ptr = .addr a) b1 ?_
    rw [a2] at b2
    cases full with
    | false => simp only [Bool.false_eq_true, if_false]; rw [ea b2]; exact ⟨rfl, a, b2⟩
    | true =>
      simp only [if_true]
      obtain ⟨c1, c2⟩ := eg (s := (superblock h' (ensureMapped h' s).2).2) (by rw [b2]; simp)
      refine thn (P := fun s => ∃ a, s.ptr = .addr a) c1 ?_
      obtain ⟨d1, d, d2⟩ := em (s := (grow h' (superblock h' (ensureMapped h' s).2).2).2) (by rw [c2]; simp)
      refine thn (P := fun s => ∃ a, s.ptr = .addr a) d1 ?_
      rw [ea d2]; exact ⟨rfl, d, d2⟩
  have eh : ∀ {s : St} (new : Option Nat), s.ptr ≠ .mapFailed → (shrink h' new s).1 = .ok () ∧ (shrink h' new s).2.ptr ≠ .mapFailed := by
    intro s new hp
    unfold shrink
    obtain ⟨a1, a2⟩ := es hp
    refine thn (P := fun s => s.ptr ≠ .mapFailed) a1 ?_
    cases new with
    | none => exact ⟨rfl, by rw [a2]; exact hp⟩
    | some z =>
      obtain ⟨b1, b2⟩ := eu (s := (superblock h' s).2) (by rw [a2]; exact hp)
      refine thn (P := fun s => s.ptr ≠ .mapFailed) b1 ?_
      simp only [hok, if_true]
      exact ⟨trivial, by show (ensureUnmapped h' _).2.ptr ≠ _; rw [b2]; simp⟩
  have emi : ∀ (l : List Micro) {s : St} {a : Nat}, s.ptr = .addr a → (micros h' l s).1 = .ok () ∧ (micros h' l s).2.ptr ≠ .mapFailed := by
    intro l
    induction l with
    | nil => intro s a hp; exact ⟨rfl, by show s.ptr ≠ _; rw [hp]; simp⟩
    | cons m l ih =>
      intro s a hp
      unfold micros
      cases m with
      | access =>
        refine thn (P := fun s => s.ptr ≠ .mapFailed) (by show (access s).1 = _; rw [ea hp]) ?_
        have e : micro h' .access s = (.ok (), s) := ea hp
        rw [e]; exact ih hp
      | space full =>
        obtain ⟨a1, a, a2⟩ := er (s := s) full (by rw [hp]; simp)
        exact thn (P := fun s => s.ptr ≠ .mapFailed) a1 (ih a2)
  have eapi : ∀ (c : Api) {s : St}, s.ptr ≠ .mapFailed → (api h' c s).1 = .ok () ∧ (api h' c s).2.ptr ≠ .mapFailed := by
    intro c s hp
    unfold api
    cases c with
    | work l =>
      obtain ⟨a1, a, a2⟩ := em hp
      exact thn (P := fun s => s.ptr ≠ .mapFailed) a1 (emi l a2)
    | peek => obtain ⟨a1, a2⟩ := es hp; exact ⟨a1, by rw [a2]; exact hp⟩
    | fsck new =>
      obtain ⟨a1, a, a2⟩ := em hp
      refine thn (P := fun s => s.ptr ≠ .mapFailed) a1 ?_
      refine thn (P := fun s => s.ptr ≠ .mapFailed) (by rw [ea a2]) ?_
      rw [ea a2]; exact eh new (by rw [a2]; simp)
    | shrink new => exact eh new hp
  have all : ∀ (l : List Api) {s : St}, s.ptr ≠ .mapFailed → (∀ r ∈ (calls h' l s).1, r = .ok ()) ∧ (calls h' l s).2.ptr ≠ .mapFailed := by
    intro l
    induction l with
    | nil => intro s hp; exact ⟨by simp [calls], hp⟩
    | cons c l ih =>
      intro s hp
      obtain ⟨a1, a2⟩ := eapi c hp
      unfold calls
      generalize api h' c s = x at a1 a2
      obtain ⟨r, s1⟩ := x
      simp only at a1 a2
      subst a1
      obtain ⟨b1, b2⟩ := ih a2
      simp only
      refine ⟨fun r hr => ?_, b2⟩
      rcases List.mem_cons.mp hr with rfl | hr
      · rfl
      · exact b1 r hr
  obtain ⟨g1, g2⟩ := all l' hp
  refine ⟨g1, ?_⟩
  obtain ⟨k1, -⟩ := eu g2
  unfold dtor
  generalize ensureUnmapped h' _ = x at k1
  obtain ⟨r, s1⟩ := x
  simp only at k1; subst k1
  rfl

/-- A host which refuses the first mapping. -/
def noMap : Host := ⟨fun n => n != 1, fun _ => 4096⟩

/-- The constructor does not notice; the next call crashes; without one the destructor terminates the process. -/
theorem C80_counterexample : ¬ C80_full := by
  intro hf
  exact (hf noMap [.work [.access]]).1 (by decide +kernel)

example : (life noMap [.work [.access]]).1 = [.ok (), .error .crash] ∧ (life noMap []).1 = [.ok (), .error .terminate] := by decide +kernel

/-- A life in which a `ftruncate` is refused (the disk is full), which is reported, and the next attempt works. -/
def fullDisk : Host := ⟨fun n => n != 4, fun _ => 4096⟩

/-- The hypotheses of `C80_crash_partial` and `C80_given_back`; the failing call is one of `C80_reported`, and a host which grants everything from then on makes it one of `C80_recovers`. -/
example : (life fullDisk [.work [.access, .space true, .access], .work [.access, .space true], .peek, .fsck (some 4096)]).1 =
      [.ok (), .error .throws, .ok (), .ok (), .ok (), .ok ()] ∧
    (∀ z, .mmapFails z ∉ (life fullDisk [.work [.access, .space true, .access], .work [.access, .space true], .peek, .fsck (some 4096)]).2.log) := by
  constructor
  · decide +kernel
  · intro z hz
    have : ((life fullDisk [.work [.access, .space true, .access], .work [.access, .space true], .peek, .fsck (some 4096)]).2.log).any
      (fun c => match c with | .mmapFails _ => true | _ => false) = false := by decide +kernel
    rw [List.any_eq_false] at this
    exact this _ hz rfl

end Dragonstash.BMap
