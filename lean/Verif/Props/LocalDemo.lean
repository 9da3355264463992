/-
  A machine for concrete examples: any number of hosts, requests, steps of threads and crashes.
-/
import Verif.Props.LocalList
namespace Dragonstash.Local
open Cache FS MT Conc

/-- A request comes while the host is `j`, a thread makes a step, or the process dies and a new one starts. -/
inductive GEv
  | ask (k j : Nat) (rq : Req)
  | go (k : Nat)
  | die
  deriving DecidableEq

/-- The events, one after the other; `ok` is asked whenever a request ends. -/
def runG (hosts : Nat → Backend) (ok : MSys → Done → Bool) (m : MSys) (cap : Nat) : List GEv → Option (MSys × Nat)
  | [] => some (m, cap)
  | .ask k j rq :: l => match m.th[k]? with
    | some .idle =>
      if rq.inRangeB && returnedB m.held rq && roomB m.w cap && namedB rq then
        runG hosts ok { m.to k (.recv rq (hosts j)) with held := fun i => m.held i - rq.returned i } cap l
      else none
    | _ => none
  | .go k :: l => match demoMT m cap [.go k] with
    | none => none
    | some (m', cap') => if (m'.hist.drop m.hist.length).all (ok m) then runG hosts ok m' cap' l else none
  | .die :: l => match openCleanDB (initDB m.w.disk 0 0 ⟨0, 0⟩) Refs.empty with
    | .error _ => none
    | .ok (d, r) => if roomB (CWorld.start d r) 0 then runG hosts ok (MSys.start d r 2) 0 l else none

/-- The requests of the examples. -/
def QG (hosts : Nat → Backend) (rq : Req) (B : Backend) : Prop := rq.named ∧ ∃ j, B = hosts j

theorem inRangeB_iff {rq : Req} (h : rq.inRangeB = true) : rq.inRange := by
  cases rq <;> simp_all [Req.inRangeB, Req.inRange]; exact h

/-- Whatever is kept by the steps which `ok` allows and, if there are any, by crashes, is so at the end; all requests in the states
after the steps are to these hosts. -/
theorem runG_ready {hosts : Nat → Backend} {ok : MSys → Done → Bool} (small : ∀ {j p names e}, (hosts j).opendir p = .ok (names, e) → names.length ≤ 10) {R : MSys → Prop}
    (step : ∀ {m k m' c}, R m → Ready (QG hosts) c m' → Step m k m' → Proper m k m' → Room m'.w → (∀ q, m'.hist = m.hist ++ [q] → QG hosts q.rq q.B ∧ ok m q = true) → R m') :
    ∀ {l : List GEv} {m m' : MSys} {cap cap' : Nat},
    (.die ∈ l → ∀ {m d r}, R m → openCleanDB (initDB m.w.disk 0 0 ⟨0, 0⟩) Refs.empty = .ok (d, r) → Room (CWorld.start d r) → R (MSys.start d r 2)) →
    Ready (QG hosts) cap m → R m → runG hosts ok m cap l = some (m', cap') → Ready (QG hosts) cap' m' ∧ R m' := by
  intro l
  induction l with
  | nil => intro m m' cap cap' _ h hR hd; cases hd; exact ⟨h, hR⟩
  | cons a l ih =>
    intro m m' cap cap' crash h hR hd
    have ih := fun {m m' cap cap'} => ih (m := m) (m' := m') (cap := cap) (cap' := cap') (fun hl => crash (List.mem_cons_of_mem _ hl))
    cases a with
    | go k =>
      unfold runG at hd
      cases h1 : demoMT m cap [.go k] with
      | none => rw [h1] at hd; cases hd
      | some x =>
        obtain ⟨m1, cap1⟩ := x
        rw [h1] at hd
        simp only at hd
        by_cases hv : ((m1.hist.drop m.hist.length).all (ok m)) = true
        case neg => rw [if_neg hv] at hd; cases hd
        rw [if_pos hv] at hd
        obtain ⟨r1, k', g2, g3, g4⟩ := h.event (a := .go k) trivial h1
        exact ih r1 (step hR r1 g2 g3 g4 (fun q hq => ⟨r1.hist q (by rw [hq]; simp), List.all_eq_true.mp hv q (by rw [hq]; simp)⟩)) hd
    | ask k j rq =>
      unfold runG at hd
      cases hk : m.th[k]? with
      | none => rw [hk] at hd; cases hd
      | some st =>
        rw [hk] at hd
        cases st with
        | idle =>
          simp only at hd
          by_cases hv : (rq.inRangeB && returnedB m.held rq && roomB m.w cap && namedB rq) = true
          case neg => rw [if_neg hv] at hd; cases hd
          rw [if_pos hv] at hd
          simp only [Bool.and_eq_true] at hv
          obtain ⟨⟨⟨h1, h2⟩, h4⟩, h5⟩ := hv
          have hs : Step m k { m.to k (.recv rq (hosts j)) with held := fun i => m.held i - rq.returned i } := .issue hk
          have hlen : k < m.th.length := (List.getElem?_eq_some_iff.mp hk).1
          have hp : Proper m k { m.to k (.recv rq (hosts j)) with held := fun i => m.held i - rq.returned i } := .issue (rq := rq) (B := hosts j)
            (by simp only [MSys.to]; rw [List.getElem?_set, if_pos rfl, if_pos hlen])
            (inRangeB_iff h1) (returnedB_iff h2)
            (fun p names e hp => by have := small hp; omega)
          have hR' := roomB_iff h.counts h4
          have ready : Ready (QG hosts) cap { m.to k (.recv rq (hosts j)) with held := fun i => m.held i - rq.returned i } := by
            refine ⟨h.reach.step hs hp hR', h.counts, fun i st hj => ?_, h.hist⟩
            have hj' : (m.th.set k (.recv rq (hosts j)))[i]? = some st := hj
            rw [List.getElem?_set] at hj'
            by_cases e : k = i
            · subst e
              rw [if_pos rfl, if_pos hlen] at hj'
              cases hj'
              refine ⟨?_, j, rfl⟩
              cases rq with
              | lookup p n => exact (of_decide_eq_true h5 : n ≠ [])
              | _ => trivial
            · rw [if_neg e] at hj'; exact h.asks i st hj'
          refine ih (cap := cap) ready (step hR ready hs hp hR' (fun q hq => ?_)) hd
          have : m.hist = m.hist ++ [q] := hq
          have := congrArg List.length this
          simp at this
        | _ => simp only at hd; cases hd
    | die =>
      unfold runG at hd
      cases ho : openCleanDB (initDB m.w.disk 0 0 ⟨0, 0⟩) Refs.empty with
      | error e => rw [ho] at hd; cases hd
      | ok x =>
        obtain ⟨d, r⟩ := x
        rw [ho] at hd
        simp only at hd
        by_cases hroom : roomB (CWorld.start d r) 0 = true
        case neg => rw [if_neg hroom] at hd; cases hd
        rw [if_pos hroom] at hd
        obtain ⟨-, -, -, -, -, d', r', -, -, -, g1, g2, -, -, -⟩ := C85_crash h.reach 0 0 ⟨0, 0⟩
        rw [ho] at g1; cases g1
        have hc : ∀ i, (r i).nrefs ≤ 0 := fun i => Nat.le_of_eq (g2 i)
        have hR' : Room (CWorld.start d r) := roomB_iff (cap := 0) hc hroom
        exact ih (ready_start (.remount h.reach ho hR') hc) (crash (List.mem_cons_self ..) hR ho hR') hd

theorem runG_inv {hosts : Nat → Backend} {ok : MSys → Done → Bool} (small : ∀ {j p names e}, (hosts j).opendir p = .ok (names, e) → names.length ≤ 10) {R : MSys → Prop}
    (step : ∀ {m k m'}, R m → Step m k m' → Proper m k m' → Room m'.w → (∀ q, m'.hist = m.hist ++ [q] → QG hosts q.rq q.B ∧ ok m q = true) → R m') {l : List GEv} {m m' : MSys} {cap cap' : Nat}
    (crash : .die ∈ l → ∀ {m d r}, R m → openCleanDB (initDB m.w.disk 0 0 ⟨0, 0⟩) Refs.empty = .ok (d, r) → Room (CWorld.start d r) → R (MSys.start d r 2))
    (h : Ready (QG hosts) cap m) (hR : R m) (hd : runG hosts ok m cap l = some (m', cap')) : Ready (QG hosts) cap' m' ∧ R m' :=
  runG_ready small (R := R) (fun hR _ hs hp hr hq => step hR hs hp hr hq) crash h hR hd

/-- One step of a thread. -/
theorem runG_go {hosts : Nat → Backend} {ok : MSys → Done → Bool} {m m' : MSys} {cap cap' k : Nat} (h : Ready (QG hosts) cap m) (hd : runG hosts ok m cap [.go k] = some (m', cap')) :
    Ready (QG hosts) cap' m' ∧ ∃ k, Step m k m' ∧ Proper m k m' ∧ Room m'.w := by
  unfold runG at hd
  cases h1 : demoMT m cap [.go k] with
  | none => rw [h1] at hd; cases hd
  | some x =>
    obtain ⟨m1, cap1⟩ := x
    rw [h1] at hd
    simp only at hd
    by_cases hv : ((m1.hist.drop m.hist.length).all (ok m)) = true
    case neg => rw [if_neg hv] at hd; cases hd
    rw [if_pos hv] at hd
    cases hd
    exact h.event (a := .go k) trivial h1

/-- A new cache. -/
def startG : Option MSys :=
  match openCleanDB (initDB emptyDB 0 0 ⟨0, 0⟩) Refs.empty with
  | .error _ => none
  | .ok (d0, r0) => if roomB (CWorld.start d0 r0) 0 then some (MSys.start d0 r0 2) else none

theorem startG_mount {m : MSys} (h : startG = some m) : ∃ d r, openCleanDB (initDB emptyDB 0 0 ⟨0, 0⟩) Refs.empty = .ok (d, r) ∧ Room (CWorld.start d r) ∧ m = MSys.start d r 2 ∧ ∀ i, (r i).nrefs ≤ 0 := by
  unfold startG at h
  cases ho : openCleanDB (initDB emptyDB 0 0 ⟨0, 0⟩) Refs.empty with
  | error e => rw [ho] at h; cases h
  | ok x =>
    obtain ⟨d0, r0⟩ := x
    rw [ho] at h
    simp only at h
    by_cases hroom : roomB (CWorld.start d0 r0) 0 = true
    case neg => rw [if_neg hroom] at h; cases h
    rw [if_pos hroom] at h
    cases h
    have hc0 : ∀ i, (r0 i).nrefs ≤ 0 := by
      obtain ⟨s, h1, h2, h3⟩ := root_rep 0 0 ⟨0, 0⟩
      exact fun i => Nat.le_of_eq (open_counts (si_empty h1 h2 h3) ho i)
    exact ⟨d0, r0, rfl, roomB_iff (cap := 0) hc0 hroom, rfl, hc0⟩

theorem startG_ready {Q : Req → Backend → Prop} {m : MSys} (h : startG = some m) : Ready Q 0 m := by
  obtain ⟨d, r, h1, h2, rfl, h3⟩ := startG_mount h
  exact ready_start (.mount h1 h2) h3

theorem startG_reachQ {Q : Req → Backend → Prop} {m : MSys} (h : startG = some m) : MReachQ Q m := by
  obtain ⟨d, r, h1, h2, rfl, -⟩ := startG_mount h
  exact .mount h1 h2

/-- Systems which are reached by events. -/
theorem reachQ_run {hosts : Nat → Backend} {Q : Req → Backend → Prop} (small : ∀ {j p names e}, (hosts j).opendir p = .ok (names, e) → names.length ≤ 10)
    (hQ : ∀ {rq B}, QG hosts rq B → Q rq B) {ls : List GEv} {P : MSys → Prop} [∀ m, Decidable (P m)]
    (h : (match startG with | some m => (match runG hosts (fun _ _ => true) m 0 ls with | some (m, _) => decide (P m) | none => false) | none => false) = true) :
    ∃ m, MReachQ Q m ∧ P m := by
  cases hs0 : startG with
  | none => rw [hs0] at h; cases h
  | some m0 =>
    rw [hs0] at h
    simp only at h
    cases hr : runG hosts (fun _ _ => true) m0 0 ls with
    | none => rw [hr] at h; cases h
    | some x =>
      obtain ⟨m, cap⟩ := x
      rw [hr] at h
      obtain ⟨-, g1⟩ := runG_inv small (R := fun m => MReachQ Q m) (fun {m1 k m2} h hs hp hroom hq => .step h hs hp hroom (fun q hm => by
        rcases step_hist hs with he | ⟨x, q', -, he, -⟩
        · rw [he] at hm; exact h.all q hm
        · have hm' := hm
          rw [he] at hm'
          rcases List.mem_append.mp hm' with h1 | h1
          · exact h.all q h1
          · rw [List.mem_singleton.mp h1]; exact hQ (hq q' he).1))
        (fun _ _ _ _ h ho hR => .remount h ho hR) (startG_ready hs0) (startG_reachQ hs0) hr
      exact ⟨m, g1, of_decide_eq_true h⟩

/-- The states after the stages of a story; a stage has a condition on requests and events. -/
def storyG (hosts : Nat → Backend) (m : MSys) (cap : Nat) : List ((MSys → Done → Bool) × List GEv) → Option (List (MSys × Nat))
  | [] => some []
  | (ok, l) :: ls => match runG hosts ok m cap l with
    | none => none
    | some (m', cap') => (storyG hosts m' cap' ls).map ((m', cap') :: ·)

theorem storyG_cons {hosts : Nat → Backend} {m : MSys} {cap : Nat} {ok : MSys → Done → Bool} {l : List GEv} {ls xs} (h : storyG hosts m cap ((ok, l) :: ls) = some xs) :
    ∃ m' cap' ys, xs = (m', cap') :: ys ∧ runG hosts ok m cap l = some (m', cap') ∧ storyG hosts m' cap' ls = some ys := by
  unfold storyG at h
  cases h1 : runG hosts ok m cap l with
  | none => rw [h1] at h; cases h
  | some x =>
    obtain ⟨m', cap'⟩ := x
    rw [h1] at h
    simp only at h
    obtain ⟨ys, h2, h3⟩ := Option.map_eq_some_iff.mp h
    exact ⟨m', cap', ys, h3.symm, rfl, h2⟩

end Dragonstash.Local
