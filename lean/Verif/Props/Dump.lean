import Verif.Blocklist.Dump
import Verif.Props.Recovered
/-
  C114: what `dump` prints.
-/
namespace Dragonstash.Blocklist

theorem scan_same {f g : File} (hf : f.mapped = true) (hg : g.mapped = true) (b : Nat) (k : Nat) : ∀ i,
    (∀ j, i ≤ j → j < i + k → f.slots[j]? = g.slots[j]?) → stateScan f b i k = stateScan g b i k := by
  induction k with
  | zero => intro i _; rfl
  | succ k ih =>
    intro i h
    unfold stateScan
    have : deref f i 551 = deref g i 551 := by
      unfold deref
      rw [if_pos hf, if_pos hg, h i (Nat.le_refl _) (by omega)]
    rw [this, ih (i + 1) (fun j h1 h2 => h j (by omega) (by omega))]

/-- C114: two block lists, in whatever state, for which `dump` prints the same text report the same state
for every block, the same counters and the same number of entries. -/
theorem C114_tells (f g : File) (t : List Char) (hf : dump f = .ok t) (hg : dump g = .ok t) : SameObs f g := by
  obtain ⟨nf, tf⟩ := dump_text.1 hf
  obtain ⟨ng, tg⟩ := dump_text.1 hg
  rw [tf] at tg
  have h := List.append_cancel_left tg
  obtain ⟨hc, h⟩ := countText_inj h
  have he := entries_inj (List.append_cancel_left h)
  have hn : f.n = g.n := by
    have := congrArg List.length he
    rw [List.length_take, List.length_take] at this
    omega
  refine ⟨fun b => ?_, fun s => ?_, ?_, hn⟩
  · unfold stateAt
    rw [← hn]
    refine scan_same (ensureMapped_mapped f) (ensureMapped_mapped g) b f.n 0 (fun j _ hj => ?_)
    rw [ensureMapped_slots, ensureMapped_slots]
    have := congrArg (fun l : List Entry => l[j]?) he
    rw [List.getElem?_take, List.getElem?_take, if_pos (by omega), if_pos (by omega)] at this
    exact this
  · cases s with
    | absent => rfl
    | readahead => exact hc 0 (by decide)
    | read => exact hc 1 (by decide)
    | pinned => exact hc 2 (by decide)
    | written => exact hc 3 (by decide)
  · unfold presentBlocks
    rw [hc 0 (by decide), hc 1 (by decide), hc 2 (by decide), hc 3 (by decide)]

/-- C114: `dump` returns after every sequence of calls and deaths of processes, at every point between
calls. -/
theorem C114_returns (cs : List Call) (V : File → Prop) (f : File) (h : Life False cs V f) : ∃ t, dump f = .ok t :=
  ⟨_, dump_text.2 ⟨h.tame.le, rfl⟩⟩

/-- C114: what is printed, line by line: the four counters, and for every entry its first block, its
number of blocks, the block behind it and its state. -/
theorem C114_text (cs : List Call) (hr : CallsInRange cs) (f : File) (hf : calls fresh cs = .ok f) :
    dump f = .ok ("Blocklist!{\n  blocks_by_state = {\n".toList ++ (countText f.cnt ++ ("  };\n  {\n".toList ++
      ((entries f).flatMap (fun e => "    Entry{.start = ".toList ++ (num e.start ++ (", .count = ".toList ++ (num e.count ++
        (" (end: ".toList ++ (num (e.start + e.count) ++ ("), .state = ".toList ++ (num e.state ++ "},\n".toList)))))))) ++ "  }\n}\n".toList)))) := by
  obtain ⟨f', e, i⟩ := Inv.calls cs Inv.fresh hr
  rw [hf] at e
  injection e with e
  subst e
  refine dump_text.2 ⟨by rw [i.n]; exact i.n_le, ?_⟩
  have : (entries f).flatMap entryText = (entries f).flatMap (fun e => "    Entry{.start = ".toList ++ (num e.start ++ (", .count = ".toList ++ (num e.count ++
        (" (end: ".toList ++ (num (e.start + e.count) ++ ("), .state = ".toList ++ (num e.state ++ "},\n".toList)))))))) := by
    have hall : ∀ L : List Entry, (∀ x ∈ L, x.fin = x.start + x.count) → L.flatMap entryText = L.flatMap (fun e => "    Entry{.start = ".toList ++ (num e.start ++ (", .count = ".toList ++ (num e.count ++
        (" (end: ".toList ++ (num (e.start + e.count) ++ ("), .state = ".toList ++ (num e.state ++ "},\n".toList)))))))) := by
      intro L
      induction L with
      | nil => intro _; rfl
      | cons x L ih =>
        intro h
        rw [List.flatMap_cons, List.flatMap_cons, ih (fun y hy => h y (by simp [hy]))]
        unfold entryText
        rw [h x (by simp)]
    refine hall _ (fun x hx => ?_)
    rw [i.entries] at hx
    exact (i.w0.ok x hx).fin_eq
  rw [← this]
  rfl

/-- The dump of a block list with block 0 read. -/
def oneRead : List Char :=
  "Blocklist!{\n  blocks_by_state = {\n    [0] = 0\n    [1] = 1\n    [2] = 0\n    [3] = 0\n  };\n  {\n    Entry{.start = 0, .count = 1 (end: 1), .state = 1},\n  }\n}\n".toList

/-- The text does not tell what `truncate_access` returns: it reads the entry behind the last one
(C09), which is not printed. -/
theorem C114_access_counterexample : ¬ ∀ (cs ds : List Call) (f g : File) (t : List Char), CallsInRange cs → CallsInRange ds →
    calls fresh cs = .ok f → calls fresh ds = .ok g → dump f = .ok t → dump g = .ok t →
    ∀ start size, truncateAccess f start size = truncateAccess g start size := by
  intro h
  obtain ⟨f, hf, ho⟩ := calls_obs (cs := [.mark 0 1 .read, .mark 1 1 .readahead, .mark 1 1 .absent]) (callsInRange (by decide))
    (obs := fun f => truncateAccess f 0 8192 >>= fun n => (dump f).map fun t => (n, t)) (v := .ok (8192, oneRead)) (by decide +kernel)
  obtain ⟨g, hg, go⟩ := calls_obs (cs := [.mark 0 1 .read]) (callsInRange (by decide))
    (obs := fun f => truncateAccess f 0 8192 >>= fun n => (dump f).map fun t => (n, t)) (v := .ok (4096, oneRead)) (by decide +kernel)
  obtain ⟨a, ha, ho⟩ := bind_inv ho
  obtain ⟨b, hb, go⟩ := bind_inv go
  obtain ⟨t, ht, ho⟩ := map_inv ho
  obtain ⟨u, hu, go⟩ := map_inv go
  simp only [Prod.mk.injEq] at ho go
  obtain ⟨o1, o2⟩ := ho
  obtain ⟨g1, g2⟩ := go
  rw [o2] at ht
  rw [g2] at hu
  have := h _ _ f g oneRead (callsInRange (by decide)) (callsInRange (by decide)) hf hg ht hu 0 8192
  rw [ha, hb] at this
  injection this with this
  omega

/-! ### Non-vacuity -/

/-- A dump. -/
example : (calls fresh [.mark 5 10 .read, .mark 20 300 .pinned] >>= dump).map String.ofList =
    .ok "Blocklist!{\n  blocks_by_state = {\n    [0] = 0\n    [1] = 10\n    [2] = 300\n    [3] = 0\n  };\n  {\n    Entry{.start = 5, .count = 10 (end: 15), .state = 1},\n    Entry{.start = 20, .count = 300 (end: 320), .state = 2},\n  }\n}\n" := by
  decide +kernel

/-- `C114_tells` for two different files: one has been larger. -/
example : ∃ f g t, f.slots ≠ g.slots ∧ dump f = .ok t ∧ dump g = .ok t ∧ SameObs f g := by
  have key : ∀ f : File, f.n ≤ f.slots.length → ∃ t, dump f = .ok t ∧ dump (grow f) = .ok t := by
    intro f h
    have e : (grow f).n = f.n ∧ (grow f).cnt = f.cnt ∧ ∃ Z, (grow f).slots = f.slots ++ Z := by
      unfold grow ensureUnmapped
      by_cases hm : f.mapped = true
      · rw [if_pos hm]; exact ⟨rfl, rfl, _, rfl⟩
      · rw [if_neg hm]; exact ⟨rfl, rfl, _, rfl⟩
    obtain ⟨e1, e2, Z, e3⟩ := e
    refine ⟨_, dump_text.2 ⟨h, rfl⟩, dump_text.2 ⟨?_, ?_⟩⟩
    · rw [e1, e3, List.length_append]; omega
    · rw [e1, e2, e3, List.take_append_of_le_length h]
  obtain ⟨t, h1, h2⟩ := key fresh (Nat.zero_le _)
  refine ⟨fresh, grow fresh, t, ?_, h1, h2, C114_tells _ _ _ h1 h2⟩
  intro h
  have := congrArg List.length h
  revert this
  decide +kernel

/-- `C114_returns` for a file left by a process which died. -/
example : ∃ cs V f t, Life False cs V f ∧ cs.length = 3 ∧ dump f = .ok t := by
  obtain ⟨g0, V, hl, _⟩ := life516
  obtain ⟨t, ht⟩ := C114_returns _ _ _ hl
  exact ⟨_, _, _, t, hl, rfl, ht⟩

end Dragonstash.Blocklist
