/-
  The objects of the in-memory backend in memory are the tree of Backend/InMemory (for C98).
-/
import Verif.Backend.MemTree
namespace Dragonstash.MemHeap
open InMem Cache FS

/-- The tree as a value from the object at an address; the number bounds the depth. -/
def absN (h : Heap) : Nat → Nat → InMem.Node
  | 0, _ => newFile
  | f + 1, a => match h.obj a with
    | some (.file st d) => .file st d
    | some (.link st d) => .link st d
    | some (.dir st ch) => .dir st (ch.map fun x => (x.1, absN h f x.2))
    | none => newFile

def Heap.tree (h : Heap) (a : Nat) : InMem.Node := absN h h.next a

variable {h : Heap}

theorem WF.absN_enough (wf : WF h) {f a : Nat} (ha : (h.obj a).isSome) (hf : h.next ≤ a + f) : absN h f a = h.tree a := by
  suffices hs : ∀ f g a, (h.obj a).isSome → h.next ≤ a + f → h.next ≤ a + g → absN h f a = absN h g a from hs _ _ _ ha hf (by omega)
  intro f
  induction f with
  | zero => intro g a ha hf; have := wf.lt_next ha; omega
  | succ f ih =>
    intro g a ha hf hg
    have := wf.lt_next ha
    obtain ⟨g, rfl⟩ : ∃ g', g = g' + 1 := ⟨g - 1, by omega⟩
    simp only [absN]
    cases ho : h.obj a with
    | none => rfl
    | some o =>
      cases o with
      | dir st ch =>
        simp only [InMem.Node.dir.injEq, true_and]
        apply List.map_congr_left
        rintro ⟨n, c⟩ hm
        obtain ⟨h1, o, h2⟩ := wf.kid ho hm
        rw [ih g c (by rw [h2]; rfl) (by omega) (by omega)]
      | _ => rfl

/-- An object as the node of a tree. -/
def Obj.node (g : Nat → InMem.Node) : Obj → InMem.Node
  | .file st d => .file st d
  | .link st d => .link st d
  | .dir st ch => .dir st (ch.map fun x => (x.1, g x.2))

theorem WF.tree_eq (wf : WF h) {a : Nat} {o : Obj} (ho : h.obj a = some o) : h.tree a = o.node h.tree := by
  rw [← wf.absN_enough (f := h.next + 1) (by rw [ho]; rfl) (by omega), absN, ho]
  cases o <;> rfl

theorem lookup_map {β : Type} (g : Nat → β) (ch : List (Bytes × Nat)) (n : Bytes) : (ch.map fun x => (x.1, g x.2)).lookup n = (ch.lookup n).map g := by
  induction ch with
  | nil => rfl
  | cons x l ih =>
    obtain ⟨m, b⟩ := x
    rw [List.map_cons, List.lookup_cons, List.lookup_cons]
    cases n == m <;> simp [ih]

theorem WF.tree_get (wf : WF h) {a : Nat} (ha : (h.obj a).isSome) (cs : List Bytes) : (h.tree a).get cs = (get h a cs).map h.tree := by
  induction cs generalizing a with
  | nil => rfl
  | cons c cs ih =>
    obtain ⟨o, ho⟩ := some_iff.mp ha
    rw [wf.tree_eq ho]
    cases o with
    | dir st ch =>
      simp only [Obj.node, InMem.Node.get, get, ho, lookup_map]
      cases hl : ch.lookup c with
      | none => rfl
      | some b => exact ih (some_iff.mpr (wf.kid ho (lookup_mem hl)).2)
    | _ => simp [Obj.node, InMem.Node.get, get, ho]

theorem WF.tree_view (wf : WF h) (cs : List Bytes) : (h.tree 0).view cs = h.view cs := by
  unfold InMem.Node.view Heap.view
  rw [wf.tree_get wf.root_live]
  cases hg : get h 0 cs with
  | none => rfl
  | some b =>
    obtain ⟨o, ho⟩ := some_iff.mp (wf.live_get wf.root_live hg).1
    simp only [Option.map_some, ho, wf.tree_eq ho]
    cases o <;> simp [Obj.node, InMem.Node.obs, Obj.obs, Function.comp_def]

/-- `find` through pointers and `find` in the tree. -/
theorem WF.find_tree (wf : WF h) {a : Nat} (ha : (h.obj a).isSome) (p : Bytes) :
    ∃ r, find h a p = .ok r ∧ (h.tree a).find p = (match r with | .ok b => .ok (h.tree b) | .error e => .error e) ∧
      ∀ b, r = .ok b → ∃ cs, get h a cs = some b := by
  induction hk : p.length using Nat.strongRecOn generalizing a p with
  | _ k ih =>
    obtain ⟨o, ho⟩ := some_iff.mp ha
    rw [wf.tree_eq ho, find, ho]
    cases o with
    | file => exact ⟨.error ENOTDIR, rfl, by simp [Obj.node, InMem.Node.find], fun b h => by cases h⟩
    | link => exact ⟨.error ENOTDIR, rfl, by simp [Obj.node, InMem.Node.find], fun b h => by cases h⟩
    | dir st ch =>
      cases p with
      | nil => exact ⟨.error EINVAL, rfl, by simp [Obj.node, InMem.Node.find], fun b h => by cases h⟩
      | cons c path =>
        simp only [Obj.node, InMem.Node.find]
        by_cases hc : c ≠ 0x2f
        · rw [if_pos hc, if_pos hc]; exact ⟨_, rfl, rfl, fun b h => by cases h⟩
        · rw [if_neg hc, if_neg hc]
          by_cases hp : path = []
          · rw [if_pos hp, if_pos hp]
            exact ⟨_, rfl, by show _ = Except.ok (h.tree a); rw [wf.tree_eq ho]; rfl, fun b h => ⟨[], by cases h; rfl⟩⟩
          · rw [if_neg hp, if_neg hp]
            by_cases hn : path.takeWhile (· != 0x2f) = []
            · rw [if_pos hn, if_pos hn]; exact ⟨_, rfl, rfl, fun b h => by cases h⟩
            · rw [if_neg hn, if_neg hn, lookup_map]
              cases hl : ch.lookup (path.takeWhile (· != 0x2f)) with
              | none => exact ⟨_, rfl, rfl, fun b h => by cases h⟩
              | some b =>
                have hg : get h a [path.takeWhile (· != 0x2f)] = some b := get_one.mpr ⟨st, ch, ho, hl⟩
                simp only [Option.map_some]
                by_cases hr : path.dropWhile (· != 0x2f) = []
                · rw [if_pos hr, if_pos hr]; exact ⟨_, rfl, rfl, fun b' h => ⟨_, by cases h; exact hg⟩⟩
                · rw [if_neg hr, if_neg hr]
                  have hlen := (List.dropWhile_sublist (· != (0x2f : UInt8)) (l := path)).length_le
                  obtain ⟨r, h1, h2, h3⟩ := ih _ (by simp only [List.length_cons] at hk; omega) (some_iff.mpr (wf.kid ho (lookup_mem hl)).2) (path.dropWhile (· != 0x2f)) rfl
                  refine ⟨r, h1, h2, fun b' hb => ?_⟩
                  obtain ⟨cs, hcs⟩ := h3 b' hb
                  exact ⟨path.takeWhile (· != 0x2f) :: cs, by rw [show path.takeWhile (· != 0x2f) :: cs = [path.takeWhile (· != 0x2f)] ++ cs from rfl, get_append, hg]; exact hcs⟩

/-! ### The invariant -/

/-- What is true of all worlds which can be reached: the objects form a tree; a handle's object, if it still
exists, is of the right kind; an iterator is at an element. -/
structure Inv (w : World) : Prop where
  wf : WF w.heap
  file : ∀ {x a}, w.files x = some a → a < w.heap.next ∧ ∀ o, w.heap.obj a = some o → ∃ st d, o = .file st d
  dir : ∀ {x d}, w.dirs x = some d → d.node < w.heap.next ∧ ∀ o, w.heap.obj d.node = some o → ∃ st ch, o = .dir st ch ∧ ∀ n, d.iter = .at n → n ∈ ch.map Prod.fst
  fresh : ∀ x, w.nextHandle ≤ x → w.files x = none ∧ w.dirs x = none

theorem WF.bump (wf : WF h) : WF { h with next := h.next + 1 } :=
  ⟨wf.root, fun x hx => wf.fresh x (Nat.le_of_succ_le hx), wf.kid, wf.names, wf.one, wf.owned⟩

theorem start_inv : Inv World.start := by
  have ho : ∀ x o, World.start.heap.obj x = some o → x = 0 ∧ o = .dir { zeroStat with mode := S_IFDIR } [] := by
    intro x o hx
    by_cases h0 : x = 0
    · subst h0; cases hx; exact ⟨rfl, rfl⟩
    · simp only [World.start] at hx; rw [if_neg h0] at hx; cases hx
  refine ⟨⟨⟨_, _, rfl⟩, ?_, ?_, ?_, ?_, ?_⟩, ?_, ?_, fun _ _ => ⟨rfl, rfl⟩⟩
  · intro x hx
    cases hh : World.start.heap.obj x with
    | none => rfl
    | some o =>
      obtain ⟨rfl, -⟩ := ho x o hh
      exact absurd hx (by decide)
  · intro a st ch n c hx hm; obtain ⟨-, h1⟩ := ho _ _ hx; cases h1; cases hm
  · intro a st ch hx; obtain ⟨-, h1⟩ := ho _ _ hx; cases h1; simp
  · intro a st ch n a' st' ch' n' c hx hm; obtain ⟨-, h1⟩ := ho _ _ hx; cases h1; cases hm
  · intro c o hx h0; exact absurd (ho _ _ hx).1 h0
  · intro x a hx; cases hx
  · intro x d hx; cases hx

/-- How the objects may change in one step. -/
def Evolve (h h' : Heap) : Prop := h.next ≤ h'.next ∧ ∀ x o', x < h.next → h'.obj x = some o' → ∃ o, h.obj x = some o ∧
  ((∃ st d st' d', o = .file st d ∧ o' = .file st' d') ∨ (∃ st d st' d', o = .link st d ∧ o' = .link st' d') ∨ ∃ st ch st' ch', o = .dir st ch ∧ o' = .dir st' ch')

theorem Evolve.refl (h : Heap) : Evolve h h := ⟨Nat.le_refl _, fun x o' _ ho => ⟨o', ho, by
  cases o' with
  | file st d => exact .inl ⟨_, _, _, _, rfl, rfl⟩
  | link st d => exact .inr (.inl ⟨_, _, _, _, rfl, rfl⟩)
  | dir st d => exact .inr (.inr ⟨_, _, _, _, rfl, rfl⟩)⟩⟩

theorem grown_evolve (wf : WF h) {a : Nat} {st : BStat} {ch order : List (Bytes × Nat)} {o : Obj} (ha : h.obj a = some (.dir st ch)) : Evolve h (h.grown a st o order) := by
  refine ⟨Nat.le_succ _, fun x o' hx ho => ?_⟩
  rw [grown_obj] at ho
  by_cases h1 : x = a
  · subst h1; rw [if_pos rfl] at ho; cases ho; exact ⟨_, ha, .inr (.inr ⟨_, _, _, _, rfl, rfl⟩)⟩
  · rw [if_neg h1, if_neg (by omega)] at ho
    exact (Evolve.refl h).2 x o' hx ho

theorem shrunk_evolve {a b : Nat} {st : BStat} {ch : List (Bytes × Nat)} {n : Bytes} (ha : h.obj a = some (.dir st ch)) : Evolve h (h.shrunk a st ch n b) := by
  refine ⟨Nat.le_refl _, fun x o' hx ho => ?_⟩
  have e : (h.shrunk a st ch n b).obj x = if x = a then some (.dir st (ch.filter (fun x => x.1 != n))) else if x ∈ below h (h.next + 1) b then none else h.obj x := rfl
  rw [e] at ho
  by_cases h1 : x = a
  · subst h1; rw [if_pos rfl] at ho; cases ho; exact ⟨_, ha, .inr (.inr ⟨_, _, _, _, rfl, rfl⟩)⟩
  · rw [if_neg h1] at ho
    split at ho
    · cases ho
    · exact (Evolve.refl h).2 x o' hx ho

theorem put_evolve {a : Nat} {o o' : Obj} (ha : h.obj a = some o)
    (hk : (∃ st d st' d', o = .file st d ∧ o' = .file st' d') ∨ (∃ st d st' d', o = .link st d ∧ o' = .link st' d') ∨ ∃ st ch st' ch', o = .dir st ch ∧ o' = .dir st' ch') :
    Evolve h (h.put a o') := by
  refine ⟨Nat.le_refl _, fun x o1 hx ho => ?_⟩
  rw [put_obj] at ho
  by_cases h1 : x = a
  · subst h1; rw [if_pos rfl] at ho; cases ho; exact ⟨_, ha, hk⟩
  · rw [if_neg h1] at ho; exact (Evolve.refl h).2 x o1 hx ho

theorem Obj.same_update (o : Obj) (st : BStat) : Same o (o.updateAttr st) := by
  cases o with
  | dir => exact .inl ⟨_, _, _, rfl, rfl⟩
  | file => exact .inr ⟨fun _ _ h => (by cases h), fun _ _ h => (by cases h)⟩
  | link => exact .inr ⟨fun _ _ h => (by cases h), fun _ _ h => (by cases h)⟩

theorem same_file (st st' : BStat) (d d' : Bytes) : Same (.file st d) (.file st' d') := .inr ⟨fun _ _ h => (by cases h), fun _ _ h => (by cases h)⟩

/-! ### What a call does -/

/-- The calls which change nothing. -/
def Call.reads : Call → Bool
  | .lstat _ | .readlink _ | .fstat _ | .pread _ _ _ | .find _ _ | .open_ _ | .opendir _ | .remove _ _ => true
  | _ => false

/-- The effects of the calls. -/
inductive Eff (w : World) : Call → World → Out → Prop
  | same {c out} : c.reads = true → (∀ x, out ≠ .handle (.ok x)) → (∀ a n, c = .remove a n → ∃ st ch, w.heap.obj a = some (.dir st ch) ∧ ch.lookup n = none) → Eff w c w out
  | opened {p a st d} : w.connected = true → find w.heap 0 p = .ok (.ok a) → w.heap.obj a = some (.file st d) →
      Eff w (.open_ p) { w with files := fun x => if x = w.nextHandle then some a else w.files x, nextHandle := w.nextHandle + 1 } (.handle (.ok w.nextHandle))
  | openedDir {p a st ch} : w.connected = true → find w.heap 0 p = .ok (.ok a) → w.heap.obj a = some (.dir st ch) →
      Eff w (.opendir p) { w with dirs := fun x => if x = w.nextHandle then some ⟨a, 0, first ch⟩ else w.dirs x, nextHandle := w.nextHandle + 1 } (.handle (.ok w.nextHandle))
  | conn b : Eff w (.setConnected b) { w with connected := b } .unit
  | wrote {x buf off a st d f r} : w.files x = some a → w.heap.obj a = some (.file st d) → InMem.pwrite ⟨st.size, d⟩ buf off = .ok (f, r) →
      Eff w (.pwrite x buf off) { w with heap := w.heap.put a (.file { st with size := f.size } f.data) } (.num r)
  | closed {x a} : w.files x = some a → Eff w (.closeFile x) { w with files := fun y => if y = x then none else w.files y } .unit
  | closedDir {x d} : w.dirs x = some d → Eff w (.closeDir x) { w with dirs := fun y => if y = x then none else w.dirs y } .unit
  | listed {x d d' r} : w.dirs x = some d → readdir w.heap d = .ok (d', r) → Eff w (.readdir x) (w.setDir x d') (.bytes r)
  | existing {a n k order rehash st ch b} : w.heap.obj a = some (.dir st ch) → ch.lookup n = some b →
      Eff w (.emplace a n k order rehash) { w with heap := { w.heap with next := w.heap.next + 1 } } (.ptr (.ok w.heap.next))
  | emplaced {a n k order rehash st ch} : w.heap.obj a = some (.dir st ch) → ch.lookup n = none →
      Eff w (.emplace a n k order rehash) ({ w with heap := w.heap.grown a st k.new order }.iters a (fun i => if rehash then .bad else i)) (.ptr (.ok w.heap.next))
  | removed {a n st ch b} : w.heap.obj a = some (.dir st ch) → ch.lookup n = some b →
      Eff w (.remove a n) ({ w with heap := w.heap.shrunk a st ch n b }.iters a (fun i => if i = Iter.at n then .bad else i)) .unit
  | updated {a st o} : w.heap.obj a = some o → Eff w (.updateAttr a st) { w with heap := w.heap.put a (o.updateAttr st) } .unit

theorem bind_ok {α β : Type} {x : M α} {f : α → M β} {y : β} : (x >>= f) = .ok y ↔ ∃ a, x = .ok a ∧ f a = .ok y := by
  cases x with
  | error e => exact ⟨fun h => (by cases h), fun ⟨a, h, _⟩ => (by cases h)⟩
  | ok v => exact ⟨fun h => ⟨v, rfl, h⟩, fun ⟨a, h, h'⟩ => by cases h; exact h'⟩

theorem deref_ok {a line : Nat} {o : Obj} : h.deref a line = .ok o ↔ h.obj a = some o := by
  unfold Heap.deref
  cases h.obj a with
  | none => exact ⟨fun h => (by cases h), fun h => (by cases h)⟩
  | some x => exact ⟨fun h => by cases h; rfl, fun h => by cases h; rfl⟩

theorem fileAt_ok {a line : Nat} {st : BStat} {d : Bytes} : h.fileAt a line = .ok (st, d) ↔ h.obj a = some (.file st d) := by
  unfold Heap.fileAt
  rw [bind_ok]
  simp only [deref_ok]
  constructor
  · rintro ⟨o, h1, h2⟩
    cases o <;> cases h2
    exact h1
  · intro h1; exact ⟨_, h1, rfl⟩

theorem dirAt_ok {a line : Nat} {st : BStat} {ch : List (Bytes × Nat)} : h.dirAt a line = .ok (st, ch) ↔ h.obj a = some (.dir st ch) := by
  unfold Heap.dirAt
  rw [bind_ok]
  simp only [deref_ok]
  constructor
  · rintro ⟨o, h1, h2⟩
    cases o <;> cases h2
    exact h1
  · intro h1; exact ⟨_, h1, rfl⟩

variable {w w' : World} {c : Call} {out : Out}

theorem file_ok {x a : Nat} : w.file x = .ok a ↔ w.files x = some a := by
  unfold World.file
  cases w.files x with
  | none => exact ⟨fun h => (by cases h), fun h => (by cases h)⟩
  | some b => exact ⟨fun h => by cases h; rfl, fun h => by cases h; rfl⟩

theorem dir_ok {x : Nat} {d : DirHandle} : w.dir x = .ok d ↔ w.dirs x = some d := by
  unfold World.dir
  cases w.dirs x with
  | none => exact ⟨fun h => (by cases h), fun h => (by cases h)⟩
  | some b => exact ⟨fun h => by cases h; rfl, fun h => by cases h; rfl⟩

theorem step_eff (hs : step w c = .ok (w', out)) : Eff w c w' out := by
  have same : ∀ {c o}, c.reads = true → (∀ a n, c ≠ .remove a n) → (∀ x, o ≠ .handle (.ok x)) → (Except.ok (w, o) : M _) = .ok (w', out) → Eff w c w' out := by
    intro c o h1 h2 h3 h4
    cases h4
    exact .same h1 h3 (fun a n e => absurd e (h2 a n))
  cases c with
  | lstat p =>
    simp only [step] at hs
    cases hc : w.connected <;> rw [hc] at hs
    · exact same rfl (fun _ _ h => (by cases h)) (fun _ h => (by cases h)) hs
    · simp only [Bool.not_true, Bool.false_eq_true, if_false] at hs
      obtain ⟨r, -, h2⟩ := bind_ok.mp hs
      cases r with
      | error e => exact same rfl (fun _ _ h => (by cases h)) (fun _ h => (by cases h)) h2
      | ok a =>
        obtain ⟨o, -, h4⟩ := bind_ok.mp h2
        exact same rfl (fun _ _ h => (by cases h)) (fun _ h => (by cases h)) h4
  | readlink p =>
    simp only [step] at hs
    cases hc : w.connected <;> rw [hc] at hs
    · exact same rfl (fun _ _ h => (by cases h)) (fun _ h => (by cases h)) hs
    · simp only [Bool.not_true, Bool.false_eq_true, if_false] at hs
      obtain ⟨r, -, h2⟩ := bind_ok.mp hs
      cases r with
      | error e => exact same rfl (fun _ _ h => (by cases h)) (fun _ h => (by cases h)) h2
      | ok a =>
        obtain ⟨o, -, h4⟩ := bind_ok.mp h2
        cases o <;> exact same rfl (fun _ _ h => (by cases h)) (fun _ h => (by cases h)) h4
  | open_ p =>
    simp only [step] at hs
    cases hc : w.connected <;> rw [hc] at hs
    · exact same rfl (fun _ _ h => (by cases h)) (fun _ h => (by cases h)) hs
    · simp only [Bool.not_true, Bool.false_eq_true, if_false] at hs
      obtain ⟨r, h1, h2⟩ := bind_ok.mp hs
      cases r with
      | error e => exact same rfl (fun _ _ h => (by cases h)) (fun _ h => (by cases h)) h2
      | ok a =>
        obtain ⟨o, h3, h4⟩ := bind_ok.mp h2
        cases o with
        | file st d => cases h4; have := Eff.opened hc h1 (deref_ok.mp h3); rw [hc] at this; exact this
        | _ => exact same rfl (fun _ _ h => (by cases h)) (fun _ h => (by cases h)) h4
  | opendir p =>
    simp only [step] at hs
    cases hc : w.connected <;> rw [hc] at hs
    · exact same rfl (fun _ _ h => (by cases h)) (fun _ h => (by cases h)) hs
    · simp only [Bool.not_true, Bool.false_eq_true, if_false] at hs
      obtain ⟨r, h1, h2⟩ := bind_ok.mp hs
      cases r with
      | error e => exact same rfl (fun _ _ h => (by cases h)) (fun _ h => (by cases h)) h2
      | ok a =>
        obtain ⟨o, h3, h4⟩ := bind_ok.mp h2
        cases o with
        | dir st d => cases h4; have := Eff.openedDir hc h1 (deref_ok.mp h3); rw [hc] at this; exact this
        | _ => exact same rfl (fun _ _ h => (by cases h)) (fun _ h => (by cases h)) h4
  | setConnected b => cases hs; exact .conn b
  | fstat x =>
    obtain ⟨a, -, h2⟩ := bind_ok.mp hs
    obtain ⟨⟨st, d⟩, -, h4⟩ := bind_ok.mp h2
    exact same rfl (fun _ _ h => (by cases h)) (fun _ h => (by cases h)) h4
  | pread x count off =>
    obtain ⟨a, -, h2⟩ := bind_ok.mp hs
    obtain ⟨⟨st, d⟩, -, h4⟩ := bind_ok.mp h2
    obtain ⟨r, -, h6⟩ := bind_ok.mp h4
    exact same rfl (fun _ _ h => (by cases h)) (fun _ h => (by cases h)) h6
  | pwrite x buf off =>
    obtain ⟨a, h1, h2⟩ := bind_ok.mp hs
    obtain ⟨⟨h', r⟩, h3, h4⟩ := bind_ok.mp h2
    obtain ⟨⟨st, d⟩, h5, h6⟩ := bind_ok.mp h3
    obtain ⟨⟨f, r'⟩, h7, h8⟩ := bind_ok.mp h6
    cases h8; cases h4
    exact .wrote (file_ok.mp h1) (fileAt_ok.mp h5) h7
  | closeFile x =>
    obtain ⟨a, h1, h2⟩ := bind_ok.mp hs
    cases h2; exact .closed (file_ok.mp h1)
  | readdir x =>
    obtain ⟨d, h1, h2⟩ := bind_ok.mp hs
    obtain ⟨⟨d', r⟩, h3, h4⟩ := bind_ok.mp h2
    cases h4; exact .listed (dir_ok.mp h1) h3
  | closeDir x =>
    obtain ⟨a, h1, h2⟩ := bind_ok.mp hs
    cases h2; exact .closedDir (dir_ok.mp h1)
  | find a p =>
    obtain ⟨r, -, h4⟩ := bind_ok.mp hs
    exact same rfl (fun _ _ h => (by cases h)) (fun _ h => (by cases h)) h4
  | emplace a n k order rehash =>
    obtain ⟨⟨w1, b⟩, h1, h2⟩ := bind_ok.mp hs
    cases h2
    obtain ⟨⟨st, ch⟩, h3, h4⟩ := bind_ok.mp h1
    have h3 := dirAt_ok.mp h3
    cases hl : ch.lookup n with
    | none =>
      simp only [hl, Option.isSome_none, Bool.false_eq_true, if_false] at h4
      cases h4
      exact .emplaced h3 hl
    | some b =>
      simp only [hl, Option.isSome_some, if_true] at h4
      cases h4
      exact .existing h3 hl
  | remove a n =>
    obtain ⟨w1, h1, h2⟩ := bind_ok.mp hs
    cases h2
    obtain ⟨⟨st, ch⟩, h3, h4⟩ := bind_ok.mp h1
    have h3 := dirAt_ok.mp h3
    cases hl : ch.lookup n with
    | none =>
      simp only [hl] at h4
      cases h4
      exact .same rfl (fun _ h => (by cases h)) (fun a' n' e => by cases e; exact ⟨st, ch, h3, hl⟩)
    | some b =>
      simp only [hl] at h4
      cases h4
      exact .removed h3 hl
  | updateAttr a st =>
    obtain ⟨o, h1, h2⟩ := bind_ok.mp hs
    cases h2
    exact .updated (deref_ok.mp h1)

theorem Obj.update_kind (o : Obj) (st : BStat) : (∃ s d s' d', o = .file s d ∧ o.updateAttr st = .file s' d') ∨ (∃ s d s' d', o = .link s d ∧ o.updateAttr st = .link s' d') ∨
    ∃ s ch s' ch', o = .dir s ch ∧ o.updateAttr st = .dir s' ch' := by
  cases o with
  | file => exact .inl ⟨_, _, _, _, rfl, rfl⟩
  | link => exact .inr (.inl ⟨_, _, _, _, rfl, rfl⟩)
  | dir => exact .inr (.inr ⟨_, _, _, _, rfl, rfl⟩)

/-- The objects after a call. -/
theorem Eff.evolve (he : Eff w c w' out) (wf : WF w.heap) (hal : Allowed w c) : Evolve w.heap w'.heap ∧ WF w'.heap := by
  cases he with
  | same | opened | openedDir | conn | closed | closedDir | listed => exact ⟨Evolve.refl _, wf⟩
  | wrote h1 h2 h3 => exact ⟨put_evolve h2 (.inl ⟨_, _, _, _, rfl, rfl⟩), wf.put h2 (same_file _ _ _ _)⟩
  | existing h1 h2 => exact ⟨⟨Nat.le_succ _, (Evolve.refl _).2⟩, wf.bump⟩
  | emplaced h1 h2 => exact ⟨grown_evolve wf h1, WF.grown wf h1 h2 (Kind.leaf _) (hal _ _ h1 h2).1⟩
  | removed h1 h2 => exact ⟨shrunk_evolve h1, WF.shrunk wf h1 h2⟩
  | updated h1 => exact ⟨put_evolve h1 (Obj.update_kind _ _), wf.put h1 (Obj.same_update _ _)⟩

/-! ### Iterators -/

theorem first_mem {ch : List (Bytes × Nat)} {n : Bytes} (hf : first ch = .at n) : n ∈ ch.map Prod.fst := by
  cases ch with
  | nil => cases hf
  | cons x l => cases hf; simp

theorem after_mem {ch : List (Bytes × Nat)} {n m : Bytes} (hf : after n ch = .at m) : m ∈ ch.map Prod.fst := by
  induction ch with
  | nil => cases hf
  | cons x l ih =>
    obtain ⟨k, b⟩ := x
    rw [after] at hf
    by_cases hk : k = n
    · rw [if_pos hk] at hf; exact List.mem_cons_of_mem _ (first_mem hf)
    · rw [if_neg hk] at hf; exact List.mem_cons_of_mem _ (ih hf)

theorem readdir_ok {d d' : DirHandle} {r : Res Bytes} (hr : readdir h d = .ok (d', r)) :
    (d.pos = 0 ∧ d' = { d with pos := 1 } ∧ r = .ok [0x2e]) ∨ (d.pos = 1 ∧ d' = { d with pos := 2 } ∧ r = .ok [0x2e, 0x2e]) ∨
    (2 ≤ d.pos ∧ ∃ st ch, h.obj d.node = some (.dir st ch) ∧ ((d.iter = .fin ∧ d' = d ∧ r = .error 0) ∨
      ∃ n, d.iter = .at n ∧ d' = { d with iter := after n ch } ∧ r = .ok n)) := by
  obtain ⟨node, pos, iter⟩ := d
  unfold readdir at hr
  match pos, hr with
  | 0, hr => cases hr; exact .inl ⟨rfl, rfl, rfl⟩
  | 1, hr => cases hr; exact .inr (.inl ⟨rfl, rfl, rfl⟩)
  | pos + 2, hr =>
    simp only at hr
    obtain ⟨⟨st, ch⟩, h1, h2⟩ := bind_ok.mp hr
    refine .inr (.inr ⟨by simp, st, ch, dirAt_ok.mp h1, ?_⟩)
    cases iter with
    | bad => cases h2
    | fin => cases h2; exact .inl ⟨rfl, rfl, rfl⟩
    | «at» n => cases h2; exact .inr ⟨n, rfl, rfl, rfl⟩

theorem iters_dirs {a : Nat} {f : Iter → Iter} {x : Nat} {d : DirHandle} (hd : (w.iters a f).dirs x = some d) :
    ∃ d0, w.dirs x = some d0 ∧ d.node = d0.node ∧ d.pos = d0.pos ∧ d.iter = if d0.node = a then f d0.iter else d0.iter := by
  unfold World.iters at hd
  simp only at hd
  cases hx : w.dirs x with
  | none => rw [hx] at hd; cases hd
  | some d0 =>
    rw [hx] at hd
    simp only at hd
    by_cases ha : d0.node = a
    · rw [if_pos ha] at hd; cases hd; exact ⟨d0, rfl, rfl, rfl, by rw [if_pos ha]⟩
    · rw [if_neg ha] at hd; cases hd; exact ⟨d, rfl, rfl, rfl, by rw [if_neg ha]⟩

theorem iters_none {a : Nat} {f : Iter → Iter} {x : Nat} (hd : w.dirs x = none) : (w.iters a f).dirs x = none := by
  unfold World.iters; simp only [hd]

/-- Directories of which the children are the same. -/
theorem dir_keep {d : DirHandle} {h' : Heap} (hd : d.node < h.next ∧ ∀ o, h.obj d.node = some o → ∃ st ch, o = .dir st ch ∧ ∀ n, d.iter = .at n → n ∈ ch.map Prod.fst)
    (hn : h.next ≤ h'.next) (hk : ∀ o', h'.obj d.node = some o' → ∃ o, h.obj d.node = some o ∧ (o' = o ∨ Same o o')) :
    d.node < h'.next ∧ ∀ o, h'.obj d.node = some o → ∃ st ch, o = .dir st ch ∧ ∀ n, d.iter = .at n → n ∈ ch.map Prod.fst := by
  refine ⟨Nat.lt_of_lt_of_le hd.1 hn, fun o' ho' => ?_⟩
  obtain ⟨o, h1, h2⟩ := hk o' ho'
  obtain ⟨st, ch, h3, h4⟩ := hd.2 o h1
  rcases h2 with rfl | ⟨s1, s2, ch', e1, e2⟩ | ⟨e1, -⟩
  · exact ⟨st, ch, h3, h4⟩
  · rw [h3] at e1; cases e1; exact ⟨s2, ch, e2, h4⟩
  · exact absurd h3 (e1 st ch)

theorem put_keep {a x : Nat} {o o' : Obj} (ha : h.obj a = some o) (hs : Same o o') : ∀ o1, (h.put a o').obj x = some o1 → ∃ o2, h.obj x = some o2 ∧ (o1 = o2 ∨ Same o2 o1) := by
  intro o1 h1
  rw [put_obj] at h1
  by_cases hx : x = a
  · subst hx; rw [if_pos rfl] at h1; cases h1; exact ⟨o, ha, .inr hs⟩
  · rw [if_neg hx] at h1; exact ⟨o1, h1, .inl rfl⟩

theorem Eff.inv (he : Eff w c w' out) (hi : Inv w) (hal : Allowed w c) : Inv w' := by
  obtain ⟨hev, hwf⟩ := he.evolve hi.wf hal
  have hfile : ∀ {x a}, w.files x = some a → a < w'.heap.next ∧ ∀ o, w'.heap.obj a = some o → ∃ st d, o = .file st d := by
    intro x a hx
    obtain ⟨h1, h2⟩ := hi.file hx
    refine ⟨Nat.lt_of_lt_of_le h1 hev.1, fun o' ho' => ?_⟩
    obtain ⟨o, h3, h4⟩ := hev.2 a o' h1 ho'
    obtain ⟨st, d, rfl⟩ := h2 o h3
    rcases h4 with ⟨_, _, s, d', -, e⟩ | ⟨_, _, _, _, e, -⟩ | ⟨_, _, _, _, e, -⟩
    · exact ⟨s, d', e⟩
    · cases e
    · cases e
  cases he with
  | same => exact hi
  | opened h0 h1 h2 =>
    refine ⟨hwf, ?_, hi.dir, ?_⟩
    · intro x a hx
      simp only at hx
      by_cases hn : x = w.nextHandle
      · rw [if_pos hn] at hx; cases hx
        exact ⟨hi.wf.lt_next (by rw [h2]; rfl), fun o ho => by rw [h2] at ho; cases ho; exact ⟨_, _, rfl⟩⟩
      · rw [if_neg hn] at hx; exact hi.file hx
    · intro x hx
      have hx : w.nextHandle + 1 ≤ x := hx
      simp only
      rw [if_neg (by omega)]
      exact hi.fresh x (by omega)
  | openedDir h0 h1 h2 =>
    refine ⟨hwf, hi.file, ?_, ?_⟩
    · intro x d hx
      simp only at hx
      by_cases hn : x = w.nextHandle
      · rw [if_pos hn] at hx; cases hx
        exact ⟨hi.wf.lt_next (by rw [h2]; rfl), fun o ho => by rw [h2] at ho; cases ho; exact ⟨_, _, rfl, fun n hf => first_mem hf⟩⟩
      · rw [if_neg hn] at hx; exact hi.dir hx
    · intro x hx
      have hx : w.nextHandle + 1 ≤ x := hx
      simp only
      rw [if_neg (by omega)]
      exact hi.fresh x (by omega)
  | conn b => exact ⟨hi.wf, hi.file, hi.dir, hi.fresh⟩
  | wrote h1 h2 h3 => exact ⟨hwf, hfile, fun hx => dir_keep (hi.dir hx) (Nat.le_refl _) (put_keep h2 (same_file _ _ _ _)), hi.fresh⟩
  | updated h1 => exact ⟨hwf, hfile, fun hx => dir_keep (hi.dir hx) (Nat.le_refl _) (put_keep h1 (Obj.same_update _ _)), hi.fresh⟩
  | existing h1 h2 => exact ⟨hwf, hfile, fun hx => dir_keep (hi.dir hx) (Nat.le_succ _) (fun o ho => ⟨o, ho, .inl rfl⟩), hi.fresh⟩
  | closed h1 =>
    refine ⟨hwf, ?_, hi.dir, ?_⟩
    · intro y a hy
      simp only at hy
      split at hy
      · cases hy
      · exact hi.file hy
    · intro y hy
      refine ⟨?_, (hi.fresh y hy).2⟩
      simp only
      split
      · rfl
      · exact (hi.fresh y hy).1
  | closedDir h1 =>
    refine ⟨hwf, hi.file, ?_, ?_⟩
    · intro y a hy
      simp only at hy
      split at hy
      · cases hy
      · exact hi.dir hy
    · intro y hy
      refine ⟨(hi.fresh y hy).1, ?_⟩
      simp only
      split
      · rfl
      · exact (hi.fresh y hy).2
  | @listed x d d' r h1 h2 =>
    have hx : x < w.nextHandle := Nat.lt_of_not_le fun hle => by rw [(hi.fresh x hle).2] at h1; cases h1
    refine ⟨hwf, hi.file, ?_, ?_⟩
    · intro y e hy
      simp only [World.setDir] at hy
      by_cases hxy : y = x
      · rw [if_pos hxy] at hy; cases hy
        obtain ⟨k1, k2⟩ := hi.dir h1
        rcases readdir_ok h2 with ⟨-, rfl, -⟩ | ⟨-, rfl, -⟩ | ⟨-, st, ch, k3, ⟨-, rfl, -⟩ | ⟨n, k4, rfl, -⟩⟩
        · exact ⟨k1, k2⟩
        · exact ⟨k1, k2⟩
        · exact ⟨k1, k2⟩
        · exact ⟨k1, fun o ho => ⟨st, ch, Option.some.inj (ho.symm.trans k3), fun m hm => after_mem hm⟩⟩
      · rw [if_neg hxy] at hy; exact hi.dir hy
    · intro y hy
      have hy : w.nextHandle ≤ y := hy
      refine ⟨(hi.fresh y hy).1, ?_⟩
      simp only [World.setDir]
      rw [if_neg (by omega)]
      exact (hi.fresh y hy).2
  | @emplaced a n k order rehash st ch h1 h2 =>
    obtain ⟨hp, -⟩ := hal _ _ h1 h2
    refine ⟨hwf, hfile, ?_, fun x hx => ⟨(hi.fresh x hx).1, iters_none (hi.fresh x hx).2⟩⟩
    intro x d hx
    obtain ⟨d0, e1, e2, -, e3⟩ := iters_dirs hx
    obtain ⟨k1, k2⟩ := hi.dir e1
    rw [e2]
    refine ⟨Nat.lt_of_lt_of_le k1 hev.1, fun o ho => ?_⟩
    have ho : (w.heap.grown a st k.new order).obj d0.node = some o := ho
    rw [grown_obj] at ho
    by_cases ha : d0.node = a
    · rw [if_pos ha] at ho; cases ho
      refine ⟨st, order, rfl, fun m hm => ?_⟩
      rw [e3, if_pos ha] at hm
      cases rehash with
      | true => cases hm
      | false =>
        obtain ⟨s1, c1, k3, k4⟩ := k2 _ (by rw [ha]; exact h1)
        cases k3
        have := k4 m hm
        have hp' := hp.map Prod.fst
        exact hp'.mem_iff.mpr (List.mem_cons_of_mem _ this)
    · rw [if_neg ha, if_neg (by omega)] at ho
      rw [e3, if_neg ha]
      exact k2 o ho
  | @removed a n st ch b h1 h2 =>
    refine ⟨hwf, hfile, ?_, fun x hx => ⟨(hi.fresh x hx).1, iters_none (hi.fresh x hx).2⟩⟩
    intro x d hx
    obtain ⟨d0, e1, e2, -, e3⟩ := iters_dirs hx
    obtain ⟨k1, k2⟩ := hi.dir e1
    rw [e2]
    refine ⟨Nat.lt_of_lt_of_le k1 hev.1, fun o ho => ?_⟩
    have ho : (w.heap.shrunk a st ch n b).obj d0.node = some o := ho
    rw [shrunk_obj hi.wf h1 h2] at ho
    by_cases ha : d0.node = a
    · rw [if_pos ha] at ho; cases ho
      refine ⟨st, _, rfl, fun m hm => ?_⟩
      rw [e3, if_pos ha] at hm
      by_cases hb : d0.iter = .at n
      · rw [if_pos hb] at hm; cases hm
      · rw [if_neg hb] at hm
        obtain ⟨s1, c1, k3, k4⟩ := k2 _ (by rw [ha]; exact h1)
        cases k3
        obtain ⟨y, hy1, hy2⟩ := List.mem_map.mp (k4 m hm)
        refine List.mem_map.mpr ⟨y, List.mem_filter.mpr ⟨hy1, ?_⟩, hy2⟩
        simp only [bne_iff_ne, ne_eq]
        intro e; rw [← hy2, e] at hm; exact hb hm
    · rw [if_neg ha] at ho
      split at ho
      · cases ho
      · rw [e3, if_neg ha]
        exact k2 o ho

theorem Reach.inv (hr : Reach w) : Inv w := by
  induction hr with
  | start => exact start_inv
  | step _ hal hs ih => exact (step_eff hs).inv ih hal

end Dragonstash.MemHeap
