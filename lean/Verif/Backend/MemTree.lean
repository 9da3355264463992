/-
  The objects of the in-memory backend form a tree (for C98).
-/
import Verif.Backend.MemHeap
import Verif.Props.InMemEdit
namespace Dragonstash.MemHeap
open InMem Cache FS

/-- The object at the end of a path from the object at `a`. -/
def get (h : Heap) (a : Nat) : List Bytes → Option Nat
  | [] => some a
  | c :: cs => match h.obj a with
    | some (.dir _ ch) => match ch.lookup c with
      | some b => get h b cs
      | none => none
    | _ => none

/-- What can be seen of an object. -/
def Obj.obs : Obj → Obs
  | .file a d => .file a d
  | .link a d => .link a d
  | .dir a ch => .dir a (ch.map Prod.fst)

/-- The tree as a map from paths to what can be seen there. -/
def Heap.view (h : Heap) (cs : List Bytes) : Option Obs := match get h 0 cs with
  | none => none
  | some a => (h.obj a).map Obj.obs

/-- Objects form a tree with the file system at its root, and children are younger than their directory. -/
structure WF (h : Heap) : Prop where
  root : ∃ st ch, h.obj 0 = some (.dir st ch)
  fresh : ∀ x, h.next ≤ x → h.obj x = none
  kid : ∀ {a st ch n c}, h.obj a = some (.dir st ch) → (n, c) ∈ ch → a < c ∧ ∃ o, h.obj c = some o
  names : ∀ {a st ch}, h.obj a = some (.dir st ch) → (ch.map Prod.fst).Nodup
  one : ∀ {a st ch n a' st' ch' n' c}, h.obj a = some (.dir st ch) → (n, c) ∈ ch → h.obj a' = some (.dir st' ch') → (n', c) ∈ ch' → a = a' ∧ n = n'
  owned : ∀ {c o}, h.obj c = some o → c ≠ 0 → ∃ a st ch n, h.obj a = some (.dir st ch) ∧ (n, c) ∈ ch

/-- Directory `a` has an entry `n` for the object at `c`. -/
def Heap.Entry (h : Heap) (a : Nat) (n : Bytes) (c : Nat) : Prop := ∃ st ch, h.obj a = some (.dir st ch) ∧ (n, c) ∈ ch

/-! ### Lists of children -/

theorem lookup_mem {ch : List (Bytes × Nat)} {n : Bytes} {c : Nat} (h : ch.lookup n = some c) : (n, c) ∈ ch := by
  induction ch with
  | nil => cases h
  | cons x l ih =>
    obtain ⟨m, b⟩ := x
    rw [List.lookup_cons] at h
    by_cases hm : n = m
    · subst hm; simp at h; subst h; simp
    · rw [show (n == m) = false by simpa using hm] at h; simp [ih h]

theorem mem_lookup {ch : List (Bytes × Nat)} {n : Bytes} {c : Nat} (hn : (ch.map Prod.fst).Nodup) (h : (n, c) ∈ ch) : ch.lookup n = some c := by
  induction ch with
  | nil => cases h
  | cons x l ih =>
    obtain ⟨m, b⟩ := x
    simp only [List.map_cons, List.nodup_cons] at hn
    rw [List.lookup_cons]
    rcases List.mem_cons.mp h with hx | hx
    · cases hx; simp
    · have : n ≠ m := by rintro rfl; exact hn.1 (List.mem_map.mpr ⟨(n, c), hx, rfl⟩)
      rw [show (n == m) = false by simpa using this]; exact ih hn.2 hx

theorem lookup_iff {ch : List (Bytes × Nat)} {n : Bytes} {c : Nat} (hn : (ch.map Prod.fst).Nodup) : ch.lookup n = some c ↔ (n, c) ∈ ch :=
  ⟨lookup_mem, mem_lookup hn⟩

theorem lookup_none {ch : List (Bytes × Nat)} {n : Bytes} : ch.lookup n = none ↔ n ∉ ch.map Prod.fst := by
  induction ch with
  | nil => simp
  | cons x l ih =>
    obtain ⟨m, b⟩ := x
    rw [List.lookup_cons]
    by_cases hm : n = m
    · subst hm; simp
    · rw [show (n == m) = false by simpa using hm]; simp only [ih, List.map_cons, List.mem_cons, hm, false_or]

theorem snoc_ind {P : List Bytes → Prop} (nil : P []) (snoc : ∀ es m, P es → P (es ++ [m])) (l : List Bytes) : P l := by
  have : ∀ k (l : List Bytes), l.length = k → P l := by
    intro k
    induction k with
    | zero => intro l hl; rw [List.length_eq_zero_iff.mp hl]; exact nil
    | succ k ih =>
      intro l hl
      rcases List.eq_nil_or_concat l with rfl | ⟨es, m, rfl⟩
      · exact nil
      · rw [List.concat_eq_append] at hl ⊢
        exact snoc es m (ih es (by simpa using hl))
  exact this _ l rfl

/-! ### Paths -/

theorem get_append {h : Heap} {a : Nat} {cs ds : List Bytes} : get h a (cs ++ ds) = match get h a cs with | some b => get h b ds | none => none := by
  induction cs generalizing a with
  | nil => rfl
  | cons c cs ih =>
    simp only [List.cons_append, get]
    cases h.obj a with
    | none => rfl
    | some o =>
      cases o with
      | dir st ch => simp only; cases ch.lookup c with | none => rfl | some b => exact ih
      | _ => rfl

theorem get_one {h : Heap} {a b : Nat} {c : Bytes} : get h a [c] = some b ↔ ∃ st ch, h.obj a = some (.dir st ch) ∧ ch.lookup c = some b := by
  simp only [get]
  cases h.obj a with
  | none => simp
  | some o =>
    cases o with
    | dir st ch =>
      simp only [Option.some.injEq, Obj.dir.injEq]
      constructor
      · intro hx; exact ⟨st, ch, ⟨rfl, rfl⟩, by cases hl : ch.lookup c with | none => rw [hl] at hx; cases hx | some k => rw [hl] at hx; exact hx⟩
      · rintro ⟨_, _, ⟨rfl, rfl⟩, hx⟩; rw [hx]
    | _ => simp

theorem get_snoc {h : Heap} {a b : Nat} {cs : List Bytes} {c : Bytes} : get h a (cs ++ [c]) = some b ↔
    ∃ d st ch, get h a cs = some d ∧ h.obj d = some (.dir st ch) ∧ ch.lookup c = some b := by
  rw [get_append]
  cases get h a cs with
  | none => simp
  | some d => simp only [get_one, Option.some.injEq]; exact ⟨fun ⟨st, ch, x⟩ => ⟨d, st, ch, rfl, x⟩, fun ⟨_, st, ch, e, x⟩ => e ▸ ⟨st, ch, x⟩⟩

variable {h : Heap}

theorem WF.live_get (wf : WF h) {a b : Nat} {cs : List Bytes} (ha : (h.obj a).isSome) (hg : get h a cs = some b) : (h.obj b).isSome ∧ a + cs.length ≤ b := by
  induction cs generalizing a with
  | nil => cases hg; exact ⟨ha, by simp⟩
  | cons c cs ih =>
    simp only [get] at hg
    cases ho : h.obj a with
    | none => rw [ho] at ha; cases ha
    | some o =>
      rw [ho] at hg
      cases o with
      | dir st ch =>
        simp only at hg
        cases hl : ch.lookup c with
        | none => rw [hl] at hg; cases hg
        | some k =>
          rw [hl] at hg
          obtain ⟨h1, o, h2⟩ := wf.kid ho (lookup_mem hl)
          obtain ⟨h3, h4⟩ := ih (by rw [h2]; rfl) hg
          exact ⟨h3, by simp only [List.length_cons]; omega⟩
      | _ => cases hg

theorem WF.root_live (wf : WF h) : (h.obj 0).isSome := by obtain ⟨st, ch, h1⟩ := wf.root; rw [h1]; rfl

/-- An object has one path. -/
theorem WF.unique (wf : WF h) {cs cs' : List Bytes} {x : Nat} (h1 : get h 0 cs = some x) (h2 : get h 0 cs' = some x) : cs = cs' := by
  induction x using Nat.strongRecOn generalizing cs cs' with
  | _ x ih =>
    rcases List.eq_nil_or_concat cs with rfl | ⟨ds, c, rfl⟩
    · cases h1
      have := (wf.live_get wf.root_live h2).2
      cases cs' with
      | nil => rfl
      | cons => simp at this
    · rcases List.eq_nil_or_concat cs' with rfl | ⟨ds', c', rfl⟩
      · cases h2
        have := (wf.live_get wf.root_live h1).2
        simp at this
      · rw [List.concat_eq_append] at h1 h2 ⊢
        rw [List.concat_eq_append]
        obtain ⟨d, st, ch, g1, g2, g3⟩ := get_snoc.mp h1
        obtain ⟨d', st', ch', k1, k2, k3⟩ := get_snoc.mp h2
        obtain ⟨rfl, rfl⟩ := wf.one g2 (lookup_mem g3) k2 (lookup_mem k3)
        rw [ih d (wf.kid g2 (lookup_mem g3)).1 g1 k1]

/-- Every object has a path. -/
theorem WF.has_path (wf : WF h) {x : Nat} (hx : (h.obj x).isSome) : ∃ cs, get h 0 cs = some x := by
  induction x using Nat.strongRecOn with
  | _ x ih =>
    by_cases h0 : x = 0
    · subst h0; exact ⟨[], rfl⟩
    · cases ho : h.obj x with
      | none => rw [ho] at hx; cases hx
      | some o =>
        obtain ⟨a, st, ch, n, h1, h2⟩ := wf.owned ho h0
        obtain ⟨cs, h3⟩ := ih a (wf.kid h1 h2).1 (by rw [h1]; rfl)
        exact ⟨cs ++ [n], get_snoc.mpr ⟨a, st, ch, h3, h1, mem_lookup (wf.names h1) h2⟩⟩

theorem WF.lt_next (wf : WF h) {x : Nat} (hx : (h.obj x).isSome) : x < h.next := by
  refine Nat.lt_of_not_le fun hle => ?_
  rw [wf.fresh x hle] at hx; cases hx

/-- What a destructor destroys: what has a path from there. -/
theorem WF.below_iff (wf : WF h) {f a x : Nat} (ha : (h.obj a).isSome) (hf : h.next ≤ a + f) : x ∈ below h f a ↔ ∃ cs, get h a cs = some x := by
  induction f generalizing a with
  | zero => have := wf.lt_next ha; omega
  | succ f ih =>
    simp only [below, List.mem_cons]
    cases ho : h.obj a with
    | none => rw [ho] at ha; cases ha
    | some o =>
      have key : (∃ cs, get h a cs = some x) ↔ x = a ∨ ∃ c cs, get h a (c :: cs) = some x := by
        constructor
        · rintro ⟨cs, hc⟩
          cases cs with
          | nil => cases hc; exact .inl rfl
          | cons c cs => exact .inr ⟨c, cs, hc⟩
        · rintro (rfl | ⟨c, cs, hc⟩)
          · exact ⟨[], rfl⟩
          · exact ⟨_, hc⟩
      rw [key]
      refine or_congr Iff.rfl ?_
      cases o with
      | file => simp [get, ho]
      | link => simp [get, ho]
      | dir st ch =>
        simp only [List.mem_flatMap, get, ho]
        constructor
        · rintro ⟨⟨n, c⟩, hm, hx⟩
          obtain ⟨h1, o, h2⟩ := wf.kid ho hm
          obtain ⟨cs, hc⟩ := (ih (by rw [h2]; rfl) (by omega)).mp hx
          exact ⟨n, cs, by rw [mem_lookup (wf.names ho) hm]; exact hc⟩
        · rintro ⟨c, cs, hx⟩
          cases hl : ch.lookup c with
          | none => rw [hl] at hx; cases hx
          | some b =>
            rw [hl] at hx
            obtain ⟨h1, o, h2⟩ := wf.kid ho (lookup_mem hl)
            exact ⟨(c, b), lookup_mem hl, (ih (by rw [h2]; rfl) (by omega)).mpr ⟨cs, hx⟩⟩

theorem WF.destroyed (wf : WF h) {a x : Nat} (ha : (h.obj a).isSome) : x ∈ below h (h.next + 1) a ↔ ∃ cs, get h a cs = some x :=
  wf.below_iff ha (by omega)

/-! ### Changes of one object -/

/-- The same children, or none. -/
def Same (o o' : Obj) : Prop := (∃ st st' ch, o = .dir st ch ∧ o' = .dir st' ch) ∨ ((∀ st ch, o ≠ .dir st ch) ∧ ∀ st ch, o' ≠ .dir st ch)

theorem put_obj (h : Heap) (a : Nat) (o : Obj) (x : Nat) : (h.put a o).obj x = if x = a then some o else h.obj x := rfl

theorem Same.get {a : Nat} {o o' : Obj} (ho : h.obj a = some o) (hs : Same o o') (b : Nat) (cs : List Bytes) : get (h.put a o') b cs = MemHeap.get h b cs := by
  induction cs generalizing b with
  | nil => rfl
  | cons c cs ih =>
    simp only [MemHeap.get, put_obj]
    by_cases hb : b = a
    · subst hb
      rw [if_pos rfl, ho]
      rcases hs with ⟨st, st', ch, rfl, rfl⟩ | ⟨h1, h2⟩
      · simp only; cases ch.lookup c with | none => rfl | some k => exact ih k
      · cases o with
        | dir st ch => exact absurd rfl (h1 st ch)
        | _ => cases o' with
          | dir st ch => exact absurd rfl (h2 st ch)
          | _ => rfl
    · rw [if_neg hb]
      cases h.obj b with
      | none => rfl
      | some x =>
        cases x with
        | dir st ch => simp only; cases ch.lookup c with | none => rfl | some k => exact ih k
        | _ => rfl

theorem Same.dir {a : Nat} {o o' : Obj} (ho : h.obj a = some o) (hs : Same o o') {b : Nat} {st : BStat} {ch : List (Bytes × Nat)}
    (hb : (h.put a o').obj b = some (.dir st ch)) : ∃ st', h.obj b = some (.dir st' ch) := by
  rw [put_obj] at hb
  by_cases hab : b = a
  · subst hab
    rw [if_pos rfl] at hb
    rcases hs with ⟨s1, s2, ch', rfl, rfl⟩ | ⟨-, h2⟩
    · cases hb; exact ⟨_, ho⟩
    · cases hb; exact absurd rfl (h2 st ch)
  · rw [if_neg hab] at hb; exact ⟨_, hb⟩

theorem Same.back {a : Nat} {o o' : Obj} (ho : h.obj a = some o) (hs : Same o o') {b : Nat} {st : BStat} {ch : List (Bytes × Nat)}
    (hb : h.obj b = some (.dir st ch)) : ∃ st', (h.put a o').obj b = some (.dir st' ch) := by
  rw [put_obj]
  by_cases hab : b = a
  · subst hab
    rw [if_pos rfl]
    rw [ho] at hb
    rcases hs with ⟨s1, s2, ch', rfl, rfl⟩ | ⟨h1, -⟩
    · cases hb; exact ⟨_, rfl⟩
    · cases hb; exact absurd rfl (h1 st ch)
  · rw [if_neg hab]; exact ⟨_, hb⟩

theorem put_isSome {a : Nat} {o o' : Obj} (ho : h.obj a = some o) (x : Nat) : ((h.put a o').obj x).isSome = (h.obj x).isSome := by
  rw [put_obj]
  by_cases hx : x = a
  · subst hx; rw [if_pos rfl, ho]; rfl
  · rw [if_neg hx]

theorem some_iff {α : Type} {o : Option α} : o.isSome = true ↔ ∃ x, o = some x := by cases o <;> simp

theorem WF.put (wf : WF h) {a : Nat} {o o' : Obj} (ho : h.obj a = some o) (hs : Same o o') : WF (h.put a o') := by
  refine ⟨?_, ?_, ?_, ?_, ?_, ?_⟩
  · obtain ⟨st, ch, h1⟩ := wf.root
    obtain ⟨st', h2⟩ := hs.back ho h1; exact ⟨st', ch, h2⟩
  · intro x hx
    rw [put_obj]
    rw [if_neg, wf.fresh x hx]
    rintro rfl; rw [wf.fresh x hx] at ho; cases ho
  · intro b st ch n c hb hm
    obtain ⟨st', h1⟩ := hs.dir ho hb
    obtain ⟨h2, h3⟩ := wf.kid h1 hm
    exact ⟨h2, some_iff.mp (by rw [put_isSome ho]; exact some_iff.mpr h3)⟩
  · intro b st ch hb
    obtain ⟨st', h1⟩ := hs.dir ho hb
    exact wf.names h1
  · intro b st ch n b' st' ch' n' c hb hm hb' hm'
    obtain ⟨_, h1⟩ := hs.dir ho hb
    obtain ⟨_, h2⟩ := hs.dir ho hb'
    exact wf.one h1 hm h2 hm'
  · intro c o hc h0
    have : (h.obj c).isSome := by rw [← put_isSome (o' := o') ho]; exact some_iff.mpr ⟨_, hc⟩
    obtain ⟨o1, h1⟩ := some_iff.mp this
    obtain ⟨b, st, ch, n, h2, h3⟩ := wf.owned h1 h0
    obtain ⟨st', h4⟩ := hs.back ho h2
    exact ⟨b, st', ch, n, h4, h3⟩

/-- Nothing else is seen to change. -/
theorem WF.view_put (wf : WF h) {a : Nat} {o o' : Obj} (ho : h.obj a = some o) (hs : Same o o') {cs : List Bytes} (hc : MemHeap.get h 0 cs = some a) (es : List Bytes) :
    (h.put a o').view es = if es = cs then some o'.obs else h.view es := by
  unfold Heap.view
  rw [hs.get ho]
  by_cases he : es = cs
  · subst he; rw [if_pos rfl, hc]; simp only [put_obj, if_pos]; rfl
  · rw [if_neg he]
    cases hg : MemHeap.get h 0 es with
    | none => rfl
    | some b =>
      simp only [put_obj]
      rw [if_neg]
      rintro rfl; exact he (wf.unique hg hc)

/-! ### A new object -/

/-- The heap after `emplace` of a new name. -/
def Heap.grown (h : Heap) (a : Nat) (st : BStat) (o : Obj) (order : List (Bytes × Nat)) : Heap := ({ h with next := h.next + 1 }.put h.next o).put a (.dir st order)

theorem grown_obj (h : Heap) (a : Nat) (st : BStat) (o : Obj) (order : List (Bytes × Nat)) (x : Nat) :
    (h.grown a st o order).obj x = if x = a then some (.dir st order) else if x = h.next then some o else h.obj x := rfl

/-- Just created: a file, a link or an empty directory. -/
def Leaf (o : Obj) : Prop := ∀ st ch, o = .dir st ch → ch = []

theorem Kind.leaf (k : Kind) : Leaf k.new := by
  cases k <;> intro st ch h <;> simp only [Kind.new] at h <;> cases h
  rfl

theorem perm_names {ch order : List (Bytes × Nat)} {n : Bytes} {b : Nat} (hp : order.Perm ((n, b) :: ch)) (hn : (ch.map Prod.fst).Nodup) (hl : ch.lookup n = none) :
    (order.map Prod.fst).Nodup := by
  have : (order.map Prod.fst).Perm (n :: ch.map Prod.fst) := by simpa using hp.map Prod.fst
  exact this.nodup_iff.mpr (List.nodup_cons.mpr ⟨lookup_none.mp hl, hn⟩)

theorem perm_lookup {ch order : List (Bytes × Nat)} {n : Bytes} {b : Nat} (hp : order.Perm ((n, b) :: ch)) (hn : (ch.map Prod.fst).Nodup) (hl : ch.lookup n = none) (m : Bytes) :
    order.lookup m = if m = n then some b else ch.lookup m := by
  have hno := perm_names hp hn hl
  by_cases hm : m = n
  · subst hm; rw [if_pos rfl]; exact mem_lookup hno (hp.mem_iff.mpr (by simp))
  · rw [if_neg hm]
    cases hc : ch.lookup m with
    | some c => exact mem_lookup hno (hp.mem_iff.mpr (List.mem_cons_of_mem _ (lookup_mem hc)))
    | none =>
      rw [lookup_none] at hc ⊢
      intro hx
      obtain ⟨⟨m', c⟩, hx', rfl⟩ := List.mem_map.mp hx
      rcases List.mem_cons.mp (hp.mem_iff.mp hx') with hy | hy
      · cases hy; exact hm rfl
      · exact hc (List.mem_map.mpr ⟨_, hy, rfl⟩)

section grown
variable {a : Nat} {st : BStat} {ch order : List (Bytes × Nat)} {n : Bytes} {o : Obj}
variable (wf : WF h) (ha : h.obj a = some (.dir st ch)) (hl : ch.lookup n = none) (ho : Leaf o) (hp : order.Perm ((n, h.next) :: ch))
include wf ha hl ho hp

theorem grown_dir {b : Nat} {st' : BStat} {ch' : List (Bytes × Nat)} (hb : (h.grown a st o order).obj b = some (.dir st' ch')) :
    b = a ∧ ch' = order ∨ b = h.next ∧ ch' = [] ∨ b ≠ a ∧ b ≠ h.next ∧ h.obj b = some (.dir st' ch') := by
  rw [grown_obj] at hb
  by_cases h1 : b = a
  · rw [if_pos h1] at hb; cases hb; exact .inl ⟨h1, rfl⟩
  · rw [if_neg h1] at hb
    by_cases h2 : b = h.next
    · rw [if_pos h2] at hb; exact .inr (.inl ⟨h2, ho _ _ (Option.some.inj hb)⟩)
    · rw [if_neg h2] at hb; exact .inr (.inr ⟨h1, h2, hb⟩)

theorem grown_live {x : Nat} (hx : (h.obj x).isSome) : ((h.grown a st o order).obj x).isSome := by
  rw [grown_obj]
  split
  · rfl
  · split
    · rfl
    · exact hx

/-- The entries of the directories: those there were, and the new one. -/
theorem grown_entry {b : Nat} {m : Bytes} {c : Nat} : (h.grown a st o order).Entry b m c ↔ h.Entry b m c ∨ b = a ∧ m = n ∧ c = h.next := by
  have hne : a ≠ h.next := by rintro rfl; rw [wf.fresh _ (Nat.le_refl _)] at ha; cases ha
  constructor
  · rintro ⟨st', ch', h1, h2⟩
    rcases grown_dir wf ha hl ho hp h1 with ⟨rfl, rfl⟩ | ⟨rfl, rfl⟩ | ⟨-, -, h3⟩
    · rcases List.mem_cons.mp (hp.mem_iff.mp h2) with hy | hy
      · cases hy; exact .inr ⟨rfl, rfl, rfl⟩
      · exact .inl ⟨st, ch, ha, hy⟩
    · cases h2
    · exact .inl ⟨_, _, h3, h2⟩
  · rintro (⟨st', ch', h1, h2⟩ | ⟨rfl, rfl, rfl⟩)
    · by_cases hb : b = a
      · subst hb
        rw [ha] at h1; cases h1
        exact ⟨st, order, by rw [grown_obj, if_pos rfl], hp.mem_iff.mpr (List.mem_cons_of_mem _ h2)⟩
      · have : b ≠ h.next := by rintro rfl; rw [wf.fresh _ (Nat.le_refl _)] at h1; cases h1
        exact ⟨st', ch', by rw [grown_obj, if_neg hb, if_neg this]; exact h1, h2⟩
    · exact ⟨st, order, by rw [grown_obj, if_pos rfl], hp.mem_iff.mpr (by simp)⟩

theorem WF.grown : WF (h.grown a st o order) := by
  have hent := fun {b m c} => grown_entry wf ha hl ho hp (b := b) (m := m) (c := c)
  have hlt : a < h.next := wf.lt_next (by rw [ha]; rfl)
  have hnew : ∀ {b m}, ¬ h.Entry b m h.next := by
    rintro b m ⟨st', ch', h1, h2⟩
    obtain ⟨-, x, h3⟩ := wf.kid h1 h2
    rw [wf.fresh _ (Nat.le_refl _)] at h3; cases h3
  refine ⟨?_, ?_, ?_, ?_, ?_, ?_⟩
  · obtain ⟨st', ch', h1⟩ := wf.root
    rw [grown_obj]
    by_cases h0 : 0 = a
    · rw [if_pos h0]; exact ⟨_, _, rfl⟩
    · rw [if_neg h0, if_neg (by omega)]; exact ⟨_, _, h1⟩
  · intro x hx
    have hx : h.next + 1 ≤ x := hx
    rw [grown_obj, if_neg (by omega), if_neg (by omega)]
    exact wf.fresh x (by omega)
  · intro b st' ch' m c hb hm
    rcases hent.mp ⟨_, _, hb, hm⟩ with ⟨s1, c1, h1, h2⟩ | ⟨rfl, rfl, rfl⟩
    · obtain ⟨h3, h4⟩ := wf.kid h1 h2
      exact ⟨h3, some_iff.mp (grown_live wf ha hl ho hp (some_iff.mpr h4))⟩
    · exact ⟨hlt, o, by rw [grown_obj, if_neg (by omega), if_pos rfl]⟩
  · intro b st' ch' hb
    rcases grown_dir wf ha hl ho hp hb with ⟨rfl, rfl⟩ | ⟨rfl, rfl⟩ | ⟨-, -, h3⟩
    · exact perm_names hp (wf.names ha) hl
    · simp
    · exact wf.names h3
  · intro b st' ch' m b' st'' ch'' m' c hb hm hb' hm'
    rcases hent.mp ⟨_, _, hb, hm⟩ with h1 | ⟨rfl, rfl, rfl⟩
    · rcases hent.mp ⟨_, _, hb', hm'⟩ with h2 | ⟨rfl, rfl, rfl⟩
      · obtain ⟨s1, c1, g1, g2⟩ := h1
        obtain ⟨s2, c2, k1, k2⟩ := h2
        exact wf.one g1 g2 k1 k2
      · exact absurd h1 hnew
    · rcases hent.mp ⟨_, _, hb', hm'⟩ with h2 | ⟨rfl, rfl, -⟩
      · exact absurd h2 hnew
      · exact ⟨rfl, rfl⟩
  · intro c x hc h0
    by_cases hcn : c = h.next
    · obtain ⟨s1, c1, g1, g2⟩ := hent.mpr (.inr ⟨rfl, rfl, hcn⟩)
      exact ⟨_, _, _, _, g1, g2⟩
    · have : (h.obj c).isSome := by
        rw [grown_obj] at hc
        by_cases hca : c = a
        · subst hca; rw [ha]; rfl
        · rw [if_neg hca, if_neg hcn] at hc; rw [hc]; rfl
      obtain ⟨y, hy⟩ := some_iff.mp this
      obtain ⟨b, s1, c1, m, g1, g2⟩ := wf.owned hy h0
      obtain ⟨s2, c2, k1, k2⟩ := hent.mpr (.inl ⟨s1, c1, g1, g2⟩)
      exact ⟨_, _, _, _, k1, k2⟩

/-- Paths after the insertion. -/
theorem grown_get {ds : List Bytes} (hd : get h 0 ds = some a) (es : List Bytes) :
    get (h.grown a st o order) 0 es = if es = ds ++ [n] then some h.next else get h 0 es := by
  have wf' := WF.grown wf ha hl ho hp
  have hent := fun {b m c} => grown_entry wf ha hl ho hp (b := b) (m := m) (c := c)
  have up : ∀ {es x}, get h 0 es = some x → get (h.grown a st o order) 0 es = some x := by
    intro es
    induction es using snoc_ind with
    | nil => intro x hx; exact hx
    | snoc es m ih =>
      intro x hx
      obtain ⟨d, s1, c1, g1, g2, g3⟩ := get_snoc.mp hx
      obtain ⟨s2, c2, k1, k2⟩ := hent.mpr (.inl ⟨s1, c1, g2, lookup_mem g3⟩)
      exact get_snoc.mpr ⟨d, s2, c2, ih g1, k1, mem_lookup (wf'.names k1) k2⟩
  have new : get (h.grown a st o order) 0 (ds ++ [n]) = some h.next := by
    obtain ⟨s2, c2, k1, k2⟩ := hent.mpr (.inr ⟨rfl, rfl, rfl⟩)
    exact get_snoc.mpr ⟨a, s2, c2, up hd, k1, mem_lookup (wf'.names k1) k2⟩
  have down : ∀ {es x}, get (h.grown a st o order) 0 es = some x → es = ds ++ [n] ∨ get h 0 es = some x := by
    intro es
    induction es using snoc_ind with
    | nil => intro x hx; exact .inr hx
    | snoc es m ih =>
      intro x hx
      obtain ⟨d, s1, c1, g1, g2, g3⟩ := get_snoc.mp hx
      rcases hent.mp ⟨s1, c1, g2, lookup_mem g3⟩ with ⟨s2, c2, k1, k2⟩ | ⟨rfl, rfl, rfl⟩
      · right
        rcases ih g1 with rfl | g1
        · rw [new] at g1; cases g1
          rw [wf.fresh _ (Nat.le_refl _)] at k1; cases k1
        · exact get_snoc.mpr ⟨d, s2, c2, g1, k1, mem_lookup (wf.names k1) k2⟩
      · left; rw [wf'.unique g1 (up hd)]
  by_cases he : es = ds ++ [n]
  · rw [if_pos he, he]; exact new
  · rw [if_neg he]
    cases hg : get h 0 es with
    | some x => exact up hg
    | none =>
      cases hg' : get (h.grown a st o order) 0 es with
      | none => rfl
      | some x =>
        rcases down hg' with h1 | h1
        · exact absurd h1 he
        · rw [hg] at h1; cases h1

end grown

/-! ### A removal -/

/-- The heap after `remove` of a name. -/
def Heap.shrunk (h : Heap) (a : Nat) (st : BStat) (ch : List (Bytes × Nat)) (n : Bytes) (b : Nat) : Heap :=
  (h.destroy b).put a (.dir st (ch.filter (fun x => x.1 != n)))

/-- The object at `x` is the one at `b` or below it. -/
def Heap.Under (h : Heap) (b x : Nat) : Prop := ∃ cs, get h b cs = some x

section shrunk
variable {a b : Nat} {st : BStat} {ch : List (Bytes × Nat)} {n : Bytes}
variable (wf : WF h) (ha : h.obj a = some (.dir st ch)) (hl : ch.lookup n = some b)
include wf ha hl

theorem kid_live : (h.obj b).isSome := some_iff.mpr (wf.kid ha (lookup_mem hl)).2

theorem not_under : ¬ h.Under b a := by
  rintro ⟨cs, hc⟩
  have h1 := (wf.live_get (kid_live wf ha hl) hc).2
  have h2 := (wf.kid ha (lookup_mem hl)).1
  omega

theorem shrunk_obj (x : Nat) : (h.shrunk a st ch n b).obj x = if x = a then some (.dir st (ch.filter (fun x => x.1 != n))) else if x ∈ below h (h.next + 1) b then none else h.obj x := rfl

theorem mem_below (x : Nat) : x ∈ below h (h.next + 1) b ↔ h.Under b x := wf.destroyed (kid_live wf ha hl)

theorem under_kid {d : Nat} {m : Bytes} {c : Nat} (he : h.Entry d m c) : h.Under b c ↔ h.Under b d ∨ d = a ∧ m = n := by
  obtain ⟨s1, c1, h1, h2⟩ := he
  constructor
  · rintro ⟨cs, hc⟩
    rcases List.eq_nil_or_concat cs with rfl | ⟨es, k, rfl⟩
    · cases hc
      exact .inr (wf.one h1 h2 ha (lookup_mem hl))
    · rw [List.concat_eq_append] at hc
      obtain ⟨d', s2, c2, g1, g2, g3⟩ := get_snoc.mp hc
      obtain ⟨rfl, -⟩ := wf.one h1 h2 g2 (lookup_mem g3)
      exact .inl ⟨es, g1⟩
  · rintro (⟨es, he⟩ | ⟨rfl, rfl⟩)
    · exact ⟨es ++ [m], get_snoc.mpr ⟨d, s1, c1, he, h1, mem_lookup (wf.names h1) h2⟩⟩
    · rw [ha] at h1; cases h1
      rw [mem_lookup (wf.names ha) h2] at hl; cases hl
      exact ⟨[], rfl⟩

theorem shrunk_entry {d : Nat} {m : Bytes} {c : Nat} : (h.shrunk a st ch n b).Entry d m c ↔ h.Entry d m c ∧ ¬ h.Under b c := by
  constructor
  · rintro ⟨s1, c1, h1, h2⟩
    rw [shrunk_obj wf ha hl] at h1
    by_cases hd : d = a
    · subst hd
      rw [if_pos rfl] at h1; cases h1
      obtain ⟨h3, h4⟩ := List.mem_filter.mp h2
      refine ⟨⟨st, ch, ha, h3⟩, fun hu => ?_⟩
      rcases (under_kid wf ha hl ⟨st, ch, ha, h3⟩).mp hu with h5 | ⟨-, h5⟩
      · exact not_under wf ha hl h5
      · simp [h5] at h4
    · rw [if_neg hd] at h1
      by_cases hu : d ∈ below h (h.next + 1) b
      · rw [if_pos hu] at h1; cases h1
      · rw [if_neg hu] at h1
        refine ⟨⟨s1, c1, h1, h2⟩, fun hc => ?_⟩
        rcases (under_kid wf ha hl ⟨s1, c1, h1, h2⟩).mp hc with h5 | ⟨h5, -⟩
        · exact hu ((mem_below wf ha hl d).mpr h5)
        · exact hd h5
  · rintro ⟨he, hu⟩
    have he' := he
    obtain ⟨s1, c1, h1, h2⟩ := he
    rw [under_kid wf ha hl he'] at hu
    have hu1 : ¬ h.Under b d := fun x => hu (.inl x)
    have hu2 : ¬ (d = a ∧ m = n) := fun x => hu (.inr x)
    by_cases hd : d = a
    · subst hd
      rw [ha] at h1; cases h1
      refine ⟨st, _, by rw [shrunk_obj wf ha hl, if_pos rfl], List.mem_filter.mpr ⟨h2, ?_⟩⟩
      simp only [bne_iff_ne, ne_eq]; exact fun e => hu2 ⟨rfl, e⟩
    · exact ⟨s1, c1, by rw [shrunk_obj wf ha hl, if_neg hd, if_neg (by rw [mem_below wf ha hl]; exact hu1)]; exact h1, h2⟩

theorem shrunk_live {x : Nat} : ((h.shrunk a st ch n b).obj x).isSome ↔ (h.obj x).isSome ∧ ¬ h.Under b x := by
  rw [shrunk_obj wf ha hl]
  by_cases hx : x = a
  · subst hx
    rw [if_pos rfl, ha]
    exact ⟨fun _ => ⟨rfl, not_under wf ha hl⟩, fun _ => rfl⟩
  · rw [if_neg hx]
    by_cases hu : x ∈ below h (h.next + 1) b
    · rw [if_pos hu]
      rw [mem_below wf ha hl] at hu
      exact ⟨fun h => (by cases h), fun h => absurd hu h.2⟩
    · rw [if_neg hu]
      rw [mem_below wf ha hl] at hu
      exact ⟨fun h => ⟨h, hu⟩, fun h => h.1⟩

theorem WF.shrunk : WF (h.shrunk a st ch n b) := by
  have hent := fun {d m c} => shrunk_entry wf ha hl (d := d) (m := m) (c := c)
  have hb := (wf.kid ha (lookup_mem hl)).1
  refine ⟨?_, ?_, ?_, ?_, ?_, ?_⟩
  · obtain ⟨s1, c1, h1⟩ := wf.root
    rw [shrunk_obj wf ha hl]
    by_cases h0 : 0 = a
    · rw [if_pos h0]; exact ⟨_, _, rfl⟩
    · rw [if_neg h0, if_neg]
      · exact ⟨_, _, h1⟩
      · rw [mem_below wf ha hl]
        rintro ⟨cs, hc⟩
        have := (wf.live_get (kid_live wf ha hl) hc).2; omega
  · intro x hx
    have hx' := wf.fresh x hx
    cases ho : (h.shrunk a st ch n b).obj x with
    | none => rfl
    | some o =>
      have := ((shrunk_live wf ha hl).mp (some_iff.mpr ⟨o, ho⟩)).1
      rw [hx'] at this; cases this
  · intro d s1 c1 m c hd hm
    obtain ⟨⟨s2, c2, g1, g2⟩, g3⟩ := hent.mp ⟨s1, c1, hd, hm⟩
    obtain ⟨k1, k2⟩ := wf.kid g1 g2
    exact ⟨k1, some_iff.mp ((shrunk_live wf ha hl).mpr ⟨some_iff.mpr k2, g3⟩)⟩
  · intro d s1 c1 hd
    rw [shrunk_obj wf ha hl] at hd
    by_cases h0 : d = a
    · rw [if_pos h0] at hd; cases hd
      exact (List.filter_sublist.map _).nodup (wf.names ha)
    · rw [if_neg h0] at hd
      split at hd
      · cases hd
      · exact wf.names hd
  · intro d s1 c1 m d' s2 c2 m' c hd hm hd' hm'
    obtain ⟨⟨s3, c3, g1, g2⟩, -⟩ := hent.mp ⟨s1, c1, hd, hm⟩
    obtain ⟨⟨s4, c4, k1, k2⟩, -⟩ := hent.mp ⟨s2, c2, hd', hm'⟩
    exact wf.one g1 g2 k1 k2
  · intro c o hc h0
    obtain ⟨h1, h2⟩ := (shrunk_live wf ha hl).mp (some_iff.mpr ⟨o, hc⟩)
    obtain ⟨y, hy⟩ := some_iff.mp h1
    obtain ⟨d, s1, c1, m, g1, g2⟩ := wf.owned hy h0
    obtain ⟨s2, c2, k1, k2⟩ := hent.mpr ⟨⟨s1, c1, g1, g2⟩, h2⟩
    exact ⟨_, _, _, _, k1, k2⟩

/-- Paths after the removal. -/
theorem shrunk_get {ds : List Bytes} (hd : get h 0 ds = some a) (es : List Bytes) :
    get (h.shrunk a st ch n b) 0 es = if ds ++ [n] <+: es then none else get h 0 es := by
  have wf' := WF.shrunk wf ha hl
  have hent := fun {d m c} => shrunk_entry wf ha hl (d := d) (m := m) (c := c)
  have hdn : get h 0 (ds ++ [n]) = some b := get_snoc.mpr ⟨a, st, ch, hd, ha, hl⟩
  have down : ∀ {es x}, get (h.shrunk a st ch n b) 0 es = some x → get h 0 es = some x ∧ ¬ h.Under b x := by
    intro es
    induction es using snoc_ind with
    | nil =>
      intro x hx; cases hx
      exact ⟨rfl, ((shrunk_live wf ha hl).mp wf'.root_live).2⟩
    | snoc es m ih =>
      intro x hx
      obtain ⟨d, s1, c1, g1, g2, g3⟩ := get_snoc.mp hx
      obtain ⟨⟨s2, c2, k1, k2⟩, k3⟩ := hent.mp ⟨s1, c1, g2, lookup_mem g3⟩
      exact ⟨get_snoc.mpr ⟨d, s2, c2, (ih g1).1, k1, mem_lookup (wf.names k1) k2⟩, k3⟩
  have up : ∀ {es x}, get h 0 es = some x → ¬ h.Under b x → get (h.shrunk a st ch n b) 0 es = some x := by
    intro es
    induction es using snoc_ind with
    | nil => intro x hx _; exact hx
    | snoc es m ih =>
      intro x hx hu
      obtain ⟨d, s1, c1, g1, g2, g3⟩ := get_snoc.mp hx
      have he : h.Entry d m x := ⟨s1, c1, g2, lookup_mem g3⟩
      obtain ⟨s2, c2, k1, k2⟩ := hent.mpr ⟨he, hu⟩
      refine get_snoc.mpr ⟨d, s2, c2, ih g1 (fun h1 => hu ((under_kid wf ha hl he).mpr (.inl h1))), k1, mem_lookup (wf'.names k1) k2⟩
  have under : ∀ {es x}, get h 0 es = some x → (h.Under b x ↔ ds ++ [n] <+: es) := by
    intro es x hx
    constructor
    · rintro ⟨cs, hc⟩
      have : get h 0 ((ds ++ [n]) ++ cs) = some x := by rw [get_append, hdn]; exact hc
      rw [wf.unique hx this]; exact List.prefix_append _ _
    · rintro ⟨cs, rfl⟩
      rw [get_append, hdn] at hx
      exact ⟨cs, hx⟩
  by_cases hp : ds ++ [n] <+: es
  · rw [if_pos hp]
    cases hg : get (h.shrunk a st ch n b) 0 es with
    | none => rfl
    | some x =>
      obtain ⟨g1, g2⟩ := down hg
      exact absurd ((under g1).mpr hp) g2
  · rw [if_neg hp]
    cases hg : get h 0 es with
    | some x => exact up hg (fun h1 => hp ((under hg).mp h1))
    | none =>
      cases hg' : get (h.shrunk a st ch n b) 0 es with
      | none => rfl
      | some x => rw [(down hg').1] at hg; cases hg

end shrunk

end Dragonstash.MemHeap
