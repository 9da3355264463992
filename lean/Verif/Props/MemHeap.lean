/-
  C98: the in-memory backend with its objects, pointers and handles.
-/
import Verif.Backend.MemAbs
namespace Dragonstash.MemHeap
open InMem Cache FS

variable {w w' : World} {c : Call} {out : Out}

/-! ### The tree -/

/-- C98: whatever was done to the file system, it is a tree (that of C46, C52, C61 and C62), and the calls by path
are those of this tree; they are defined, and change nothing. -/
theorem C98_tree (hr : Reach w) : ∃ f : MemFS, f.connected = w.connected ∧ (∀ cs, f.root.view cs = w.heap.view cs) ∧
    ∀ p, step w (.lstat p) = .ok (w, .stat (f.lstat p)) ∧ step w (.readlink p) = .ok (w, .bytes (f.readlink p)) ∧
      (∀ e, f.open_ p = .error e → step w (.open_ p) = .ok (w, .handle (.error e))) ∧
      (∀ k, f.open_ p = .ok k → ∃ w', step w (.open_ p) = .ok (w', .handle (.ok w.nextHandle))) ∧
      (∀ e, f.opendir p = .error e → step w (.opendir p) = .ok (w, .handle (.error e))) ∧
      ∀ l, f.opendir p = .ok l → ∃ w', step w (.opendir p) = .ok (w', .handle (.ok w.nextHandle)) := by
  have wf := hr.inv.wf
  obtain ⟨st, ch, ho⟩ := wf.root
  refine ⟨⟨st, ch.map fun x => (x.1, w.heap.tree x.2), w.connected⟩, rfl, ?_, ?_⟩
  · intro cs
    rw [← wf.tree_view, wf.tree_eq ho]; rfl
  · intro p
    have hroot : (MemFS.mk st (ch.map fun x => (x.1, w.heap.tree x.2)) w.connected).root = w.heap.tree 0 := by rw [wf.tree_eq ho]; rfl
    obtain ⟨r, h1, h2, h3⟩ := wf.find_tree wf.root_live p
    unfold MemFS.lstat MemFS.readlink MemFS.open_ MemFS.opendir
    rw [hroot, h2]
    simp only [step]
    cases hc : w.connected with
    | false =>
      refine ⟨rfl, rfl, fun e he => by cases he; rfl, fun k hk => (by cases hk), fun e he => by cases he; rfl, fun k hk => (by cases hk)⟩
    | true =>
      simp only [Bool.not_true, Bool.false_eq_true, if_false, h1]
      cases r with
      | error e => exact ⟨rfl, rfl, fun e he => by cases he; rfl, fun k hk => (by cases hk), fun e he => by cases he; rfl, fun k hk => (by cases hk)⟩
      | ok b =>
        obtain ⟨cs, hb⟩ := h3 b rfl
        obtain ⟨o, hob⟩ := some_iff.mp (wf.live_get wf.root_live hb).1
        have hd : ∀ line, w.heap.deref b line = .ok o := fun _ => deref_ok.mpr hob
        simp only [wf.tree_eq hob]
        refine ⟨?_, ?_, ?_, ?_, ?_, ?_⟩
        · show (w.heap.deref b 322 >>= _) = _
          rw [hd]; cases o <;> rfl
        · show (w.heap.deref b 336 >>= _) = _
          rw [hd]; cases o <;> rfl
        · intro e he
          show (w.heap.deref b 283 >>= _) = _
          rw [hd]; cases o <;> cases he <;> rfl
        · intro e he
          show ∃ w', (w.heap.deref b 283 >>= _) = _
          rw [hd]; cases o <;> cases he
          exact ⟨_, rfl⟩
        · intro e he
          show (w.heap.deref b 305 >>= _) = _
          rw [hd]; cases o <;> cases he <;> rfl
        · intro e he
          show ∃ w', (w.heap.deref b 305 >>= _) = _
          rw [hd]; cases o <;> cases he
          exact ⟨_, rfl⟩

theorem find_comp {h : Heap} {a : Nat} {st : BStat} {ch : List (Bytes × Nat)} {c : Bytes} {cs : List Bytes} (ha : h.obj a = some (.dir st ch)) (hc : Component c) :
    find h a (pathStr (c :: cs)) = match ch.lookup c with | none => .ok (.error ENOENT) | some b => if cs = [] then .ok (.ok b) else find h b (pathStr cs) := by
  have hp : pathStr (c :: cs) = 0x2f :: (c ++ pathStr cs) := rfl
  obtain ⟨h1, h2⟩ := takeWhile_comp hc.2 (pathStr_start cs)
  rw [hp, find, ha]
  simp only [ne_eq, not_true_eq_false, if_false]
  rw [if_neg (by simp [hc.1]), h1, h2, if_neg hc.1]
  cases ch.lookup c with
  | none => rfl
  | some b =>
    cases cs with
    | nil => rfl
    | cons d cs => simp [pathStr]

theorem find_get {h : Heap} {cs : List Bytes} : ∀ {a b : Nat}, WF h → (h.obj a).isSome → cs ≠ [] → (∀ c ∈ cs, Component c) →
    (find h a (pathStr cs) = .ok (.ok b) ↔ get h a cs = some b) := by
  induction cs with
  | nil => intro a b _ _ h; exact absurd rfl h
  | cons c cs ih =>
    intro a b wf ha _ hc
    obtain ⟨o, ho⟩ := some_iff.mp ha
    cases o with
    | file =>
      rw [find, ho]; simp only [get, ho]
      exact ⟨fun h => (by cases h), fun h => (by cases h)⟩
    | link =>
      rw [find, ho]; simp only [get, ho]
      exact ⟨fun h => (by cases h), fun h => (by cases h)⟩
    | dir st ch =>
      rw [find_comp ho (hc c (by simp))]
      simp only [get, ho]
      cases hl : ch.lookup c with
      | none => exact ⟨fun h => (by cases h), fun h => (by cases h)⟩
      | some k =>
        simp only
        by_cases hcs : cs = []
        · subst hcs; rw [if_pos rfl]; simp only [get]
          exact ⟨fun h => by cases h; rfl, fun h => by cases h; rfl⟩
        · rw [if_neg hcs]
          exact ih wf (some_iff.mpr (wf.kid ho (lookup_mem hl)).2) hcs (fun x hx => hc x (by simp [hx]))

/-- C98: `find` through a pointer to the directory at path `ds` returns the pointer to the object at the path below `ds`. -/
theorem C98_find (hr : Reach w) {ds : List Bytes} {b : Nat} (hd : get w.heap 0 ds = some b) {st : BStat} {names : List Bytes} (hv : w.heap.view ds = some (.dir st names))
    {cs : List Bytes} (hc : ∀ c ∈ cs, Component c) (a : Nat) :
    step w (.find b (backendPath (pathStr cs))) = .ok (w, .ptr (.ok a)) ↔ get w.heap 0 (ds ++ cs) = some a := by
  have wf := hr.inv.wf
  have hlive := (wf.live_get wf.root_live hd).1
  have key : find w.heap b (backendPath (pathStr cs)) = .ok (.ok a) ↔ get w.heap 0 (ds ++ cs) = some a := by
    rw [get_append, hd]
    by_cases hcs : cs = []
    · subst hcs
      unfold Heap.view at hv
      rw [hd] at hv
      simp only [Option.map_eq_some_iff] at hv
      obtain ⟨o, ho, he⟩ := hv
      cases o with
      | file => cases he
      | link => cases he
      | dir st' ch =>
        have : backendPath (pathStr []) = [0x2f] := by decide
        rw [this, find, ho]
        simp only [get]
        constructor
        · intro h; cases h; rfl
        · intro h; cases h; rfl
    · have : backendPath (pathStr cs) = pathStr cs := by
        unfold backendPath
        rw [if_neg]
        cases cs with
        | nil => exact absurd rfl hcs
        | cons c cs => simp [pathStr]
      rw [this]; exact find_get wf hlive hcs hc
  rw [← key]
  simp only [step]
  constructor
  · intro h
    obtain ⟨r, h1, h2⟩ := bind_ok.mp h
    cases h2; exact h1
  · intro h; rw [h]; rfl

theorem root_find (hr : Reach w) {cs : List Bytes} (hc : ∀ c ∈ cs, Component c) (a : Nat) :
    step w (.find 0 (backendPath (pathStr cs))) = .ok (w, .ptr (.ok a)) ↔ get w.heap 0 cs = some a := by
  obtain ⟨st, ch, ho⟩ := hr.inv.wf.root
  exact C98_find (ds := []) hr rfl (show w.heap.view [] = some (.dir st (ch.map Prod.fst)) by simp [Heap.view, get, ho, Obj.obs]) hc a

/-- C98: `find` through a pointer to a file or a link finds nothing, whatever the path is. -/
theorem C98_find_leaf {ds : List Bytes} {b : Nat} (hd : get w.heap 0 ds = some b) {o : Obs} (hv : w.heap.view ds = some o) (ho : ∀ st names, o ≠ .dir st names) (p : Bytes) :
    step w (.find b p) = .ok (w, .ptr (.error 20)) := by
  unfold Heap.view at hv
  rw [hd] at hv
  simp only [Option.map_eq_some_iff] at hv
  obtain ⟨x, hx, rfl⟩ := hv
  simp only [step]
  rw [find]
  simp only [hx]
  cases x with
  | dir st ch => exact absurd rfl (ho _ _)
  | _ => rfl

/-- C98: `set_connected` is what later calls by path see; it changes nothing else (`C98_tree` says what they answer). -/
theorem C98_connected (b : Bool) : ∃ w', step w (.setConnected b) = .ok (w', .unit) ∧ w'.connected = b ∧ (∀ es, w'.heap.view es = w.heap.view es) ∧
    (∀ es, get w'.heap 0 es = get w.heap 0 es) ∧ (∀ x, w'.files x = w.files x) ∧ ∀ x, w'.dirs x = w.dirs x :=
  ⟨_, rfl, rfl, fun _ => rfl, fun _ => rfl, fun _ => rfl, fun _ => rfl⟩

/-- C98: a handle which is closed is gone; the other handles, and the tree, are as before. -/
theorem C98_close {x : Nat} :
    (∀ a, w.files x = some a → ∃ w', step w (.closeFile x) = .ok (w', .unit) ∧ w'.files x = none ∧ (∀ y, y ≠ x → w'.files y = w.files y) ∧ (∀ y, w'.dirs y = w.dirs y) ∧
      w'.connected = w.connected ∧ (∀ es, w'.heap.view es = w.heap.view es) ∧ ∀ es, get w'.heap 0 es = get w.heap 0 es) ∧
    ∀ d, w.dirs x = some d → ∃ w', step w (.closeDir x) = .ok (w', .unit) ∧ w'.dirs x = none ∧ (∀ y, y ≠ x → w'.dirs y = w.dirs y) ∧ (∀ y, w'.files y = w.files y) ∧
      w'.connected = w.connected ∧ (∀ es, w'.heap.view es = w.heap.view es) ∧ ∀ es, get w'.heap 0 es = get w.heap 0 es := by
  constructor
  · intro a ha
    refine ⟨{ w with files := fun y => if y = x then none else w.files y }, ?_, if_pos rfl, fun y hy => if_neg hy, fun _ => rfl, rfl, fun _ => rfl, fun _ => rfl⟩
    simp only [step, World.file, ha]; rfl
  · intro a ha
    refine ⟨{ w with dirs := fun y => if y = x then none else w.dirs y }, ?_, if_pos rfl, fun y hy => if_neg hy, fun _ => rfl, rfl, fun _ => rfl, fun _ => rfl⟩
    simp only [step, World.dir, ha]; rfl

/-! ### Changes through pointers -/

theorem grown_view {h : Heap} (wf : WF h) {a : Nat} {st : BStat} {ch order : List (Bytes × Nat)} {n : Bytes} {o : Obj} (ha : h.obj a = some (.dir st ch)) (hl : ch.lookup n = none)
    (ho : Leaf o) (hp : order.Perm ((n, h.next) :: ch)) {ds : List Bytes} (hd : get h 0 ds = some a) (es : List Bytes) :
    (h.grown a st o order).view es = if es = ds ++ [n] then some o.obs else if es = ds then some (.dir st (order.map Prod.fst)) else h.view es := by
  unfold Heap.view
  rw [grown_get wf ha hl ho hp hd]
  have hlt : a < h.next := wf.lt_next (by rw [ha]; rfl)
  by_cases h1 : es = ds ++ [n]
  · rw [if_pos h1, if_pos h1]
    simp only [grown_obj]
    rw [if_neg (by omega)]; simp
  · rw [if_neg h1, if_neg h1]
    by_cases h2 : es = ds
    · rw [if_pos h2, h2, hd]
      simp only [grown_obj, if_true]; rfl
    · rw [if_neg h2]
      cases hg : get h 0 es with
      | none => rfl
      | some b =>
        simp only [grown_obj]
        have hb := wf.lt_next (wf.live_get wf.root_live hg).1
        rw [if_neg, if_neg (by omega)]
        rintro rfl; exact h2 (wf.unique hg hd)

theorem shrunk_view {h : Heap} (wf : WF h) {a b : Nat} {st : BStat} {ch : List (Bytes × Nat)} {n : Bytes} (ha : h.obj a = some (.dir st ch)) (hl : ch.lookup n = some b)
    {ds : List Bytes} (hd : get h 0 ds = some a) (es : List Bytes) :
    (h.shrunk a st ch n b).view es = if ds ++ [n] <+: es then none else if es = ds then some (.dir st ((ch.map Prod.fst).filter (· != n))) else h.view es := by
  have wf' := WF.shrunk wf ha hl
  unfold Heap.view
  have hg' := shrunk_get wf ha hl hd es
  by_cases h1 : ds ++ [n] <+: es
  · rw [if_pos h1] at hg' ⊢
    rw [hg']
  · rw [if_neg h1] at hg' ⊢
    by_cases h2 : es = ds
    · rw [if_pos h2, hg', h2, hd]
      simp only [shrunk_obj wf ha hl, if_true, Option.map_some, Obj.obs, List.filter_map]
      rfl
    · rw [if_neg h2, hg']
      cases hg : get h 0 es with
      | none => rfl
      | some k =>
        simp only
        rw [hg] at hg'
        have hlive := (shrunk_live wf ha hl).mp (wf'.live_get wf'.root_live hg').1
        rw [shrunk_obj wf ha hl, if_neg, if_neg (by rw [mem_below wf ha hl]; exact hlive.2)]
        rintro rfl; exact h2 (wf.unique hg hd)

theorem emplace_new {a : Nat} {st : BStat} {ch : List (Bytes × Nat)} {n : Bytes} (ho : w.heap.obj a = some (.dir st ch)) (hl : ch.lookup n = none) (k : Kind) (order : List (Bytes × Nat)) (rehash : Bool) :
    step w (.emplace a n k order rehash) = .ok ({ w with heap := w.heap.grown a st k.new order }.iters a (fun i => if rehash then .bad else i), .ptr (.ok w.heap.next)) := by
  simp only [step, emplace]
  rw [dirAt_ok.mpr ho]
  show ((if (ch.lookup n).isSome then _ else _) >>= _) = _
  rw [hl]; rfl

theorem emplace_old {a b : Nat} {st : BStat} {ch : List (Bytes × Nat)} {n : Bytes} (ho : w.heap.obj a = some (.dir st ch)) (hl : ch.lookup n = some b) (k : Kind) (order : List (Bytes × Nat)) (rehash : Bool) :
    step w (.emplace a n k order rehash) = .ok ({ w with heap := { w.heap with next := w.heap.next + 1 } }, .ptr (.ok w.heap.next)) := by
  simp only [step, emplace]
  rw [dirAt_ok.mpr ho]
  show ((if (ch.lookup n).isSome then _ else _) >>= _) = _
  rw [hl]; rfl

theorem remove_old {a b : Nat} {st : BStat} {ch : List (Bytes × Nat)} {n : Bytes} (ho : w.heap.obj a = some (.dir st ch)) (hl : ch.lookup n = some b) :
    step w (.remove a n) = .ok ({ w with heap := w.heap.shrunk a st ch n b }.iters a (fun i => if i = Iter.at n then .bad else i), .unit) := by
  simp only [step, remove]
  rw [dirAt_ok.mpr ho]
  show ((match ch.lookup n with | none => _ | some b => _) >>= _) = _
  rw [hl]; rfl

theorem remove_new {a : Nat} {st : BStat} {ch : List (Bytes × Nat)} {n : Bytes} (ho : w.heap.obj a = some (.dir st ch)) (hl : ch.lookup n = none) :
    step w (.remove a n) = .ok (w, .unit) := by
  simp only [step, remove]
  rw [dirAt_ok.mpr ho]
  show ((match ch.lookup n with | none => _ | some b => _) >>= _) = _
  rw [hl]; rfl

theorem bump_get (h : Heap) (a : Nat) (es : List Bytes) : get { h with next := h.next + 1 } a es = get h a es := by
  induction es generalizing a with
  | nil => rfl
  | cons e es ih =>
    simp only [get]
    cases h.obj a with
    | none => rfl
    | some o =>
      cases o with
      | dir st ch => simp only; cases ch.lookup e with | none => rfl | some k => exact ih k
      | _ => rfl

/-- A new object as it is observed: attributes all zero but for the type (in_memory.cpp 27-41, 59-94). -/
def fresh : Kind → Obs
  | .file => .file { mode := 0o100000, size := 0, ino := 0, uid := 0, gid := 0, atime := ⟨0, 0⟩, mtime := ⟨0, 0⟩, ctime := ⟨0, 0⟩ } []
  | .link d => .link { mode := 0o120000, size := 0, ino := 0, uid := 0, gid := 0, atime := ⟨0, 0⟩, mtime := ⟨0, 0⟩, ctime := ⟨0, 0⟩ } d
  | .dir => .dir { mode := 0o040000, size := 0, ino := 0, uid := 0, gid := 0, atime := ⟨0, 0⟩, mtime := ⟨0, 0⟩, ctime := ⟨0, 0⟩ } []

theorem fresh_eq (k : Kind) : k.new.obs = fresh k := by cases k <;> rfl

/-- C98: `emplace` through a pointer to the directory at path `ds` of a name it does not have: the result is a pointer to
the new object, which is at this name; the directory has one more name; everything else is as before. -/
theorem C98_emplace (hr : Reach w) {ds : List Bytes} {a : Nat} (hd : get w.heap 0 ds = some a) {st : BStat} {names : List Bytes} (hv : w.heap.view ds = some (.dir st names))
    {n : Bytes} (hn : n ∉ names) {k : Kind} {order : List (Bytes × Nat)} {rehash : Bool} (hal : Allowed w (.emplace a n k order rehash)) :
    ∃ w' b names', step w (.emplace a n k order rehash) = .ok (w', .ptr (.ok b)) ∧ get w'.heap 0 (ds ++ [n]) = some b ∧ names'.Perm (n :: names) ∧
      ∀ es, w'.heap.view es = if es = ds ++ [n] then some (fresh k) else if es = ds then some (.dir st names') else w.heap.view es := by
  have wf := hr.inv.wf
  unfold Heap.view at hv
  rw [hd] at hv
  simp only [Option.map_eq_some_iff] at hv
  obtain ⟨o, ho, he⟩ := hv
  cases o with
  | file => cases he
  | link => cases he
  | dir st' ch =>
    cases he
    have hl := lookup_none.mpr hn
    have hp := (hal _ _ ho hl).1
    refine ⟨{ w with heap := w.heap.grown a st k.new order }.iters a (fun i => if rehash then .bad else i), w.heap.next, order.map Prod.fst, ?_, ?_, by simpa using hp.map Prod.fst, ?_⟩
    · exact emplace_new ho hl _ _ _
    · show get (w.heap.grown a st k.new order) 0 _ = _
      rw [grown_get wf ho hl (Kind.leaf _) hp hd, if_pos rfl]
    · intro es
      rw [← fresh_eq]
      exact grown_view wf ho hl (Kind.leaf _) hp hd es

/-- C98: `emplace` of a name which the directory has changes nothing, and returns a pointer to an object which does not
exist: it has no path, and using it (here: its attributes, a child, a search) is undefined, now and for as long as it is kept (`C98_never`). -/
theorem C98_existing (hr : Reach w) {ds : List Bytes} {a : Nat} (hd : get w.heap 0 ds = some a) {st : BStat} {names : List Bytes} (hv : w.heap.view ds = some (.dir st names))
    {n : Bytes} (hn : n ∈ names) (k : Kind) (order : List (Bytes × Nat)) (rehash : Bool) :
    ∃ w' b, step w (.emplace a n k order rehash) = .ok (w', .ptr (.ok b)) ∧ (∀ es, w'.heap.view es = w.heap.view es) ∧ (∀ es, get w'.heap 0 es ≠ some b) ∧
      (∀ s, step w' (.updateAttr b s) = .error (.ub 45)) ∧ (∀ m k o r, step w' (.emplace b m k o r) = .error (.ub 144)) ∧ ∀ p, step w' (.find b p) = .error (.ub 129) := by
  have wf := hr.inv.wf
  unfold Heap.view at hv
  rw [hd] at hv
  simp only [Option.map_eq_some_iff] at hv
  obtain ⟨o, ho, he⟩ := hv
  cases o with
  | file => cases he
  | link => cases he
  | dir st' ch =>
    cases he
    obtain ⟨⟨n', b⟩, hm, rfl⟩ := List.mem_map.mp hn
    have hl := mem_lookup (wf.names ho) hm
    have hnone : w.heap.obj w.heap.next = none := wf.fresh _ (Nat.le_refl _)
    refine ⟨{ w with heap := { w.heap with next := w.heap.next + 1 } }, w.heap.next, ?_, ?_, ?_, ?_, ?_, ?_⟩
    · exact emplace_old ho hl _ _ _
    · intro es
      unfold Heap.view
      show (match get { w.heap with next := w.heap.next + 1 } 0 es with | none => none | some a => (w.heap.obj a).map Obj.obs) = _
      rw [bump_get]; rfl
    · intro es hg
      have hg : get { w.heap with next := w.heap.next + 1 } 0 es = some w.heap.next := hg
      rw [bump_get] at hg
      have := (wf.live_get wf.root_live hg).1
      rw [hnone] at this; cases this
    · intro s
      simp only [step, Heap.deref, hnone]; rfl
    · intro m k o r
      simp only [step, emplace, Heap.dirAt, Heap.deref, hnone]; rfl
    · intro p
      simp only [step]
      rw [find]; simp only [hnone]; rfl

/-- C98: `remove` through a pointer to a directory: nothing is left at or below the name; the directory has lost this
name, if it had it; everything else is as before. -/
theorem C98_remove (hr : Reach w) {ds : List Bytes} {a : Nat} (hd : get w.heap 0 ds = some a) {st : BStat} {names : List Bytes} (hv : w.heap.view ds = some (.dir st names)) (n : Bytes) :
    ∃ w', step w (.remove a n) = .ok (w', .unit) ∧
      ∀ es, w'.heap.view es = if ds ++ [n] <+: es then none else if es = ds then some (.dir st (names.filter (· != n))) else w.heap.view es := by
  have wf := hr.inv.wf
  have hv0 := hv
  unfold Heap.view at hv
  rw [hd] at hv
  simp only [Option.map_eq_some_iff] at hv
  obtain ⟨o, ho, he⟩ := hv
  cases o with
  | file => cases he
  | link => cases he
  | dir st' ch =>
    cases he
    cases hl : ch.lookup n with
    | some b =>
      refine ⟨{ w with heap := w.heap.shrunk a st ch n b }.iters a (fun i => if i = Iter.at n then .bad else i), remove_old ho hl, shrunk_view wf ho hl hd⟩
    | none =>
      refine ⟨w, ?_, fun es => ?_⟩
      · exact remove_new ho hl
      · by_cases h1 : ds ++ [n] <+: es
        · rw [if_pos h1]
          obtain ⟨rs, rfl⟩ := h1
          unfold Heap.view
          have : get w.heap 0 (ds ++ [n]) = none := by rw [get_append, hd]; simp only [get, ho, hl]
          rw [get_append, this]
        · rw [if_neg h1]
          by_cases h2 : es = ds
          · rw [if_pos h2, h2, hv0, List.filter_eq_self.mpr]
            intro m hm
            simp only [bne_iff_ne, ne_eq]
            rintro rfl; exact lookup_none.mp hl hm
          · rw [if_neg h2]

/-- C98: `update_attr` through a pointer to the object at path `ds` changes the attributes of this object, all but its
type, and nothing else. -/
theorem C98_update (hr : Reach w) {ds : List Bytes} {a : Nat} (hd : get w.heap 0 ds = some a) {o : Obs} (hv : w.heap.view ds = some o) (s : BStat) :
    ∃ w' s', step w (.updateAttr a s) = .ok (w', .unit) ∧ (∀ es, w'.heap.view es = if es = ds then some (o.setAttr s') else w.heap.view es) ∧
      s'.mode &&& 0o170000 = o.attr.mode &&& 0o170000 ∧ s'.mode &&& 0o7777 = s.mode &&& 0o7777 ∧
      s'.size = s.size ∧ s'.ino = s.ino ∧ s'.uid = s.uid ∧ s'.gid = s.gid ∧ s'.atime = s.atime ∧ s'.mtime = s.mtime ∧ s'.ctime = s.ctime := by
  have wf := hr.inv.wf
  unfold Heap.view at hv
  rw [hd] at hv
  simp only [Option.map_eq_some_iff] at hv
  obtain ⟨x, hx, rfl⟩ := hv
  have hattr : (x.updateAttr s).attr = { s with mode := fmt x.attr.mode ||| (s.mode &&& (0xffffffff ^^^ 0o170000)) } := by
    cases x <;> rfl
  have hmode : x.obs.attr = x.attr := by cases x <;> rfl
  refine ⟨{ w with heap := w.heap.put a (x.updateAttr s) }, (x.updateAttr s).attr, ?_, fun es => ?_, ?_, ?_, ?_⟩
  · simp only [step]
    rw [deref_ok.mpr hx]; rfl
  · show (w.heap.put a (x.updateAttr s)).view es = _
    rw [wf.view_put hx (Obj.same_update _ _) hd]
    cases x <;> rfl
  · rw [hattr, hmode]
    simp only [fmt]
    rw [Nat.and_or_distrib_right, Nat.and_assoc, Nat.and_self, Nat.and_assoc]
    simp
  · rw [hattr]
    simp only [fmt]
    rw [Nat.and_or_distrib_right, Nat.and_assoc, Nat.and_assoc]
    simp
  · rw [hattr]; exact ⟨rfl, rfl, rfl, rfl, rfl, rfl, rfl⟩

/-! ### File handles -/

/-- Handle `x` is of the file at path `cs`. -/
def FileAt (w : World) (x : Nat) (cs : List Bytes) : Prop := ∃ a, w.files x = some a ∧ get w.heap 0 cs = some a

/-- The call removes the object at a path, or a directory above it. -/
def Removes (w : World) (c : Call) (cs : List Bytes) : Prop := ∃ a n ds, c = .remove a n ∧ get w.heap 0 ds = some a ∧ ds ++ [n] <+: cs

/-- Objects stay where they are, unless they, or a directory above them, are removed. -/
theorem Eff.get (he : Eff w c w' out) (wf : WF w.heap) (hal : Allowed w c) {cs : List Bytes} {a : Nat} (hg : MemHeap.get w.heap 0 cs = some a) (hn : ¬ Removes w c cs) :
    MemHeap.get w'.heap 0 cs = some a := by
  cases he with
  | same | opened | openedDir | conn | closed | closedDir | listed => exact hg
  | wrote h1 h2 h3 => exact (Same.get h2 (same_file _ _ _ _) 0 cs).trans hg
  | updated h1 => exact (Same.get h1 (Obj.same_update _ _) 0 cs).trans hg
  | existing h1 h2 =>
    exact (bump_get _ 0 cs).trans hg
  | @emplaced b n k order rehash st ch h1 h2 =>
    obtain ⟨ds, hd⟩ := wf.has_path (x := b) (by rw [h1]; rfl)
    have hp := (hal _ _ h1 h2).1
    show MemHeap.get (w.heap.grown b st k.new order) 0 cs = _
    rw [grown_get wf h1 h2 (Kind.leaf _) hp hd, if_neg]
    · exact hg
    · rintro rfl
      rw [get_append, hd] at hg
      simp only [MemHeap.get, h1, h2] at hg; cases hg
  | @removed b n st ch k h1 h2 =>
    obtain ⟨ds, hd⟩ := wf.has_path (x := b) (by rw [h1]; rfl)
    show MemHeap.get (w.heap.shrunk b st ch n k) 0 cs = _
    rw [shrunk_get wf h1 h2 hd, if_neg]
    · exact hg
    · intro hp; exact hn ⟨b, n, ds, rfl, hd, hp⟩

/-- Objects which are removed are nowhere. -/
theorem Eff.gone (he : Eff w c w' out) (wf : WF w.heap) {cs : List Bytes} {a : Nat} (hg : MemHeap.get w.heap 0 cs = some a) (hn : Removes w c cs) (es : List Bytes) :
    MemHeap.get w'.heap 0 es ≠ some a := by
  obtain ⟨b, n, ds, rfl, hd, hp⟩ := hn
  cases he with
  | same h1 h2 h3 =>
    obtain ⟨st, ch, h4, h5⟩ := h3 b n rfl
    obtain ⟨rs, rfl⟩ := hp
    have : MemHeap.get w.heap 0 (ds ++ [n]) = none := by rw [get_append, hd]; simp only [MemHeap.get, h4, h5]
    rw [get_append, this] at hg; cases hg
  | @removed _ _ st ch k h1 h2 =>
    show MemHeap.get (w.heap.shrunk b st ch n k) 0 es ≠ _
    rw [shrunk_get wf h1 h2 hd]
    split
    · simp
    · rename_i hne
      intro he
      rw [wf.unique he hg] at hne
      exact hne hp

/-- C98: `open` of the path of a file, when connected: the handle is of the file there. -/
theorem C98_open (hr : Reach w) (hc : w.connected = true) {cs : List Bytes} (hcs : ∀ c ∈ cs, Component c) {st : BStat} {d : Bytes} (hv : w.heap.view cs = some (.file st d)) :
    ∃ w' x, step w (.open_ (backendPath (pathStr cs))) = .ok (w', .handle (.ok x)) ∧ FileAt w' x cs ∧ (∀ es, w'.heap.view es = w.heap.view es) ∧
      w.files x = none ∧ ∀ y es, FileAt w y es → FileAt w' y es := by
  have hi := hr.inv
  unfold Heap.view at hv
  cases hg : get w.heap 0 cs with
  | none => rw [hg] at hv; cases hv
  | some a =>
    rw [hg] at hv
    simp only [Option.map_eq_some_iff] at hv
    obtain ⟨o, ho, he⟩ := hv
    cases o with
    | link => cases he
    | dir => cases he
    | file st' d' =>
      cases he
      have hf := (root_find hr hcs a).mpr hg
      have hf : find w.heap 0 (backendPath (pathStr cs)) = .ok (.ok a) := by
        obtain ⟨r, h1, h2⟩ := bind_ok.mp hf
        cases h2; exact h1
      have hx := (hi.fresh w.nextHandle (Nat.le_refl _)).1
      refine ⟨{ w with files := fun x => if x = w.nextHandle then some a else w.files x, nextHandle := w.nextHandle + 1 }, w.nextHandle, ?_, ⟨a, by simp, hg⟩, fun _ => rfl, hx, ?_⟩
      · simp only [step, hc, Bool.not_true, Bool.false_eq_true, if_false, hf]
        show (w.heap.deref a 283 >>= _) = _
        rw [deref_ok.mpr ho]; rfl
      · rintro y es ⟨b, h1, h2⟩
        refine ⟨b, ?_, h2⟩
        simp only
        rw [if_neg]
        · exact h1
        · rintro rfl; rw [hx] at h1; cases h1

/-- C98: what a handle of the file at a path does, connected or not: `fstat` and `pread` show what is at the path; `pwrite` changes
what is at the path, and nothing else (what it makes of the contents: C45). -/
theorem C98_handle (hr : Reach w) {x : Nat} {cs : List Bytes} (hf : FileAt w x cs) :
    ∃ st d, w.heap.view cs = some (.file st d) ∧ step w (.fstat x) = .ok (w, .stat (.ok st)) ∧
      (∀ count off r, InMem.pread ⟨st.size, d⟩ count off = .ok r → step w (.pread x count off) = .ok (w, .bytes r)) ∧
      ∀ buf off f r, InMem.pwrite ⟨st.size, d⟩ buf off = .ok (f, r) → ∃ w', step w (.pwrite x buf off) = .ok (w', .num r) ∧
        (∀ es, w'.heap.view es = if es = cs then some (.file { st with size := f.size } f.data) else w.heap.view es) ∧
        ∀ y es, FileAt w y es → FileAt w' y es := by
  have hi := hr.inv
  obtain ⟨a, h1, h2⟩ := hf
  obtain ⟨o, ho⟩ := some_iff.mp (hi.wf.live_get hi.wf.root_live h2).1
  obtain ⟨st, d, rfl⟩ := (hi.file h1).2 o ho
  refine ⟨st, d, ?_, ?_, ?_, ?_⟩
  · unfold Heap.view; rw [h2]; simp only [ho]; rfl
  · simp only [step]
    rw [file_ok.mpr h1]
    show (w.heap.fileAt a 220 >>= _) = _
    rw [fileAt_ok.mpr ho]; rfl
  · intro count off r hp
    simp only [step]
    rw [file_ok.mpr h1]
    show (w.heap.fileAt a 228 >>= _) = _
    rw [fileAt_ok.mpr ho]
    show (InMem.pread ⟨st.size, d⟩ count off >>= _) = _
    rw [hp]; rfl
  · intro buf off f r hp
    refine ⟨{ w with heap := w.heap.put a (.file { st with size := f.size } f.data) }, ?_, ?_, ?_⟩
    · simp only [step, pwrite]
      rw [file_ok.mpr h1]
      show ((w.heap.fileAt a 246 >>= _) >>= _) = _
      rw [fileAt_ok.mpr ho]
      show ((InMem.pwrite ⟨st.size, d⟩ buf off >>= _) >>= _) = _
      rw [hp]; rfl
    · intro es; exact hi.wf.view_put ho (same_file _ _ _ _) h2 es
    · rintro y es ⟨b, k1, k2⟩
      exact ⟨b, k1, (Same.get ho (same_file _ _ _ _) 0 es).trans k2⟩

/-- C98: a handle stays that of the file at its path, whatever is called (other handles, changes elsewhere, also `set_connected`), until
it is closed or the file, or a directory above it, is removed. -/
theorem C98_stays_partial (hr : Reach w) (hal : Allowed w c) (hs : step w c = .ok (w', out)) {x : Nat} {cs : List Bytes} (hf : FileAt w x cs)
    (hc : c ≠ .closeFile x) (hn : ¬ Removes w c cs) : FileAt w' x cs := by
  have hi := hr.inv
  have he := step_eff hs
  obtain ⟨a, h1, h2⟩ := hf
  refine ⟨a, ?_, he.get hi.wf hal h2 hn⟩
  cases he with
  | opened k0 k1 k2 =>
    simp only
    rw [if_neg]
    · exact h1
    · rintro rfl; rw [(hi.fresh _ (Nat.le_refl _)).1] at h1; cases h1
  | @closed y b k1 =>
    simp only
    rw [if_neg]
    · exact h1
    · rintro rfl; exact hc rfl
  | _ => exact h1

/-- C98: pointers to objects which do not exist do not become valid again. -/
theorem C98_never (hr : Reach w) (hal : Allowed w c) (hs : step w c = .ok (w', out)) {a : Nat} (ha : a < w.heap.next) (hno : ∀ es, get w.heap 0 es ≠ some a) :
    a < w'.heap.next ∧ ∀ es, get w'.heap 0 es ≠ some a := by
  have hi := hr.inv
  have he := step_eff hs
  obtain ⟨hev, wf'⟩ := he.evolve hi.wf hal
  refine ⟨Nat.lt_of_lt_of_le ha hev.1, fun es hg => ?_⟩
  obtain ⟨o', ho'⟩ := some_iff.mp (wf'.live_get wf'.root_live hg).1
  obtain ⟨o, ho, -⟩ := hev.2 a o' ha ho'
  obtain ⟨ds, hd⟩ := hi.wf.has_path (x := a) (by rw [ho]; rfl)
  exact hno ds hd

/-- C98: exactly when a handle works: when it is of a file which is still in the tree. -/
theorem C98_exact (hr : Reach w) {x a : Nat} (hx : w.files x = some a) : (∃ r, step w (.fstat x) = .ok r) ↔ ∃ cs, FileAt w x cs := by
  have hi := hr.inv
  constructor
  · rintro ⟨r, hs⟩
    simp only [step] at hs
    rw [file_ok.mpr hx] at hs
    obtain ⟨⟨st, d⟩, h1, -⟩ := (bind_ok (x := w.heap.fileAt a 220)).mp hs
    obtain ⟨cs, hcs⟩ := hi.wf.has_path (x := a) (by rw [fileAt_ok.mp h1]; rfl)
    exact ⟨cs, a, hx, hcs⟩
  · rintro ⟨cs, hf⟩
    obtain ⟨st, d, -, h2, -⟩ := C98_handle hr hf
    exact ⟨_, h2⟩

/-- C98: the removal of a file, or of a directory above it, leaves its handles dangling: everything but closing them is undefined. -/
theorem C98_dangles (hr : Reach w) (hal : Allowed w c) (hs : step w c = .ok (w', out)) {x : Nat} {cs : List Bytes} (hf : FileAt w x cs) (hn : Removes w c cs) :
    step w' (.fstat x) = .error (.ub 220) ∧ (∀ count off, step w' (.pread x count off) = .error (.ub 228)) ∧
      (∀ buf off, step w' (.pwrite x buf off) = .error (.ub 246)) ∧ ∀ es, ¬ FileAt w' x es := by
  have hi := hr.inv
  have he := step_eff hs
  obtain ⟨-, wf'⟩ := he.evolve hi.wf hal
  obtain ⟨a, h1, h2⟩ := hf
  have hg := he.gone hi.wf h2 hn
  have hfiles : w'.files x = some a := by
    obtain ⟨b, n, ds, rfl, -, -⟩ := hn
    cases he <;> exact h1
  have hnone : w'.heap.obj a = none := by
    cases ho : w'.heap.obj a with
    | none => rfl
    | some o =>
      obtain ⟨es, hes⟩ := wf'.has_path (x := a) (by rw [ho]; rfl)
      exact absurd hes (hg es)
  have hd : ∀ line, w'.heap.fileAt a line = .error (.ub line) := by intro line; unfold Heap.fileAt Heap.deref; rw [hnone]; rfl
  refine ⟨?_, ?_, ?_, ?_⟩
  · simp only [step]; rw [file_ok.mpr hfiles]
    show (w'.heap.fileAt a 220 >>= _) = _
    rw [hd]; rfl
  · intro count off
    simp only [step]; rw [file_ok.mpr hfiles]
    show (w'.heap.fileAt a 228 >>= _) = _
    rw [hd]; rfl
  · intro buf off
    simp only [step, pwrite]; rw [file_ok.mpr hfiles]
    show ((w'.heap.fileAt a 246 >>= _) >>= _) = _
    rw [hd]; rfl
  · rintro es ⟨b, k1, k2⟩
    rw [hfiles] at k1; cases k1
    exact hg es k2

/-! ### Directory handles -/

/-- The names which an iterator has before it. -/
def toCome : Iter → List Bytes → Option (List Bytes)
  | .bad, _ => none
  | .fin, _ => some []
  | .at n, l => some (l.dropWhile (· != n))

/-- Handle `x` is of the directory at path `cs`; of `.` and `..` it has yet to return `dots`, of the names in the directory it has yet
to return `l`, in this order. -/
def ListAt (w : World) (x : Nat) (cs dots l : List Bytes) : Prop := ∃ d st ch, w.dirs x = some d ∧ dots = [[0x2e], [0x2e, 0x2e]].drop d.pos ∧
  get w.heap 0 cs = some d.node ∧ w.heap.obj d.node = some (.dir st ch) ∧ toCome d.iter (ch.map Prod.fst) = some l

theorem dropWhile_split {n : Bytes} {pre rest : List Bytes} (hn : n ∉ pre) : (pre ++ n :: rest).dropWhile (· != n) = n :: rest := by
  induction pre with
  | nil => simp
  | cons x l ih =>
    simp only [List.mem_cons, not_or] at hn
    rw [List.cons_append, List.dropWhile_cons_of_pos (by simp only [bne_iff_ne, ne_eq]; exact fun e => hn.1 e.symm)]
    exact ih hn.2

theorem first_toCome (ch : List (Bytes × Nat)) : toCome (first ch) (ch.map Prod.fst) = some (ch.map Prod.fst) := by
  cases ch with
  | nil => rfl
  | cons x l => obtain ⟨n, b⟩ := x; simp [first, toCome]

theorem after_toCome {ch : List (Bytes × Nat)} (hn : (ch.map Prod.fst).Nodup) {n : Bytes} {l : List Bytes} (hm : n ∈ ch.map Prod.fst) (hl : toCome (.at n) (ch.map Prod.fst) = some l) :
    ∃ l', l = n :: l' ∧ toCome (after n ch) (ch.map Prod.fst) = some l' := by
  have after_split : ∀ (p r : List (Bytes × Nat)) (b : Nat), n ∉ p.map Prod.fst → after n (p ++ (n, b) :: r) = first r := by
    intro p
    induction p with
    | nil => intro r b _; simp [after]
    | cons y p ih =>
      intro r b hp
      obtain ⟨m, k⟩ := y
      simp only [List.map_cons, List.mem_cons, not_or] at hp
      rw [List.cons_append, after, if_neg (fun e => hp.1 e.symm)]
      exact ih r b hp.2
  obtain ⟨⟨n', b⟩, hb, rfl⟩ := List.mem_map.mp hm
  obtain ⟨p, r, rfl⟩ := List.append_of_mem hb
  simp only [List.map_append, List.map_cons] at hn hl ⊢
  have hp : n' ∉ p.map Prod.fst := by
    intro h
    have := (List.nodup_append.mp hn).2.2 n' h n' (by simp)
    exact this rfl
  simp only [toCome, dropWhile_split hp, Option.some.injEq] at hl
  refine ⟨r.map Prod.fst, hl.symm, ?_⟩
  rw [after_split p r b hp]
  cases r with
  | nil => rfl
  | cons y r =>
    obtain ⟨m, k⟩ := y
    simp only [first, toCome, List.map_cons, Option.some.injEq]
    rw [show p.map Prod.fst ++ n' :: m :: r.map Prod.fst = (p.map Prod.fst ++ [n']) ++ m :: r.map Prod.fst by simp]
    apply dropWhile_split
    intro h
    rw [show p.map Prod.fst ++ n' :: List.map Prod.fst ((m, k) :: r) = (p.map Prod.fst ++ [n']) ++ m :: r.map Prod.fst by simp] at hn
    exact (List.nodup_append.mp hn).2.2 m h m (by simp) rfl

theorem filter_dropWhile {m n : Bytes} (hmn : m ≠ n) (l : List Bytes) : (l.dropWhile (· != m)).filter (· != n) = (l.filter (· != n)).dropWhile (· != m) := by
  induction l with
  | nil => rfl
  | cons x l ih =>
    by_cases hx : x = m
    · subst hx
      rw [List.dropWhile_cons_of_neg (by simp), List.filter_cons_of_pos (by simpa using hmn), List.dropWhile_cons_of_neg (by simp)]
    · rw [List.dropWhile_cons_of_pos (by simpa using hx), ih]
      by_cases hn : x = n
      · rw [List.filter_cons_of_neg (by simpa using hn)]
      · rw [List.filter_cons_of_pos (by simpa using hn), List.dropWhile_cons_of_pos (by simpa using hx)]

/-- C98: `opendir` of the path of a directory, when connected: the handle has all names before it. -/
theorem C98_opendir (hr : Reach w) (hc : w.connected = true) {cs : List Bytes} (hcs : ∀ c ∈ cs, Component c) {st : BStat} {names : List Bytes} (hv : w.heap.view cs = some (.dir st names)) :
    ∃ w' x, step w (.opendir (backendPath (pathStr cs))) = .ok (w', .handle (.ok x)) ∧ ListAt w' x cs [[0x2e], [0x2e, 0x2e]] names ∧ (∀ es, w'.heap.view es = w.heap.view es) ∧
      w.dirs x = none ∧ ∀ y es dots l, ListAt w y es dots l → ListAt w' y es dots l := by
  have hi := hr.inv
  unfold Heap.view at hv
  cases hg : get w.heap 0 cs with
  | none => rw [hg] at hv; cases hv
  | some a =>
    rw [hg] at hv
    simp only [Option.map_eq_some_iff] at hv
    obtain ⟨o, ho, he⟩ := hv
    cases o with
    | link => cases he
    | file => cases he
    | dir st' ch =>
      cases he
      have hf := (root_find hr hcs a).mpr hg
      have hf : find w.heap 0 (backendPath (pathStr cs)) = .ok (.ok a) := by
        obtain ⟨r, h1, h2⟩ := bind_ok.mp hf
        cases h2; exact h1
      have hx := (hi.fresh w.nextHandle (Nat.le_refl _)).2
      refine ⟨{ w with dirs := fun x => if x = w.nextHandle then some ⟨a, 0, first ch⟩ else w.dirs x, nextHandle := w.nextHandle + 1 }, w.nextHandle, ?_,
        ⟨⟨a, 0, first ch⟩, st, ch, by simp, rfl, hg, ho, first_toCome ch⟩, fun _ => rfl, hx, ?_⟩
      · simp only [step, hc, Bool.not_true, Bool.false_eq_true, if_false, hf]
        show (w.heap.deref a 305 >>= _) = _
        rw [deref_ok.mpr ho]; rfl
      · rintro y es dots l ⟨d, s1, c1, h1, h2⟩
        refine ⟨d, s1, c1, ?_, h2⟩
        simp only
        rw [if_neg]
        · exact h1
        · rintro rfl; rw [hx] at h1; cases h1

/-- C98: what `readdir` returns, connected or not: first the dots, then the names to come, which are in the directory now, then the end. -/
theorem C98_readdir (hr : Reach w) {x : Nat} {cs dots l : List Bytes} (hl : ListAt w x cs dots l) :
    (∀ n t, dots = n :: t → ∃ w', step w (.readdir x) = .ok (w', .bytes (.ok n)) ∧ ListAt w' x cs t l) ∧
    (∀ n t, dots = [] → l = n :: t → ∃ w', step w (.readdir x) = .ok (w', .bytes (.ok n)) ∧ ListAt w' x cs [] t) ∧
    (dots = [] → l = [] → ∃ w', step w (.readdir x) = .ok (w', .bytes (.error 0)) ∧ ListAt w' x cs [] []) ∧
    ∃ st names, w.heap.view cs = some (.dir st names) ∧ l <:+ names := by
  have hi := hr.inv
  obtain ⟨d, st, ch, h1, h2, h3, h4, h5⟩ := hl
  obtain ⟨node, pos, iter⟩ := d
  have hstep : ∀ d' r, readdir w.heap ⟨node, pos, iter⟩ = .ok (d', r) → step w (.readdir x) = .ok (w.setDir x d', .bytes r) := by
    intro d' r hd
    simp only [step]
    rw [dir_ok.mpr h1]
    show (readdir w.heap ⟨node, pos, iter⟩ >>= _) = _
    rw [hd]; rfl
  have hset : ∀ d' t l', d'.node = node → t = [[0x2e], [0x2e, 0x2e]].drop d'.pos → toCome d'.iter (ch.map Prod.fst) = some l' → ListAt (w.setDir x d') x cs t l' := by
    intro d' t l' e1 e2 e3
    exact ⟨d', st, ch, by simp [World.setDir], e2, by rw [e1]; exact h3, by rw [e1]; exact h4, e3⟩
  refine ⟨?_, ?_, ?_, ?_⟩
  · rintro n t rfl
    match pos, h2, hstep with
    | 0, h2, hstep => cases h2; exact ⟨_, hstep _ _ rfl, hset ⟨node, 1, iter⟩ _ _ rfl rfl h5⟩
    | 1, h2, hstep => cases h2; exact ⟨_, hstep _ _ rfl, hset ⟨node, 2, iter⟩ _ _ rfl rfl h5⟩
    | pos + 2, h2, _ => simp at h2
  · rintro n t rfl rfl
    match pos, h2, hstep with
    | 0, h2, _ => cases h2
    | 1, h2, _ => cases h2
    | pos + 2, h2, hstep =>
      cases iter with
      | bad => cases h5
      | fin => cases h5
      | «at» m =>
        have hm := (hi.dir h1).2 _ h4
        obtain ⟨s1, c1, e, hm⟩ := hm
        cases e
        obtain ⟨l', e1, e2⟩ := after_toCome (hi.wf.names h4) (hm m rfl) h5
        cases e1
        refine ⟨_, hstep ⟨node, pos + 2, after n ch⟩ (.ok n) ?_, hset ⟨node, pos + 2, after n ch⟩ _ _ rfl (by simp) e2⟩
        simp only [readdir]
        rw [dirAt_ok.mpr h4]; rfl
  · rintro rfl rfl
    match pos, h2, hstep with
    | 0, h2, _ => cases h2
    | 1, h2, _ => cases h2
    | pos + 2, h2, hstep =>
      cases iter with
      | bad => cases h5
      | «at» m =>
        have hm := (hi.dir h1).2 _ h4
        obtain ⟨s1, c1, e, hm⟩ := hm
        cases e
        obtain ⟨l', e1, -⟩ := after_toCome (hi.wf.names h4) (hm m rfl) h5
        cases e1
      | fin =>
        refine ⟨_, hstep ⟨node, pos + 2, .fin⟩ (.error 0) ?_, hset ⟨node, pos + 2, .fin⟩ _ _ rfl (by simp) rfl⟩
        simp only [readdir]
        rw [dirAt_ok.mpr h4]; rfl
  · refine ⟨st, ch.map Prod.fst, ?_, ?_⟩
    · unfold Heap.view; rw [h3]
      simp only at h4
      simp only [h4]; rfl
    · cases iter with
      | bad => cases h5
      | fin => cases h5; exact List.nil_suffix
      | «at» m => cases h5; exact List.dropWhile_suffix _

/-- The call breaks the iteration of the directory at path `cs` with the names `l` to come: it removes the directory, or one above it, or the name
which would be next, or inserts a name with a rehash. -/
def Disturbs (w : World) (c : Call) (cs l : List Bytes) : Prop :=
  Removes w c cs ∨ (∃ a n, c = .remove a n ∧ get w.heap 0 cs = some a ∧ l.head? = some n) ∨
  ∃ a n k o st names, c = .emplace a n k o true ∧ get w.heap 0 cs = some a ∧ w.heap.view cs = some (.dir st names) ∧ n ∉ names

/-- C98: what other calls do to a listing: nothing, except that a name which is removed does not come any more, and one which is inserted may or may
not come. -/
theorem C98_listing_partial (hr : Reach w) (hal : Allowed w c) (hs : step w c = .ok (w', out)) {x : Nat} {cs dots l : List Bytes} (hl : ListAt w x cs dots l)
    (hc : c ≠ .closeDir x) (hrd : c ≠ .readdir x) (hn : ¬ Disturbs w c cs l) :
    ∃ l', ListAt w' x cs dots l' ∧
      (l' = l ∨ (∃ a n k o st names, c = .emplace a n k o false ∧ get w.heap 0 cs = some a ∧ w.heap.view cs = some (.dir st names) ∧ n ∉ names ∧ l'.filter (· != n) = l) ∨
        ∃ a n, c = .remove a n ∧ get w.heap 0 cs = some a ∧ l' = l.filter (· != n)) := by
  have hi := hr.inv
  have he := step_eff hs
  have hn0 : ¬ Removes w c cs := fun h => hn (.inl h)
  obtain ⟨d, st, ch, h1, h2, h3, h4, h5⟩ := hl
  have hg := he.get hi.wf hal h3 hn0
  cases he with
  | same => exact ⟨l, ⟨d, st, ch, h1, h2, h3, h4, h5⟩, .inl rfl⟩
  | opened => exact ⟨l, ⟨d, st, ch, h1, h2, h3, h4, h5⟩, .inl rfl⟩
  | conn b => exact ⟨l, ⟨d, st, ch, h1, h2, h3, h4, h5⟩, .inl rfl⟩
  | closed k1 => exact ⟨l, ⟨d, st, ch, h1, h2, h3, h4, h5⟩, .inl rfl⟩
  | openedDir k0 k1 k2 =>
    refine ⟨l, ⟨d, st, ch, ?_, h2, h3, h4, h5⟩, .inl rfl⟩
    simp only
    rw [if_neg]
    · exact h1
    · rintro rfl; rw [(hi.fresh _ (Nat.le_refl _)).2] at h1; cases h1
  | @closedDir y e k1 =>
    refine ⟨l, ⟨d, st, ch, ?_, h2, h3, h4, h5⟩, .inl rfl⟩
    simp only
    rw [if_neg]
    · exact h1
    · rintro rfl; exact hc rfl
  | @listed y e e' r k1 k2 =>
    refine ⟨l, ⟨d, st, ch, ?_, h2, h3, h4, h5⟩, .inl rfl⟩
    simp only [World.setDir]
    rw [if_neg]
    · exact h1
    · rintro rfl; exact hrd rfl
  | wrote k1 k2 k3 =>
    obtain ⟨st', e⟩ := Same.back k2 (same_file _ _ _ _) h4
    exact ⟨l, ⟨d, st', ch, h1, h2, hg, e, h5⟩, .inl rfl⟩
  | updated k1 =>
    obtain ⟨st', e⟩ := Same.back k1 (Obj.same_update _ _) h4
    exact ⟨l, ⟨d, st', ch, h1, h2, hg, e, h5⟩, .inl rfl⟩
  | existing k1 k2 => exact ⟨l, ⟨d, st, ch, h1, h2, hg, h4, h5⟩, .inl rfl⟩
  | @emplaced a n k order rehash s1 c1 k1 k2 =>
    obtain ⟨hp, hord⟩ := hal _ _ k1 k2
    by_cases ha : d.node = a
    · have hrh : rehash = false := by
        cases rehash with
        | false => rfl
        | true =>
          refine absurd (.inr (.inr ⟨a, n, k, order, s1, c1.map Prod.fst, rfl, ha ▸ h3, ?_, lookup_none.mp k2⟩)) hn
          unfold Heap.view; rw [h3]; simp only [ha, k1]; rfl
      subst hrh
      have hnames : (order.map Prod.fst).filter (· != n) = ch.map Prod.fst := by
        rw [ha, k1] at h4; cases h4
        rw [← hord rfl, List.filter_map]; rfl
      have hnch : n ∉ ch.map Prod.fst := by
        rw [ha, k1] at h4; cases h4
        exact lookup_none.mp k2
      have hdirs : (({ w with heap := w.heap.grown a s1 k.new order } : World).iters a (fun i => if false then .bad else i)).dirs x = some d := by
        unfold World.iters; simp only [h1, if_pos ha, Bool.false_eq_true, if_false]
      have hobj : (w.heap.grown a s1 k.new order).obj d.node = some (.dir s1 order) := by rw [grown_obj, if_pos ha]
      cases hit : d.iter with
      | bad => rw [hit] at h5; cases h5
      | fin =>
        rw [hit] at h5; cases h5
        exact ⟨[], ⟨d, s1, order, hdirs, h2, hg, hobj, by rw [hit]; rfl⟩, .inl rfl⟩
      | «at» m =>
        rw [hit] at h5; cases h5
        refine ⟨(order.map Prod.fst).dropWhile (· != m), ⟨d, s1, order, hdirs, h2, hg, hobj, by rw [hit]; rfl⟩, .inr (.inl ⟨a, n, k, order, st, ch.map Prod.fst, rfl, ha ▸ h3, ?_, hnch, ?_⟩)⟩
        · unfold Heap.view; rw [h3]; simp only [h4]; rfl
        · rw [filter_dropWhile, hnames]
          rintro rfl
          obtain ⟨s2, c2, e, hm⟩ := (hi.dir h1).2 _ h4
          cases e
          exact hnch (hm m hit)
    · refine ⟨l, ⟨d, st, ch, ?_, h2, hg, ?_, h5⟩, .inl rfl⟩
      · unfold World.iters; simp only [h1, if_neg ha]
      · show (w.heap.grown a s1 k.new order).obj d.node = _
        rw [grown_obj, if_neg ha, if_neg]
        · exact h4
        · intro e; rw [e, hi.wf.fresh _ (Nat.le_refl _)] at h4; cases h4
  | @removed a n s1 c1 b k1 k2 =>
    by_cases ha : d.node = a
    · have hch : c1 = ch ∧ s1 = st := by rw [ha, k1] at h4; cases h4; exact ⟨rfl, rfl⟩
      obtain ⟨rfl, rfl⟩ := hch
      have hhead : l.head? ≠ some n := fun e => hn (.inr (.inl ⟨a, n, rfl, ha ▸ h3, e⟩))
      have hit' : d.iter ≠ .at n := by
        intro e
        rw [e] at h5
        obtain ⟨s2, c2, e2, hm⟩ := (hi.dir h1).2 _ h4
        cases e2
        obtain ⟨l', e3, -⟩ := after_toCome (hi.wf.names h4) (hm n e) h5
        rw [e3] at hhead; exact hhead rfl
      have hdirs : (({ w with heap := w.heap.shrunk a s1 c1 n b } : World).iters a (fun i => if i = Iter.at n then .bad else i)).dirs x = some d := by
        unfold World.iters; simp only [h1, if_pos ha, if_neg hit']
      have hobj : (w.heap.shrunk a s1 c1 n b).obj d.node = some (.dir s1 (c1.filter (fun x => x.1 != n))) := by rw [shrunk_obj hi.wf k1 k2, if_pos ha]
      have hnames : (c1.filter (fun x => x.1 != n)).map Prod.fst = (c1.map Prod.fst).filter (· != n) := by rw [List.filter_map]; rfl
      refine ⟨l.filter (· != n), ⟨d, s1, _, hdirs, h2, hg, hobj, ?_⟩, .inr (.inr ⟨a, n, rfl, ha ▸ h3, rfl⟩)⟩
      rw [hnames]
      cases hit : d.iter with
      | bad => rw [hit] at h5; cases h5
      | fin => rw [hit] at h5; cases h5; rfl
      | «at» m =>
        rw [hit] at h5; cases h5
        simp only [toCome, Option.some.injEq]
        rw [filter_dropWhile]
        rintro rfl; exact hit' hit
    · refine ⟨l, ⟨d, st, ch, ?_, h2, hg, ?_, h5⟩, .inl rfl⟩
      · unfold World.iters; simp only [h1, if_neg ha]
      · show (w.heap.shrunk a s1 c1 n b).obj d.node = _
        have wf' := WF.shrunk hi.wf k1 k2
        have hlive := (shrunk_live hi.wf k1 k2).mp (wf'.live_get wf'.root_live hg).1
        rw [shrunk_obj hi.wf k1 k2, if_neg ha, if_neg (by rw [mem_below hi.wf k1 k2]; exact hlive.2)]
        exact h4

theorem step_readdir {x : Nat} {d : DirHandle} (hd : w.dirs x = some d) {e : Fault} (hr : readdir w.heap d = .error e) : step w (.readdir x) = .error e := by
  simp only [step]
  rw [dir_ok.mpr hd]
  show (readdir w.heap d >>= _) = _
  rw [hr]; rfl

/-- The handle's directory does not exist any more, or its iterator is not valid any more. -/
def Bad (w : World) (x : Nat) : Prop := w.dirs x = none ∨ ∃ d, w.dirs x = some d ∧ (w.heap.obj d.node = none ∨ d.iter = .bad)

theorem disturbed (hi : Inv w) (hal : Allowed w c) (he : Eff w c w' out) {x : Nat} {cs dots l : List Bytes} (hl : ListAt w x cs dots l)
    (hn : Disturbs w c cs l) : ∃ d, w'.dirs x = some d ∧ dots = [[0x2e], [0x2e, 0x2e]].drop d.pos ∧ (w'.heap.obj d.node = none ∨ d.iter = .bad) := by
  obtain ⟨-, wf'⟩ := he.evolve hi.wf hal
  obtain ⟨d, st, ch, h1, h2, h3, h4, h5⟩ := hl
  obtain ⟨node, pos, iter⟩ := d
  simp only at h2 h3 h4 h5
  rcases hn with hrem | ⟨a, n, rfl, ha, hhead⟩ | ⟨a, n, k, o, s1, names, rfl, ha, hv, hnn⟩
  · have hg := he.gone hi.wf h3 hrem
    have hnone : w'.heap.obj node = none := by
      cases ho : w'.heap.obj node with
      | none => rfl
      | some o =>
        obtain ⟨es, hes⟩ := wf'.has_path (x := node) (by rw [ho]; rfl)
        exact absurd hes (hg es)
    have hdir : ∃ it, w'.dirs x = some ⟨node, pos, it⟩ := by
      obtain ⟨b, n, ds, rfl, -, -⟩ := hrem
      cases he with
      | same => exact ⟨_, h1⟩
      | @removed _ _ s1 c1 k k1 k2 =>
        unfold World.iters
        simp only [h1]
        split
        · exact ⟨_, rfl⟩
        · exact ⟨_, rfl⟩
    obtain ⟨it, hdir⟩ := hdir
    exact ⟨_, hdir, h2, .inl hnone⟩
  · rw [h3] at ha; cases ha
    have hit : iter = .at n := by
      cases iter with
      | bad => cases h5
      | fin => cases h5; cases hhead
      | «at» m =>
        obtain ⟨s2, c2, e2, hm⟩ := (hi.dir h1).2 _ h4
        cases e2
        obtain ⟨l', e3, -⟩ := after_toCome (hi.wf.names h4) (hm m rfl) h5
        rw [e3] at hhead; cases hhead; rfl
    subst hit
    have hmem : n ∈ ch.map Prod.fst := by
      obtain ⟨s2, c2, e2, hm⟩ := (hi.dir h1).2 _ h4
      cases e2; exact hm n rfl
    cases he with
    | same k1 k2 k3 =>
      obtain ⟨s1, c1, e1, e2⟩ := k3 _ _ rfl
      rw [h4] at e1; cases e1
      exact absurd hmem (lookup_none.mp e2)
    | @removed _ _ s1 c1 k k1 k2 =>
      exact ⟨⟨node, pos, .bad⟩, by unfold World.iters; simp only [h1, if_true], h2, .inr rfl⟩
  · rw [h3] at ha; cases ha
    cases he with
    | same k1 => cases k1
    | existing k1 k2 =>
      unfold Heap.view at hv
      rw [h3] at hv
      simp only [k1, Option.map_some, Option.some.injEq] at hv
      cases hv
      exact absurd (List.mem_map.mpr ⟨_, lookup_mem k2, rfl⟩) hnn
    | @emplaced _ _ _ _ _ s2 c2 k1 k2 =>
      exact ⟨⟨node, pos, .bad⟩, by unfold World.iters; simp only [h1, if_true], h2, .inr rfl⟩

/-- C98: and these calls do break it: once the dots are returned, `readdir` is undefined. -/
theorem C98_broken (hr : Reach w) (hal : Allowed w c) (hs : step w c = .ok (w', out)) {x : Nat} {cs l : List Bytes} (hl : ListAt w x cs [] l)
    (hn : Disturbs w c cs l) : step w' (.readdir x) = .error (.ub 181) := by
  have hi' := ((hr.step hal hs)).inv
  obtain ⟨⟨node, pos, iter⟩, h1, h2, h3⟩ := disturbed hr.inv hal (step_eff hs) hl hn
  have hpos : ∃ p, pos = p + 2 := by
    match pos, h2 with
    | p + 2, _ => exact ⟨p, rfl⟩
  obtain ⟨p, rfl⟩ := hpos
  apply step_readdir h1
  simp only at h3
  cases ho : w'.heap.obj node with
  | none => simp only [readdir, Heap.dirAt, Heap.deref, ho]; rfl
  | some o =>
    obtain ⟨st, ch, rfl, -⟩ := (hi'.dir h1).2 o ho
    simp only [readdir]
    rw [dirAt_ok.mpr ho]
    rcases h3 with h3 | h3
    · rw [ho] at h3; cases h3
    · subst h3; rfl

/-! ### A whole listing -/

/-- A history of calls with their results. -/
inductive Trace : World → List (Call × Out) → World → Prop
  | nil {u} : Trace u [] u
  | snoc {u v tr c v' out} : Trace u tr v → Allowed v c → step v c = .ok (v', out) → Trace u (tr ++ [(c, out)]) v'

/-- The names which `readdir` on a handle returned. -/
def returned (x : Nat) (tr : List (Call × Out)) : List Bytes := tr.filterMap fun
  | (.readdir y, .bytes (.ok n)) => if y = x then some n else none
  | _ => none

theorem Trace.reach (ht : Trace w tr w') (hr : Reach w) : Reach w' := by
  induction ht with
  | nil => exact hr
  | snoc _ h1 h2 ih => exact ih.step h1 h2

theorem bad_stays (hi : Inv w) (he : Eff w c w' out) (hal : Allowed w c) {x : Nat} (hx : x < w.nextHandle) (hb : Bad w x) : Bad w' x := by
  have hev := (he.evolve hi.wf hal).1
  have hnone : ∀ a, a < w.heap.next → w.heap.obj a = none → w'.heap.obj a = none := by
    intro a ha hn
    cases ho : w'.heap.obj a with
    | none => rfl
    | some o =>
      obtain ⟨o1, h1, -⟩ := hev.2 a o ha ho
      rw [hn] at h1; cases h1
  have keep : w'.dirs x = w.dirs x → Bad w' x := by
    intro e
    rcases hb with h1 | ⟨d, h1, h2⟩
    · exact .inl (e.trans h1)
    · exact .inr ⟨d, e.trans h1, h2.imp (hnone _ (hi.dir h1).1) id⟩
  have iters : ∀ (h : Heap) (a : Nat) (f : Iter → Iter), (∀ i, i = .bad → f i = .bad) → w' = ({ w with heap := h } : World).iters a f → Bad w' x := by
    intro h a f hf e
    rcases hb with h1 | ⟨d, h1, h2⟩
    · refine .inl ?_
      rw [e]; exact iters_none (w := { w with heap := h }) h1
    · by_cases hd : d.node = a
      · refine .inr ⟨{ d with iter := f d.iter }, ?_, h2.imp (hnone _ (hi.dir h1).1) (hf _)⟩
        rw [e]; unfold World.iters; simp only [h1, if_pos hd]
      · refine .inr ⟨d, ?_, h2.imp (hnone _ (hi.dir h1).1) id⟩
        rw [e]; unfold World.iters; simp only [h1, if_neg hd]
  cases he with
  | same | opened | conn | wrote | closed | existing | updated => exact keep rfl
  | openedDir k0 k1 k2 => exact keep (by simp only; rw [if_neg (by omega)])
  | @closedDir y d k1 =>
    by_cases hy : x = y
    · exact .inl (by simp only; rw [if_pos hy])
    · exact keep (by simp only; rw [if_neg hy])
  | @listed y d d' r k1 k2 =>
    by_cases hy : x = y
    · subst hy
      rcases hb with h1 | ⟨d0, h1, h2⟩
      · rw [h1] at k1; cases k1
      · rw [h1] at k1; cases k1
        refine .inr ⟨d', by simp [World.setDir], ?_⟩
        rcases readdir_ok k2 with ⟨-, rfl, -⟩ | ⟨-, rfl, -⟩ | ⟨-, st, ch, k3, ⟨k4, rfl, -⟩ | ⟨n, k4, rfl, -⟩⟩
        · exact h2
        · exact h2
        · exact h2
        · rcases h2 with h2 | h2
          · rw [h2] at k3; cases k3
          · rw [h2] at k4; cases k4
    · exact keep (by simp only [World.setDir]; rw [if_neg hy])
  | emplaced k1 k2 => exact iters _ _ _ (fun i hi => by subst hi; split <;> rfl) rfl
  | removed k1 k2 => exact iters _ _ _ (fun i hi => by subst hi; rfl) rfl

/-- Where a listing is: after `.` and `..` as far as in `pre`, `R` was returned, `l` is to come. -/
def Going (w : World) (x : Nat) (cs ret pre R l : List Bytes) : Prop := ∃ dots, ListAt w x cs dots l ∧ pre ++ dots = [[0x2e], [0x2e, 0x2e]] ∧ ret = pre ++ R ∧ (dots ≠ [] → R = [])

theorem going_step (hr : Reach w) (hal : Allowed w c) (hs : step w c = .ok (w', out)) {x : Nat} {cs ret pre R l : List Bytes} (hg : Going w x cs ret pre R l) :
    Bad w' x ∨ ∃ pre' R' l', Going w' x cs (ret ++ returned x [(c, out)]) pre' R' l' ∧
      (R' ++ l' = R ++ l ∨ (∃ a n k o st names, c = .emplace a n k o false ∧ get w.heap 0 cs = some a ∧ w.heap.view cs = some (.dir st names) ∧ n ∉ names ∧ R' = R ∧ l'.filter (· != n) = l) ∨
        ∃ a n, c = .remove a n ∧ get w.heap 0 cs = some a ∧ R' = R ∧ l' = l.filter (· != n)) := by
  obtain ⟨dots, h1, h2, rfl, h4⟩ := hg
  by_cases hrd : c = .readdir x
  · subst hrd
    obtain ⟨k1, k2, k3, -⟩ := C98_readdir hr h1
    right
    cases dots with
    | cons n t =>
      obtain ⟨w1, e1, e2⟩ := k1 n t rfl
      rw [e1] at hs; cases hs
      have hR := h4 (by simp)
      subst hR
      refine ⟨pre ++ [n], [], l, ⟨t, e2, by simpa using h2, by simp [returned], fun _ => rfl⟩, .inl rfl⟩
    | nil =>
      cases l with
      | cons n t =>
        obtain ⟨w1, e1, e2⟩ := k2 n t rfl rfl
        rw [e1] at hs; cases hs
        exact ⟨pre, R ++ [n], t, ⟨[], e2, h2, by simp [returned], fun h => absurd rfl h⟩, .inl (by simp)⟩
      | nil =>
        obtain ⟨w1, e1, e2⟩ := k3 rfl rfl
        rw [e1] at hs; cases hs
        exact ⟨pre, R, [], ⟨[], e2, h2, by simp [returned], fun h => absurd rfl h⟩, .inl rfl⟩
  · have hret : returned x [(c, out)] = [] := by
      unfold returned
      cases c with
      | readdir y =>
        have : y ≠ x := fun e => hrd (by rw [e])
        cases out with
        | bytes r => cases r <;> simp [this]
        | _ => simp
      | _ => simp
    rw [hret, List.append_nil]
    by_cases hcl : c = .closeDir x
    · subst hcl
      left
      cases step_eff hs with
      | same k => cases k
      | closedDir k => exact .inl (by simp)
    · by_cases hd : Disturbs w c cs l
      · obtain ⟨d, e1, -, e3⟩ := disturbed hr.inv hal (step_eff hs) h1 hd
        exact .inl (.inr ⟨d, e1, e3⟩)
      · right
        obtain ⟨l', e1, e2⟩ := C98_listing_partial hr hal hs h1 hcl hrd hd
        refine ⟨pre, R, l', ⟨dots, e1, h2, rfl, h4⟩, ?_⟩
        rcases e2 with rfl | ⟨a, n, k, o, st, names, q1, q2, q3, q4, q5⟩ | ⟨a, n, q1, q2, q3⟩
        · exact .inl rfl
        · exact .inr (.inl ⟨a, n, k, o, st, names, q1, q2, q3, q4, rfl, q5⟩)
        · exact .inr (.inr ⟨a, n, q1, q2, rfl, q3⟩)

/-- A listing which came to its end. -/
theorem going_end (hr : Reach w) {x : Nat} (hs : step w (.readdir x) = .ok (w', .bytes (.error 0))) :
    ¬ Bad w x ∧ ∀ {cs ret pre R l}, Going w x cs ret pre R l → ret = [0x2e] :: [0x2e, 0x2e] :: R ∧ l = [] := by
  constructor
  · rintro (h1 | ⟨d, h1, h2⟩)
    · cases step_eff hs with
      | same k => cases k
      | listed k1 k2 => rw [h1] at k1; cases k1
    · cases step_eff hs with
      | same k => cases k
      | listed k1 k2 =>
        rw [h1] at k1; cases k1
        rcases readdir_ok k2 with ⟨-, -, e⟩ | ⟨-, -, e⟩ | ⟨-, st, ch, k3, ⟨k4, rfl, -⟩ | ⟨n, k4, -, e⟩⟩
        · cases e
        · cases e
        · rcases h2 with h2 | h2
          · rw [h2] at k3; cases k3
          · rw [h2] at k4; cases k4
        · cases e
  · rintro cs ret pre R l ⟨dots, h1, h2, rfl, h4⟩
    obtain ⟨k1, k2, -, -⟩ := C98_readdir hr h1
    cases dots with
    | cons n t => obtain ⟨w1, e1, -⟩ := k1 n t rfl; rw [e1] at hs; cases hs
    | nil =>
      rw [List.append_nil] at h2
      cases l with
      | cons n t => obtain ⟨w1, e1, -⟩ := k2 n t rfl rfl; rw [e1] at hs; cases hs
      | nil => rw [h2]; exact ⟨rfl, rfl⟩

/-- The start of a listing. -/
theorem going_start (hr : Reach w) {p : Bytes} {x : Nat} (hs : step w (.opendir p) = .ok (w', .handle (.ok x))) :
    ∃ cs a st names, find w.heap 0 p = .ok (.ok a) ∧ get w'.heap 0 cs = some a ∧ w'.heap = w.heap ∧ w.heap.view cs = some (.dir st names) ∧ x < w'.nextHandle ∧ Going w' x cs [] [] [] names := by
  have hi := hr.inv
  cases step_eff hs with
  | same k1 k2 => exact absurd rfl (k2 x)
  | @openedDir _ a st ch k0 k1 k2 =>
    obtain ⟨cs, hcs⟩ := hi.wf.has_path (x := a) (by rw [k2]; rfl)
    refine ⟨cs, a, st, ch.map Prod.fst, k1, hcs, rfl, ?_, Nat.lt_succ_self _, [[0x2e], [0x2e, 0x2e]], ⟨⟨a, 0, first ch⟩, st, ch, by simp, rfl, hcs, k2, first_toCome ch⟩, rfl, rfl, fun _ => rfl⟩
    unfold Heap.view; rw [hcs]; simp only [k2]; rfl

theorem handles_grow (he : Eff w c w' out) : w.nextHandle ≤ w'.nextHandle := by
  cases he <;> first | exact Nat.le_refl _ | exact Nat.le_succ _

/-- A directory keeps a name until this name is removed. -/
theorem keep_name (he : Eff w c w' out) (wf : WF w.heap) (hal : Allowed w c) {cs : List Bytes} {a : Nat} (hg : get w.heap 0 cs = some a) (hg' : get w'.heap 0 cs = some a)
    {st : BStat} {names : List Bytes} (hv : w.heap.view cs = some (.dir st names)) {n : Bytes} (hn : n ∈ names) (hc : c ≠ .remove a n) :
    ∃ st' names', w'.heap.view cs = some (.dir st' names') ∧ n ∈ names' := by
  unfold Heap.view at hv
  rw [hg] at hv
  simp only [Option.map_eq_some_iff] at hv
  obtain ⟨o, ho, e⟩ := hv
  cases o with
  | file => cases e
  | link => cases e
  | dir st' ch =>
    cases e
    have wf' := (he.evolve wf hal).2
    have view : ∀ s2 c2, w'.heap.obj a = some (.dir s2 c2) → n ∈ c2.map Prod.fst → ∃ st' names', w'.heap.view cs = some (.dir st' names') ∧ n ∈ names' := by
      intro s2 c2 h1 h2
      refine ⟨s2, c2.map Prod.fst, ?_, h2⟩
      unfold Heap.view; rw [hg']; simp only [h1]; rfl
    cases he with
    | same | opened | openedDir | conn | closed | closedDir | listed | existing => exact view _ _ ho hn
    | wrote k1 k2 k3 => obtain ⟨s2, h2⟩ := Same.back k2 (same_file _ _ _ _) ho; exact view _ _ h2 hn
    | updated k1 => obtain ⟨s2, h2⟩ := Same.back k1 (Obj.same_update _ _) ho; exact view _ _ h2 hn
    | @emplaced b m k order rehash s1 c1 k1 k2 =>
      have hp := (hal _ _ k1 k2).1
      obtain ⟨⟨n', b'⟩, hm, rfl⟩ := List.mem_map.mp hn
      obtain ⟨s2, c2, h2, h3⟩ := (grown_entry wf k1 k2 (Kind.leaf k) hp (b := a) (m := n') (c := b')).mpr (.inl ⟨_, _, ho, hm⟩)
      exact view s2 c2 h2 (List.mem_map.mpr ⟨_, h3, rfl⟩)
    | @removed b m s1 c1 k k1 k2 =>
      have hobj : (w.heap.shrunk b s1 c1 m k).obj a = if a = b then some (.dir s1 (c1.filter (fun x => x.1 != m))) else if a ∈ below w.heap (w.heap.next + 1) k then none else w.heap.obj a := rfl
      by_cases hab : a = b
      · subst hab
        rw [k1] at ho; cases ho
        rw [if_pos rfl] at hobj
        refine view _ _ hobj ?_
        obtain ⟨y, hy1, hy2⟩ := List.mem_map.mp hn
        refine List.mem_map.mpr ⟨y, List.mem_filter.mpr ⟨hy1, ?_⟩, hy2⟩
        simp only [bne_iff_ne, ne_eq]
        intro e; rw [hy2] at e; subst e; exact hc rfl
      · have hlive := (shrunk_live wf k1 k2).mp (wf'.live_get wf'.root_live hg').1
        rw [if_neg hab, if_neg (by rw [mem_below wf k1 k2]; exact hlive.2), ho] at hobj
        exact view _ _ hobj hn

theorem Going.at_path (hg : Going w x cs ret pre R l) : ∃ a st names, get w.heap 0 cs = some a ∧ w.heap.view cs = some (.dir st names) ∧ w.dirs x ≠ none ∧ ∀ d, w.dirs x = some d → d.node = a := by
  obtain ⟨dots, ⟨d, st, ch, h1, h2, h3, h4, h5⟩, -⟩ := hg
  refine ⟨d.node, st, ch.map Prod.fst, h3, ?_, by rw [h1]; simp, fun d' e => by rw [h1] at e; cases e; rfl⟩
  unfold Heap.view; rw [h3]; simp only [h4]; rfl

theorem count_filter_ne {n m : Bytes} (hm : m ≠ n) (l : List Bytes) : (l.filter (· != m)).count n = l.count n := by
  rw [List.count_filter]
  simp only [bne_iff_ne, ne_eq]; exact fun e => hm e.symm

theorem node_stays (he : Eff w c w' out) {x : Nat} (hx : x < w.nextHandle) {d d' : DirHandle} (h1 : w.dirs x = some d) (h2 : w'.dirs x = some d') : d'.node = d.node := by
  cases he with
  | same | opened | conn | wrote | closed | existing | updated =>
    have h2 : w.dirs x = some d' := h2
    rw [h1] at h2; cases h2; rfl
  | openedDir =>
    simp only at h2
    rw [if_neg (by omega), h1] at h2; cases h2; rfl
  | closedDir =>
    simp only at h2
    split at h2
    · cases h2
    · rw [h1] at h2; cases h2; rfl
  | @listed y e e' r k1 k2 =>
    simp only [World.setDir] at h2
    by_cases hy : x = y
    · subst hy
      rw [if_pos rfl] at h2; cases h2
      rw [h1] at k1; cases k1
      rcases readdir_ok k2 with ⟨-, rfl, -⟩ | ⟨-, rfl, -⟩ | ⟨-, st, ch, k3, ⟨k4, rfl, -⟩ | ⟨n, k4, rfl, -⟩⟩ <;> rfl
    · rw [if_neg hy, h1] at h2; cases h2; rfl
  | emplaced =>
    obtain ⟨d0, e1, e2, -⟩ := iters_dirs h2
    have e1 : w.dirs x = some d0 := e1
    rw [h1] at e1; cases e1; exact e2
  | removed =>
    obtain ⟨d0, e1, e2, -⟩ := iters_dirs h2
    have e1 : w.dirs x = some d0 := e1
    rw [h1] at e1; cases e1; exact e2

theorem going_node (he : Eff w c w' out) {x : Nat} (hx : x < w.nextHandle) {cs ret pre R l ret' pre' R' l' : List Bytes} (h1 : Going w x cs ret pre R l) (h2 : Going w' x cs ret' pre' R' l')
    {a : Nat} (ha : get w.heap 0 cs = some a) : get w'.heap 0 cs = some a := by
  obtain ⟨dots, ⟨d, st, ch, k1, k2, k3, k4, k5⟩, -⟩ := h1
  obtain ⟨dots', ⟨d', st', ch', q1, q2, q3, q4, q5⟩, -⟩ := h2
  rw [k3] at ha; cases ha
  rw [← node_stays he hx k1 q1]; exact q3

theorem returned_append (x : Nat) (t t' : List (Call × Out)) : returned x (t ++ t') = returned x t ++ returned x t' := List.filterMap_append

theorem count_one {l : List Bytes} {n : Bytes} (hd : l.Nodup) (hm : n ∈ l) : l.count n = 1 := by
  have h1 := List.count_pos_iff.mpr hm
  have h2 := List.nodup_iff_count.mp hd n
  omega

theorem once_run {w1 w2 : World} {x a : Nat} {cs names : List Bytes} {tr : List (Call × Out)} {n : Bytes} {st : BStat} (ht : Trace w1 tr w2) (hr : Reach w1) (hx : x < w1.nextHandle)
    (hg : Going w1 x cs [] [] [] names) (ha : get w1.heap 0 cs = some a) (hv : w1.heap.view cs = some (.dir st names)) (hn : n ∈ names) (hnd : names.Nodup) (hno : ∀ out, (Call.remove a n, out) ∉ tr) :
    x < w2.nextHandle ∧ (Bad w2 x ∨ ∃ pre R l, Going w2 x cs (returned x tr) pre R l ∧ get w2.heap 0 cs = some a ∧
      (R ++ l).count n = 1 ∧ ∃ st names, w2.heap.view cs = some (.dir st names) ∧ n ∈ names) := by
  induction ht with
  | nil =>
    refine ⟨hx, .inr ⟨[], [], names, hg, ha, ?_, st, names, hv, hn⟩⟩
    rw [List.nil_append]
    exact count_one hnd hn
  | @snoc v tr c v' out htr hal hs ih =>
    have hru := htr.reach hr
    obtain ⟨k1, k2⟩ := ih (fun out hm => hno out (List.mem_append_left _ hm))
    have he := step_eff hs
    refine ⟨Nat.lt_of_lt_of_le k1 (handles_grow he), ?_⟩
    rcases k2 with hb | ⟨pre, R, l, g1, g2, g3, s1, n1, g4, g5⟩
    · exact .inl (bad_stays hru.inv he hal k1 hb)
    · rcases going_step hru hal hs g1 with hb | ⟨pre', R', l', q1, q2⟩
      · exact .inl hb
      · right
        have hc : c ≠ .remove a n := fun e => hno out (by rw [e]; simp)
        have g2' := going_node he k1 g1 q1 g2
        refine ⟨pre', R', l', by rw [returned_append]; exact q1, g2', ?_, keep_name he hru.inv.wf hal g2 g2' g4 g5 hc⟩
        rcases q2 with e | ⟨b, m, k, o, s2, n2, rfl, e1, e2, e3, rfl, e4⟩ | ⟨b, m, rfl, e1, rfl, rfl⟩
        · rw [e]; exact g3
        · have hm : m ≠ n := by
            rintro rfl
            rw [g4] at e2; cases e2
            exact e3 g5
          rw [List.count_append, ← count_filter_ne hm l', e4, ← List.count_append]; exact g3
        · have hm : m ≠ n := by
            rintro rfl
            rw [g2] at e1; cases e1
            exact hc rfl
          rw [List.count_append, count_filter_ne hm, ← List.count_append]; exact g3

/-- C98: a listing which comes to its end, whatever is done meanwhile (the directory may be changed, as long as no call is undefined), has returned `.` and `..`, and
then every name which was in the directory from the start and was not removed, exactly once. (`a` is the pointer to the directory.) -/
theorem C98_once {w1 w2 w3 : World} (hr : Reach w) {p : Bytes} {x : Nat} (ho : step w (.opendir p) = .ok (w1, .handle (.ok x))) {tr : List (Call × Out)} (ht : Trace w1 tr w2)
    (hend : step w2 (.readdir x) = .ok (w3, .bytes (.error 0))) {a : Nat} (ha : find w.heap 0 p = .ok (.ok a)) {st : BStat} {ch : List (Bytes × Nat)} (hd : w.heap.obj a = some (.dir st ch))
    {n : Bytes} (hn : n ∈ ch.map Prod.fst) (hrm : ∀ out, (Call.remove a n, out) ∉ tr) : ∃ l, returned x tr = [0x2e] :: [0x2e, 0x2e] :: l ∧ l.count n = 1 := by
  obtain ⟨cs, a', st', names, h1, h2, h3, h4, h5, h6⟩ := going_start hr ho
  rw [ha] at h1; cases h1
  have hr1 : Reach w1 := hr.step (c := .opendir p) trivial ho
  have hx := h4
  unfold Heap.view at hx
  rw [← h3, h2] at hx
  simp only [h3, hd, Option.map_some, Option.some.injEq, Obj.obs, Obs.dir.injEq] at hx
  obtain ⟨-, rfl⟩ := hx
  obtain ⟨-, k⟩ := once_run ht hr1 h5 h6 h2 (h3 ▸ h4) hn (hr.inv.wf.names hd) hrm
  obtain ⟨nb, e⟩ := going_end (ht.reach hr1) hend
  rcases k with hb | ⟨pre, R, l, g1, -, g3, -⟩
  · exact absurd hb nb
  · obtain ⟨e1, rfl⟩ := e g1
    exact ⟨R, e1, by simpa using g3⟩

/-- C98: if nothing is inserted into the directory or removed from it meanwhile (other objects may be changed, the backend may be disconnected), the listing is that of the
tree: `.`, `..` and the names. -/
theorem C98_quiet {w1 w2 w3 : World} (hr : Reach w) {p : Bytes} {x : Nat} (ho : step w (.opendir p) = .ok (w1, .handle (.ok x))) {tr : List (Call × Out)} (ht : Trace w1 tr w2)
    (hend : step w2 (.readdir x) = .ok (w3, .bytes (.error 0))) {a : Nat} (ha : find w.heap 0 p = .ok (.ok a)) {st : BStat} {ch : List (Bytes × Nat)} (hd : w.heap.obj a = some (.dir st ch))
    (hq : ∀ c out, (c, out) ∈ tr → (∀ n k o r, c ≠ .emplace a n k o r) ∧ ∀ n, c ≠ .remove a n) : returned x tr = [0x2e] :: [0x2e, 0x2e] :: ch.map Prod.fst := by
  obtain ⟨cs, a', st', names, h1, h2, h3, h4, h5, h6⟩ := going_start hr ho
  rw [ha] at h1; cases h1
  have hr1 : Reach w1 := hr.step (c := .opendir p) trivial ho
  have hx := h4
  unfold Heap.view at hx
  rw [← h3, h2] at hx
  simp only [h3, hd, Option.map_some, Option.some.injEq, Obj.obs, Obs.dir.injEq] at hx
  obtain ⟨-, rfl⟩ := hx
  have key : x < w2.nextHandle ∧ (Bad w2 x ∨ ∃ pre R l, Going w2 x cs (returned x tr) pre R l ∧ get w2.heap 0 cs = some a ∧ R ++ l = ch.map Prod.fst) := by
    clear hend ho h4 ha hr h3 hd
    induction ht with
    | nil => exact ⟨h5, .inr ⟨[], [], _, h6, h2, rfl⟩⟩
    | @snoc v tr c v' out htr hal hs ih =>
      have hru := htr.reach hr1
      obtain ⟨k1, k2⟩ := ih (fun c out hm => hq c out (List.mem_append_left _ hm))
      have he := step_eff hs
      obtain ⟨hq1, hq2⟩ := hq c out (by simp)
      refine ⟨Nat.lt_of_lt_of_le k1 (handles_grow he), ?_⟩
      rcases k2 with hb | ⟨pre, R, l, g1, g2, g3⟩
      · exact .inl (bad_stays hru.inv he hal k1 hb)
      · rcases going_step hru hal hs g1 with hb | ⟨pre', R', l', q1, q2⟩
        · exact .inl hb
        · right
          refine ⟨pre', R', l', by rw [returned_append]; exact q1, going_node he k1 g1 q1 g2, ?_⟩
          rcases q2 with e | ⟨b, m, k, o, s2, n2, rfl, e1, -⟩ | ⟨b, m, rfl, e1, -⟩
          · rw [e]; exact g3
          · rw [g2] at e1; cases e1; exact absurd rfl (hq1 _ _ _ _)
          · rw [g2] at e1; cases e1; exact absurd rfl (hq2 _)
  obtain ⟨-, k⟩ := key
  obtain ⟨nb, e⟩ := going_end (ht.reach hr1) hend
  rcases k with hb | ⟨pre, R, l, g1, -, g3⟩
  · exact absurd hb nb
  · obtain ⟨e1, rfl⟩ := e g1
    rw [e1, ← g3, List.append_nil]

/-! ### In full -/

/-- C98 in full: as long as a handle is not closed, its calls are defined (and so are those through the pointer which `emplace` returned). -/
def C98_full : Prop := ∀ w, Reach w → (∀ x a, w.files x = some a → ∃ r, step w (.fstat x) = .ok r) ∧ (∀ x d, w.dirs x = some d → ∃ r, step w (.readdir x) = .ok r) ∧
  ∀ a n k o r w' b, Allowed w (.emplace a n k o r) → step w (.emplace a n k o r) = .ok (w', .ptr (.ok b)) → ∀ s, ∃ q, step w' (.updateAttr b s) = .ok q

/-- `Allowed`, as a test. -/
def allowedB (w : World) : Call → Bool
  | .emplace a name _ order rehash => match w.heap.obj a with
    | some (.dir _ ch) => (ch.lookup name).isSome || (order.isPerm ((name, w.heap.next) :: ch) && (rehash || order.filter (fun x => x.1 != name) = ch))
    | _ => true
  | _ => true

theorem allowedB_ok (h : allowedB w c = true) : Allowed w c := by
  cases c with
  | emplace a name k order rehash =>
    intro st ch h1 h2
    simp only [allowedB, h1, h2, Option.isSome_none, Bool.false_or, Bool.and_eq_true, Bool.or_eq_true, decide_eq_true_eq] at h
    refine ⟨List.isPerm_iff.mp h.1, fun hr => ?_⟩
    rcases h.2 with h3 | h3
    · rw [hr] at h3; cases h3
    · exact h3
  | _ => trivial

/-- A history, from a new file system. -/
def runH (w : World) : List Call → Option (World × List Out)
  | [] => some (w, [])
  | c :: cs => if allowedB w c then match step w c with
      | .ok (w', out) => (runH w' cs).map fun r => (r.1, out :: r.2)
      | .error _ => none
    else none

theorem runH_reach {l : List Call} : ∀ {w w' outs}, Reach w → runH w l = some (w', outs) → Reach w' := by
  induction l with
  | nil => intro w w' outs hr h; cases h; exact hr
  | cons c cs ih =>
    intro w w' outs hr h
    simp only [runH] at h
    by_cases ha : allowedB w c = true
    · rw [if_pos ha] at h
      cases hs : step w c with
      | error e => rw [hs] at h; cases h
      | ok r =>
        obtain ⟨w1, out⟩ := r
        rw [hs] at h
        simp only [Option.map_eq_some_iff] at h
        obtain ⟨⟨w2, o2⟩, h1, h2⟩ := h
        cases h2
        exact ih (hr.step (allowedB_ok ha) hs) h1
    · rw [if_neg ha] at h; cases h

/-- The state after a history (the start, if it is not one). -/
def afterH (l : List Call) : World := match runH World.start l with | some r => r.1 | none => World.start

theorem afterH_reach (l : List Call) : Reach (afterH l) := by
  unfold afterH
  cases h : runH World.start l with
  | none => exact .start
  | some r => obtain ⟨w', o⟩ := r; exact runH_reach .start h

/-- A directory `d` (at 1) with files `a` (at 2) and `b` (at 3); a handle (0) of `d/a`; a handle (1) of `d`. -/
def storyH : List Call :=
  [.emplace 0 [0x64] .dir [([0x64], 1)] false, .emplace 1 [0x61] .file [([0x61], 2)] false, .emplace 1 [0x62] .file [([0x61], 2), ([0x62], 3)] false,
    .open_ "/d/a".toUTF8.toList, .opendir "/d".toUTF8.toList]

def failsH (l : List Call) (c : Call) (line : Nat) : Bool := (runH World.start l).isSome && match step (afterH l) c with | .error (.ub k) => k == line | _ => false

theorem failsH_ok {l : List Call} {c : Call} {line : Nat} (h : failsH l c line = true) : step (afterH l) c = .error (.ub line) := by
  unfold failsH at h
  simp only [Bool.and_eq_true] at h
  have h := h.2
  revert h
  cases step (afterH l) c with
  | ok r => intro h; cases h
  | error e => cases e <;> intro h <;> simp at h; rw [h]

/-- It is false: after the removal of an open file a call of its handle is undefined; so is `readdir` after the removal of an open directory, after the removal
of the name which would be next, and after an insertion which rehashes; so is a call through the result of `emplace` of a name which exists. -/
theorem C98_counterexample : ¬ C98_full ∧
    step (afterH (storyH ++ [.remove 1 [0x61]])) (.fstat 0) = .error (.ub 220) ∧
    step (afterH (storyH ++ [.readdir 1, .readdir 1, .remove 0 [0x64]])) (.readdir 1) = .error (.ub 181) ∧
    step (afterH (storyH ++ [.readdir 1, .readdir 1, .remove 1 [0x61]])) (.readdir 1) = .error (.ub 181) ∧
    step (afterH (storyH ++ [.readdir 1, .readdir 1, .emplace 1 [0x63] .file [([0x63], 4), ([0x62], 3), ([0x61], 2)] true])) (.readdir 1) = .error (.ub 181) ∧
    step (afterH (storyH ++ [.emplace 1 [0x61] .file [] false])) (.updateAttr 4 zeroStat) = .error (.ub 45) := by
  have h1 : step (afterH (storyH ++ [.remove 1 [0x61]])) (.fstat 0) = .error (.ub 220) := failsH_ok (by decide +kernel)
  refine ⟨fun hf => ?_, h1, failsH_ok (by decide +kernel), failsH_ok (by decide +kernel), failsH_ok (by decide +kernel), failsH_ok (by decide +kernel)⟩
  have hx : ((afterH (storyH ++ [.remove 1 [0x61]])).files 0) = some 2 := by decide +kernel
  obtain ⟨r, hr⟩ := (hf _ (afterH_reach _)).1 0 2 hx
  rw [h1] at hr; cases hr

theorem runH_trace {u : World} {l : List Call} : ∀ {w w' outs tr}, Trace u tr w → runH w l = some (w', outs) → Trace u (tr ++ l.zip outs) w' := by
  induction l with
  | nil => intro w w' outs tr ht h; cases h; simpa using ht
  | cons c cs ih =>
    intro w w' outs tr ht h
    simp only [runH] at h
    by_cases ha : allowedB w c = true
    · rw [if_pos ha] at h
      cases hs : step w c with
      | error e => rw [hs] at h; cases h
      | ok r =>
        obtain ⟨w1, out⟩ := r
        rw [hs] at h
        simp only [Option.map_eq_some_iff] at h
        obtain ⟨⟨w2, o2⟩, h1, h2⟩ := h
        cases h2
        have := ih (ht.snoc (allowedB_ok ha) hs) h1
        simpa using this
    · rw [if_neg ha] at h; cases h

/-- What a call, a history after it and another call return. -/
def probeH (w : World) (c : Call) (l : List Call) (c' : Call) : Option (Out × List Out × Out) :=
  match step w c with
  | .ok (w1, out) => match runH w1 l with
    | some (w2, outs) => match step w2 c' with
      | .ok (_, out') => some (out, outs, out')
      | .error _ => none
    | none => none
  | .error _ => none

theorem probeH_ok {c : Call} {l : List Call} {c' : Call} {out out' : Out} {outs : List Out} (h : probeH w c l c' = some (out, outs, out')) :
    ∃ w1 w2 w3, step w c = .ok (w1, out) ∧ Trace w1 (l.zip outs) w2 ∧ step w2 c' = .ok (w3, out') := by
  unfold probeH at h
  cases h1 : step w c with
  | error e => rw [h1] at h; cases h
  | ok r =>
    obtain ⟨w1, o1⟩ := r
    rw [h1] at h
    simp only at h
    cases h2 : runH w1 l with
    | none => rw [h2] at h; cases h
    | some r =>
      obtain ⟨w2, o2⟩ := r
      rw [h2] at h
      simp only at h
      cases h3 : step w2 c' with
      | error e => rw [h3] at h; cases h
      | ok r =>
        obtain ⟨w3, o3⟩ := r
        rw [h3] at h
        cases h
        exact ⟨w1, w2, w3, rfl, by simpa using runH_trace .nil h2, h3⟩

deriving instance DecidableEq for Obs, DirHandle, Obj

/-- A state as in `C98_tree`, `C98_find`, `C98_emplace` (a new name `c`), `C98_existing` (`a`), `C98_remove` and `C98_update`, `C98_open`: the directory `d` with `a` (`C98_find_leaf`) and `b`; handles 0 and 1 are open (`C98_close`). -/
example : Reach (afterH storyH) ∧ (afterH storyH).connected = true ∧ get (afterH storyH).heap 0 [[0x64]] = some 1 ∧
    (afterH storyH).heap.view [[0x64]] = some (.dir { zeroStat with mode := 0o040000 } [[0x61], [0x62]]) ∧
    (afterH storyH).heap.view [[0x64], [0x61]] = some (.file { zeroStat with mode := 0o100000 } []) ∧
    allowedB (afterH storyH) (.emplace 1 [0x63] (.link [0x61]) [([0x61], 2), ([0x63], 4), ([0x62], 3)] false) = true :=
  ⟨afterH_reach _, by decide +kernel, by decide +kernel, by decide +kernel, by decide +kernel, by decide +kernel⟩

/-- The handle 0 there is that of `d/a` (`C98_handle`, `C98_exact`); it is also after it was written to, the backend was disconnected and `b` was
removed (`C98_stays_partial`); the removal of `d` (`C98_dangles`) leaves it dangling. -/
example : FileAt (afterH storyH) 0 [[0x64], [0x61]] ∧ FileAt (afterH (storyH ++ [.pwrite 0 [1, 2] 1, .setConnected false, .remove 1 [0x62]])) 0 [[0x64], [0x61]] ∧
    step (afterH (storyH ++ [.remove 0 [0x64]])) (.pread 0 1 0) = .error (.ub 228) :=
  ⟨⟨2, by decide +kernel, by decide +kernel⟩, ⟨2, by decide +kernel, by decide +kernel⟩, failsH_ok (by decide +kernel)⟩

/-- `C98_never`: the pointer to `d/a` after its removal. -/
example : 2 < (afterH (storyH ++ [.remove 1 [0x61]])).heap.next ∧ ∀ es, get (afterH (storyH ++ [.remove 1 [0x61]])).heap 0 es ≠ some 2 := by
  have hr := (afterH_reach (storyH ++ [.remove 1 [0x61]])).inv
  refine ⟨by decide +kernel, fun es h => ?_⟩
  have h1 := (hr.wf.live_get hr.wf.root_live h).1
  have h2 : ((afterH (storyH ++ [.remove 1 [0x61]])).heap.obj 2).isSome = false := by decide +kernel
  rw [h2] at h1; cases h1

/-- A handle as in `C98_readdir`, `C98_listing_partial`, `C98_opendir` and `C98_broken`, when the dots were returned: `a` and `b` are to come. -/
example : ListAt (afterH (storyH ++ [.readdir 1, .readdir 1])) 1 [[0x64]] [] [[0x61], [0x62]] := by
  exact ⟨⟨1, 2, .at [0x61]⟩, { zeroStat with mode := 0o040000 }, [([0x61], 2), ([0x62], 3)], by decide +kernel, rfl, by decide +kernel, by decide +kernel, by decide +kernel⟩

/-- A listing as in `C98_once`: meanwhile `c` is inserted before `b`, and `a`, once returned, is removed; `b` is returned once, `c` too. -/
example : ∃ w1 w2 w3 tr, Reach (afterH storyH) ∧ step (afterH storyH) (.opendir "/d".toUTF8.toList) = .ok (w1, .handle (.ok 2)) ∧ Trace w1 tr w2 ∧
    step w2 (.readdir 2) = .ok (w3, .bytes (.error 0)) ∧ returned 2 tr = [[0x2e], [0x2e, 0x2e], [0x61], [0x63], [0x62]] ∧ (∀ out, (Call.remove 1 [0x62], out) ∉ tr) := by
  obtain ⟨w1, w2, w3, h1, h2, h3⟩ := probeH_ok (w := afterH storyH) (c := .opendir "/d".toUTF8.toList) (c' := .readdir 2) (out := .handle (.ok 2)) (out' := .bytes (.error 0))
    (l := [.readdir 2, .readdir 2, .emplace 1 [0x63] .file [([0x61], 2), ([0x63], 4), ([0x62], 3)] false, .readdir 2, .remove 1 [0x61], .readdir 2, .readdir 2])
    (outs := [.bytes (.ok [0x2e]), .bytes (.ok [0x2e, 0x2e]), .ptr (.ok 4), .bytes (.ok [0x61]), .unit, .bytes (.ok [0x63]), .bytes (.ok [0x62])]) (by decide +kernel)
  exact ⟨w1, w2, w3, _, afterH_reach _, h1, h2, h3, by simp [returned], fun out h => by simp at h⟩

/-- A listing as in `C98_quiet`: meanwhile the backend is disconnected, a file is written to and the root gets an entry. -/
example : ∃ w1 w2 w3 tr, step (afterH storyH) (.opendir "/d".toUTF8.toList) = .ok (w1, .handle (.ok 2)) ∧ Trace w1 tr w2 ∧ step w2 (.readdir 2) = .ok (w3, .bytes (.error 0)) ∧
    (∀ c out, (c, out) ∈ tr → (∀ n k o r, c ≠ .emplace 1 n k o r) ∧ ∀ n, c ≠ .remove 1 n) ∧ returned 2 tr = [[0x2e], [0x2e, 0x2e], [0x61], [0x62]] := by
  obtain ⟨w1, w2, w3, h1, h2, h3⟩ := probeH_ok (w := afterH storyH) (c := .opendir "/d".toUTF8.toList) (c' := .readdir 2) (out := .handle (.ok 2)) (out' := .bytes (.error 0))
    (l := [.readdir 2, .readdir 2, .setConnected false, .readdir 2, .pwrite 0 [1] 0, .emplace 0 [0x65] .dir [([0x65], 4), ([0x64], 1)] true, .readdir 2])
    (outs := [.bytes (.ok [0x2e]), .bytes (.ok [0x2e, 0x2e]), .unit, .bytes (.ok [0x61]), .num (.ok 1), .ptr (.ok 4), .bytes (.ok [0x62])]) (by decide +kernel)
  refine ⟨w1, w2, w3, _, h1, h2, h3, ?_, by simp [returned]⟩
  intro c out h
  simp at h
  rcases h with h | h | h | h | h | h | h <;> obtain ⟨rfl, -⟩ := h <;> exact ⟨fun _ _ _ _ h => by simp at h, fun _ h => by simp at h⟩

end Dragonstash.MemHeap
