/-
  C61: changes of the tree of the in-memory backend. C62: what its calls return, by the kind of object.
-/
import Verif.Props.InMemory
namespace Dragonstash.InMem
open Cache FS

/-- What can be seen of one object: its attributes, and its contents. -/
inductive Obs where
  | file (attr : BStat) (data : Bytes)
  | link (attr : BStat) (dest : Bytes)
  | dir (attr : BStat) (names : List Bytes)

def Node.obs : Node → Obs
  | .file a d => .file a d
  | .link a d => .link a d
  | .dir a ch => .dir a (ch.map Prod.fst)

/-- The object at the end of a path. -/
def Node.get (n : Node) : List Bytes → Option Node
  | [] => some n
  | c :: cs => match n with
    | .dir _ ch => match ch.lookup c with
      | none => none
      | some k => k.get cs
    | _ => none

/-- The tree as a map from paths to what can be seen there. -/
def Node.view (n : Node) (cs : List Bytes) : Option Obs := (n.get cs).map Node.obs

theorem get_iff {n m : Node} {cs : List Bytes} : n.get cs = some m ↔ Reaches n cs m := by
  induction cs generalizing n with
  | nil => exact ⟨fun h => by cases h; exact .here, fun h => by cases h; rfl⟩
  | cons c cs ih =>
    cases n with
    | file => exact ⟨fun h => (by cases h), fun h => (by cases h)⟩
    | link => exact ⟨fun h => (by cases h), fun h => (by cases h)⟩
    | dir a ch =>
      simp only [Node.get]
      cases hl : ch.lookup c with
      | none => exact ⟨fun h => (by cases h), fun h => by cases h with | down h1 => rw [hl] at h1; cases h1⟩
      | some k =>
        simp only [ih]
        exact ⟨fun h => .down hl h, fun h => by cases h with | down h1 h2 => rw [hl] at h1; cases h1; exact h2⟩

theorem updChild_names (ch : List (Bytes × Node)) (c : Bytes) (g : Node → Node) : (updChild ch c g).map Prod.fst = ch.map Prod.fst := by
  induction ch with
  | nil => rfl
  | cons x l ih =>
    unfold updChild
    split
    · rfl
    · simp [ih]

theorem updChild_lookup (ch : List (Bytes × Node)) (c c' : Bytes) (g : Node → Node) :
    (updChild ch c g).lookup c' = if c' = c then (ch.lookup c).map g else ch.lookup c' := by
  induction ch with
  | nil => simp [updChild]
  | cons x l ih =>
    obtain ⟨m, k⟩ := x
    unfold updChild
    by_cases hm : m = c
    · subst hm
      rw [if_pos rfl, List.lookup_cons, List.lookup_cons]
      by_cases hc : c' = m
      · subst hc; simp
      · rw [if_neg hc, List.lookup_cons, show (c' == m) = false by simpa using hc]
    · rw [if_neg hm, List.lookup_cons, ih]
      by_cases hc : c' = m
      · subst hc
        simp [hm]
      · rw [show (c' == m) = false by simpa using hc]
        simp only
        rw [show ((m, k) :: l).lookup c = l.lookup c by rw [List.lookup_cons, show (c == m) = false by simp; exact fun h => hm h.symm],
          show ((m, k) :: l).lookup c' = l.lookup c' by rw [List.lookup_cons, show (c' == m) = false by simpa using hc]]

/-- A change at a path is seen below this path only. -/
theorem view_edit {ds : List Bytes} {g : Node → Node} {k : Node} : ∀ {n : Node}, n.get ds = some k → ∀ es,
    (n.edit ds g).view es = if ds <+: es then (g k).view (es.drop ds.length) else n.view es := by
  induction ds with
  | nil => intro n h es; cases h; simp [Node.edit]
  | cons c ds ih =>
    intro n h es
    cases n with
    | file => cases h
    | link => cases h
    | dir a ch =>
      simp only [Node.get] at h
      cases hl : ch.lookup c with
      | none => rw [hl] at h; cases h
      | some m =>
        rw [hl] at h
        simp only at h
        cases es with
        | nil => rw [if_neg (by simp)]; simp [Node.edit, Node.view, Node.get, Node.obs, updChild_names]
        | cons e es =>
          simp only [Node.edit, Node.view, Node.get, updChild_lookup]
          by_cases he : e = c
          · subst he
            rw [if_pos rfl, hl]
            simp only [Option.map_some]
            have := ih h es
            simp only [Node.view] at this
            rw [this]
            simp [List.cons_prefix_cons]
          · rw [if_neg he, if_neg (by rw [List.cons_prefix_cons]; exact fun hh => he hh.1.symm)]

/-- `emplace` of a name which the directory does not have: there is the new object; the directory has one
more name; everything else is as before. -/
theorem C61_emplace {root new : Node} {ds : List Bytes} {c : Bytes} {a : BStat} {ch : List (Bytes × Node)} (hd : root.get ds = some (.dir a ch)) (hc : ch.lookup c = none) (es : List Bytes) :
    (root.emplaceAt ds c new).view es =
      if ds ++ [c] <+: es then new.view (es.drop (ds.length + 1))
      else if es = ds then some (.dir a (ch.map Prod.fst ++ [c]))
      else root.view es := by
  unfold Node.emplaceAt
  rw [view_edit hd]
  by_cases hp : ds <+: es
  · rw [if_pos hp]
    obtain ⟨t, rfl⟩ := hp
    simp only [addChild, hc, Option.isSome_none, Bool.false_eq_true, if_false, List.drop_left]
    cases t with
    | nil =>
      rw [if_neg (by intro h; have := h.length_le; simp at this; omega), if_pos (by simp)]
      simp [Node.view, Node.get, Node.obs]
    | cons x t =>
      have hne : ds ++ x :: t ≠ ds := by simp
      rw [if_neg hne]
      have hpre : ds ++ [c] <+: ds ++ x :: t ↔ c = x := by
        rw [List.prefix_append_right_inj, List.cons_prefix_cons]; simp
      have hdrop : (ds ++ x :: t).drop (ds.length + 1) = t := by rw [← List.drop_drop, List.drop_left]; rfl
      simp only [hpre, hdrop, Node.view, Node.get, List.lookup_append]
      by_cases hx : c = x
      · subst hx; rw [if_pos rfl, hc]; simp
      · rw [if_neg hx]
        have hg : root.get (ds ++ x :: t) = (match ch.lookup x with | none => none | some k => k.get t) := by
          have key : ∀ {n : Node} {as bs m}, n.get as = some m → n.get (as ++ bs) = m.get bs := by
            intro n as
            induction as generalizing n with
            | nil => intro bs m h; cases h; rfl
            | cons b as ih =>
              intro bs m h
              cases n with
              | file => cases h
              | link => cases h
              | dir a' ch' =>
                simp only [Node.get, List.cons_append] at h ⊢
                cases hl : ch'.lookup b with
                | none => rw [hl] at h; cases h
                | some k => rw [hl] at h; simp only at h ⊢; exact ih h
          rw [key hd]; simp only [Node.get]
        rw [hg]
        have hl1 : List.lookup x [(c, new)] = none := by simp [List.lookup_cons, show (x == c) = false by simp; exact fun h => hx h.symm]
        rw [hl1]
        cases ch.lookup x <;> rfl
  · rw [if_neg hp, if_neg (fun h => hp ((List.prefix_append ds [c]).trans h)), if_neg (by rintro rfl; exact hp (List.prefix_refl _))]

theorem get_append {n : Node} {as bs : List Bytes} {m : Node} (h : n.get as = some m) : n.get (as ++ bs) = m.get bs := by
  induction as generalizing n with
  | nil => cases h; rfl
  | cons b as ih =>
    cases n with
    | file => cases h
    | link => cases h
    | dir a' ch' =>
      simp only [Node.get, List.cons_append] at h ⊢
      cases hl : ch'.lookup b with
      | none => rw [hl] at h; cases h
      | some k => rw [hl] at h; simp only at h ⊢; exact ih h

/-- `emplace` of a name which exists changes nothing. -/
theorem C61_existing {root new : Node} {ds : List Bytes} {c : Bytes} {a : BStat} {ch : List (Bytes × Node)} {k : Node} (hd : root.get ds = some (.dir a ch)) (hc : ch.lookup c = some k) (es : List Bytes) :
    (root.emplaceAt ds c new).view es = root.view es := by
  unfold Node.emplaceAt
  rw [view_edit hd]
  by_cases hp : ds <+: es
  · rw [if_pos hp]
    obtain ⟨t, rfl⟩ := hp
    simp only [addChild, hc, Option.isSome_some, if_true, List.drop_left]
    simp only [Node.view]
    rw [get_append hd]
  · rw [if_neg hp]

theorem delChild_lookup (ch : List (Bytes × Node)) (c x : Bytes) : (delChild ch c).lookup x = if x = c then none else ch.lookup x := by
  unfold delChild
  induction ch with
  | nil => simp
  | cons y l ih =>
    obtain ⟨m, k⟩ := y
    rw [List.filter_cons]
    by_cases hm : m = c
    · subst hm
      simp only [bne_self_eq_false, Bool.false_eq_true, if_false]
      rw [ih]
      by_cases hx : x = m
      · rw [if_pos hx, if_pos hx]
      · rw [if_neg hx, if_neg hx, List.lookup_cons, show (x == m) = false by simpa using hx]
    · rw [if_pos (by simpa using hm), List.lookup_cons, List.lookup_cons, ih]
      by_cases hx : x = m
      · subst hx; simp [hm]
      · rw [show (x == m) = false by simpa using hx]

/-- `remove`: what was below the name is gone; everything else is as before. -/
theorem C61_remove {root : Node} {ds : List Bytes} {c : Bytes} {a : BStat} {ch : List (Bytes × Node)} (hd : root.get ds = some (.dir a ch)) (es : List Bytes) :
    (root.removeAt ds c).view es =
      if ds ++ [c] <+: es then none
      else if es = ds then some (.dir a ((ch.map Prod.fst).filter (· != c)))
      else root.view es := by
  unfold Node.removeAt
  rw [view_edit hd]
  by_cases hp : ds <+: es
  · rw [if_pos hp]
    obtain ⟨t, rfl⟩ := hp
    simp only [List.drop_left]
    cases t with
    | nil =>
      rw [if_neg (by intro h; have := h.length_le; simp at this; omega), if_pos (by simp)]
      simp [Node.view, Node.get, Node.obs, delChild, List.filter_map, Function.comp_def]
    | cons x t =>
      have hne : ds ++ x :: t ≠ ds := by simp
      rw [if_neg hne]
      have hpre : ds ++ [c] <+: ds ++ x :: t ↔ c = x := by
        rw [List.prefix_append_right_inj, List.cons_prefix_cons]; simp
      simp only [hpre, Node.view, Node.get, get_append hd, delChild_lookup]
      by_cases hx : c = x
      · subst hx; simp
      · rw [if_neg hx, if_neg (fun h => hx h.symm)]
  · rw [if_neg hp, if_neg (fun h => hp ((List.prefix_append ds [c]).trans h)), if_neg (by rintro rfl; exact hp (List.prefix_refl _))]

/-- Attributes with a new value except for the type. -/
def Obs.setAttr (a : BStat) : Obs → Obs
  | .file _ d => .file a d
  | .link _ d => .link a d
  | .dir _ n => .dir a n

def Obs.attr : Obs → BStat
  | .file a _ => a
  | .link a _ => a
  | .dir a _ => a

theorem updateAttr_obs (k : Node) (a : BStat) : (k.updateAttr a).obs = k.obs.setAttr (k.updateAttr a).attr := by cases k <;> rfl

theorem updateAttr_get (k : Node) (a : BStat) {t : List Bytes} (ht : t ≠ []) : (k.updateAttr a).get t = k.get t := by
  cases t with
  | nil => exact absurd rfl ht
  | cons c t => cases k <;> rfl

/-- `update_attr`: the object has the new attributes except that its type stays (and its contents); all
other objects are as before. -/
theorem C61_update {root : Node} {ds : List Bytes} {k : Node} (hk : root.get ds = some k) (a : BStat) (es : List Bytes) :
    ∃ a', (root.updateAt ds a).view es = (if es = ds then some (k.obs.setAttr a') else root.view es) ∧
      a'.mode &&& 0o170000 = k.attr.mode &&& 0o170000 ∧ a'.mode &&& 0o7777 = a.mode &&& 0o7777 ∧
      a'.size = a.size ∧ a'.ino = a.ino ∧ a'.uid = a.uid ∧ a'.gid = a.gid ∧ a'.atime = a.atime ∧ a'.mtime = a.mtime ∧ a'.ctime = a.ctime := by
  have hattr : (k.updateAttr a).attr = { a with mode := fmt k.attr.mode ||| (a.mode &&& (0xffffffff ^^^ 0o170000)) } := by
    cases k <;> rfl
  refine ⟨(k.updateAttr a).attr, ?_, ?_, ?_, ?_⟩
  · unfold Node.updateAt
    rw [view_edit hk]
    by_cases hp : ds <+: es
    · rw [if_pos hp]
      obtain ⟨t, rfl⟩ := hp
      rw [List.drop_left]
      by_cases ht : t = []
      · subst ht; rw [if_pos (by simp)]; simp only [Node.view, Node.get, Option.map_some, updateAttr_obs]
      · rw [if_neg (by simpa using ht)]; simp only [Node.view, updateAttr_get k a ht, get_append hk]
    · rw [if_neg hp, if_neg (by rintro rfl; exact hp (List.prefix_refl _))]
  · rw [hattr]
    simp only [fmt]
    rw [Nat.and_or_distrib_right, Nat.and_assoc, Nat.and_self, Nat.and_assoc]
    simp
  · rw [hattr]
    simp only [fmt]
    rw [Nat.and_or_distrib_right, Nat.and_assoc, Nat.and_assoc]
    simp
  · rw [hattr]; exact ⟨rfl, rfl, rfl, rfl, rfl, rfl, rfl⟩

/-- A new object is empty and carries nothing but its type: no permissions, owner 0, size 0, inode 0, the
epoch as its times (constructors, src/backend/in_memory.cpp 59-94). -/
theorem C61_new (dest : Bytes) :
    newFile.view [] = some (.file ⟨0o100000, 0, 0, 0, 0, ⟨0, 0⟩, ⟨0, 0⟩, ⟨0, 0⟩⟩ []) ∧
    (newLink dest).view [] = some (.link ⟨0o120000, 0, 0, 0, 0, ⟨0, 0⟩, ⟨0, 0⟩, ⟨0, 0⟩⟩ dest) ∧
    newDir.view [] = some (.dir ⟨0o040000, 0, 0, 0, 0, ⟨0, 0⟩, ⟨0, 0⟩, ⟨0, 0⟩⟩ []) := ⟨rfl, rfl, rfl⟩

/-- The full property also says that the reference which `emplace` returns is to the object in the tree. -/
def C61_full : Prop := ∀ ch name n, emplaceRef ch name n = .ok n

/-- It is not, if the name exists: the reference is to an object which is destroyed already. -/
theorem C61_counterexample : ¬ C61_full := by
  intro h
  have := h [([0x61], newFile)] [0x61] newFile
  simp [emplaceRef] at this

theorem C61_ref_partial {ch : List (Bytes × Node)} {name : Bytes} {n : Node} (h : ch.lookup name = none) : emplaceRef ch name n = .ok n := by
  unfold emplaceRef; rw [h]; rfl

/-- The directory `a` as in `C61_emplace`, `C61_existing` (`b`), `C61_remove`, `C61_update` and `C61_ref_partial`; `C61_new` has no hypotheses. -/
example : memA.root.get [[0x61]] = some (.dir bDir [([0x62], .file (bFile 5) [1, 2, 3, 4, 5])]) := rfl
/-- A file `c` in directory `a`: it is there; `b` is as before. -/
example : (memA.root.emplaceAt [[0x61]] [0x63] newFile).view [[0x61], [0x63]] = some (.file { zeroStat with mode := S_IFREG } []) ∧
    (memA.root.emplaceAt [[0x61]] [0x63] newFile).view [[0x61]] = some (.dir bDir [[0x62], [0x63]]) ∧
    (memA.root.emplaceAt [[0x61]] [0x63] newFile).view [[0x61], [0x62]] = some (.file (bFile 5) [1, 2, 3, 4, 5]) := ⟨rfl, rfl, rfl⟩

/-! ### C62 -/

/-- The calls of a connected backend return what is at the path: attributes of any object, the target of
a link only, the names in a directory only (with `.` and `..` first), a file only. -/
theorem C62_calls (f : MemFS) (hf : f.connected = true) {cs : List Bytes} (hc : ∀ c ∈ cs, Component c) {o : Obs} (ho : f.root.view cs = some o) :
    f.lstat (backendPath (pathStr cs)) = .ok o.attr ∧
    f.readlink (backendPath (pathStr cs)) = (match o with | .link _ d => .ok d | _ => .error EINVAL) ∧
    f.opendir (backendPath (pathStr cs)) = (match o with | .dir _ names => .ok ([0x2e] :: [0x2e, 0x2e] :: names, 0) | _ => .error ENOTDIR) ∧
    f.open_ (backendPath (pathStr cs)) = (match o with | .file a d => .ok (.file a d) | .dir _ _ => .error EISDIR | .link _ _ => .error EINVAL) := by
  unfold Node.view at ho
  cases hg : f.root.get cs with
  | none => rw [hg] at ho; cases ho
  | some m =>
    rw [hg] at ho; cases ho
    have h1 := (C46_found f hc m).mpr (get_iff.mp hg)
    unfold MemFS.lstat MemFS.readlink MemFS.opendir MemFS.open_
    rw [hf, h1]
    cases m with
    | file a d => exact ⟨rfl, rfl, rfl, rfl⟩
    | link a d => exact ⟨rfl, rfl, rfl, rfl⟩
    | dir a ch =>
      refine ⟨rfl, rfl, ?_, rfl⟩
      simp only [Bool.not_true, Bool.false_eq_true, if_false, Node.obs]
      have drain : ∀ (l : List Bytes) (k : Nat), l.length < k → DirHandle.drain k ⟨2, l⟩ = (l, 0) := by
        intro l
        induction l with
        | nil => intro k hk; obtain ⟨k, rfl⟩ : ∃ j, k = j + 1 := ⟨k - 1, by simp at hk; omega⟩; rfl
        | cons x l ih =>
          intro k hk
          obtain ⟨k, rfl⟩ : ∃ j, k = j + 1 := ⟨k - 1, by simp at hk; omega⟩
          simp only [DirHandle.drain, DirHandle.readdir]
          rw [ih k (by simp at hk; omega)]
      have : DirHandle.drain (ch.length + 3) (openDir ch) = ([0x2e] :: [0x2e, 0x2e] :: ch.map Prod.fst, 0) := by
        have h3 := drain (ch.map Prod.fst) (ch.length + 1) (by simp)
        show ([0x2e] :: [0x2e, 0x2e] :: (DirHandle.drain (ch.length + 1) ⟨2, ch.map Prod.fst⟩).1, (DirHandle.drain (ch.length + 1) ⟨2, ch.map Prod.fst⟩).2) = _
        rw [h3]
      rw [this]

/-- Where there is nothing, all calls fail with the same error. -/
theorem C62_nothing (f : MemFS) (hf : f.connected = true) {cs : List Bytes} (hc : ∀ c ∈ cs, Component c) (ho : f.root.view cs = none) :
    ∃ e, (e = ENOENT ∨ e = ENOTDIR) ∧ f.lstat (backendPath (pathStr cs)) = .error e ∧ f.readlink (backendPath (pathStr cs)) = .error e ∧
      f.opendir (backendPath (pathStr cs)) = .error e ∧ f.open_ (backendPath (pathStr cs)) = .error e := by
  cases hx : f.root.find (backendPath (pathStr cs)) with
  | ok m =>
    have := get_iff.mpr ((C46_found f hc m).mp hx)
    unfold Node.view at ho; rw [this] at ho; cases ho
  | error e =>
    refine ⟨e, (C46_errors f hc).2.2 e hx, ?_⟩
    unfold MemFS.lstat MemFS.readlink MemFS.opendir MemFS.open_
    rw [hf, hx]
    exact ⟨rfl, rfl, rfl, rfl⟩

/-- Disconnected, every call fails with ENOTCONN, which is the error which the filesystem layer takes as
the sign to use its cache. -/
theorem C62_disconnected (f : MemFS) (hf : f.connected = false) (p : Bytes) :
    f.lstat p = .error ENOTCONN ∧ f.readlink p = .error ENOTCONN ∧ f.opendir p = .error ENOTCONN ∧ f.open_ p = .error ENOTCONN := by
  unfold MemFS.lstat MemFS.readlink MemFS.opendir MemFS.open_
  rw [hf]
  exact ⟨rfl, rfl, rfl, rfl⟩

/-- The hypotheses of `C62_calls` and `C62_nothing`. -/
example : memA.connected = true ∧ memA.root.view [[0x6c]] = some (.link bLink [0x61]) ∧ memA.root.view [[0x61], [0x63]] = none := ⟨rfl, rfl, rfl⟩

end Dragonstash.InMem
