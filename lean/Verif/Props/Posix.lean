/-
  C102: the assumptions about hosts hold on every file system whose paths are resolved as POSIX says.
-/
import Verif.Backend.Posix
namespace Dragonstash.Local
open Cache FS

variable {F F' : HTree} {cwd : List Bytes} {root : Bytes}

/-! ### Empty pieces -/

/-- The pieces without empty ones, except at the end. -/
def sq : List Bytes → List Bytes
  | [] => []
  | [c] => [c]
  | c :: d :: l => if c = [] then sq (d :: l) else c :: sq (d :: l)

theorem sq_ne : ∀ {l : List Bytes}, l ≠ [] → sq l ≠ []
  | [], h => absurd rfl h
  | [c], _ => by simp [sq]
  | c :: d :: l, _ => by
    unfold sq
    split
    · exact sq_ne (by simp)
    · simp

theorem sq_cons {c : Bytes} {l : List Bytes} (h : l ≠ []) : sq (c :: l) = if c = [] then sq l else c :: sq l := by
  obtain ⟨d, l, rfl⟩ := List.exists_cons_of_ne_nil h
  rfl

theorem sq_sq : ∀ (l : List Bytes), sq (sq l) = sq l
  | [] => rfl
  | [c] => rfl
  | c :: d :: l => by
    have ih := sq_sq (d :: l)
    rw [sq_cons (by simp)]
    split
    · exact ih
    · rename_i h
      rw [sq_cons (sq_ne (by simp)), if_neg h, ih]

theorem sq_append {ps : List Bytes} : ∀ x : List Bytes, sq (x ++ sq ps) = sq (x ++ ps) := by
  intro x
  induction x with
  | nil => exact sq_sq ps
  | cons c x ih =>
    by_cases hp : ps = []
    · subst hp; rfl
    · rw [List.cons_append, List.cons_append, sq_cons (by simp [sq_ne hp]), sq_cons (by simp [hp]), ih]

theorem sq_eq : ∀ (l : List Bytes), sq l = l.filter (· ≠ []) ++ if l.getLast? = some [] then [[]] else []
  | [] => rfl
  | [c] => by
    by_cases h : c = []
    · subst h; rfl
    · simp [sq, h]
  | c :: d :: l => by
    rw [sq_cons (by simp), sq_eq (d :: l), List.getLast?_cons_cons]
    by_cases h : c = []
    · rw [if_pos h]; subst h; rfl
    · rw [if_neg h, List.filter_cons_of_pos (a := c) (l := d :: l) (by simpa using h)]; rfl

theorem walkIn_sq {follow : Bool} {next : List Bytes → List Bytes → Res (List Bytes)} (hn : ∀ l x ps, next l (x ++ sq ps) = next l (x ++ ps)) :
    ∀ (ps loc : List Bytes), walkIn F follow next loc (sq ps) = walkIn F follow next loc ps := by
  intro ps
  induction ps with
  | nil => intro loc; rfl
  | cons c ps ih =>
    intro loc
    by_cases hps : ps = []
    · subst hps; rfl
    · rw [sq_cons hps]
      by_cases hc : c = []
      · subst hc
        rw [if_pos rfl, ih]
        obtain ⟨d, l, rfl⟩ := List.exists_cons_of_ne_nil hps
        rw [walkIn.eq_2 F follow next loc [] (d :: l)]
        cases hF : F loc with
        | none => simp only [walkIn, hF]
        | some o =>
          simp only
          by_cases ho : o.names = none
          · rw [if_pos ho]; simp only [walkIn, hF, if_pos ho]
          · rw [if_neg ho, if_pos (by simp)]
      · rw [if_neg hc]
        have hne := sq_ne hps
        have e1 : ∀ a : Prop, (sq ps = [] ∧ a) = (ps = [] ∧ a) := fun a => by simp [hne, hps]
        simp only [walkIn, ih, e1, hn]

theorem walk_sq {follow : Bool} : ∀ (b : Nat) (ps loc : List Bytes), walk F follow b loc (sq ps) = walk F follow b loc ps := by
  intro b
  induction b with
  | zero => exact walkIn_sq (fun _ _ _ => rfl)
  | succ b ih =>
    refine walkIn_sq (fun l x ps => ?_)
    rw [← ih (x ++ sq ps), sq_append, ih]

/-! ### Going on -/

theorem walkIn_error {follow : Bool} {next : List Bytes → List Bytes → Res (List Bytes)} (hn : ∀ l ps e, next l ps = .error e → NotThere e) :
    ∀ (ps loc : List Bytes) (e : Errno), walkIn F follow next loc ps = .error e → NotThere e := by
  intro ps
  induction ps with
  | nil => intro loc e h; cases h
  | cons c ps ih =>
    intro loc e h
    unfold walkIn at h
    cases hF : F loc with
    | none => rw [hF] at h; cases h; exact .inl rfl
    | some o =>
      rw [hF] at h
      simp only at h
      by_cases h1 : o.names = none
      · rw [if_pos h1] at h; cases h; exact .inr (.inl rfl)
      rw [if_neg h1] at h
      by_cases h2 : c = [] ∨ c = [0x2e]
      · rw [if_pos h2] at h; exact ih _ _ h
      rw [if_neg h2] at h
      by_cases h3 : c = [0x2e, 0x2e]
      · rw [if_pos h3] at h; exact ih _ _ h
      rw [if_neg h3] at h
      by_cases h4 : 255 < c.length
      · rw [if_pos h4] at h; cases h; exact .inr (.inr (.inr rfl))
      rw [if_neg h4] at h
      cases hG : F (loc ++ [c]) with
      | none => rw [hG] at h; cases h; exact .inl rfl
      | some o' =>
        rw [hG] at h
        simp only at h
        cases ht : o'.target with
        | none => rw [ht] at h; exact ih _ _ h
        | some t =>
          rw [ht] at h
          simp only at h
          by_cases h5 : ps = [] ∧ follow = false
          · rw [if_pos h5] at h; cases h
          rw [if_neg h5] at h
          by_cases h6 : t = []
          · rw [if_pos h6] at h; cases h; exact .inl rfl
          rw [if_neg h6] at h
          exact hn _ _ _ h

theorem walk_error {follow : Bool} : ∀ (b : Nat) (ps loc : List Bytes) (e : Errno), walk F follow b loc ps = .error e → NotThere e := by
  intro b
  induction b with
  | zero => exact walkIn_error (fun _ _ e h => by cases h; exact .inr (.inr (.inl rfl)))
  | succ b ih => exact walkIn_error (fun l ps e h => ih ps l e h)

/-- What the rest of a path leads to, after the first part has led to `l`. -/
def Leads (F : HTree) (fol fol' : Bool) (l qs : List Bytes) : Prop :=
  if fol then fol' = true ∨ qs ≠ [] else ∀ o, F l = some o → o.target = none

theorem walkIn_append {fol fol' : Bool} {next next' : List Bytes → List Bytes → Res (List Bytes)} {b : Nat} {l qs : List Bytes} (hl : Leads F fol fol' l qs)
    (hn : ∀ s ps, next s ps = .ok l → ∃ b', next' s (ps ++ qs) = walk F fol' b' l qs) (hb : walk F fol' b = walkIn F fol' next') :
    ∀ (ps loc : List Bytes), walkIn F fol next loc ps = .ok l → ∃ b', walkIn F fol' next' loc (ps ++ qs) = walk F fol' b' l qs := by
  intro ps
  induction ps with
  | nil => intro loc h; cases h; exact ⟨b, by rw [hb]; rfl⟩
  | cons c ps ih =>
    intro loc h
    rw [List.cons_append]
    unfold walkIn at h ⊢
    cases hF : F loc with
    | none => rw [hF] at h; cases h
    | some o =>
      rw [hF] at h
      simp only at h ⊢
      by_cases h1 : o.names = none
      · rw [if_pos h1] at h; cases h
      rw [if_neg h1] at h ⊢
      by_cases h2 : c = [] ∨ c = [0x2e]
      · rw [if_pos h2] at h ⊢; exact ih _ h
      rw [if_neg h2] at h ⊢
      by_cases h3 : c = [0x2e, 0x2e]
      · rw [if_pos h3] at h ⊢; exact ih _ h
      rw [if_neg h3] at h ⊢
      by_cases h4 : 255 < c.length
      · rw [if_pos h4] at h; cases h
      rw [if_neg h4] at h ⊢
      cases hG : F (loc ++ [c]) with
      | none => rw [hG] at h; cases h
      | some o' =>
        rw [hG] at h
        simp only at h ⊢
        cases ht : o'.target with
        | none => rw [ht] at h; exact ih _ h
        | some t =>
          rw [ht] at h
          simp only at h ⊢
          by_cases h5 : ps = [] ∧ fol = false
          · rw [if_pos h5] at h; cases h
            unfold Leads at hl
            rw [if_neg (by simp [h5.2])] at hl
            have := hl o' hG
            rw [ht] at this; cases this
          rw [if_neg h5] at h
          by_cases h6 : t = []
          · rw [if_pos h6] at h; cases h
          rw [if_neg h6] at h
          have h5' : ¬ (ps ++ qs = [] ∧ fol' = false) := by
            rintro ⟨e1, e2⟩
            rw [List.append_eq_nil_iff] at e1
            cases fol with
            | false => exact h5 ⟨e1.1, rfl⟩
            | true =>
              unfold Leads at hl
              rw [if_pos rfl] at hl
              rcases hl with hl | hl
              · rw [hl] at e2; cases e2
              · exact hl e1.2
          rw [if_neg h5', if_neg h6, ← List.append_assoc]
          exact hn _ _ h

theorem walk_append {fol fol' : Bool} {l qs : List Bytes} (hl : Leads F fol fol' l qs) :
    ∀ (b : Nat) (ps loc : List Bytes), walk F fol b loc ps = .ok l → ∃ b', walk F fol' b loc (ps ++ qs) = walk F fol' b' l qs := by
  intro b
  induction b with
  | zero => exact walkIn_append (b := 0) hl (fun s ps h => by cases h) rfl
  | succ b ih => exact walkIn_append (b := b + 1) hl (fun s ps h => ih ps s h) rfl

theorem walk_nil {fol : Bool} {b : Nat} {l : List Bytes} : walk F fol b l [] = .ok l := by
  cases b <;> rfl

theorem walk_next (fol : Bool) (b : Nat) : ∃ next, walk F fol b = walkIn F fol next := by
  cases b <;> exact ⟨_, rfl⟩

/-- One name, not followed. -/
theorem walk_one {b : Nat} {l : List Bytes} {n : Bytes} (hn : Plain n) {o : Obj} (ho : F l = some o) (hd : o.names ≠ none) :
    walk F false b l [n] = if 255 < n.length then .error ENAMETOOLONG else match F (l ++ [n]) with | none => .error ENOENT | some _ => .ok (l ++ [n]) := by
  obtain ⟨next, h⟩ := walk_next (F := F) false b
  rw [h]
  unfold walkIn
  rw [ho]
  simp only
  rw [if_neg hd, if_neg (by rintro (h | h); exact hn.1.1 h; exact hn.2.1 h), if_neg hn.2.2.1]
  by_cases hlen : 255 < n.length
  · rw [if_pos hlen, if_pos hlen]
  · rw [if_neg hlen, if_neg hlen]
    cases hx : F (l ++ [n]) with
    | none => rfl
    | some x =>
      simp only
      cases ht : x.target with
      | none => rfl
      | some t => simp

theorem walk_dot {fol : Bool} {b : Nat} {l : List Bytes} {o : Obj} (ho : F l = some o) (hd : o.names ≠ none) {c : Bytes} (hc : c = [] ∨ c = [0x2e]) :
    walk F fol b l [c] = .ok l := by
  obtain ⟨next, h⟩ := walk_next (F := F) fol b
  rw [h]
  unfold walkIn
  rw [ho]
  simp only
  rw [if_neg hd, if_pos hc]; rfl

theorem walk_dotdot {fol : Bool} {b : Nat} {l : List Bytes} {o : Obj} (ho : F l = some o) (hd : o.names ≠ none) :
    walk F fol b l [[0x2e, 0x2e]] = .ok l.dropLast := by
  obtain ⟨next, h⟩ := walk_next (F := F) fol b
  rw [h]
  unfold walkIn
  rw [ho]
  simp only
  rw [if_neg hd, if_neg (by decide), if_pos (by simp)]; rfl

/-! ### Paths -/

/-- Where a path starts. -/
def start (cwd : List Bytes) (root : Bytes) : List Bytes := if root.head? = some 0x2f then [] else cwd

theorem pieces_last : ∀ {p : Bytes}, p ≠ [] → ((pieces p).getLast? = some [] ↔ p.getLast? = some 0x2f) := by
  intro p
  induction p with
  | nil => intro h; exact absurd rfl h
  | cons c l ih =>
    intro _
    by_cases hl : l = []
    · subst hl
      by_cases hc : c = 0x2f
      · subst hc; decide
      · simp [pieces, hc]
    · have ih := ih hl
      obtain ⟨d, l', rfl⟩ := List.exists_cons_of_ne_nil hl
      rw [List.getLast?_cons_cons, ← ih]
      by_cases hc : c = 0x2f
      · subst hc
        rw [pieces, if_pos rfl]
        obtain ⟨x, t, hx⟩ := List.exists_cons_of_ne_nil (pieces_ne (d :: l'))
        rw [hx, List.getLast?_cons_cons]
      · rw [pieces, if_neg hc]
        obtain ⟨x, t, hx⟩ := List.exists_cons_of_ne_nil (pieces_ne (d :: l'))
        rw [hx]
        simp only
        cases t with
        | nil =>
          have : x = [] → False := by
            rintro rfl
            have hd : d ≠ 0x2f → False := by
              intro hd
              rw [pieces, if_neg hd] at hx
              cases hy : pieces l' with
              | nil => exact pieces_ne _ hy
              | cons a t => rw [hy] at hx; simp at hx
            have hd' : d = 0x2f := Classical.byContradiction hd
            rw [pieces, if_pos hd'] at hx
            have := congrArg List.tail hx
            exact pieces_ne _ this
          constructor
          · intro h; simp at h
          · intro h; simp at h; exact (this h).elim
        | cons y t => rw [List.getLast?_cons_cons, List.getLast?_cons_cons]

theorem sq_written (hr : root ≠ []) {cs : List Bytes} (hcs : ∀ c ∈ cs, Component c) {p : Bytes} (h : Written root cs p) :
    p ≠ [] ∧ sq (pieces p) = sq (pieces root ++ [] :: cs) := by
  obtain ⟨h1, h2, h3⟩ := h
  have hp : p ≠ [] := by
    rintro rfl
    obtain ⟨c, r, rfl⟩ := List.exists_cons_of_ne_nil hr
    cases h2
  refine ⟨hp, ?_⟩
  rw [sq_eq, sq_eq, h1, List.filter_append]
  have e : ([] :: cs).filter (· ≠ []) = cs := by
    rw [List.filter_cons_of_neg (by simp), filter_comps hcs]
  rw [e]
  congr 1
  have e1 : (pieces p).getLast? = some [] ↔ cs = [] := (pieces_last hp).trans h3
  have e2 : (pieces root ++ [] :: cs).getLast? = some [] ↔ cs = [] := by
    constructor
    · intro h
      by_cases hc : cs = []
      · exact hc
      · exfalso
        obtain ⟨ds, n, rfl⟩ : ∃ ds n, cs = ds ++ [n] := ⟨_, _, (List.dropLast_concat_getLast hc).symm⟩
        rw [show pieces root ++ [] :: (ds ++ [n]) = (pieces root ++ [] :: ds) ++ [n] by simp, List.getLast?_concat] at h
        exact (hcs n (by simp)).1 (Option.some.inj h)
    · rintro rfl; simp
  by_cases hc : cs = []
  · rw [if_pos (e1.mpr hc), if_pos (e2.mpr hc)]
  · rw [if_neg (fun h => hc (e1.mp h)), if_neg (fun h => hc (e2.mp h))]

theorem resolve_written (hr : root ≠ []) {cs : List Bytes} (hcs : ∀ c ∈ cs, Component c) {p : Bytes} (h : Written root cs p) (fol : Bool) :
    resolve F cwd fol p = walk F fol 40 (start cwd root) (pieces root ++ [] :: cs) := by
  obtain ⟨hp, hs⟩ := sq_written hr hcs h
  unfold resolve
  rw [if_neg hp, h.2.1, ← walk_sq 40 (pieces p), hs, walk_sq]; rfl

/-- The tree which is seen at the root. -/
theorem view_eq {cs : List Bytes} : view F cwd root cs = match walk F false 40 (start cwd root) (pieces root ++ [] :: cs) with | .error _ => none | .ok l => F l := rfl

theorem view_some {cs : List Bytes} {o : Obj} (h : view F cwd root cs = some o) :
    ∃ l, walk F false 40 (start cwd root) (pieces root ++ [] :: cs) = .ok l ∧ F l = some o := by
  rw [view_eq] at h
  cases hw : walk F false 40 (start cwd root) (pieces root ++ [] :: cs) with
  | error e => rw [hw] at h; cases h
  | ok l => rw [hw] at h; exact ⟨l, rfl, h⟩

theorem FileSys.nolink (hF : FileSys F) {l : List Bytes} {o : Obj} (ho : F l = some o) (hd : o.names ≠ none) : o.target = none := by
  obtain ⟨h1, h2⟩ := hF.kind ho
  cases ht : o.target with
  | none => rfl
  | some t =>
    have e1 := h1.mpr hd
    have e2 := h2.mpr (by rw [ht]; simp)
    rw [e1] at e2; cases e2

theorem FileSys.leads (hF : FileSys F) {l : List Bytes} {o : Obj} (ho : F l = some o) (hd : o.names ≠ none) (fol' : Bool) (qs : List Bytes) :
    Leads F false fol' l qs := by
  unfold Leads
  rw [if_neg (by simp)]
  intro o' ho'
  rw [ho] at ho'; cases ho'
  exact hF.nolink ho hd

/-- A directory in the view: the rest of a path starts at its place. -/
theorem view_more (hF : FileSys F) {cs : List Bytes} {o : Obj} (h : view F cwd root cs = some o) (hd : o.names ≠ none) :
    ∃ l, F l = some o ∧ ∀ fol qs, ∃ b, walk F fol 40 (start cwd root) (pieces root ++ [] :: (cs ++ qs)) = walk F fol b l qs := by
  obtain ⟨l, h1, h2⟩ := view_some h
  refine ⟨l, h2, fun fol qs => ?_⟩
  obtain ⟨b, h3⟩ := walk_append (hF.leads h2 hd fol qs) 40 _ _ h1
  exact ⟨b, by rw [← h3]; simp⟩

theorem view_child (hF : FileSys F) {cs : List Bytes} {o : Obj} (h : view F cwd root cs = some o) (hd : o.names ≠ none) {n : Bytes} (hn : Plain n) :
    ∃ l, F l = some o ∧ view F cwd root (cs ++ [n]) = F (l ++ [n]) ∧ (∀ x, F (l ++ [n]) = some x → ∀ fol qs, x.names ≠ none →
      ∃ b, walk F fol 40 (start cwd root) (pieces root ++ [] :: (cs ++ [n] ++ qs)) = walk F fol b (l ++ [n]) qs) := by
  obtain ⟨l, h1, h2⟩ := view_more hF h hd
  obtain ⟨b, hb⟩ := h2 false [n]
  rw [walk_one hn h1 hd] at hb
  have long : 255 < n.length → F (l ++ [n]) = none := by
    intro hlen
    cases hx : F (l ++ [n]) with
    | none => rfl
    | some x =>
      exfalso
      cases hns : o.names with
      | none => exact hd hns
      | some ns =>
        have := (hF.tree.child h1 hns).mpr ⟨hn, by rw [hx]; simp⟩
        have := hF.short h1 hns this
        omega
  refine ⟨l, h1, ?_, ?_⟩
  · rw [view_eq, hb]
    by_cases hlen : 255 < n.length
    · rw [if_pos hlen, long hlen]
    · rw [if_neg hlen]
      cases hx : F (l ++ [n]) with
      | none => rfl
      | some x => simp only [hx]
  · intro x hx fol qs hxd
    have hlen : ¬ 255 < n.length := fun h => by rw [long h] at hx; cases hx
    rw [if_neg hlen, hx] at hb
    simp only at hb
    obtain ⟨b', h3⟩ := walk_append (hF.leads hx hxd fol qs) 40 _ _ hb
    exact ⟨b', by rw [← h3]; simp⟩

/-- The view is a tree, -/
theorem C102_tree (hF : FileSys F) : Tree (view F cwd root) := by
  constructor
  · intro cs o ns n h hns
    have hd : o.names ≠ none := by rw [hns]; simp
    constructor
    · intro hn
      obtain ⟨l, h1, -⟩ := view_more hF h hd
      have hpl := ((hF.tree.child h1 hns).mp hn).1
      obtain ⟨l', h1', h2', -⟩ := view_child hF h hd hpl
      refine ⟨hpl, ?_⟩
      rw [h2']
      exact ((hF.tree.child h1' hns).mp hn).2
    · rintro ⟨hpl, hne⟩
      obtain ⟨l, h1, h2, -⟩ := view_child hF h hd hpl
      rw [h2] at hne
      exact (hF.tree.child h1 hns).mpr ⟨hpl, hne⟩
  · intro cs o t h ht
    obtain ⟨l, -, h2⟩ := view_some h
    exact hF.tree.size h2 ht

/-- whole if the root is a directory, -/
theorem C102_whole (hF : FileSys F) {R : List Bytes} {o : Obj} (hR : resolve F cwd true root = .ok R) (ho : F R = some o) (hd : o.names ≠ none) :
    Whole (view F cwd root) ∧ view F cwd root [] = some o := by
  have top : view F cwd root [] = some o := by
    unfold resolve at hR
    by_cases hr : root = []
    · rw [if_pos hr] at hR; cases hR
    · rw [if_neg hr] at hR
      obtain ⟨b, hb⟩ := walk_append (F := F) (fol := true) (fol' := false) (l := R) (qs := [[]]) (by unfold Leads; rw [if_pos rfl]; simp) 40 _ _ hR
      rw [walk_dot ho hd (.inl rfl)] at hb
      rw [view_eq]
      unfold start
      rw [hb]
      exact ho
  refine ⟨⟨?_, ?_, ?_⟩, top⟩
  · cases hns : o.names with
    | none => exact absurd hns hd
    | some ns => exact ⟨o, ns, top, hns, (hF.kind ho).1.mpr hd⟩
  · intro cs x hx hm
    obtain ⟨l, -, h2⟩ := view_some hx
    have := (hF.kind h2).1.mp hm
    cases hns : x.names with
    | none => exact absurd hns this
    | some ns => exact ⟨ns, rfl⟩
  · intro cs x hx hm
    obtain ⟨l, -, h2⟩ := view_some hx
    have := (hF.kind h2).2.mp hm
    cases hns : x.target with
    | none => exact absurd hns this
    | some ns => exact ⟨ns, rfl⟩

/-- and the host has it at the root. -/
theorem C102_has (hF : FileSys F) (hr : root ≠ []) : Has root (posix F cwd) (view F cwd root) := by
  have comps : ∀ {cs : List Bytes}, (∀ c ∈ cs, Plain c) → ∀ c ∈ cs, Component c := fun h c hc => (h c hc).1
  have loc : ∀ {cs p fol}, (∀ c ∈ cs, Component c) → Written root cs p → ∀ {l}, walk F fol 40 (start cwd root) (pieces root ++ [] :: cs) = .ok l →
      locate F cwd fol p = match F l with | some o => .ok o | none => .error ENOENT := by
    intro cs p fol h1 h2 l h3
    unfold locate
    rw [resolve_written hr h1 h2 fol, h3]
    rfl
  have found : ∀ {cs p o}, (∀ c ∈ cs, Plain c) → Written root cs p → view F cwd root cs = some o → locate F cwd false p = .ok o := by
    intro cs p o h1 h2 h3
    obtain ⟨l, h4, h5⟩ := view_some h3
    rw [loc (comps h1) h2 h4, h5]
  constructor
  · intro k p cs o h1 h2 h3
    simp only [posix, found h1 h2 h3]
  · intro k p cs h1 h2 h3
    rw [view_eq] at h3
    simp only [posix]
    unfold locate
    rw [resolve_written hr (comps h1) h2]
    cases hw : walk F false 40 (start cwd root) (pieces root ++ [] :: cs) with
    | error e => exact ⟨e, rfl, walk_error _ _ _ _ hw⟩
    | ok l => rw [hw] at h3; simp only at h3; exact ⟨ENOENT, by simp only [h3], .inl rfl⟩
  · intro k p cs o h1 h2 h3 hd
    obtain ⟨l, h4, h5⟩ := view_more hF h3 hd
    obtain ⟨b, h6⟩ := h5 false [[0x2e]]
    rw [walk_dot h4 hd (.inr rfl)] at h6
    have hc : ∀ c ∈ cs ++ [[0x2e]], Component c := by
      intro c hc
      rcases List.mem_append.mp hc with hc | hc
      · exact comps h1 c hc
      · rw [List.mem_singleton.mp hc]; exact ⟨by decide, by decide⟩
    simp only [posix, loc hc h2 h6, h4]
  · intro k p cs n o x h1 h2 h3 hd h3' hd'
    have hn : Plain n := h1 n (by simp)
    obtain ⟨l, h4, h5, h6⟩ := view_child hF h3 hd hn
    rw [h5] at h3'
    obtain ⟨b, h7⟩ := h6 x h3' false [[0x2e, 0x2e]] hd'
    rw [walk_dotdot h3' hd'] at h7
    have hc : ∀ c ∈ cs ++ [n] ++ [[0x2e, 0x2e]], Component c := by
      intro c hc
      rcases List.mem_append.mp hc with hc | hc
      · exact comps h1 c hc
      · rw [List.mem_singleton.mp hc]; exact ⟨by decide, by decide⟩
    rw [List.dropLast_concat] at h7
    simp only [posix, loc hc h2 h7, h4]
  · intro p cs o t h1 h2 h3 ht
    simp only [posix, found h1 h2 h3, ht]
  · intro p cs o h1 h2 h3 ht
    exact ⟨EINVAL, by simp only [posix, found h1 h2 h3, ht]⟩
  · intro p cs o ns h1 h2 h3 hns
    have hd : o.names ≠ none := by rw [hns]; simp
    obtain ⟨l, h4, h5⟩ := view_more hF h3 hd
    obtain ⟨b, h6⟩ := h5 true []
    rw [List.append_nil, walk_nil] at h6
    exact ⟨_, by simp only [posix, loc (comps h1) h2 h6, h4, hns]; rfl, by simp⟩
  · intro p l m h1 hm
    simp only [posix] at h1
    cases ho : locate F cwd true p with
    | error e => rw [ho] at h1; cases h1
    | ok o =>
      rw [ho] at h1
      simp only at h1
      cases hns : o.names with
      | none => rw [hns] at h1; cases h1
      | some ns =>
        rw [hns] at h1; cases h1
        rcases List.mem_cons.mp hm with rfl | hm
        · exact ⟨⟨by decide, by decide⟩, by decide⟩
        rcases List.mem_cons.mp hm with rfl | hm
        · exact ⟨⟨by decide, by decide⟩, by decide⟩
        · unfold locate at ho
          cases hl : resolve F cwd true p with
          | error e => rw [hl] at ho; cases ho
          | ok q =>
            rw [hl] at ho
            simp only at ho
            cases hq : F q with
            | none => rw [hq] at ho; cases ho
            | some o' =>
              rw [hq] at ho; cases ho
              have := ((hF.tree.child hq hns).mp hm).1
              exact ⟨this.1, this.2.2.2⟩

/-- C102: a host with a file system which does not change, or not connected: what is shown of the mounted
directory is what `lstat` finds on the host (C89), with any number of threads and after any crashes. -/
theorem C102_mirror (hF : FileSys F) (hr : root ≠ []) (h0 : (0 : UInt8) ∉ root) {m : MT.MSys}
    (h : MT.MReachQ (fun rq B => rq.named ∧ ∃ H, B = backend root H ∧ (H = posix F cwd ∨ Gone H)) m) :
    ∃ d0 r0 threads ds R, MT.Steps (MT.MSys.start d0 r0 threads) m ∧ MT.OneByOne d0 r0 ds R m.hist ∧ ds.getLast? = some m.w.disk ∧
      ∀ (k : Nat) (q : MT.Done), m.hist[k]? = some q → ∃ d, MT.seen ds k q = some d ∧ OnHost (view F cwd root) d q.rq q.rep :=
  C89_mirror (C102_tree hF) hr h0 (reachQ_mono (fun _ _ hq => ⟨hq.1, by
    obtain ⟨-, H, h1, h2⟩ := hq
    rcases h2 with rfl | h2
    · exact ⟨_, h1, .inl (C102_has hF hr)⟩
    · exact ⟨_, h1, .inr h2⟩⟩) h)

/-! ### File systems given by tables -/

/-- A file system as a list of places and what is there. -/
def tblFS (l : List (List Bytes × Obj)) : HTree := fun cs => l.lookup cs

theorem tblFS_mem {l : List (List Bytes × Obj)} {cs : List Bytes} {o : Obj} (h : tblFS l cs = some o) : (cs, o) ∈ l := by
  unfold tblFS at h
  induction l with
  | nil => cases h
  | cons x l ih =>
    obtain ⟨k, v⟩ := x
    rw [List.lookup_cons] at h
    by_cases hk : cs = k
    · subst hk; simp at h; subst h; simp
    · have : (cs == k) = false := by simpa using hk
      rw [this] at h
      exact List.mem_cons_of_mem _ (ih h)

def plainBool (c : Bytes) : Bool := decide ((c ≠ [] ∧ (0x2f : UInt8) ∉ c) ∧ c ≠ [0x2e] ∧ c ≠ [0x2e, 0x2e] ∧ (0 : UInt8) ∉ c)

def linesB (l : List (List Bytes × Obj)) (x : List Bytes × Obj) : Bool :=
  (match x.2.names with | none => true | some ns => decide (ns.length ≤ 8) && ns.all (fun n => plainBool n && decide (n.length ≤ 255) && (tblFS l (x.1 ++ [n])).isSome)) &&
  (match x.1.getLast? with | none => true | some n => match tblFS l x.1.dropLast with
    | none => false
    | some o => match o.names with | none => false | some ns => decide (n ∈ ns)) &&
  (match x.2.target with | none => true | some t => decide (t.length = x.2.stat.size) && decide ((0 : UInt8) ∉ t)) &&
  decide (fmt x.2.stat.mode = S_IFDIR) == x.2.names.isSome && decide (fmt x.2.stat.mode = S_IFLNK) == x.2.target.isSome

/-- Decides `FileSys` for tables, with at most eight names in a directory. -/
def sysB (l : List (List Bytes × Obj)) : Bool :=
  (match tblFS l [] with | none => false | some o => o.names.isSome) && l.all (linesB l)

theorem sysB_ok {l : List (List Bytes × Obj)} (h : sysB l = true) : FileSys (tblFS l) ∧ ∀ cs o ns, tblFS l cs = some o → o.names = some ns → ns.length ≤ 8 := by
  unfold sysB at h
  rw [Bool.and_eq_true] at h
  obtain ⟨h1, h2⟩ := h
  have line : ∀ {cs o}, tblFS l cs = some o → linesB l (cs, o) = true := fun h => List.all_eq_true.mp h2 _ (tblFS_mem h)
  have names : ∀ {cs o ns}, tblFS l cs = some o → o.names = some ns → ns.length ≤ 8 ∧ ∀ n ∈ ns, Plain n ∧ n.length ≤ 255 ∧ tblFS l (cs ++ [n]) ≠ none := by
    intro cs o ns h hns
    have := line h
    unfold linesB at this
    simp only [Bool.and_eq_true, hns] at this
    obtain ⟨⟨⟨⟨⟨e1, e2⟩, -⟩, -⟩, -⟩, -⟩ := this
    refine ⟨of_decide_eq_true e1, fun n hn => ?_⟩
    have := List.all_eq_true.mp e2 n hn
    simp only [Bool.and_eq_true] at this
    obtain ⟨⟨g1, g2⟩, g3⟩ := this
    refine ⟨plainB (of_decide_eq_true g1), of_decide_eq_true g2, fun hx => ?_⟩
    rw [hx] at g3; cases g3
  have up : ∀ {cs n o}, tblFS l (cs ++ [n]) = some o → ∃ o' ns, tblFS l cs = some o' ∧ o'.names = some ns ∧ n ∈ ns := by
    intro cs n o h
    have := line h
    unfold linesB at this
    simp only [Bool.and_eq_true, List.getLast?_concat, List.dropLast_concat] at this
    obtain ⟨⟨⟨⟨-, e⟩, -⟩, -⟩, -⟩ := this
    cases hc : tblFS l cs with
    | none => rw [hc] at e; cases e
    | some o' =>
      rw [hc] at e
      simp only at e
      cases hn : o'.names with
      | none => rw [hn] at e; cases e
      | some ns => rw [hn] at e; exact ⟨o', ns, rfl, hn, of_decide_eq_true e⟩
  refine ⟨⟨?_, ⟨?_, ?_⟩, ?_, ?_, ?_⟩, fun cs o ns h hns => (names h hns).1⟩
  · cases h0 : tblFS l [] with
    | none => rw [h0] at h1; cases h1
    | some o =>
      refine ⟨o, rfl, fun hn => ?_⟩
      rw [h0] at h1
      simp only [hn] at h1
      cases h1
  · intro cs o ns n h hns
    constructor
    · intro hn
      obtain ⟨e1, -, e2⟩ := (names h hns).2 n hn
      exact ⟨e1, e2⟩
    · rintro ⟨-, hne⟩
      cases hx : tblFS l (cs ++ [n]) with
      | none => exact absurd hx hne
      | some x =>
        obtain ⟨o', ns', e1, e2, e3⟩ := up hx
        rw [h] at e1; cases e1
        rw [hns] at e2; cases e2
        exact e3
  · intro cs o t h ht
    have := line h
    unfold linesB at this
    simp only [Bool.and_eq_true, ht] at this
    obtain ⟨⟨⟨-, e1, e2⟩, -⟩, -⟩ := this
    exact ⟨of_decide_eq_true e1, of_decide_eq_true e2⟩
  · intro cs n o h
    obtain ⟨o', ns', e1, e2, -⟩ := up h
    exact ⟨o', e1, by rw [e2]; simp⟩
  · intro cs o ns n h hns hn
    exact ((names h hns).2 n hn).2.1
  · intro cs o h
    have := line h
    unfold linesB at this
    simp only [Bool.and_eq_true, beq_iff_eq] at this
    obtain ⟨⟨-, e1⟩, e2⟩ := this
    constructor
    · constructor
      · intro hm
        rw [decide_eq_true hm] at e1
        intro hn; rw [hn] at e1; cases e1
      · intro hn
        cases hx : o.names with
        | none => exact absurd hx hn
        | some ns => rw [hx] at e1; exact of_decide_eq_true e1
    · constructor
      · intro hm
        rw [decide_eq_true hm] at e2
        intro hn; rw [hn] at e2; cases e2
      · intro hn
        cases hx : o.target with
        | none => exact absurd hx hn
        | some ns => rw [hx] at e2; exact of_decide_eq_true e2

/-- Listings on such hosts are short. -/
theorem posix_short {l : List (List Bytes × Obj)} (h : sysB l = true) {p : Bytes} {names : List Bytes} {e : Errno}
    (ho : (backend root (posix (tblFS l) cwd)).opendir p = .ok (names, e)) : names.length ≤ 10 := by
  change opendir root _ p = _ at ho
  unfold opendir at ho
  cases hp : mapPath root p with
  | error e => rw [hp] at ho; cases ho
  | ok q =>
    rw [hp] at ho
    simp only [posix] at ho
    cases hl : locate (tblFS l) cwd true (cstr q) with
    | error e => rw [hl] at ho; cases ho
    | ok o =>
      rw [hl] at ho
      simp only at ho
      cases hn : o.names with
      | none => rw [hn] at ho; cases ho
      | some ns =>
        rw [hn] at ho; cases ho
        unfold locate at hl
        cases hr : resolve (tblFS l) cwd true (cstr q) with
        | error e => rw [hr] at hl; cases hl
        | ok x =>
          rw [hr] at hl
          simp only at hl
          cases hx : tblFS l x with
          | none => rw [hx] at hl; cases hl
          | some o' =>
            rw [hx] at hl; cases hl
            have := (sysB_ok h).2 x o ns hx hn
            simp only [List.length_cons]; omega

/-- `/r` is a link to `s`. In `/s`: a file `a`, a link `l` to it, a directory `d` with a file `b`, and a
link `o` to `/x`. In `/x`, which is outside, there is a file `b` of `n` bytes. -/
def fsA (n : Nat) : List (List Bytes × Obj) := [
  ([], ⟨bDir, none, some [[0x72], [0x73], [0x78]]⟩),
  ([[0x72]], ⟨{ bLink with size := 1 }, some [0x73], none⟩),
  ([[0x73]], ⟨bDir, none, some [[0x61], [0x6c], [0x64], [0x6f]]⟩),
  ([[0x73], [0x61]], ⟨bFile 5, none, none⟩),
  ([[0x73], [0x6c]], ⟨{ bLink with size := 1 }, some [0x61], none⟩),
  ([[0x73], [0x64]], ⟨bDir, none, some [[0x62]]⟩),
  ([[0x73], [0x64], [0x62]], ⟨bFile 7, none, none⟩),
  ([[0x73], [0x6f]], ⟨{ bLink with size := 2 }, some [0x2f, 0x78], none⟩),
  ([[0x78]], ⟨bDir, none, some [[0x62]]⟩),
  ([[0x78], [0x62]], ⟨bFile n, none, none⟩)]

/-- The hypotheses of `C102_tree`, `C102_whole` and `C102_has`. The view of this file system from `/r`: what
is in `/s`; and what is outside, through the link. -/
example : FileSys (tblFS (fsA 9)) ∧ resolve (tblFS (fsA 9)) [] true rootR = .ok [[0x73]] ∧ (∃ o, tblFS (fsA 9) [[0x73]] = some o ∧ o.names ≠ none) ∧
    view (tblFS (fsA 9)) [] rootR [[0x64], [0x62]] = some ⟨bFile 7, none, none⟩ ∧ view (tblFS (fsA 9)) [] rootR [[0x6f], [0x62]] = some ⟨bFile 9, none, none⟩ ∧
    (posix (tblFS (fsA 9)) []).lstat 0 [0x2f, 0x72, 0x2f, 0x61] = .ok (bFile 5) :=
  ⟨(sysB_ok (by decide +kernel)).1, by decide +kernel, ⟨_, rfl, by decide⟩, by rfl, by rfl, by rfl⟩

end Dragonstash.Local
