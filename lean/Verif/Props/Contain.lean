/-
  C103: what is outside of the mounted directory stays hidden, also behind symbolic links.
-/
import Verif.Props.Posix
import Verif.MT.Demo
import Verif.Props.LocalDemo
namespace Dragonstash.Local
open Cache FS

variable {F F' G : HTree} {cwd R : List Bytes} {root : Bytes} {d : DB} {r : Refs}

/-! ### Specification -/

/-- `root` leads to a directory at the place `R`. -/
def Rooted (F : HTree) (cwd : List Bytes) (root : Bytes) (R : List Bytes) : Prop :=
  resolve F cwd true root = .ok R ∧ ∃ o, F R = some o ∧ o.names ≠ none

/-- The two file systems are the same at and below the place `R`; elsewhere they may differ. -/
def SameIn (R : List Bytes) (F F' : HTree) : Prop := ∀ cs, F (R ++ cs) = F' (R ++ cs)

/-- None of the names `cs` below `R` is that of a symbolic link. -/
def Direct (F : HTree) (R cs : List Bytes) : Prop := ∀ ds, ds <+: cs → ds ≠ [] → ∀ o, F (R ++ ds) = some o → o.target = none

/-- The request is about an inode whose path below the root is made of the names `cs`; a lookup is for a
plain name. -/
def Inside (d : DB) : Req → List Bytes → Prop
  | .lookup p n, cs => Cache.path d p = .ok (.ok (pathStr cs)) ∧ (∀ c ∈ cs, Plain c) ∧ Plain n
  | .readlink i, cs => Cache.path d i = .ok (.ok (pathStr cs)) ∧ (∀ c ∈ cs, Plain c)
  | .opendir i, cs => Cache.path d i = .ok (.ok (pathStr cs)) ∧ (∀ c ∈ cs, Plain c)
  | _, _ => True

/-- The requests of a kernel; the host has one of the file systems `A`, or is not connected. -/
def AskedIn (A : HTree → Prop) (cwd : List Bytes) (root : Bytes) (rq : Req) (B : Backend) : Prop :=
  rq.named ∧ ∃ H, B = backend root H ∧ ((∃ F, A F ∧ H = posix F cwd) ∨ Gone H)

/-- The full property: no request shows, or stores, anything which depends on what is outside of the
root, whatever happens on the host. -/
def C103_full : Prop :=
  ∀ (cwd R : List Bytes) (root : Bytes) (m : MT.MSys) (F F' : HTree) (rq : Req) (cs : List Bytes) (r : Refs), (0 : UInt8) ∉ root →
    MT.MReachQ (AskedIn (fun F => FileSys F ∧ Rooted F cwd root R) cwd root) m →
    FileSys F → FileSys F' → Rooted F cwd root R → Rooted F' cwd root R → SameIn R F F' → rq.inRange → rq.onDir m.w.disk → Inside m.w.disk rq cs →
    dispatch (backend root (posix F cwd)) m.w.disk r rq = dispatch (backend root (posix F' cwd)) m.w.disk r rq

/-! ### Resolution below the root -/

theorem direct_take {cs ds : List Bytes} (h : Direct F R cs) (hd : ds <+: cs) : Direct F R ds :=
  fun es he => h es (he.trans hd)

/-- Names which are not those of links lead straight down. -/
theorem walkIn_down {fol : Bool} {next : List Bytes → List Bytes → Res (List Bytes)} {qs : List Bytes} (hs : SameIn R F F') : ∀ (cs ds : List Bytes), (∀ c ∈ cs, Plain c) →
    Direct F R (ds ++ cs) → (∃ e, NotThere e ∧ ∀ next, walkIn F fol next (R ++ ds) (cs ++ qs) = .error e ∧ walkIn F' fol next (R ++ ds) (cs ++ qs) = .error e) ∨
      (∀ next, walkIn F fol next (R ++ ds) (cs ++ qs) = walkIn F fol next (R ++ ds ++ cs) qs ∧ walkIn F' fol next (R ++ ds) (cs ++ qs) = walkIn F' fol next (R ++ ds ++ cs) qs) := by
  intro cs
  induction cs with
  | nil => intro ds _ _; right; intro next; simp
  | cons c cs ih =>
    intro ds hp hd
    have hpc := hp c (by simp)
    have e1 : ¬ (c = [] ∨ c = [0x2e]) := by rintro (h | h); exact hpc.1.1 h; exact hpc.2.1 h
    have step : ∀ (X : HTree) next, walkIn X fol next (R ++ ds) (c :: cs ++ qs) = match X (R ++ ds) with
        | none => .error ENOENT
        | some o => if o.names = none then .error ENOTDIR else if 255 < c.length then .error ENAMETOOLONG else match X (R ++ ds ++ [c]) with
          | none => .error ENOENT
          | some o' => match o'.target with
            | none => walkIn X fol next (R ++ ds ++ [c]) (cs ++ qs)
            | some t => if cs ++ qs = [] ∧ fol = false then .ok (R ++ ds ++ [c]) else if t = [] then .error ENOENT
              else next (if t.head? = some 0x2f then [] else (R ++ ds)) (pieces t ++ (cs ++ qs)) := by
      intro X next
      rw [List.cons_append]
      conv => lhs; unfold walkIn
      cases X (R ++ ds) with
      | none => rfl
      | some o => simp only [if_neg e1, if_neg hpc.2.2.1]; rfl
    have s1 := hs ds
    have s2 := hs (ds ++ [c])
    rw [← List.append_assoc] at s2
    cases hF : F (R ++ ds) with
    | none =>
      left; refine ⟨ENOENT, .inl rfl, fun next => ?_⟩
      rw [step, step, ← s1, hF]; exact ⟨rfl, rfl⟩
    | some o =>
      by_cases h1 : o.names = none
      · left; refine ⟨ENOTDIR, .inr (.inl rfl), fun next => ?_⟩
        rw [step, step, ← s1, hF]; simp only [if_pos h1, and_self]
      · by_cases h2 : 255 < c.length
        · left; refine ⟨ENAMETOOLONG, .inr (.inr (.inr rfl)), fun next => ?_⟩
          rw [step, step, ← s1, hF]; simp only [if_neg h1, if_pos h2, and_self]
        · cases hG : F (R ++ ds ++ [c]) with
          | none =>
            left; refine ⟨ENOENT, .inl rfl, fun next => ?_⟩
            rw [step, step, ← s1, ← s2, hF, hG]; simp only [if_neg h1, if_neg h2, and_self]
          | some o' =>
            have ht : o'.target = none := hd (ds ++ [c]) ⟨cs, by simp⟩ (by simp) o' (by rw [← List.append_assoc]; exact hG)
            have := ih (ds ++ [c]) (fun x hx => hp x (by simp [hx])) (by simpa using hd)
            rw [← List.append_assoc] at this
            rcases this with ⟨e, he, hall⟩ | hall
            · left; refine ⟨e, he, fun next => ?_⟩
              rw [step, step, ← s1, ← s2, hF, hG]; simp only [if_neg h1, if_neg h2, ht]
              exact hall next
            · right; intro next
              rw [step, step, ← s1, ← s2, hF, hG]; simp only [if_neg h1, if_neg h2, ht]
              obtain ⟨g1, g2⟩ := hall next
              rw [g1, g2]; simp

/-- From the root. -/
theorem rooted_walk (h : Rooted F cwd root R) (fol : Bool) (qs : List Bytes) (hq : qs ≠ []) :
    root ≠ [] ∧ ∃ next, walk F fol 40 (start cwd root) (pieces root ++ qs) = walkIn F fol next R qs := by
  obtain ⟨h1, h2⟩ := h
  unfold resolve at h1
  by_cases hr : root = []
  · rw [if_pos hr] at h1; cases h1
  · rw [if_neg hr] at h1
    obtain ⟨b, hb⟩ := walk_append (F := F) (fol := true) (fol' := fol) (l := R) (qs := qs) (by unfold Leads; rw [if_pos rfl]; exact .inr hq) 40 _ _ h1
    obtain ⟨next, hn⟩ := walk_next (F := F) fol b
    rw [hn] at hb
    exact ⟨hr, next, hb⟩

/-- What follows the names `cs`, once the place of them is known, in either file system. -/
theorem down_same (h : Rooted F cwd root R) (h' : Rooted F' cwd root R) (hs : SameIn R F F') {fol : Bool} {cs qs : List Bytes} (hp : ∀ c ∈ cs, Plain c) (hd : Direct F R cs)
    (hcomp : ∀ c ∈ qs, Component c) {p : Bytes} (hw : Written root (cs ++ qs) p)
    (hq : ∀ next next', (∃ e, walkIn F fol next (R ++ cs) qs = .error e ∧ walkIn F' fol next' (R ++ cs) qs = .error e) ∨
      ∃ l, walkIn F fol next (R ++ cs) qs = .ok l ∧ walkIn F' fol next' (R ++ cs) qs = .ok l ∧ F l = F' l) : locate F cwd fol p = locate F' cwd fol p := by
  have hc : ∀ c ∈ cs ++ qs, Component c := by
    intro c hc
    rcases List.mem_append.mp hc with hc | hc
    · exact (hp c hc).1
    · exact hcomp c hc
  obtain ⟨hr, next, hn⟩ := rooted_walk h fol ([] :: (cs ++ qs)) (by simp)
  obtain ⟨-, next', hn'⟩ := rooted_walk h' fol ([] :: (cs ++ qs)) (by simp)
  obtain ⟨o, ho, hod⟩ := h.2
  have ho' : F' R = some o := by have := hs []; rw [List.append_nil] at this; rw [← this]; exact ho
  have e1 : ∀ {X : HTree} {nx}, X R = some o → walkIn X fol nx R ([] :: (cs ++ qs)) = walkIn X fol nx R (cs ++ qs) := by
    intro X nx hX
    rw [walkIn.eq_2, hX]
    simp only
    rw [if_neg hod, if_pos (by simp)]
  unfold locate
  rw [resolve_written hr hc hw fol, resolve_written hr hc hw fol, hn, hn', e1 ho, e1 ho']
  have := walkIn_down (fol := fol) (qs := qs) (next := next) hs cs [] hp (by simpa using hd)
  simp only [List.append_nil] at this
  rcases this with ⟨e, -, hall⟩ | hall
  · rw [(hall next).1, (hall next').2]
  · rw [(hall next).1, (hall next').2]
    rcases hq next next' with ⟨e, g1, g2⟩ | ⟨l, g1, g2, g3⟩
    · rw [g1, g2]
    · rw [g1, g2]; simp only [g3]

/-- At the end of names without links. -/
theorem locate_here (h : Rooted F cwd root R) (h' : Rooted F' cwd root R) (hs : SameIn R F F') {fol : Bool} {cs : List Bytes} (hp : ∀ c ∈ cs, Plain c) (hd : Direct F R cs)
    {p : Bytes} (hw : Written root cs p) : locate F cwd fol p = locate F' cwd fol p := by
  refine down_same h h' hs (qs := []) hp hd (by simp) (by simpa using hw) (fun next next' => .inr ⟨R ++ cs, rfl, rfl, hs cs⟩)

/-- One more component. -/
theorem locate_entry (h : Rooted F cwd root R) (h' : Rooted F' cwd root R) (hs : SameIn R F F') {cs : List Bytes} (hp : ∀ c ∈ cs, Plain c) (hd : Direct F R cs)
    {n : Bytes} (hn : Component n) (hup : cs ≠ [] ∨ n ≠ [0x2e, 0x2e]) {p : Bytes} (hw : Written root (cs ++ [n]) p) : locate F cwd false p = locate F' cwd false p := by
  refine down_same h h' hs (qs := [n]) hp hd (by intro c hc; rw [List.mem_singleton.mp hc]; exact hn) hw (fun next next' => ?_)
  have s1 := hs cs
  have s2 := hs (cs ++ [n])
  rw [← List.append_assoc] at s2
  rw [walkIn.eq_2, walkIn.eq_2, ← s1]
  cases hF : F (R ++ cs) with
  | none => exact .inl ⟨_, rfl, rfl⟩
  | some o =>
    simp only
    by_cases h1 : o.names = none
    · simp only [if_pos h1]; exact .inl ⟨_, rfl, rfl⟩
    · simp only [if_neg h1]
      by_cases h2 : n = [] ∨ n = [0x2e]
      · simp only [if_pos h2]; exact .inr ⟨R ++ cs, rfl, rfl, hs cs⟩
      · simp only [if_neg h2]
        by_cases h3 : n = [0x2e, 0x2e]
        · simp only [if_pos h3]
          rcases hup with hup | hup
          · refine .inr ⟨R ++ cs.dropLast, ?_, ?_, hs _⟩ <;> rw [List.dropLast_append_of_ne_nil hup] <;> rfl
          · exact absurd h3 hup
        · simp only [if_neg h3]
          by_cases h4 : 255 < n.length
          · simp only [if_pos h4]; exact .inl ⟨_, rfl, rfl⟩
          · simp only [if_neg h4, ← s2]
            cases hG : F (R ++ cs ++ [n]) with
            | none => exact .inl ⟨_, rfl, rfl⟩
            | some o' =>
              refine .inr ⟨R ++ cs ++ [n], ?_, ?_, s2⟩ <;> simp only <;> cases o'.target <;> simp [walkIn]

/-! ### Requests -/


/-- The names which must not be those of links: all for directories, all but the last to read a link. -/
def Above : Req → List Bytes → List Bytes
  | .readlink _, cs => cs.dropLast
  | .lookup _ _, cs => cs
  | .opendir _, cs => cs
  | _, _ => []

theorem lstat_same (h0 : (0 : UInt8) ∉ root) (hr : root ≠ []) {cs : List Bytes} (hc : ∀ c ∈ cs, Component c ∧ (0 : UInt8) ∉ c)
    (hs : ∀ p, Written root cs p → locate F cwd false p = locate F' cwd false p) (k : Nat) :
    (backend root (posix F cwd)).lstat k (backendPath (pathStr cs)) = (backend root (posix F' cwd)).lstat k (backendPath (pathStr cs)) := by
  obtain ⟨p, h1, h2, h3⟩ := written hr h0 hc
  show lstat root _ k _ = lstat root _ k _
  unfold lstat
  rw [h1]
  simp only [h2, posix, hs p h3]

/-- If the cached path of the inode has no links on the host, a request gives the same result, whatever is
outside of the root. -/
theorem C103_request_partial (h : Rooted F cwd root R) (h' : Rooted F' cwd root R) (hF : FileSys F) (hs : SameIn R F F') (h0 : (0 : UInt8) ∉ root) {rq : Req} {cs : List Bytes}
    (hi : Inside d rq cs) (hup : (∃ i, rq = .opendir i) → cs ≠ []) (hd : Direct F R (Above rq cs)) :
    dispatch (backend root (posix F cwd)) d r rq = dispatch (backend root (posix F' cwd)) d r rq := by
  have hr : root ≠ [] := (rooted_walk h true [[]] (by simp)).1
  have comps : ∀ {cs : List Bytes} {n : Bytes}, (∀ c ∈ cs, Plain c) → Component n ∧ (0 : UInt8) ∉ n → ∀ c ∈ cs ++ [n], Component c ∧ (0 : UInt8) ∉ c := by
    intro cs n h1 h2 c hc
    rcases List.mem_append.mp hc with hc | hc
    · exact ⟨(h1 c hc).1, (h1 c hc).2.2.2⟩
    · rw [List.mem_singleton.mp hc]; exact h2
  cases rq with
  | lookup p n =>
    obtain ⟨hp, hcs, hn⟩ := hi
    have hd : Direct F R cs := hd
    have key := lstat_same (F := F) (F' := F') (cwd := cwd) h0 hr (comps hcs ⟨hn.1, hn.2.2.2⟩) (fun p hw => locate_entry h h' hs hcs hd hn.1 (.inr hn.2.2.1) hw) 0
    rw [backendPath_snoc] at key
    unfold dispatch handle FS.lookup St.txn
    simp only
    rw [hp]
    simp only [bind_ok, pathStr_snoc', key]
  | readlink i =>
    obtain ⟨hp, hcs⟩ := hi
    have hd : Direct F R cs.dropLast := hd
    have loc : ∀ p, Written root cs p → locate F cwd false p = locate F' cwd false p := by
      intro p hw
      by_cases hne : cs = []
      · subst hne; exact locate_here h h' hs hcs hd hw
      · obtain ⟨ds, n, rfl⟩ : ∃ ds n, cs = ds ++ [n] := ⟨_, _, (List.dropLast_concat_getLast hne).symm⟩
        rw [List.dropLast_concat] at hd
        have hn := hcs n (by simp)
        exact locate_entry h h' hs (fun c hc => hcs c (by simp [hc])) hd hn.1 (.inr hn.2.2.1) hw
    have key : (backend root (posix F cwd)).readlink (backendPath (pathStr cs)) = (backend root (posix F' cwd)).readlink (backendPath (pathStr cs)) := by
      obtain ⟨p, h1, h2, h3⟩ := written hr h0 (fun c hc => ⟨(hcs c hc).1, (hcs c hc).2.2.2⟩)
      show (match readlink root _ _ with | .ok r => r | .error _ => _) = (match readlink root _ _ with | .ok r => r | .error _ => _)
      unfold readlink
      rw [h1]
      simp only [h2, posix, loc p h3]
    unfold dispatch handle FS.readlink St.txn
    simp only
    rw [hp]
    simp only [bind_ok, key]
  | opendir i =>
    obtain ⟨hp, hcs⟩ := hi
    have hne := hup ⟨i, rfl⟩
    have hd : Direct F R cs := hd
    have key : (backend root (posix F cwd)).opendir (backendPath (pathStr cs)) = (backend root (posix F' cwd)).opendir (backendPath (pathStr cs)) := by
      obtain ⟨p, h1, h2, h3⟩ := written hr h0 (fun c hc => ⟨(hcs c hc).1, (hcs c hc).2.2.2⟩)
      show opendir root _ _ = opendir root _ _
      unfold opendir
      rw [h1]
      simp only [h2, posix, locate_here h h' hs hcs hd h3]
    unfold dispatch handle FS.opendir St.txn
    simp only
    rw [hp]
    simp only [bind_ok]
    rw [← key]
    cases ho : (backend root (posix F cwd)).opendir (backendPath (pathStr cs)) with
    | error e => rfl
    | ok x =>
      obtain ⟨names, e⟩ := x
      simp only
      have hnm : ∀ n ∈ names, Component n ∧ (0 : UInt8) ∉ n := by
        intro n hn
        change opendir root _ _ = _ at ho
        unfold opendir at ho
        obtain ⟨p, h1, h2, h3⟩ := written hr h0 (fun c hc => ⟨(hcs c hc).1, (hcs c hc).2.2.2⟩)
        rw [h1] at ho
        simp only [h2] at ho
        cases hq : (posix F cwd).opendir p with
        | error e => rw [hq] at ho; cases ho
        | ok l => rw [hq] at ho; cases ho; exact (C102_has hF hr).names hq hn
      have : ∀ t, FS.sync (backend root (posix F cwd)) (backendPath (pathStr cs)) i names t = FS.sync (backend root (posix F' cwd)) (backendPath (pathStr cs)) i names t := by
        intro t
        unfold FS.sync
        congr 1
        funext x
        obtain ⟨x, res⟩ := x
        simp only
        rw [syncLoop_same names 0 x]
        intro n hn k
        rw [entryPath_eq (fun c h => (hcs c h).1.1), ← backendPath_snoc]
        exact lstat_same h0 hr (comps hcs (hnm n hn)) (fun p hw => locate_entry h h' hs hcs hd (hnm n hn).1 (.inl hne) hw) k
      rw [this]
  | _ => rfl

/-! ### Histories -/

/-- File systems with the root at `R`, between which no directory below it becomes a link. -/
structure Steady (A : HTree → Prop) (cwd : List Bytes) (root : Bytes) (R : List Bytes) : Prop where
  sys : ∀ {F}, A F → FileSys F
  rooted : ∀ {F}, A F → Rooted F cwd root R
  steady : ∀ {F G ds o o'}, A F → A G → ds ≠ [] → F (R ++ ds) = some o → o.names ≠ none → G (R ++ ds) = some o' → o'.target = none

/-- Where names lead which are not those of links. -/
theorem walk_down (h : Rooted F cwd root R) {ds : List Bytes} {n : Bytes} (hp : ∀ c ∈ ds ++ [n], Plain c) (hd : Direct F R ds) {l : List Bytes}
    (hl : walk F false 40 (start cwd root) (pieces root ++ [] :: (ds ++ [n])) = .ok l) : l = R ++ ds ++ [n] := by
  obtain ⟨-, next, hn⟩ := rooted_walk h false ([] :: (ds ++ [n])) (by simp)
  obtain ⟨o, ho, hod⟩ := h.2
  rw [hn, walkIn.eq_2, ho] at hl
  simp only at hl
  rw [if_neg hod, if_pos (by simp)] at hl
  have hn' := hp n (by simp)
  have := walkIn_down (F := F) (F' := F) (R := R) (fol := false) (qs := [n]) (next := next) (fun _ => rfl) ds [] (fun c hc => hp c (by simp [hc])) (by simpa using hd)
  simp only [List.append_nil] at this
  rcases this with ⟨e, -, hall⟩ | hall
  · rw [(hall next).1] at hl; cases hl
  · rw [(hall next).1, walkIn.eq_2] at hl
    cases hF' : F (R ++ ds) with
    | none => rw [hF'] at hl; cases hl
    | some x =>
      rw [hF'] at hl
      simp only at hl
      by_cases g1 : x.names = none
      · rw [if_pos g1] at hl; cases hl
      rw [if_neg g1, if_neg (by rintro (h | h); exact hn'.1.1 h; exact hn'.2.1 h), if_neg hn'.2.2.1] at hl
      by_cases g2 : 255 < n.length
      · rw [if_pos g2] at hl; cases hl
      rw [if_neg g2] at hl
      cases hG : F (R ++ ds ++ [n]) with
      | none => rw [hG] at hl; cases hl
      | some o' =>
        rw [hG] at hl
        simp only at hl
        cases ht : o'.target with
        | none => rw [ht] at hl; exact (Except.ok.inj hl).symm
        | some t => rw [ht] at hl; simp only [and_self, if_true] at hl; exact (Except.ok.inj hl).symm

/-- What `lstat` finds there. -/
theorem lstat_down (h : Rooted F cwd root R) (h0 : (0 : UInt8) ∉ root) {ds : List Bytes} {n : Bytes} (hp : ∀ c ∈ ds ++ [n], Plain c) (hd : Direct F R ds)
    {k : Nat} {st : BStat} (hl : (backend root (posix F cwd)).lstat k (backendPath (pathStr (ds ++ [n]))) = .ok st) : ∃ o, F (R ++ ds ++ [n]) = some o ∧ o.stat = st := by
  have hr : root ≠ [] := (rooted_walk h true [[]] (by simp)).1
  obtain ⟨p, h1, h2, h3⟩ := written hr h0 (plain_comps hp)
  change lstat root _ k _ = _ at hl
  unfold lstat at hl
  rw [h1] at hl
  simp only [h2, posix] at hl
  unfold locate at hl
  rw [resolve_written hr (fun c hc => (hp c hc).1) h3 false] at hl
  cases hw : walk F false 40 (start cwd root) (pieces root ++ [] :: (ds ++ [n])) with
  | error e => rw [hw] at hl; cases hl
  | ok l =>
    rw [hw] at hl
    have := walk_down h hp hd hw
    subst this
    simp only at hl
    cases hG : F (R ++ ds ++ [n]) with
    | none => rw [hG] at hl; cases hl
    | some o => rw [hG] at hl; exact ⟨o, rfl, Except.ok.inj hl⟩

/-- C103: as long as no directory below the root becomes a link, nothing outside of it is shown: at every
moment of every history, with any number of threads and after any crashes. -/
theorem C103_contained_partial {A : HTree → Prop} (hA : Steady A cwd root R) (h0 : (0 : UInt8) ∉ root) {m : MT.MSys} (h : MT.MReachQ (AskedIn A cwd root) m) (hAF : A F)
    (h' : Rooted F' cwd root R) (hs : SameIn R F F') {rq : Req} {cs : List Bytes} (hr : rq.inRange) (hdir : rq.onDir m.w.disk) (hi : Inside m.w.disk rq cs)
    (hup : (∃ i, rq = .opendir i) → cs ≠ []) :
    dispatch (backend root (posix F cwd)) m.w.disk r rq = dispatch (backend root (posix F' cwd)) m.w.disk r rq := by
  have hrt : root ≠ [] := (rooted_walk (hA.rooted hAF) true [[]] (by simp)).1
  -- what the cache holds was reported
  let S : Bytes → BStat → Prop := fun p sr => ∃ F k, A F ∧ (backend root (posix F cwd)).lstat k p = .ok sr
  have tree : ∃ s, Rep s m.w.disk ∧ s.OK ∧ s.WF ∧ Orig S (fun _ _ => True) s := by
    obtain ⟨d0, r0, n, L, H, vs, R', ds, s1, hst, hM, hR, hP⟩ := (reachQ_mono (Q' := fun rq B => rq.named ∧ Said S (fun _ _ => True) B) (fun rq B hq => by
      obtain ⟨h1, H, rfl, hH⟩ := hq
      refine ⟨h1, ?_⟩
      rcases hH with ⟨G, hG, rfl⟩ | hG
      · have := said_of (.inl (C102_has (hA.sys hG) hrt) : _ ∨ Gone (posix G cwd))
        exact ⟨fun k p sr hl => ⟨G, k, hG, hl⟩, fun _ _ _ => trivial, this.names⟩
      · have := said_of (T := fun _ => none) (.inr hG : Has root H _ ∨ Gone H)
        refine ⟨fun k p sr hl => ?_, fun _ _ _ => trivial, this.names⟩
        exfalso
        change lstat root H k p = _ at hl
        unfold lstat at hl
        cases hp : mapPath root p with
        | error e => rw [hp] at hl; cases hl
        | ok q => rw [hp] at hl; simp only [hG.lstat] at hl; cases hl) h).inv MT.kept_orig
    obtain ⟨s', f1, f2, f3⟩ := hP.all _ (List.mem_of_getLast? hM.last)
    obtain rfl := Rep.inj f1 f2 hR.si.rep hR.si.ok
    exact ⟨s', f1, f2, hR.si.wf, f3⟩
  obtain ⟨s, hrep, ok, wf, ho⟩ := tree
  have hI := MT.si_empty hrep ok wf
  -- directories in the cache are not links on the host
  have straight : ∀ {i : Ino} {es : List Bytes}, s.PathTo i es → (∀ c ∈ es, Plain c) → (∀ nd, s.nodes i = some nd → fmt nd.attr.mode = S_IFDIR) → ∀ {G}, A G → Direct G R es := by
    intro i es hp
    induction hp with
    | root =>
      intro _ _ G _ ds hds hne
      exact absurd (List.prefix_nil.mp hds) hne
    | @child p n i es hat hpt ih =>
      intro hpl hd G hG ds hds hne o hoG
      obtain ⟨nd, hnd, hloc⟩ := hat
      obtain ⟨-, x, hx, hxd⟩ := wf i nd p n hnd hloc
      have up := fun {G} => ih (fun c hc => hpl c (by simp [hc])) (fun nd' h => by rw [hx] at h; cases h; exact hxd) (G := G)
      rcases List.prefix_concat_iff.mp hds with rfl | hds
      · have hi : i ≠ ROOT := OK.loc_ne_root ok hnd hloc
        obtain ⟨cs', -, -, g3, ⟨sr, ⟨G', k, hG', hl⟩, g5⟩, -⟩ := ho i nd hnd hi
        have := g3 _ (.child ⟨nd, hnd, hloc⟩ hpt)
        subst this
        rw [← backendPath_snoc] at hl
        obtain ⟨o', ho', rfl⟩ := lstat_down (hA.rooted hG') h0 hpl (up hG') hl
        have hm : fmt o'.stat.mode = S_IFDIR := by
          rw [← hd nd hnd]
          rcases g5 with g5 | ⟨-, t, -, g5⟩ <;> rw [g5] <;> rfl
        rw [List.append_assoc] at ho'
        exact hA.steady hG' hG (by simp) ho' ((hA.sys hG').kind ho' |>.1.mp hm) hoG
      · exact up hG ds hds hne o hoG
  refine C103_request_partial (hA.rooted hAF) h' (hA.sys hAF) hs h0 hi hup ?_
  have attr : ∀ {i : Ino}, i < W64 → (∀ x, Cache.getattr m.w.disk i = .ok x → fmt x.2.mode = S_IFDIR) → ∀ nd, s.nodes i = some nd → fmt nd.attr.mode = S_IFDIR := by
    intro i hi hx nd hnd
    exact hx (i, nd.attr) (by rw [hrep.getattr ok hi, hnd])
  cases rq with
  | lookup p n =>
    obtain ⟨hp, hcs, hn⟩ := hi
    exact straight (path_comps hI hr (fun c hc => (hcs c hc).1) hp) hcs (attr hr hdir) hAF
  | opendir i =>
    obtain ⟨hp, hcs⟩ := hi
    exact straight (path_comps hI hr (fun c hc => (hcs c hc).1) hp) hcs (attr hr hdir) hAF
  | readlink i =>
    obtain ⟨hp, hcs⟩ := hi
    have hpt := path_comps hI hr (fun c hc => (hcs c hc).1) hp
    show Direct F R cs.dropLast
    cases hpt with
    | root => intro ds hds hne; exact absurd (List.prefix_nil.mp hds) hne
    | @child p n _ es hat hpt =>
      rw [List.dropLast_concat]
      obtain ⟨nd, hnd, hloc⟩ := hat
      obtain ⟨-, x, hx, hxd⟩ := wf i nd p n hnd hloc
      exact straight hpt (fun c hc => hcs c (by simp [hc])) (fun nd' h => by rw [hx] at h; cases h; exact hxd) hAF
  | _ => intro ds hds hne; exact absurd (List.prefix_nil.mp hds) hne

theorem snocInd {P : List Bytes → Prop} (nil : P []) (snoc : ∀ es m, P es → P (es ++ [m])) (l : List Bytes) : P l := by
  have : ∀ k (l : List Bytes), l.length = k → P l := by
    intro k
    induction k with
    | zero => intro l hl; rw [List.length_eq_zero_iff.mp hl]; exact nil
    | succ k ih =>
      intro l hl
      rcases List.eq_nil_or_concat l with rfl | ⟨es, m, rfl⟩
      · exact nil
      · rw [List.concat_eq_append] at hl ⊢
        exact snoc es m (ih es (by simpa using hl))
  exact this _ l rfl

/-- The view is what is in the directory at `R`, where no links are passed. -/
theorem C102_view (hF : FileSys F) (h : Rooted F cwd root R) {ds : List Bytes} {n : Bytes} (hp : ∀ c ∈ ds ++ [n], Plain c) (hd : Direct F R ds) :
    view F cwd root (ds ++ [n]) = F (R ++ (ds ++ [n])) := by
  have key : ∀ (es : List Bytes), (∀ c ∈ es, Plain c) → ∀ o, F (R ++ es) = some o → o.names ≠ none → walk F false 40 (start cwd root) (pieces root ++ [] :: es) = .ok (R ++ es) := by
    intro es
    induction es using snocInd with
    | nil =>
      intro _ o ho hod
      rw [List.append_nil] at ho ⊢
      obtain ⟨-, next, hn⟩ := rooted_walk h false [[]] (by simp)
      rw [hn, walkIn.eq_2, ho]
      simp only
      rw [if_neg hod, if_pos (by simp)]; rfl
    | snoc es c ih =>
      intro hes o ho hod
      rw [← List.append_assoc] at ho
      obtain ⟨o', ho', hod'⟩ := hF.up ho
      have hw := ih (fun c hc => hes c (by simp [hc])) o' ho' hod'
      obtain ⟨b, hb⟩ := walk_append (hF.leads ho' hod' false [c]) 40 _ _ hw
      rw [walk_one (hes c (by simp)) ho' hod', ho] at hb
      rw [show pieces root ++ [] :: (es ++ [c]) = pieces root ++ [] :: es ++ [c] by simp, hb, if_neg, ← List.append_assoc]
      cases hns : o'.names with
      | none => exact absurd hns hod'
      | some ns =>
        have := hF.short ho' hns ((hF.tree.child ho' hns).mpr ⟨hes c (by simp), by rw [ho]; simp⟩)
        omega
  rw [← List.append_assoc]
  cases hx : F (R ++ ds ++ [n]) with
  | some x =>
    obtain ⟨o', ho', hod'⟩ := hF.up hx
    have hw := key ds (fun c hc => hp c (by simp [hc])) o' ho' hod'
    have hv : view F cwd root ds = some o' := by rw [view_eq, hw]; exact ho'
    obtain ⟨b, hb⟩ := walk_append (hF.leads ho' hod' false [n]) 40 _ _ hw
    rw [walk_one (hp n (by simp)) ho' hod', hx] at hb
    rw [view_eq, show pieces root ++ [] :: (ds ++ [n]) = pieces root ++ [] :: ds ++ [n] by simp, hb, if_neg]
    · exact hx
    · cases hns : o'.names with
      | none => exact absurd hns hod'
      | some ns =>
        have := hF.short ho' hns ((hF.tree.child ho' hns).mpr ⟨hp n (by simp), by rw [hx]; simp⟩)
        omega
  | none =>
    rw [view_eq]
    cases hw : walk F false 40 (start cwd root) (pieces root ++ [] :: (ds ++ [n])) with
    | error e => rfl
    | ok l =>
      have := walk_down h hp hd hw
      subst this
      exact hx

/-! ### Examples -/

/-- As `fsA`, but `d` is now a link to `/x`, too. -/
def fsB (n : Nat) : List (List Bytes × Obj) := [
  ([], ⟨bDir, none, some [[0x72], [0x73], [0x78]]⟩),
  ([[0x72]], ⟨{ bLink with size := 1 }, some [0x73], none⟩),
  ([[0x73]], ⟨bDir, none, some [[0x61], [0x6c], [0x64], [0x6f]]⟩),
  ([[0x73], [0x61]], ⟨bFile 5, none, none⟩),
  ([[0x73], [0x6c]], ⟨{ bLink with size := 1 }, some [0x61], none⟩),
  ([[0x73], [0x64]], ⟨{ bLink with size := 2 }, some [0x2f, 0x78], none⟩),
  ([[0x73], [0x6f]], ⟨{ bLink with size := 2 }, some [0x2f, 0x78], none⟩),
  ([[0x78]], ⟨bDir, none, some [[0x62]]⟩),
  ([[0x78], [0x62]], ⟨bFile n, none, none⟩)]

theorem fsA_sys : sysB (fsA 9) = true ∧ sysB (fsA 11) = true := by decide +kernel
theorem fsB_sys : sysB (fsB 9) = true ∧ sysB (fsB 11) = true := by decide +kernel

theorem fsA_rooted : Rooted (tblFS (fsA 9)) [] rootR [[0x73]] ∧ Rooted (tblFS (fsA 11)) [] rootR [[0x73]] :=
  ⟨⟨by decide +kernel, _, rfl, by decide⟩, ⟨by decide +kernel, _, rfl, by decide⟩⟩
theorem fsB_rooted : Rooted (tblFS (fsB 9)) [] rootR [[0x73]] ∧ Rooted (tblFS (fsB 11)) [] rootR [[0x73]] :=
  ⟨⟨by decide +kernel, _, rfl, by decide⟩, ⟨by decide +kernel, _, rfl, by decide⟩⟩

/-- They differ only outside. -/
theorem fs_same {l : List (List Bytes × Obj)} {a b : Obj} :
    SameIn [[0x73]] (tblFS (l ++ [([[0x78], [0x62]], a)])) (tblFS (l ++ [([[0x78], [0x62]], b)])) := by
  intro cs
  unfold tblFS
  induction l with
  | nil =>
    have : (([[0x73]] : List Bytes) ++ cs == [[0x78], [0x62]]) = false := by simp
    simp only [List.nil_append, List.lookup_cons, this]
  | cons x l ih =>
    obtain ⟨k, v⟩ := x
    have e : ∀ z, (k, v) :: l ++ z = (k, v) :: (l ++ z) := fun _ => rfl
    rw [e, e, List.lookup_cons, List.lookup_cons, ih]

theorem fsA_same : SameIn [[0x73]] (tblFS (fsA 9)) (tblFS (fsA 11)) := fs_same (l := (fsA 9).dropLast)
theorem fsB_same : SameIn [[0x73]] (tblFS (fsB 9)) (tblFS (fsB 11)) := fs_same (l := (fsB 9).dropLast)

/-- What a lookup of `b` in inode 2 shows. -/
def shownB (l : List (List Bytes × Obj)) (d : DB) : Option Nat :=
  match dispatch (backend rootR (posix (tblFS l) [])) d Refs.empty (.lookup 2 [0x62]) with
  | .ok st => (match st.sent with | [.entry st] => some st.size | _ => none)
  | .error _ => none

/-- The directory `d` has been looked up. -/
def evD : List GEv := .ask 0 0 (.lookup 1 [0x64]) :: List.replicate 7 (.go 0)

def probeD (m : MT.MSys) : Prop :=
  shownB (fsA 9) m.w.disk = some 7 ∧ shownB (fsB 9) m.w.disk = some 9 ∧ shownB (fsB 11) m.w.disk = some 11 ∧
  Cache.path m.w.disk 2 = .ok (.ok (pathStr [[0x64]])) ∧ onDirB m.w.disk 2 = true

instance (m : MT.MSys) : Decidable (probeD m) := by unfold probeD; infer_instance

theorem demoD {Q : Req → Backend → Prop} (hQ : ∀ {rq}, rq.named → Q rq (backend rootR (posix (tblFS (fsA 9)) []))) : ∃ m, MT.MReachQ Q m ∧ probeD m :=
  reachQ_run (hosts := fun _ => backend rootR (posix (tblFS (fsA 9)) [])) (ls := evD) (P := probeD)
    (fun ho => posix_short fsA_sys.1 ho) (fun h => by obtain ⟨h1, j, rfl⟩ := h; exact hQ h1) (by decide +kernel)

theorem onDirB_lookup {d : DB} {i : Ino} {n : Bytes} (h : onDirB d i = true) : Req.onDir d (.lookup i n) := by
  intro x hx
  unfold onDirB at h
  rw [hx] at h
  simpa using h

/-- The full property is false: a directory is cached; on the host, it is replaced by a link which leads outside; a lookup
in it shows what is there. -/
theorem C103_counterexample : ¬ C103_full := by
  intro h
  obtain ⟨m, hm, h1, h2, h3, h4, h5⟩ := demoD (Q := AskedIn (fun F => FileSys F ∧ Rooted F [] rootR [[0x73]]) [] rootR)
    (fun hn => ⟨hn, _, rfl, .inl ⟨_, ⟨(sysB_ok fsA_sys.1).1, fsA_rooted.1⟩, rfl⟩⟩)
  have := h [] [[0x73]] rootR m (tblFS (fsB 9)) (tblFS (fsB 11)) (.lookup 2 [0x62]) [[0x64]] Refs.empty (by decide) hm (sysB_ok fsB_sys.1).1 (sysB_ok fsB_sys.2).1
    fsB_rooted.1 fsB_rooted.2 fsB_same (by show (2 : Nat) < W64; decide) (onDirB_lookup h5)
    ⟨h4, by intro c hc; rw [List.mem_singleton.mp hc]; exact plainB (by decide), plainB (by decide)⟩
  unfold shownB at h2 h3
  rw [this, h3] at h2
  cases h2

/-- The hypotheses of `C103_contained_partial` (and so of `C103_request_partial`): two file systems which differ outside, the
first of them the only one which the host ever has. The lookup has a result. -/
example : ∃ (A : HTree → Prop) (m : MT.MSys) (rq : Req) (cs : List Bytes), Steady A [] rootR [[0x73]] ∧ MT.MReachQ (AskedIn A [] rootR) m ∧ A (tblFS (fsA 9)) ∧
    Rooted (tblFS (fsA 11)) [] rootR [[0x73]] ∧ SameIn [[0x73]] (tblFS (fsA 9)) (tblFS (fsA 11)) ∧ tblFS (fsA 9) ≠ tblFS (fsA 11) ∧
    rq.inRange ∧ rq.onDir m.w.disk ∧ Inside m.w.disk rq cs ∧ ((∃ i, rq = .opendir i) → cs ≠ []) ∧ shownB (fsA 9) m.w.disk = some 7 ∧
    Direct (tblFS (fsA 9)) [[0x73]] (Above rq cs) := by
  obtain ⟨m, hm, h1, h2, h3, h4, h5⟩ := demoD (Q := AskedIn (fun F => F = tblFS (fsA 9)) [] rootR) (fun hn => ⟨hn, _, rfl, .inl ⟨_, rfl, rfl⟩⟩)
  refine ⟨_, m, .lookup 2 [0x62], [[0x64]], ⟨?_, ?_, ?_⟩, hm, rfl, fsA_rooted.2, fsA_same, ?_, by show (2 : Nat) < W64; decide, onDirB_lookup h5,
    ⟨h4, by intro c hc; rw [List.mem_singleton.mp hc]; exact plainB (by decide), plainB (by decide)⟩, (by rintro ⟨i, hi⟩; cases hi), h1, ?_⟩
  · rintro F rfl; exact (sysB_ok fsA_sys.1).1
  · rintro F rfl; exact fsA_rooted.1
  · rintro F G ds o o' rfl rfl _ h1 h2 h3
    rw [h1] at h3; cases h3
    exact (sysB_ok fsA_sys.1).1.nolink h1 h2
  · intro h
    have := congrFun h [[0x78], [0x62]]
    revert this
    have e1 : tblFS (fsA 9) [[0x78], [0x62]] = some ⟨bFile 9, none, none⟩ := rfl
    have e2 : tblFS (fsA 11) [[0x78], [0x62]] = some ⟨bFile 11, none, none⟩ := rfl
    rw [e1, e2]
    intro h
    have := congrArg (fun o => o.map (fun o : Obj => o.stat.size)) h
    revert this; decide
  · intro ds hds hne o ho
    have : ds = [[0x64]] := by
      rcases List.prefix_cons_iff.mp hds with h | ⟨t, rfl, ht⟩
      · exact absurd h hne
      · rw [List.prefix_nil.mp ht]
    subst this
    cases ho
    rfl

/-- The hypotheses of `C102_view` and of `C102_mirror`. -/
example : FileSys (tblFS (fsA 9)) ∧ Rooted (tblFS (fsA 9)) [] rootR [[0x73]] ∧ Direct (tblFS (fsA 9)) [[0x73]] [] ∧ (∀ c ∈ [] ++ [([0x61] : Bytes)], Plain c) ∧
    view (tblFS (fsA 9)) [] rootR [[0x61]] = some ⟨bFile 5, none, none⟩ ∧
    ∃ m, MT.MReachQ (fun rq B => rq.named ∧ ∃ H, B = backend rootR H ∧ (H = posix (tblFS (fsA 9)) [] ∨ Gone H)) m ∧ shownB (fsA 9) m.w.disk = some 7 := by
  refine ⟨(sysB_ok fsA_sys.1).1, fsA_rooted.1, ?_, ?_, by rfl, ?_⟩
  · intro ds hds hne; exact absurd (List.prefix_nil.mp hds) hne
  · intro c hc; rw [List.nil_append, List.mem_singleton] at hc; subst hc; exact plainB (by decide)
  · obtain ⟨m, hm, h1, -⟩ := demoD (Q := fun rq B => rq.named ∧ ∃ H, B = backend rootR H ∧ (H = posix (tblFS (fsA 9)) [] ∨ Gone H)) (fun hn => ⟨hn, _, rfl, .inl rfl⟩)
    exact ⟨m, hm, h1⟩

end Dragonstash.Local
