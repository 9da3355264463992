/-
  C47: the local backend stays below its root. C53: reading links.
-/
import Verif.Backend.Local
import Verif.Props.FSKeep
namespace Dragonstash.Local
open Cache FS

theorem pieces_ne (p : Bytes) : pieces p ≠ [] := by
  induction p with
  | nil => simp [pieces]
  | cons c l ih =>
    unfold pieces
    split
    · simp
    · split <;> simp

theorem pieces_slash (a b : Bytes) : pieces (a ++ 0x2f :: b) = pieces a ++ pieces b := by
  induction a with
  | nil => simp [pieces]
  | cons c a ih =>
    rw [List.cons_append]
    by_cases hc : c = 0x2f
    · subst hc; simp only [pieces, if_true]; rw [ih]; rfl
    · simp only [pieces, if_neg hc]
      rw [ih]
      cases h : pieces a with
      | nil => exact absurd h (pieces_ne a)
      | cons x t => rfl

theorem pieces_comp {c : Bytes} (h : (0x2f : UInt8) ∉ c) : pieces c = [c] := by
  induction c with
  | nil => rfl
  | cons x c ih =>
    have hx : ¬ x = 0x2f := by rintro rfl; exact h (by simp)
    unfold pieces
    rw [if_neg hx, ih (fun hh => h (by simp [hh]))]

/-- A component which names an entry: neither `.` nor `..`. -/
def Plain (c : Bytes) : Prop := Component c ∧ c ≠ [0x2e] ∧ c ≠ [0x2e, 0x2e] ∧ (0 : UInt8) ∉ c

theorem step_plain {st : List Bytes} {c : Bytes} (h : Plain c) : stepTo st c = st ++ [c] := by
  unfold stepTo
  rw [if_neg (by rintro (h1 | h1); exact h.1.1 h1; exact h.2.1 h1), if_neg h.2.2.1]

theorem foldl_plain {cs : List Bytes} : ∀ {st : List Bytes}, (∀ c ∈ cs, Plain c) → cs.foldl stepTo st = st ++ cs := by
  induction cs with
  | nil => intro st _; simp
  | cons c cs ih =>
    intro st h
    rw [List.foldl_cons, step_plain (h c (by simp)), ih (fun x hx => h x (by simp [hx]))]
    simp

theorem pieces_path : ∀ {cs : List Bytes}, cs ≠ [] → (∀ c ∈ cs, Component c) → pieces (pathStr cs).tail = cs := by
  intro cs
  induction cs with
  | nil => intro h; exact absurd rfl h
  | cons c cs ih =>
    intro _ hc
    have e : pathStr (c :: cs) = 0x2f :: (c ++ pathStr cs) := rfl
    rw [e, List.tail_cons]
    cases cs with
    | nil =>
      have e : pathStr ([] : List Bytes) = [] := rfl
      rw [e, List.append_nil, pieces_comp (hc c (by simp)).2]
    | cons d ds =>
      have e : pathStr (d :: ds) = 0x2f :: (d ++ pathStr ds) := rfl
      have := ih (by simp) (fun x hx => hc x (by simp [hx]))
      rw [e, List.tail_cons] at this
      rw [e, pieces_slash, this, pieces_comp (hc c (by simp)).2]
      rfl

/-- Where the result of joining leads. -/
theorem place_append (cwd : List Bytes) (root inner : Bytes) (h : inner.head? ≠ some 0x2f) :
    place cwd (appendPath root inner) = (pieces inner).foldl stepTo (place cwd root) := by
  unfold appendPath place
  by_cases hr : root = []
  · subst hr
    rw [if_pos rfl, if_neg h]
    rfl
  · rw [if_neg hr]
    obtain ⟨c, r, rfl⟩ := List.exists_cons_of_ne_nil hr
    by_cases hl : (c :: r).getLast? = some 0x2f
    · rw [if_pos hl]
      obtain ⟨r', hr'⟩ : ∃ r', c :: r = r' ++ [0x2f] := by
        rw [List.getLast?_eq_some_iff] at hl; exact hl
      have h1 : (c :: r ++ inner).head? = (c :: r).head? := rfl
      rw [h1]
      generalize ho : (if (c :: r).head? = some 0x2f then ([] : List Bytes) else cwd) = o
      rw [hr', List.append_assoc, List.singleton_append, pieces_slash, pieces_slash, List.foldl_append, List.foldl_append]
      rfl
    · rw [if_neg hl]
      have h1 : (c :: r ++ 0x2f :: inner).head? = (c :: r).head? := rfl
      rw [h1, pieces_slash, List.foldl_append]

theorem map_comps (cwd : List Bytes) (root : Bytes) {cs : List Bytes} (h : ∀ c ∈ cs, Component c) :
    ∃ p, mapPath root (backendPath (pathStr cs)) = .ok p ∧ place cwd p = cs.foldl stepTo (place cwd root) ∧
      ((0 : UInt8) ∉ root → (∀ c ∈ cs, (0 : UInt8) ∉ c) → (0 : UInt8) ∉ p) := by
  have nul : ∀ inner : Bytes, (0 : UInt8) ∉ root → (0 : UInt8) ∉ inner → (0 : UInt8) ∉ appendPath root inner := by
    intro inner h1 h2
    unfold appendPath
    split
    · exact h2
    · split <;> simp [h1, h2]
  cases cs with
  | nil =>
    have e : backendPath (pathStr []) = [0x2f] := rfl
    rw [e]
    refine ⟨appendPath root [], by simp [mapPath], ?_, fun h1 _ => nul _ h1 (by simp)⟩
    rw [place_append _ _ _ (by simp)]
    simp [pieces, stepTo]
  | cons c cs =>
    have hc := h c (by simp)
    have e : pathStr (c :: cs) = 0x2f :: (c ++ pathStr cs) := rfl
    have hb : backendPath (pathStr (c :: cs)) = 0x2f :: (pathStr (c :: cs)).tail := by
      unfold backendPath; rw [if_neg (by rw [e]; simp), e]; rfl
    have hh : (pathStr (c :: cs)).tail.head? ≠ some 0x2f := by
      rw [e, List.tail_cons]
      obtain ⟨x, c', rfl⟩ := List.exists_cons_of_ne_nil hc.1
      rw [List.cons_append, List.head?_cons]
      intro hx
      cases hx
      exact hc.2 (by simp)
    rw [hb]
    refine ⟨appendPath root (pathStr (c :: cs)).tail, ?_, ?_, fun h1 h2 => nul _ h1 ?_⟩
    · unfold mapPath
      simp only [ne_eq, not_true_eq_false, if_false]
      rw [if_neg hh]
    · rw [place_append _ _ _ hh, pieces_path (by simp) h]
    · intro hm
      have hm : (0 : UInt8) ∈ pathStr (c :: cs) := List.mem_of_mem_tail hm
      unfold pathStr at hm
      simp only [List.mem_flatten, List.mem_map] at hm
      obtain ⟨l, ⟨x, hx, rfl⟩, hl⟩ := hm
      rcases List.mem_cons.mp hl with hl | hl
      · cases hl
      · exact h2 x hx hl

/-- The path which is opened on the host for a path of the filesystem leads to the place of the root
followed by the components. -/
theorem C47_mapping (cwd : List Bytes) (root : Bytes) {cs : List Bytes} (h : ∀ c ∈ cs, Plain c) :
    ∃ p, mapPath root (backendPath (pathStr cs)) = .ok p ∧ place cwd p = place cwd root ++ cs := by
  obtain ⟨p, h1, h2, -⟩ := map_comps cwd root (fun c hc => (h c hc).1)
  exact ⟨p, h1, by rw [h2, foldl_plain h]⟩

/-- Everything else is rejected: paths which do not start with a slash, or start with two. -/
theorem C47_rejects (root s : Bytes) (h : s.head? ≠ some 0x2f ∨ s.tail.head? = some 0x2f) : mapPath root s = .error EINVAL := by
  unfold mapPath
  cases s with
  | nil => rfl
  | cons c s =>
    simp only
    by_cases hc : c = 0x2f
    · subst hc
      simp only [List.head?_cons, ne_eq, not_true_eq_false, List.tail_cons, false_or] at h
      rw [if_neg (by simp), if_pos h]
    · rw [if_pos hc]

/-- Components as in `C47_mapping`. -/
example : ∀ c ∈ [([0x61] : Bytes), [0x2e, 0x62]], Plain c := by
  intro c hc
  rcases List.mem_cons.mp hc with rfl | hc
  · exact ⟨⟨by decide, by decide⟩, by decide, by decide, by decide⟩
  · rw [List.mem_singleton.mp hc]; exact ⟨⟨by decide, by decide⟩, by decide, by decide, by decide⟩

/-- The two hosts answer alike everywhere at and below the root; elsewhere they may differ. -/
def SameBelow (cwd : List Bytes) (root : Bytes) (H H' : Host) : Prop :=
  ∀ q, Below cwd root q → (∀ k, H.lstat k q = H'.lstat k q) ∧ H.readlink q = H'.readlink q ∧ H.opendir q = H'.opendir q

theorem cstr_id {p : Bytes} (h : (0 : UInt8) ∉ p) : cstr p = p := by
  unfold cstr
  induction p with
  | nil => rfl
  | cons x p ih =>
    have hx : (x != 0) = true := by simp only [bne_iff_ne, ne_eq]; rintro rfl; exact h (by simp)
    rw [List.takeWhile_cons, if_pos hx, ih (fun hh => h (by simp [hh]))]

/-- The operations give the same results, for paths which do not lead outside. -/
theorem same_ops {cwd : List Bytes} {root : Bytes} {H H' : Host} (hs : SameBelow cwd root H H') (h0 : (0 : UInt8) ∉ root) {cs : List Bytes}
    (hc : ∀ c ∈ cs, Component c ∧ (0 : UInt8) ∉ c) (hb : ∃ ds, cs.foldl stepTo (place cwd root) = place cwd root ++ ds) :
    (∀ k, lstat root H k (backendPath (pathStr cs)) = lstat root H' k (backendPath (pathStr cs))) ∧
    readlink root H (backendPath (pathStr cs)) = readlink root H' (backendPath (pathStr cs)) ∧
    opendir root H (backendPath (pathStr cs)) = opendir root H' (backendPath (pathStr cs)) := by
  obtain ⟨p, h1, h2, h3⟩ := map_comps cwd root (fun c hc' => (hc c hc').1)
  have h3 := h3 h0 (fun c hc' => (hc c hc').2)
  obtain ⟨g1, g2, g3⟩ := hs p (by unfold Below; rw [h2]; exact hb)
  unfold lstat readlink opendir
  rw [h1]
  simp only [cstr_id h3, g1, g2, g3, implies_true, and_self]

theorem stays_plain {cwd : List Bytes} {root : Bytes} {cs : List Bytes} (h : ∀ c ∈ cs, Plain c) :
    ∃ ds, cs.foldl stepTo (place cwd root) = place cwd root ++ ds := ⟨cs, foldl_plain h⟩

theorem stays_entry {cwd : List Bytes} {root : Bytes} {cs : List Bytes} (h : ∀ c ∈ cs, Plain c) {n : Bytes} (hn : cs ≠ [] ∨ n ≠ [0x2e, 0x2e]) :
    ∃ ds, (cs ++ [n]).foldl stepTo (place cwd root) = place cwd root ++ ds := by
  rw [List.foldl_append, foldl_plain h]
  simp only [List.foldl_cons, List.foldl_nil]
  unfold stepTo
  split
  · exact ⟨cs, rfl⟩
  · split
    · rename_i h2
      rcases hn with hn | hn
      · exact ⟨cs.dropLast, by rw [List.dropLast_append_of_ne_nil hn]⟩
      · exact absurd h2 hn
    · exact ⟨cs ++ [n], by simp⟩

variable {d : DB} {r : Refs} {cwd : List Bytes} {root : Bytes} {H H' : Host}

theorem backendPath_snoc (cs : List Bytes) (n : Bytes) : backendPath (pathStr (cs ++ [n])) = pathStr (cs ++ [n]) := by
  unfold backendPath; rw [if_neg]; rw [pathStr_snoc]; simp

/-- Requests about an inode whose path is made of plain names depend only on what is at or below the
root on the host: a lookup, -/
theorem C47_lookup (hs : SameBelow cwd root H H') (h0 : (0 : UInt8) ∉ root) {p : Ino} {cs : List Bytes} (hc : ∀ c ∈ cs, Plain c)
    (hp : Cache.path d p = .ok (.ok (pathStr cs))) {n : Bytes} (hn : Plain n) :
    dispatch (backend root H) d r (.lookup p n) = dispatch (backend root H') d r (.lookup p n) := by
  have key : (backend root H).lstat 0 (pathStr (cs ++ [n])) = (backend root H').lstat 0 (pathStr (cs ++ [n])) := by
    have := (same_ops hs h0 (cs := cs ++ [n]) (by
      intro c h
      rcases List.mem_append.mp h with h | h
      · exact ⟨(hc c h).1, (hc c h).2.2.2⟩
      · rw [List.mem_singleton.mp h]; exact ⟨hn.1, hn.2.2.2⟩) (stays_entry hc (.inr hn.2.2.1))).1 0
    rw [backendPath_snoc] at this
    exact this
  unfold dispatch handle FS.lookup St.txn
  simp only
  rw [hp]
  simp only [bind_ok, pathStr_snoc', key]

/-- a readlink, -/
theorem C47_readlink (hs : SameBelow cwd root H H') (h0 : (0 : UInt8) ∉ root) {i : Ino} {cs : List Bytes} (hc : ∀ c ∈ cs, Plain c)
    (hp : Cache.path d i = .ok (.ok (pathStr cs))) :
    dispatch (backend root H) d r (.readlink i) = dispatch (backend root H') d r (.readlink i) := by
  have key : (backend root H).readlink (backendPath (pathStr cs)) = (backend root H').readlink (backendPath (pathStr cs)) := by
    have := (same_ops hs h0 (cs := cs) (fun c h => ⟨(hc c h).1, (hc c h).2.2.2⟩) (stays_plain hc)).2.1
    show (match readlink root H _ with | .ok r => r | .error _ => _) = (match readlink root H' _ with | .ok r => r | .error _ => _)
    rw [this]
  unfold dispatch handle FS.readlink St.txn
  simp only
  rw [hp]
  simp only [bind_ok, key]

theorem syncLoop_same {B B' : Backend} {base : Bytes} {i : Ino} : ∀ (names : List Bytes) (k : Nat) (t : Txn),
    (∀ n ∈ names, ∀ k, B.lstat k (entryPath base n) = B'.lstat k (entryPath base n)) → syncLoop B base i k names t = syncLoop B' base i k names t := by
  intro names
  induction names with
  | nil => intro k t _; rfl
  | cons n l ih =>
    intro k t h
    unfold syncLoop
    rw [h n (by simp) k]
    split
    · exact ih _ _ (fun m hm => h m (by simp [hm]))
    · congr 1
      funext x
      exact ih _ _ (fun m hm => h m (by simp [hm]))

/-- an opendir, except that the listing of the root itself must not contain `..`, -/
theorem C47_opendir_partial (hs : SameBelow cwd root H H') (h0 : (0 : UInt8) ∉ root) {i : Ino} {cs : List Bytes} (hc : ∀ c ∈ cs, Plain c)
    (hp : Cache.path d i = .ok (.ok (pathStr cs)))
    (hl : ∀ names e, (backend root H).opendir (backendPath (pathStr cs)) = .ok (names, e) → ∀ n ∈ names, Component n ∧ (0 : UInt8) ∉ n ∧ (cs ≠ [] ∨ n ≠ [0x2e, 0x2e])) :
    dispatch (backend root H) d r (.opendir i) = dispatch (backend root H') d r (.opendir i) := by
  have key : (backend root H).opendir (backendPath (pathStr cs)) = (backend root H').opendir (backendPath (pathStr cs)) :=
    (same_ops hs h0 (cs := cs) (fun c h => ⟨(hc c h).1, (hc c h).2.2.2⟩) (stays_plain hc)).2.2
  unfold dispatch handle FS.opendir St.txn
  simp only
  rw [hp]
  simp only [bind_ok]
  rw [← key]
  cases ho : (backend root H).opendir (backendPath (pathStr cs)) with
  | error e => rfl
  | ok x =>
    obtain ⟨names, e⟩ := x
    simp only
    have : ∀ t, FS.sync (backend root H) (backendPath (pathStr cs)) i names t = FS.sync (backend root H') (backendPath (pathStr cs)) i names t := by
      intro t
      unfold FS.sync
      congr 1
      funext x
      obtain ⟨x, res⟩ := x
      simp only
      rw [syncLoop_same names 0 x]
      intro n hn k
      obtain ⟨h1, h2, h3⟩ := hl names e ho n hn
      rw [entryPath_eq (fun c h => (hc c h).1.1), ← backendPath_snoc]
      exact (same_ops hs h0 (cs := cs ++ [n]) (by
        intro c h
        rcases List.mem_append.mp h with h | h
        · exact ⟨(hc c h).1, (hc c h).2.2.2⟩
        · rw [List.mem_singleton.mp h]; exact ⟨h1, h2⟩) (stays_entry hc h3)).1 k
    rw [this]

/-- and all others, which do not use the backend at all. -/
theorem C47_others (B B' : Backend) {rq : Req} (h : match rq with | .lookup _ _ => False | .readlink _ => False | .opendir _ => False | _ => True) :
    dispatch B d r rq = dispatch B' d r rq := by
  cases rq <;> first | rfl | cases h

/-- The claim in full: no request depends on anything outside of the root. -/
def C47_full : Prop :=
  ∀ (cwd : List Bytes) (root : Bytes) (H H' : Host) (y : Sys) (rq : Req), SameBelow cwd root H H' → (0 : UInt8) ∉ root → Live y →
    Valid y (backend root H) rq → Valid y (backend root H') rq → (∀ p n, rq = .lookup p n → Plain n) →
    dispatch (backend root H) y.disk y.refs rq = dispatch (backend root H') y.disk y.refs rq

/-- A host on which there is an empty directory `/r`; the parent directory is as given. -/
def hostR (above : Res BStat) : Host where
  lstat := fun _ p => if p = [0x2f, 0x72, 0x2f, 0x2e, 0x2e] then above else .ok bDir
  readlink := fun _ => .error EINVAL
  opendir := fun _ => .ok [[0x2e], [0x2e, 0x2e]]

/-- It is false: every directory contains `..`, and that of the root directory is asked for, and
stored in the cache. -/
theorem C47_counterexample : ¬ C47_full := by
  intro h
  have key : (match demoRun [] with
    | some (y, cap, _) => validB y cap { dirs := [([], .ok (List.replicate 2 [], 0))] } (.opendir 1) && decide (
      (match dispatch (backend [0x2f, 0x72] (hostR (.ok bDir))) y.disk y.refs (.opendir 1) with
        | .ok st => decide (st.disk.next = some 4)
        | .error _ => false) = true) && decide (
      (match dispatch (backend [0x2f, 0x72] (hostR (.error 13))) y.disk y.refs (.opendir 1) with
        | .ok st => decide (st.disk.next = some 3)
        | .error _ => false) = true)
    | none => false) = true := by decide +kernel
  split at key
  case h_2 => cases key
  rename_i y cap out hrun
  obtain ⟨hl, hcap⟩ := demoRun_live hrun
  simp only [Bool.and_eq_true, decide_eq_true_eq] at key
  obtain ⟨⟨k1, k2⟩, k3⟩ := key
  obtain ⟨v1, v2, v3, v4, v5⟩ := validB_iff hcap k1
  have hv : ∀ a, Valid y (backend [0x2f, 0x72] (hostR a)) (.opendir 1) := by
    intro a
    refine ⟨v1, v2, v3, fun n hn => ⟨(v4 n hn).1, fun p names e ho => ?_⟩, v5⟩
    have := (v4 n hn).2 [] (List.replicate 2 []) 0 rfl
    rw [List.length_replicate] at this
    have : names.length = 2 := by
      have ho : Local.opendir [0x2f, 0x72] (hostR a) p = .ok (names, e) := ho
      unfold Local.opendir at ho
      split at ho
      · cases ho
      · simp only [hostR] at ho; cases ho; rfl
    omega
  have := h [] [0x2f, 0x72] (hostR (.ok bDir)) (hostR (.error 13)) y (.opendir 1) (by
    intro q hq
    refine ⟨fun k => ?_, rfl, rfl⟩
    simp only [hostR]
    rw [if_neg, if_neg]
    all_goals
      rintro rfl
      obtain ⟨cs, hcs⟩ := hq
      have h1 : place [] [0x2f, 0x72, 0x2f, 0x2e, 0x2e] = [] := by decide +kernel
      have h2 : place [] [0x2f, 0x72] = [[0x72]] := by decide +kernel
      rw [h1, h2] at hcs; cases hcs) (by decide) hl (hv _) (hv _) (by intro p n h; cases h)
  rw [this] at k2
  split at k2
  · rename_i st hst
    rw [hst] at k3
    simp only [decide_eq_true_eq] at k2 k3
    rw [k2] at k3; cases k3
  · cases k2

/-- The hypotheses of `C47_opendir_partial` can be met, with two hosts which differ.
(These are hosts for `C47_lookup` and `C47_readlink`, too; `C47_others` is about any two backends.) -/
example : ∃ H H' : Host, H.lstat 0 [0x2f] ≠ H'.lstat 0 [0x2f] ∧ SameBelow [] [0x2f, 0x72] H H' ∧
    ∀ names e, (backend [0x2f, 0x72] H).opendir (backendPath (pathStr [[0x61]])) = .ok (names, e) →
      ∀ n ∈ names, Component n ∧ (0 : UInt8) ∉ n ∧ ([([0x61] : Bytes)] ≠ [] ∨ n ≠ [0x2e, 0x2e]) := by
  refine ⟨⟨fun _ p => if p = [0x2f] then .ok bDir else .error ENOENT, fun _ => .error EINVAL, fun _ => .ok [[0x2e], [0x2e, 0x2e], [0x62]]⟩,
    ⟨fun _ _ => .error ENOENT, fun _ => .error EINVAL, fun _ => .ok [[0x2e], [0x2e, 0x2e], [0x62]]⟩, by simp, ?_, ?_⟩
  · intro q hq
    refine ⟨fun k => ?_, rfl, rfl⟩
    simp only
    rw [if_neg]
    rintro rfl
    obtain ⟨cs, hcs⟩ := hq
    have h1 : place [] [0x2f] = [] := by decide +kernel
    have h2 : place [] [0x2f, 0x72] = [[0x72]] := by decide +kernel
    rw [h1, h2] at hcs; cases hcs
  · intro names e ho n hn
    have ho : Except.ok ([[0x2e], [0x2e, 0x2e], [0x62]], (0 : Errno)) = (Except.ok (names, e) : Res (List Bytes × Errno)) := by
      rw [← ho]; decide +kernel
    cases ho
    simp only [List.mem_cons, List.not_mem_nil, or_false] at hn
    rcases hn with rfl | rfl | rfl <;> exact ⟨⟨by decide, by decide⟩, by decide, .inl (by decide)⟩

/-! ### C53 reading links -/

/-- The claim in full: if the file exists, the result is the target of the link, or the host's
error. -/
def C53_full : Prop :=
  ∀ (root : Bytes) (H : Host) (path p : Bytes) (st : BStat), mapPath root path = .ok p → H.lstat 0 (cstr p) = .ok st →
    readlink root H path = .ok (H.readlink (cstr p))

/-- Proved if the host says that it is a link, the size being that of the target. -/
theorem C53_readlink_partial {root : Bytes} {H : Host} {path p t : Bytes} {st : BStat} (hp : mapPath root path = .ok p) (hs : H.lstat 0 (cstr p) = .ok st)
    (ht : H.readlink (cstr p) = .ok t) (hlen : t.length ≤ st.size + 1) : readlink root H path = .ok (.ok t) := by
  unfold readlink
  rw [hp]; simp only; rw [hs]; simp only; rw [ht]; simp only
  rw [List.take_of_length_le hlen]

/-- Errors are passed on if `lstat` reports them. -/
theorem C53_error {root : Bytes} {H : Host} {path p : Bytes} {e : Errno} (hp : mapPath root path = .ok p) (hs : H.lstat 0 (cstr p) = .error e) :
    readlink root H path = .ok (.error e) := by
  unfold readlink
  rw [hp]; simp only; rw [hs]

/-- Whatever is returned, is the target or the beginning of it. -/
theorem C53_prefix {root : Bytes} {H : Host} {path x : Bytes} (h : readlink root H path = .ok (.ok x)) :
    ∃ p t, mapPath root path = .ok p ∧ H.readlink (cstr p) = .ok t ∧ x <+: t := by
  unfold readlink at h
  split at h
  · cases h
  · rename_i p hp
    split at h
    · cases h
    · split at h
      · cases h
      · rename_i t ht
        cases h
        exact ⟨p, t, hp, ht, List.take_prefix ..⟩

/-- On a file which is not a link the call throws an exception. -/
theorem C53_not_a_link_counterexample : ∃ root H path p st, mapPath root path = .ok p ∧ H.lstat 0 (cstr p) = .ok st ∧
    H.readlink (cstr p) = .error EINVAL ∧ readlink root H path = .error (.thrown 279) :=
  ⟨[0x2f, 0x72], ⟨fun _ _ => .ok (bFile 5), fun _ => .error EINVAL, fun _ => .error ENOTDIR⟩, [0x2f, 0x62], [0x2f, 0x72, 0x2f, 0x62], bFile 5,
    by decide +kernel, rfl, rfl, by decide +kernel⟩

/-- A link whose size is reported as zero (as in `/proc`) is cut off after one byte. -/
theorem C53_short_counterexample : ∃ root H path p st, mapPath root path = .ok p ∧ H.lstat 0 (cstr p) = .ok st ∧
    H.readlink (cstr p) = .ok [0x61, 0x62] ∧ readlink root H path = .ok (.ok [0x61]) :=
  ⟨[0x2f, 0x72], ⟨fun _ _ => .ok bLink, fun _ => .ok [0x61, 0x62], fun _ => .error ENOTDIR⟩, [0x2f, 0x6c], [0x2f, 0x72, 0x2f, 0x6c], bLink,
    by decide +kernel, rfl, rfl, by decide +kernel⟩

theorem C53_counterexample : ¬ C53_full := by
  intro h
  obtain ⟨root, H, path, p, st, h1, h2, h3, h4⟩ := C53_not_a_link_counterexample
  have := h root H path p st h1 h2
  rw [h4] at this; cases this

/-- The hypothesis of `C47_rejects`: a relative path, and one with two slashes. -/
example : mapPath [0x2f, 0x72] [0x61] = .error EINVAL ∧ mapPath [0x2f, 0x72] [0x2f, 0x2f, 0x61] = .error EINVAL :=
  ⟨C47_rejects _ _ (.inl (by decide)), C47_rejects _ _ (.inr (by decide))⟩

/-- A host with one link, `/r/l`, whose target is `x` (for the example below). -/
def linkHost : Host :=
  { lstat := fun _ p => if p = [0x2f, 0x72, 0x2f, 0x6c] then .ok { bLink with size := 1 } else .error ENOENT
    readlink := fun p => if p = [0x2f, 0x72, 0x2f, 0x6c] then .ok [0x78] else .error ENOENT
    opendir := fun _ => .error ENOTDIR }

/-- The hypotheses of `C53_readlink_partial` (and so of `C53_prefix`) and of `C53_error`. -/
example : readlink [0x2f, 0x72] linkHost [0x2f, 0x6c] = .ok (.ok [0x78]) ∧ readlink [0x2f, 0x72] linkHost [0x2f, 0x78] = .ok (.error ENOENT) :=
  ⟨C53_readlink_partial (p := [0x2f, 0x72, 0x2f, 0x6c]) (st := { bLink with size := 1 }) (by rfl) (by rfl) (by rfl) (by decide),
    C53_error (p := [0x2f, 0x72, 0x2f, 0x78]) (by rfl) (by rfl)⟩

end Dragonstash.Local
