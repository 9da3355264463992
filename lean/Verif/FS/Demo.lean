/-
  Evaluation of concrete histories of requests, used only for examples beside the theorems (that
  their hypotheses can be met) and for counterexamples.
-/
import Verif.FS.Inv
import Verif.Cache.Demo
namespace Dragonstash.FS
open Cache Codec

/-- A backend given by tables; paths which are not listed do not exist. -/
structure Tbl where
  stats : List (Bytes × Res BStat) := []
  links : List (Bytes × Res Bytes) := []
  dirs : List (Bytes × Res (List Bytes × Errno)) := []
  missing : Errno := ENOENT

def Tbl.backend (t : Tbl) : Backend where
  lstat := fun _ p => (t.stats.lookup p).getD (.error t.missing)
  readlink := fun p => (t.links.lookup p).getD (.error t.missing)
  opendir := fun p => (t.dirs.lookup p).getD (.error t.missing)

/-- Everything fails with ENOTCONN. -/
def Tbl.offline : Tbl := { missing := ENOTCONN }

/-- A number of names which no listing exceeds. -/
def Tbl.maxNames (t : Tbl) : Nat := (t.dirs.map (fun x => match x.2 with | .ok (l, _) => l.length | .error _ => 0)).sum

theorem lookup_mem {β : Type} {l : List (Bytes × β)} {p : Bytes} {x : β} (h : l.lookup p = some x) : (p, x) ∈ l := by
  induction l with
  | nil => cases h
  | cons y l ih =>
    obtain ⟨k, v⟩ := y
    rw [List.lookup_cons] at h
    split at h
    · rename_i hk; cases h; rw [beq_iff_eq] at hk; rw [hk]; simp
    · simp [ih h]

theorem le_sum_of_mem {l : List Nat} {x : Nat} (h : x ∈ l) : x ≤ l.sum := by
  induction l with
  | nil => cases h
  | cons y l ih =>
    rw [List.sum_cons]
    rcases List.mem_cons.mp h with rfl | h
    · omega
    · have := ih h; omega

theorem Tbl.maxNames_ge {t : Tbl} {p names e} (h : t.backend.opendir p = .ok (names, e)) : names.length ≤ t.maxNames := by
  unfold Tbl.backend at h
  simp only at h
  cases hl : t.dirs.lookup p with
  | none => rw [hl] at h; cases h
  | some x =>
    rw [hl] at h
    simp only [Option.getD_some] at h
    subst h
    exact le_sum_of_mem (List.mem_map.mpr ⟨_, lookup_mem hl, rfl⟩)

def Req.inRangeB : Req → Bool
  | .lookup p _ => decide (p < W64)
  | .forget i _ => decide (i < W64)
  | .getattr i => decide (i < W64)
  | .readlink i => decide (i < W64)
  | .opendir i => decide (i < W64)
  | .readdir i _ off => decide (i < W64 ∧ off < W64)
  | .releasedir i => decide (i < W64)
  | .readdirplus i _ off => decide (i < W64 ∧ off < W64)
  | .forgetMulti l => l.all (fun x => decide (x.1 < W64))
  | .other => true

def onDirB (d : DB) (i : Ino) : Bool := match Cache.getattr d i with | .ok x => fmt x.2.mode == S_IFDIR | .error _ => true

def Req.onDirB (d : DB) : Req → Bool
  | .lookup p _ => FS.onDirB d p
  | .opendir i => FS.onDirB d i
  | _ => true

def returnedB (held : Ino → Nat) : Req → Bool
  | .forget i n => decide (n ≤ held i)
  | .forgetMulti l => l.all (fun x => decide ((Req.forgetMulti l).returned x.1 ≤ held x.1))
  | _ => true

/-- Decides `Valid`, given a bound on the lock counts. -/
def validB (y : Sys) (cap : Nat) (t : Tbl) (rq : Req) : Bool :=
  rq.inRangeB && rq.onDirB y.disk && returnedB y.held rq && (match y.disk.next with | none => false | some n => decide (n + t.maxNames + 1 < W64)) &&
    decide (cap + y.disk.treei.size + 4 < W64)

theorem onDirB_iff {d i} (h : onDirB d i = true) : ∀ x, Cache.getattr d i = .ok x → fmt x.2.mode = S_IFDIR := by
  intro x hx
  unfold onDirB at h; rw [hx] at h; simpa using h

theorem returnedB_iff {held : Ino → Nat} {rq : Req} (h : returnedB held rq = true) (i : Ino) : rq.returned i ≤ held i := by
  cases rq <;> simp only [Req.returned, Nat.zero_le]
  · rename_i j n
    simp only [returnedB, decide_eq_true_eq] at h
    split
    · subst_vars; exact h
    · omega
  · rename_i l
    simp only [returnedB, List.all_eq_true, decide_eq_true_eq] at h
    by_cases hi : ∃ x ∈ l, x.1 = i
    · obtain ⟨x, hx, rfl⟩ := hi
      exact h x hx
    · have : l.filter (fun x => x.1 == i) = [] := by
        apply List.filter_eq_nil_iff.mpr
        intro x hx hh; exact hi ⟨x, hx, by simpa using hh⟩
      rw [this]; simp

theorem validB_iff {y : Sys} {cap : Nat} {t : Tbl} {rq : Req} (hc : ∀ i, (y.refs i).nrefs ≤ cap) (h : validB y cap t rq = true) : Valid y t.backend rq := by
  simp only [validB, Bool.and_eq_true, decide_eq_true_eq] at h
  obtain ⟨⟨⟨⟨h1, h2⟩, h3⟩, h4⟩, h5⟩ := h
  refine ⟨?_, ?_, returnedB_iff h3, ?_, ?_⟩
  · cases rq <;> simp_all [Req.inRangeB, Req.inRange]
    exact h1
  · cases rq <;> first | trivial | exact onDirB_iff h2
  · intro n hn
    rw [hn] at h4
    simp only [decide_eq_true_eq] at h4
    exact ⟨by omega, fun p names e hp => by have := Tbl.maxNames_ge hp; omega⟩
  · intro i; have := hc i; omega

/-- Steps of a history: a request, with the backend's answers, or a restart of the process. -/
inductive Act where
  | req (t : Tbl) (rq : Req)
  | restart

/-- Runs a history, provided that all requests are valid and none ends with an exception. Returns the
replies, latest first. -/
def demoFS (y : Sys) (cap : Nat) (out : List Reply) : List Act → Option (Sys × Nat × List Reply)
  | [] => some (y, cap, out)
  | .restart :: l =>
    match openCleanDB (initDB y.disk 0 0 ⟨0, 0⟩) Refs.empty with
    | .ok (d, r) => demoFS ⟨d, r, fun _ => 0⟩ 0 out l
    | .error _ => none
  | .req t rq :: l =>
    if validB y cap t rq then
      match dispatch t.backend y.disk y.refs rq with
      | .ok st => if st.fault.isNone then demoFS (y.after rq st) (cap + y.disk.treei.size + 2) (st.sent ++ out) l else none
      | .error _ => none
    else none

theorem open_counts {d d' : DB} {r' : Refs} {s : Tree} (h : SI s d r') (h1 : openCleanDB d Refs.empty = .ok (d', r)) (i : Ino) : (r i).nrefs = 0 := by
  obtain ⟨s1, s2, d2, r1, r2, g1, g2, g3, g4, g5, g6, g7, g8, -⟩ := openClean_spec h.rep h.ok Refs.empty
  rw [h1] at g1; cases g1
  rw [(g8 i).1, (g6 i).1]; rfl

theorem init_same {y : Sys} (h : Live y) (uid gid now) : initDB y.disk uid gid now = y.disk := by
  obtain ⟨s, h1, -⟩ := live_inv h
  unfold initDB; rw [h1.rep.next]

theorem demoFS_live : ∀ {l : List Act} {y y' : Sys} {cap cap' : Nat} {out out' : List Reply}, Live y → (∀ i, (y.refs i).nrefs ≤ cap) →
    demoFS y cap out l = some (y', cap', out') → Live y' ∧ ∀ i, (y'.refs i).nrefs ≤ cap' := by
  intro l
  induction l with
  | nil => intro y y' cap cap' out out' h hc hd; cases hd; exact ⟨h, hc⟩
  | cons a l ih =>
    intro y y' cap cap' out out' h hc hd
    cases a with
    | restart =>
      simp only [demoFS] at hd
      split at hd
      · rename_i d r ho
        refine ih (.remount h ho) (fun i => ?_) hd
        rw [init_same h] at ho
        obtain ⟨s, h1, -⟩ := live_inv h
        exact Nat.le_of_eq (open_counts h1 ho i)
      · cases hd
    | req t rq =>
      simp only [demoFS] at hd
      split at hd
      · rename_i hv
        have hv := validB_iff hc hv
        split at hd
        · rename_i st hs
          split at hd
          · rename_i hf
            have hf : st.fault = none := by simpa using hf
            refine ih (.serve h hv hs hf) (fun i => ?_) hd
            obtain ⟨s, h1, h2⟩ := live_inv h
            rcases dispatch_served h1 h2 hv with ⟨s', d', r', rep, g1, g2, g3⟩ | ⟨dir, size, off, e, -, -, g1⟩
            · rw [g1] at hs; cases hs
              have := abs_counts_le g3 i
              have := hc i
              show (r' i).nrefs ≤ _
              omega
            · rw [g1] at hs; cases hs; cases hf
          · cases hd
        · cases hd
      · cases hd

/-- A history from a new cache. -/
def demoRun (l : List Act) : Option (Sys × Nat × List Reply) :=
  match openCleanDB (initDB emptyDB 0 0 ⟨0, 0⟩) Refs.empty with
  | .ok (d, r) => demoFS ⟨d, r, fun _ => 0⟩ 0 [] l
  | .error _ => none

theorem demoRun_live {l y cap out} (h : demoRun l = some (y, cap, out)) : Live y ∧ ∀ i, (y.refs i).nrefs ≤ cap := by
  unfold demoRun at h
  split at h
  · rename_i d r ho
    refine demoFS_live (.mount ho) (fun i => ?_) h
    obtain ⟨s, h1, h2, h3⟩ := root_rep 0 0 ⟨0, 0⟩
    have h0 : SI s (initDB emptyDB 0 0 ⟨0, 0⟩) Refs.empty := ⟨h1, h2, h3, fun i hi => (by cases hi), fun i hi => absurd hi (by simp [Refs.empty]), Refs.empty_ok⟩
    exact Nat.le_of_eq (open_counts h0 ho i)
  · cases h

/-- A live system given by a checked history. -/
theorem demoFS_ex {l : List Act} {P : Sys → Prop} [DecidablePred P]
    (h : (match demoRun l with | some (y, _) => decide (P y) | none => false) = true) : ∃ y, Live y ∧ P y := by
  split at h
  · rename_i y x hw; obtain ⟨cap, out⟩ := x; exact ⟨y, (demoRun_live hw).1, by simpa using h⟩
  · cases h

/-- A live system with a valid request, by a checked history. -/
theorem demoFS_valid {l : List Act} {P : Sys → Prop} [DecidablePred P] {t : Tbl} {rq : Req}
    (h : (match demoRun l with | some (y, cap, _) => validB y cap t rq && decide (P y) | none => false) = true) :
    ∃ y, Live y ∧ Valid y t.backend rq ∧ P y := by
  split at h
  · rename_i y cap out hw
    rw [Bool.and_eq_true] at h
    obtain ⟨h1, h2⟩ := demoRun_live hw
    exact ⟨y, h1, validB_iff h2 h.1, by simpa using h.2⟩
  · cases h

/-- Statistics for examples. -/
def bDir : BStat := ⟨S_IFDIR + 0o755, 0, 7, 0, 0, ⟨0, 0⟩, ⟨0, 0⟩, ⟨0, 0⟩⟩
def bFile (size : Nat) : BStat := ⟨S_IFREG + 0o644, size, 7, 0, 0, ⟨0, 0⟩, ⟨0, 0⟩, ⟨0, 0⟩⟩
def bLink : BStat := ⟨S_IFLNK + 0o777, 0, 7, 0, 0, ⟨0, 0⟩, ⟨0, 0⟩, ⟨0, 0⟩⟩

/-- A backend with a directory `/a` holding a file `/a/b`, and a link `/l`. -/
def tblA : Tbl where
  stats := [([0x2f, 0x61], .ok bDir), ([0x2f, 0x61, 0x2f, 0x62], .ok (bFile 5)), ([0x2f, 0x6c], .ok bLink)]
  links := [([0x2f, 0x6c], .ok [0x61])]
  dirs := [([0x2f], .ok ([[0x61], [0x6c]], 0)), ([0x2f, 0x61], .ok ([[0x62]], 0))]

example : ∃ y, Live y ∧ Valid y tblA.backend (.lookup 2 [0x62]) ∧ y.held 2 = 1 :=
  demoFS_valid (l := [.req tblA (.lookup 1 [0x61])]) (by decide +kernel)

end Dragonstash.FS
