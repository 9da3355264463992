/-
  C96: what is mounted, and what is unmounted, is what the user named, wherever the program was started.
-/
import Verif.Main.Paths
import Verif.Props.Main
import Verif.FS.Demo
namespace Dragonstash.Main
open Local Cache FS

/-- A path which does not depend on the working directory. -/
def Absolute (p : Bytes) : Prop := p.head? = some 0x2f

/-- C96 in full: every place which the program touches is the one which the path on the command line
meant when the program was started. -/
def C96_full : Prop :=
  ∀ (o : Opts) (e : Env) (p : Paths) (cwd : List Bytes), ∀ u ∈ uses p cwd (main o e).1, u.2 = place cwd (p.of u.1)

theorem place_absolute {p : Bytes} (h : Absolute p) (c c' : List Bytes) : place c p = place c' p := by
  unfold Absolute at h; unfold place; rw [if_pos h, if_pos h]

/-- Places used, whatever the events. -/
theorem uses_mem {p : Paths} {u : What × List Bytes} : ∀ {l : List Ev} {cwd : List Bytes}, u ∈ uses p cwd l → u.2 = place cwd (p.of u.1) ∨ u.2 = place [] (p.of u.1)
  | [], _, h => by cases h
  | e :: l, cwd, h => by
    have ih := fun c => uses_mem (p := p) (u := u) (l := l) (cwd := c)
    unfold uses at h
    cases e <;> simp only [List.mem_cons] at h
    case openCache => rcases h with rfl | h; exact .inl rfl; exact ih _ h
    case mount => rcases h with rfl | h; exact .inl rfl; exact ih _ h
    case unmount => rcases h with rfl | h; exact .inl rfl; exact ih _ h
    case loop => rcases h with rfl | h; exact .inl rfl; exact ih _ h
    case daemonize => exact (ih _ h).elim .inr .inr
    all_goals exact ih _ h

/-- C96: with absolute paths it holds. Missing: relative paths. -/
theorem C96_absolute_partial (o : Opts) (e : Env) {p : Paths} (hl : Absolute p.localPath) (hm : Absolute p.mountpoint) (hc : Absolute p.cachedir)
    (cwd : List Bytes) : ∀ u ∈ uses p cwd (main o e).1, u.2 = place cwd (p.of u.1) := by
  intro u hu
  rcases uses_mem hu with h | h
  · exact h
  · rw [h]
    obtain ⟨w, q⟩ := u
    cases w
    · exact place_absolute hc _ _
    · exact place_absolute hm _ _
    · exact place_absolute hl _ _

/-- The traces of `main`: none of the paths is used, only the cache and the mount point before going to the
background, or everything. -/
theorem main_uses (o : Opts) (e : Env) (p : Paths) (cwd : List Bytes) :
    uses p cwd (main o e).1 = if Ev.loop ∈ (main o e).1 then
        [(.cache, place cwd p.cachedir), (.mountpoint, place cwd p.mountpoint), (.backend, place [] p.localPath), (.mountpoint, place [] p.mountpoint)]
      else if Ev.openCache ∈ (main o e).1 then [(.cache, place cwd p.cachedir)] else [] := by
  unfold main execute
  cases hp : e.parse with
  | some s => simp [uses]
  | none =>
    cases hs : e.sub with
    | false => simp [uses]
    | true =>
      simp only [if_true]
      by_cases h1 : e.cacheOpens = false
      · simp [h1, uses]
      · simp only [h1]
        by_cases h2 : o.backend = .sftp
        · simp [h2, uses]
        · simp only [h2]
          by_cases h3 : e.sessionMade = false
          · simp [h3, uses]
          · simp only [h3]
            by_cases h4 : e.setSignals = 0
            · by_cases h5 : e.mount = 0
              · simp [h4, h5, uses]
              · simp [h4, h5, uses]
            · simp [h4, uses]

/-- C96 for the cache directory, in full: it is the one which was named. -/
theorem C96_cache (o : Opts) (e : Env) (p : Paths) (cwd : List Bytes) : ∀ u ∈ uses p cwd (main o e).1, u.1 = .cache → u.2 = place cwd p.cachedir := by
  intro u hu hw
  rw [main_uses] at hu
  by_cases h1 : Ev.loop ∈ (main o e).1
  · rw [if_pos h1] at hu
    simp only [List.mem_cons, List.not_mem_nil, or_false] at hu
    rcases hu with rfl | rfl | rfl | rfl
    · rfl
    all_goals cases hw
  · rw [if_neg h1] at hu
    by_cases h2 : Ev.openCache ∈ (main o e).1
    · rw [if_pos h2] at hu
      simp only [List.mem_cons, List.not_mem_nil, or_false] at hu
      subst hu; rfl
    · rw [if_neg h2] at hu; cases hu

/-- C96, exactly: a program which serves touches the right places if and only if the local path and the mount
point mean the same seen from the root directory. (So a relative path is right only when the program is
started in the root directory, or by coincidence.) -/
theorem C96_exact (o : Opts) (e : Env) (p : Paths) (cwd : List Bytes) (h : Ev.loop ∈ (main o e).1) :
    (∀ u ∈ uses p cwd (main o e).1, u.2 = place cwd (p.of u.1)) ↔
      place [] p.localPath = place cwd p.localPath ∧ place [] p.mountpoint = place cwd p.mountpoint := by
  rw [main_uses, if_pos h]
  simp [Paths.of]

/-- For a plain relative name it is wrong everywhere but in the root directory. -/
theorem C96_relative (o : Opts) (e : Env) (p : Paths) (cwd : List Bytes) (h : Ev.loop ∈ (main o e).1) {n : Bytes} (hn : p.localPath = n)
    (h1 : n ≠ []) (h2 : n ≠ [0x2e]) (h3 : n ≠ [0x2e, 0x2e]) (h4 : (0x2f : UInt8) ∉ n) (hc : cwd ≠ []) :
    (.backend, [n]) ∈ uses p cwd (main o e).1 ∧ place cwd p.localPath = cwd ++ [n] ∧ cwd ++ [n] ≠ [n] := by
  have hpc : Local.pieces n = [n] := by
    clear hn h2 h3
    induction n with
    | nil => exact absurd rfl h1
    | cons c l ih =>
      have hcl : c ≠ 0x2f := fun hc => h4 (by rw [hc]; exact List.mem_cons_self ..)
      unfold Local.pieces
      rw [if_neg hcl]
      cases l with
      | nil => rfl
      | cons d l => rw [ih (by simp) (fun hd => h4 (List.mem_cons_of_mem _ hd))]
  have hhead : n.head? ≠ some 0x2f := by
    cases n with
    | nil => simp
    | cons c l => simp only [List.head?_cons, ne_eq, Option.some.injEq]; exact fun hc => h4 (by rw [hc]; exact List.mem_cons_self ..)
  have hpl : ∀ c, place c n = c ++ [n] := by
    intro c
    unfold place stepTo
    rw [if_neg hhead, hpc]
    simp only [List.foldl_cons, List.foldl_nil]
    rw [if_neg (by simp [h1, h2]), if_neg h3]
  refine ⟨?_, by rw [hn]; exact hpl _, ?_⟩
  · rw [main_uses, if_pos h, hn, hpl]
    simp
  · intro he
    have := congrArg List.length he
    simp only [List.length_append, List.length_cons, List.length_nil] at this
    cases cwd with
    | nil => exact hc rfl
    | cons => simp at this

/-- It is false in full: `mount --local d c m`, started in `/home`, serves `/d` instead of `/home/d`. -/
theorem C96_counterexample : ¬ C96_full := by
  intro h
  have := h ⟨.localDir, false, true⟩ ⟨none, true, true, true, 0, 0, 0⟩ ⟨"d".toUTF8.toList, "c".toUTF8.toList, "m".toUTF8.toList⟩ ["home".toUTF8.toList]
    (.backend, ["d".toUTF8.toList]) (by decide +kernel)
  exact absurd this (by decide +kernel)

/-- `cstr` keeps the first byte. -/
theorem cstr_head {p : Bytes} (h : Absolute p) : Absolute (FS.cstr p) := by
  cases p with
  | nil => cases h
  | cons c l =>
    simp only [Absolute, List.head?_cons, Option.some.injEq] at h
    subst h
    simp [Absolute, FS.cstr]

theorem map_absolute {root p q : Bytes} (h : Absolute root) (hm : mapPath root p = .ok q) : Absolute q := by
  cases p with
  | nil => cases hm
  | cons c l =>
    unfold mapPath at hm
    simp only at hm
    by_cases h1 : c ≠ 0x2f
    · rw [if_pos h1] at hm; cases hm
    · rw [if_neg h1] at hm
      by_cases h2 : l.head? = some 0x2f
      · rw [if_pos h2] at hm; cases hm
      · rw [if_neg h2] at hm
        cases hm
        cases root with
        | nil => cases h
        | cons d r =>
          simp only [Absolute, List.head?_cons, Option.some.injEq] at h
          subst h
          unfold appendPath Absolute
          rw [if_neg (by simp)]
          by_cases h3 : (0x2f :: r : Bytes).getLast? = some 0x2f
          · rw [if_pos h3]; rfl
          · rw [if_neg h3]; rfl

/-- C96, what is served: with an absolute path the backend answers every request as it would where the
program was started. -/
theorem C96_serves (W : World) {root : Bytes} (h : Absolute root) (cwd : List Bytes) : Local.backend root (W.seen []) = Local.backend root (W.seen cwd) := by
  have hp : ∀ {p q : Bytes}, mapPath root p = .ok q → place [] (FS.cstr q) = place cwd (FS.cstr q) :=
    fun hm => place_absolute (cstr_head (map_absolute h hm)) _ _
  unfold Local.backend
  congr 1
  · funext k p
    unfold Local.lstat World.seen
    cases hm : mapPath root p with
    | error e => rfl
    | ok q => simp only; rw [hp hm]
  · funext p
    unfold Local.readlink World.seen
    cases hm : mapPath root p with
    | error e => rfl
    | ok q => simp only; rw [hp hm]
  · funext p
    unfold Local.opendir World.seen
    cases hm : mapPath root p with
    | error e => rfl
    | ok q => simp only; rw [hp hm]

/-- A host with the directories `/home/d` and `/d`, in both a file `x` (of 5 and 9 bytes), a link `l` (to `y` and
`z`) and a directory `s` (with an entry `y` or `z`). -/
def twoFiles : World where
  lstat := fun _ p => if p = ["home".toUTF8.toList, "d".toUTF8.toList, "x".toUTF8.toList] then .ok (bFile 5)
    else if p = ["d".toUTF8.toList, "x".toUTF8.toList] then .ok (bFile 9)
    else if p.getLast? = some "l".toUTF8.toList then .ok { bLink with size := 1 } else .error ENOENT
  readlink := fun p => if p = ["home".toUTF8.toList, "d".toUTF8.toList, "l".toUTF8.toList] then .ok "y".toUTF8.toList
    else if p = ["d".toUTF8.toList, "l".toUTF8.toList] then .ok "z".toUTF8.toList else .error ENOENT
  opendir := fun p => if p = ["home".toUTF8.toList, "d".toUTF8.toList, "s".toUTF8.toList] then .ok ["y".toUTF8.toList]
    else if p = ["d".toUTF8.toList, "s".toUTF8.toList] then .ok ["z".toUTF8.toList] else .error ENOENT

/-- With a relative path (`--local d`, started in `/home`) the kernel is told of other objects: those in `/d`. -/
theorem C96_serves_counterexample :
    let b := Local.backend "d".toUTF8.toList (twoFiles.seen ["home".toUTF8.toList])
    let b' := Local.backend "d".toUTF8.toList (twoFiles.seen [])
    b.lstat 0 "/x".toUTF8.toList = .ok (bFile 5) ∧ b'.lstat 0 "/x".toUTF8.toList = .ok (bFile 9) ∧
    b.readlink "/l".toUTF8.toList = .ok "y".toUTF8.toList ∧ b'.readlink "/l".toUTF8.toList = .ok "z".toUTF8.toList ∧
    b.opendir "/s".toUTF8.toList = .ok (["y".toUTF8.toList], 0) ∧ b'.opendir "/s".toUTF8.toList = .ok (["z".toUTF8.toList], 0) := by
  refine ⟨?_, ?_, ?_, ?_, ?_, ?_⟩ <;> decide +kernel

/-- The hypotheses of `C96_absolute_partial`, `C96_exact` and `C96_serves`: `mount --local /home/d /c /m`, started
in `/home`. -/
example : Absolute "/home/d".toUTF8.toList ∧ Absolute "/m".toUTF8.toList ∧ Absolute "/c".toUTF8.toList ∧
    Ev.loop ∈ (main ⟨.localDir, false, true⟩ ⟨none, true, true, true, 0, 0, 0⟩).1 ∧
    uses ⟨"/home/d".toUTF8.toList, "/c".toUTF8.toList, "/m".toUTF8.toList⟩ ["home".toUTF8.toList] (main ⟨.localDir, false, true⟩ ⟨none, true, true, true, 0, 0, 0⟩).1
      = [(.cache, ["c".toUTF8.toList]), (.mountpoint, ["m".toUTF8.toList]), (.backend, ["home".toUTF8.toList, "d".toUTF8.toList]), (.mountpoint, ["m".toUTF8.toList])] ∧
    (Local.backend "/home/d".toUTF8.toList (twoFiles.seen [])).lstat 0 "/x".toUTF8.toList = .ok (bFile 5) := by
  refine ⟨?_, ?_, ?_, ?_, ?_, ?_⟩ <;> first | (unfold Absolute; decide +kernel) | decide +kernel

/-- `C96_relative`: the relative name `d`, in `/home`. -/
example : "d".toUTF8.toList ≠ [] ∧ "d".toUTF8.toList ≠ [0x2e] ∧ "d".toUTF8.toList ≠ [0x2e, 0x2e] ∧ (0x2f : UInt8) ∉ "d".toUTF8.toList ∧
    ["home".toUTF8.toList] ≠ ([] : List Bytes) := by decide +kernel

end Dragonstash.Main
