/-
  C73: what `dragonstash mount` acquires it gives back; what its exit status says.
-/
import Verif.Main.Mount
namespace Dragonstash.Main

/-- What an event acquires, and what gives it back. -/
def Ev.acquires : Ev → Option Ev
  | .openCache => some .closeCache
  | .newSession => some .destroySession
  | .setSignals => some .removeSignals
  | .mount => some .unmount
  | _ => none

/-- The events of a trace, read with a stack of what must still be given back: things are given back
in reverse order of their acquisition, each once; the stack at the end, `none` for a violation. -/
def pending : List Ev → List Ev → Option (List Ev)
  | [], st => some st
  | x :: t, st =>
    match x.acquires with
    | some y => pending t (y :: st)
    | none =>
      match x with
      | .daemonize _ => pending t st
      | .loop => pending t st
      | y => match st with
        | z :: st' => if z = y then pending t st' else none
        | [] => none

/-- C73: the program comes to its end. -/
def Returns (x : List Ev × End) : Prop := ∃ s, x.2 = .status s

/-- C73, clean up: whatever of the setup fails, if the program returns then the session is destroyed,
the signal handlers are removed, the filesystem is unmounted and the cache is closed if and only if
they were set up; in reverse order, each once. -/
theorem C73_cleanup (o : Opts) (e : Env) (h : Returns (main o e)) : pending (main o e).1 [] = some [] := by
  obtain ⟨s, h⟩ := h
  unfold main execute at *
  cases hp : e.parse with
  | some s => simp only [hp]; rfl
  | none =>
    simp only [hp] at h ⊢
    cases hs : e.sub with
    | false => simp [pending]
    | true =>
      simp only [hs] at h ⊢
      by_cases h1 : e.cacheOpens = false
      · simp [h1] at h
      · simp only [h1] at h ⊢
        by_cases h2 : o.backend = .sftp
        · simp [h2] at h
        · simp only [h2] at h ⊢
          by_cases h3 : e.sessionMade = false
          · simp [h3] at h
          · simp only [h3] at h ⊢
            by_cases h4 : e.setSignals = 0
            · by_cases h5 : e.mount = 0
              · simp [h4, h5, pending, Ev.acquires]
              · simp [h4, h5, pending, Ev.acquires]
            · simp [h4, pending, Ev.acquires]

/-- C73: the loop only runs on a mounted session with signal handlers, after going to the background. -/
theorem C73_serves (o : Opts) (e : Env) (h : Ev.loop ∈ (main o e).1) :
    e.mount = 0 ∧ e.setSignals = 0 ∧ ∃ post, (main o e).1 = [.openCache, .newSession, .setSignals, .mount, .daemonize (o.debug || o.foreground), .loop] ++ post := by
  unfold main execute at *
  cases hp : e.parse with
  | some s => simp [hp] at h
  | none =>
    simp only [hp] at h ⊢
    cases hs : e.sub with
    | false => simp [hs] at h
    | true =>
      simp only [hs] at h ⊢
      by_cases h1 : e.cacheOpens = false
      · simp [h1] at h
      · simp only [h1] at h ⊢
        by_cases h2 : o.backend = .sftp
        · simp [h2] at h
        · simp only [h2] at h ⊢
          by_cases h3 : e.sessionMade = false
          · simp [h3] at h
          · simp only [h3] at h ⊢
            by_cases h4 : e.setSignals = 0
            · by_cases h5 : e.mount = 0
              · refine ⟨h5, h4, ?_⟩
                simp [h4, h5]
              · simp [h4, h5] at h
            · simp [h4] at h

/-- Everything which the subcommand does succeeds. -/
def AllWell (e : Env) : Prop := e.cacheOpens = true ∧ e.sessionMade = true ∧ e.setSignals = 0 ∧ e.mount = 0 ∧ e.loop = 0

/-- C73, exit status, in full: the subcommand exits with status 0 if and only if everything went well. -/
def C73_full : Prop :=
  ∀ (o : Opts) (e : Env), e.parse = none → e.sub = true → ((main o e).2 = .status 0 ↔ AllWell e)

/-- It is false: the status is 0 if the filesystem cannot be mounted. -/
theorem C73_counterexample : ¬ C73_full := by
  intro h
  have := (h ⟨.localDir, false, false⟩ ⟨none, true, true, true, 0, -1, 0⟩ rfl rfl).mp rfl
  exact absurd this.2.2.2.1 (by decide)

/-- Not even `execute` tells: a session which ends well gives 1, one whose loop fails gives 0. -/
theorem C73_inverted (o : Opts) (e : Env) (hb : o.backend ≠ .sftp) (h : e.cacheOpens = true ∧ e.sessionMade = true ∧ e.setSignals = 0 ∧ e.mount = 0) :
    (execute o e).2 = .status (if e.loop = 0 then 1 else 0) := by
  obtain ⟨h1, h2, h3, h4⟩ := h
  simp [execute, h1, h2, h3, h4, hb]

/-- With `--sftp` there is no backend: the program dereferences a null pointer as soon as the cache is
open. -/
theorem C73_sftp (o : Opts) (e : Env) (hb : o.backend = .sftp) (hp : e.parse = none) (hs : e.sub = true) (hc : e.cacheOpens = true) :
    (main o e).2 = .nullBackend := by
  simp [main, execute, hb, hp, hs, hc]

/-- C73, what holds of the exit status: if everything goes well, and the backend is not `--sftp`, it
is 0; a command line error gives the parser's status. -/
theorem C73_status_partial (o : Opts) (e : Env) :
    (e.parse = none → e.sub = true → o.backend ≠ .sftp → AllWell e → (main o e).2 = .status 0) ∧ (∀ s, e.parse = some s → main o e = ([], .status s)) := by
  refine ⟨fun hp hs hb ⟨h1, h2, h3, h4, h5⟩ => ?_, fun s hp => ?_⟩
  · simp [main, execute, hb, hp, hs, h1, h2, h3, h4, h5]
  · simp [main, hp]

/-- A session which serves: local backend.
(The hypotheses of `C73_cleanup`, `C73_serves`, `C73_inverted` and `C73_status_partial`.) -/
example : Returns (main ⟨.localDir, true, false⟩ ⟨none, true, true, true, 0, 0, 0⟩) ∧ Ev.loop ∈ (main ⟨.localDir, true, false⟩ ⟨none, true, true, true, 0, 0, 0⟩).1 ∧
    AllWell ⟨none, true, true, true, 0, 0, 0⟩ := by
  refine ⟨⟨0, rfl⟩, by decide, ?_⟩
  unfold AllWell; decide

/-- `C73_sftp`, with a cache which opens. -/
example : (main ⟨.sftp, false, false⟩ ⟨none, true, true, true, 0, 0, 0⟩).2 = .nullBackend := C73_sftp _ _ rfl rfl rfl rfl

end Dragonstash.Main
