/-
  Exchanges of request and reply, as used in the statements about the filesystem.
-/
import Verif.FS.Live
namespace Dragonstash.FS
open Cache

/-- The request is answered by exactly one reply, without an exception, and leads to `y'`. -/
def Answered (y : Sys) (B : Backend) (rq : Req) (rep : Reply) (y' : Sys) : Prop :=
  ∃ st, dispatch B y.disk y.refs rq = .ok st ∧ st.fault = none ∧ st.sent = [rep] ∧ y' = y.after rq st

/-- The backend is not connected. -/
structure Offline (B : Backend) : Prop where
  lstat : ∀ k p, B.lstat k p = .error ENOTCONN
  readlink : ∀ p, B.readlink p = .error ENOTCONN
  opendir : ∀ p, B.opendir p = .error ENOTCONN

/-- Live systems whose history contains no `readdirplus`. -/
inductive NoPlus : Sys → Prop
  | mount {uid gid now d r} : openCleanDB (initDB emptyDB uid gid now) Refs.empty = .ok (d, r) → NoPlus ⟨d, r, fun _ => 0⟩
  | remount {y uid gid now d r} : NoPlus y → openCleanDB (initDB y.disk uid gid now) Refs.empty = .ok (d, r) → NoPlus ⟨d, r, fun _ => 0⟩
  | serve {y B rq st} : NoPlus y → Valid y B rq → (∀ dir size off, rq ≠ .readdirplus dir size off) →
      dispatch B y.disk y.refs rq = .ok st → st.fault = none → NoPlus (y.after rq st)

theorem NoPlus.live {y : Sys} (h : NoPlus y) : Live y := by
  induction h with
  | mount h => exact .mount h
  | remount _ h ih => exact .remount ih h
  | serve _ h1 _ h2 h3 ih => exact .serve ih h1 h2 h3

theorem Answered.live {y y' : Sys} {B rq rep} (h : Answered y B rq rep y') (hl : Live y) (hv : Valid y B rq) : Live y' := by
  obtain ⟨st, h1, h2, -, rfl⟩ := h
  exact .serve hl hv h1 h2

theorem Answered.unique {y y' y'' : Sys} {B rq rep rep'} (h : Answered y B rq rep y') (h' : Answered y B rq rep' y'') : rep = rep' ∧ y' = y'' := by
  obtain ⟨st, h1, h2, h3, rfl⟩ := h
  obtain ⟨st', k1, k2, k3, rfl⟩ := h'
  rw [h1] at k1; cases k1
  rw [h3] at k3; cases k3
  exact ⟨rfl, rfl⟩

end Dragonstash.FS
