/-
  Specification of histories which keep an entry: the backend, as far as it is connected, confirms the
  entry and the directories above it.
-/
import Verif.FS.Answer
import Verif.Cache.Spec
namespace Dragonstash.FS
open Cache

/-- What a backend must answer so that the path `fs` is kept, `A` being the attributes which are
allowed along it. -/
structure Confirms (B : Backend) (A : List Bytes → Attrs → Prop) (fs : List Bytes) : Prop where
  lstat : ∀ ds k, ds <+: fs → ds ≠ [] → (∃ sr, B.lstat k (pathStr ds) = .ok sr ∧ A ds (fromBackend sr)) ∨ B.lstat k (pathStr ds) = .error ENOTCONN
  opendir : ∀ ds m names e, ds ++ [m] <+: fs → B.opendir (backendPath (pathStr ds)) = .ok (names, e) →
    ∃ k sr, names[k]? = some m ∧ B.lstat k (pathStr (ds ++ [m])) = .ok sr
  readlink : ∀ ds a, ds <+: fs → A ds a → fmt a.mode = S_IFLNK →
    (∃ dest, B.readlink (pathStr ds) = .ok dest ∧ A ds { a with size := dest.length }) ∨ B.readlink (pathStr ds) = .error ENOTCONN

/-- Links are read only of links. -/
def Req.onLink (d : DB) : Req → Prop
  | .readlink i => ∀ x, Cache.getattr d i = .ok x → fmt x.2.mode = S_IFLNK
  | _ => True

/-- Attributes along the path `fs`: `P` for the entry itself, directories above it. -/
def along (fs : List Bytes) (P : Attrs → Prop) (ds : List Bytes) (a : Attrs) : Prop :=
  if ds = fs then P a else fmt a.mode = S_IFDIR

/-- Histories which keep the entry with path `fs` and attributes `P`: any requests, with a backend which
confirms the entry (or is not connected), and restarts. -/
inductive Between (fs : List Bytes) (P : Attrs → Prop) : Sys → Sys → Prop
  | refl {y} : Between fs P y y
  | step {y y1 y2 B rq rep} : Between fs P y y1 → Valid y1 B rq → rq.onLink y1.disk → Confirms B (along fs P) fs → Answered y1 B rq rep y2 →
      Between fs P y y2
  | restart {y y1 uid gid now d r} : Between fs P y y1 → openCleanDB (initDB y1.disk uid gid now) Refs.empty = .ok (d, r) →
      Between fs P y ⟨d, r, fun _ => 0⟩

theorem Between.live {fs : List Bytes} {P : Attrs → Prop} {y y' : Sys} (h : Between fs P y y') (hl : Live y) : Live y' := by
  induction h with
  | refl => exact hl
  | step _ h1 _ _ h2 ih => exact h2.live ih h1
  | restart _ h1 ih => exact .remount ih h1

/-- A backend which is not connected confirms everything. -/
theorem Offline.confirms {B : Backend} (h : Offline B) (A : List Bytes → Attrs → Prop) (fs : List Bytes) : Confirms B A fs := by
  refine ⟨fun _ _ _ _ => .inr (h.lstat _ _), ?_, fun _ _ _ _ _ => .inr (h.readlink _)⟩
  intro ds m names e _ hB
  rw [h.opendir] at hB; cases hB

end Dragonstash.FS
