/-
  Specification: where the answers of the filesystem come from. `S p sr` stands for "the backend once
  reported the attributes `sr` for the path `p`", `T p t` for "the backend once reported the link
  target `t` for the path `p`".
-/
import Verif.FS.Answer
namespace Dragonstash.FS
open Cache

/-- All that the backend reports is covered by `S` and `T`; it lists no empty names. -/
structure Said (S : Bytes → BStat → Prop) (T : Bytes → Bytes → Prop) (B : Backend) : Prop where
  lstat : ∀ k p sr, B.lstat k p = .ok sr → S p sr
  readlink : ∀ p t, B.readlink p = .ok t → T p t
  names : ∀ p names e, B.opendir p = .ok (names, e) → [] ∉ names

/-- The kernel does not look up empty names. -/
def Req.named : Req → Prop
  | .lookup _ n => n ≠ []
  | _ => True

/-- Histories in which all that the backends reported is covered by `S` and `T`. -/
inductive LiveS (S : Bytes → BStat → Prop) (T : Bytes → Bytes → Prop) : Sys → Prop
  | mount {uid gid now d r} : openCleanDB (initDB emptyDB uid gid now) Refs.empty = .ok (d, r) → LiveS S T ⟨d, r, fun _ => 0⟩
  | remount {y uid gid now d r} : LiveS S T y → openCleanDB (initDB y.disk uid gid now) Refs.empty = .ok (d, r) → LiveS S T ⟨d, r, fun _ => 0⟩
  | serve {y B rq st} : LiveS S T y → Valid y B rq → rq.named → Said S T B → dispatch B y.disk y.refs rq = .ok st → st.fault = none →
      LiveS S T (y.after rq st)

theorem LiveS.live {S T y} (h : LiveS S T y) : Live y := by
  induction h with
  | mount h => exact .mount h
  | remount _ h ih => exact .remount ih h
  | serve _ h1 _ _ h2 h3 ih => exact .serve ih h1 h2 h3

/-- `struct stat` shows what the backend reported: each field by itself; one link, blocks of 4096 bytes
and none of them used. The size is given separately. -/
structure Shows (st : OsStat) (sr : BStat) (size : Nat) : Prop where
  mode : st.mode = sr.mode
  uid : st.uid = sr.uid
  gid : st.gid = sr.gid
  atime : st.atime = sr.atime
  mtime : st.mtime = sr.mtime
  ctime : st.ctime = sr.ctime
  size : st.size = size
  nlink : st.nlink = 1
  blksize : st.blksize = 4096
  blocks : st.blocks = 0

/-- `struct stat` for path `p`: attributes which the backend reported for this path. The size of a link
may also be the length of the target which the backend reported for this path. -/
def From (S : Bytes → BStat → Prop) (T : Bytes → Bytes → Prop) (p : Bytes) (st : OsStat) : Prop :=
  ∃ sr, S p sr ∧ (Shows st sr sr.size ∨ fmt sr.mode = S_IFLNK ∧ ∃ t, T p t ∧ Shows st sr t.length)

end Dragonstash.FS
