/-
  `Filesystem::readdir` and `readdirplus` (src/fs.cpp 251-301, 308-372) with the buffers of
  Verif.Fuse.Buffer: the bytes which are sent. These are the loops of Verif.FS.Model, which keep the
  list of entries; C65 says that they agree.
-/
import Verif.Fuse.Buffer
namespace Dragonstash.FS
open Cache DirBuf

/-- State of the loops: the buffer, `to_send`, `error`, `at_eof`. -/
structure PageB where
  buf : Bytes
  toSend : Nat
  error : Errno
  atEof : Bool

/-- The loop of `readdir` (fs.cpp 259-283). -/
def readdirLoopB (d : DB) (dir : Ino) (size : Nat) : Nat → Ino → Bytes → Nat → M PageB
  | 0, _, _, _ => .error (.diverge 259)
  | f + 1, cursor, buf, toSend =>
    if buf.length < size then do
      let toSend := buf.length
      match ← Cache.readdir d dir cursor with
      | .error e => pure ⟨buf, toSend, e, e == 0⟩
      | .ok (i, n) =>
        match Cache.getattr d i with
        | .error e => pure ⟨buf, toSend, e, false⟩
        | .ok (_, a) => readdirLoopB d dir size f i (add buf n (osStat i a) i) toSend
    else pure ⟨buf, toSend, 0, false⟩

/-- A reply whose data are bytes: `reply_err`, or `reply_buf` with the bytes sent. -/
inductive ReplyB where
  | err (e : Errno)
  | buf (b : Bytes)
  deriving DecidableEq

/-- `Filesystem::readdir` (fs.cpp 251-301): its calls of the reply functions, of which the second one
throws. -/
def readdirB (d : DB) (dir : Ino) (size off : Nat) : M (List ReplyB) := do
  let pg ← readdirLoopB d dir size (d.treei.size + 4) off [] 0
  let first := if pg.error ≠ 0 then [ReplyB.err pg.error] else []
  if pg.atEof ∧ pg.buf.length = 0 ∧ testFlag d dir SYNCED ≠ .ok true then pure (first ++ [.err EIO])
  else pure (first ++ [.buf (pg.buf.take pg.toSend)])

/-- The loop of `readdirplus` (fs.cpp 315-355): the entry is in the buffer before the lock is tried. -/
def plusLoopB (t : Txn) (dir : Ino) (size : Nat) : Nat → Ino → Bytes → Nat → M (Txn × PageB ⊕ Txn)
  | 0, _, _, _ => .error (.diverge 315)
  | f + 1, cursor, buf, toSend =>
    if buf.length < size then do
      let toSend := buf.length
      match ← Cache.readdir t.db dir cursor with
      | .error e => pure (.inl (t, ⟨buf, toSend, e, false⟩))
      | .ok (i, n) =>
        match Cache.getattr t.db i with
        | .error e => pure (.inl (t, ⟨buf, toSend, e, false⟩))
        | .ok (_, a) =>
          let buf := addPlus buf n i (osStat i a) i
          if isDot n then plusLoopB t dir size f i buf toSend
          else match lock t i with
          | (t, .error e) =>
            if e = ESTALE then plusLoopB t dir size f i (rewind buf toSend) toSend
            else pure (.inr t)
          | (t, .ok ()) => plusLoopB t dir size f i buf toSend
    else pure (.inl (t, ⟨buf, toSend, 0, false⟩))

/-- `Filesystem::readdirplus` (fs.cpp 308-372): its reply. -/
def readdirplusB (t : Txn) (dir : Ino) (size off : Nat) : M ReplyB := do
  match ← plusLoopB t dir size (t.db.treei.size + 4) off [] 0 with
  | .inr _ => pure (.err EIO)
  | .inl (_, pg) =>
    if pg.error ≠ 0 then pure (.err pg.error)
    else pure (.buf (pg.buf.take pg.toSend))

end Dragonstash.FS
