/-
  Model of the FUSE operations: Dragonstash::Filesystem (src/fs.cpp), with the reply functions of
  Fuse::Request (include/dragonstash/fuse/request.hpp) and the directory buffers
  (include/dragonstash/fuse/buffer.hpp, src/fuse/buffer.cpp).

  Requests are processed one after the other; see `Verif.Conc` for several threads. A request runs
  at most one transaction, so the state between requests is the committed database and the reference
  table. Ending a request without commit destroys the transaction (`drop`): its database changes are
  lost, changes of the reference table stay. Commits do not fail.
-/
import Verif.Cache.Txn
namespace Dragonstash.FS
open Cache

/-- `Backend::Stat` (include/dragonstash/backend/base.hpp 42-49). -/
structure BStat where
  mode : Nat
  size : Nat
  ino : Nat
  uid : Nat
  gid : Nat
  atime : Timespec
  mtime : Timespec
  ctime : Timespec
  deriving DecidableEq

/-- `InodeAttributes::from_backend_stat` (include/dragonstash/cache/inode.hpp 65-79). -/
def fromBackend (b : BStat) : Attrs :=
  { size := b.size, nblocks := 0, uid := b.uid, gid := b.gid, atime := b.atime, mtime := b.mtime, ctime := b.ctime, mode := b.mode }

/-- `struct stat`, the fields which are set. -/
structure OsStat where
  ino : Ino
  mode : Nat
  nlink : Nat
  uid : Nat
  gid : Nat
  size : Nat
  blksize : Nat
  blocks : Nat
  atime : Timespec
  mtime : Timespec
  ctime : Timespec
  deriving DecidableEq

/-- Conversion of the cache's `Stat` to `struct stat` (inode.hpp 88-102). -/
def osStat (i : Ino) (a : Attrs) : OsStat :=
  { ino := i, mode := a.mode, nlink := 1, uid := a.uid, gid := a.gid, size := a.size, blksize := 4096, blocks := a.nblocks,
    atime := a.atime, mtime := a.mtime, ctime := a.ctime }

/-- The answers of the backend during one request (`Backend::Filesystem`, base.hpp 84-95). `lstat`
may answer differently every time; its first argument is the number of earlier calls. `opendir`
gives the names which `Dir::readdir` then returns, and the error number with which it ends
(0 is the end of the directory). -/
structure Backend where
  lstat : Nat → Bytes → Res BStat
  readlink : Bytes → Res Bytes
  opendir : Bytes → Res (List Bytes × Errno)

/-- Requests of the kernel which `Filesystem` handles (include/dragonstash/fs.hpp 52-61); `other` is
everything else (src/fuse/interface.cpp 37-205). -/
inductive Req where
  | lookup (parent : Ino) (name : Bytes)
  | forget (ino : Ino) (nlookup : Nat)
  | getattr (ino : Ino)
  | readlink (ino : Ino)
  | opendir (ino : Ino)
  | readdir (ino : Ino) (size : Nat) (off : Nat)
  | releasedir (ino : Ino)
  | readdirplus (ino : Ino) (size : Nat) (off : Nat)
  | forgetMulti (l : List (Ino × Nat))
  | other
  deriving DecidableEq

/-- An entry in a directory buffer; for `readdirplus` the inode number handed out is the one in the
attributes. -/
structure DEnt where
  name : Bytes
  stat : OsStat
  off : Nat
  deriving DecidableEq

/-- Calls of libfuse's reply functions. -/
inductive Reply where
  | err (e : Errno)
  | entry (st : OsStat)
  | attr (st : OsStat)
  | readlink (target : Bytes)
  | opened
  | buf (l : List DEnt) (bytes : Nat)
  | bufPlus (l : List DEnt) (bytes : Nat)
  | none
  deriving DecidableEq

/-- State while a request is processed. `fault` is an exception thrown by the request object. -/
structure St where
  disk : DB
  refs : Refs
  sent : List Reply := []
  fault : Option Fault := none

/-- Any `reply_` function: the request object gives up its handle with the first reply, further ones
throw (request.hpp 91-97, 138-150; with assertions compiled in). -/
def St.reply (st : St) (r : Reply) : St :=
  if st.fault.isSome then st
  else if st.sent = [] then { st with sent := [r] }
  else { st with fault := some (.thrown 94) }

/-- A transaction on the committed database (`begin_ro`, `begin_rw`). -/
def St.txn (st : St) : Txn := { db := st.disk, refs := st.refs }

/-- Commit of a read-write transaction. -/
def St.commit (st : St) (t : Txn) : St := { st with disk := t.db, refs := t.refs }

/-- Destruction without commit, or commit of a read-only transaction. -/
def St.drop (st : St) (t : Txn) : St := { st with refs := t.refs }

/-- End of `lookup`: take a reference and answer (fs.cpp 118-130). -/
def lockAndReply (st : St) (t : Txn) (i : Ino) (a : Attrs) : St :=
  match lock t i with
  | (t, .error e) => (st.drop t).reply (.err e)
  | (t, .ok ()) => (st.commit t).reply (.entry (osStat i a))

/-- `Filesystem::lookup` (fs.cpp 38-131). -/
def lookup (B : Backend) (st : St) (p : Ino) (n : Bytes) : M St := do
  let t := st.txn
  match ← path t.db p with
  | .error e => pure ((st.drop t).reply (.err e))
  | .ok b =>
    match B.lstat 0 (b ++ 0x2f :: n) with
    | .ok sr =>
      match ← emplace t p n (fromBackend sr) with
      | (t, .error e) => pure ((st.drop t).reply (.err e))
      | (t, .ok i) => pure (lockAndReply st t i (fromBackend sr))
    | .error be =>
      if be = ENOTCONN then
        match ← Cache.lookup t.db p n with
        | .error e =>
          if e = ENOENT ∧ testFlag t.db p SYNCED ≠ .ok true then pure ((st.drop t).reply (.err EIO))
          else pure ((st.drop t).reply (.err e))
        | .ok i =>
          match Cache.getattr t.db i with
          | .error _ => pure ((st.drop t).reply (.err EIO))
          | .ok (_, a) => pure (lockAndReply st t i a)
      else do
        let (t, _) ← unlinkName t p n
        pure ((st.commit t).reply (.err be))

/-- `Filesystem::forget` (fs.cpp 133-143). -/
def forget (st : St) (i : Ino) (n : Nat) : M St := do
  match ← release st.txn i n with
  | (t, .error e) => pure ((st.drop t).reply (.err e))
  | (t, .ok ()) => pure ((st.drop t).reply .none)

/-- `Filesystem::getattr` (fs.cpp 145-156). -/
def getattr (st : St) (i : Ino) : M St :=
  match Cache.getattr st.disk i with
  | .error e => .ok (st.reply (.err e))
  | .ok (j, a) => .ok (st.reply (.attr (osStat j a)))

/-- The backend path of an inode: the root is "/" (fs.cpp 168-172, 206-210). -/
def backendPath (b : Bytes) : Bytes := if b = [] then [0x2f] else b

/-- `c_str()`: a C string ends at the first NUL byte. -/
def cstr (n : Bytes) : Bytes := n.takeWhile (· != 0)

/-- `Filesystem::readlink` (fs.cpp 158-194). -/
def readlink (B : Backend) (st : St) (i : Ino) : M St := do
  let t := st.txn
  match ← path t.db i with
  | .error e => pure ((st.drop t).reply (.err e))
  | .ok b =>
    match B.readlink (backendPath b) with
    | .ok dest => pure ((st.commit (writelink t i dest).1).reply (.readlink (cstr dest)))
    | .error be =>
      if be = ENOTCONN then
        match Cache.readlink t.db i with
        | .error e => pure ((st.drop t).reply (.err e))
        | .ok dest => pure ((st.drop t).reply (.readlink (cstr dest)))
      else do
        let (t, _) ← unlinkIno t i
        pure ((st.commit t).reply (.err be))

/-- Path of a directory entry (fs.cpp 223-229). -/
def entryPath (base n : Bytes) : Bytes := (if base.length > 1 then base ++ [0x2f] else base) ++ n

/-- The loop of `opendir` over the entries of the backend directory (fs.cpp 222-236). -/
def syncLoop (B : Backend) (base : Bytes) (i : Ino) : Nat → List Bytes → Txn → M Txn
  | _, [], t => .ok t
  | k, n :: l, t =>
    match B.lstat k (entryPath base n) with
    | .error _ => syncLoop B base i (k + 1) l t
    | .ok sr => do
      let (t, _) ← emplace t i n (fromBackend sr)
      syncLoop B base i (k + 1) l t

/-- Synchronisation of a directory with the backend (fs.cpp 221-238). -/
def sync (B : Backend) (base : Bytes) (i : Ino) (names : List Bytes) (t : Txn) : M Txn := do
  let (t, _) ← startRewrite t i
  let t ← syncLoop B base i 0 names t
  let (t, _) := updateFlags t i [SYNCED] []
  let (t, _) := finishRewrite t
  pure t

/-- `Filesystem::opendir` (fs.cpp 196-249). -/
def opendir (B : Backend) (st : St) (i : Ino) : M St := do
  let t := st.txn
  match ← path t.db i with
  | .error e => pure ((st.drop t).reply (.err e))
  | .ok b =>
    match B.opendir (backendPath b) with
    | .error be =>
      if be = ENOTCONN then pure ((st.commit t).reply .opened)
      else pure ((st.drop t).reply (.err be))
    | .ok (names, _) => do
      let t ← sync B (backendPath b) i names t
      pure ((st.commit t).reply .opened)

/-- Size of an entry in a buffer: header and name, padded to eight bytes (libfuse:
`fuse_add_direntry`, header 24 bytes; `fuse_add_direntry_plus`, header 152 bytes). -/
def entSize (hdr : Nat) (e : DEnt) : Nat := (hdr + e.name.length + 7) / 8 * 8

/-- `length()` of a buffer (buffer.hpp 57-59). -/
def bufLen (hdr : Nat) (l : List DEnt) : Nat := (l.map (entSize hdr)).sum

/-- The entries in the first `k` bytes of a buffer. -/
def takeBytes (hdr : Nat) : Nat → List DEnt → List DEnt
  | _, [] => []
  | k, e :: l => if entSize hdr e ≤ k then e :: takeBytes hdr (k - entSize hdr e) l else []

/-- The entry which is added for a result of `readdir` (fs.cpp 282, 340). -/
def mkDEnt (i : Ino) (n : Bytes) (a : Attrs) : DEnt := ⟨cstr n, osStat i a, i⟩

/-- State of the loops of `readdir` and `readdirplus`: buffer, `to_send`, `error`. -/
structure Page where
  buf : List DEnt
  toSend : Nat
  error : Errno
  atEof : Bool

/-- The loop of `readdir` (fs.cpp 259-283); the results of the cache's `readdir` are never complete
(cache.cpp 590, 606, 656). `fuel` bounds the iterations. -/
def readdirLoop (d : DB) (dir : Ino) (size : Nat) : Nat → Ino → List DEnt → Nat → M Page
  | 0, _, _, _ => .error (.diverge 259)
  | f + 1, cursor, buf, toSend =>
    if bufLen 24 buf < size then do
      match ← Cache.readdir d dir cursor with
      | .error e => pure ⟨buf, bufLen 24 buf, e, e == 0⟩
      | .ok (i, n) =>
        match Cache.getattr d i with
        | .error e => pure ⟨buf, bufLen 24 buf, e, false⟩
        | .ok (_, a) => readdirLoop d dir size f i (buf ++ [mkDEnt i n a]) (bufLen 24 buf)
    else pure ⟨buf, toSend, 0, false⟩

/-- `Filesystem::readdir` (fs.cpp 251-301). There is no `return` after the reply in line 286. -/
def readdir (st : St) (dir : Ino) (size off : Nat) : M St := do
  let pg ← readdirLoop st.disk dir size (st.disk.treei.size + 4) off [] 0
  let st := if pg.error ≠ 0 then st.reply (.err pg.error) else st
  if pg.atEof ∧ bufLen 24 pg.buf = 0 ∧ testFlag st.disk dir SYNCED ≠ .ok true then pure (st.reply (.err EIO))
  else pure (st.reply (.buf (takeBytes 24 pg.toSend pg.buf) pg.toSend))

/-- Whether `readdirplus` takes no reference for this name (fs.cpp 343). -/
def isDot (n : Bytes) : Bool := n == [0x2e] || n == [0x2e, 0x2e]

/-- The loop of `readdirplus` (fs.cpp 315-355). -/
def plusLoop (t : Txn) (dir : Ino) (size : Nat) : Nat → Ino → List DEnt → Nat → M (Txn × Page ⊕ Txn)
  | 0, _, _, _ => .error (.diverge 315)
  | f + 1, cursor, buf, toSend =>
    if bufLen 152 buf < size then do
      match ← Cache.readdir t.db dir cursor with
      | .error e => pure (.inl (t, ⟨buf, bufLen 152 buf, e, false⟩))
      | .ok (i, n) =>
        match Cache.getattr t.db i with
        | .error e => pure (.inl (t, ⟨buf, bufLen 152 buf, e, false⟩))
        | .ok (_, a) =>
          if isDot n then plusLoop t dir size f i (buf ++ [mkDEnt i n a]) (bufLen 152 buf)
          else match lock t i with
          | (t, .error e) =>
            if e = ESTALE then plusLoop t dir size f i buf (bufLen 152 buf)
            else pure (.inr t)
          | (t, .ok ()) => plusLoop t dir size f i (buf ++ [mkDEnt i n a]) (bufLen 152 buf)
    else pure (.inl (t, ⟨buf, toSend, 0, false⟩))

/-- `Filesystem::readdirplus` (fs.cpp 308-372). -/
def readdirplus (st : St) (dir : Ino) (size off : Nat) : M St := do
  match ← plusLoop st.txn dir size (st.disk.treei.size + 4) off [] 0 with
  | .inr t => pure ((st.drop t).reply (.err EIO))
  | .inl (t, pg) =>
    if pg.error ≠ 0 then pure ((st.drop t).reply (.err pg.error))
    else pure ((st.drop t).reply (.bufPlus (takeBytes 152 pg.toSend pg.buf) pg.toSend))

/-- The loop of `forget_multi` (fs.cpp 377-379). -/
def forgetLoop : List (Ino × Nat) → Txn → M Txn
  | [], t => .ok t
  | (i, n) :: l, t => do
    let (t, _) ← release t i n
    forgetLoop l t

/-- `Filesystem::forget_multi` (fs.cpp 374-382). -/
def forgetMulti (st : St) (l : List (Ino × Nat)) : M St := do
  let t ← forgetLoop l st.txn
  pure ((st.drop t).reply .none)

/-- The handler of a request (fs.hpp 52-61; `releasedir` fs.cpp 303-306; interface.cpp 37-205). -/
def handle (B : Backend) (st : St) : Req → M St
  | .lookup p n => lookup B st p n
  | .forget i n => forget st i n
  | .getattr i => getattr st i
  | .readlink i => readlink B st i
  | .opendir i => opendir B st i
  | .readdir i size off => readdir st i size off
  | .releasedir _ => .ok (st.reply .none)
  | .readdirplus i size off => readdirplus st i size off
  | .forgetMulti l => forgetMulti st l
  | .other => .ok (st.reply (.err ENOSYS))

/-- Destruction of the request object: unanswered requests get the default error (request.cpp
100-110). -/
def St.finish (st : St) : St := if st.sent = [] then st.reply (.err ECANCELED) else st

/-- Dispatch of a request (interface.hpp 37-41): handler, then destruction of the request object. -/
def dispatch (B : Backend) (disk : DB) (refs : Refs) (rq : Req) : M St := do
  let st ← handle B { disk := disk, refs := refs } rq
  pure st.finish

end Dragonstash.FS
