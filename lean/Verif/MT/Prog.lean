/-
  The request handlers of `Filesystem` (src/fs.cpp) as programs: the calls on the cache transaction one
  by one, and the way the transaction ends. Several threads run such programs (`Verif.MT.Model`).
  `Verif.MT.Seq` shows that a program which runs alone does what `Verif.FS.Model` says.
-/
import Verif.FS.Model
import Verif.Conc.Serial
namespace Dragonstash.MT
open Cache FS Conc

/-- A handler from some point on: a call on the transaction, and how it continues with the result; or
the end, with the calls of reply functions. The transaction is committed before the reply is sent, or
the reply is sent and then the transaction destroyed. `stuck` is a loop which does not end. -/
inductive Prog where
  | op (o : Op) (k : Out → Prog)
  | done (commit : Bool) (reps : List Reply)
  | stuck (f : Fault)

/-- Results of the wrong type do not occur. -/
def Prog.bad : Prog := .stuck (.ub 0)

/-- End of `lookup` (fs.cpp 118-130). -/
def lockAndReply (i : Ino) (a : Attrs) : Prog :=
  .op (.lock i) fun
    | .unit (.error e) => .done false [.err e]
    | .unit (.ok ()) => .done true [.entry (osStat i a)]
    | _ => .bad

/-- `Filesystem::lookup` (fs.cpp 38-131). -/
def lookup (B : Backend) (p : Ino) (n : Bytes) : Prog :=
  .op (.path p) fun
    | .bytes (.error e) => .done false [.err e]
    | .bytes (.ok b) => match B.lstat 0 (b ++ 0x2f :: n) with
      | .ok sr => .op (.emplace p n (fromBackend sr)) fun
        | .ino (.error e) => .done false [.err e]
        | .ino (.ok i) => lockAndReply i (fromBackend sr)
        | _ => .bad
      | .error be =>
        if be = ENOTCONN then .op (.lookup p n) fun
          | .ino (.error e) =>
            if e = ENOENT then .op (.testFlag p SYNCED) fun out =>
              if out ≠ .bool (.ok true) then .done false [.err EIO] else .done false [.err e]
            else .done false [.err e]
          | .ino (.ok i) => .op (.getattr i) fun
            | .attr (.error _) => .done false [.err EIO]
            | .attr (.ok (_, a)) => lockAndReply i a
            | _ => .bad
          | _ => .bad
        else .op (.unlinkName p n) fun _ => .done true [.err be]
    | _ => .bad

/-- `Filesystem::forget` (fs.cpp 133-143). -/
def forget (i : Ino) (n : Nat) : Prog :=
  .op (.release i n) fun
    | .unit (.error e) => .done false [.err e]
    | .unit (.ok ()) => .done true [.none]
    | _ => .bad

/-- `Filesystem::getattr` (fs.cpp 145-156). -/
def getattr (i : Ino) : Prog :=
  .op (.getattr i) fun
    | .attr (.error e) => .done false [.err e]
    | .attr (.ok (j, a)) => .done false [.attr (osStat j a)]
    | _ => .bad

/-- `Filesystem::readlink` (fs.cpp 158-194). -/
def readlink (B : Backend) (i : Ino) : Prog :=
  .op (.path i) fun
    | .bytes (.error e) => .done false [.err e]
    | .bytes (.ok b) => match B.readlink (backendPath b) with
      | .ok dest => .op (.writelink i dest) fun _ => .done true [.readlink (cstr dest)]
      | .error be =>
        if be = ENOTCONN then .op (.readlink i) fun
          | .bytes (.error e) => .done false [.err e]
          | .bytes (.ok dest) => .done false [.readlink (cstr dest)]
          | _ => .bad
        else .op (.unlinkIno i) fun _ => .done true [.err be]
    | _ => .bad

/-- The loop of `opendir` over the entries of the backend directory (fs.cpp 222-236), and what comes
behind it. -/
def syncLoop (B : Backend) (base : Bytes) (i : Ino) : Nat → List Bytes → Prog → Prog
  | _, [], k => k
  | c, n :: l, k => match B.lstat c (entryPath base n) with
    | .error _ => syncLoop B base i (c + 1) l k
    | .ok sr => .op (.emplace i n (fromBackend sr)) fun _ => syncLoop B base i (c + 1) l k

/-- `Filesystem::opendir` (fs.cpp 196-249). -/
def opendir (B : Backend) (i : Ino) : Prog :=
  .op (.path i) fun
    | .bytes (.error e) => .done false [.err e]
    | .bytes (.ok b) => match B.opendir (backendPath b) with
      | .error be =>
        if be = ENOTCONN then .done true [.opened]
        else .done false [.err be]
      | .ok (names, _) =>
        .op (.startRewrite i) fun _ =>
          syncLoop B (backendPath b) i 0 names
            (.op (.updateFlags i [SYNCED] []) fun _ => .op .finishRewrite fun _ => .done true [.opened])
    | _ => .bad

/-- The loop of `readdir` (fs.cpp 259-283), and what comes behind it. `fuel` bounds the iterations. -/
def readdirLoop (dir : Ino) (size : Nat) (k : Page → Prog) : Nat → Ino → List DEnt → Nat → Prog
  | 0, _, _, _ => .stuck (.diverge 259)
  | f + 1, cursor, buf, toSend =>
    if bufLen 24 buf < size then .op (.readdir dir cursor) fun
      | .ent (.error e) => k ⟨buf, bufLen 24 buf, e, e == 0⟩
      | .ent (.ok (i, n)) => .op (.getattr i) fun
        | .attr (.error e) => k ⟨buf, bufLen 24 buf, e, false⟩
        | .attr (.ok (_, a)) => readdirLoop dir size k f i (buf ++ [mkDEnt i n a]) (bufLen 24 buf)
        | _ => .bad
      | _ => .bad
    else k ⟨buf, toSend, 0, false⟩

/-- `Filesystem::readdir` (fs.cpp 251-301). -/
def readdir (dir : Ino) (size off fuel : Nat) : Prog :=
  readdirLoop dir size (fun pg =>
    let r := if pg.error ≠ 0 then [Reply.err pg.error] else []
    let send := Prog.done false (r ++ [.buf (takeBytes 24 pg.toSend pg.buf) pg.toSend])
    if pg.atEof ∧ bufLen 24 pg.buf = 0 then .op (.testFlag dir SYNCED) fun out =>
      if out ≠ .bool (.ok true) then .done false (r ++ [.err EIO]) else send
    else send) fuel off [] 0

/-- The loop of `readdirplus` (fs.cpp 315-355), and what comes behind it. -/
def plusLoop (dir : Ino) (size : Nat) (k : Page → Prog) : Nat → Ino → List DEnt → Nat → Prog
  | 0, _, _, _ => .stuck (.diverge 315)
  | f + 1, cursor, buf, toSend =>
    if bufLen 152 buf < size then .op (.readdir dir cursor) fun
      | .ent (.error e) => k ⟨buf, bufLen 152 buf, e, false⟩
      | .ent (.ok (i, n)) => .op (.getattr i) fun
        | .attr (.error e) => k ⟨buf, bufLen 152 buf, e, false⟩
        | .attr (.ok (_, a)) =>
          if isDot n then plusLoop dir size k f i (buf ++ [mkDEnt i n a]) (bufLen 152 buf)
          else .op (.lock i) fun
            | .unit (.error e) =>
              if e = ESTALE then plusLoop dir size k f i buf (bufLen 152 buf)
              else .done false [.err EIO]
            | .unit (.ok ()) => plusLoop dir size k f i (buf ++ [mkDEnt i n a]) (bufLen 152 buf)
            | _ => .bad
        | _ => .bad
      | _ => .bad
    else k ⟨buf, toSend, 0, false⟩

/-- `Filesystem::readdirplus` (fs.cpp 308-372). -/
def readdirplus (dir : Ino) (size off fuel : Nat) : Prog :=
  plusLoop dir size (fun pg =>
    if pg.error ≠ 0 then .done false [.err pg.error]
    else .done true [.bufPlus (takeBytes 152 pg.toSend pg.buf) pg.toSend]) fuel off [] 0

/-- `Filesystem::forget_multi` (fs.cpp 374-382). -/
def forgetMulti : List (Ino × Nat) → Prog
  | [] => .done true [.none]
  | (i, n) :: l => .op (.release i n) fun _ => forgetMulti l

/-- The program of a request; requests which do not use the cache have none. -/
def prog (B : Backend) (fuel : Nat) : Req → Option Prog
  | .lookup p n => some (lookup B p n)
  | .forget i n => some (forget i n)
  | .getattr i => some (getattr i)
  | .readlink i => some (readlink B i)
  | .opendir i => some (opendir B i)
  | .readdir i size off => some (readdir i size off fuel)
  | .readdirplus i size off => some (readdirplus i size off fuel)
  | .forgetMulti l => some (forgetMulti l)
  | .releasedir _ => none
  | .other => none

/-- The reply to a request which does not use the cache (fs.cpp 303-306; interface.cpp 37-205). -/
def directReply : Req → Reply
  | .other => .err ENOSYS
  | _ => .none

/-- Whether the handler begins a read-only transaction (`begin_ro`, fs.cpp 135, 147, 258, 314, 376). -/
def readOnly : Req → Bool
  | .forget .. | .getattr .. | .readdir .. | .readdirplus .. | .forgetMulti .. => true
  | _ => false

/-- A program run on a transaction which nobody disturbs. -/
def Prog.run (t : Txn) : Prog → M (Txn × Bool × List Reply)
  | .op o k => match doOp t o with
    | .error e => .error e
    | .ok (t', out) => (k out).run t'
  | .done c reps => .ok (t, c, reps)
  | .stuck f => .error f

end Dragonstash.MT
