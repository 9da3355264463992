/-
  The paths on the command line, and the working directory they are resolved against: `main.cpp` stores
  them as they were typed (main.cpp 53-63), opens the cache and mounts (80, 106), goes to the background
  (112) and then serves and unmounts (114-116).

  From libfuse: `fuse_daemonize` changes the working directory to `/`, in the foreground as well
  (libfuse 3, lib/helper.c); `fuse_session_unmount` unmounts the path which `fuse_session_mount` was given,
  as text (lib/fuse_lowlevel.c). The database keeps its files open. Symbolic links are not considered (as
  in `Local.place`).
-/
import Verif.Main.Mount
import Verif.Backend.Local
namespace Dragonstash.Main
open Local Cache FS

/-- The paths as typed (main.cpp 53-63): `--local`, `cachedir`, `mountpoint`. -/
structure Paths where
  localPath : Bytes
  cachedir : Bytes
  mountpoint : Bytes

/-- What a path is used for. -/
inductive What where
  | cache
  | mountpoint
  | backend
  deriving DecidableEq

/-- Which of the paths it is (main.cpp 77, 80, 106). -/
def Paths.of (p : Paths) : What → Bytes
  | .cache => p.cachedir
  | .mountpoint => p.mountpoint
  | .backend => p.localPath

/-- The places which a trace of events touches, the working directory being `cwd` at its beginning:
`Cache cache(m_cachedir)` (main.cpp 80), `session.mount(m_mountpoint.c_str())` (106), the requests served
by `loop_mt` (114), which use `m_local_path` (77, local.cpp 182-186), and `session.unmount()` (116). -/
def uses (p : Paths) : List Bytes → List Ev → List (What × List Bytes)
  | _, [] => []
  | cwd, e :: l =>
    match e with
    | .openCache => (.cache, place cwd p.cachedir) :: uses p cwd l
    | .mount => (.mountpoint, place cwd p.mountpoint) :: uses p cwd l
    | .unmount => (.mountpoint, place cwd p.mountpoint) :: uses p cwd l
    | .daemonize _ => uses p [] l
    | .loop => (.backend, place cwd p.localPath) :: uses p cwd l
    | _ => uses p cwd l

/-- The file system of the host by places: what the system calls answer (see `Local.Host`). -/
structure World where
  lstat : Nat → List Bytes → Res BStat
  readlink : List Bytes → Res Bytes
  opendir : List Bytes → Res (List Bytes)

/-- What a process in working directory `cwd` sees of it. -/
def World.seen (W : World) (cwd : List Bytes) : Host where
  lstat := fun k p => W.lstat k (place cwd p)
  readlink := fun p => W.readlink (place cwd p)
  opendir := fun p => W.opendir (place cwd p)

end Dragonstash.Main
