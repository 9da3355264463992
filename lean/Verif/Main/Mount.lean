/-
  Model of the program: `MountCommand::execute` and `main` (src/main.cpp 38-143), `Fuse::Session`'s
  constructor, destructor and the functions it forwards (include/dragonstash/fuse/interface.hpp
  44-110, 293-321). What the libraries answer is an arbitrary environment; what is done is a trace.
-/
import Verif.Base
namespace Dragonstash.Main

/-- The backend options; the command line parser accepts exactly one of them (main.cpp 44-48). -/
inductive BackendOpt where
  | disconnected
  | localDir
  | sftp
  deriving DecidableEq

/-- The command line. -/
structure Opts where
  backend : BackendOpt
  debug : Bool
  foreground : Bool

/-- What the libraries answer: whether parsing succeeds (else the status which CLI11 gives), whether
the subcommand is given, whether the cache can be opened, whether a session can be made, the
results of the libfuse functions. -/
structure Env where
  parse : Option Int
  sub : Bool
  cacheOpens : Bool
  sessionMade : Bool
  setSignals : Int
  mount : Int
  loop : Int

/-- What is done, in order. -/
inductive Ev where
  | openCache
  | closeCache
  | newSession
  | destroySession
  | setSignals
  | removeSignals
  | mount
  | unmount
  | daemonize (foreground : Bool)
  | loop
  deriving DecidableEq

/-- How it ends: with a status, by an uncaught exception, or by dereferencing the null `backend`. -/
inductive End where
  | status (n : Int)
  | terminate
  | nullBackend
  deriving DecidableEq

/-- `MountCommand::execute` (main.cpp 67-120), with the events and the result. The destructors of
`session` and `cache` run at the end of the scope, in this order. -/
def execute (o : Opts) (e : Env) : List Ev × End :=
  let foreground := o.debug || o.foreground                                           -- 69-70
  if e.cacheOpens = false then ([], .terminate)                                       -- 80: the constructor throws
  else if o.backend = .sftp then ([.openCache], .nullBackend)                         -- 73-81: backend is null
  else if e.sessionMade = false then ([.openCache], .terminate)                       -- 98: the constructor throws
  else if e.setSignals ≠ 0 then                                                       -- 100-104
    ([.openCache, .newSession, .destroySession, .closeCache], .status 1)
  else if e.mount ≠ 0 then                                                            -- 106-110
    ([.openCache, .newSession, .setSignals, .removeSignals, .destroySession, .closeCache], .status 1)
  else
    ([.openCache, .newSession, .setSignals, .mount, .daemonize foreground, .loop, .unmount, .removeSignals, .destroySession, .closeCache],
     .status (if e.loop = 0 then 1 else 0))                                           -- 112-119: `ret = !session.loop_mt(..)`

/-- `main` (main.cpp 132-143). -/
def main (o : Opts) (e : Env) : List Ev × End :=
  match e.parse with
  | some s => ([], .status s)                                                         -- 137: CLI11_PARSE
  | none =>
    if e.sub then
      match execute o e with
      | (t, .status _) => (t, .status 0)                                              -- 139-142
      | (t, x) => (t, x)
    else ([], .status 0)

end Dragonstash.Main
