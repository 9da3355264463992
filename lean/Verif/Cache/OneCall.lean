/-
  The functions of class `Cache` which run in a transaction of their own (src/cache/cache.cpp 278-294,
  345-403): calls on a world without open transactions.
-/
import Verif.Cache.Txn
namespace Dragonstash.Cache
open Codec

/-- The functions (cache.cpp 345-403; `setattr`, cache.hpp 343, is declared but has no definition). -/
inductive Fn where
  | name (i : Ino)
  | parent (i : Ino)
  | lookup (p : Ino) (n : Bytes)
  | getattr (i : Ino)
  | readlink (i : Ino)
  | path (i : Ino)
  | emplace (p : Ino) (n : Bytes) (a : Attrs)
  | lock (i : Ino)
  | release (i : Ino)
  | writelink (i : Ino) (dest : Bytes)
  deriving DecidableEq

/-- The function of the transaction which does the work (345-403; `release` with its default
argument 1, cache.hpp 668). -/
def Fn.op : Fn → Op
  | .name i => .name i
  | .parent i => .parent i
  | .lookup p n => .lookup p n
  | .getattr i => .getattr i
  | .readlink i => .readlink i
  | .path i => .path i
  | .emplace p n a => .emplace p n a
  | .lock i => .lock i
  | .release i => .release i 1
  | .writelink i dest => .writelink i dest

/-- Does it use `with_rw_txn` (365-384, 391-396), or a read-only transaction (345-363, 386-389, 398-401)? -/
def Fn.writes : Fn → Bool
  | .emplace .. | .lock .. | .release .. | .writelink .. => true
  | _ => false

/-- `!result` (error.hpp 91-93, 151-153). -/
def Out.isErr : Out → Bool
  | .unit (.error _) | .ino (.error _) | .attr (.error _) | .bytes (.error _) | .ent (.error _) | .bool (.error _) => true
  | _ => false

/-- `with_rw_txn` (cache.cpp 278-294). The transactions have no hook which could make the commit
fail (cache.cpp 699, 715: only rollbacks). -/
def withRW (w : World) (o : Op) : M (World × Out) := do
  let (w1, _) ← w.step .beginRW
  let (w2, out) ← w1.step (.op o)
  if out.isErr then do
    let (w3, _) ← w2.step .abort
    pure (w3, out)
  else do
    let (w3, _) ← w2.step (.op .clean)
    let (w4, _) ← w3.step .commit
    pure (w4, out)

/-- `begin_ro().f(...)` (e.g. cache.cpp 347): the transaction is destroyed after the call. -/
def withRO (w : World) (o : Op) : M (World × Out) := do
  let (w1, _) ← w.step .beginRO
  let (w2, out) ← w1.step (.op o)
  let (w3, _) ← w2.step .drop
  pure (w3, out)

/-- Calling one of the functions (cache.cpp 345-403). -/
def World.call (w : World) (f : Fn) : M (World × Out) := if f.writes then withRW w f.op else withRO w f.op

/-- A sequence of such calls, with their results. -/
def World.calls (w : World) : List Fn → M (World × List Out)
  | [] => .ok (w, [])
  | f :: fs => do
    let (w1, o) ← w.call f
    let (w2, os) ← w1.calls fs
    pure (w2, o :: os)

end Dragonstash.Cache
