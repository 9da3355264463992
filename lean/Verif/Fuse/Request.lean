/-
  Model of `Fuse::Request` (include/dragonstash/fuse/request.hpp 75-255, src/fuse/request.cpp 58-110),
  with assertions compiled in (`check` throws). Requests of the kernel are numbers; the calls of the
  library's reply functions are recorded.
-/
import Verif.Base
namespace Dragonstash.FuseReq

/-- A call of a reply function: `err e` by the destruction or overwriting of the object, `explicit`
by one of the member functions (with anything as content). -/
inductive Answer where
  | auto (e : Nat)
  | explicit (content : Nat)
  deriving DecidableEq

/-- Members of an object: `m_req` (`none` is the null pointer), `m_default_error`. -/
structure Obj where
  req : Option Nat
  err : Nat
  deriving DecidableEq

/-- The objects, the answers (latest first) and the results of `release` which were not null. -/
structure World where
  obj : Nat → Option Obj
  answers : List (Nat × Answer)
  released : List Nat

def World.init : World := ⟨fun _ => none, [], []⟩

def World.set (w : World) (k : Nat) (v : Option Obj) : World := { w with obj := fun j => if j = k then v else w.obj j }

/-- How a call ends: normally, with the exception "operation on a closed FuseRequest", or with a null
pointer handed to the library. -/
inductive Outcome where
  | ok
  | thrown
  | nullReq
  deriving DecidableEq

def ECANCELED : Nat := 125

/-- `reset` (request.cpp 106-110), called where `m_req` is not null, `reply_err` included
(request.hpp 152-156): object `k`, `o` its members. -/
def World.resetReq (w : World) (k : Nat) (o : Obj) : World :=
  match o.req with
  | some id => { w.set k (some { o with req := none }) with answers := (id, .auto o.err) :: w.answers }
  | none => w

inductive Op where
  | make (k : Nat)
  | makeReq (k id err : Nat)
  | moveNew (k src : Nat)
  | moveAssign (k src : Nat)
  | assignNull (k : Nat)
  | destroy (k : Nat)
  | release (k : Nat)
  | swap (k j : Nat)
  | reply (k content : Nat)
  | replyNone (k : Nat)

/-- The operations; `none` if the objects do not exist, or one to be made exists. -/
def step (w : World) : Op → Option (World × Outcome)
  -- default constructor (request.cpp 58-63)
  | .make k => match w.obj k with
    | none => some (w.set k (some ⟨none, ECANCELED⟩), .ok)
    | some _ => none
  -- constructor (request.cpp 65-70)
  | .makeReq k id err => match w.obj k with
    | none => some (w.set k (some ⟨some id, err⟩), .ok)
    | some _ => none
  -- move constructor (request.cpp 72-77)
  | .moveNew k src => match w.obj k, w.obj src with
    | none, some o => some ((w.set k (some o)).set src (some { o with req := none }), .ok)
    | _, _ => none
  -- move assignment (request.cpp 79-88); the source may be the object itself
  | .moveAssign k src => match w.obj k, w.obj src with
    | some o, some _ =>
      let w := if o.req.isSome then w.resetReq k o else w
      match w.obj src with
      | some s => some ((w.set k (some s)).set src (some { s with req := none }), .ok)
      | none => none
    | _, _ => none
  -- assignment of nullptr (request.cpp 90-97)
  | .assignNull k => match w.obj k with
    | some o => some ((if o.req.isSome then w.resetReq k o else w).set k (some { o with req := none }), .ok)
    | none => none
  -- destructor (request.cpp 99-104)
  | .destroy k => match w.obj k with
    | some o => some ((if o.req.isSome then w.resetReq k o else w).set k none, .ok)
    | none => none
  -- `release` (request.hpp 104-108)
  | .release k => match w.obj k with
    | some o => some ({ w.set k (some { o with req := none }) with released := o.req.toList ++ w.released }, .ok)
    | none => none
  -- `swap` (request.hpp 110-114): only `m_req`
  | .swap k j => match w.obj k, w.obj j with
    | some a, some b => some ((w.set k (some { a with req := b.req })).set j (some { b with req := a.req }), .ok)
    | _, _ => none
  -- the reply functions (request.hpp 152-254): `check`, then a call of the library with `release()`
  | .reply k c => match w.obj k with
    | some o => match o.req with
      | some id => some ({ w.set k (some { o with req := none }) with answers := (id, .explicit c) :: w.answers }, .ok)
      | none => some (w, .thrown)
    | none => none
  -- `reply_none` (request.hpp 148-150): without `check`
  | .replyNone k => match w.obj k with
    | some o => match o.req with
      | some id => some ({ w.set k (some { o with req := none }) with answers := (id, .explicit 0) :: w.answers }, .ok)
      | none => some (w, .nullReq)
    | none => none

/-- The request which an operation hands to an object, with its default error. -/
def Op.gives : Op → Option (Nat × Nat)
  | .makeReq _ id err => some (id, err)
  | _ => none

/-- Histories: each request is handed to one object. Calls which throw are part of it. -/
inductive Run : List (Nat × Nat) → World → Prop
  | init : Run [] World.init
  | step {given w op w' out} : Run given w → step w op = some (w', out) → (∀ x, op.gives = some x → x.1 ∉ given.map Prod.fst) →
      Run (op.gives.toList ++ given) w'

/-- Histories without `swap`. -/
inductive RunNoSwap : List (Nat × Nat) → World → Prop
  | init : RunNoSwap [] World.init
  | step {given w op w' out} : RunNoSwap given w → step w op = some (w', out) → (∀ x, op.gives = some x → x.1 ∉ given.map Prod.fst) →
      (∀ k j, op ≠ .swap k j) → RunNoSwap (op.gives.toList ++ given) w'

end Dragonstash.FuseReq
