/-
  Model of the in-memory backend (src/backend/in_memory.cpp, include/dragonstash/backend/in_memory.hpp) with
  its objects in memory: the nodes by address, the pointers and references to them which callers get,
  file and directory handles, and the lifetime of all of them. (Backend/InMemory has the tree as a value.)

  Simplifications: addresses are not used again (a dangling pointer is never valid by chance); one thread;
  no allocation fails. `std::unordered_map`: erasing keeps the order of the others and invalidates
  iterators to the erased element; inserting keeps the order of the others and all iterators, unless it
  rehashes, which may change the order and invalidates the iterators. Where a new element gets and whether
  there is a rehash is chosen by the environment.
-/
import Verif.Backend.InMemory
namespace Dragonstash.MemHeap
open InMem Cache FS

/-- The objects (in_memory.hpp 38-152); children are pointers. -/
inductive Obj where
  | file (attr : BStat) (data : Bytes)
  | link (attr : BStat) (dest : Bytes)
  | dir (attr : BStat) (children : List (Bytes × Nat))

/-- `Node::attr` (in_memory.hpp 52-54). -/
def Obj.attr : Obj → BStat
  | .file a _ => a
  | .link a _ => a
  | .dir a _ => a

/-- `Node::update_attr` (in_memory.cpp 43-48). -/
def Obj.updateAttr (o : Obj) (a : BStat) : Obj :=
  let a' := { a with mode := fmt o.attr.mode ||| (a.mode &&& (0xffffffff ^^^ 0o170000)) }
  match o with
  | .file _ d => .file a' d
  | .link _ d => .link a' d
  | .dir _ c => .dir a' c

/-- What is at an address (`none`: nothing, or an object which was destroyed), and the next address of an
allocation. The file system itself, a directory, is at address 0. -/
structure Heap where
  obj : Nat → Option Obj
  next : Nat

def Heap.put (h : Heap) (a : Nat) (o : Obj) : Heap := { h with obj := fun x => if x = a then some o else h.obj x }

/-- An object through a pointer. -/
def Heap.deref (h : Heap) (a line : Nat) : M Obj := match h.obj a with
  | none => .error (.ub line)
  | some o => .ok o

/-- `Directory::find` (in_memory.cpp 98-137), `Node::find` (50-53), a virtual function. -/
def find (h : Heap) (a : Nat) (path : Bytes) : M (Res Nat) :=
  match h.obj a with
  | none => .error (.ub 129)
  | some (.dir _ ch) =>
    match path with
    | [] => .ok (.error EINVAL)
    | c :: path =>
      if c ≠ 0x2f then .ok (.error EINVAL)
      else if path = [] then .ok (.ok a)
      else
        let name := path.takeWhile (· != 0x2f)
        let rest := path.dropWhile (· != 0x2f)
        if name = [] then .ok (.error EINVAL)
        else match ch.lookup name with
          | none => .ok (.error ENOENT)
          | some b => if rest = [] then .ok (.ok b) else find h b rest
  | some _ => .ok (.error ENOTDIR)
termination_by path.length
decreasing_by
  have := (List.dropWhile_sublist (· != (0x2f : UInt8)) (l := path)).length_le
  simp only [List.length_cons]
  omega

/-- The addresses of an object and of all objects below it; `f` bounds the depth. -/
def below (h : Heap) : Nat → Nat → List Nat
  | 0, _ => []
  | f + 1, a => a :: match h.obj a with
    | some (.dir _ ch) => ch.flatMap fun x => below h f x.2
    | _ => []

/-- The destructor of a node (in_memory.cpp 55, 67, 86, 96): that of `m_children` destroys the children.
A tree is not deeper than the number of allocations. -/
def Heap.destroy (h : Heap) (a : Nat) : Heap := { h with obj := fun x => if x ∈ below h (h.next + 1) a then none else h.obj x }

/-- An iterator of `m_children`: at an element, at the end, or no longer valid. -/
inductive Iter where
  | at (n : Bytes)
  | fin
  | bad
  deriving DecidableEq

/-- `begin()` -/
def first : List (Bytes × Nat) → Iter
  | [] => .fin
  | (n, _) :: _ => .at n

/-- `++iter` for the iterator at `n` -/
def after (n : Bytes) : List (Bytes × Nat) → Iter
  | [] => .bad
  | (m, _) :: l => if m = n then first l else after n l

/-- `DirHandle` (in_memory.hpp 154-176). `pos` is `m_state`. -/
structure DirHandle where
  node : Nat
  pos : Nat
  iter : Iter

/-- The file system, and the handles which were opened (by number). -/
structure World where
  heap : Heap
  connected : Bool
  files : Nat → Option Nat
  dirs : Nat → Option DirHandle
  nextHandle : Nat

/-- The kinds of objects (the template argument of `emplace`) with the arguments of their constructors
(in_memory.cpp 59-94). -/
inductive Kind where
  | file
  | link (dest : Bytes)
  | dir

def Kind.new : Kind → Obj
  | .file => .file { zeroStat with mode := S_IFREG } []
  | .link d => .link { zeroStat with mode := S_IFLNK } d
  | .dir => .dir { zeroStat with mode := S_IFDIR } []

/-- Calls: of the file system (by path), of the handles, and of the nodes through pointers and
references (`find` and `emplace` return them). -/
inductive Call where
  | lstat (p : Bytes)
  | readlink (p : Bytes)
  | open_ (p : Bytes)
  | opendir (p : Bytes)
  | setConnected (b : Bool)
  | fstat (h : Nat)
  | pread (h count : Nat) (off : Int)
  | pwrite (h : Nat) (buf : Bytes) (off : Int)
  | closeFile (h : Nat)
  | readdir (h : Nat)
  | closeDir (h : Nat)
  | find (a : Nat) (p : Bytes)
  /-- `order`: the elements as they are iterated afterwards, if the element is inserted. -/
  | emplace (a : Nat) (name : Bytes) (k : Kind) (order : List (Bytes × Nat)) (rehash : Bool)
  | remove (a : Nat) (name : Bytes)
  | updateAttr (a : Nat) (st : BStat)

/-- Results. -/
inductive Out where
  | unit
  | stat (r : Res BStat)
  | bytes (r : Res Bytes)
  | num (r : Res Nat)
  | handle (r : Res Nat)
  | ptr (r : Res Nat)
  deriving DecidableEq

/-- What becomes of the iterators of a directory. -/
def World.iters (w : World) (a : Nat) (f : Iter → Iter) : World :=
  { w with dirs := fun x => match w.dirs x with
      | some d => if d.node = a then some { d with iter := f d.iter } else some d
      | none => none }

def World.setDir (w : World) (h : Nat) (d : DirHandle) : World := { w with dirs := fun x => if x = h then some d else w.dirs x }

/-- A handle which the caller has. -/
def World.file (w : World) (h : Nat) : M Nat := match w.files h with
  | none => .error (.ub 0)
  | some a => .ok a

def World.dir (w : World) (h : Nat) : M DirHandle := match w.dirs h with
  | none => .error (.ub 0)
  | some d => .ok d

/-- The file of a handle (`m_file`, in_memory.cpp 218-253). It was a file when the handle was made. -/
def Heap.fileAt (h : Heap) (a line : Nat) : M (BStat × Bytes) := do
  match ← h.deref a line with
  | .file st d => .ok (st, d)
  | _ => .error (.ub line)

/-- The directory behind a reference or `m_node`. -/
def Heap.dirAt (h : Heap) (a line : Nat) : M (BStat × List (Bytes × Nat)) := do
  match ← h.deref a line with
  | .dir st ch => .ok (st, ch)
  | _ => .error (.ub line)

/-- `DirHandle::readdir` (in_memory.cpp 157-196). The error 0 is the end. -/
def readdir (h : Heap) (d : DirHandle) : M (DirHandle × Res Bytes) :=
  match d.pos with
  | 0 => .ok ({ d with pos := 1 }, .ok [0x2e])
  | 1 => .ok ({ d with pos := 2 }, .ok [0x2e, 0x2e])
  | _ => do
    let (_, ch) ← h.dirAt d.node 181
    match d.iter with
    | .bad => .error (.ub 181)
    | .fin => .ok (d, .error 0)
    | .at n => .ok ({ d with iter := after n ch }, .ok n)

/-- `FileHandle::pwrite` (in_memory.cpp 240-253): see `InMem.pwrite`. -/
def pwrite (h : Heap) (a : Nat) (buf : Bytes) (off : Int) : M (Heap × Res Nat) := do
  let (st, d) ← h.fileAt a 246
  let (f, r) ← InMem.pwrite ⟨st.size, d⟩ buf off
  pure (h.put a (.file { st with size := f.size } f.data), r)

/-- `Directory::emplace` (in_memory.hpp 139-146): an object which is not inserted is destroyed at the end of
the call, the result refers to it nevertheless. -/
def emplace (w : World) (a : Nat) (name : Bytes) (k : Kind) (order : List (Bytes × Nat)) (rehash : Bool) : M (World × Nat) := do
  let (st, ch) ← w.heap.dirAt a 144
  let new := w.heap.next
  if (ch.lookup name).isSome then pure ({ w with heap := { w.heap with next := new + 1 } }, new)
  else
    let h := ({ w.heap with next := new + 1 }.put new k.new).put a (.dir st order)
    pure ({ w with heap := h }.iters a (fun i => if rehash then .bad else i), new)

/-- `Directory::remove` (in_memory.cpp 139-147). -/
def remove (w : World) (a : Nat) (name : Bytes) : M World := do
  let (st, ch) ← w.heap.dirAt a 141
  match ch.lookup name with
  | none => pure w
  | some b =>
    let h := (w.heap.destroy b).put a (.dir st (ch.filter (fun x => x.1 != name)))
    pure ({ w with heap := h }.iters a (fun i => if i = Iter.at name then .bad else i))

/-- One call with its result. -/
def step (w : World) : Call → M (World × Out)
  /- in_memory.cpp 312-323 -/
  | .lstat p => if !w.connected then .ok (w, .stat (.error ENOTCONN)) else do
    match ← find w.heap 0 p with
    | .error e => pure (w, .stat (.error e))
    | .ok a => do
      let o ← w.heap.deref a 322
      pure (w, .stat (.ok o.attr))
  /- in_memory.cpp 325-341 -/
  | .readlink p => if !w.connected then .ok (w, .bytes (.error ENOTCONN)) else do
    match ← find w.heap 0 p with
    | .error e => pure (w, .bytes (.error e))
    | .ok a => do
      match ← w.heap.deref a 336 with
      | .link _ d => pure (w, .bytes (.ok d))
      | _ => pure (w, .bytes (.error EINVAL))
  /- in_memory.cpp 272-293 -/
  | .open_ p => if !w.connected then .ok (w, .handle (.error ENOTCONN)) else do
    match ← find w.heap 0 p with
    | .error e => pure (w, .handle (.error e))
    | .ok a => do
      match ← w.heap.deref a 283 with
      | .file _ _ => pure ({ w with files := fun x => if x = w.nextHandle then some a else w.files x, nextHandle := w.nextHandle + 1 }, .handle (.ok w.nextHandle))
      | .dir _ _ => pure (w, .handle (.error EISDIR))
      | .link _ _ => pure (w, .handle (.error EINVAL))
  /- in_memory.cpp 295-310, 149-155 -/
  | .opendir p => if !w.connected then .ok (w, .handle (.error ENOTCONN)) else do
    match ← find w.heap 0 p with
    | .error e => pure (w, .handle (.error e))
    | .ok a => do
      match ← w.heap.deref a 305 with
      | .dir _ ch => pure ({ w with dirs := fun x => if x = w.nextHandle then some ⟨a, 0, first ch⟩ else w.dirs x, nextHandle := w.nextHandle + 1 }, .handle (.ok w.nextHandle))
      | _ => pure (w, .handle (.error ENOTDIR))
  /- in_memory.cpp 267-270 -/
  | .setConnected b => .ok ({ w with connected := b }, .unit)
  /- in_memory.cpp 218-221 -/
  | .fstat h => do
    let a ← w.file h
    let (st, _) ← w.heap.fileAt a 220
    pure (w, .stat (.ok st))
  /- in_memory.cpp 223-238 -/
  | .pread h count off => do
    let a ← w.file h
    let (st, d) ← w.heap.fileAt a 228
    let r ← InMem.pread ⟨st.size, d⟩ count off
    pure (w, .bytes r)
  | .pwrite h buf off => do
    let a ← w.file h
    let (h', r) ← pwrite w.heap a buf off
    pure ({ w with heap := h' }, .num r)
  /- in_memory.cpp 216 -/
  | .closeFile h => do
    let _ ← w.file h
    pure ({ w with files := fun x => if x = h then none else w.files x }, .unit)
  | .readdir h => do
    let d ← w.dir h
    let (d', r) ← readdir w.heap d
    pure (w.setDir h d', .bytes r)
  /- in_memory.cpp 208 -/
  | .closeDir h => do
    let _ ← w.dir h
    pure ({ w with dirs := fun x => if x = h then none else w.dirs x }, .unit)
  | .find a p => do
    let r ← find w.heap a p
    pure (w, .ptr r)
  | .emplace a name k order rehash => do
    let (w, b) ← emplace w a name k order rehash
    pure (w, .ptr (.ok b))
  | .remove a name => do
    let w ← remove w a name
    pure (w, .unit)
  | .updateAttr a st => do
    let o ← w.heap.deref a 45
    pure ({ w with heap := w.heap.put a (o.updateAttr st) }, .unit)

/-- A new file system: an empty directory (in_memory.hpp 180-182, in_memory.cpp 88-94). -/
def World.start : World := ⟨⟨fun x => if x = 0 then some Kind.dir.new else none, 1⟩, true, fun _ => none, fun _ => none, 0⟩

/-- What the environment may choose: the order after an insertion (see the head of this file). -/
def Allowed (w : World) : Call → Prop
  | .emplace a name _ order rehash => ∀ st ch, w.heap.obj a = some (.dir st ch) → ch.lookup name = none →
      order.Perm ((name, w.heap.next) :: ch) ∧ (rehash = false → order.filter (fun x => x.1 != name) = ch)
  | _ => True

/-- What a history of calls leads to. -/
inductive Reach : World → Prop
  | start : Reach World.start
  | step {w c w' out} : Reach w → Allowed w c → step w c = .ok (w', out) → Reach w'

end Dragonstash.MemHeap
