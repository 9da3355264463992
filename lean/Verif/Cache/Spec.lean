/-
  Abstract specification of the cache contents: a set of inodes, each with attributes, flags, a
  place in the tree (directory and name) or none, and possibly a link target.
  Independent of the databases; `Verif.Cache.Rep` relates the two.
-/
import Verif.Cache.Model
namespace Dragonstash.Cache

/-- An inode. `loc` is the directory it is in and its name there; `none` for the root and for
unlinked inodes. -/
structure Node where
  attr : Attrs
  flags : Nat
  loc : Option (Ino × Bytes)
  target : Option Bytes
  deriving DecidableEq

/-- The inodes which exist, and the next number to be given out. -/
structure Tree where
  nodes : Ino → Option Node
  next : Ino

/-- Names that may be stored: at most 503 bytes, no NUL, no slash. -/
def GoodName (n : Bytes) : Prop := n.length ≤ 503 ∧ (0 : UInt8) ∉ n ∧ (0x2f : UInt8) ∉ n

/-- `i` is the entry `n` of directory `p`. -/
def Tree.At (s : Tree) (p : Ino) (n : Bytes) (i : Ino) : Prop :=
  ∃ nd, s.nodes i = some nd ∧ nd.loc = some (p, n)

/-- The inode exists and is a directory. -/
def Tree.IsDir (s : Tree) (i : Ino) : Prop := ∃ nd, s.nodes i = some nd ∧ fmt nd.attr.mode = S_IFDIR

/-- Consistency of the abstract state. -/
structure Tree.OK (s : Tree) : Prop where
  next_ge : 2 ≤ s.next
  next_lt : s.next < W64
  bound : ∀ i nd, s.nodes i = some nd → 0 < i ∧ i < s.next
  root : ∃ nd, s.nodes ROOT = some nd ∧ fmt nd.attr.mode = S_IFDIR ∧ nd.loc = none
  loc : ∀ i nd p n, s.nodes i = some nd → nd.loc = some (p, n) → 0 < p ∧ p < W64 ∧ GoodName n
  uniq : ∀ i j a b l, s.nodes i = some a → s.nodes j = some b → a.loc = some l → b.loc = some l → i = j
  target : ∀ i nd t, s.nodes i = some nd → nd.target = some t → fmt nd.attr.mode = S_IFLNK

/-- Replace or add one inode. -/
def Tree.set (s : Tree) (i : Ino) (nd : Node) : Tree :=
  { s with nodes := fun j => if j = i then some nd else s.nodes j }

/-- Take inode `i` out of its directory. -/
def Tree.orphan (s : Tree) (i : Ino) : Tree :=
  { s with nodes := fun j => if j = i then (s.nodes j).map (fun nd => { nd with loc := none }) else s.nodes j }

/-- Inodes which are removed by a garbage collection when `L` are the locked ones: unlinked and not
locked, or not locked and inside a removed directory. -/
inductive Gone (s : Tree) (L : Ino → Prop) : Ino → Prop
  | orphan {i nd} : s.nodes i = some nd → i ≠ ROOT → nd.loc = none → ¬ L i → Gone s L i
  | child {i nd p n} : s.nodes i = some nd → nd.loc = some (p, n) → Gone s L p → s.IsDir p → ¬ L i → Gone s L i

/-- `s'` is `s` after garbage collection: removed inodes do not exist any more, surviving (locked)
inodes in a removed directory are unlinked, everything else is as before. -/
structure Collected (s : Tree) (L : Ino → Prop) (s' : Tree) : Prop where
  next : s'.next = s.next
  gone : ∀ i, Gone s L i → s'.nodes i = none
  cut : ∀ i nd p n, s.nodes i = some nd → nd.loc = some (p, n) → Gone s L p → s.IsDir p → L i →
    s'.nodes i = some { nd with loc := none }
  keep : ∀ i, ¬ Gone s L i → (∀ nd p n, s.nodes i = some nd → nd.loc = some (p, n) → ¬ (Gone s L p ∧ s.IsDir p)) →
    s'.nodes i = s.nodes i

/-- Descending the names `cs` from the root leads to inode `i`. -/
inductive Tree.PathTo (s : Tree) : Ino → List Bytes → Prop
  | root : PathTo s ROOT []
  | child {p n i cs} : s.At p n i → PathTo s p cs → PathTo s i (cs ++ [n])

/-- `i` can be reached from the root. -/
def Tree.Conn (s : Tree) (i : Ino) : Prop := ∃ cs, s.PathTo i cs

/-- A path as a string: a slash in front of each component; empty for the root. -/
def pathStr (cs : List Bytes) : Bytes := (cs.map (fun n => (0x2f : UInt8) :: n)).flatten

/-- Every entry is in an existing directory with a smaller inode number; so there are no cycles. -/
def Tree.WF (s : Tree) : Prop := ∀ i nd p n, s.nodes i = some nd → nd.loc = some (p, n) → p < i ∧ s.IsDir p

end Dragonstash.Cache
