/-
  Specification: a host which has a directory tree at the root of the local backend.

  The host is free in everything else: outside of the root, in the order of listings, and in the error
  it reports for what is not there.
-/
import Verif.Props.Local
namespace Dragonstash.Local
open Cache FS

/-- What is at one place of a tree: its attributes; the target, if it is a symbolic link; the names in
it, if it is a directory. -/
structure Obj where
  stat : BStat
  target : Option Bytes
  names : Option (List Bytes)

/-- A directory tree: what is found by following a list of names from its top. -/
abbrev HTree := List Bytes → Option Obj

/-- The errors by which a host says that there is nothing at a path: the last name is missing, an
earlier one is missing or not a directory, links lead in a circle, a name is too long. -/
def NotThere (e : Errno) : Prop := e = ENOENT ∨ e = ENOTDIR ∨ e = ELOOP ∨ e = ENAMETOOLONG

/-- `p` is written as the root followed by the names `cs`: the same names between slashes, repeated
slashes not counting; and with a slash at the end only if there are no names. -/
def Written (root : Bytes) (cs : List Bytes) (p : Bytes) : Prop :=
  (pieces p).filter (· ≠ []) = (pieces root).filter (· ≠ []) ++ cs ∧ p.head? = root.head? ∧ (p.getLast? = some 0x2f ↔ cs = [])

/-- The host has the tree `T` at `root`. -/
structure Has (root : Bytes) (H : Host) (T : HTree) : Prop where
  there : ∀ {k p cs o}, (∀ c ∈ cs, Plain c) → Written root cs p → T cs = some o → H.lstat k p = .ok o.stat
  absent : ∀ {k p cs}, (∀ c ∈ cs, Plain c) → Written root cs p → T cs = none → ∃ e, H.lstat k p = .error e ∧ NotThere e
  dot : ∀ {k p cs o}, (∀ c ∈ cs, Plain c) → Written root (cs ++ [[0x2e]]) p → T cs = some o → o.names ≠ none → H.lstat k p = .ok o.stat
  dotdot : ∀ {k p cs n o x}, (∀ c ∈ cs ++ [n], Plain c) → Written root (cs ++ [n] ++ [[0x2e, 0x2e]]) p → T cs = some o → o.names ≠ none →
    T (cs ++ [n]) = some x → x.names ≠ none → H.lstat k p = .ok o.stat
  link : ∀ {p cs o t}, (∀ c ∈ cs, Plain c) → Written root cs p → T cs = some o → o.target = some t → H.readlink p = .ok t
  nolink : ∀ {p cs o}, (∀ c ∈ cs, Plain c) → Written root cs p → T cs = some o → o.target = none → ∃ e, H.readlink p = .error e
  list : ∀ {p cs o ns}, (∀ c ∈ cs, Plain c) → Written root cs p → T cs = some o → o.names = some ns →
    ∃ l, H.opendir p = .ok l ∧ ∀ m, m ∈ l ↔ m = [0x2e] ∨ m = [0x2e, 0x2e] ∨ m ∈ ns
  /-- no host lists empty names, or names with a slash or NUL -/
  names : ∀ {p l m}, H.opendir p = .ok l → m ∈ l → Component m ∧ (0 : UInt8) ∉ m

/-- The tree is one: directories list what is in them; links are as long as their targets, which contain
no NUL. -/
structure Tree (T : HTree) : Prop where
  child : ∀ {cs o ns n}, T cs = some o → o.names = some ns → (n ∈ ns ↔ Plain n ∧ T (cs ++ [n]) ≠ none)
  size : ∀ {cs o t}, T cs = some o → o.target = some t → t.length = o.stat.size ∧ (0 : UInt8) ∉ t

/-- The host is not connected to what is at `root` (a network mount which was lost). -/
structure Gone (H : Host) : Prop where
  lstat : ∀ k p, H.lstat k p = .error ENOTCONN
  opendir : ∀ p, H.opendir p = .error ENOTCONN

end Dragonstash.Local
