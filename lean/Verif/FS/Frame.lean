/-
  The effects of a request are local: an entry which a request does not name is the same afterwards.
-/
import Verif.FS.Keep
namespace Dragonstash.FS
open Cache Codec
variable {s s' s'' : Tree} {d d' : DB} {r r' : Refs} {α : Type} {K : Node → α} {p : Ino} {n : Bytes} {cs : List Bytes}

/-- The entry `n` of directory `p` is the same in two trees, as far as `K` tells. -/
def Same (K : Node → α) (p : Ino) (n : Bytes) (s s' : Tree) : Prop :=
  ∀ i x, (∃ nd, s.nodes i = some nd ∧ nd.loc = some (p, n) ∧ K nd = x) ↔ ∃ nd, s'.nodes i = some nd ∧ nd.loc = some (p, n) ∧ K nd = x

theorem Same.refl : Same K p n s s := fun _ _ => .rfl
theorem Same.symm (h : Same K p n s s') : Same K p n s' s := fun i x => (h i x).symm
theorem Same.trans (h : Same K p n s s') (h' : Same K p n s' s'') : Same K p n s s'' := fun i x => (h i x).trans (h' i x)

theorem same_of (h1 : ∀ i nd, s.nodes i = some nd → nd.loc = some (p, n) → ∃ nd', s'.nodes i = some nd' ∧ nd'.loc = some (p, n) ∧ K nd' = K nd)
    (h2 : ∀ i nd', s'.nodes i = some nd' → nd'.loc = some (p, n) → ∃ nd, s.nodes i = some nd ∧ nd.loc = some (p, n) ∧ K nd = K nd') : Same K p n s s' := by
  intro i x
  constructor
  · rintro ⟨nd, k1, k2, rfl⟩; exact h1 i nd k1 k2
  · rintro ⟨nd, k1, k2, rfl⟩; exact h2 i nd k1 k2

/-- An inode is changed, without being moved. -/
theorem same_set {i : Ino} {nd nd' : Node} (h1 : s.nodes i = some nd) (h2 : nd'.loc = nd.loc) (h3 : nd.loc = some (p, n) → K nd' = K nd) : Same K p n s (s.set i nd') := by
  refine same_of (fun j x hx hl => ?_) (fun j x hx hl => ?_)
  · by_cases hj : j = i
    · subst hj; rw [h1] at hx; cases hx
      exact ⟨nd', Tree.set_self, by rw [h2]; exact hl, h3 hl⟩
    · exact ⟨x, by rw [Tree.set_ne hj]; exact hx, hl, rfl⟩
  · by_cases hj : j = i
    · subst hj; rw [Tree.set_self] at hx; cases hx
      exact ⟨nd, h1, by rw [← h2]; exact hl, (h3 (by rw [← h2]; exact hl)).symm⟩
    · rw [Tree.set_ne hj] at hx; exact ⟨x, hx, hl, rfl⟩

/-- Another inode loses its place. -/
theorem same_orphan {i : Ino} (h : ∀ nd, s.nodes i = some nd → nd.loc ≠ some (p, n)) : Same K p n s (s.orphan i) := by
  refine same_of (fun j x hx hl => ?_) (fun j x hx hl => ?_)
  · have hj : j ≠ i := by rintro rfl; exact h x hx hl
    exact ⟨x, by rw [Tree.orphan_ne hj]; exact hx, hl, rfl⟩
  · have hj : j ≠ i := by
      rintro rfl
      obtain ⟨y, hy, -⟩ := orphan_flags hx
      rw [Tree.orphan_self hy] at hx; cases hx; cases hl
    rw [Tree.orphan_ne hj] at hx; exact ⟨x, hx, hl, rfl⟩

theorem same_orphans : ∀ {l : List Ino} {s : Tree}, (∀ i ∈ l, ∀ nd, s.nodes i = some nd → nd.loc ≠ some (p, n)) → Same K p n s (s.orphans l) := by
  intro l
  induction l with
  | nil => intro s _; exact .refl
  | cons i l ih =>
    intro s h
    have e : s.orphans (i :: l) = (s.orphan i).orphans l := rfl
    rw [e]
    refine (same_orphan (h i (by simp))).trans (ih fun j hj nd hnd hl => ?_)
    by_cases hji : j = i
    · subst hji
      obtain ⟨y, hy, -⟩ := orphan_flags hnd
      rw [Tree.orphan_self hy] at hnd; cases hnd; cases hl
    · rw [Tree.orphan_ne hji] at hnd; exact h j (by simp [hj]) nd hnd hl

/-- A new inode appears elsewhere. -/
theorem same_add (ok : s.OK) {q : Ino} {m : Bytes} {a : Attrs} (h : (q, m) ≠ (p, n)) : Same K p n s (s.add q m a) := by
  refine same_of (fun j x hx hl => ?_) (fun j x hx hl => ?_)
  · have hj : j ≠ s.next := by have := (ok.bound j x hx).2; omega
    exact ⟨x, by rw [Tree.add_ne hj]; exact hx, hl, rfl⟩
  · by_cases hj : j = s.next
    · subst hj
      exfalso
      have := (at_add ok).mp ⟨x, hx, hl⟩
      rcases this with ⟨y, hy, -⟩ | ⟨rfl, rfl, -⟩
      · have := (ok.bound _ y hy).2; omega
      · exact h rfl
    · rw [Tree.add_ne hj] at hx; exact ⟨x, hx, hl, rfl⟩

/-- Garbage collection which leaves the directory leaves its entries. -/
theorem same_collected {L : Ino → Prop} (h : Collected s L s') (hp : s'.nodes p ≠ none) : Same K p n s s' := by
  have hg : ¬ Gone s L p := fun hg => hp (h.gone p hg)
  refine same_of (fun j x hx hl => ?_) (fun j x hx hl => ?_)
  · rcases h.cases j with ⟨h1, -⟩ | ⟨-, h1⟩ | ⟨-, -, nd, q, m, h1, h2, h3, -, -⟩
    · exfalso
      cases h1 with
      | orphan k1 _ k3 => rw [hx] at k1; cases k1; rw [hl] at k3; cases k3
      | child k1 k2 k3 => rw [hx] at k1; cases k1; rw [hl] at k2; cases k2; exact hg k3
    · exact ⟨x, by rw [h1]; exact hx, hl, rfl⟩
    · rw [hx] at h1; cases h1; rw [hl] at h2; cases h2; exact absurd h3 hg
  · rcases h.cases j with ⟨-, h1⟩ | ⟨-, h1⟩ | ⟨-, -, nd, q, m, -, -, -, -, h1⟩
    · rw [hx] at h1; cases h1
    · exact ⟨x, by rw [← h1]; exact hx, hl, rfl⟩
    · rw [hx] at h1; cases h1; cases hl

theorem Put.same_ {q : Ino} {m : Bytes} {a : Attrs} {res : Res Ino} (h : Put q m a s r res s' r') (ok : s.OK) (hne : (q, m) ≠ (p, n)) (hp : s'.nodes p ≠ none) :
    Same K p n s s' := by
  cases h with
  | bad => exact .refl
  | @same i nd h1 h2 h3 => exact same_set h1 rfl (fun hl => absurd (Option.some.inj (h2.symm.trans hl)) hne)
  | @new s1 _ _ hn h1 h2 h3 h4 =>
    rcases h1 with ⟨rfl, -⟩ | ⟨i, nd, rfl, k5, k6, -⟩
    · exact (same_add ok hne).trans (same_collected h3 hp)
    · refine (same_orphan (i := i) fun x hx hl => ?_).trans ((same_add (OK.orphan ok i) hne).trans (same_collected h3 hp))
      rw [k5] at hx; cases hx
      exact hne (Option.some.inj (k6.symm.trans hl))

/-- Directories. -/
def Dirs (_ : List Bytes) (a : Attrs) : Prop := fmt a.mode = S_IFDIR

theorem typed_dirs : Typed Dirs := fun _ _ _ h h' => h.trans h'.symm

theorem Puts.same_ {B : Backend} {base : Bytes} {q : Ino} {k : Nat} {names : List Bytes} {es : List Bytes} (h : Puts B base q k names s r s' r') (ok : s.OK) (hd : s.IsDir q)
    (hlen : s.next + names.length < W64) (hq : s.PathTo q es)
    (hA : ∀ z m sr, B.lstat z (entryPath base m) = .ok sr → es ++ [m] <+: cs → Dirs (es ++ [m]) (fromBackend sr)) (hs : Holds Dirs cs s) (hp : s.PathTo p cs) (hne : q ≠ p) :
    Same K p n s s' := by
  induction h with
  | nil => exact .refl
  | skip _ _ ih => exact ih ok hd (by simp at hlen; omega) hq hs hp
  | @put k m l s r s1 r1 s' r' sr res h1 h2 h3 ih =>
    simp only [List.length_cons] at hlen
    obtain ⟨g1, g2⟩ := h2.stay ok hd (by omega) hq (hA k m sr h1) typed_dirs hs
    have e := (h2.eff ok hd (by omega)).1
    have hp1 := g1.1 _ _ (List.prefix_refl _) hp
    obtain ⟨x, hx⟩ := conn_exists (e.ok ok) ⟨_, hp1⟩
    exact (h2.same_ ok (fun hh => hne (Prod.mk.inj hh).1) (by rw [hx]; simp)).trans
      (ih (e.ok ok) (eff_dir e ok ⟨es, g2⟩ hd) (by have := h2.next; omega) g2 g1.2 hp1)

/-- The request does not, while the backend is connected, name the entry `n` of the directory with the path `cs`: it neither looks it up, nor reads it as a link, nor
reads the directory which it is in. -/
def Req.spares (d : DB) (B : Backend) (cs : List Bytes) (n : Bytes) : Req → Prop
  | .lookup q m => m = n → Cache.path d q = .ok (.ok (pathStr cs)) → B.lstat 0 (pathStr (cs ++ [n])) = .error ENOTCONN
  | .readlink i => Cache.path d i = .ok (.ok (pathStr (cs ++ [n]))) → B.readlink (backendPath (pathStr (cs ++ [n]))) = .error ENOTCONN
  | .opendir i => Cache.path d i = .ok (.ok (pathStr cs)) → ∃ e, B.opendir (backendPath (pathStr cs)) = .error e
  | _ => True

/-- Nor does it, while the backend answers, read the entry itself as a directory. -/
def Req.sparesDir (d : DB) (B : Backend) (fs : List Bytes) : Req → Prop
  | .opendir i => Cache.path d i = .ok (.ok (pathStr fs)) → ∃ e, B.opendir (backendPath (pathStr fs)) = .error e
  | _ => True

/-- **The effects of requests are local.** -/
theorem abs_same {B : Backend} {rq : Req} {rep : Reply} (h : Abs B d s r rq rep s' r') (hI : SI s d r) (ok' : s'.OK) (hr : rq.inRange) (hd : rq.onDir d) (hl : rq.onLink d)
    (hn : s.next + 1 < W64) (hn2 : ∀ q names e, B.opendir q = .ok (names, e) → s.next + names.length + 1 < W64)
    (hc : Confirms B Dirs cs) (hne : ∀ c ∈ cs, c ≠ []) (hs : Holds Dirs cs s) (hp : s.PathTo p cs) (hsp : rq.spares d B cs n)
    (hK : (∀ nd f, K { nd with flags := f } = K nd) ∨ rq.sparesDir d B (cs ++ [n])) : Same K p n s s' := by
  have ok := hI.ok
  have dir : ∀ {q es}, q < W64 → s.PathTo q es → (∀ x, Cache.getattr d q = .ok x → fmt x.2.mode = S_IFDIR) → s.IsDir q := by
    intro q es hb hp hd
    obtain ⟨nd, hnd⟩ := conn_exists hI.ok ⟨es, hp⟩
    exact isDir_of hI hb hd hnd
  have stay := abs_stay h hI ok' hr hd hl hn hn2 hc hne typed_dirs hs
  have hp' := stay.1 _ _ (List.prefix_refl _) hp
  have hpn : s'.nodes p ≠ none := by obtain ⟨x, hx⟩ := conn_exists ok' ⟨_, hp'⟩; rw [hx]; simp
  have put : ∀ {q m es}, s.PathTo q es → B.lstat 0 (pathStr (es ++ [m])) ≠ .error ENOTCONN →
      (m = n → Cache.path d q = .ok (.ok (pathStr cs)) → B.lstat 0 (pathStr (cs ++ [n])) = .error ENOTCONN) → (q, m) ≠ (p, n) := by
    intro q m es h1 h0 h2 hh
    obtain ⟨rfl, rfl⟩ := Prod.mk.inj hh
    have := PathTo.unique ok h1 hp; subst this
    exact h0 (h2 rfl (hI.rep.path_found ok hp))
  cases h with
  | lkBad h1 h2 h3 => exact h3.same_ ok (put h1 (by rw [h2]; simp) hsp) hpn
  | lkPut h1 h2 h3 => exact h3.same_ ok (put h1 (by rw [h2]; simp) hsp) hpn
  | @lkErr q m es be i _ _ h1 h2 h3 h4 h5 =>
    refine (same_orphan (i := i) fun x hx hl => ?_).trans (same_collected h5.coll hpn)
    obtain ⟨y, hy, hyl⟩ := h4
    rw [hx] at hy; cases hy
    exact put h1 (by rw [h2]; simpa using h3) hsp (Option.some.inj (hyl.symm.trans hl))
  | @rlPut i es dest nd h1 h2 h3 h4 =>
    refine same_set h3 rfl (fun hl => ?_)
    have hpi : s.PathTo i (cs ++ [n]) := .child ⟨nd, h3, hl⟩ hp
    have := PathTo.unique ok h1 hpi; subst this
    rw [hsp (hI.rep.path_found ok hpi)] at h2; cases h2
  | @rlErr i es be _ _ h1 h2 h3 h4 h5 =>
    refine (same_orphan (i := i) fun x hx hl => ?_).trans (same_collected h5.coll hpn)
    have hpi : s.PathTo i (cs ++ [n]) := .child ⟨x, hx, hl⟩ hp
    have := PathTo.unique ok h1 hpi; subst this
    rw [hsp (hI.rep.path_found ok hpi)] at h2; cases h2
    exact h3 rfl
  | @odSync i es names e _ _ h1 h2 h3 =>
    have hip : i ≠ p := by
      rintro rfl
      obtain ⟨e', he'⟩ := hsp (hI.rep.path_found ok hp)
      have := PathTo.unique ok h1 hp; subst this
      rw [h2] at he'; cases he'
    have hdir := dir hr h1 hd
    have hlen : s.next + names.length < W64 := by have := hn2 _ _ _ h2; omega
    cases h3 with
    | @mk s1 _ nd rw f1 f2 f3 f4 f5 f6 =>
      have hA : ∀ z m sr, B.lstat z (entryPath (backendPath (pathStr es)) m) = .ok sr → es ++ [m] <+: cs → Dirs (es ++ [m]) (fromBackend sr) := by
        intro z m sr hz hpre
        rw [entryPath_eq (fun c hc => hne c (hpre.subset (by simp [hc])))] at hz
        rcases hc.lstat _ z hpre (by simp) with ⟨sr', k1, k2⟩ | k
        · rw [hz] at k1; cases k1; exact k2
        · rw [hz] at k; cases k
      have g1 : Same K p n s s1 := f1.same_ ok hdir hlen h1 hA hs hp hip
      obtain ⟨l, r1, -, -⟩ := f2.rewr
      refine g1.trans ((same_set (nd' := { nd with flags := newFlags nd.flags [SYNCED] [] }) f3 rfl fun hl => ?_).trans (same_orphans fun j hj x hx hl => ?_))
      · rcases hK with hK | hK
        · exact hK _ _
        · exfalso
          obtain ⟨x, hx, hxl, -⟩ := (g1 i (K nd)).mpr ⟨nd, f3, hl, rfl⟩
          have hpi : s.PathTo i (cs ++ [n]) := .child ⟨x, hx, hxl⟩ hp
          obtain ⟨e', he'⟩ := hK (hI.rep.path_found ok hpi)
          have := PathTo.unique ok h1 hpi; subst this
          rw [h2] at he'; cases he'
      · obtain ⟨L, m1, m2⟩ : ∃ L, rw = some L ∧ j ∈ L := by
          unfold marks at hj; cases rw with
          | none => simp at hj
          | some L => exact ⟨L, rfl, hj⟩
        have hat : s1.At p n j := by
          have : (s1.set i { nd with flags := newFlags nd.flags [SYNCED] [] }).At p n j := ⟨x, hx, hl⟩
          exact (at_set (nd' := { nd with flags := newFlags nd.flags [SYNCED] [] }) f3 rfl).mp this
        exact hip ((r1.own L j m1 m2).2 p n hat).symm
  | _ => exact .refl

end Dragonstash.FS
