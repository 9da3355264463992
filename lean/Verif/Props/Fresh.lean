/-
  C104: changes on the host become visible within a second.
-/
import Verif.FS.Kernel
import Verif.Props.Monotonic
import Verif.Props.LocalWhole
namespace Dragonstash.FS
open Cache MT

variable {s s' : Tree} {d d' : DB} {r r' : Refs} {H : Nat → Backend} {K : Kern}

/-- The full property: if the host has been connected for the last second, `stat` shows what the host reported within
the last second (and the time for one request). -/
def C104_full : Prop :=
  ∀ (H : Nat → Backend) (K : Kern) (cs : List Bytes) (n : Bytes) (e : KEntry) (x : OsStat), Timed H K → K.Stat cs n e x →
    Connected H (K.now - (1000 + K.slow)) K.now →
    From (Reported H (K.now - (1000 + K.slow)) K.now) (ReadAs H (K.now - (1000 + K.slow)) K.now) (pathStr (cs ++ [n])) x

/-! ### Attributes since a moment -/

/-- Attributes which the host reported for `b` between `lo` and `hi`. -/
def Fresh (H : Nat → Backend) (b : Bytes) (lo hi : Nat) (a : Attrs) : Prop :=
  ∃ sr, Reported H lo hi b sr ∧ (a = fromBackend sr ∨ fmt sr.mode = S_IFLNK ∧ ∃ t, ReadAs H lo hi b t ∧ a = { fromBackend sr with size := t.length })

theorem Fresh.mono {b : Bytes} {lo lo' hi hi' : Nat} {a : Attrs} (h : Fresh H b lo hi a) (h1 : lo' ≤ lo) (h2 : hi ≤ hi') : Fresh H b lo' hi' a := by
  obtain ⟨sr, ⟨t, c, g1, g2, g3⟩, g4⟩ := h
  refine ⟨sr, ⟨t, c, by omega, by omega, g3⟩, ?_⟩
  rcases g4 with g4 | ⟨g4, l, ⟨t', k1, k2, k3⟩, k4⟩
  · exact .inl g4
  · exact .inr ⟨g4, l, ⟨t', by omega, by omega, k3⟩, k4⟩

theorem Fresh.from_ {b : Bytes} {lo hi : Nat} {a : Attrs} {i : Ino} (h : Fresh H b lo hi a) : From (Reported H lo hi) (ReadAs H lo hi) b (osStat i a) := by
  obtain ⟨sr, g1, g4⟩ := h
  refine ⟨sr, g1, ?_⟩
  rcases g4 with rfl | ⟨g4, l, k1, rfl⟩
  · exact .inl (shows_osStat i sr sr.size)
  · exact .inr ⟨g4, l, k1, shows_osStat i sr l.length⟩

theorem Answers.fresh {B : Backend} {t0 t1 lo : Nat} (h : Answers H t0 t1 B) (hl : lo ≤ t0) {c : Nat} {b : Bytes} {sr : BStat} (hs : B.lstat c b = .ok sr) :
    Fresh H b lo t1 (fromBackend sr) := by
  obtain ⟨t, h1, h2, h3⟩ := h.lstat c b
  exact ⟨sr, ⟨t, c, by omega, h2, by rw [← h3]; exact hs⟩, .inl rfl⟩

theorem Answers.resized {B : Backend} {t0 t1 lo : Nat} (h : Answers H t0 t1 B) (hl : lo ≤ t0) {b l : Bytes} (hs : B.readlink b = .ok l) {a : Attrs} (ha : Fresh H b lo t1 a)
    (hm : fmt a.mode = S_IFLNK) : Fresh H b lo t1 { a with size := l.length } := by
  obtain ⟨t, h1, h2, h3⟩ := h.readlink b
  obtain ⟨sr, g1, g4⟩ := ha
  refine ⟨sr, g1, .inr ?_⟩
  have hr : ReadAs H lo t1 b l := ⟨t, by omega, h2, by rw [← h3]; exact hs⟩
  rcases g4 with rfl | ⟨g4, l', k1, rfl⟩
  · exact ⟨hm, l, hr, rfl⟩
  · exact ⟨g4, l, hr, rfl⟩

/-! ### The entries of one directory -/

/-- The attributes of what is in directory `p` under the name `n` are in `S n`. -/
def Kids (S : Bytes → Attrs → Prop) (p : Ino) (s : Tree) : Prop := ∀ i n nd, s.nodes i = some nd → nd.loc = some (p, n) → S n nd.attr

section
variable {S : Bytes → Attrs → Prop} {p : Ino}

theorem Kids.orphan (h : Kids S p s) (j : Ino) : Kids S p (s.orphan j) := by
  intro i n nd hn hl
  by_cases hij : i = j
  · subst hij
    cases hx : s.nodes i with
    | none => rw [orphan_none hx] at hn; cases hn
    | some x => rw [Tree.orphan_self hx] at hn; cases hn; cases hl
  · rw [Tree.orphan_ne hij] at hn; exact h i n nd hn hl

theorem Kids.orphans (h : Kids S p s) (l : List Ino) : Kids S p (s.orphans l) := by
  induction l generalizing s with
  | nil => exact h
  | cons j l ih => exact ih (h.orphan j)

theorem Kids.coll {L : Ino → Prop} (h : Kids S p s) (hc : Collected s L s') : Kids S p s' := by
  intro i n nd hn hl
  obtain ⟨-, x, h1, h2, -, -, h3⟩ := hc.back hn
  rw [h2]
  rcases h3 with h3 | h3
  · exact h i n x h1 (by rw [← h3]; exact hl)
  · rw [h3] at hl; cases hl

theorem Kids.set {j : Ino} {nd : Node} (h : Kids S p s) (hj : ∀ n, nd.loc = some (p, n) → S n nd.attr) : Kids S p (s.set j nd) := by
  intro i n x hx hl
  by_cases hij : i = j
  · subst hij; rw [Tree.set_self] at hx; cases hx; exact hj n hl
  · rw [Tree.set_ne hij] at hx; exact h i n x hx hl

theorem Kids.put {q n a res} (h : Kids S p s) (hp : Put q n a s r res s' r') (ha : q = p → S n a) : Kids S p s' := by
  cases hp with
  | bad => exact h
  | @same j nd h1 h2 h3 =>
    refine h.set (fun m hm => ?_)
    simp only at hm
    rw [h2] at hm; cases hm
    exact ha rfl
  | @new s1 _ _ hn' h1 h2 h3 h4 =>
    have h5 : Kids S p s1 := by
      rcases h1 with ⟨rfl, -⟩ | ⟨j, nd, rfl, -⟩
      · exact h
      · exact h.orphan j
    refine Kids.coll (fun i m x hx hl => ?_) h3
    by_cases hi : i = s1.next
    · subst hi
      rw [Tree.add_self] at hx
      cases hx
      cases hl
      exact ha rfl
    · rw [Tree.add_ne hi] at hx; exact h5 i m x hx hl

theorem Kids.puts {B : Backend} {j k names cs} (h : Puts B (backendPath (pathStr cs)) j k names s r s' r') (hi : Kids S p s) (hn : ∀ c ∈ cs, c ≠ [])
    (ha : j = p → ∀ n c sr, B.lstat c (pathStr (cs ++ [n])) = .ok sr → S n (fromBackend sr)) : Kids S p s' := by
  induction h with
  | nil => exact hi
  | skip _ _ ih => exact ih hi
  | @put k n l s r s1 r1 s' r' sr res h1 h2 h3 ih =>
    rw [entryPath_eq hn] at h1
    exact ih (hi.put h2 (fun e => ha e n _ _ h1))

/-- What the backend says about entries of `p`, whose names are `P`, is in `S`. -/
def Says (S : Bytes → Attrs → Prop) (P : List Bytes) (B : Backend) : Prop :=
  (∀ n c sr, B.lstat c (pathStr (P ++ [n])) = .ok sr → S n (fromBackend sr)) ∧
  ∀ n t, B.readlink (pathStr (P ++ [n])) = .ok t → ∀ a, S n a → fmt a.mode = S_IFLNK → S n { a with size := t.length }

theorem abs_kids {B : Backend} {rq rep} (h : Abs B d s r rq rep s' r') (hI : SI s d r)
    (hne : ∀ j ds, s.PathTo j ds → ∀ c ∈ ds, c ≠ []) (hR : ∀ P, s.PathTo p P → Says S P B) (hi : Kids S p s) : Kids S p s' := by
  cases h with
  | lkBad h1 h2 h3 => exact hi.put h3 (fun e => by subst e; exact (hR _ h1).1 _ _ _ h2)
  | lkPut h1 h2 h3 => exact hi.put h3 (fun e => by subst e; exact (hR _ h1).1 _ _ _ h2)
  | lkErr _ _ _ _ h3 => exact (hi.orphan _).coll h3.coll
  | rlErr _ _ _ _ h3 => exact (hi.orphan _).coll h3.coll
  | @rlPut j cs dest nd h1 h2 h3 h4 =>
    refine hi.set (fun n hl => ?_)
    simp only at hl ⊢
    have hcs : cs ≠ [] := by
      rintro rfl
      have : j = ROOT := PathTo.inj hI.ok h1 .root
      subst this
      obtain ⟨x, h5, h6, -⟩ := hI.ok.root
      rw [h5] at h3; cases h3; rw [h6] at h4; cases h4
    rw [backendPath_ne hcs] at h2
    cases h1 with
    | root => exact absurd rfl hcs
    | @child q m _ ds hat hq =>
      obtain ⟨x, f1, f2⟩ := hat
      rw [h3] at f1; cases f1
      rw [hl] at f2; cases f2
      exact (hR _ hq).2 _ _ h2 _ (hi j n nd h3 hl) h4
  | @odSync j cs names e _ _ h1 h2 h3 =>
    cases h3 with
    | @mk s1 _ nd rw g1 g2 g3 g4 g5 g6 =>
      have hs1 := Kids.puts g1 hi (hne _ _ h1) (fun e n c sr hl => by subst e; exact (hR _ h1).1 _ _ _ hl)
      refine Kids.orphans (hs1.set ?_) _
      exact fun n hl => hs1 j n nd g3 hl
  | _ => exact hi
end

/-! ### One request -/

/-- What is in a directory in `s` was there before or is new in a directory which has a path in `s0`. -/
def Grown (s0 s : Tree) : Prop := ∀ i p n, s.At p n i → i < s0.next ∨ s0.Conn p

section
variable {s0 : Tree}

theorem Grown.back (h : Grown s0 s) (hb : ∀ i p n, s'.At p n i → s.At p n i) : Grown s0 s' := fun i p n hat => h i p n (hb i p n hat)

theorem at_orphan {j i p : Ino} {n : Bytes} (h : (s.orphan j).At p n i) : s.At p n i := by
  obtain ⟨nd, h1, h2⟩ := h
  by_cases hij : i = j
  · subst hij
    cases hx : s.nodes i with
    | none => rw [orphan_none hx] at h1; cases h1
    | some x => rw [Tree.orphan_self hx] at h1; cases h1; cases h2
  · rw [Tree.orphan_ne hij] at h1; exact ⟨nd, h1, h2⟩

theorem at_orphans {l : List Ino} {i p : Ino} {n : Bytes} : ∀ {s : Tree}, (s.orphans l).At p n i → s.At p n i := by
  induction l with
  | nil => exact fun h => h
  | cons j l ih => exact fun h => at_orphan (ih h)

theorem at_coll {L : Ino → Prop} (hc : Collected s L s') {i p : Ino} {n : Bytes} (h : s'.At p n i) : s.At p n i := by
  obtain ⟨nd, h1, h2⟩ := h
  obtain ⟨-, x, g1, g2, -, -, g3⟩ := hc.back h1
  rcases g3 with g3 | g3
  · exact ⟨x, g1, by rw [← g3]; exact h2⟩
  · rw [g3] at h2; cases h2

theorem at_setloc {j : Ino} {nd nd' : Node} (hj : s.nodes j = some nd) (hl : nd'.loc = nd.loc) {i p : Ino} {n : Bytes} (h : (s.set j nd').At p n i) : s.At p n i := by
  obtain ⟨x, h1, h2⟩ := h
  by_cases hij : i = j
  · subst hij; rw [Tree.set_self] at h1; cases h1; exact ⟨nd, hj, by rw [← hl]; exact h2⟩
  · rw [Tree.set_ne hij] at h1; exact ⟨x, h1, h2⟩

theorem Grown.put {q n a res} (h : Grown s0 s) (hp : Put q n a s r res s' r') (hq : s0.Conn q) : Grown s0 s' := by
  cases hp with
  | bad => exact h
  | @same j nd h1 h2 h3 => exact h.back (fun _ _ _ => at_setloc (nd' := { nd with attr := a, flags := 0 }) h1 rfl)
  | @new s1 _ _ hn' h1 h2 h3 h4 =>
    have h5 : Grown s0 s1 := by
      rcases h1 with ⟨rfl, -⟩ | ⟨j, nd, rfl, -⟩
      · exact h
      · exact h.back (fun _ _ _ => at_orphan)
    refine Grown.back (s := s1.add q n a) (fun i p m hat => ?_) (fun _ _ _ => at_coll h3)
    obtain ⟨x, g1, g2⟩ := hat
    by_cases hi : i = s1.next
    · subst hi
      rw [Tree.add_self] at g1; cases g1; cases g2
      exact .inr hq
    · rw [Tree.add_ne hi] at g1; exact h5 i p m ⟨x, g1, g2⟩

theorem Grown.puts {B : Backend} {j k names base} (h : Puts B base j k names s r s' r') (hi : Grown s0 s) (hq : s0.Conn j) : Grown s0 s' := by
  induction h with
  | nil => exact hi
  | skip _ _ ih => exact ih hi
  | put _ h2 _ ih => exact ih (hi.put h2 hq)

theorem abs_grown {B : Backend} {rq rep} (h : Abs B d s r rq rep s' r') (ok : s.OK) : Grown s s' := by
  have h0 : Grown s s := fun i p n ⟨nd, h1, _⟩ => .inl (ok.bound i nd h1).2
  cases h with
  | lkBad h1 h2 h3 => exact h0.put h3 ⟨_, h1⟩
  | lkPut h1 h2 h3 => exact h0.put h3 ⟨_, h1⟩
  | lkErr _ _ _ _ h3 => exact h0.back (fun _ _ _ h => at_orphan (at_coll h3.coll h))
  | rlErr _ _ _ _ h3 => exact h0.back (fun _ _ _ h => at_orphan (at_coll h3.coll h))
  | @rlPut j cs dest nd h1 h2 h3 h4 =>
    refine h0.back (fun _ _ _ => at_setloc h3 ?_)
    rfl
  | @odSync j cs names e _ _ h1 h2 h3 =>
    cases h3 with
    | @mk s1 _ nd rw g1 g2 g3 g4 g5 g6 =>
      refine (h0.puts g1 ⟨_, h1⟩).back (fun _ _ _ h => at_setloc (nd' := { nd with flags := newFlags nd.flags [SYNCED] [] }) g3 rfl (at_orphans h))
  | _ => exact h0
end

/-- What a reply shows is in the tree after the request. -/
theorem abs_shown {B : Backend} {rq rep} (h : Abs B d s r rq rep s' r') (hI : SI s d r) (hr : rq.inRange) (hd : rq.onDir d) (hn : s.next + 1 < W64) :
    Fits s' (rq, rep) := by
  have fin : ∀ {dir c L e b} {l : List DEnt}, dir < W64 → Stream d dir c L e b → (∀ x ∈ l, x ∈ L.map Ent.dent) →
      (∀ x ∈ l, ∃ nd, s.nodes x.stat.ino = some nd ∧ x.stat = osStat x.stat.ino nd.attr) ∧ ∀ x ∈ l, x.name ≠ [0x2e] → x.name ≠ [0x2e, 0x2e] → s.At dir x.name x.stat.ino :=
    fun hb hs hl => fits_stream hI hb hs hl
  have plus : ∀ {dir size off L e b l k}, dir < W64 → Stream d dir off L e b → (∀ x ∈ l, x ∈ L.map Ent.dent) → Fits s (.readdirplus dir size off, .bufPlus l k) := by
    intro dir size off L e b l k hb hs hl
    obtain ⟨f1, f2⟩ := fin hb hs hl
    refine ⟨fun st hst => ?_, fun p n i hu => ?_⟩
    · obtain ⟨e, he, rfl⟩ := hst; exact f1 e he
    · obtain ⟨rfl, n1, n2, e, he, rfl, rfl⟩ := hu; exact f2 e he n1 n2
  have buf : ∀ {dir size off L e b l k}, dir < W64 → Stream d dir off L e b → (∀ x ∈ l, x ∈ L.map Ent.dent) → Fits s (.readdir dir size off, .buf l k) := by
    intro dir size off L e b l k hb hs hl
    obtain ⟨f1, f2⟩ := fin hb hs hl
    refine ⟨fun st hst => ?_, fun p n i hu => ?_⟩
    · obtain ⟨e, he, rfl⟩ := hst; exact f1 e he
    · obtain ⟨rfl, n1, n2, e, he, rfl, rfl⟩ := hu; exact f2 e he n1 n2
  cases h with
  | @lkPut p n cs sr i _ _ h1 h2 h3 =>
    obtain ⟨nd, hnd⟩ := conn_exists hI.ok ⟨cs, h1⟩
    obtain ⟨g1, g2, x, g3, g4⟩ := h3.found hI.ok h1 (isDir_of hI hr hd hnd) hn
    refine ⟨fun st hst => ?_, fun p' n' i' hu => ?_⟩
    · cases hst; exact ⟨x, g3, by rw [g4]; rfl⟩
    · obtain ⟨rfl, rfl, rfl⟩ := hu; exact g2
  | @lkHit p n cs i nd h1 h2 h3 h4 =>
    refine ⟨fun st hst => ?_, fun p' n' i' hu => ?_⟩
    · cases hst; exact ⟨nd, h3, rfl⟩
    · obtain ⟨rfl, rfl, rfl⟩ := hu; exact ⟨nd, h3, h4⟩
  | gaHit h1 => exact ⟨fun st hst => by cases hst; exact ⟨_, h1, rfl⟩, fun _ _ _ h => h.elim⟩
  | rdEof h1 =>
    split
    · exact fits_err s
    · exact buf hr.1 h1 (fun _ hx => fitFrom_mem hx)
  | rdPart _ h1 _ => exact buf hr.1 h1 (fun _ hx => fitFrom_mem hx)
  | plAll h1 _ _ _ =>
    split
    · exact fits_err s
    · exact plus hr.1 h1 (fun _ hx => hx)
  | plZero =>
    refine ⟨fun st hst => ?_, fun p n i hu => ?_⟩
    · obtain ⟨e, he, -⟩ := hst; cases he
    · obtain ⟨-, -, -, e, he, -⟩ := hu; cases he
  | @plPart dir size off P x Q e b h1 _ _ _ _ =>
    exact plus hr.1 h1 (fun y hy => by rw [List.map_append]; exact List.mem_append_left _ hy)
  | _ => exact fits_none _ (fun _ h => h) (fun _ _ _ h => h)

/-! ### Places -/

/-- `pl` tells, for each inode which has ever been in a directory, the names which led to it. -/
structure Places (s : Tree) (pl : Ino → Option (List Bytes)) : Prop where
  root : pl ROOT = some []
  at_ : ∀ i p n, s.At p n i → ∃ P, pl p = some P ∧ pl i = some (P ++ [n])
  old : ∀ i P, pl i = some P → i < s.next

theorem Places.path {pl : Ino → Option (List Bytes)} (h : Places s pl) {i : Ino} {cs : List Bytes} (hp : s.PathTo i cs) : pl i = some cs := by
  induction hp with
  | root => exact h.root
  | @child p n i cs hat _ ih =>
    obtain ⟨P, h1, h2⟩ := h.at_ _ _ _ hat
    rw [ih] at h1; cases h1; exact h2

theorem Places.coll {pl : Ino → Option (List Bytes)} {L : Ino → Prop} (h : Places s pl) (hc : Collected s L s') : Places s' pl :=
  ⟨h.root, fun i p n hat => h.at_ i p n (at_coll hc hat), fun i P hi => by rw [hc.next]; exact h.old i P hi⟩

open Classical in
/-- New inodes are where they are. -/
noncomputable def morePlaces (s s' : Tree) (pl : Ino → Option (List Bytes)) : Ino → Option (List Bytes) := fun i =>
  if i < s.next then pl i
  else if hx : ∃ Q : List Bytes, ∃ p n P, s'.At p n i ∧ pl p = some P ∧ Q = P ++ [n] then some hx.choose else none

theorem morePlaces_old {pl : Ino → Option (List Bytes)} {i : Ino} (hi : i < s.next) : morePlaces s s' pl i = pl i := if_pos hi

theorem morePlaces_new {pl : Ino → Option (List Bytes)} {i : Ino} (hi : ¬ i < s.next) {Q : List Bytes} :
    morePlaces s s' pl i = some Q ↔ ∃ p n P, s'.At p n i ∧ pl p = some P ∧ Q = P ++ [n] := by
  have hw : ∀ {i p p' : Ino} {n n' : Bytes}, s'.At p n i → s'.At p' n' i → p = p' ∧ n = n' := by
    rintro i p p' n n' ⟨x, h1, h2⟩ ⟨y, h3, h4⟩
    rw [h1] at h3; cases h3; rw [h2] at h4; cases h4; exact ⟨rfl, rfl⟩
  unfold morePlaces
  rw [if_neg hi]
  by_cases hx : ∃ Q : List Bytes, ∃ p n P, s'.At p n i ∧ pl p = some P ∧ Q = P ++ [n]
  · rw [dif_pos hx]
    obtain ⟨p, n, P, k1, k2, k3⟩ := hx.choose_spec
    constructor
    · intro h; cases h; exact ⟨p, n, P, k1, k2, k3⟩
    · rintro ⟨p', n', P', g1, g2, g3⟩
      obtain ⟨rfl, rfl⟩ := hw k1 g1
      rw [k2] at g2; cases g2
      rw [k3, g3]
  · rw [dif_neg hx]
    constructor
    · intro h; cases h
    · rintro ⟨p', n', P', g1, g2, g3⟩; exact absurd ⟨Q, p', n', P', g1, g2, g3⟩ hx

theorem Places.more {pl : Ino → Option (List Bytes)} (h : Places s pl) (ok' : s'.OK) (hk : Keep s s') (hg : Grown s s') :
    ∃ pl', Places s' pl' ∧ ∀ i P, pl i = some P → pl' i = some P := by
  refine ⟨morePlaces s s' pl, ⟨?_, fun i p n hat => ?_, fun i P hi => ?_⟩, fun i P hi => by rw [morePlaces_old (h.old i P hi)]; exact hi⟩
  · rw [morePlaces_old (h.old _ _ h.root)]; exact h.root
  · by_cases hi : i < s.next
    · obtain ⟨nd', g1, g2⟩ := hat
      obtain ⟨nd, k1, -, k2⟩ := hk.2 i nd' g1 hi
      have hat : s.At p n i := ⟨nd, k1, by rcases k2 with k2 | k2; rw [← k2]; exact g2; rw [k2] at g2; cases g2⟩
      obtain ⟨P, f1, f2⟩ := h.at_ i p n hat
      exact ⟨P, by rw [morePlaces_old (h.old _ _ f1)]; exact f1, by rw [morePlaces_old hi]; exact f2⟩
    · obtain ⟨cs, hcs⟩ := (hg i p n hat).resolve_left hi
      have f1 := h.path hcs
      exact ⟨cs, by rw [morePlaces_old (h.old _ _ f1)]; exact f1, (morePlaces_new hi).mpr ⟨p, n, cs, hat, f1, rfl⟩⟩
  · by_cases hlt : i < s.next
    · exact Nat.lt_of_lt_of_le hlt hk.1
    · obtain ⟨p', n', P', ⟨x, k1, -⟩, -⟩ := (morePlaces_new hlt).mp hi
      exact (ok'.bound i x k1).2

/-! ### The invariant -/

/-- How long an entry stays valid. -/
def Young (K : Kern) (e : KEntry) : Prop :=
  (e.how = .lookup → ∃ lo, e.since = some lo ∧ e.until_ ≤ lo + K.slow + 1000) ∧
  (e.how = .listing → ∀ lo, e.since = some lo → e.until_ ≤ lo + K.late + 1000)

/-- Entry `e` of `p` under the name `n`. -/
def EntOK (H : Nat → Backend) (K : Kern) (s : Tree) (pl : Ino → Option (List Bytes)) (p : Ino) (n : Bytes) (e : KEntry) : Prop :=
  (∃ P, pl p = some P ∧ pl e.ino = some (P ++ [n]) ∧ ∀ lo, e.since = some lo → lo ≤ K.now ∧
    (Connected H lo K.now → In (Fresh H (pathStr (P ++ [n])) lo K.now) e.ino s ∧
      ∀ a, K.attr e.ino = some a → ∃ b, a.stat = osStat e.ino b ∧ Fresh H (pathStr (P ++ [n])) lo K.now b)) ∧
  Young K e

structure KInv (H : Nat → Backend) (K : Kern) (s : Tree) (pl : Ino → Option (List Bytes)) : Prop where
  si : SI s K.sys.disk K.sys.refs
  held : ∀ i, K.sys.held i ≤ (K.sys.refs i).nrefs
  orig : Orig (fun _ _ => True) (fun _ _ => True) s
  places : Places s pl
  ent : ∀ p n e, K.ent p n = some e → EntOK H K s pl p n e
  opened : ∀ p lo, K.opened p = some lo → ∃ P, pl p = some P ∧ lo ≤ K.now ∧
    (Connected H lo K.now → Kids (fun n => Fresh H (pathStr (P ++ [n])) lo K.now) p s)

theorem Connected.mono {lo lo' hi hi' : Nat} (h : Connected H lo hi) (h1 : lo ≤ lo') (h2 : hi' ≤ hi) : Connected H lo' hi' :=
  fun t g1 g2 => h t (by omega) (by omega)

theorem in_mono {S S' : Attrs → Prop} {i : Ino} (h : In S i s) (hS : ∀ a, S a → S' a) : In S' i s := ⟨h.1, fun nd hn => hS _ (h.2 nd hn)⟩

theorem KInv.wait {pl : Ino → Option (List Bytes)} (h : KInv H K s pl) {t : Nat} (ht : K.now ≤ t) : KInv H { K with now := t } s pl := by
  refine ⟨h.si, h.held, h.orig, h.places, fun p n e he => ?_, fun p lo hlo => ?_⟩
  · obtain ⟨⟨P, h1, h2, h3⟩, h4⟩ := h.ent p n e he
    refine ⟨⟨P, h1, h2, fun lo hlo => ?_⟩, h4⟩
    obtain ⟨g1, g2⟩ := h3 lo hlo
    refine ⟨Nat.le_trans g1 ht, fun hc => ?_⟩
    obtain ⟨g3, g4⟩ := g2 (hc.mono (Nat.le_refl _) ht)
    refine ⟨in_mono g3 (fun a ha => ha.mono (Nat.le_refl _) ht), fun a ha => ?_⟩
    obtain ⟨b, f1, f2⟩ := g4 a ha
    exact ⟨b, f1, f2.mono (Nat.le_refl _) ht⟩
  · obtain ⟨P, g1, g2, g3⟩ := h.opened p lo hlo
    exact ⟨P, g1, Nat.le_trans g2 ht, fun hc i n nd h1 h2 => (g3 (hc.mono (Nat.le_refl _) ht) i n nd h1 h2).mono (Nat.le_refl _) ht⟩

/-- The request has been served; the kernel does not have the reply yet. -/
theorem KInv.served {pl : Ino → Option (List Bytes)} (h : KInv H K s pl) {B : Backend} {rq : Req} {rep : Reply} {y : Sys} {t : Nat} (hv : Valid K.sys B rq) (hm : rq.named) (ht : K.now ≤ t)
    (hB : Answers H K.now t B) (habs : Abs B K.sys.disk s K.sys.refs rq rep s' r') (hs' : SI s' y.disk y.refs) (hh : ∀ i, y.held i ≤ (y.refs i).nrefs) :
    ∃ pl', KInv H { K with sys := y, now := t, slow := max K.slow (t - K.now) } s' pl' ∧ ∀ i P, pl i = some P → pl' i = some P := by
  obtain ⟨hr, hd, -, hroom1, -⟩ := hv
  have hn := hroom1 _ h.si.rep.next
  obtain ⟨pl', hpl, hext⟩ := h.places.more hs'.ok (abs_keep habs h.si hr hd hn.1) (abs_grown habs h.si.ok)
  refine ⟨pl', ⟨hs', hh, ?_, hpl, fun p n e he => ?_, fun p lo hlo => ?_⟩, hext⟩
  · exact abs_orig habs h.si hr hd hm hn.2 ⟨fun _ _ _ _ => trivial, fun _ _ _ => trivial, hB.names⟩ h.orig
  · obtain ⟨⟨P, h1, h2, h3⟩, h4⟩ := h.ent p n e he
    refine ⟨⟨P, hext _ _ h1, hext _ _ h2, fun lo hlo => ?_⟩, fun hl => ?_, h4.2⟩
    · obtain ⟨g1, g2⟩ := h3 lo hlo
      refine ⟨Nat.le_trans g1 ht, fun hc => ?_⟩
      obtain ⟨g3, g4⟩ := g2 (hc.mono (Nat.le_refl _) ht)
      refine ⟨abs_in habs h.si hr hd hn.2 (fun j ds hp => h.orig.named h.si.ok hp) (fun b hb => ?_) (in_mono g3 (fun a ha => ha.mono (Nat.le_refl _) ht)), fun a ha => ?_⟩
      · have hlt : e.ino < W64 := by have := h.places.old _ _ h2; omega
        by_cases hcn : s.Conn e.ino
        · obtain ⟨cs, hcs⟩ := hcn
          have hp := h.places.path hcs
          rw [h2] at hp; cases hp
          obtain rfl := path_eq h.si hcs hb
          exact ⟨fun c sr hl => hB.fresh g1 hl, fun tg hl a ha hf => hB.resized g1 hl ha hf⟩
        · rw [h.si.rep.path_missing h.si.ok h.si.wf hlt hcn] at hb; cases hb
      · obtain ⟨b, f1, f2⟩ := g4 a ha
        exact ⟨b, f1, f2.mono (Nat.le_refl _) ht⟩
    · obtain ⟨lo, g1, g2⟩ := h4.1 hl
      exact ⟨lo, g1, by simp only; omega⟩
  · obtain ⟨P, g1, g2, g3⟩ := h.opened p lo hlo
    refine ⟨P, hext _ _ g1, Nat.le_trans g2 ht, fun hc => ?_⟩
    refine abs_kids habs h.si (fun j ds hp => h.orig.named h.si.ok hp) (fun P' hP' => ?_) (fun i n nd h1 h2 => (g3 (hc.mono (Nat.le_refl _) ht) i n nd h1 h2).mono (Nat.le_refl _) ht)
    have := h.places.path hP'
    rw [g1] at this; cases this
    exact ⟨fun n c sr hl => hB.fresh g2 hl, fun n tg hl a ha hf => hB.resized g2 hl ha hf⟩

/-- The kernel caches an entry which is in the tree. -/
theorem KInv.enter {pl : Ino → Option (List Bytes)} (h : KInv H K s pl) {p : Ino} {n : Bytes} {e : KEntry} {a : KAttr} (hat : s.At p n e.ino)
    (hst : ∃ nd, s.nodes e.ino = some nd ∧ a.stat = osStat e.ino nd.attr)
    (hf : ∀ P, pl p = some P → ∀ lo, e.since = some lo → lo ≤ K.now ∧ (Connected H lo K.now → In (Fresh H (pathStr (P ++ [n])) lo K.now) e.ino s))
    (hl : Young K e) : KInv H (K.enter p n e a) s pl := by
  obtain ⟨nd, hnd, hst⟩ := hst
  have hattr : ∀ {i : Ino} {S : Attrs → Prop}, In S i s → (∀ x, K.attr i = some x → ∃ b, x.stat = osStat i b ∧ S b) → ∀ x, (K.enter p n e a).attr i = some x → ∃ b, x.stat = osStat i b ∧ S b := by
    intro i S h1 h2 x hx
    simp only [Kern.enter] at hx
    by_cases hi : i = e.ino
    · rw [if_pos hi] at hx; cases hx; subst hi; exact ⟨nd.attr, hst, h1.2 nd hnd⟩
    · rw [if_neg hi] at hx; exact h2 x hx
  refine ⟨h.si, h.held, h.orig, h.places, fun q m e' he => ?_, h.opened⟩
  simp only [Kern.enter] at he
  by_cases hq : q = p ∧ m = n
  · rw [if_pos hq] at he; cases he
    obtain ⟨rfl, rfl⟩ := hq
    obtain ⟨P, h1, h2⟩ := h.places.at_ _ _ _ hat
    refine ⟨⟨P, h1, h2, fun lo hlo => ?_⟩, hl⟩
    obtain ⟨g1, g2⟩ := hf P h1 lo hlo
    refine ⟨g1, fun hc => ⟨g2 hc, fun x hx => ?_⟩⟩
    simp only [Kern.enter, if_true] at hx
    cases hx
    exact ⟨nd.attr, hst, (g2 hc).2 nd hnd⟩
  · rw [if_neg hq] at he
    obtain ⟨⟨P, h1, h2, h3⟩, h4⟩ := h.ent q m e' he
    refine ⟨⟨P, h1, h2, fun lo hlo => ?_⟩, h4⟩
    obtain ⟨g1, g2⟩ := h3 lo hlo
    exact ⟨g1, fun hc => ⟨(g2 hc).1, hattr (g2 hc).1 (g2 hc).2⟩⟩

theorem KInv.enterAll {pl : Ino → Option (List Bytes)} {p : Ino} : ∀ {l : List DEnt} {K : Kern}, KInv H K s pl →
    (∀ lo, K.opened p = some lo → K.now - lo ≤ K.late) →
    (∀ x ∈ l, ∃ nd, s.nodes x.stat.ino = some nd ∧ x.stat = osStat x.stat.ino nd.attr) → (∀ x ∈ l, x.name ≠ [0x2e] → x.name ≠ [0x2e, 0x2e] → s.At p x.name x.stat.ino) →
    KInv H (K.enterAll p l) s pl := by
  intro l
  induction l with
  | nil => intro K h _ _ _; exact h
  | cons e l ih =>
    intro K h h0 h1 h2
    unfold Kern.enterAll
    by_cases hn : e.name = [0x2e] ∨ e.name = [0x2e, 0x2e]
    · rw [if_pos hn]
      exact ih h h0 (fun x hx => h1 x (List.mem_cons_of_mem _ hx)) (fun x hx => h2 x (List.mem_cons_of_mem _ hx))
    · rw [if_neg hn]
      have hat := h2 e (List.mem_cons_self ..) (fun hx => hn (.inl hx)) (fun hx => hn (.inr hx))
      refine ih (h.enter hat (h1 e (List.mem_cons_self ..)) (fun P hP lo hlo => ?_) ⟨fun hx => (by cases hx), fun _ lo hlo => ?_⟩) h0 (fun x hx => h1 x (List.mem_cons_of_mem _ hx))
        (fun x hx => h2 x (List.mem_cons_of_mem _ hx))
      · simp only at hlo
        obtain ⟨P', g1, g2, g3⟩ := h.opened p lo hlo
        rw [hP] at g1; cases g1
        refine ⟨g2, fun hc => ?_⟩
        obtain ⟨nd, k1, k2⟩ := hat
        refine ⟨(h.si.ok.bound _ _ k1).2, fun x hx => ?_⟩
        simp only at hx
        rw [k1] at hx; cases hx
        exact g3 hc _ _ _ k1 k2
      · simp only at hlo
        obtain ⟨P', g1, g2, g3⟩ := h.opened p lo hlo
        have := h0 lo hlo
        simp only [listEntryTimeout]; omega

theorem KInv.later {pl : Ino → Option (List Bytes)} (h : KInv H K s pl) (p : Ino) : KInv H { K with late := max K.late (K.now - (K.opened p).getD K.now) } s pl := by
  refine ⟨h.si, h.held, h.orig, h.places, fun q m e' he => ?_, h.opened⟩
  obtain ⟨h1, h2, h3⟩ := h.ent q m e' he
  exact ⟨h1, h2, fun hl lo hlo => by have := h3 hl lo hlo; simp only; omega⟩

theorem KInv.took {pl : Ino → Option (List Bytes)} {t0 : Nat} (h : KInv H K s pl) {rq : Req} {rep : Reply} (hf : Fits s (rq, rep)) (ht : t0 ≤ K.now) (hs : K.now - t0 ≤ K.slow)
    (hlk : ∀ p n st, rq = .lookup p n → rep = .entry st → ∀ P, pl p = some P → Connected H t0 K.now → In (Fresh H (pathStr (P ++ [n])) t0 K.now) st.ino s)
    (hga : ∀ i st, rq = .getattr i → rep = .attr st → st.ino = i)
    (hod : ∀ p, rq = .opendir p → rep = .opened → ∃ P, pl p = some P ∧ (Connected H t0 K.now → Kids (fun n => Fresh H (pathStr (P ++ [n])) t0 K.now) p s)) :
    KInv H (K.took t0 rq rep) s pl := by
  unfold Kern.took
  split
  · rename_i p n st
    refine h.enter (hf.2 _ _ _ ⟨rfl, rfl, rfl⟩) (hf.1 st rfl) (fun P hP lo hlo => ?_) ⟨fun _ => ⟨t0, rfl, ?_⟩, fun hx => (by cases hx)⟩
    · cases hlo; exact ⟨ht, hlk p n st rfl rfl P hP⟩
    · simp only [lookupEntryTimeout]; omega
  · rename_i p n e
    refine ⟨h.si, h.held, h.orig, h.places, fun q m e' he => ?_, h.opened⟩
    simp only at he
    by_cases hq : q = p ∧ m = n
    · rw [if_pos hq] at he; cases he
    · rw [if_neg hq] at he; exact h.ent q m e' he
  · rename_i i st
    refine ⟨h.si, h.held, h.orig, h.places, fun q m e' he => ?_, h.opened⟩
    obtain ⟨⟨P, h1, h2, h3⟩, h4⟩ := h.ent q m e' he
    refine ⟨⟨P, h1, h2, fun lo hlo => ?_⟩, h4⟩
    obtain ⟨g1, g2⟩ := h3 lo hlo
    refine ⟨g1, fun hc => ⟨(g2 hc).1, fun x hx => ?_⟩⟩
    simp only at hx
    by_cases hi : e'.ino = i
    · rw [if_pos hi] at hx; cases hx
      have hsi := hga i st rfl rfl
      obtain ⟨nd, k1, k2⟩ := hf.1 st rfl
      rw [hsi, ← hi] at k1 k2
      exact ⟨nd.attr, k2, (g2 hc).1.2 nd k1⟩
    · rw [if_neg hi] at hx; exact (g2 hc).2 x hx
  · rename_i p size off l k
    refine (h.later p).enterAll (fun lo hlo => ?_) (fun x hx => hf.1 _ ⟨x, hx, rfl⟩) (fun x hx h1 h2 => hf.2 _ _ _ ⟨rfl, h1, h2, x, hx, rfl, rfl⟩)
    simp only at hlo ⊢
    rw [hlo]; exact Nat.le_max_right ..
  · rename_i p
    obtain ⟨P, g1, g2⟩ := hod p rfl rfl
    refine ⟨h.si, h.held, h.orig, h.places, h.ent, fun q lo hlo => ?_⟩
    simp only at hlo
    by_cases hq : q = p
    · rw [if_pos hq] at hlo; cases hlo; subst hq
      exact ⟨P, g1, ht, g2⟩
    · rw [if_neg hq] at hlo; exact h.opened q lo hlo
  · exact h

theorem enterAll_sys {p : Ino} : ∀ {l : List DEnt} {K : Kern}, (K.enterAll p l).sys = K.sys ∧ (K.enterAll p l).now = K.now := by
  intro l
  induction l with
  | nil => intro K; exact ⟨rfl, rfl⟩
  | cons e l ih =>
    intro K
    unfold Kern.enterAll
    split
    · exact ih
    · exact ih

theorem took_sys {t0 : Nat} {rq : Req} {rep : Reply} : (K.took t0 rq rep).sys = K.sys ∧ (K.took t0 rq rep).now = K.now := by
  unfold Kern.took
  split
  case h_4 => exact ⟨enterAll_sys.1, enterAll_sys.2⟩
  all_goals exact ⟨rfl, rfl⟩

theorem timed_live (h : Timed H K) : Live K.sys := by
  induction h with
  | mount ho => exact .mount ho
  | remount _ _ ho ih => exact .remount ih ho
  | wait _ _ ih => exact ih
  | drop _ _ _ ih => exact ih
  | ask _ hv _ _ _ ha ih =>
    rw [took_sys.1]
    exact ha.live ih hv

/-- In every history. -/
theorem timed_inv (h : Timed H K) : ∃ s pl, KInv H K s pl := by
  induction h with
  | @mount uid gid now d r t ho =>
    obtain ⟨s, h1, h2, h3⟩ := root_rep uid gid now
    obtain ⟨s1, s2, h4, h5, h6, -⟩ := open_SI' h1 h2 h3 ho
    have hp : Places s (fun i => if i = ROOT then some [] else none) := by
      refine ⟨if_pos rfl, fun i p n hat => ?_, fun i P hi => ?_⟩
      · obtain ⟨nd, g1, g2⟩ := hat
        have := root_only h1 h2 g1
        subst this
        obtain ⟨x, f1, -, f2⟩ := h2.root
        rw [f1] at g1; cases g1
        rw [f2] at g2; cases g2
      · by_cases hr : i = ROOT
        · subst hr
          obtain ⟨x, f1, -⟩ := h2.root
          exact (h2.bound _ _ f1).2
        · simp only [if_neg hr] at hi; cases hi
    refine ⟨s2, _, h4, fun i => Nat.zero_le _, Orig.collected (Orig.collected ?_ h5) h6, (hp.coll h5).coll h6, (fun _ _ _ h => by cases h), (fun _ _ h => by cases h)⟩
    intro i nd hi hr
    exact absurd (root_only h1 h2 hi) hr
  | @remount K uid gid now d r t _ ht ho ih =>
    obtain ⟨s, pl, h⟩ := ih
    have hi : initDB K.sys.disk uid gid now = K.sys.disk := by
      unfold initDB; rw [h.si.rep.next]
    rw [hi] at ho
    obtain ⟨s1, s2, h4, h5, h6, -⟩ := open_SI' h.si.rep h.si.ok h.si.wf ho
    exact ⟨s2, pl, h4, fun i => Nat.zero_le _, (h.orig.collected h5).collected h6, (h.places.coll h5).coll h6, (fun _ _ _ h => by cases h), (fun _ _ h => by cases h)⟩
  | @wait K t _ ht ih =>
    obtain ⟨s, pl, h⟩ := ih
    exact ⟨s, pl, h.wait ht⟩
  | @drop K ent attr _ h1 h2 ih =>
    obtain ⟨s, pl, h⟩ := ih
    refine ⟨s, pl, h.si, h.held, h.orig, h.places, fun p n e he => ?_, h.opened⟩
    simp only at he
    rcases h1 p n with g | g
    · rw [g] at he; cases he
    · rw [g] at he
      obtain ⟨⟨P, k1, k2, k3⟩, k4⟩ := h.ent p n e he
      refine ⟨⟨P, k1, k2, fun lo hlo => ?_⟩, k4⟩
      obtain ⟨g1, g2⟩ := k3 lo hlo
      refine ⟨g1, fun hc => ⟨(g2 hc).1, fun x hx => ?_⟩⟩
      simp only at hx
      rcases h2 e.ino with f | f
      · rw [f] at hx; cases hx
      · rw [f] at hx; exact (g2 hc).2 x hx
  | @ask K B rq rep y t hK hv hm ht hB ha ih =>
    obtain ⟨s, pl, h⟩ := ih
    obtain ⟨st, a1, a2, a3, rfl⟩ := ha
    have hin := hv.1
    have hon := hv.2.1
    have hnx := (hv.2.2.2.1 _ h.si.rep.next).1
    rcases dispatch_served h.si h.held hv with ⟨s', d', r', rep', g1, g2, g3⟩ | ⟨dir, size, off, e, -, -, g1⟩
    · rw [a1] at g1; cases g1
      cases a3
      have hh : ∀ i, ((K.sys.after rq (done d' r' rep)).held i) ≤ (((K.sys.after rq (done d' r' rep)).refs) i).nrefs := by
        obtain ⟨-, -, k2⟩ := live_inv (.serve (timed_live hK) hv a1 rfl)
        exact k2
      obtain ⟨pl', k1, k2⟩ := h.served hv hm ht hB g3 (y := K.sys.after rq (done d' r' rep)) g2 hh
      refine ⟨s', pl', k1.took (abs_shown g3 h.si hin hon hnx) ht (Nat.le_max_right ..) ?_ ?_ ?_⟩
      · intro p n st e1 e2 P hP hc
        subst e1 e2
        simp only at hc
        cases g3 with
        | @lkPut _ _ cs sr i _ _ h1 h2 h3 =>
          obtain ⟨nd, hnd⟩ := conn_exists h.si.ok ⟨cs, h1⟩
          obtain ⟨f1, f2, x, f3, f4⟩ := h3.found h.si.ok h1 (isDir_of h.si hin hon hnd) hnx
          have := k2 _ _ (h.places.path h1)
          rw [hP] at this; cases this
          refine ⟨(g2.ok.bound _ _ f3).2, fun nd' hn' => ?_⟩
          have hn' : s'.nodes i = some nd' := hn'
          rw [f3] at hn'; cases hn'
          rw [f4]
          exact hB.fresh (Nat.le_refl _) h2
        | lkHit h1 h2 h3 h4 =>
          obtain ⟨t', f1, f2, f3⟩ := hB.lstat 0 (pathStr (_ ++ [n]))
          rw [h2] at f3
          exact absurd f3.symm ((hc t' f1 f2).1 _ _)
      · intro i st e1 e2
        subst e1 e2
        cases g3; rfl
      · intro p e1 e2
        subst e1 e2
        cases g3 with
        | odOff h1 h2 =>
          refine ⟨_, k2 _ _ (h.places.path h1), fun hc => ?_⟩
          obtain ⟨t', f1, f2, f3⟩ := hB.opendir _
          rw [h2] at f3
          exact absurd f3.symm ((hc t' f1 f2).2 _)
        | @odSync _ cs names e _ _ h1 h2 h3 =>
          refine ⟨_, k2 _ _ (h.places.path h1), fun hc j n nd hj hl => ?_⟩
          obtain ⟨f1, sr, f2, f3⟩ := (SyncTo.entries h3 ⟨cs, h1⟩).1 n j nd hj hl
          rw [f3]
          obtain ⟨c, -, hl, -⟩ := f2
          rw [entryPath_eq (h.orig.named h.si.ok h1)] at hl
          exact hB.fresh (Nat.le_refl _) hl
    · rw [a1] at g1; cases g1; cases a2

/-! ### C104 -/

theorem walks_place {pl : Ino → Option (List Bytes)} (h : KInv H K s pl) {p i : Ino} {cs : List Bytes} (hw : K.Walks p cs i) : ∀ {P}, pl p = some P → pl i = some (P ++ cs) := by
  induction hw with
  | here => intro P hP; simpa using hP
  | @down p n e cs i he _ _ ih =>
    intro P hP
    obtain ⟨⟨P', h1, h2, -⟩, -⟩ := h.ent p n e he
    rw [hP] at h1; cases h1
    have := ih h2
    simpa using this

/-- What `stat` shows was reported by the host since the lookup was sent, or, for an entry from a listing, since the directory was last
opened. -/
theorem C104_since {cs : List Bytes} {n : Bytes} {e : KEntry} {x : OsStat} {lo : Nat} (h : Timed H K) (hx : K.Stat cs n e x) (hlo : e.since = some lo) (hc : Connected H lo K.now) :
    From (Reported H lo K.now) (ReadAs H lo K.now) (pathStr (cs ++ [n])) x := by
  obtain ⟨s, pl, hI⟩ := timed_inv h
  obtain ⟨p, a, h1, h2, -, h3, -, rfl⟩ := hx
  obtain ⟨⟨P, g1, g2, g3⟩, -⟩ := hI.ent p n e h2
  have := walks_place hI h1 hI.places.root
  rw [g1] at this; cases this
  obtain ⟨b, f1, f2⟩ := ((g3 lo hlo).2 hc).2 a h3
  rw [f1]
  exact f2.from_

/-- An entry from a lookup is at most as old as it should be. -/
theorem C104_lookup_partial {cs : List Bytes} {n : Bytes} {e : KEntry} {x : OsStat} (h : Timed H K) (hx : K.Stat cs n e x) (he : e.how = .lookup)
    (hc : Connected H (K.now - (1000 + K.slow)) K.now) :
    From (Reported H (K.now - (1000 + K.slow)) K.now) (ReadAs H (K.now - (1000 + K.slow)) K.now) (pathStr (cs ++ [n])) x := by
  obtain ⟨s, pl, hI⟩ := timed_inv h
  obtain ⟨p, a, h1, h2, h2', h3, h4, h5⟩ := id hx
  obtain ⟨-, g⟩ := hI.ent p n e h2
  obtain ⟨lo, g1, g2⟩ := g.1 he
  have hlo : K.now - (1000 + K.slow) ≤ lo := by omega
  obtain ⟨sr, ⟨t, c, k1, k2, k3⟩, k4⟩ := C104_since h hx g1 (hc.mono hlo (Nat.le_refl _))
  refine ⟨sr, ⟨t, c, by omega, k2, k3⟩, ?_⟩
  rcases k4 with k4 | ⟨k4, l, ⟨t', k5, k6, k7⟩, k8⟩
  · exact .inl k4
  · exact .inr ⟨k4, l, ⟨t', by omega, k6, k7⟩, k8⟩

/-- An entry from a listing is at most as old as it should be, and the time between opening the directory and listing it. -/
theorem C104_listing_partial {cs : List Bytes} {n : Bytes} {e : KEntry} {x : OsStat} (h : Timed H K) (hx : K.Stat cs n e x) (he : e.how = .listing) (ho : e.since ≠ none)
    (hc : Connected H (K.now - (1000 + K.late)) K.now) :
    From (Reported H (K.now - (1000 + K.late)) K.now) (ReadAs H (K.now - (1000 + K.late)) K.now) (pathStr (cs ++ [n])) x := by
  obtain ⟨s, pl, hI⟩ := timed_inv h
  obtain ⟨p, a, h1, h2, h2', h3, h4, h5⟩ := id hx
  obtain ⟨-, g⟩ := hI.ent p n e h2
  cases g1 : e.since with
  | none => exact absurd g1 ho
  | some lo =>
    have g2 := g.2 he lo g1
    have hlo : K.now - (1000 + K.late) ≤ lo := by omega
    obtain ⟨sr, ⟨t, c, k1, k2, k3⟩, k4⟩ := C104_since h hx g1 (hc.mono hlo (Nat.le_refl _))
    refine ⟨sr, ⟨t, c, by omega, k2, k3⟩, ?_⟩
    rcases k4 with k4 | ⟨k4, l, ⟨t', k5, k6, k7⟩, k8⟩
    · exact .inl k4
    · exact .inr ⟨k4, l, ⟨t', by omega, k6, k7⟩, k8⟩

/-! ### Concrete histories -/

/-- Time passes until `t`; a request is served at once. -/
inductive TEv where
  | upto (t : Nat)
  | ask (rq : Req)

def Req.namedB : Req → Bool
  | .lookup _ n => !n.isEmpty
  | _ => true

theorem Req.namedB_iff {rq : Req} (h : rq.namedB = true) : rq.named := by
  cases rq <;> simp_all [Req.namedB, Req.named]

def Tbl.namesB (t : Tbl) : Bool := t.dirs.all (fun x => match x.2 with | .ok (l, _) => l.all (fun n => !n.isEmpty) | .error _ => true)

theorem Tbl.namesB_iff {t : Tbl} (h : t.namesB = true) : ∀ p names e, t.backend.opendir p = .ok (names, e) → [] ∉ names := by
  intro p names e hp hm
  unfold Tbl.backend at hp
  simp only at hp
  cases hl : t.dirs.lookup p with
  | none => rw [hl] at hp; cases hp
  | some x =>
    rw [hl] at hp
    simp only [Option.getD_some] at hp
    subst hp
    have := List.all_eq_true.mp h _ (lookup_mem hl)
    simp only [List.all_eq_true] at this
    have := this _ hm
    simp at this

/-- Runs a history, with the host `T`, provided that all requests are valid and answered. -/
def runT (T : Nat → Tbl) (K : Kern) (cap : Nat) : List TEv → Option Kern
  | [] => some K
  | .upto t :: l => if K.now ≤ t then runT T { K with now := t } cap l else none
  | .ask rq :: l =>
    if validB K.sys cap (T K.now) rq && rq.namedB && (T K.now).namesB then
      match dispatch (T K.now).backend K.sys.disk K.sys.refs rq with
      | .ok st =>
        match st.sent, st.fault with
        | [rep], none => runT T ({ K with sys := K.sys.after rq st, now := K.now, slow := max K.slow (K.now - K.now) }.took K.now rq rep) (cap + K.sys.disk.treei.size + 2) l
        | _, _ => none
      | .error _ => none
    else none

theorem runT_timed {T : Nat → Tbl} : ∀ {l : List TEv} {K K' : Kern} {cap : Nat}, Timed (fun t => (T t).backend) K → (∀ i, (K.sys.refs i).nrefs ≤ cap) →
    runT T K cap l = some K' → Timed (fun t => (T t).backend) K' := by
  intro l
  induction l with
  | nil => intro K K' cap h _ hr; cases hr; exact h
  | cons a l ih =>
    intro K K' cap h hc hr
    cases a with
    | upto t =>
      simp only [runT] at hr
      by_cases ht : K.now ≤ t
      · rw [if_pos ht] at hr
        exact ih (.wait h ht) hc hr
      · rw [if_neg ht] at hr; cases hr
    | ask rq =>
      simp only [runT] at hr
      by_cases hb : (validB K.sys cap (T K.now) rq && rq.namedB && (T K.now).namesB) = true
      · rw [if_pos hb] at hr
        simp only [Bool.and_eq_true] at hb
        have hv := validB_iff hc hb.1.1
        cases hd : dispatch (T K.now).backend K.sys.disk K.sys.refs rq with
        | error e => rw [hd] at hr; cases hr
        | ok st =>
          rw [hd] at hr
          simp only at hr
          cases hs : st.sent with
          | nil => rw [hs] at hr; cases hr
          | cons rep rest =>
            cases rest with
            | cons x y => rw [hs] at hr; cases hr
            | nil =>
              cases hf : st.fault with
              | some x => rw [hs, hf] at hr; cases hr
              | none =>
                rw [hs, hf] at hr
                simp only at hr
                refine ih (.ask (t := K.now) h hv (Req.namedB_iff hb.1.2) (Nat.le_refl _) ?_ ⟨st, hd, hf, hs, rfl⟩) (fun i => ?_) hr
                · exact ⟨fun c p => ⟨_, Nat.le_refl _, Nat.le_refl _, rfl⟩, fun p => ⟨_, Nat.le_refl _, Nat.le_refl _, rfl⟩,
                    fun p => ⟨_, Nat.le_refl _, Nat.le_refl _, rfl⟩, Tbl.namesB_iff hb.2⟩
                · rw [took_sys.1]
                  obtain ⟨s, h1, h2⟩ := live_inv (timed_live h)
                  rcases dispatch_served h1 h2 hv with ⟨s', d', r', rep', g1, g2, g3⟩ | ⟨dir, size, off, e, -, -, g1⟩
                  · rw [g1] at hd; cases hd
                    have := abs_counts_le g3 i
                    have := hc i
                    show (r' i).nrefs ≤ _
                    omega
                  · rw [g1] at hd; cases hd; cases hf
      · rw [if_neg hb] at hr; cases hr

/-- A history from a new cache. -/
def startT (T : Nat → Tbl) (l : List TEv) : Option Kern :=
  match openCleanDB (initDB emptyDB 0 0 ⟨0, 0⟩) Refs.empty with
  | .ok (d, r) => runT T (.fresh ⟨d, r, fun _ => 0⟩ 0) 0 l
  | .error _ => none

theorem startT_timed {T : Nat → Tbl} {l : List TEv} {K : Kern} (h : startT T l = some K) : Timed (fun t => (T t).backend) K := by
  unfold startT at h
  cases ho : openCleanDB (initDB emptyDB 0 0 ⟨0, 0⟩) Refs.empty with
  | error e => rw [ho] at h; cases h
  | ok x =>
    obtain ⟨d, r⟩ := x
    rw [ho] at h
    refine runT_timed (.mount ho) (fun i => ?_) h
    obtain ⟨s, h1, h2, h3⟩ := root_rep 0 0 ⟨0, 0⟩
    have h0 : SI s (initDB emptyDB 0 0 ⟨0, 0⟩) Refs.empty := ⟨h1, h2, h3, fun i hi => (by cases hi), fun i hi => absurd hi (by simp [Refs.empty]), Refs.empty_ok⟩
    exact Nat.le_of_eq (open_counts h0 ho i)

/-- A host with a file `/a` of some size, in a directory. -/
def oneFile (size : Nat) : Tbl where
  stats := [([0x2f, 0x61], .ok (bFile size))]
  dirs := [([0x2f], .ok ([[0x61]], 0))]

/-- The file has size 5 at first, and size 9 afterwards. -/
def grows (t : Nat) : Tbl := if t = 0 then oneFile 5 else oneFile 9

theorem grows_connected (lo hi : Nat) : Connected (fun t => (grows t).backend) lo hi := by
  have aux : ∀ n, (∀ c p, ((oneFile n).backend).lstat c p ≠ .error ENOTCONN) ∧ ∀ p, ((oneFile n).backend).opendir p ≠ .error ENOTCONN := by
    intro n
    refine ⟨fun c p => ?_, fun p => ?_⟩
    · show ([(([0x2f, 0x61] : Bytes), (Except.ok (bFile n) : Res BStat))].lookup p).getD (.error ENOENT) ≠ .error ENOTCONN
      by_cases hp : p = [0x2f, 0x61]
      · subst hp; simp
      · rw [List.lookup_cons]
        have : (p == [0x2f, 0x61]) = false := by simpa using hp
        rw [this]; simp [ENOENT, ENOTCONN]
    · show ([(([0x2f] : Bytes), (Except.ok ([[0x61]], 0) : Res (List Bytes × Errno)))].lookup p).getD (.error ENOENT) ≠ .error ENOTCONN
      by_cases hp : p = [0x2f]
      · subst hp; simp
      · rw [List.lookup_cons]
        have : (p == [0x2f]) = false := by simpa using hp
        rw [this]; simp [ENOENT, ENOTCONN]
  intro t _ _
  simp only [grows]
  split
  · exact aux 5
  · exact aux 9

/-- Decides `Stat` for an entry of the root directory, with a given size and age. -/
def showsB (K : Kern) (n : Bytes) (size now slow : Nat) (how : How) (since : Option Nat) : Bool :=
  match K.ent ROOT n with
  | some e => decide (K.now ≤ e.until_) && decide (e.how = how) && decide (e.since = since) && decide (K.now = now) && decide (K.slow = slow) &&
      match K.attr e.ino with
      | some a => decide (K.now ≤ a.until_) && decide (a.stat.size = size) && decide (fmt a.stat.mode ≠ S_IFLNK)
      | none => false
  | none => false

theorem showsB_iff {n : Bytes} {size now slow : Nat} {how : How} {since : Option Nat} (h : showsB K n size now slow how since = true) :
    ∃ e x, K.Stat [] n e x ∧ e.how = how ∧ e.since = since ∧ K.now = now ∧ K.slow = slow ∧ x.size = size ∧ fmt x.mode ≠ S_IFLNK := by
  unfold showsB at h
  cases he : K.ent ROOT n with
  | none => rw [he] at h; cases h
  | some e =>
    rw [he] at h
    simp only [Bool.and_eq_true, decide_eq_true_eq] at h
    obtain ⟨⟨⟨⟨⟨h1, h2⟩, h3⟩, h4⟩, h4'⟩, h5⟩ := h
    cases ha : K.attr e.ino with
    | none => rw [ha] at h5; cases h5
    | some a =>
      rw [ha] at h5
      simp only [Bool.and_eq_true, decide_eq_true_eq] at h5
      exact ⟨e, a.stat, ⟨ROOT, a, .here, he, h1, ha, h5.1.1, rfl⟩, h2, h3, h4, h4', h5.1.2, h5.2⟩

theorem startT_ex {T : Nat → Tbl} {l : List TEv} {n : Bytes} {size now slow : Nat} {how : How} {since : Option Nat}
    (h : (match startT T l with | some K => showsB K n size now slow how since | none => false) = true) :
    ∃ K e x, Timed (fun t => (T t).backend) K ∧ K.Stat [] n e x ∧ e.how = how ∧ e.since = since ∧ K.now = now ∧ K.slow = slow ∧ x.size = size ∧ fmt x.mode ≠ S_IFLNK := by
  cases hs : startT T l with
  | none => rw [hs] at h; cases h
  | some K =>
    rw [hs] at h
    obtain ⟨e, x, h1⟩ := showsB_iff h
    exact ⟨K, e, x, startT_timed hs, h1⟩

/-- The directory is opened at time 0, when the file has size 5, and read 5 seconds later: the kernel shows size 5, although the file has had size 9 for all of the
time but the first millisecond. -/
theorem C104_counterexample : ¬ C104_full := by
  intro hf
  obtain ⟨K, e, x, h1, h2, -, -, h3, h4, h5, h6⟩ := startT_ex (T := grows) (l := [.ask (.opendir 1), .upto 5000, .ask (.readdirplus 1 500 0)]) (n := [0x61]) (size := 5)
    (now := 5000) (slow := 0) (how := .listing) (since := some 0) (by decide +kernel)
  obtain ⟨sr, ⟨t, c, k1, k2, k3⟩, k4⟩ := hf _ K _ _ e x h1 h2 (grows_connected _ _)
  rw [h3, h4] at k1
  have ht : grows t = oneFile 9 := if_neg (by omega)
  have k3 : (grows t).backend.lstat c (pathStr ([] ++ [[0x61]])) = .ok sr := k3
  rw [ht] at k3
  have : (oneFile 9).backend.lstat c (pathStr ([] ++ [[0x61]])) = .ok (bFile 9) := rfl
  rw [this] at k3
  have k3 := Except.ok.inj k3
  subst k3
  rcases k4 with k4 | ⟨k4, -⟩
  · have := k4.size; rw [h5] at this; exact absurd this (by decide)
  · exact absurd k4 (by decide)

/-- Non-vacuity of `C104_lookup_partial`: 700 ms after a lookup, the kernel still shows what the host reported then. -/
example : ∃ K e x, Timed (fun t => (grows t).backend) K ∧ K.Stat [] [0x61] e x ∧ e.how = .lookup ∧ Connected (fun t => (grows t).backend) (K.now - (1000 + K.slow)) K.now ∧ x.size = 5 := by
  obtain ⟨K, e, x, h1, h2, h3, -, -, -, h5, -⟩ := startT_ex (T := grows) (l := [.ask (.lookup 1 [0x61]), .upto 700]) (n := [0x61]) (size := 5)
    (now := 700) (slow := 0) (how := .lookup) (since := some 0) (by decide +kernel)
  exact ⟨K, e, x, h1, h2, h3, grows_connected _ _, h5⟩

/-- Non-vacuity of `C104_since` and `C104_listing_partial`: an entry of a listing. -/
example : ∃ K e x, Timed (fun t => (grows t).backend) K ∧ K.Stat [] [0x61] e x ∧ e.how = .listing ∧ e.since = some 2000 ∧ (∀ lo, Connected (fun t => (grows t).backend) lo K.now) ∧ x.size = 9 := by
  obtain ⟨K, e, x, h1, h2, h2', h3, -, -, h5, -⟩ := startT_ex (T := grows) (l := [.ask (.opendir 1), .upto 2000, .ask (.opendir 1), .upto 4000, .ask (.readdirplus 1 500 0), .upto 4800])
    (n := [0x61]) (size := 9) (now := 4800) (slow := 0) (how := .listing) (since := some 2000) (by decide +kernel)
  exact ⟨K, e, x, h1, h2, h2', h3, fun lo => grows_connected _ _, h5⟩

end Dragonstash.FS
