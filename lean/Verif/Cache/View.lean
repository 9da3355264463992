/-
  Views of a world, and how single operations change them. Used by the property files.
-/
import Verif.Cache.Inv
namespace Dragonstash.Cache
open Codec
variable {s s' : Tree}

/-- The databases as seen by the innermost open transaction, or by a new one. -/
def World.db (w : World) : DB := match w.stack with | [] => w.disk | f :: _ => f.db

/-- Databases which some transaction of a running process sees, or a new one would see. -/
def View (w : World) (d : DB) : Prop := (w.phase = .up ∧ d = w.disk) ∨ ∃ f ∈ w.stack, d = f.db

theorem Inv.view {G : DB → Prop} {w : World} (h : Inv G w) {d : DB} (hv : View w d) : G d := by
  rcases hv with ⟨h1, rfl⟩ | ⟨f, h1, rfl⟩
  · rcases h.disk with ⟨-, h2⟩ | h2
    · rw [h1] at h2; cases h2
    · exact h2
  · exact (h.frames f h1).1

theorem View.db {w : World} (h : w.phase = .up ∨ w.stack ≠ []) : View w w.db := by
  unfold World.db
  cases hs : w.stack with
  | nil => exact .inl ⟨h.resolve_right (fun hn => hn hs), rfl⟩
  | cons f r => exact .inr ⟨f, by rw [hs]; simp, rfl⟩

theorem Reach.up_of_stack {w : World} (h : Reach w) {f r} (hs : w.stack = f :: r) : w.phase = .up :=
  Classical.byContradiction fun hp => by have := (h.inv.down hp).1; rw [hs] at this; cases this

/-- What an operation call does to a world. -/
structure OpStep (w : World) (o : Op) (w' : World) (out : Out) (s : Tree) (t t' : Txn) : Prop where
  trep : TRep s t
  rwok : RewriteOK t.rewrite
  db : t.db = w.db
  refs : t.refs = w.refs
  call : doOp t o = .ok (t', out)
  db' : w'.db = t'.db
  refs' : w'.refs = t'.refs
  disk' : w'.disk = w.disk
  marked : ∀ {l j}, t.rewrite = some l → j ∈ l → ∃ f r l, w.stack = f :: r ∧ f.rewrite = some l ∧ j ∈ l
  range : o.inRange
  emp : ∀ p n a, o = .emplace p n a → p ≠ 0 ∧ s.next + 1 < W64
  lock : ∀ i, o = .lock i → (t.refs i).nrefs + 1 < W64

theorem Inv.op {w w' : World} {o : Op} {out : Out} (h : Inv Good w) (ha : Allowed w (.op o))
    (hs : w.step (.op o) = .ok (w', out)) : ∃ s t t', OpStep w o w' out s t t' := by
  simp only [World.step] at hs
  split at hs
  · cases hs
  · rename_i f r hst
    split at hs
    · cases hs
    · cases hd : doOp (f.txn w.refs) o with
      | error e => rw [hd] at hs; cases hs
      | ok v =>
        obtain ⟨t, out'⟩ := v
        rw [hd] at hs; cases hs
        obtain ⟨⟨s, h1, h2⟩, h3⟩ := h.frames f (by rw [hst]; simp)
        have ha2 := ha.2 f r hst
        refine ⟨s, f.txn w.refs, t, ⟨h1, h2⟩, h3, ?_, rfl, hd, rfl, rfl, rfl, ?_, ha.1, ?_, ?_⟩
        · simp [World.db, hst, Frame.txn]
        · intro l j g1 g2; exact ⟨f, r, l, hst, g1, g2⟩
        · rintro p n a rfl
          simp only at ha2
          exact ⟨ha2.1, ha2.2 _ h1.next⟩
        · rintro i rfl
          simp only at ha2
          exact ha2

theorem Reach.op {w w' : World} {o : Op} {out : Out} (h : Reach w) (ha : Allowed w (.op o))
    (hs : w.step (.op o) = .ok (w', out)) : ∃ s t t', OpStep w o w' out s t t' := h.inv.op ha hs

/-! Entries under the effects. -/

theorem At.unique (ok : s.OK) {p n i j} (h : s.At p n i) (h' : s.At p n j) : i = j := by
  obtain ⟨a, h1, h2⟩ := h; obtain ⟨b, h3, h4⟩ := h'
  exact ok.uniq i j a b _ h1 h3 h2 h4

theorem at_set {i nd nd' p n j} (hi : s.nodes i = some nd) (hl : nd'.loc = nd.loc) :
    (s.set i nd').At p n j ↔ s.At p n j := by
  unfold Tree.At
  by_cases hj : j = i
  · subst hj; rw [Tree.set_self, hi]; simp [hl]
  · rw [Tree.set_ne hj]

theorem at_orphan {i p n j} : (s.orphan i).At p n j ↔ s.At p n j ∧ j ≠ i := by
  unfold Tree.At
  by_cases hj : j = i
  · subst hj
    cases hn : s.nodes j with
    | none => simp [Tree.orphan, hn]
    | some nd => rw [Tree.orphan_self hn]; simp
  · rw [Tree.orphan_ne hj]; simp [hj]

theorem at_add (ok : s.OK) {q m a p n j} : (s.add q m a).At p n j ↔ s.At p n j ∨ (p = q ∧ n = m ∧ j = s.next) := by
  unfold Tree.At
  by_cases hj : j = s.next
  · subst hj; rw [Tree.add_self, OK.fresh ok]
    constructor
    · rintro ⟨x, h1, h2⟩; cases h1; cases h2; exact .inr ⟨rfl, rfl, rfl⟩
    · rintro (⟨x, h1, -⟩ | ⟨rfl, rfl, -⟩)
      · cases h1
      · exact ⟨_, rfl, rfl⟩
  · rw [Tree.add_ne hj]; simp [hj]

theorem at_collected {L : Ino → Prop} (h : Collected s L s') {p n j} :
    s'.At p n j ↔ s.At p n j ∧ ¬ (Gone s L p ∧ s.IsDir p) := by
  constructor
  · rintro ⟨nd', h1, h2⟩
    obtain ⟨hg, nd, h3, -, -, -, h7⟩ := h.back h1
    rcases h7 with h7 | h7
    · rw [h7] at h2
      refine ⟨⟨nd, h3, h2⟩, ?_⟩
      rintro ⟨h8, h9⟩
      by_cases hL : L j
      · have := h.cut j nd p n h3 h2 h8 h9 hL
        rw [h1] at this; cases this; rw [h2] at h7; cases h7
      · exact hg (.child h3 h2 h8 h9 hL)
    · rw [h2] at h7; cases h7
  · rintro ⟨⟨nd, h1, h2⟩, h3⟩
    have hg : ¬ Gone s L j := by
      intro hg
      cases hg with
      | orphan g1 _ g3 => rw [h1] at g1; cases g1; rw [h2] at g3; cases g3
      | child g1 g2 g3 g4 => rw [h1] at g1; cases g1; rw [h2] at g2; cases g2; exact h3 ⟨g3, g4⟩
    refine ⟨nd, ?_, h2⟩
    rw [h.keep j hg]
    · exact h1
    · intro x q m g1 g2 g3; rw [h1] at g1; cases g1; rw [h2] at g2; cases g2; exact h3 g3

/-- Inodes which can be reached from the root are not collected. -/
theorem Conn.not_gone (ok : s.OK) {L : Ino → Prop} {i} (h : s.Conn i) : ¬ Gone s L i := by
  obtain ⟨cs, h⟩ := h
  induction h with
  | root => exact fun hg => hg.not_root ok rfl
  | child hat _ ih =>
    obtain ⟨nd, h1, h2⟩ := hat
    intro hg
    cases hg with
    | orphan g1 _ g3 => rw [h1] at g1; cases g1; rw [h2] at g3; cases g3
    | child g1 g2 g3 => rw [h1] at g1; cases g1; rw [h2] at g2; cases g2; exact ih g3

/-- Taking an entry out of a directory does not disconnect the directory. -/
theorem Conn.orphan (ok : s.OK) {p n i} (h : s.Conn p) (hat : s.At p n i) : (s.orphan i).Conn p := by
  have gen : ∀ {q cs}, s.PathTo q cs → (∀ ds, s.PathTo i ds → cs.length < ds.length) → (s.orphan i).PathTo q cs := by
    intro q cs hq
    induction hq with
    | root => intro _; exact .root
    | @child q m j cs hat' hp ih =>
      intro hlen
      refine .child (at_orphan.mpr ⟨hat', ?_⟩) (ih ?_)
      · rintro rfl; exact absurd (hlen _ (.child hat' hp)) (by omega)
      · intro ds hds; have := hlen ds hds; simp at this; omega
  obtain ⟨cs, hp⟩ := h
  refine ⟨cs, gen hp ?_⟩
  intro ds hds
  have := PathTo.unique ok hds (.child hat hp)
  rw [this]; simp

theorem Conn.add (ok : s.OK) {p n a q} (h : s.Conn q) : (s.add p n a).Conn q := by
  obtain ⟨cs, h⟩ := h
  refine ⟨cs, ?_⟩
  induction h with
  | root => exact .root
  | child hat _ ih => exact .child ((at_add ok).mpr (.inl hat)) ih

theorem Rep.path_iff {d : DB} (h : Rep s d) (ok : s.OK) {i b} (hb : i < W64) :
    path d i = .ok (.ok b) → ∃ cs, s.PathTo i cs ∧ b = pathStr cs := by
  intro hp
  unfold path at hp
  by_cases hr : i = ROOT
  · subst hr; rw [if_pos rfl] at hp; cases hp; exact ⟨[], .root, rfl⟩
  · rw [if_neg hr] at hp
    have gen : ∀ f i buf b, i < W64 → i ≠ ROOT → pathLoop d f i buf = .ok (.ok b) → ∃ cs, s.PathTo i cs ∧ b = pathStr cs ++ buf.reverse := by
      intro f
      induction f with
      | zero => intro i buf b _ _ h; cases h
      | succ f ih =>
        intro i buf b hb hr hp
        unfold pathLoop at hp
        rw [h.parent ok hb, if_neg hr] at hp
        cases hi : s.nodes i with
        | none => rw [hi] at hp; cases hp
        | some nd =>
          rw [hi] at hp
          simp only at hp
          cases hl : nd.loc with
          | none =>
            have : nd.par = 0 := by simp [Node.par, hl]
            rw [this] at hp
            simp only [Cache.name2, INVALID, or_true, if_true] at hp
            rw [if_neg (by decide)] at hp
            cases f with
            | zero => cases hp
            | succ f =>
              unfold pathLoop at hp
              rw [h.parent ok (by decide), if_neg (by decide)] at hp
              cases h0 : s.nodes 0 with
              | none => rw [h0] at hp; cases hp
              | some nd0 => have := (ok.bound 0 nd0 h0).1; omega
          | some l =>
            obtain ⟨p, n⟩ := l
            have : nd.par = p := by simp [Node.par, hl]
            rw [this, h.name2 hi hl ok] at hp
            simp only at hp
            by_cases hpr : p = ROOT
            · rw [if_pos hpr] at hp; subst hpr; cases hp
              exact ⟨[] ++ [n], .child ⟨nd, hi, hl⟩ .root, by simp [pathStr]⟩
            · rw [if_neg hpr] at hp
              obtain ⟨cs, h1, h2⟩ := ih p _ b (ok.loc i nd p n hi hl).2.1 hpr hp
              exact ⟨cs ++ [n], .child ⟨nd, hi, hl⟩ h1, by rw [h2, pathStr_snoc]; simp⟩
    obtain ⟨cs, h1, h2⟩ := gen _ i [] b hb hr hp
    exact ⟨cs, h1, by simpa using h2⟩

/-- `getattr` succeeds exactly on existing inodes. -/
theorem Rep.exists_iff {d : DB} (h : Rep s d) (ok : s.OK) {i} (hb : i < W64) :
    (∃ x, Cache.getattr d i = .ok x) ↔ ∃ nd, s.nodes i = some nd := by
  rw [h.getattr ok hb]
  cases s.nodes i <;> simp

end Dragonstash.Cache
