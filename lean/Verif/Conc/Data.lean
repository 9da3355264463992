/-
  How committed states, snapshots and uncommitted states of concurrent transactions are related.
-/
import Verif.Conc.Model
import Verif.Cache.Steps
namespace Dragonstash.Conc
open Cache Codec

/-- The databases have inode `i`, and it is of kind `F` (the format bits of its mode). -/
def Has (d : DB) (i : Ino) (F : Nat) : Prop := ∃ a, getattr d i = .ok (i, a) ∧ fmt a.mode = F

/-- The databases do not have inode `i`. -/
def Missing (d : DB) (i : Ino) : Prop := getattr d i = .error ENOENT

/-- `d'` is a later state than `d`: inode numbers are not given out again, inodes keep their kind, and
inodes which do not exist any more are doomed. -/
structure Later (r : Refs) (d d' : DB) : Prop where
  next : ∀ n n', d.next = some n → d'.next = some n' → n ≤ n'
  keep : ∀ i F, i < W64 → Has d i F → Has d' i F ∨ (Missing d' i ∧ (r i).doomed = true)
  dead : ∀ i n, i < W64 → d.next = some n → i < n → Missing d i → Missing d' i

theorem Missing.not_has {d : DB} {i F} (h : Missing d i) : ¬ Has d i F := by
  rintro ⟨a, h1, -⟩; rw [h] at h1; cases h1

theorem Later.refl {r : Refs} {d : DB} : Later r d d :=
  ⟨fun n n' h h' => by rw [h] at h'; cases h'; exact Nat.le_refl _, fun _ _ _ h => .inl h, fun _ _ _ _ _ h => h⟩

theorem Later.mono {r r' : Refs} {d d' : DB} (h : Later r d d') (hm : ∀ i, (r i).doomed = true → (r' i).doomed = true) : Later r' d d' :=
  ⟨h.next, fun i F hb hh => (h.keep i F hb hh).imp_right fun ⟨a, b⟩ => ⟨a, hm i b⟩, h.dead⟩

theorem Good.has_lt {d : DB} (h : Good d) {i F n} (hb : i < W64) (hi : Has d i F) (hn : d.next = some n) : i < n := by
  obtain ⟨s, h1, ok⟩ := h
  obtain ⟨a, h2, -⟩ := hi
  rw [h1.getattr ok hb] at h2
  rw [h1.next] at hn; cases hn
  cases hs : s.nodes i with
  | none => rw [hs] at h2; cases h2
  | some nd => exact (ok.bound i nd hs).2

theorem Later.trans {r : Refs} {d d' d'' : DB} (g : Good d) (g' : Good d') (h : Later r d d') (h' : Later r d' d'') : Later r d d'' := by
  obtain ⟨n, hn⟩ := Good.next g
  obtain ⟨n', hn'⟩ := Good.next g'
  have hle := h.next n n' hn hn'
  refine ⟨?_, ?_, ?_⟩
  · intro m m'' hm hm''
    rw [hn] at hm; cases hm
    exact Nat.le_trans hle (h'.next n' m'' hn' hm'')
  · intro i F hb hi
    rcases h.keep i F hb hi with h1 | ⟨h1, h2⟩
    · exact h'.keep i F hb h1
    · exact .inr ⟨h'.dead i n' hb hn' (Nat.lt_of_lt_of_le (Good.has_lt g hb hi hn) hle) h1, h2⟩
  · intro i m hb hm hlt hi
    rw [hn] at hm; cases hm
    exact h'.dead i n' hb hn' (Nat.lt_of_lt_of_le hlt hle) (h.dead i n hb hn hlt hi)

/-- `Later` for the abstract states. -/
structure TLater (r : Refs) (s s' : Tree) : Prop where
  next : s.next ≤ s'.next
  keep : ∀ i nd, s.nodes i = some nd → (∃ nd', s'.nodes i = some nd' ∧ fmt nd'.attr.mode = fmt nd.attr.mode) ∨ (s'.nodes i = none ∧ (r i).doomed = true)
  dead : ∀ i, i < s.next → s.nodes i = none → s'.nodes i = none

theorem TLater.of_eff {s s' : Tree} {r r' : Refs} (h : Eff s r s' r') (ok : s.OK) : TLater r' s s' := by
  induction h with
  | refl => exact ⟨Nat.le_refl _, fun i nd h => .inl ⟨nd, h, rfl⟩, fun _ _ h => h⟩
  | @set s r j x x' h1 h2 h3 h4 =>
    refine ⟨Nat.le_refl _, fun i nd hi => .inl ?_, fun i _ hi => ?_⟩
    · by_cases hj : i = j
      · subst hj; rw [h1] at hi; cases hi; exact ⟨x', Tree.set_self, h3⟩
      · exact ⟨nd, by rw [Tree.set_ne hj]; exact hi, rfl⟩
    · by_cases hj : i = j
      · subst hj; rw [h1] at hi; cases hi
      · rw [Tree.set_ne hj]; exact hi
  | @orphan s r j =>
    refine ⟨Nat.le_refl _, fun i nd hi => .inl ?_, fun i _ hi => ?_⟩
    · by_cases hj : i = j
      · subst hj; exact ⟨_, Tree.orphan_self hi, rfl⟩
      · exact ⟨nd, by rw [Tree.orphan_ne hj]; exact hi, rfl⟩
    · by_cases hj : i = j
      · subst hj; simp [Tree.orphan, hi]
      · rw [Tree.orphan_ne hj]; exact hi
  | add =>
    refine ⟨Nat.le_succ _, fun i nd hi => .inl ⟨nd, by rw [Tree.add_ne (OK.ne_next ok hi)]; exact hi, rfl⟩, fun i hlt hi => ?_⟩
    rw [Tree.add_ne (by omega)]; exact hi
  | collect _ h hd =>
    refine ⟨Nat.le_of_eq h.next.symm, fun i nd hi => ?_, fun i _ hi => ?_⟩
    · rcases h.cases i with ⟨h1, h2⟩ | ⟨-, h1⟩ | ⟨-, -, nd1, p, n, h1, -, -, -, h2⟩
      · exact .inr ⟨h2, (hd i).2.mpr (.inr h1)⟩
      · exact .inl ⟨nd, by rw [h1]; exact hi, rfl⟩
      · rw [hi] at h1; cases h1; exact .inl ⟨_, h2, rfl⟩
    · rcases h.cases i with ⟨-, h2⟩ | ⟨-, h1⟩ | ⟨-, -, nd1, p, n, h1, -, -, -, h2⟩
      · exact h2
      · rw [h1]; exact hi
      · rw [hi] at h1; cases h1
  | trans e1 e2 ih1 ih2 =>
    have i1 := ih1 ok
    have i2 := ih2 (e1.ok ok)
    refine ⟨Nat.le_trans i1.next i2.next, fun i nd hi => ?_, fun i hlt hi => i2.dead i (Nat.lt_of_lt_of_le hlt i1.next) (i1.dead i hlt hi)⟩
    rcases i1.keep i nd hi with ⟨nd', h1, h2⟩ | ⟨h1, h2⟩
    · rcases i2.keep i nd' h1 with ⟨nd'', h3, h4⟩ | h3
      · exact .inl ⟨nd'', h3, h4.trans h2⟩
      · exact .inr h3
    · exact .inr ⟨i2.dead i (Nat.lt_of_lt_of_le (ok.bound i nd hi).2 i1.next) h1, e2.doomed i h2⟩

theorem TLater.db {r : Refs} {s s' : Tree} {d d' : DB} (h : TLater r s s') (h1 : Rep s d) (ok : s.OK) (h1' : Rep s' d') (ok' : s'.OK) : Later r d d' := by
  refine ⟨?_, ?_, ?_⟩
  · intro n n' hn hn'
    rw [h1.next] at hn; cases hn
    rw [h1'.next] at hn'; cases hn'
    exact h.next
  · rintro i F hb ⟨a, ha, rfl⟩
    rw [h1.getattr ok hb] at ha
    cases hs : s.nodes i with
    | none => rw [hs] at ha; cases ha
    | some nd =>
      rw [hs] at ha; cases ha
      rcases h.keep i nd hs with ⟨nd', h2, h3⟩ | ⟨h2, h3⟩
      · exact .inl ⟨nd'.attr, by rw [h1'.getattr ok' hb, h2], h3⟩
      · exact .inr ⟨by unfold Missing; rw [h1'.getattr ok' hb, h2], h3⟩
  · intro i n hb hn hlt hm
    rw [h1.next] at hn; cases hn
    unfold Missing at hm ⊢
    rw [h1.getattr ok hb] at hm
    rw [h1'.getattr ok' hb]
    cases hs : s.nodes i with
    | none => rw [h.dead i hlt hs]
    | some nd => rw [hs] at hm; cases hm

/-- What one operation does to the databases and the reference table. -/
theorem doOp_later {t t' : Txn} {o : Op} {out : Out} (g : Good t.db) (hr : o.inRange) (hrw : RewriteOK t.rewrite)
    (ha : ∀ p n a, o = .emplace p n a → p ≠ 0 ∧ ∀ n, t.db.next = some n → n + 1 < W64)
    (he : doOp t o = .ok (t', out)) (rok : RefsOK t.refs) :
    Good t'.db ∧ RewriteOK t'.rewrite ∧ Later t'.refs t.db t'.db ∧ RefsOK t'.refs ∧
      ∀ i, (t.refs i).doomed = true → (t'.refs i).doomed = true := by
  obtain ⟨s, h1, ok⟩ := g
  have ha' : ∀ p n a, o = .emplace p n a → p ≠ 0 ∧ s.next + 1 < W64 := fun p n a h => ⟨(ha p n a h).1, (ha p n a h).2 _ h1.next⟩
  have rok' := RefsOK.doOp ⟨h1, ok⟩ hr hrw ha' he rok
  have hh := doOp_hooks ⟨h1, ok⟩ hr hrw ha' he
  have hdm : ∀ i, (t.refs i).doomed = true → (t'.refs i).doomed = true := by
    rcases hh with ⟨-, -, h⟩ | ⟨i, -, -, -, h⟩ | ⟨i, n, -, -, -, -, h⟩
    · exact h
    · intro j hj; rw [h]; unfold Refs.set; split
      · rename_i e; subst e; exact hj
      · exact hj
    · intro j hj; rw [h]; unfold Refs.set; split
      · rename_i e; subst e; exact hj
      · exact hj
  obtain ⟨s', g1, g2, ⟨g3, -⟩ | ⟨g3, rfl, -⟩⟩ := doOp_eff ⟨h1, ok⟩ hr hrw ha' he
  · exact ⟨⟨s', g1⟩, g2, (TLater.of_eff g3 ok).db h1 ok g1.1 g1.2, rok', hdm⟩
  · exact ⟨⟨s', g1⟩, g2, by rw [g3]; exact .refl, rok', hdm⟩

theorem undoAll_doomed {l : List Undo} : ∀ {r r' : Refs}, undoAll r l = .ok r' → ∀ i, (r' i).doomed = (r i).doomed := by
  induction l with
  | nil => intro r r' h i; cases h; rfl
  | cons u l ih =>
    intro r r' h i
    unfold Cache.undoAll at h
    cases hu : undo r u with
    | error e => rw [hu] at h; cases h
    | ok r1 =>
      rw [hu] at h
      rw [ih h i]
      have hset : ∀ j x, x.doomed = (r j).doomed → ((r.set j x) i).doomed = (r i).doomed := by
        intro j x hx; unfold Refs.set; split
        · rename_i e; subst e; exact hx
        · rfl
      cases u with
      | unlock j =>
        unfold undo Refs.decref at hu
        by_cases hlt : (r j).nrefs < 1
        · simp only [Nat.one_ne_zero, if_false, hlt, if_true, bind_err] at hu; cases hu
        · simp only [Nat.one_ne_zero, if_false, hlt, bind_ok] at hu; cases hu; exact hset j _ rfl
      | relock j n =>
        unfold undo Refs.incref at hu
        by_cases hd : (r j).doomed = true
        · simp only [hd, if_true] at hu; cases hu
        · simp only [if_neg hd] at hu; cases hu; exact hset j _ rfl

/-- Relation between the frames of a transaction and the committed databases. -/
def Chain (r : Refs) (disk : DB) : List CFrame → Prop
  | [] => True
  | [f] => if f.fr.ro then Later r f.fr.db disk else Later r disk f.fr.db
  | f :: g :: l => f.fr.ro = false ∧ g.fr.ro = false ∧ Later r g.fr.db f.fr.db ∧ Chain r disk (g :: l)

theorem Chain.mono {r r' : Refs} {disk : DB} (hm : ∀ i, (r i).doomed = true → (r' i).doomed = true) : ∀ {l : List CFrame}, Chain r disk l → Chain r' disk l
  | [], _ => trivial
  | [f], h => by
    unfold Chain at h ⊢
    split
    · rename_i hro; rw [if_pos hro] at h; exact h.mono hm
    · rename_i hro; rw [if_neg hro] at h; exact h.mono hm
  | f :: g :: l, ⟨h1, h2, h3, h4⟩ => ⟨h1, h2, h3.mono hm, Chain.mono hm h4⟩

theorem Chain.tail {r : Refs} {disk : DB} {f : CFrame} {l : List CFrame} (h : Chain r disk (f :: l)) : Chain r disk l := by
  cases l with
  | nil => trivial
  | cons g l => exact h.2.2.2

/-- An operation on the innermost transaction. -/
theorem Chain.op {r r' : Refs} {disk : DB} {f f' : CFrame} {l : List CFrame} (h : Chain r disk (f :: l))
    (hm : ∀ i, (r i).doomed = true → (r' i).doomed = true) (gd : Good disk) (g : ∀ x ∈ f :: l, Good x.fr.db)
    (hro : f'.fr.ro = f.fr.ro) (hl : Later r' f.fr.db f'.fr.db) (hs : f.fr.ro = true → f'.fr.db = f.fr.db) : Chain r' disk (f' :: l) := by
  have h' := h.mono hm
  cases l with
  | nil =>
    unfold Chain at h' ⊢
    rw [hro]
    split
    · rename_i hr; rw [if_pos hr] at h'; rw [hs hr]; exact h'
    · rename_i hr; rw [if_neg hr] at h'; exact h'.trans gd (g f (by simp)) hl
  | cons x l =>
    obtain ⟨h1, h2, h3, h4⟩ := h'
    exact ⟨by rw [hro]; exact h1, h2, h3.trans (g x (by simp)) (g f (by simp)) hl, h4⟩

theorem roOp_db {t t' : Txn} {o : Op} {out : Out} (ho : o.isRO = true) (he : doOp t o = .ok (t', out)) : t'.db = t.db := by
  have ro : ∀ {β : Type} {m : M β} {f : β → Out}, (do let r ← m; pure (t, f r)) = (.ok (t', out) : M (Txn × Out)) → t' = t := by
    intro β m f hm
    cases m with
    | error e => cases hm
    | ok v => cases hm; rfl
  cases o with
  | lookup p n => rw [ro he]
  | getattr i => cases he; rfl
  | readlink i => cases he; rfl
  | readdir dir prev => rw [ro he]
  | path i => rw [ro he]
  | name i => cases he; rfl
  | parent i => cases he; rfl
  | testFlag i f => cases he; rfl
  | lock i =>
    cases he
    unfold Cache.lock; split <;> rfl
  | release i n =>
    simp only [doOp] at he
    cases hm : Cache.release t i n with
    | error e => rw [hm] at he; cases he
    | ok v =>
      rw [hm] at he; obtain ⟨v1, v2⟩ := v; cases he
      unfold Cache.release at hm
      by_cases hn : n = 0
      · simp only [hn, if_true] at hm; cases hm; rfl
      · simp only [hn, if_false] at hm
        cases hd : t.refs.decref i n with
        | error e => simp only [hd, bind_err] at hm; cases hm
        | ok v =>
          obtain ⟨r, x⟩ := v
          simp only [hd, bind_ok] at hm
          cases x with
          | error e => cases hm
          | ok k => cases hm; rfl
  | _ => cases ho

end Dragonstash.Conc
