/-
  The exact effect of every operation on the abstract state (`Shape`), and consequences for entries
  and inode contents. Used by the property files.
-/
import Verif.Cache.View
namespace Dragonstash.Cache
open Codec
variable {s s' : Tree}

/-- Effect of operation `o` with result `out` on the state `s` of transaction `t`. -/
inductive Shape (s : Tree) (t : Txn) : Op → Out → Tree → Txn → Prop
  | same {o out t'} : t'.db = t.db → t'.refs = t.refs → (∀ p n a i, ¬ (o = .emplace p n a ∧ out = .ino (.ok i))) → Shape s t o out s t'
  | lock {i out t'} : t'.db = t.db → Shape s t (.lock i) out s t'
  | release {i n out t'} : t'.db = t.db → Shape s t (.release i n) out s t'
  | put {p n a i nd t'} : s.nodes i = some nd → nd.loc = some (p, n) → fmt nd.attr.mode = fmt a.mode → t'.refs = t.refs →
      Shape s t (.emplace p n a) (.ino (.ok i)) (s.set i { nd with attr := a, flags := 0 }) t'
  | link {i dest nd t'} : s.nodes i = some nd → fmt nd.attr.mode = S_IFLNK → t'.refs = t.refs →
      Shape s t (.writelink i dest) (.unit (.ok ()))
        (s.set i { nd with attr := { nd.attr with size := dest.length }, target := some dest }) t'
  | flags {i a b nd t'} : s.nodes i = some nd → t'.refs = t.refs →
      Shape s t (.updateFlags i a b) (.unit (.ok ())) (s.set i { nd with flags := newFlags nd.flags a b }) t'
  | clean {s' t'} : CollectedTo s t s' t' → Shape s t .clean (.unit (.ok ())) s' t'
  | unlinkIno {i nd s' t'} : s.nodes i = some nd → i ≠ ROOT → CollectedTo (s.orphan i) t s' t' →
      Shape s t (.unlinkIno i) (.unit (.ok ())) s' t'
  | unlinkName {p n i s' t'} : s.At p n i → CollectedTo (s.orphan i) t s' t' →
      Shape s t (.unlinkName p n) (.unit (.ok ())) s' t'
  | new {p n a s' t'} : (∀ i, ¬ s.At p n i) → GoodName n → CollectedTo (s.add p n a) t s' t' →
      Shape s t (.emplace p n a) (.ino (.ok s.next)) s' t'
  | replace {p n a i nd s' t'} : s.nodes i = some nd → nd.loc = some (p, n) → fmt nd.attr.mode ≠ fmt a.mode → GoodName n →
      CollectedTo ((s.orphan i).add p n a) t s' t' → Shape s t (.emplace p n a) (.ino (.ok s.next)) s' t'
  | finish {l t'} : t.rewrite = some l → t'.refs = t.refs → Shape s t .finishRewrite (.unit (.ok ())) (s.orphans l) t'

theorem doOp_shape {t t' : Txn} {o : Op} {out : Out} (h : TRep s t) (hr : o.inRange) (hrw : RewriteOK t.rewrite)
    (ha : ∀ p n a, o = .emplace p n a → p ≠ 0 ∧ s.next + 1 < W64)
    (he : doOp t o = .ok (t', out)) : ∃ s', TRep s' t' ∧ Shape s t o out s' t' := by
  have ro : ∀ {β : Type} {m : M β} {f : β → Out}, (do let r ← m; pure (t, f r)) = (.ok (t', out) : M (Txn × Out)) → t' = t := by
    intro β m f hm
    cases m with
    | error e => cases hm
    | ok v => cases hm; rfl
  have coll : ∀ {α : Type} {m : M (Txn × Res α)} {f : Res α → Out}, (do let (t', r) ← m; pure (t', f r)) = (.ok (t', out) : M (Txn × Out)) →
      ∃ r, m = .ok (t', r) ∧ out = f r := by
    intro α m f hm
    cases m with
    | error e => cases hm
    | ok v => obtain ⟨v1, v2⟩ := v; cases hm; exact ⟨v2, rfl, rfl⟩
  have triv : t' = t → (∀ p n a i, ¬ (o = .emplace p n a ∧ out = .ino (.ok i))) → ∃ s', TRep s' t' ∧ Shape s t o out s' t' := by
    rintro rfl hh; exact ⟨s, h, .same rfl rfl hh⟩
  cases o with
  | lookup p n => exact triv (ro he) (by simp)
  | getattr i => cases he; exact triv rfl (by simp)
  | readlink i => cases he; exact triv rfl (by simp)
  | readdir dir prev => exact triv (ro he) (by simp)
  | path i => exact triv (ro he) (by simp)
  | name i => cases he; exact triv rfl (by simp)
  | parent i => cases he; exact triv rfl (by simp)
  | testFlag i f => cases he; exact triv rfl (by simp)
  | lock i =>
    obtain ⟨s', h1, -, h2 | ⟨h2, rfl, -⟩⟩ := doOp_eff h hr hrw ha he
    · have : t'.db = t.db := by
        simp only [doOp] at he; cases he
        unfold Cache.lock Refs.incref
        split <;> rename_i heq <;> split at heq <;> cases heq <;> rfl
      exact ⟨s, ⟨by rw [this]; exact h.1, h.2⟩, .lock this⟩
    · exact ⟨_, h1, .lock h2⟩
  | release i n =>
    have : t'.db = t.db := by
      obtain ⟨r, hm, -⟩ := coll he
      unfold Cache.release Refs.decref at hm
      by_cases hn : n = 0
      · simp only [hn, if_true] at hm; cases hm; rfl
      · simp only [hn, if_false] at hm
        by_cases hlt : (t.refs i).nrefs < n
        · simp only [hlt, if_true, bind_err] at hm; cases hm
        · simp only [hlt, if_false, bind_ok] at hm; cases hm; rfl
    exact ⟨s, ⟨by rw [this]; exact h.1, h.2⟩, .release this⟩
  | emplace p n a =>
    obtain ⟨hp0, hnext⟩ := ha p n a rfl
    obtain ⟨r, hm, rfl⟩ := coll he
    rcases emplace_cases h (n := n) (a := a) hr hp0 hnext with ⟨-, g⟩ | ⟨-, i, nd, t1, g1, g2, g3, g, g4, g5, -⟩ | ⟨hn, s1, s', t1, g1, g, g2⟩
    · rw [g] at hm; cases hm; exact triv rfl (by simp)
    · rw [g] at hm; cases hm; exact ⟨_, g4, .put g1 g2 g3 g5⟩
    · rw [g] at hm; cases hm
      rcases g1 with ⟨rfl, g1⟩ | ⟨i, nd, rfl, g3, g4, g5⟩
      · exact ⟨_, g2.rep, .new g1 hn g2⟩
      · exact ⟨_, g2.rep, .replace g3 g4 g5 hn g2⟩
  | unlinkIno i =>
    obtain ⟨r, hm, rfl⟩ := coll he
    by_cases hri : i = ROOT
    · subst hri; rw [unlinkIno_root h] at hm; cases hm; exact triv rfl (by simp)
    · cases hi : s.nodes i with
      | none => rw [unlinkIno_missing h hr hri hi] at hm; cases hm; exact triv rfl (by simp)
      | some nd =>
        obtain ⟨s', t1, g1, g2⟩ := unlinkIno_spec h hri hi
        rw [g1] at hm; cases hm; exact ⟨_, g2.rep, .unlinkIno hi hri g2⟩
  | unlinkName p n =>
    obtain ⟨r, hm, rfl⟩ := coll he
    by_cases hex : ∃ i, s.At p n i
    · obtain ⟨i, hi⟩ := hex
      obtain ⟨s', t1, g1, g2⟩ := unlinkName_spec h hi
      rw [g1] at hm; cases hm; exact ⟨_, g2.rep, .unlinkName hi g2⟩
    · rw [unlinkName_missing h hr (fun i hi => hex ⟨i, hi⟩)] at hm; cases hm; exact triv rfl (by simp)
  | clean =>
    obtain ⟨r, hm, rfl⟩ := coll he
    obtain ⟨s', t1, g1, g2⟩ := clean_spec h
    rw [g1] at hm; cases hm; exact ⟨_, g2.rep, .clean g2⟩
  | writelink i dest =>
    cases hi : s.nodes i with
    | none => rw [doOp, writelink_missing h hr hi] at he; cases he; exact triv rfl (by simp)
    | some nd =>
      by_cases hf : fmt nd.attr.mode = S_IFLNK
      · obtain ⟨t1, g1, g2, g3, -⟩ := writelink_spec h (dest := dest) hi hf
        rw [doOp, g1] at he; cases he; exact ⟨_, g2, .link hi hf g3⟩
      · rw [doOp, writelink_notlink h hi hf] at he; cases he; exact triv rfl (by simp)
  | updateFlags i a b =>
    cases hi : s.nodes i with
    | none => rw [doOp, updateFlags_missing h hr.1 hi] at he; cases he; exact triv rfl (by simp)
    | some nd =>
      obtain ⟨t1, g1, g2, g3, -⟩ := updateFlags_spec h (a := a) (b := b) hi
      rw [doOp, g1] at he; cases he; exact ⟨_, g2, .flags hi g3⟩
  | startRewrite dir =>
    obtain ⟨r, hm, rfl⟩ := coll he
    have : t'.db = t.db ∧ t'.refs = t.refs := by
      unfold startRewrite at hm
      split at hm
      · cases hm; exact ⟨rfl, rfl⟩
      · split at hm
        · cases hm; exact ⟨rfl, rfl⟩
        · rename_i e l heq
          cases hc : collectKids dir (e :: l) [] with
          | error x => rw [hc] at hm; cases hm
          | ok v => rw [hc] at hm; cases hm; exact ⟨rfl, rfl⟩
    exact ⟨s, ⟨by rw [this.1]; exact h.1, h.2⟩, .same this.1 this.2 (by simp)⟩
  | finishRewrite =>
    cases hrl : t.rewrite with
    | none =>
      have : finishRewrite t = (t, .error EBADFD) := by unfold finishRewrite; rw [hrl]
      rw [doOp, this] at he; cases he; exact triv rfl (by simp)
    | some l =>
      obtain ⟨t1, g1, g2, g3, -⟩ := finishRewrite_some h hrl (hrw l hrl)
      rw [doOp, g1] at he; cases he; exact ⟨_, g2, .finish hrl g3⟩

/-- `doOp_shape` for a call in a reachable world. -/
theorem OpStep.shape {w w' : World} {o : Op} {out : Out} {t t' : Txn} (h : OpStep w o w' out s t t') :
    ∃ s', TRep s' t' ∧ Shape s t o out s' t' := doOp_shape h.trep h.range h.rwok h.emp h.call

/-- Read-only operations do not change the databases. -/
theorem doOp_ro {t t' : Txn} {o : Op} {out : Out} (ho : o.isRO = true) (he : doOp t o = .ok (t', out)) : t'.db = t.db := by
  have ro : ∀ {β : Type} {m : M β} {f : β → Out}, (do let r ← m; pure (t, f r)) = (.ok (t', out) : M (Txn × Out)) → t' = t := by
    intro β m f hm
    cases m with
    | error e => cases hm
    | ok v => cases hm; rfl
  cases o with
  | lookup p n => rw [ro he]
  | getattr i => cases he; rfl
  | readlink i => cases he; rfl
  | readdir dir prev => rw [ro he]
  | path i => rw [ro he]
  | name i => cases he; rfl
  | parent i => cases he; rfl
  | testFlag i f => cases he; rfl
  | lock i =>
    simp only [doOp] at he; cases he
    unfold Cache.lock Refs.incref
    split <;> rename_i heq <;> split at heq <;> cases heq <;> rfl
  | release i n =>
    simp only [doOp] at he
    cases hm : Cache.release t i n with
    | error e => rw [hm] at he; cases he
    | ok v =>
      rw [hm] at he; obtain ⟨v1, v2⟩ := v; cases he
      unfold Cache.release Refs.decref at hm
      by_cases hn : n = 0
      · simp only [hn, if_true] at hm; cases hm; rfl
      · simp only [hn, if_false] at hm
        by_cases hlt : (t.refs i).nrefs < n
        · simp only [hlt, if_true, bind_err] at hm; cases hm
        · simp only [hlt, if_false, bind_ok] at hm; cases hm; rfl
  | _ => cases ho

/-- A read-only transaction is the only open one and sees the committed state. -/
theorem Reach.ro {w : World} (h : Reach w) : ∀ f ∈ w.stack, f.ro = true → w.stack = [f] ∧ f.db = w.disk := by
  induction h with
  | init => simp [World.init]
  | @step w c w' o _ _ hs ih =>
    cases c with
    | crash => simp only [World.step] at hs; cases hs; simp
    | openInit uid gid now =>
      rename_i hw _
      simp only [World.step] at hs
      split at hs
      · rename_i hp
        cases hs
        have := (hw.inv.down (by rw [hp]; simp)).1
        simp [this]
      · cases hs
    | openClean =>
      rename_i hw _
      simp only [World.step] at hs
      split at hs
      · rename_i hp
        have := (hw.inv.down (by rw [hp]; simp)).1
        cases hc : openCleanDB w.disk w.refs with
        | error e => rw [hc] at hs; cases hs
        | ok v => rw [hc] at hs; cases hs; simp [this]
      · cases hs
    | beginRO =>
      simp only [World.step] at hs
      split at hs
      · cases hs; simp
      · cases hs
    | beginRW =>
      simp only [World.step] at hs
      split at hs
      · cases hs; simp
      · cases hs
    | nested =>
      simp only [World.step] at hs
      split at hs
      · cases hs
      · rename_i f r hst
        split at hs
        · cases hs
        · rename_i hf
          cases hs
          intro g hg hro
          simp only [List.mem_cons] at hg
          rcases hg with rfl | rfl | hg
          · cases hro
          · exact absurd hro hf
          · have := (ih g (by rw [hst]; simp [hg]) hro).1
            rw [hst] at this; cases this; cases hg
    | op o =>
      simp only [World.step] at hs
      split at hs
      · cases hs
      · rename_i f r hst
        split at hs
        · cases hs
        · rename_i hro
          cases hd : doOp (f.txn w.refs) o with
          | error e => rw [hd] at hs; cases hs
          | ok v =>
            rw [hd] at hs; obtain ⟨t, out⟩ := v; cases hs
            intro g hg hgro
            simp only [List.mem_cons] at hg
            rcases hg with rfl | hg
            · simp only at hgro
              obtain ⟨h1, h2⟩ := ih f (by rw [hst]; simp) hgro
              rw [hst] at h1; cases h1
              refine ⟨rfl, ?_⟩
              rw [← h2]
              exact doOp_ro (by simpa [hgro] using hro) hd
            · have := (ih g (by rw [hst]; simp [hg]) hgro).1
              rw [hst] at this; cases this; cases hg
    | commit =>
      simp only [World.step] at hs
      split at hs
      · cases hs
      · cases hs; simp
      · rename_i f g r hst
        cases hs
        intro x hx hro
        simp only [List.mem_cons] at hx
        rcases hx with rfl | hx
        · have := (ih g (by rw [hst]; simp) hro).1; rw [hst] at this; cases this
        · have := (ih x (by rw [hst]; simp [hx]) hro).1; rw [hst] at this; cases this
    | abort =>
      simp only [World.step] at hs
      split at hs
      · cases hs
      · rename_i f r hst
        cases hu : undoAll w.refs f.hooks.reverse with
        | error e => rw [hu] at hs; cases hs
        | ok v =>
          rw [hu] at hs; cases hs
          intro x hx hro
          have := (ih x (by rw [hst]; simp [hx]) hro).1; rw [hst] at this; cases this; cases hx
    | drop =>
      simp only [World.step] at hs
      split at hs
      · cases hs
      · rename_i f r hst
        cases hs
        intro x hx hro
        have := (ih x (by rw [hst]; simp [hx]) hro).1; rw [hst] at this; cases this; cases hx

/-! ### Entries -/

theorem orphans_At {l : List Ino} : ∀ {s : Tree} {p n j}, (s.orphans l).At p n j ↔ s.At p n j ∧ j ∉ l := by
  induction l with
  | nil => simp [Tree.orphans]
  | cons i l ih =>
    intro s p n j
    have : s.orphans (i :: l) = (s.orphan i).orphans l := rfl
    rw [this, ih, at_orphan]; simp [and_assoc]

theorem orphans_nodes {l : List Ino} : ∀ {s : Tree} {j nd}, s.nodes j = some nd →
    ∃ nd', (s.orphans l).nodes j = some nd' ∧ nd'.attr = nd.attr ∧ nd'.flags = nd.flags ∧ nd'.target = nd.target ∧ (nd'.loc = nd.loc ∨ nd'.loc = none)
      ∧ (j ∉ l → nd'.loc = nd.loc) := by
  induction l with
  | nil => intro s j nd h; exact ⟨nd, h, rfl, rfl, rfl, .inl rfl, fun _ => rfl⟩
  | cons i l ih =>
    intro s j nd h
    have e : s.orphans (i :: l) = (s.orphan i).orphans l := rfl
    rw [e]
    by_cases hj : j = i
    · subst hj
      obtain ⟨nd', h1, h2, h3, h4, h5, -⟩ := ih (Tree.orphan_self h)
      exact ⟨nd', h1, h2, h3, h4, .inr (h5.elim id id), by simp⟩
    · obtain ⟨nd', h1, h2, h3, h4, h5, h6⟩ := ih (s := s.orphan i) (j := j) (nd := nd) (by rw [Tree.orphan_ne hj]; exact h)
      exact ⟨nd', h1, h2, h3, h4, h5, by simp only [List.mem_cons, not_or]; exact fun hh => h6 hh.2⟩

theorem orphans_none {l : List Ino} : ∀ {s : Tree} {j}, s.nodes j = none → (s.orphans l).nodes j = none := by
  induction l with
  | nil => intro s j h; exact h
  | cons i l ih =>
    intro s j h
    have e : s.orphans (i :: l) = (s.orphan i).orphans l := rfl
    rw [e]; apply ih
    simp only [Tree.orphan]; split <;> simp [h]

theorem orphan_none {i j} (h : s.nodes j = none) : (s.orphan i).nodes j = none := by
  simp only [Tree.orphan]; split <;> simp [h]

theorem IsDir.of_orphan {p i} (h : (s.orphan i).IsDir p) : s.IsDir p := by
  obtain ⟨nd, h1, h2⟩ := h
  simp only [Tree.orphan] at h1
  split at h1
  · rename_i hp; subst hp
    cases hn : s.nodes p with
    | none => rw [hn] at h1; cases h1
    | some x => rw [hn] at h1; cases h1; exact ⟨x, hn, h2⟩
  · exact ⟨nd, h1, h2⟩

theorem IsDir.of_add {p q n a} (h : (s.add q n a).IsDir p) (hp : p ≠ s.next) : s.IsDir p := by
  obtain ⟨nd, h1, h2⟩ := h
  rw [Tree.add_ne hp] at h1; exact ⟨nd, h1, h2⟩

/-- New entries only come from `emplace`. -/
theorem Shape.back {t t' : Txn} {o out} (h : Shape s t o out s' t') (ok : s.OK) {q m j} (hat : s'.At q m j) :
    s.At q m j ∨ (∃ a, o = .emplace q m a ∧ out = .ino (.ok j)) := by
  cases h with
  | same => exact .inl hat
  | lock => exact .inl hat
  | release => exact .inl hat
  | put h1 h2 h3 => exact .inl ((at_set h1 (by rfl)).mp hat)
  | link h1 h2 => exact .inl ((at_set h1 (by rfl)).mp hat)
  | flags h1 => exact .inl ((at_set h1 (by rfl)).mp hat)
  | clean h => exact .inl ((at_collected h.coll).mp hat).1
  | unlinkIno _ _ h => exact .inl (at_orphan.mp ((at_collected h.coll).mp hat).1).1
  | unlinkName _ h => exact .inl (at_orphan.mp ((at_collected h.coll).mp hat).1).1
  | new h1 _ h =>
    rcases (at_add ok).mp ((at_collected h.coll).mp hat).1 with h2 | ⟨rfl, rfl, rfl⟩
    · exact .inl h2
    · exact .inr ⟨_, rfl, rfl⟩
  | replace h1 h2 h3 _ h =>
    rcases (at_add (OK.orphan ok _)).mp ((at_collected h.coll).mp hat).1 with h2 | ⟨rfl, rfl, rfl⟩
    · exact .inl (at_orphan.mp h2).1
    · exact .inr ⟨_, rfl, rfl⟩
  | finish h1 => exact .inl (orphans_At.mp hat).1

/-- Entries only vanish by the operations meant for that, or with their directory. -/
theorem Shape.fwd {t t' : Txn} {o out} (h : Shape s t o out s' t') (ok : s.OK) {q m j} (hat : s.At q m j) :
    s'.At q m j ∨ (∃ a, o = .emplace q m a) ∨ o = .unlinkName q m ∨ o = .unlinkIno j ∨
      (o = .finishRewrite ∧ ∃ l, t.rewrite = some l ∧ j ∈ l) ∨ (s'.nodes q = none ∧ (s.IsDir q ∨ out = .ino (.ok q))) := by
  cases h with
  | same => exact .inl hat
  | lock => exact .inl hat
  | release => exact .inl hat
  | put h1 h2 h3 => exact .inl ((at_set h1 (by rfl)).mpr hat)
  | link h1 h2 => exact .inl ((at_set h1 (by rfl)).mpr hat)
  | flags h1 => exact .inl ((at_set h1 (by rfl)).mpr hat)
  | clean h =>
    by_cases hg : Gone s (locked t.refs) q ∧ s.IsDir q
    · exact .inr (.inr (.inr (.inr (.inr ⟨h.coll.gone q hg.1, .inl hg.2⟩))))
    · exact .inl ((at_collected h.coll).mpr ⟨hat, hg⟩)
  | @unlinkIno i _ _ _ h1 _ h =>
    by_cases hj : j = i
    · subst hj; exact .inr (.inr (.inr (.inl rfl)))
    · by_cases hg : Gone (s.orphan i) (locked t.refs) q ∧ (s.orphan i).IsDir q
      · exact .inr (.inr (.inr (.inr (.inr ⟨h.coll.gone q hg.1, .inl (IsDir.of_orphan hg.2)⟩))))
      · exact .inl ((at_collected h.coll).mpr ⟨at_orphan.mpr ⟨hat, hj⟩, hg⟩)
  | @unlinkName p n i _ _ h1 h =>
    by_cases hj : j = i
    · subst hj
      obtain ⟨a, h2, h3⟩ := h1; obtain ⟨b, h4, h5⟩ := hat
      rw [h2] at h4; cases h4; rw [h3] at h5; cases h5
      exact .inr (.inr (.inl rfl))
    · by_cases hg : Gone (s.orphan i) (locked t.refs) q ∧ (s.orphan i).IsDir q
      · exact .inr (.inr (.inr (.inr (.inr ⟨h.coll.gone q hg.1, .inl (IsDir.of_orphan hg.2)⟩))))
      · exact .inl ((at_collected h.coll).mpr ⟨at_orphan.mpr ⟨hat, hj⟩, hg⟩)
  | @new p n a _ _ h1 _ h =>
    by_cases hg : Gone (s.add p n a) (locked t.refs) q ∧ (s.add p n a).IsDir q
    · refine .inr (.inr (.inr (.inr (.inr ⟨h.coll.gone q hg.1, ?_⟩))))
      by_cases hq : q = s.next
      · subst hq; exact .inr rfl
      · exact .inl (IsDir.of_add hg.2 hq)
    · exact .inl ((at_collected h.coll).mpr ⟨(at_add ok).mpr (.inl hat), hg⟩)
  | @replace p n a i nd _ _ h1 h2 h3 _ h =>
    by_cases hj : j = i
    · subst hj
      obtain ⟨b, h4, h5⟩ := hat
      rw [h1] at h4; cases h4; rw [h2] at h5; cases h5
      exact .inr (.inl ⟨a, rfl⟩)
    · by_cases hg : Gone ((s.orphan i).add p n a) (locked t.refs) q ∧ ((s.orphan i).add p n a).IsDir q
      · refine .inr (.inr (.inr (.inr (.inr ⟨h.coll.gone q hg.1, ?_⟩))))
        by_cases hq : q = s.next
        · subst hq; exact .inr rfl
        · exact .inl (IsDir.of_orphan (IsDir.of_add hg.2 hq))
      · exact .inl ((at_collected h.coll).mpr ⟨(at_add (OK.orphan ok i)).mpr (.inl (at_orphan.mpr ⟨hat, hj⟩)), hg⟩)
  | @finish l _ h1 =>
    by_cases hj : j ∈ l
    · exact .inr (.inr (.inr (.inr (.inl ⟨rfl, _, h1, hj⟩))))
    · exact .inl (orphans_At.mpr ⟨hat, hj⟩)

/-! ### Contents of inodes -/

/-- What an operation may do to the contents of an existing inode: it is removed, or overwritten by an operation on
it, or unchanged except that it may be unlinked. -/
theorem Shape.contents {t t' : Txn} {o out} (h : Shape s t o out s' t') (ok : s.OK) {j nd} (hj : s.nodes j = some nd) :
    s'.nodes j = none ∨ ∃ nd', s'.nodes j = some nd' ∧ fmt nd'.attr.mode = fmt nd.attr.mode ∧
      (nd'.attr = nd.attr ∨ (∃ p n a, o = .emplace p n a ∧ out = .ino (.ok j) ∧ nd'.attr = a) ∨ ∃ dest, o = .writelink j dest ∧ nd'.attr = { nd.attr with size := dest.length }) ∧
      (nd'.flags = nd.flags ∨ (∃ p n a, o = .emplace p n a ∧ out = .ino (.ok j) ∧ nd'.flags = 0) ∨ ∃ a b, o = .updateFlags j a b ∧ nd'.flags = newFlags nd.flags a b) ∧
      (nd'.target = nd.target ∨ ∃ dest, o = .writelink j dest ∧ nd'.target = some dest) := by
  have coll : ∀ {s1 : Tree} {x}, CollectedTo s1 t s' t' → s1.nodes j = some x → x.attr = nd.attr → x.flags = nd.flags → x.target = nd.target →
      s'.nodes j = none ∨ ∃ nd', s'.nodes j = some nd' ∧ fmt nd'.attr.mode = fmt nd.attr.mode ∧
      (nd'.attr = nd.attr ∨ (∃ p n a, o = .emplace p n a ∧ out = .ino (.ok j) ∧ nd'.attr = a) ∨ ∃ dest, o = .writelink j dest ∧ nd'.attr = { nd.attr with size := dest.length }) ∧
      (nd'.flags = nd.flags ∨ (∃ p n a, o = .emplace p n a ∧ out = .ino (.ok j) ∧ nd'.flags = 0) ∨ ∃ a b, o = .updateFlags j a b ∧ nd'.flags = newFlags nd.flags a b) ∧
      (nd'.target = nd.target ∨ ∃ dest, o = .writelink j dest ∧ nd'.target = some dest) := by
    intro s1 x h hx e1 e2 e3
    by_cases hg : Gone s1 (locked t.refs) j
    · exact .inl (h.coll.gone j hg)
    · obtain ⟨nd', g1, g2, g3, g4, -⟩ := h.coll.fwd hx hg
      exact .inr ⟨nd', g1, by rw [g2, e1], .inl (by rw [g2, e1]), .inl (by rw [g3, e2]), .inl (by rw [g4, e3])⟩
  have orph : ∀ i, ∃ x, (s.orphan i).nodes j = some x ∧ x.attr = nd.attr ∧ x.flags = nd.flags ∧ x.target = nd.target := by
    intro i
    by_cases hi : j = i
    · subst hi; exact ⟨_, Tree.orphan_self hj, rfl, rfl, rfl⟩
    · exact ⟨nd, by rw [Tree.orphan_ne hi]; exact hj, rfl, rfl, rfl⟩
  cases h with
  | same => exact .inr ⟨nd, hj, rfl, .inl rfl, .inl rfl, .inl rfl⟩
  | lock => exact .inr ⟨nd, hj, rfl, .inl rfl, .inl rfl, .inl rfl⟩
  | release => exact .inr ⟨nd, hj, rfl, .inl rfl, .inl rfl, .inl rfl⟩
  | @put p n a i x _ h1 h2 h3 =>
    by_cases hi : j = i
    · subst hi; rw [hj] at h1; cases h1
      exact .inr ⟨_, Tree.set_self, h3.symm, .inr (.inl ⟨p, n, a, rfl, rfl, rfl⟩), .inr (.inl ⟨p, n, a, rfl, rfl, rfl⟩), .inl rfl⟩
    · exact .inr ⟨nd, by rw [Tree.set_ne hi]; exact hj, rfl, .inl rfl, .inl rfl, .inl rfl⟩
  | @link i dest x _ h1 h2 =>
    by_cases hi : j = i
    · subst hi; rw [hj] at h1; cases h1
      exact .inr ⟨_, Tree.set_self, rfl, .inr (.inr ⟨dest, rfl, rfl⟩), .inl rfl, .inr ⟨dest, rfl, rfl⟩⟩
    · exact .inr ⟨nd, by rw [Tree.set_ne hi]; exact hj, rfl, .inl rfl, .inl rfl, .inl rfl⟩
  | @flags i a b x _ h1 =>
    by_cases hi : j = i
    · subst hi; rw [hj] at h1; cases h1
      exact .inr ⟨_, Tree.set_self, rfl, .inl rfl, .inr (.inr ⟨a, b, rfl, rfl⟩), .inl rfl⟩
    · exact .inr ⟨nd, by rw [Tree.set_ne hi]; exact hj, rfl, .inl rfl, .inl rfl, .inl rfl⟩
  | clean h => exact coll h hj rfl rfl rfl
  | @unlinkIno i _ _ _ _ _ h => obtain ⟨x, e0, e1, e2, e3⟩ := orph i; exact coll h e0 e1 e2 e3
  | @unlinkName _ _ i _ _ _ h => obtain ⟨x, e0, e1, e2, e3⟩ := orph i; exact coll h e0 e1 e2 e3
  | new _ _ h => exact coll h (by rw [Tree.add_ne (OK.ne_next ok hj)]; exact hj) rfl rfl rfl
  | @replace _ _ _ i _ _ _ _ _ _ _ h =>
    obtain ⟨x, e0, e1, e2, e3⟩ := orph i
    exact coll h (by rw [Tree.add_ne (show j ≠ (s.orphan i).next from OK.ne_next ok hj)]; exact e0) e1 e2 e3
  | @finish l _ h1 =>
    obtain ⟨nd', g1, g2, g3, g4, -⟩ := orphans_nodes (l := l) hj
    exact .inr ⟨nd', g1, by rw [g2], .inl g2, .inl g3, .inl g4⟩

/-- Locked inodes are not removed. -/
theorem Shape.locked_stays {t t' : Txn} {o out} (h : Shape s t o out s' t') (ok : s.OK) {j nd} (hj : s.nodes j = some nd)
    (hl : locked t.refs j) : ∃ nd', s'.nodes j = some nd' := by
  have coll : ∀ {s1 : Tree} {x}, CollectedTo s1 t s' t' → s1.nodes j = some x → ∃ nd', s'.nodes j = some nd' := by
    intro s1 x h hx
    obtain ⟨nd', g1, -⟩ := h.coll.fwd hx (fun hg => hg.not_locked hl)
    exact ⟨nd', g1⟩
  have orph : ∀ i, ∃ x, (s.orphan i).nodes j = some x := by
    intro i
    by_cases hi : j = i
    · subst hi; exact ⟨_, Tree.orphan_self hj⟩
    · exact ⟨nd, by rw [Tree.orphan_ne hi]; exact hj⟩
  have sets : ∀ i x, ∃ nd', (s.set i x).nodes j = some nd' := by
    intro i x
    by_cases hi : j = i
    · subst hi; exact ⟨_, Tree.set_self⟩
    · exact ⟨nd, by rw [Tree.set_ne hi]; exact hj⟩
  cases h with
  | same => exact ⟨nd, hj⟩
  | lock => exact ⟨nd, hj⟩
  | release => exact ⟨nd, hj⟩
  | put => exact sets _ _
  | link => exact sets _ _
  | flags => exact sets _ _
  | clean h => exact coll h hj
  | @unlinkIno i _ _ _ _ _ h => obtain ⟨x, e0⟩ := orph i; exact coll h e0
  | @unlinkName _ _ i _ _ _ h => obtain ⟨x, e0⟩ := orph i; exact coll h e0
  | new _ _ h => exact coll h (by rw [Tree.add_ne (OK.ne_next ok hj)]; exact hj)
  | @replace _ _ _ i _ _ _ _ _ _ _ h =>
    obtain ⟨x, e0⟩ := orph i
    exact coll h (by rw [Tree.add_ne (show j ≠ (s.orphan i).next from OK.ne_next ok hj)]; exact e0)
  | @finish l _ h1 => obtain ⟨nd', g1, -⟩ := orphans_nodes (l := l) hj; exact ⟨nd', g1⟩

/-- Inodes only come into existence by `emplace`, with the next number. -/
theorem Shape.created {t t' : Txn} {o out} (h : Shape s t o out s' t') {j nd'} (hj : s'.nodes j = some nd') (hn : s.nodes j = none) :
    ∃ p n a, o = .emplace p n a ∧ out = .ino (.ok j) ∧ j = s.next ∧ nd'.attr = a ∧ nd'.flags = 0 ∧ nd'.target = none := by
  have coll : ∀ {s1 : Tree}, CollectedTo s1 t s' t' → s1.nodes j = none → False := by
    intro s1 h hx
    obtain ⟨-, x, g1, -⟩ := h.coll.back hj
    rw [hx] at g1; cases g1
  have sets : ∀ {i x y}, s.nodes i = some y → (s.set i x).nodes j = some nd' → False := by
    intro i x y hi hs
    by_cases he : j = i
    · subst he; rw [hn] at hi; cases hi
    · rw [Tree.set_ne he, hn] at hs; cases hs
  cases h with
  | same => rw [hn] at hj; cases hj
  | lock => rw [hn] at hj; cases hj
  | release => rw [hn] at hj; cases hj
  | put h1 => exact (sets h1 hj).elim
  | link h1 => exact (sets h1 hj).elim
  | flags h1 => exact (sets h1 hj).elim
  | clean h => exact (coll h hn).elim
  | unlinkIno _ _ h => exact (coll h (orphan_none hn)).elim
  | unlinkName _ h => exact (coll h (orphan_none hn)).elim
  | @new p n a _ _ _ _ h =>
    by_cases he : j = s.next
    · subst he
      obtain ⟨-, x, g1, g2, g3, g4, -⟩ := h.coll.back hj
      rw [Tree.add_self] at g1; cases g1
      exact ⟨p, n, a, rfl, rfl, rfl, g2, g3, g4⟩
    · exact (coll h (by rw [Tree.add_ne he]; exact hn)).elim
  | @replace p n a i _ _ _ _ _ _ _ h =>
    by_cases he : j = s.next
    · subst he
      obtain ⟨-, x, g1, g2, g3, g4, -⟩ := h.coll.back hj
      rw [show (s.orphan i |>.add p n a).nodes s.next = _ from Tree.add_self (s := s.orphan i)] at g1; cases g1
      exact ⟨p, n, a, rfl, rfl, rfl, g2, g3, g4⟩
    · exact (coll h (by rw [Tree.add_ne (show j ≠ (s.orphan i).next from he)]; exact orphan_none hn)).elim
  | finish h1 => rw [orphans_none hn] at hj; cases hj

/-- The next number never goes down. -/
theorem Shape.next {t t' : Txn} {o out} (h : Shape s t o out s' t') : s.next ≤ s'.next := by
  cases h with
  | same => exact Nat.le_refl _
  | lock => exact Nat.le_refl _
  | release => exact Nat.le_refl _
  | put => exact Nat.le_refl _
  | link => exact Nat.le_refl _
  | flags => exact Nat.le_refl _
  | clean h => exact Nat.le_of_eq h.coll.next.symm
  | unlinkIno _ _ h => exact Nat.le_of_eq h.coll.next.symm
  | unlinkName _ h => exact Nat.le_of_eq h.coll.next.symm
  | new _ _ h => rw [h.coll.next]; exact Nat.le_succ _
  | replace _ _ _ _ h => rw [h.coll.next]; exact Nat.le_succ _
  | @finish l _ h1 =>
    clear h1
    have : ∀ (l : List Ino) (s : Tree), (s.orphans l).next = s.next := by
      intro l
      induction l with
      | nil => intro s; rfl
      | cons i l ih => intro s; exact ih (s.orphan i)
    rw [this]; exact Nat.le_refl _

end Dragonstash.Cache
