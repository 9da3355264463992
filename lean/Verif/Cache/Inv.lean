/-
  Effects of the operations, and the invariant of reachable worlds.
-/
import Verif.Cache.Eff
namespace Dragonstash.Cache
open Codec
variable {s : Tree}

theorem CollectedTo.eff {s1 s'} {t t' : Txn} (h : CollectedTo s1 t s' t') : Eff s1 t.refs s' t'.refs :=
  .collect h.rep.2 h.coll h.refs

/-- What `emplace` does, in all cases. -/
theorem emplace_cases {t : Txn} (h : TRep s t) {p n a} (hp : p < W64) (hp0 : p ≠ 0) (hnext : s.next + 1 < W64) :
    (¬ GoodName n ∧ emplace t p n a = .ok (t, .error (if n.length > 503 then ENAMETOOLONG else EINVAL))) ∨
    (GoodName n ∧ ∃ i nd t', s.nodes i = some nd ∧ nd.loc = some (p, n) ∧ fmt nd.attr.mode = fmt a.mode ∧
      emplace t p n a = .ok (t', .ok i) ∧ TRep (s.set i { nd with attr := a, flags := 0 }) t' ∧
      t'.refs = t.refs ∧ t'.hooks = t.hooks ∧ t'.rewrite = t.rewrite.map (fun l => l.filter (· ≠ i))) ∨
    (GoodName n ∧ ∃ s1 s' t', ((s1 = s ∧ ∀ i, ¬ s.At p n i) ∨
        ∃ i nd, s1 = s.orphan i ∧ s.nodes i = some nd ∧ nd.loc = some (p, n) ∧ fmt nd.attr.mode ≠ fmt a.mode) ∧
      emplace t p n a = .ok (t', .ok s.next) ∧ CollectedTo (s1.add p n a) t s' t') := by
  by_cases hn : GoodName n
  · by_cases hex : ∃ i, s.At p n i
    · obtain ⟨i, nd, hi, hl⟩ := hex
      by_cases hf : fmt nd.attr.mode = fmt a.mode
      · obtain ⟨t', h1, h2, h3, h4, h5⟩ := emplace_same h hi hl hf
        exact .inr (.inl ⟨hn, i, nd, t', hi, hl, hf, h1, h2, h3, h4, h5⟩)
      · obtain ⟨s', t', h1, h2⟩ := emplace_replace h hi hl hf hnext
        exact .inr (.inr ⟨hn, _, s', t', .inr ⟨i, nd, rfl, hi, hl, hf⟩, h1, h2⟩)
    · have hex' : ∀ i, ¬ s.At p n i := fun i hi => hex ⟨i, hi⟩
      obtain ⟨s', t', h1, h2⟩ := emplace_free h (a := a) (by omega) hp hn hnext hex'
      exact .inr (.inr ⟨hn, s, s', t', .inl ⟨rfl, hex'⟩, h1, h2⟩)
  · obtain ⟨e, h1, h2⟩ := emplace_badname (t := t) (p := p) (a := a) hn
    exact .inl ⟨hn, by rw [h1, h2]⟩

theorem emplace_eff {t t' : Txn} (h : TRep s t) {p n a r} (hp : p < W64) (hp0 : p ≠ 0) (hnext : s.next + 1 < W64)
    (he : emplace t p n a = .ok (t', r)) :
    ∃ s', TRep s' t' ∧ Eff s t.refs s' t'.refs ∧ (s.IsDir p → EffP s t.refs s' t'.refs) := by
  rcases emplace_cases h (n := n) (a := a) hp hp0 hnext with ⟨-, h1⟩ | ⟨hn, i, nd, t1, hi, hl, hf, h1, h2, h3, -⟩ | ⟨hn, s1, s', t1, hs1, h1, h2⟩
  · rw [h1] at he; cases he; exact ⟨s, h, .refl, fun _ => .refl⟩
  · rw [h1] at he; cases he
    have e : Eff s t.refs (s.set i { nd with attr := a, flags := 0 }) t'.refs := by
      rw [h3]
      exact .set hi rfl hf.symm (fun t ht => by simp only; rw [← hf]; exact h.2.target i nd t hi ht)
    exact ⟨_, h2, e, fun _ => by rw [h3]; exact .set hi rfl hf.symm⟩
  · rw [h1] at he; cases he
    have e2 := h2.eff
    rcases hs1 with ⟨rfl, hfree⟩ | ⟨i, nd, rfl, hi, hl, -⟩
    · have e1 : Eff s1 t.refs (s1.add p n a) t.refs := .add (by omega) hp hn hnext hfree
      exact ⟨s', h2.rep, .trans e1 e2, fun hd => .trans (.add hd) e1 (.collect h2.coll)⟩
    · have e0 : Eff s t.refs (s.orphan i) t.refs := .orphan i
      have e1 : Eff (s.orphan i) t.refs ((s.orphan i).add p n a) t.refs :=
        .add (by omega) hp hn hnext (orphan_free h.2 ⟨nd, hi, hl⟩)
      exact ⟨s', h2.rep, .trans e0 (.trans e1 e2),
        fun hd => .trans (.orphan i) e0 (.trans (.add (IsDir.orphan i hd)) e1 (.collect h2.coll))⟩

theorem unlinkIno_eff {t t' : Txn} (h : TRep s t) {i r} (hb : i < W64) (he : unlinkIno t i = .ok (t', r)) :
    ∃ s', TRep s' t' ∧ Eff s t.refs s' t'.refs ∧ EffP s t.refs s' t'.refs := by
  by_cases hr : i = ROOT
  · subst hr; rw [unlinkIno_root h] at he; cases he; exact ⟨s, h, .refl, .refl⟩
  · cases hi : s.nodes i with
    | none => rw [unlinkIno_missing h hb hr hi] at he; cases he; exact ⟨s, h, .refl, .refl⟩
    | some nd =>
      obtain ⟨s', t1, h1, h2⟩ := unlinkIno_spec h hr hi
      rw [h1] at he; cases he
      exact ⟨s', h2.rep, .trans (.orphan i) h2.eff, .trans (.orphan i) (.orphan i) (.collect h2.coll)⟩

theorem unlinkName_eff {t t' : Txn} (h : TRep s t) {p n r} (hp : p < W64) (he : unlinkName t p n = .ok (t', r)) :
    ∃ s', TRep s' t' ∧ Eff s t.refs s' t'.refs ∧ EffP s t.refs s' t'.refs := by
  by_cases hex : ∃ i, s.At p n i
  · obtain ⟨i, hi⟩ := hex
    obtain ⟨s', t1, h1, h2⟩ := unlinkName_spec h hi
    rw [h1] at he; cases he
    exact ⟨s', h2.rep, .trans (.orphan i) h2.eff, .trans (.orphan i) (.orphan i) (.collect h2.coll)⟩
  · rw [unlinkName_missing h hp (fun i hi => hex ⟨i, hi⟩)] at he; cases he
    exact ⟨s, h, .refl, .refl⟩

/-- Unlinking a list of inodes. -/
def Tree.orphans (s : Tree) (l : List Ino) : Tree := l.foldl (fun s i => s.orphan i) s

theorem finish_fold {l : List Ino} (hl : ∀ i ∈ l, i < W64) : ∀ {s : Tree} {d : DB} {r : Refs}, Rep s d → s.OK →
    Rep (s.orphans l) (l.foldl (fun d i => (makeOrphan d i).1) d) ∧ (s.orphans l).OK ∧ Eff s r (s.orphans l) r ∧ EffP s r (s.orphans l) r := by
  induction l with
  | nil => intro s d r h ok; exact ⟨h, ok, .refl, .refl⟩
  | cons i l ih =>
    intro s d r h ok
    obtain ⟨h1, h2, h3, h4⟩ := ih (fun j hj => hl j (by simp [hj])) (r := r) (h.makeOrphan_any ok (hl i (by simp))) (OK.orphan ok i)
    exact ⟨h1, h2, .trans (.orphan i) h3, .trans (.orphan i) (.orphan i) h4⟩

theorem finishRewrite_some {t : Txn} {l : List Ino} (h : TRep s t) (hl : t.rewrite = some l) (hb : ∀ i ∈ l, i < W64) :
    ∃ t', finishRewrite t = (t', .ok ()) ∧ TRep (s.orphans l) t' ∧ t'.refs = t.refs ∧ t'.hooks = t.hooks ∧ t'.rewrite = none := by
  obtain ⟨h1, h2, -⟩ := finish_fold hb (r := t.refs) h.1 h.2
  refine ⟨{ t with db := l.foldl (fun d i => (makeOrphan d i).1) t.db, rewrite := none }, ?_, ⟨h1, h2⟩, rfl, rfl, rfl⟩
  unfold finishRewrite; rw [hl]

/-- Marked inodes are 64 bit numbers. -/
def RewriteOK (rw : Option (List Ino)) : Prop := ∀ l, rw = some l → ∀ i ∈ l, i < W64

theorem collectKids_lt {dir : Ino} {l : List (Bytes × DirEnt)} {acc r : List Ino} (hacc : ∀ i ∈ acc, i < W64)
    (h : collectKids dir l acc = .ok r) : ∀ i ∈ r, i < W64 := by
  induction l generalizing acc with
  | nil => cases h; exact hacc
  | cons e t ih =>
    unfold collectKids at h
    by_cases hlen : e.1.length = 16
    · rw [chk_of (decide_eq_true hlen)] at h
      simp only [bind_ok] at h
      split at h
      · refine ih ?_ h
        intro i hi
        rcases mem_setInsert.mp hi with rfl | hi
        · have := leDec_lt (e.1.drop 8)
          have hl : (e.1.drop 8).length = 8 := by simp; omega
          rw [hl, w64_eq] at this; exact this
        · exact hacc i hi
      · cases h; exact hacc
    · simp [chk, hlen, bind_err] at h

/-- Every operation leads from a consistent state to a consistent state by effects; `lock` and
`release` leave the databases alone. -/
theorem doOp_eff {t t' : Txn} {o : Op} {out : Out} (h : TRep s t) (hr : o.inRange) (hrw : RewriteOK t.rewrite)
    (ha : ∀ p n a, o = .emplace p n a → p ≠ 0 ∧ s.next + 1 < W64)
    (he : doOp t o = .ok (t', out)) :
    ∃ s', TRep s' t' ∧ RewriteOK t'.rewrite ∧
      ((Eff s t.refs s' t'.refs ∧ t'.hooks = t.hooks ∧ ((∀ p n a, o = .emplace p n a → s.IsDir p) → EffP s t.refs s' t'.refs)) ∨
       (t'.db = t.db ∧ s' = s ∧ ((∃ i, o = .lock i) ∨ ∃ i n, o = .release i n))) := by
  have ro : ∀ {β : Type} {m : M β} {f : β → Out}, (do let r ← m; pure (t, f r)) = (.ok (t', out) : M (Txn × Out)) → t' = t := by
    intro β m f hm
    cases m with
    | error e => cases hm
    | ok v => cases hm; rfl
  have triv : t' = t → ∃ s', TRep s' t' ∧ RewriteOK t'.rewrite ∧
      ((Eff s t.refs s' t'.refs ∧ t'.hooks = t.hooks ∧ ((∀ p n a, o = .emplace p n a → s.IsDir p) → EffP s t.refs s' t'.refs)) ∨
       (t'.db = t.db ∧ s' = s ∧ ((∃ i, o = .lock i) ∨ ∃ i n, o = .release i n))) := by
    rintro rfl; exact ⟨s, h, hrw, .inl ⟨.refl, rfl, fun _ => .refl⟩⟩
  have collHooks : ∀ {m : M (Txn × Res Unit)} {f : Res Unit → Out}, (do let (t', r) ← m; pure (t', f r)) = (.ok (t', out) : M (Txn × Out)) →
      ∃ r, m = .ok (t', r) := by
    intro m f hm
    cases m with
    | error e => cases hm
    | ok v => obtain ⟨v1, v2⟩ := v; cases hm; exact ⟨v2, rfl⟩
  cases o with
  | lookup p n => exact triv (ro he)
  | getattr i => cases he; exact triv rfl
  | readlink i => cases he; exact triv rfl
  | readdir dir prev => exact triv (ro he)
  | path i => exact triv (ro he)
  | name i => cases he; exact triv rfl
  | parent i => cases he; exact triv rfl
  | testFlag i f => cases he; exact triv rfl
  | lock i =>
    have hdb : (lock t i).1.db = t.db ∧ (lock t i).1.rewrite = t.rewrite := by
      unfold lock Refs.incref
      split <;> rename_i heq <;> split at heq <;> cases heq <;> exact ⟨rfl, rfl⟩
    cases he
    exact ⟨s, ⟨by rw [hdb.1]; exact h.1, h.2⟩, by rw [hdb.2]; exact hrw, .inr ⟨hdb.1, rfl, .inl ⟨i, rfl⟩⟩⟩
  | release i n =>
    obtain ⟨r, hm⟩ := collHooks he
    have hdb : t'.db = t.db ∧ t'.rewrite = t.rewrite := by
      unfold release Refs.decref at hm
      by_cases hn : n = 0
      · simp only [hn, if_true] at hm; cases hm; exact ⟨rfl, rfl⟩
      · simp only [hn, if_false] at hm
        by_cases hlt : (t.refs i).nrefs < n
        · simp only [hlt, if_true, bind_err] at hm; cases hm
        · simp only [hlt, if_false, bind_ok] at hm; cases hm; exact ⟨rfl, rfl⟩
    exact ⟨s, ⟨by rw [hdb.1]; exact h.1, h.2⟩, by rw [hdb.2]; exact hrw, .inr ⟨hdb.1, rfl, .inr ⟨i, n, rfl⟩⟩⟩
  | emplace p n a =>
    obtain ⟨hp0, hnext⟩ := ha p n a rfl
    have hm : ∃ r, emplace t p n a = .ok (t', r) := by
      simp only [doOp] at he
      cases hm : emplace t p n a with
      | error e => rw [hm] at he; cases he
      | ok v => rw [hm] at he; obtain ⟨v1, v2⟩ := v; cases he; exact ⟨v2, rfl⟩
    obtain ⟨r, hm⟩ := hm
    obtain ⟨s', h1, h2, h3⟩ := emplace_eff h hr hp0 hnext hm
    refine ⟨s', h1, ?_, .inl ⟨h2, ?_, fun hd => h3 (hd p n a rfl)⟩⟩
    · rcases emplace_cases h (n := n) (a := a) hr hp0 hnext with ⟨-, g⟩ | ⟨-, i, nd, t1, -, -, -, g, -, -, -, g5⟩ | ⟨-, s1, s2, t1, -, g, g2⟩
      · rw [g] at hm; cases hm; exact hrw
      · rw [g] at hm; cases hm
        rw [g5]
        intro l hl i hi
        cases hrl : t.rewrite with
        | none => rw [hrl] at hl; cases hl
        | some l0 =>
          rw [hrl] at hl; cases hl
          exact hrw l0 hrl i (List.mem_filter.mp hi).1
      · rw [g] at hm; cases hm; rw [g2.rewrite]; exact hrw
    · rcases emplace_cases h (n := n) (a := a) hr hp0 hnext with ⟨-, g⟩ | ⟨-, i, nd, t1, -, -, -, g, -, -, g4, -⟩ | ⟨-, s1, s2, t1, -, g, g2⟩
      · rw [g] at hm; cases hm; rfl
      · rw [g] at hm; cases hm; exact g4
      · rw [g] at hm; cases hm; exact g2.hooks
  | unlinkIno i =>
    obtain ⟨r, hm⟩ := collHooks he
    obtain ⟨s', h1, h2, h3⟩ := unlinkIno_eff h hr hm
    have : t'.rewrite = t.rewrite ∧ t'.hooks = t.hooks := by
      unfold unlinkIno clean at hm
      split at hm
      · cases hm; exact ⟨rfl, rfl⟩
      · cases hc : cleanOrphans (Cache.makeOrphan t.db i).1 t.refs with
        | error e => simp_all [bind_err]
        | ok v => simp_all [bind_ok]; obtain ⟨h, -⟩ := hm; subst h; exact ⟨rfl, rfl⟩
    exact ⟨s', h1, by rw [this.1]; exact hrw, .inl ⟨h2, this.2, fun _ => h3⟩⟩
  | unlinkName p n =>
    obtain ⟨r, hm⟩ := collHooks he
    obtain ⟨s', h1, h2, h3⟩ := unlinkName_eff h hr hm
    have : t'.rewrite = t.rewrite ∧ t'.hooks = t.hooks := by
      by_cases hex : ∃ i, s.At p n i
      · obtain ⟨i, hi⟩ := hex
        obtain ⟨s', t1, g1, g2⟩ := unlinkName_spec h hi
        rw [g1] at hm; cases hm; exact ⟨g2.rewrite, g2.hooks⟩
      · rw [unlinkName_missing h hr (fun i hi => hex ⟨i, hi⟩)] at hm; cases hm; exact ⟨rfl, rfl⟩
    exact ⟨s', h1, by rw [this.1]; exact hrw, .inl ⟨h2, this.2, fun _ => h3⟩⟩
  | clean =>
    obtain ⟨r, hm⟩ := collHooks he
    obtain ⟨s', t1, g1, g2⟩ := clean_spec h
    rw [g1] at hm; cases hm
    exact ⟨s', g2.rep, by rw [g2.rewrite]; exact hrw, .inl ⟨g2.eff, g2.hooks, fun _ => .collect g2.coll⟩⟩
  | writelink i dest =>
    cases hi : s.nodes i with
    | none => rw [doOp, writelink_missing h hr hi] at he; cases he; exact triv rfl
    | some nd =>
      by_cases hf : fmt nd.attr.mode = S_IFLNK
      · obtain ⟨t1, g1, g2, g3, g4, g5⟩ := writelink_spec h (dest := dest) hi hf
        rw [doOp, g1] at he; cases he
        refine ⟨_, g2, by rw [g5]; exact hrw, .inl ⟨?_, g4, fun _ => ?_⟩⟩
        · rw [g3]; exact .set hi rfl rfl (fun _ _ => hf)
        · rw [g3]; exact .set hi rfl rfl
      · rw [doOp, writelink_notlink h hi hf] at he; cases he; exact triv rfl
  | updateFlags i a b =>
    cases hi : s.nodes i with
    | none => rw [doOp, updateFlags_missing h hr.1 hi] at he; cases he; exact triv rfl
    | some nd =>
      obtain ⟨t1, g1, g2, g3, g4, g5⟩ := updateFlags_spec h (a := a) (b := b) hi
      rw [doOp, g1] at he; cases he
      refine ⟨_, g2, by rw [g5]; exact hrw, .inl ⟨?_, g4, fun _ => ?_⟩⟩
      · rw [g3]; exact .set hi rfl rfl (fun t ht => h.2.target i nd t hi ht)
      · rw [g3]; exact .set hi rfl rfl
  | startRewrite dir =>
    obtain ⟨r, hm⟩ := collHooks he
    unfold startRewrite at hm
    split at hm
    · cases hm; exact triv rfl
    · split at hm
      · cases hm; exact triv rfl
      · rename_i e l heq
        cases hc : collectKids dir (e :: l) [] with
        | error x => rw [hc] at hm; cases hm
        | ok v =>
          rw [hc] at hm; cases hm
          refine ⟨s, h, ?_, .inl ⟨.refl, rfl, fun _ => .refl⟩⟩
          intro l' hl'; cases hl'
          exact collectKids_lt (by simp) hc
  | finishRewrite =>
    cases hrl : t.rewrite with
    | none =>
      have : finishRewrite t = (t, .error EBADFD) := by unfold finishRewrite; rw [hrl]
      rw [doOp, this] at he; cases he; exact triv rfl
    | some l =>
      obtain ⟨t1, g1, g2, g3, g4, g5⟩ := finishRewrite_some h hrl (hrw l hrl)
      rw [doOp, g1] at he; cases he
      obtain ⟨-, -, e1, e2⟩ := finish_fold (hrw l hrl) (r := t.refs) h.1 h.2
      refine ⟨_, g2, by (unfold RewriteOK; rw [g5]; intro l' hl'; cases hl'), .inl ⟨by rw [g3]; exact e1, g4, fun _ => by rw [g3]; exact e2⟩⟩

/-! ### Invariant of reachable worlds -/

/-- The databases hold a consistent state. -/
def Good (d : DB) : Prop := ∃ s, Rep s d ∧ s.OK
/-- The databases hold a consistent state without cycles or dangling entries. -/
def GoodWF (d : DB) : Prop := ∃ s, Rep s d ∧ s.OK ∧ s.WF

theorem Good.next {d} (h : Good d) : ∃ n, d.next = some n := by
  obtain ⟨s, h, -⟩ := h; exact ⟨s.next, h.next⟩

/-- Invariant, for a notion `G` of consistency. -/
structure Inv (G : DB → Prop) (w : World) : Prop where
  disk : w.disk = emptyDB ∧ w.phase = .down ∨ G w.disk
  down : w.phase ≠ .up → w.stack = [] ∧ w.refs = Refs.empty
  frames : ∀ f ∈ w.stack, G f.db ∧ RewriteOK f.rewrite

theorem root_rep (uid gid : Nat) (now : Timespec) :
    ∃ s : Tree, Rep s (initDB emptyDB uid gid now) ∧ s.OK ∧ s.WF := by
  let nd : Node := ⟨rootAttrs uid gid now, 0, none, none⟩
  refine ⟨⟨fun i => if i = ROOT then some nd else none, 2⟩, ⟨rfl, ?_, ?_, ?_, ?_, ?_⟩, ⟨?_, ?_, ?_, ?_, ?_, ?_, ?_⟩, ?_⟩
  · intro k r
    show ((Tab.empty.put (key8 ROOT) _).find k = some r) ↔ _
    rw [Tab.find_put]
    by_cases hk : key8 ROOT = k
    · rw [if_pos hk]; subst hk
      constructor
      · intro h; cases h; exact ⟨ROOT, nd, rfl, by simp, rfl⟩
      · rintro ⟨i, nd', h1, h2, h3⟩
        simp only at h2
        split at h2
        · cases h2; rw [h3]; rfl
        · cases h2
    · rw [if_neg hk]
      constructor
      · intro h; rw [Tab.find_empty] at h; cases h
      · rintro ⟨i, nd', h1, h2, h3⟩
        simp only at h2
        split at h2
        · rename_i hi; rw [hi] at h1; exact absurd h1.symm hk
        · cases h2
  · intro k e
    constructor
    · intro h; exact absurd h (by rw [show (initDB emptyDB uid gid now).treei = Tab.empty from rfl, Tab.find_empty]; simp)
    · rintro ⟨i, nd', p, n, -, h2, h3, -⟩
      simp only at h2
      split at h2
      · cases h2; cases h3
      · cases h2
  · intro k e
    constructor
    · intro h; exact absurd h (by rw [show (initDB emptyDB uid gid now).treen = Tab.empty from rfl, Tab.find_empty]; simp)
    · rintro ⟨i, nd', p, n, -, h2, h3, -⟩
      simp only at h2
      split at h2
      · cases h2; cases h3
      · cases h2
  · intro k e
    constructor
    · intro h; exact absurd h (by rw [show (initDB emptyDB uid gid now).orphans = Tab.empty from rfl, Tab.find_empty]; simp)
    · rintro ⟨i, nd', -, h2, -, h4⟩
      simp only at h2
      split at h2
      · rename_i hi; exact absurd hi h4
      · cases h2
  · intro k e
    constructor
    · intro h; exact absurd h (by rw [show (initDB emptyDB uid gid now).links = Tab.empty from rfl, Tab.find_empty]; simp)
    · rintro ⟨i, nd', -, h2, h3⟩
      simp only at h2
      split at h2
      · cases h2; cases h3
      · cases h2
  · exact Nat.le_refl 2
  · show 2 < W64; decide
  · intro i nd' h
    simp only at h
    split at h
    · rename_i hi; subst hi; exact ⟨by decide, (show 1 < 2 by decide)⟩
    · cases h
  · exact ⟨nd, by simp, (show fmt S_IFDIR = S_IFDIR by decide), rfl⟩
  · intro i nd' p n h hl
    simp only at h
    split at h
    · cases h; cases hl
    · cases h
  · intro i j a b l ha hb hla
    simp only at ha
    split at ha
    · cases ha; cases hla
    · cases ha
  · intro i nd' t h ht
    simp only at h
    split at h
    · cases h; cases ht
    · cases h
  · intro i nd' p n h hl
    simp only at h
    split at h
    · cases h; cases hl
    · cases h

theorem openClean_spec {s : Tree} {d : DB} (h : Rep s d) (ok : s.OK) (r : Refs) :
    ∃ s1 s2 d' r1 r', openCleanDB d r = .ok (d', r') ∧ Rep s2 d' ∧ s1.OK ∧ s2.OK ∧ Collected s (locked r) s1 ∧
      DoomedBy r r1 (Gone s (locked r)) ∧ Collected s1 (locked r1) s2 ∧ DoomedBy r1 r' (Gone s1 (locked r1)) ∧
      (∀ i nd, s1.nodes i = some nd → i ≠ ROOT → nd.loc = none → 0 < (r i).nrefs) := by
  obtain ⟨s1, d1, r1, e1, e2, e3, e4, e5, e6⟩ := h.cleanOrphans ok r
  obtain ⟨s2, d2, r2, g1, g2, g3, g4, g5, g6⟩ := e2.cleanOrphans e3 r1
  refine ⟨s1, s2, d2, r1, r2, ?_, g2, e3, g3, e4, e5, g4, g5, e6⟩
  unfold openCleanDB; rw [e1]; exact g1

/-- The invariant is preserved, for any notion of consistency which the constructor and the
operations preserve. -/
theorem Inv.stepG {G : DB → Prop} (P : World → Call → Prop)
    (g1 : ∀ uid gid now, G (initDB emptyDB uid gid now)) (g2 : ∀ d, G d → Good d)
    (g3 : ∀ d r d' r', G d → openCleanDB d r = .ok (d', r') → G d')
    (g4 : ∀ w f r o t out, G f.db → RewriteOK f.rewrite → Allowed w (.op o) → P w (.op o) → w.stack = f :: r →
      doOp (f.txn w.refs) o = .ok (t, out) → G t.db ∧ RewriteOK t.rewrite)
    {w w' : World} {c : Call} {o : Out} (h : Inv G w) (ha : Allowed w c) (hP : P w c) (hs : w.step c = .ok (w', o)) :
    Inv G w' := by
  cases c with
  | crash => cases hs; exact ⟨by rcases h.disk with h | h <;> simp [h], fun _ => ⟨rfl, rfl⟩, by simp⟩
  | openInit uid gid now =>
    simp only [World.step] at hs
    split at hs
    · rename_i hph
      cases hs
      have hd := h.down (by rw [hph]; simp)
      refine ⟨.inr ?_, fun _ => hd, by rw [hd.1]; simp⟩
      rcases h.disk with ⟨h1, -⟩ | h1
      · simp only [h1]
        exact g1 uid gid now
      · obtain ⟨n, hn⟩ := Good.next (g2 _ h1)
        have : initDB w.disk uid gid now = w.disk := by unfold initDB; rw [hn]
        simp only [this]; exact h1
    · cases hs
  | openClean =>
    simp only [World.step] at hs
    split at hs
    · rename_i hph
      rcases h.disk with ⟨-, h1⟩ | h1
      · rw [hph] at h1; cases h1
      · cases hc : openCleanDB w.disk w.refs with
        | error e => rw [hc] at hs; cases hs
        | ok v =>
          obtain ⟨d', r'⟩ := v
          rw [hc] at hs; cases hs
          have hd := h.down (by rw [hph]; simp)
          exact ⟨.inr (g3 _ _ _ _ h1 hc), by simp, by simp only; rw [hd.1]; simp⟩
    · cases hs
  | beginRO =>
    simp only [World.step] at hs
    split at hs
    · rename_i hph
      cases hs
      rcases h.disk with ⟨-, h1⟩ | h1
      · rw [hph.1] at h1; cases h1
      · exact ⟨.inr h1, by simp [hph.1], by intro f hf; simp at hf; subst hf; exact ⟨h1, by intro l hl; cases hl⟩⟩
    · cases hs
  | beginRW =>
    simp only [World.step] at hs
    split at hs
    · rename_i hph
      cases hs
      rcases h.disk with ⟨-, h1⟩ | h1
      · rw [hph.1] at h1; cases h1
      · exact ⟨.inr h1, by simp [hph.1], by intro f hf; simp at hf; subst hf; exact ⟨h1, by intro l hl; cases hl⟩⟩
    · cases hs
  | nested =>
    simp only [World.step] at hs
    split at hs
    · cases hs
    · rename_i f r hst
      split at hs
      · cases hs
      · cases hs
        have hf := h.frames f (by rw [hst]; simp)
        refine ⟨h.disk, ?_, ?_⟩
        · intro hp; have := (h.down hp).1; rw [hst] at this; cases this
        · intro g hg
          simp only [List.mem_cons] at hg
          rcases hg with rfl | rfl | hg
          · exact ⟨hf.1, by intro l hl; cases hl⟩
          · exact hf
          · exact h.frames g (by rw [hst]; simp [hg])
  | op o =>
    simp only [World.step] at hs
    split at hs
    · cases hs
    · rename_i f r hst
      split at hs
      · cases hs
      · cases hd : doOp (f.txn w.refs) o with
        | error e => rw [hd] at hs; cases hs
        | ok v =>
          obtain ⟨t, out⟩ := v
          rw [hd] at hs; cases hs
          obtain ⟨h1, h3⟩ := h.frames f (by rw [hst]; simp)
          have hg4 := g4 w f r o t out h1 h3 ha hP hst hd
          refine ⟨h.disk, ?_, ?_⟩
          · intro hp; have := (h.down hp).1; rw [hst] at this; cases this
          · intro g hg
            simp only [List.mem_cons] at hg
            rcases hg with rfl | hg
            · exact hg4
            · exact h.frames g (by rw [hst]; simp [hg])
  | commit =>
    simp only [World.step] at hs
    split at hs
    · cases hs
    · rename_i f hst
      cases hs
      have hup : w.phase = .up := Classical.byContradiction fun hp => by
        have := (h.down hp).1; rw [hst] at this; cases this
      refine ⟨?_, by simp [hup], by simp⟩
      right
      simp only
      split
      · rcases h.disk with ⟨-, h1⟩ | h1
        · rw [hup] at h1; cases h1
        · exact h1
      · exact (h.frames f (by rw [hst]; simp)).1
    · rename_i f g r hst
      cases hs
      refine ⟨h.disk, ?_, ?_⟩
      · intro hp; have := (h.down hp).1; rw [hst] at this; cases this
      · intro x hx
        simp only [List.mem_cons] at hx
        rcases hx with rfl | hx
        · exact ⟨(h.frames f (by rw [hst]; simp)).1, (h.frames g (by rw [hst]; simp)).2⟩
        · exact h.frames x (by rw [hst]; simp [hx])
  | abort =>
    simp only [World.step] at hs
    split at hs
    · cases hs
    · rename_i f r hst
      cases hu : undoAll w.refs f.hooks.reverse with
      | error e => rw [hu] at hs; cases hs
      | ok v =>
        rw [hu] at hs; cases hs
        refine ⟨h.disk, ?_, ?_⟩
        · intro hp; have := (h.down hp).1; rw [hst] at this; cases this
        · intro x hx; exact h.frames x (by rw [hst]; simp [show x ∈ r from hx])
  | drop =>
    simp only [World.step] at hs
    split at hs
    · cases hs
    · rename_i f r hst
      cases hs
      refine ⟨h.disk, ?_, ?_⟩
      · intro hp; have := (h.down hp).1; rw [hst] at this; cases this
      · intro x hx; exact h.frames x (by rw [hst]; simp [show x ∈ r from hx])

theorem good_op {w : World} {f : Frame} {r o t out} (h : Good f.db) (h3 : RewriteOK f.rewrite) (ha : Allowed w (.op o))
    (hst : w.stack = f :: r) (hd : doOp (f.txn w.refs) o = .ok (t, out)) : Good t.db ∧ RewriteOK t.rewrite := by
  obtain ⟨s, h1, h2⟩ := h
  obtain ⟨s', g1, g2, -⟩ := doOp_eff (t := f.txn w.refs) ⟨h1, h2⟩ ha.1 h3 (by
    rintro p n a rfl
    have := ha.2 f r hst
    simp only at this
    exact ⟨this.1, this.2 _ h1.next⟩) hd
  exact ⟨⟨s', g1⟩, g2⟩

theorem Inv.step {w w' : World} {c : Call} {o : Out} (h : Inv Good w) (ha : Allowed w c) (hs : w.step c = .ok (w', o)) :
    Inv Good w' := by
  refine Inv.stepG (fun _ _ => True) ?_ (fun _ h => h) ?_ ?_ h ha trivial hs
  · intro uid gid now
    obtain ⟨s, h1, h2, -⟩ := root_rep uid gid now
    exact ⟨s, h1, h2⟩
  · rintro d r d' r' ⟨s, h1, h2⟩ he
    obtain ⟨s1, s2, d2, r1, r2, e1, e2, -, e3, -⟩ := openClean_spec h1 h2 r
    rw [e1] at he; cases he; exact ⟨s2, e2, e3⟩
  · intro w f r o t out h1 h2 h3 _ h4 h5
    exact good_op h1 h2 h3 h4 h5

theorem Inv.stepP {w w' : World} {c : Call} {o : Out} (h : Inv GoodWF w) (ha : Allowed w c) (hp : Proper w c)
    (hs : w.step c = .ok (w', o)) : Inv GoodWF w' := by
  refine Inv.stepG Proper ?_ ?_ ?_ ?_ h ha hp hs
  · intro uid gid now
    exact root_rep uid gid now
  · rintro d ⟨s, h1, h2, -⟩; exact ⟨s, h1, h2⟩
  · rintro d r d' r' ⟨s, h1, h2, hwf⟩ he
    obtain ⟨s1, s2, d2, r1, r2, e1, e2, ok1, e3, e4, -, e6, -⟩ := openClean_spec h1 h2 r
    rw [e1] at he; cases he
    exact ⟨s2, e2, e3, EffP.wf (r := r1) (r' := r') (.collect e6) ok1 (EffP.wf (r := r) (r' := r1) (.collect e4) h2 hwf)⟩
  · rintro w f r o t out ⟨s, h1, h2, hwf⟩ h3 ha hp hst hd
    obtain ⟨s', g1, g2, g3⟩ := doOp_eff (t := f.txn w.refs) ⟨h1, h2⟩ ha.1 h3 (by
      rintro p n a rfl
      have := ha.2 f r hst
      simp only at this
      exact ⟨this.1, this.2 _ h1.next⟩) hd
    refine ⟨⟨s', g1.1, g1.2, ?_⟩, g2⟩
    rcases g3 with ⟨-, -, g3⟩ | ⟨-, rfl, -⟩
    · refine (g3 ?_).wf h2 hwf
      rintro p n a rfl
      obtain ⟨b, hb1, hb2⟩ := hp f r hst
      rw [h1.getattr h2 ha.1] at hb1
      cases hn : s.nodes p with
      | none => rw [hn] at hb1; cases hb1
      | some nd => rw [hn] at hb1; cases hb1; exact ⟨nd, hn, hb2⟩
    · exact hwf

theorem Inv.init (G : DB → Prop) : Inv G World.init :=
  ⟨.inl ⟨rfl, rfl⟩, fun _ => ⟨rfl, rfl⟩, by simp [World.init]⟩

/-- Every reachable world holds consistent databases. -/
theorem Reach.inv {w : World} (h : Reach w) : Inv Good w := by
  induction h with
  | init => exact Inv.init _
  | step _ h1 h2 ih => exact ih.step h1 h2

/-- Worlds reachable by proper calls moreover hold no cycles and no dangling entries. -/
theorem ReachP.inv {w : World} (h : ReachP w) : Inv GoodWF w := by
  induction h with
  | init => exact Inv.init _
  | step _ h1 h2 h3 ih => exact ih.stepP h1 h2 h3

end Dragonstash.Cache
