/-
  C29: rewriting a directory (`start_dir_rewrite`, `emplace`s, `finish_dir_rewrite`).
-/
import Verif.Cache.Steps
import Verif.Props.CacheOps
namespace Dragonstash.Cache
open Codec

/-! ### Specification -/

/-- Operations which neither create, remove nor mark entries. -/
def Op.quiet : Op → Bool
  | .writelink .. | .updateFlags .. => true
  | o => o.isRO

/-- `Rewriting d w l w'`: calls on the open transaction which lead from `w` to `w'`: emplaces into
directory `d` (those which succeeded are listed in `l` with the returned inodes, latest first) and
quiet operations. -/
inductive Rewriting (d : Ino) : World → List (Bytes × Ino) → World → Prop
  | nil {w} : Rewriting d w [] w
  | put {w l w1 w2 n a i} : Rewriting d w l w1 → Allowed w1 (.op (.emplace d n a)) →
      w1.step (.op (.emplace d n a)) = .ok (w2, .ino (.ok i)) → Rewriting d w ((n, i) :: l) w2
  | fail {w l w1 w2 n a e} : Rewriting d w l w1 → Allowed w1 (.op (.emplace d n a)) →
      w1.step (.op (.emplace d n a)) = .ok (w2, .ino (.error e)) → Rewriting d w l w2
  | quiet {w l w1 w2 o out} : Rewriting d w l w1 → o.quiet = true → Allowed w1 (.op o) →
      w1.step (.op o) = .ok (w2, out) → Rewriting d w l w2

theorem Rewriting.reach {d : Ino} {w w' : World} {l} (hr : Rewriting d w l w') (h : Reach w) : Reach w' := by
  induction hr with
  | nil => exact h
  | put _ h1 h2 ih => exact .step ih h1 h2
  | fail _ h1 h2 ih => exact .step ih h1 h2
  | quiet _ _ h1 h2 ih => exact .step ih h1 h2

/-! ### Invariant -/

/-- `t` is a transaction whose database holds `s`, after the emplaces `l` into `d` since the state
`s0`, in which the entries of `d` were marked. -/
structure Rewr (d : Ino) (s0 : Tree) (l : List (Bytes × Ino)) (s : Tree) (rw : Option (List Ino)) : Prop where
  at_ : ∀ m j, s.At d m j ↔ l.lookup m = some j ∨ (l.lookup m = none ∧ s0.At d m j)
  mark : ∀ m j, s.At d m j → ((∃ L, rw = some L ∧ j ∈ L) ↔ l.lookup m = none)
  own : ∀ L j, rw = some L → j ∈ L → j < s.next ∧ ∀ q m, s.At q m j → q = d
  conn : s.Conn d
  others1 : ∀ q m j, q ≠ d → s.At q m j → s0.At q m j
  others2 : ∀ q m j, q ≠ d → s0.At q m j → s.At q m j ∨ (s.nodes q = none ∧ q < s.next)
  fmts : ∀ m j nd0, s0.nodes j = some nd0 → nd0.loc = some (d, m) → l.lookup m = none → ∃ nd, s.nodes j = some nd ∧ fmt nd.attr.mode = fmt nd0.attr.mode

theorem lookup_cons_iff {n m : Bytes} {i : Ino} {l : List (Bytes × Ino)} :
    ((n, i) :: l).lookup m = if m = n then some i else l.lookup m := by
  rw [List.lookup_cons]
  by_cases h : m = n
  · simp [h]
  · rw [show (m == n) = false by simpa using h, if_neg h]

theorem Rewr.start {d : Ino} {s : Tree} {rw : Option (List Ino)} (ok : s.OK) (hc : s.Conn d)
    (hm : ∀ j, (∃ l, rw = some l ∧ j ∈ l) ↔ ∃ n, s.At d n j) : Rewr d s [] s rw := by
  refine ⟨by simp, ?_, ?_, hc, fun _ _ _ _ h => h, fun _ _ _ _ h => .inl h, fun m j nd h _ _ => ⟨nd, h, rfl⟩⟩
  · intro m j h; simp only [List.lookup_nil, iff_true]; exact (hm j).mpr ⟨m, h⟩
  · intro L j h1 h2
    obtain ⟨n, nd, g1, g2⟩ := (hm j).mp ⟨L, h1, h2⟩
    refine ⟨(ok.bound j nd g1).2, ?_⟩
    rintro q m ⟨x, g3, g4⟩
    rw [g1] at g3; cases g3; rw [g2] at g4; cases g4; rfl

/-- Changing the contents of an inode. -/
theorem Rewr.set {d : Ino} {s0 s : Tree} {l} {rw} (h : Rewr d s0 l s rw) {i nd nd'} (hi : s.nodes i = some nd) (hl : nd'.loc = nd.loc)
    (hf : fmt nd'.attr.mode = fmt nd.attr.mode) : Rewr d s0 l (s.set i nd') rw := by
  have hat : ∀ {q m j}, (s.set i nd').At q m j ↔ s.At q m j := at_set hi hl
  refine ⟨fun m j => by rw [hat]; exact h.at_ m j, fun m j hj => h.mark m j (hat.mp hj), ?_, ?_, fun q m j hq hj => h.others1 q m j hq (hat.mp hj), ?_, ?_⟩
  · intro L j h1 h2
    obtain ⟨g1, g2⟩ := h.own L j h1 h2
    exact ⟨g1, fun q m hj => g2 q m (hat.mp hj)⟩
  · obtain ⟨cs, hp⟩ := h.conn
    refine ⟨cs, ?_⟩
    clear h
    induction hp with
    | root => exact .root
    | child h1 _ ih => exact .child (hat.mpr h1) ih
  · intro q m j hq hj
    rcases h.others2 q m j hq hj with g | ⟨g1, g2⟩
    · exact .inl (hat.mpr g)
    · refine .inr ⟨?_, g2⟩
      rw [Tree.set_ne]
      · exact g1
      · rintro rfl; rw [g1] at hi; cases hi
  · intro m j nd0 h1 h2 h3
    obtain ⟨x, g1, g2⟩ := h.fmts m j nd0 h1 h2 h3
    by_cases hj : j = i
    · subst hj; rw [hi] at g1; cases g1; exact ⟨nd', Tree.set_self, by rw [hf, g2]⟩
    · exact ⟨x, by rw [Tree.set_ne hj]; exact g1, g2⟩

/-- Existing entry of the same type: it is kept and its mark is removed. -/
theorem Rewr.keep {d : Ino} {s0 s : Tree} {l} {rw} (h : Rewr d s0 l s rw) (ok : s.OK) {i nd nd' n} (hi : s.nodes i = some nd) (hloc : nd.loc = some (d, n))
    (hl : nd'.loc = nd.loc) (hf : fmt nd'.attr.mode = fmt nd.attr.mode) :
    Rewr d s0 ((n, i) :: l) (s.set i nd') (rw.map (fun l => l.filter (· ≠ i))) := by
  have hat0 : s.At d n i := ⟨nd, hi, hloc⟩
  have h' := h.set hi hl hf
  have hmk : ∀ j, (∃ L, rw.map (fun l => l.filter (· ≠ i)) = some L ∧ j ∈ L) ↔ (∃ L, rw = some L ∧ j ∈ L) ∧ j ≠ i := by
    intro j
    cases rw with
    | none => simp
    | some L => simp
  refine ⟨?_, ?_, ?_, h'.conn, h'.others1, h'.others2, ?_⟩
  · intro m j
    rw [lookup_cons_iff, h'.at_ m j]
    by_cases hm : m = n
    · subst hm
      have : (l.lookup m = some i ∨ l.lookup m = none ∧ s0.At d m i) := (h.at_ m i).mp hat0
      simp only [if_true, Option.some.injEq, reduceCtorEq, false_and, or_false]
      constructor
      · intro hj; exact At.unique ok hat0 ((h.at_ m j).mpr hj)
      · rintro rfl; exact this
    · simp only [hm, if_false]
  · intro m j hj
    have hj' : s.At d m j := (at_set hi hl).mp hj
    rw [hmk, h.mark m j hj', lookup_cons_iff]
    by_cases hm : m = n
    · subst hm
      have := At.unique ok hj' hat0; subst this
      simp
    · simp only [hm, if_false]
      refine ⟨fun h => h.1, fun h => ⟨h, ?_⟩⟩
      rintro rfl
      obtain ⟨x, g1, g2⟩ := hj'
      rw [hi] at g1; cases g1; rw [hloc] at g2; cases g2; exact hm rfl
  · intro L j h1 h2
    obtain ⟨⟨L', g1, g2⟩, -⟩ := (hmk j).mp ⟨L, h1, h2⟩
    exact h'.own L' j g1 g2
  · intro m j nd0 h1 h2 h3
    rw [lookup_cons_iff] at h3
    split at h3
    · cases h3
    · exact h'.fmts m j nd0 h1 h2 h3

/-- New entry; the old one, if any, has been taken out. -/
theorem Rewr.add {d : Ino} {s0 s s' : Tree} {l} {rw} (h : Rewr d s0 l s rw) (ok : s.OK) {n a} (hn : GoodName n) (hd0 : d ≠ 0) (hd : d < W64)
    (hnext : s.next + 1 < W64) {s1 : Tree} (hs1 : (s1 = s ∧ ∀ i, ¬ s.At d n i) ∨
        ∃ i nd, s1 = s.orphan i ∧ s.nodes i = some nd ∧ nd.loc = some (d, n) ∧ fmt nd.attr.mode ≠ fmt a.mode)
    {L : Ino → Prop} (hc : Collected (s1.add d n a) L s') : Rewr d s0 ((n, s.next) :: l) s' rw := by
  have ok1 : s1.OK := by
    rcases hs1 with ⟨rfl, -⟩ | ⟨i, nd, rfl, -⟩
    · exact ok
    · exact OK.orphan ok i
  have hnext1 : s1.next = s.next := by
    rcases hs1 with ⟨rfl, -⟩ | ⟨i, nd, rfl, -⟩ <;> rfl
  have free : ∀ j, ¬ s1.At d n j := by
    rcases hs1 with ⟨rfl, h⟩ | ⟨i, nd, rfl, h1, h2, -⟩
    · exact h
    · exact orphan_free ok ⟨nd, h1, h2⟩
  have hat1 : ∀ q m j, s1.At q m j ↔ s.At q m j ∧ ¬ (q = d ∧ m = n) := by
    intro q m j
    rcases hs1 with ⟨rfl, h⟩ | ⟨i, nd, rfl, h1, h2, -⟩
    · refine ⟨fun hj => ⟨hj, ?_⟩, fun hj => hj.1⟩
      rintro ⟨rfl, rfl⟩; exact h j hj
    · rw [at_orphan]
      refine and_congr_right fun hj => ?_
      constructor
      · rintro hne ⟨rfl, rfl⟩; exact hne (At.unique ok hj ⟨nd, h1, h2⟩)
      · rintro hne rfl
        obtain ⟨x, g1, g2⟩ := hj
        rw [h1] at g1; cases g1; rw [h2] at g2; cases g2; exact hne ⟨rfl, rfl⟩
  have conn1 : s1.Conn d := by
    rcases hs1 with ⟨rfl, -⟩ | ⟨i, nd, rfl, h1, h2, -⟩
    · exact h.conn
    · exact Conn.orphan ok h.conn ⟨nd, h1, h2⟩
  have ok2 : (s1.add d n a).OK := OK.addNode ok1 (by omega) hd hn (by rw [hnext1]; exact hnext) free
  have conn2 : (s1.add d n a).Conn d := Conn.add ok1 conn1
  have hat2 : ∀ q m j, (s1.add d n a).At q m j ↔ (s.At q m j ∧ ¬ (q = d ∧ m = n)) ∨ (q = d ∧ m = n ∧ j = s.next) := by
    intro q m j; rw [at_add ok1, hat1, hnext1]
  have hat3 : ∀ q m j, s'.At q m j ↔ ((s.At q m j ∧ ¬ (q = d ∧ m = n)) ∨ (q = d ∧ m = n ∧ j = s.next)) ∧ ¬ (Gone (s1.add d n a) L q ∧ (s1.add d n a).IsDir q) := by
    intro q m j; rw [at_collected hc, hat2]
  have hnd : ¬ Gone (s1.add d n a) L d := Conn.not_gone ok2 conn2
  have hn' : s'.next = s.next + 1 := by rw [hc.next]; show s1.next + 1 = _; rw [hnext1]
  have hatd : ∀ m j, s'.At d m j ↔ (s.At d m j ∧ m ≠ n) ∨ (m = n ∧ j = s.next) := by
    intro m j; rw [hat3]; simp [hnd]
  have hnodes1 : ∀ j nd, s.nodes j = some nd → ∃ nd', s1.nodes j = some nd' ∧ nd'.attr = nd.attr := by
    intro j nd hj
    rcases hs1 with ⟨rfl, -⟩ | ⟨i, x, rfl, -⟩
    · exact ⟨nd, hj, rfl⟩
    · by_cases hi : j = i
      · subst hi; exact ⟨_, Tree.orphan_self hj, rfl⟩
      · exact ⟨nd, by rw [Tree.orphan_ne hi]; exact hj, rfl⟩
  refine ⟨?_, ?_, ?_, ?_, ?_, ?_, ?_⟩
  · intro m j
    rw [hatd, lookup_cons_iff]
    by_cases hm : m = n
    · simp only [hm, ne_eq, not_true, and_false, true_and, false_or, if_true, Option.some.injEq, reduceCtorEq, false_and, or_false]
      exact eq_comm
    · simp only [hm, ne_eq, not_false_eq_true, and_true, false_and, or_false, if_false]; exact h.at_ m j
  · intro m j hj
    rw [lookup_cons_iff]
    rcases (hatd m j).mp hj with ⟨g1, g2⟩ | ⟨g1, g2⟩
    · rw [if_neg g2]; exact h.mark m j g1
    · rw [if_pos g1]
      simp only [reduceCtorEq, iff_false]
      rintro ⟨L, k1, k2⟩
      have := (h.own L j k1 k2).1; omega
  · intro L j h1 h2
    obtain ⟨g1, g2⟩ := h.own L j h1 h2
    refine ⟨by omega, ?_⟩
    intro q m hj
    rcases ((hat3 q m j).mp hj).1 with ⟨k, -⟩ | ⟨k, -⟩
    · exact g2 q m k
    · exact k
  · obtain ⟨cs, hp⟩ := conn2
    exact ⟨cs, PathTo.collected ok2 hc hp⟩
  · intro q m j hq hj
    rcases ((hat3 q m j).mp hj).1 with ⟨k, -⟩ | ⟨k, -⟩
    · exact h.others1 q m j hq k
    · exact absurd k hq
  · intro q m j hq hj
    have hnone : s.nodes q = none → q < s.next → s'.nodes q = none ∧ q < s'.next := by
      intro g1 g2
      refine ⟨?_, by omega⟩
      cases hx : s'.nodes q with
      | none => rfl
      | some x =>
        obtain ⟨-, y, g3, -⟩ := hc.back hx
        rw [Tree.add_ne (by rw [hnext1]; omega)] at g3
        rcases hs1 with ⟨rfl, -⟩ | ⟨i, z, rfl, -⟩
        · rw [g1] at g3; cases g3
        · rw [orphan_none g1] at g3; cases g3
    rcases h.others2 q m j hq hj with g | ⟨g1, g2⟩
    · by_cases hg : Gone (s1.add d n a) L q ∧ (s1.add d n a).IsDir q
      · refine .inr ⟨hc.gone q hg.1, ?_⟩
        obtain ⟨x, hx⟩ := hg.1.exists_
        have := (ok2.bound q x hx).2
        rw [hn']; have e : (s1.add d n a).next = s1.next + 1 := rfl
        rw [e, hnext1] at this; exact this
      · exact .inl ((hat3 q m j).mpr ⟨.inl ⟨g, fun hh => hq hh.1⟩, hg⟩)
    · exact .inr (hnone g1 g2)
  · intro m j nd0 h1 h2 h3
    rw [lookup_cons_iff] at h3
    split at h3
    · cases h3
    · rename_i hm
      obtain ⟨x, g1, g2⟩ := h.fmts m j nd0 h1 h2 h3
      have hatj : s.At d m j := (h.at_ m j).mpr (.inr ⟨h3, nd0, h1, h2⟩)
      obtain ⟨x', g3, -⟩ := (hatd m j).mpr (.inl ⟨hatj, hm⟩)
      obtain ⟨-, y, g4, g5, -⟩ := hc.back g3
      rw [Tree.add_ne (by rw [hnext1]; have := (ok.bound j x g1).2; omega)] at g4
      obtain ⟨z, g6, g7⟩ := hnodes1 j x g1
      rw [g6] at g4; cases g4
      exact ⟨x', g3, by rw [g5, g7, g2]⟩

theorem doOp_emplace {t t' : Txn} {p n a r} (h : doOp t (.emplace p n a) = .ok (t', .ino r)) : emplace t p n a = .ok (t', r) := by
  simp only [doOp] at h
  cases hm : emplace t p n a with
  | error e => rw [hm] at h; cases h
  | ok v => rw [hm] at h; obtain ⟨v1, v2⟩ := v; cases h; rfl

theorem doOp_quiet_rewrite {t t' : Txn} {o : Op} {out : Out} (ho : o.quiet = true) (he : doOp t o = .ok (t', out)) : t'.rewrite = t.rewrite := by
  have ro : ∀ {β : Type} {m : M β} {f : β → Out}, (do let r ← m; pure (t, f r)) = (.ok (t', out) : M (Txn × Out)) → t' = t := by
    intro β m f hm
    cases m with
    | error e => cases hm
    | ok v => cases hm; rfl
  cases o with
  | lookup p n => rw [ro he]
  | getattr i => cases he; rfl
  | readlink i => cases he; rfl
  | readdir dir prev => rw [ro he]
  | path i => rw [ro he]
  | name i => cases he; rfl
  | parent i => cases he; rfl
  | testFlag i f => cases he; rfl
  | lock i =>
    simp only [doOp] at he; cases he
    unfold Cache.lock Refs.incref
    split <;> rename_i heq <;> split at heq <;> cases heq <;> rfl
  | release i n =>
    simp only [doOp] at he
    cases hm : Cache.release t i n with
    | error e => rw [hm] at he; cases he
    | ok v =>
      rw [hm] at he; obtain ⟨v1, v2⟩ := v; cases he
      unfold Cache.release Refs.decref at hm
      by_cases hn : n = 0
      · simp only [hn, if_true] at hm; cases hm; rfl
      · simp only [hn, if_false] at hm
        by_cases hlt : (t.refs i).nrefs < n
        · simp only [hlt, if_true, bind_err] at hm; cases hm
        · simp only [hlt, if_false, bind_ok] at hm; cases hm; rfl
  | writelink i dest =>
    simp only [doOp] at he; cases he
    unfold Cache.writelink; split
    · rfl
    · split <;> rfl
  | updateFlags i a b =>
    simp only [doOp] at he; cases he
    unfold Cache.updateFlags; split <;> rfl
  | _ => cases ho

theorem Rewriting.spec {d : Ino} {w w' : World} {l} (hr : Rewriting d w l w') (h : Reach w) {f r} (hst : w.stack = f :: r)
    {s0 : Tree} (hrep : Rep s0 f.db) (ok0 : s0.OK) (hJ : Rewr d s0 [] s0 f.rewrite) :
    ∃ f' s, w'.stack = f' :: r ∧ Rep s f'.db ∧ s.OK ∧ Rewr d s0 l s f'.rewrite := by
  induction hr with
  | nil => exact ⟨f, s0, hst, hrep, ok0, hJ⟩
  | @put l w1 w2 n a i hr ha hs ih =>
    obtain ⟨f1, s, e1, e2, e3, e4⟩ := ih
    obtain ⟨f', r', t', g1, -, g3, rfl⟩ := step_op hs
    rw [e1] at g1; cases g1
    have ha2 := ha.2 f1 r e1
    simp only at ha2
    have hnext := ha2.2 _ e2.next
    have hem := doOp_emplace g3
    rcases emplace_cases (t := f1.txn w1.refs) (s := s) ⟨e2, e3⟩ (n := n) (a := a) ha.1 ha2.1 hnext with ⟨-, k⟩ | ⟨-, j, nd, t1, k1, k2, k3, k, k4, -, -, k5⟩ | ⟨hn, s1, s', t1, k1, k, k2⟩
    · rw [k] at hem; cases hem
    · rw [k] at hem; cases hem
      refine ⟨_, _, rfl, k4.1, k4.2, ?_⟩
      show Rewr d s0 _ _ t'.rewrite
      rw [k5]
      exact e4.keep e3 k1 k2 rfl k3.symm
    · rw [k] at hem; cases hem
      refine ⟨_, _, rfl, k2.rep.1, k2.rep.2, ?_⟩
      show Rewr d s0 _ _ t'.rewrite
      rw [k2.rewrite]
      exact e4.add e3 hn ha2.1 ha.1 hnext k1 k2.coll
  | @fail l w1 w2 n a e hr ha hs ih =>
    obtain ⟨f1, s, e1, e2, e3, e4⟩ := ih
    obtain ⟨f', r', t', g1, -, g3, rfl⟩ := step_op hs
    rw [e1] at g1; cases g1
    have ha2 := ha.2 f1 r e1
    simp only at ha2
    have hnext := ha2.2 _ e2.next
    have hem := doOp_emplace g3
    rcases emplace_cases (t := f1.txn w1.refs) (s := s) ⟨e2, e3⟩ (n := n) (a := a) ha.1 ha2.1 hnext with ⟨-, k⟩ | ⟨-, j, nd, t1, k1, k2, k3, k, k4, -, -, k5⟩ | ⟨hn, s1, s', t1, k1, k, k2⟩
    · rw [k] at hem; cases hem; exact ⟨_, s, rfl, e2, e3, e4⟩
    · rw [k] at hem; cases hem
    · rw [k] at hem; cases hem
  | @quiet l w1 w2 o out hr hq ha hs ih =>
    obtain ⟨f1, s, e1, e2, e3, e4⟩ := ih
    have hR1 := hr.reach h
    obtain ⟨f', r', t', g1, -, g3, rfl⟩ := step_op hs
    rw [e1] at g1; cases g1
    have hrw := (hR1.inv.frames f1 (by rw [e1]; simp)).2
    have hne : ∀ p n a, o ≠ .emplace p n a := by rintro p n a rfl; cases hq
    obtain ⟨s', k1, sh⟩ := doOp_shape (t := f1.txn w1.refs) (s := s) ⟨e2, e3⟩ ha.1 hrw (fun p n a h => absurd h (hne p n a)) g3
    refine ⟨_, s', rfl, k1.1, k1.2, ?_⟩
    show Rewr d s0 _ _ t'.rewrite
    rw [doOp_quiet_rewrite hq g3]
    cases sh with
    | same => exact e4
    | lock => exact e4
    | release => exact e4
    | link h1 h2 => exact e4.set h1 (by rfl) (by rfl)
    | flags h1 => exact e4.set h1 (by rfl) (by rfl)
    | put => cases hq
    | clean => cases hq
    | unlinkIno => cases hq
    | unlinkName => cases hq
    | new => cases hq
    | replace => cases hq
    | finish => cases hq

/-- The state between `start_dir_rewrite` and `finish_dir_rewrite`. -/
theorem rewriting {w0 w1 w2 : World} (h : Reach w0) {d : Ino} {b : Bytes} (hd : d < W64) (hp : path w0.db d = .ok (.ok b))
    (ha : Allowed w0 (.op (.startRewrite d))) (hs : w0.step (.op (.startRewrite d)) = .ok (w1, .unit (.ok ()))) {l} (hr : Rewriting d w1 l w2) :
    ∃ f' r' s0 s, w2.stack = f' :: r' ∧ Rep s0 w0.db ∧ s0.OK ∧ Rep s f'.db ∧ s.OK ∧ Rewr d s0 l s f'.rewrite := by
  have hR1 := Reach.step h ha hs
  obtain ⟨f, r, t, g1, -, g3, rfl⟩ := step_op hs
  obtain ⟨⟨s0, h1, ok⟩, -⟩ := h.inv.frames f (by rw [g1]; simp)
  have hdb : w0.db = f.db := by simp [World.db, g1]
  have hn : f.rewrite = none := by
    cases hx : f.rewrite with
    | none => rfl
    | some L =>
      simp only [doOp] at g3
      have : startRewrite (f.txn w0.refs) d = .ok (f.txn w0.refs, .error EALREADY) := by
        unfold startRewrite; simp only [Frame.txn, hx]
      rw [this] at g3; cases g3
  obtain ⟨t', k1, k2, k3, k4, k5⟩ := startRewrite_spec (t := f.txn w0.refs) (s := s0) ⟨h1, ok⟩ (dir := d) hd hn
  simp only [doOp, k1] at g3
  cases g3
  rw [hdb] at hp ⊢
  obtain ⟨cs, hcs, -⟩ := h1.path_iff ok hd hp
  have k2' : t'.db = f.db := k2
  obtain ⟨f', s, e1, e2, e3, e4⟩ := hr.spec hR1 (f := ⟨t'.db, t'.rewrite, t'.hooks, f.ro⟩) (r := r) rfl (s0 := s0)
    (by show Rep s0 t'.db; rw [k2']; exact h1) ok (Rewr.start ok ⟨cs, hcs⟩ k5)
  exact ⟨f', r, s0, s, e1, h1, ok, e2, e3, e4⟩

theorem finish_at {w2 w3 : World} (h : Reach w2) {f r} (hst : w2.stack = f :: r) {s : Tree} (h1 : Rep s f.db) (ok : s.OK) {out : Out}
    (hs : w2.step (.op .finishRewrite) = .ok (w3, out)) :
    ∃ s', Rep s' w3.db ∧ s'.OK ∧ (∀ q m j, s'.At q m j ↔ s.At q m j ∧ ¬ ∃ L, f.rewrite = some L ∧ j ∈ L) ∧
      (∀ q, s'.nodes q = none ↔ s.nodes q = none) := by
  have hrw := (h.inv.frames f (by rw [hst]; simp)).2
  obtain ⟨f', r', t, g1, -, g3, rfl⟩ := step_op hs
  rw [hst] at g1; cases g1
  simp only [doOp] at g3
  cases hx : f.rewrite with
  | none =>
    have : finishRewrite (f.txn w2.refs) = (f.txn w2.refs, .error EBADFD) := by unfold finishRewrite; simp only [Frame.txn, hx]
    rw [this] at g3; cases g3
    exact ⟨s, h1, ok, by simp, by simp⟩
  | some L =>
    obtain ⟨t1, k1, k2, k3, -⟩ := finishRewrite_some (t := f.txn w2.refs) (s := s) ⟨h1, ok⟩ hx (hrw L hx)
    rw [k1] at g3; cases g3
    refine ⟨s.orphans L, k2.1, k2.2, ?_, ?_⟩
    · intro q m j; rw [orphans_At]; simp
    · intro q
      constructor
      · intro hq
        cases hn : s.nodes q with
        | none => rfl
        | some nd => obtain ⟨nd', e, -⟩ := orphans_nodes (l := L) hn; rw [hq] at e; cases e
      · exact orphans_none

/-! ### C29 -/

/-- C29: after `start_dir_rewrite(d)`, emplaces into `d` and `finish_dir_rewrite()`, the entries of
`d` are exactly the ones emplaced in between: `lookup(d, n)` finds the inode which the last emplace
of `n` returned, and nothing if there was none. (Whatever `finish_dir_rewrite` returns: it reports
EBADFD if there was nothing to mark.) -/
theorem C29_entries {w0 w1 w2 w3 : World} (h : Reach w0) {d : Ino} {b : Bytes} (hd : d < W64) (hp : path w0.db d = .ok (.ok b))
    (ha : Allowed w0 (.op (.startRewrite d))) (hs : w0.step (.op (.startRewrite d)) = .ok (w1, .unit (.ok ())))
    {l : List (Bytes × Ino)} (hr : Rewriting d w1 l w2) {out : Out} (hf : w2.step (.op .finishRewrite) = .ok (w3, out)) (n : Bytes) (i : Ino) :
    lookup w3.db d n = .ok (.ok i) ↔ l.lookup n = some i := by
  obtain ⟨f', r', s0, s, e1, e2, e3, e4, e5, e6⟩ := rewriting h hd hp ha hs hr
  have hR2 := hr.reach (Reach.step h ha hs)
  obtain ⟨s', k1, k2, k3, -⟩ := finish_at hR2 e1 e4 e5 hf
  rw [k1.lookup_iff k2 hd, k3]
  constructor
  · rintro ⟨g1, g2⟩
    rw [e6.mark n i g1] at g2
    rcases (e6.at_ n i).mp g1 with g | g
    · exact g
    · exact absurd g.1 g2
  · intro g
    have hat := (e6.at_ n i).mpr (.inl g)
    refine ⟨hat, ?_⟩
    rw [e6.mark n i hat, g]; simp

/-- C29: during the rewrite, an emplace over an entry which was there before keeps its inode if and
only if the file type is the same. -/
theorem C29_keeps_inode {w0 w1 w2 w3 : World} (h : Reach w0) {d : Ino} {b : Bytes} (hd : d < W64) (hp : path w0.db d = .ok (.ok b))
    (ha : Allowed w0 (.op (.startRewrite d))) (hs : w0.step (.op (.startRewrite d)) = .ok (w1, .unit (.ok ())))
    {l : List (Bytes × Ino)} (hr : Rewriting d w1 l w2) {n : Bytes} {i j : Ino} {a c : Attrs} (hn : l.lookup n = none)
    (hl : lookup w0.db d n = .ok (.ok i)) (hg : getattr w0.db i = .ok (i, c)) (ha2 : Allowed w2 (.op (.emplace d n a)))
    (he : w2.step (.op (.emplace d n a)) = .ok (w3, .ino (.ok j))) : j = i ↔ fmt c.mode = fmt a.mode := by
  obtain ⟨f', r', s0, s, e1, e2, e3, e4, e5, e6⟩ := rewriting h hd hp ha hs hr
  have hR2 := hr.reach (Reach.step h ha hs)
  obtain ⟨nd0, g1, g2⟩ := (e2.lookup_iff e3 hd).mp hl
  have hi := OK.lt e3 g1
  rw [e2.getattr e3 hi, g1] at hg
  have hc : nd0.attr = c := by simpa using hg
  obtain ⟨nd, g3, g4⟩ := e6.fmts n i nd0 g1 g2 hn
  have hat := (e6.at_ n i).mpr (.inr ⟨hn, nd0, g1, g2⟩)
  have hdb : w2.db = f'.db := by simp [World.db, e1]
  have hlk : lookup w2.db d n = .ok (.ok i) := by rw [hdb]; exact e4.lookup_found e5 hat
  have hga : getattr w2.db i = .ok (i, nd.attr) := by rw [hdb, e4.getattr e5 hi, g3]
  rw [C19_same_inode hR2 ha2 hlk hga he, g4, hc]

/-- C29: entries of other directories are untouched, unless their directory was removed (because it
was below an entry which was replaced by one of another type). -/
theorem C29_others {w0 w1 w2 w3 : World} (h : Reach w0) {d : Ino} {b : Bytes} (hd : d < W64) (hp : path w0.db d = .ok (.ok b))
    (ha : Allowed w0 (.op (.startRewrite d))) (hs : w0.step (.op (.startRewrite d)) = .ok (w1, .unit (.ok ())))
    {l : List (Bytes × Ino)} (hr : Rewriting d w1 l w2) {out : Out} (hf : w2.step (.op .finishRewrite) = .ok (w3, out))
    {q : Ino} (hq : q < W64) (hqd : q ≠ d) (m : Bytes) (j : Ino) :
    (lookup w3.db q m = .ok (.ok j) → lookup w0.db q m = .ok (.ok j)) ∧
    (lookup w0.db q m = .ok (.ok j) → lookup w3.db q m = .ok (.ok j) ∨ Missing w3.db q) := by
  obtain ⟨f', r', s0, s, e1, e2, e3, e4, e5, e6⟩ := rewriting h hd hp ha hs hr
  have hR2 := hr.reach (Reach.step h ha hs)
  obtain ⟨s', k1, k2, k3, k4⟩ := finish_at hR2 e1 e4 e5 hf
  rw [k1.lookup_iff k2 hq, e2.lookup_iff e3 hq, k1.missing k2 hq, k3, k4]
  constructor
  · rintro ⟨g, -⟩; exact e6.others1 q m j hqd g
  · intro g
    rcases e6.others2 q m j hqd g with g | g
    · refine .inl ⟨g, ?_⟩
      rintro ⟨L, g1, g2⟩
      exact hqd ((e6.own L j g1 g2).2 q m g)
    · exact .inr g.1

/-- C29: without an intermediate emplace the directory is cleared. -/
theorem C29_clear {w0 w1 w3 : World} (h : Reach w0) {d : Ino} {b : Bytes} (hd : d < W64) (hp : path w0.db d = .ok (.ok b))
    (ha : Allowed w0 (.op (.startRewrite d))) (hs : w0.step (.op (.startRewrite d)) = .ok (w1, .unit (.ok ())))
    {out : Out} (hf : w1.step (.op .finishRewrite) = .ok (w3, out)) (n : Bytes) (i : Ino) : lookup w3.db d n ≠ .ok (.ok i) := by
  intro hl
  have := (C29_entries h hd hp ha hs .nil hf n i).mp hl
  cases this

/-- C29: both calls always return; `start_dir_rewrite` succeeds unless a rewrite is in progress. -/
theorem C29_returns {w0 : World} (h : Reach w0) {f : Frame} {r : List Frame} (hst : w0.stack = f :: r) (hro : f.ro = false) {d : Ino} (hd : d < W64) :
    (∃ w1, w0.step (.op (.startRewrite d)) = .ok (w1, .unit (if f.rewrite = none then .ok () else .error EALREADY))) ∧
    ∃ w3 x, w0.step (.op .finishRewrite) = .ok (w3, .unit x) := by
  obtain ⟨⟨s0, h1, ok⟩, -⟩ := h.inv.frames f (by rw [hst]; simp)
  constructor
  · cases hx : f.rewrite with
    | none =>
      obtain ⟨t', k1, -⟩ := startRewrite_spec (t := f.txn w0.refs) (s := s0) ⟨h1, ok⟩ (dir := d) hd hx
      refine ⟨{ w0 with refs := t'.refs, stack := ⟨t'.db, t'.rewrite, t'.hooks, f.ro⟩ :: r }, ?_⟩
      simp only [World.step, hst, hro, Bool.false_and, Bool.false_eq_true, if_false, doOp, k1, bind_ok, pure_eq_ok, if_true]
    | some L =>
      have : startRewrite (f.txn w0.refs) d = .ok (f.txn w0.refs, .error EALREADY) := by
        unfold startRewrite; simp only [Frame.txn, hx]
      refine ⟨{ w0 with refs := w0.refs, stack := ⟨f.db, f.rewrite, f.hooks, f.ro⟩ :: r }, ?_⟩
      simp only [World.step, hst, hro, Bool.false_and, Bool.false_eq_true, if_false, doOp, this, bind_ok, pure_eq_ok, reduceCtorEq]
      simp only [Frame.txn, hx]
  · refine ⟨{ w0 with refs := (finishRewrite (f.txn w0.refs)).1.refs, stack := ⟨(finishRewrite (f.txn w0.refs)).1.db, (finishRewrite (f.txn w0.refs)).1.rewrite, (finishRewrite (f.txn w0.refs)).1.hooks, f.ro⟩ :: r }, (finishRewrite (f.txn w0.refs)).2, ?_⟩
    simp only [World.step, hst, hro, Bool.false_and, Bool.false_eq_true, if_false, doOp, bind_ok, pure_eq_ok]

/-- Directory 1 has the entries a, b (a directory with entry d), c. The rewrite keeps a, replaces b by
a file and adds e; c disappears. -/
example : ∃ w, Reach w ∧ path w.db 1 = .ok (.ok []) ∧
    (w.run [.op (.startRewrite 1), .op (.emplace 1 "a".toUTF8.toList (fileA 7)), .op (.emplace 1 "b".toUTF8.toList (fileA 8)), .op (.emplace 1 "e".toUTF8.toList dirA),
      .op (.updateFlags 1 [SYNCED] []), .op .finishRewrite,
      .op (.lookup 1 "a".toUTF8.toList), .op (.lookup 1 "b".toUTF8.toList), .op (.lookup 1 "c".toUTF8.toList), .op (.lookup 1 "e".toUTF8.toList), .op (.lookup 3 "d".toUTF8.toList)]).map Prod.snd
    = .ok [.unit (.ok ()), .ino (.ok 2), .ino (.ok 6), .ino (.ok 7), .unit (.ok ()), .unit (.ok ()), .ino (.ok 2), .ino (.ok 6), .ino (.error ENOENT), .ino (.ok 7), .ino (.error ENOENT)] :=
  demo_ex (cs := opened ++ [.beginRW, .op (.emplace 1 "a".toUTF8.toList (fileA 1)), .op (.emplace 1 "b".toUTF8.toList dirA), .op (.emplace 1 "c".toUTF8.toList (fileA 2)),
    .op (.emplace 3 "d".toUTF8.toList (fileA 3))]) (by decide +kernel)

/-- Runs `emplace` calls of a rewrite (for examples only). -/
def rewriteB (d : Ino) (w : World) (l : List (Bytes × Ino)) : List (Bytes × Attrs) → Option (World × List (Bytes × Ino))
  | [] => some (w, l)
  | (n, a) :: r => if allowedB w (.op (.emplace d n a)) then
      match w.step (.op (.emplace d n a)) with
      | .ok (w', .ino (.ok i)) => rewriteB d w' ((n, i) :: l) r
      | _ => none
    else none

theorem rewriteB_ok {d : Ino} {w : World} (r : List (Bytes × Attrs)) : ∀ {w1 : World} {l : List (Bytes × Ino)} {x : World × List (Bytes × Ino)},
    Rewriting d w l w1 → rewriteB d w1 l r = some x → Rewriting d w x.2 x.1 := by
  induction r with
  | nil => intro w1 l x h hx; cases hx; exact h
  | cons y r ih =>
    obtain ⟨n, a⟩ := y
    intro w1 l x h hx
    unfold rewriteB at hx
    split at hx
    · rename_i ha
      split at hx
      · rename_i w' i hs; exact ih (.put h (allowedB_iff ha) hs) hx
      · cases hx
    · cases hx

/-- The hypotheses of `C29_entries` and of `C29_others`, and (with the next `emplace`) those of
`C29_keeps_inode`: the directory of the example above, with `a` and `b` written again. `C29_returns`
applies to `w0` and to `w2`. -/
example : ∃ w0 w1 w2 w3 out w4, Reach w0 ∧ path w0.db 1 = .ok (.ok []) ∧ Allowed w0 (.op (.startRewrite 1)) ∧
    w0.step (.op (.startRewrite 1)) = .ok (w1, .unit (.ok ())) ∧ Rewriting 1 w1 [("b".toUTF8.toList, 6), ("a".toUTF8.toList, 2)] w2 ∧
    w2.step (.op .finishRewrite) = .ok (w3, out) ∧
    lookup w0.db 1 "c".toUTF8.toList = .ok (.ok 4) ∧ getattr w0.db 4 = .ok (4, fileA 2) ∧ Allowed w2 (.op (.emplace 1 "c".toUTF8.toList (fileA 9))) ∧
    w2.step (.op (.emplace 1 "c".toUTF8.toList (fileA 9))) = .ok (w4, .ino (.ok 4)) := by
  obtain ⟨w0, w1, h1, h2, h3, h4, h5, h6, h7⟩ := demo_step (cs := opened ++ [.beginRW, .op (.emplace 1 "a".toUTF8.toList (fileA 1)), .op (.emplace 1 "b".toUTF8.toList dirA), .op (.emplace 1 "c".toUTF8.toList (fileA 2)),
    .op (.emplace 3 "d".toUTF8.toList (fileA 3))]) (c := .op (.startRewrite 1)) (out := .unit (.ok ()))
    (P := fun w0 w1 => path w0.db 1 = .ok (.ok []) ∧ lookup w0.db 1 "c".toUTF8.toList = .ok (.ok 4) ∧ getattr w0.db 4 = .ok (4, fileA 2) ∧
      (match rewriteB 1 w1 [] [("a".toUTF8.toList, fileA 7), ("b".toUTF8.toList, fileA 8)] with
        | some (w2, l) => decide (l = [("b".toUTF8.toList, 6), ("a".toUTF8.toList, 2)]) && allowedB w2 (.op (.emplace 1 "c".toUTF8.toList (fileA 9))) &&
            (match w2.step (.op .finishRewrite) with | .ok _ => true | .error _ => false) &&
            (match w2.step (.op (.emplace 1 "c".toUTF8.toList (fileA 9))) with | .ok (_, o) => decide (o = .ino (.ok 4)) | .error _ => false)
        | none => false) = true) (by decide +kernel)
  split at h7
  · rename_i w2 l hr
    simp only [Bool.and_eq_true, decide_eq_true_eq] at h7
    obtain ⟨⟨⟨rfl, g2⟩, g3⟩, g4⟩ := h7
    split at g3
    · rename_i x hx
      split at g4
      · rename_i w4 o ho
        obtain rfl := of_decide_eq_true g4
        exact ⟨w0, w1, w2, x.1, x.2, w4, h1.reach, h4, h2, h3, rewriteB_ok _ .nil hr, hx, h5, h6, allowedB_iff g2, ho⟩
      · cases g4
    · cases g3
  · cases h7

/-- The hypotheses of `C29_clear`: the rewrite ends at once. -/
example : ∃ w1 w3, ReachP w1 ∧ Allowed w1 (.op .finishRewrite) ∧ w1.step (.op .finishRewrite) = .ok (w3, .unit (.ok ())) ∧
    lookup w1.db 1 "a".toUTF8.toList = .ok (.ok 2) ∧ lookup w3.db 1 "a".toUTF8.toList = .ok (.error ENOENT) :=
  demo_step (cs := opened ++ [.beginRW, .op (.emplace 1 "a".toUTF8.toList (fileA 1)), .op (.emplace 1 "b".toUTF8.toList dirA), .op (.startRewrite 1)]) (by decide +kernel)

end Dragonstash.Cache
