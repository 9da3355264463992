/-
  C18, C19, C24, C25, C26, C28, C30: effects of the operations on a transaction.

  `w.step (.op o) = .ok (w', out)`: calling `o` on the innermost open transaction of the world `w`
  returns `out` and leads to `w'`. `w.db` is what that transaction sees, `(w.refs i).nrefs` the lock
  count of inode `i` (C13 shows that it counts `lock` and `release` calls).
-/
import Verif.Cache.Shape
import Verif.Props.CacheTree
namespace Dragonstash.Cache
open Codec

/-! ### Specification -/

/-- The number of locks held on an inode. -/
def World.locks (w : World) (i : Ino) : Nat := (w.refs i).nrefs

/-- The inode exists and is a directory. -/
def IsDirectory (d : DB) (i : Ino) : Prop := ∃ a, getattr d i = .ok (i, a) ∧ fmt a.mode = S_IFDIR

/-- The inode does not exist. -/
def Missing (d : DB) (i : Ino) : Prop := getattr d i = .error ENOENT

/-- Inodes which a garbage collection has to remove, when `locks` are the lock counts: unlinked and
not locked; or not locked and inside a directory which is removed. -/
inductive Garbage (d : DB) (locks : Ino → Nat) : Ino → Prop
  | orphan {i x} : getattr d i = .ok x → i ≠ 1 → parent d i = .ok 0 → locks i = 0 → Garbage d locks i
  | child {i p} : parent d i = .ok p → i ≠ 1 → Garbage d locks p → IsDirectory d p → locks i = 0 → Garbage d locks i

/-- `i` is in no danger of being collected: it is reachable from the root, or locked. -/
def Safe (w : World) (i : Ino) : Prop := (∃ b, path w.db i = .ok (.ok b)) ∨ 0 < w.locks i

/-- `j` is `i` or below directory `i`. -/
def Below (d : DB) (i j : Ino) : Prop := ∃ cs, Walk d i cs j

/-! ### Bridges between observations and the abstract state -/

section bridge
variable {s s' : Tree} {d d' : DB}

theorem Rep.missing (h : Rep s d) (ok : s.OK) {i} (hb : i < W64) : Missing d i ↔ s.nodes i = none := by
  unfold Missing; rw [h.getattr ok hb]; cases s.nodes i <;> simp

theorem Rep.isDir (h : Rep s d) (ok : s.OK) {i} (hb : i < W64) : IsDirectory d i ↔ s.IsDir i := by
  unfold IsDirectory Tree.IsDir; rw [h.getattr ok hb]; cases s.nodes i <;> simp

theorem Rep.garbage (h : Rep s d) (ok : s.OK) {r : Refs} {i} (hb : i < W64) :
    Garbage d (fun j => (r j).nrefs) i ↔ Gone s (locked r) i := by
  constructor
  · intro hg
    induction hg with
    | @orphan i x h1 h2 h3 h4 =>
      rw [h.getattr ok hb] at h1
      cases hn : s.nodes i with
      | none => rw [hn] at h1; cases h1
      | some nd =>
        rw [h.parent ok hb, if_neg (show i ≠ ROOT from h2), hn] at h3
        refine .orphan hn h2 ?_ (by unfold locked; omega)
        cases hl : nd.loc with
        | none => rfl
        | some l =>
          obtain ⟨p, n⟩ := l
          have := (ok.loc i nd p n hn hl).1
          simp [Node.par, hl] at h3; omega
    | @child i p h1 h2 h3 h4 h5 ih =>
      rw [h.parent ok hb, if_neg (show i ≠ ROOT from h2)] at h1
      cases hn : s.nodes i with
      | none => rw [hn] at h1; cases h1
      | some nd =>
        rw [hn] at h1
        cases hl : nd.loc with
        | none =>
          have : p = 0 := by simpa [Node.par, hl] using h1.symm
          subst this
          have := (h.isDir ok (by decide)).mp h4
          obtain ⟨x, g, -⟩ := this
          have := (ok.bound _ _ g).1; omega
        | some l =>
          obtain ⟨q, n⟩ := l
          have hq : q = p := by simpa [Node.par, hl] using h1
          subst hq
          have hqb := (ok.loc i nd q n hn hl).2.1
          exact .child hn hl (ih hqb) ((h.isDir ok hqb).mp h4) (by unfold locked; omega)
  · intro hg
    induction hg with
    | @orphan i nd h1 h2 h3 h4 =>
      refine .orphan (x := (i, nd.attr)) ?_ h2 ?_ (by unfold locked at h4; omega)
      · rw [h.getattr ok hb, h1]
      · rw [h.parent ok hb, if_neg h2, h1]; simp [Node.par, h3]
    | @child i nd p n h1 h2 h3 h4 h5 ih =>
      have hqb := (ok.loc i nd p n h1 h2).2.1
      refine .child (p := p) ?_ (OK.loc_ne_root ok h1 h2) (ih hqb) ((h.isDir ok hqb).mpr h4) (by unfold locked at h5; omega)
      rw [h.parent ok hb, if_neg (OK.loc_ne_root ok h1 h2), h1]; simp [Node.par, h2]

theorem Rep.safe {w : World} (h : Rep s w.db) (ok : s.OK) {i} (hb : i < W64) (hs : Safe w i) : s.Conn i ∨ locked w.refs i := by
  rcases hs with ⟨b, hs⟩ | hs
  · obtain ⟨cs, h1, -⟩ := h.path_iff ok hb hs; exact .inl ⟨cs, h1⟩
  · exact .inr hs

/-- Equal nodes give equal observations. -/
theorem same_obs (h : Rep s d) (ok : s.OK) (h' : Rep s' d') (ok' : s'.OK) {i} (hb : i < W64) {nd nd'}
    (h1 : s.nodes i = some nd) (h2 : s'.nodes i = some nd') (ha : nd'.attr = nd.attr) (hf : nd'.flags = nd.flags) (ht : nd'.target = nd.target) :
    getattr d' i = getattr d i ∧ readlink d' i = readlink d i ∧ ∀ f, testFlag d' i f = testFlag d i f := by
  refine ⟨?_, ?_, fun f => ?_⟩
  · rw [h.getattr ok hb, h'.getattr ok' hb, h1, h2]; simp [ha]
  · rw [h.readlink ok hb, h'.readlink ok' hb, h1, h2]; simp [ht]
  · rw [h.testFlag ok hb, h'.testFlag ok' hb, h1, h2]; simp [hf]

end bridge

/-- `OpStep` with the state after the call. -/
theorem Inv.op' {w w' : World} {o : Op} {out : Out} (h : Inv Good w) (ha : Allowed w (.op o))
    (hs : w.step (.op o) = .ok (w', out)) : ∃ s t s' t', Rep s w.db ∧ s.OK ∧ Rep s' w'.db ∧ s'.OK ∧ Shape s t o out s' t' ∧ t.refs = w.refs ∧
      w'.refs = t'.refs ∧ OpStep w o w' out s t t' := by
  obtain ⟨s, t, t', o1⟩ := h.op ha hs
  obtain ⟨s', h1, h2⟩ := o1.shape
  exact ⟨s, t, s', t', by rw [← o1.db]; exact o1.trep.1, o1.trep.2, by rw [o1.db']; exact h1.1, h1.2, h2, o1.refs, o1.refs', o1⟩

theorem Reach.op' {w w' : World} {o : Op} {out : Out} (h : Reach w) (ha : Allowed w (.op o))
    (hs : w.step (.op o) = .ok (w', out)) : ∃ s t s' t', Rep s w.db ∧ s.OK ∧ Rep s' w'.db ∧ s'.OK ∧ Shape s t o out s' t' ∧ t.refs = w.refs ∧
      w'.refs = t'.refs ∧ OpStep w o w' out s t t' := h.inv.op' ha hs

/-! ### C18 -/

/-- C18: after `emplace(p, n, a)` returned `i`, `lookup(p, n)` returns `i`. (The directory must not
be an unlocked orphan: that one is garbage and removed by the same call.) -/
theorem C18_emplace_partial {w w' : World} (h : Reach w) {p : Ino} {n : Bytes} {a : Attrs} {i : Ino}
    (ha : Allowed w (.op (.emplace p n a))) (hsafe : Safe w p)
    (hs : w.step (.op (.emplace p n a)) = .ok (w', .ino (.ok i))) : lookup w'.db p n = .ok (.ok i) := by
  obtain ⟨s, t, s', t', h1, ok, h1', ok', sh, hr, -, o1⟩ := h.op' ha hs
  have hp : p < W64 := o1.range
  have hsafe := h1.safe ok hp hsafe
  apply h1'.lookup_found ok'
  generalize ho : Op.emplace p n a = o at sh
  generalize hout : Out.ino (.ok i) = out at sh
  cases sh with
  | same _ _ h => exact absurd ⟨ho.symm, hout.symm⟩ (h p n a i)
  | lock => cases ho
  | release => cases ho
  | put g1 g2 => cases ho; cases hout; exact (at_set g1 (by rfl)).mpr ⟨_, g1, g2⟩
  | link => cases ho
  | flags => cases ho
  | clean => cases ho
  | unlinkIno => cases ho
  | unlinkName => cases ho
  | new g1 _ g2 =>
    cases ho; cases hout
    refine (at_collected g2.coll).mpr ⟨(at_add ok).mpr (.inr ⟨rfl, rfl, rfl⟩), fun hg => ?_⟩
    rcases hsafe with hc | hl
    · exact Conn.not_gone (OK.addNode ok (by have := (o1.emp p n a rfl).1; omega) hp (by assumption) (o1.emp p n a rfl).2 g1) (Conn.add ok hc) hg.1
    · exact hg.1.not_locked (by rw [hr]; exact hl)
  | @replace _ _ _ j nd _ _ g1 g2 _ g3 g4 =>
    cases ho; cases hout
    refine (at_collected g4.coll).mpr ⟨(at_add (OK.orphan ok _)).mpr (.inr ⟨rfl, rfl, rfl⟩), fun hg => ?_⟩
    rcases hsafe with hc | hl
    · exact Conn.not_gone (OK.addNode (OK.orphan ok _) (by have := (o1.emp p n a rfl).1; omega) hp g3 (o1.emp p n a rfl).2 (orphan_free ok ⟨_, g1, g2⟩))
        (Conn.add (OK.orphan ok _) (Conn.orphan ok hc ⟨_, g1, g2⟩)) hg.1
    · exact hg.1.not_locked (by rw [hr]; exact hl)
  | finish => cases ho

/-- C18: an existing entry stays what it is unless the operation is `emplace` or `unlink` of this
name, `unlink` of its inode, the end of a rewrite which had marked it, or its directory was deleted. -/
theorem C18_entry_kept {w w' : World} (h : Reach w) {o : Op} {out : Out} (ha : Allowed w (.op o))
    (hs : w.step (.op o) = .ok (w', out)) {q : Ino} (hq : q < W64) {m : Bytes} {j : Ino} (hl : lookup w.db q m = .ok (.ok j)) :
    lookup w'.db q m = .ok (.ok j) ∨ (∃ a, o = .emplace q m a) ∨ o = .unlinkName q m ∨ o = .unlinkIno j ∨
      (o = .finishRewrite ∧ ∃ f r l, w.stack = f :: r ∧ f.rewrite = some l ∧ j ∈ l) ∨
      (lookup w'.db q m = .ok (.error ENOENT) ∧ Missing w'.db q ∧ (IsDirectory w.db q ∨ out = .ino (.ok q))) := by
  obtain ⟨s, t, s', t', h1, ok, h1', ok', sh, hr, -, o1⟩ := h.op' ha hs
  have hat := (h1.lookup_iff ok hq).mp hl
  have hloc : 0 < q ∧ m.length ≤ 503 := by
    obtain ⟨nd, g1, g2⟩ := hat; have := ok.loc _ _ _ _ g1 g2; exact ⟨this.1, this.2.2.1⟩
  have hfw := sh.fwd ok hat
  by_cases hex : ∃ k, s'.At q m k
  · rcases hfw with g | g | g | g | g | g
    · exact .inl (h1'.lookup_found ok' g)
    · exact .inr (.inl g)
    · exact .inr (.inr (.inl g))
    · exact .inr (.inr (.inr (.inl g)))
    · refine .inr (.inr (.inr (.inr (.inl ⟨g.1, ?_⟩))))
      obtain ⟨l, g1, g2⟩ := g.2
      exact o1.marked g1 g2
    · obtain ⟨k, hk⟩ := hex
      rcases sh.back ok hk with g1 | ⟨a, g1, g2⟩
      · have := At.unique ok g1 hat; subst this; exact .inl (h1'.lookup_found ok' hk)
      · exact .inr (.inl ⟨a, g1⟩)
  · have hmiss := h1'.lookup_missing ok' hq (by omega) hloc.2 (fun i hi => hex ⟨i, hi⟩)
    rcases hfw with g | g | g | g | g | g
    · exact absurd ⟨_, g⟩ hex
    · exact .inr (.inl g)
    · exact .inr (.inr (.inl g))
    · exact .inr (.inr (.inr (.inl g)))
    · refine .inr (.inr (.inr (.inr (.inl ⟨g.1, ?_⟩))))
      obtain ⟨l, g1, g2⟩ := g.2
      exact o1.marked g1 g2
    · exact .inr (.inr (.inr (.inr (.inr ⟨hmiss, (h1'.missing ok' hq).mpr g.1, g.2.imp (h1.isDir ok hq).mpr id⟩))))

/-- C18: a name which is not found stays so (with the same error) unless it is emplaced. -/
theorem C18_absent_kept {w w' : World} (h : Reach w) {o : Op} {out : Out} (ha : Allowed w (.op o))
    (hs : w.step (.op o) = .ok (w', out)) {q : Ino} (hq : q < W64) {m : Bytes} {e : Errno} (hl : lookup w.db q m = .ok (.error e)) :
    lookup w'.db q m = .ok (.error e) ∨ ∃ a i, o = .emplace q m a ∧ out = .ino (.ok i) ∧ lookup w'.db q m = .ok (.ok i) := by
  obtain ⟨s, t, s', t', h1, ok, h1', ok', sh, hr, -, o1⟩ := h.op' ha hs
  by_cases hlen : 503 < m.length
  · rw [lookup_too_long hlen] at hl ⊢; exact .inl hl
  · by_cases hq0 : q = 0
    · subst hq0; rw [lookup_invalid (by omega)] at hl ⊢; exact .inl hl
    · have hno : ∀ j, ¬ s.At q m j := by
        intro j hj; rw [h1.lookup_found ok hj] at hl; cases hl
      rw [h1.lookup_missing ok hq hq0 (by omega) hno] at hl
      by_cases hex : ∃ k, s'.At q m k
      · obtain ⟨k, hk⟩ := hex
        rcases sh.back ok hk with g | ⟨a, g1, g2⟩
        · exact absurd g (hno k)
        · exact .inr ⟨a, k, g1, g2, h1'.lookup_found ok' hk⟩
      · rw [h1'.lookup_missing ok' hq hq0 (by omega) (fun i hi => hex ⟨i, hi⟩)]; exact .inl hl

/-- C18: beginning, nesting and committing transactions does not change what is found. (For aborts
see C31.) -/
theorem C18_transactions {w w' : World} (h : Reach w) {c : Call} {out : Out}
    (hc : c = .beginRO ∨ c = .beginRW ∨ c = .nested ∨ c = .commit)
    (hs : w.step c = .ok (w', out)) : w'.db = w.db := by
  rcases hc with rfl | rfl | rfl | rfl
  · simp only [World.step] at hs
    split at hs
    · rename_i hh; cases hs; simp [World.db, hh.2]
    · cases hs
  · simp only [World.step] at hs
    split at hs
    · rename_i hh; cases hs; simp [World.db, hh.2]
    · cases hs
  · simp only [World.step] at hs
    split at hs
    · cases hs
    · rename_i f r hst
      split at hs
      · cases hs
      · cases hs; simp [World.db, hst]
  · simp only [World.step] at hs
    split at hs
    · cases hs
    · rename_i f hst
      cases hs
      simp only [World.db, hst]
      split
      · rename_i hf; exact ((h.ro f (by rw [hst]; simp) hf).2).symm
      · rfl
    · rename_i f g r hst
      cases hs; simp [World.db, hst]


/-- A name is replaced by a directory, and later by a file again. -/
def demoOps : List Call := opened ++ [.beginRW, .op (.emplace 1 "a".toUTF8.toList (fileA 1)), .op (.emplace 1 "b".toUTF8.toList dirA),
  .op (.emplace 3 "c".toUTF8.toList linkA), .op (.writelink 4 "x".toUTF8.toList), .op (.lock 4)]

example : ∃ w, ReachP w ∧ lookup w.db 1 "a".toUTF8.toList = .ok (.ok 2) ∧ path w.db 1 = .ok (.ok []) ∧ w.locks 4 = 1
    ∧ (w.run [.op (.emplace 1 "a".toUTF8.toList dirA), .op (.lookup 1 "a".toUTF8.toList), .op (.lookup 3 "c".toUTF8.toList),
        .op (.emplace 1 "b".toUTF8.toList (fileA 2)), .op (.lookup 1 "b".toUTF8.toList), .op (.lookup 3 "c".toUTF8.toList), .op (.getattr 3), .op (.readlink 4)]).map Prod.snd
      = .ok [.ino (.ok 5), .ino (.ok 5), .ino (.ok 4), .ino (.ok 6), .ino (.ok 6), .ino (.error ENOENT), .attr (.error ENOENT), .bytes (.ok "x".toUTF8.toList)] :=
  demoP_ex (cs := demoOps) (by decide +kernel)

/-- The hypotheses of `C18_emplace_partial` (directory 3 has a path) and of `C18_absent_kept`: a new
name in directory 3. -/
example : ∃ w w', ReachP w ∧ Allowed w (.op (.emplace 3 "d".toUTF8.toList dirA)) ∧
    w.step (.op (.emplace 3 "d".toUTF8.toList dirA)) = .ok (w', .ino (.ok 5)) ∧
    path w.db 3 = .ok (.ok "/b".toUTF8.toList) ∧ lookup w.db 3 "d".toUTF8.toList = .ok (.error ENOENT) :=
  demo_step (cs := demoOps) (by decide +kernel)

/-- The hypotheses of `C18_entry_kept`, for its last case: the entry `c` of directory 3 disappears,
because directory 3 is replaced by a file. -/
example : ∃ w w', ReachP w ∧ Allowed w (.op (.emplace 1 "b".toUTF8.toList (fileA 2))) ∧
    w.step (.op (.emplace 1 "b".toUTF8.toList (fileA 2))) = .ok (w', .ino (.ok 5)) ∧
    lookup w.db 3 "c".toUTF8.toList = .ok (.ok 4) ∧ lookup w'.db 3 "c".toUTF8.toList = .ok (.error ENOENT) :=
  demo_step (cs := demoOps) (by decide +kernel)

/-- The hypotheses of `C18_transactions`: the commit of a transaction which has changed something. -/
example : ∃ w w', ReachP w ∧ Allowed w .commit ∧ w.step .commit = .ok (w', .unit (.ok ())) ∧
    lookup w.disk 1 "a".toUTF8.toList = .ok (.error ENOENT) ∧ lookup w.db 1 "a".toUTF8.toList = .ok (.ok 2) :=
  demo_step (cs := demoOps) (by decide +kernel)

/-- `emplace` into an unlocked, unlinked directory: the call succeeds, but the directory is garbage
and is removed together with the new entry. (Here the directory was locked when it was unlinked, and
released afterwards.) -/
theorem C18_orphan_counterexample : ∃ w, ReachP w ∧ getattr w.db 2 = .ok (2, dirA) ∧ w.locks 2 = 0 ∧
    (w.run [.op (.emplace 2 "b".toUTF8.toList dirA), .op (.lookup 2 "b".toUTF8.toList), .op (.getattr 3)]).map Prod.snd
      = .ok [.ino (.ok 3), .ino (.error ENOENT), .attr (.error ENOENT)] :=
  demoP_ex (cs := opened ++ [.beginRW, .op (.emplace 1 "a".toUTF8.toList dirA), .op (.lock 2), .op (.unlinkIno 2), .op (.release 2 1)]) (by decide +kernel)

/-! ### C19 -/

theorem Shape.emplace_inv {s s' : Tree} {t t' : Txn} {p n a i} (sh : Shape s t (.emplace p n a) (.ino (.ok i)) s' t') :
    (∃ nd, s.nodes i = some nd ∧ nd.loc = some (p, n) ∧ fmt nd.attr.mode = fmt a.mode ∧ t'.refs = t.refs ∧
      s' = s.set i { nd with attr := a, flags := 0 }) ∨
    (GoodName n ∧ i = s.next ∧ (∀ j, ¬ s.At p n j) ∧ CollectedTo (s.add p n a) t s' t') ∨
    (GoodName n ∧ i = s.next ∧ ∃ j nd, s.nodes j = some nd ∧ nd.loc = some (p, n) ∧ fmt nd.attr.mode ≠ fmt a.mode ∧
      CollectedTo ((s.orphan j).add p n a) t s' t') := by
  generalize ho : Op.emplace p n a = o at sh
  generalize hout : Out.ino (.ok i) = out at sh
  cases sh with
  | same _ _ h => exact absurd ⟨ho.symm, hout.symm⟩ (h p n a i)
  | put g1 g2 g3 g4 => cases ho; cases hout; exact .inl ⟨_, g1, g2, g3, g4, rfl⟩
  | new g1 g2 g3 => cases ho; cases hout; exact .inr (.inl ⟨g2, rfl, g1, g3⟩)
  | replace g1 g2 g3 g4 g5 => cases ho; cases hout; exact .inr (.inr ⟨g4, rfl, _, _, g1, g2, g3, g5⟩)
  | _ => cases ho

/-- C19: `emplace` on an existing entry returns its inode if and only if the file type stays the
same. -/
theorem C19_same_inode {w w' : World} (h : Reach w) {p : Ino} {n : Bytes} {a b : Attrs} {i j : Ino}
    (ha : Allowed w (.op (.emplace p n a))) (hl : lookup w.db p n = .ok (.ok i)) (hg : getattr w.db i = .ok (i, b))
    (hs : w.step (.op (.emplace p n a)) = .ok (w', .ino (.ok j))) : j = i ↔ fmt b.mode = fmt a.mode := by
  obtain ⟨s, t, s', t', h1, ok, h1', ok', sh, hr, -, o1⟩ := h.op' ha hs
  have hp : p < W64 := o1.range
  have hat := (h1.lookup_iff ok hp).mp hl
  obtain ⟨nd, g1, g2⟩ := hat
  rw [h1.getattr ok (OK.lt ok g1), g1] at hg
  have hb : nd.attr = b := by simpa using hg
  subst hb
  rcases sh.emplace_inv with ⟨x, e1, e2, e3, -⟩ | ⟨-, -, e1, -⟩ | ⟨-, rfl, k, x, e1, e2, e3, -⟩
  · have := At.unique ok ⟨x, e1, e2⟩ ⟨nd, g1, g2⟩; subst this
    rw [g1] at e1; cases e1; exact ⟨fun _ => e3, fun _ => rfl⟩
  · exact absurd ⟨nd, g1, g2⟩ (e1 i)
  · have := At.unique ok ⟨x, e1, e2⟩ ⟨nd, g1, g2⟩; subst this
    rw [g1] at e1; cases e1
    exact ⟨fun he => absurd he.symm (OK.ne_next ok g1), fun he => absurd he e3⟩

/-- C19: otherwise (entry of another type, or none) the inode is a new one: no inode of that number
existed, and the numbers of all existing inodes are smaller. (See C20 for all of history.) -/
theorem C19_new_inode {w w' : World} (h : Reach w) {p : Ino} {n : Bytes} {a : Attrs} {j : Ino}
    (ha : Allowed w (.op (.emplace p n a))) (hn : lookup w.db p n ≠ .ok (.ok j))
    (hs : w.step (.op (.emplace p n a)) = .ok (w', .ino (.ok j))) :
    Missing w.db j ∧ ∀ i b, i < W64 → getattr w.db i = .ok (i, b) → i < j := by
  obtain ⟨s, t, s', t', h1, ok, h1', ok', sh, hr, -, o1⟩ := h.op' ha hs
  have hj : j = s.next := by
    rcases sh.emplace_inv with ⟨x, e1, e2, e3, -⟩ | ⟨-, e, -⟩ | ⟨-, e, -⟩
    · exact absurd (h1.lookup_found ok ⟨x, e1, e2⟩) hn
    · exact e
    · exact e
  subst hj
  refine ⟨(h1.missing ok ok.next_lt).mpr (OK.fresh ok), fun i b hi hg => ?_⟩
  rw [h1.getattr ok hi] at hg
  cases hi : s.nodes i with
  | none => rw [hi] at hg; cases hg
  | some nd => exact (ok.bound i nd hi).2

/-- C19: `getattr` of the returned inode gives the attributes; all flags are cleared, a new inode has
no link target. -/
theorem C19_attributes {w w' : World} (h : Reach w) {p : Ino} {n : Bytes} {a : Attrs} {j : Ino}
    (ha : Allowed w (.op (.emplace p n a))) (hsafe : Safe w p)
    (hs : w.step (.op (.emplace p n a)) = .ok (w', .ino (.ok j))) :
    getattr w'.db j = .ok (j, a) ∧ (∀ f, testFlag w'.db j f = .ok (hasFlag 0 f)) ∧
      (Missing w.db j → readlink w'.db j = .error EINVAL) ∧ (¬ Missing w.db j → readlink w'.db j = readlink w.db j) := by
  have hlk := C18_emplace_partial h ha hsafe hs
  obtain ⟨s, t, s', t', h1, ok, h1', ok', sh, hr, -, o1⟩ := h.op' ha hs
  have hp : p < W64 := o1.range
  obtain ⟨nd', g1, g2⟩ := (h1'.lookup_iff ok' hp).mp hlk
  have hb := OK.lt ok' g1
  cases hn : s.nodes j with
  | none =>
    obtain ⟨p', n', a', e1, e2, e3, e4, e5, e6⟩ := sh.created g1 hn
    cases e1
    refine ⟨by rw [h1'.getattr ok' hb, g1, ← e4], fun f => by rw [h1'.testFlag ok' hb, g1]; simp [e5], fun _ => by rw [h1'.readlink ok' hb, g1]; simp [e6], ?_⟩
    intro hm; exact absurd ((h1.missing ok hb).mpr hn) hm
  | some nd =>
    rcases sh.emplace_inv with ⟨x, e1, e2, e3, -, rfl⟩ | ⟨-, rfl, -⟩ | ⟨-, rfl, -⟩
    · rw [Tree.set_self] at g1; cases g1
      refine ⟨by rw [h1'.getattr ok' hb, Tree.set_self], fun f => by rw [h1'.testFlag ok' hb, Tree.set_self], ?_, ?_⟩
      · intro hm; rw [h1.missing ok hb, hn] at hm; cases hm
      · intro _; rw [h1'.readlink ok' hb, Tree.set_self, h1.readlink ok hb, e1]
    · rw [OK.fresh ok] at hn; cases hn
    · rw [OK.fresh ok] at hn; cases hn

/-- Flag 0 of a word without flags. -/
theorem C19_no_flags (f : Flag) : hasFlag 0 f = false := by simp [hasFlag]

example : ∃ w, ReachP w ∧ lookup w.db 1 "a".toUTF8.toList = .ok (.ok 2) ∧ getattr w.db 2 = .ok (2, fileA 1) ∧ path w.db 1 = .ok (.ok [])
    ∧ (w.run [.op (.emplace 1 "a".toUTF8.toList (fileA 7)), .op (.getattr 2), .op (.emplace 1 "a".toUTF8.toList linkA), .op (.getattr 5)]).map Prod.snd
      = .ok [.ino (.ok 2), .attr (.ok (2, fileA 7)), .ino (.ok 5), .attr (.ok (5, linkA))] :=
  demoP_ex (cs := demoOps) (by decide +kernel)

/-- The hypotheses of `C19_same_inode` and of `C19_attributes`: a file is replaced by a file … -/
example : ∃ w w', ReachP w ∧ Allowed w (.op (.emplace 1 "a".toUTF8.toList (fileA 7))) ∧
    w.step (.op (.emplace 1 "a".toUTF8.toList (fileA 7))) = .ok (w', .ino (.ok 2)) ∧
    lookup w.db 1 "a".toUTF8.toList = .ok (.ok 2) ∧ getattr w.db 2 = .ok (2, fileA 1) ∧ path w.db 1 = .ok (.ok []) :=
  demo_step (cs := demoOps) (by decide +kernel)

/-- … or by a link, which is also a case of `C19_new_inode`. -/
example : ∃ w w', ReachP w ∧ Allowed w (.op (.emplace 1 "a".toUTF8.toList linkA)) ∧
    w.step (.op (.emplace 1 "a".toUTF8.toList linkA)) = .ok (w', .ino (.ok 5)) ∧
    lookup w.db 1 "a".toUTF8.toList = .ok (.ok 2) ∧ getattr w.db 2 = .ok (2, fileA 1) ∧ path w.db 1 = .ok (.ok []) ∧ getattr w.db 5 = .error ENOENT :=
  demo_step (cs := demoOps) (by decide +kernel)

/-! ### C26 -/

/-- What a garbage collection does, in terms of observations before (`d`) and after (`d'`). -/
structure CollectedObs (d : DB) (locks : Ino → Nat) (d' : DB) : Prop where
  /-- Exactly the garbage is removed. -/
  removed : ∀ i, i < W64 → (Missing d' i ↔ Missing d i ∨ Garbage d locks i)
  /-- Everything else has the same attributes, flags and link target. -/
  kept : ∀ i, i < W64 → ¬ Garbage d locks i → getattr d' i = getattr d i ∧ readlink d' i = readlink d i ∧ ∀ f, testFlag d' i f = testFlag d i f
  /-- The entries of removed directories are gone, all other entries are as before. -/
  entries : ∀ p n i, p < W64 → (lookup d' p n = .ok (.ok i) ↔ lookup d p n = .ok (.ok i) ∧ ¬ (Garbage d locks p ∧ IsDirectory d p))

theorem CollectedTo.obs {s1 s' : Tree} {d1 d' : DB} {t t' : Txn} (h : CollectedTo s1 t s' t') (h1 : Rep s1 d1) (ok1 : s1.OK) (h' : Rep s' d') (ok' : s'.OK) :
    CollectedObs d1 (fun j => (t.refs j).nrefs) d' := by
  refine ⟨?_, ?_, ?_⟩
  · intro i hb
    rw [h'.missing ok' hb, h1.missing ok1 hb, h1.garbage ok1 hb]
    constructor
    · intro hn
      cases hi : s1.nodes i with
      | none => exact .inl rfl
      | some nd =>
        refine .inr (Classical.byContradiction fun hg => ?_)
        obtain ⟨nd', e, -⟩ := h.coll.fwd hi hg
        rw [hn] at e; cases e
    · rintro (hn | hg)
      · cases hi : s'.nodes i with
        | none => rfl
        | some nd => obtain ⟨-, x, e, -⟩ := h.coll.back hi; rw [hn] at e; cases e
      · exact h.coll.gone i hg
  · intro i hb hg
    rw [h1.garbage ok1 hb] at hg
    cases hi : s1.nodes i with
    | none =>
      have hn : s'.nodes i = none := by
        cases hi' : s'.nodes i with
        | none => rfl
        | some nd => obtain ⟨-, x, e, -⟩ := h.coll.back hi'; rw [hi] at e; cases e
      refine ⟨?_, ?_, fun f => ?_⟩
      · rw [h'.getattr ok' hb, h1.getattr ok1 hb, hi, hn]
      · rw [h'.readlink ok' hb, h1.readlink ok1 hb, hi, hn]
      · rw [h'.testFlag ok' hb, h1.testFlag ok1 hb, hi, hn]
    | some nd =>
      obtain ⟨nd', e, e1, e2, e3, -⟩ := h.coll.fwd hi hg
      exact same_obs h1 ok1 h' ok' hb hi e e1 e2 e3
  · intro p n i hp
    rw [h'.lookup_iff ok' hp, h1.lookup_iff ok1 hp, at_collected h.coll, h1.garbage ok1 hp, h1.isDir ok1 hp]

theorem CollectedTo.no_garbage {s1 s' : Tree} {d' : DB} {t t' : Txn} (h : CollectedTo s1 t s' t') (h' : Rep s' d') (ok' : s'.OK) :
    ∀ i, i < W64 → ¬ Garbage d' (fun j => (t'.refs j).nrefs) i := by
  intro i hb hg
  rw [h'.garbage ok' hb] at hg
  have : ∀ j, Gone s' (locked t'.refs) j → False := by
    intro j hj
    induction hj with
    | orphan g1 g2 g3 g4 => exact g4 (by unfold locked; rw [(h.refs _).1]; exact h.clean _ _ g1 g2 g3)
    | child _ _ _ _ _ ih => exact ih
  exact this i hg

/-- C26: `clean_orphans` terminates successfully; it removes exactly the unlinked unlocked inodes and
the unlocked contents of removed directories, and nothing of the sort is left; nothing else changes,
no lock count changes. -/
theorem C26_clean {w : World} (h : Reach w) {f : Frame} {r : List Frame} (hst : w.stack = f :: r) (hro : f.ro = false) :
    ∃ w', w.step (.op .clean) = .ok (w', .unit (.ok ())) ∧ CollectedObs w.db w.locks w'.db
      ∧ (∀ i, i < W64 → ¬ Garbage w'.db w'.locks i) ∧ w'.locks = w.locks := by
  obtain ⟨⟨s, h1, ok⟩, -⟩ := h.inv.frames f (by rw [hst]; simp)
  obtain ⟨s', t', e1, e2⟩ := clean_spec (t := f.txn w.refs) ⟨h1, ok⟩
  refine ⟨{ w with refs := t'.refs, stack := ⟨t'.db, t'.rewrite, t'.hooks, f.ro⟩ :: r }, ?_, ?_, ?_, ?_⟩
  · simp only [World.step, hst, hro, Bool.false_and, Bool.false_eq_true, if_false, doOp, e1, bind_ok, pure_eq_ok]
  · have : w.db = f.db := by simp [World.db, hst]
    rw [this]
    exact e2.obs (d1 := f.db) (d' := t'.db) h1 ok e2.rep.1 e2.rep.2
  · exact e2.no_garbage (d' := t'.db) e2.rep.1 e2.rep.2
  · funext i; exact (e2.refs i).1

/-- C26: inodes which are locked or reachable from the root are not garbage, so are not removed. -/
theorem C26_safe {w : World} (h : Reach w) {d : DB} (hv : View w d) (locks : Ino → Nat) {i : Ino} (hb : i < W64) :
    (0 < locks i → ¬ Garbage d locks i) ∧ ((∃ b, path d i = .ok (.ok b)) → ¬ Garbage d locks i) := by
  obtain ⟨s, h1, ok⟩ := h.inv.view hv
  constructor
  · intro hl hg; cases hg with
    | orphan _ _ _ h => omega
    | child _ _ _ _ h => omega
  · rintro ⟨b, hp⟩ hg
    obtain ⟨cs, g1, -⟩ := h1.path_iff ok hb hp
    have := (h1.garbage ok (r := fun j => ⟨locks j, false⟩) hb).mp hg
    exact Conn.not_gone ok ⟨cs, g1⟩ this

/-- The hypotheses of `C26_clean`, and inodes to which `C26_safe` applies: directory 2 with contents 3 (a
directory) and 4 (locked), unlinked by the end of a rewrite. -/
example : ∃ w, ReachP w ∧ (w.stack.map Frame.ro) = [false] ∧ parent w.db 2 = .ok 0 ∧ w.locks 2 = 0 ∧ parent w.db 3 = .ok 2 ∧ parent w.db 4 = .ok 3 ∧ w.locks 4 = 1
    ∧ (w.run [.op .clean, .op (.getattr 2), .op (.getattr 3), .op (.getattr 4), .op (.parent 4)]).map Prod.snd
      = .ok [.unit (.ok ()), .attr (.error ENOENT), .attr (.error ENOENT), .attr (.ok (4, fileA 5)), .ino (.ok 0)] :=
  demoP_ex (cs := opened ++ [.beginRW, .op (.emplace 1 "a".toUTF8.toList dirA), .op (.emplace 2 "b".toUTF8.toList dirA), .op (.emplace 3 "c".toUTF8.toList (fileA 5)),
    .op (.lock 4), .op (.startRewrite 1), .op .finishRewrite]) (by decide +kernel)

/-! ### C24 -/

theorem PathTo.orphan_outside {s : Tree} {d : DB} (h1 : Rep s d) (ok : s.OK) {i : Ino} : ∀ {j cs}, s.PathTo j cs → ¬ Below d i j →
    (s.orphan i).PathTo j cs := by
  intro j cs hp
  induction hp with
  | root => intro _; exact .root
  | @child p n j cs hat hp ih =>
    intro hb
    refine .child (at_orphan.mpr ⟨hat, ?_⟩) (ih ?_)
    · rintro rfl; exact hb ⟨[], rfl⟩
    · rintro ⟨ds, hw⟩; exact hb ⟨ds ++ [n], hw.snoc (h1.lookup_found ok hat)⟩

theorem unlink_core {s s' : Tree} {t t' : Txn} {d d' : DB} {i : Ino} {nd : Node} (h1 : Rep s d) (ok : s.OK) (h' : Rep s' d') (ok' : s'.OK) (hi : s.nodes i = some nd)
    (hr : i ≠ ROOT) (hc : CollectedTo (s.orphan i) t s' t') :
    (∀ p n, p < W64 → lookup d p n = .ok (.ok i) → lookup d' p n = .ok (.error ENOENT))
    ∧ ((t.refs i).nrefs = 0 → Missing d' i)
    ∧ (0 < (t.refs i).nrefs → getattr d' i = getattr d i ∧ readlink d' i = readlink d i ∧ (∀ f, testFlag d' i f = testFlag d i f) ∧ parent d' i = .ok 0)
    ∧ (∀ j b, j < W64 → path d j = .ok (.ok b) → ¬ Below d i j → path d' j = .ok (.ok b) ∧ getattr d' j = getattr d j ∧ readlink d' j = readlink d j
        ∧ (∀ f, testFlag d' j f = testFlag d j f) ∧ ∀ m k, k ≠ i → (lookup d' j m = .ok (.ok k) ↔ lookup d j m = .ok (.ok k))) := by
  have hb := OK.lt ok hi
  have hro := Tree.orphan_self hi
  refine ⟨?_, ?_, ?_, ?_⟩
  · intro p n hp hl
    obtain ⟨x, g1, g2⟩ := (h1.lookup_iff ok hp).mp hl
    have hloc := ok.loc _ _ _ _ g1 g2
    apply h'.lookup_missing ok' hp (by omega) hloc.2.2.1
    intro j hj
    have := at_orphan.mp ((at_collected hc.coll).mp hj).1
    exact this.2 (At.unique ok this.1 ⟨x, g1, g2⟩)
  · intro hn
    rw [h'.missing ok' hb]
    exact hc.coll.gone i (.orphan hro hr rfl (by unfold locked; omega))
  · intro hl
    obtain ⟨nd', e, e1, e2, e3, e4⟩ := hc.coll.fwd hro (fun hg => hg.not_locked hl)
    obtain ⟨f1, f2, f3⟩ := same_obs h1 ok h' ok' hb hi e e1 e2 e3
    refine ⟨f1, f2, f3, ?_⟩
    rw [h'.parent ok' hb, if_neg hr, e]
    have : nd'.loc = none := by rcases e4 with e4 | e4 <;> exact e4
    simp [Node.par, this]
  · intro j b hbj hp hbel
    obtain ⟨cs, g1, rfl⟩ := h1.path_iff ok hbj hp
    have gen : ∀ {j cs}, s.PathTo j cs → ¬ Below d i j → s'.PathTo j cs := by
      intro j cs hp
      induction hp with
      | root => intro _; exact .root
      | @child p n j cs hat hp ih =>
        intro hb
        have hp' : ¬ Below d i p := fun ⟨ds, hw⟩ => hb ⟨ds ++ [n], hw.snoc (h1.lookup_found ok hat)⟩
        refine .child ((at_collected hc.coll).mpr ⟨at_orphan.mpr ⟨hat, ?_⟩, fun hg => ?_⟩) (ih hp')
        · rintro rfl; exact hb ⟨[], rfl⟩
        · exact Conn.not_gone (OK.orphan ok i) ⟨cs, PathTo.orphan_outside h1 ok hp hp'⟩ hg.1
    have hg : ¬ Gone (s.orphan i) (locked t.refs) j := Conn.not_gone (OK.orphan ok i) ⟨cs, PathTo.orphan_outside h1 ok g1 hbel⟩
    have hex : ∃ x, s.nodes j = some x := by
      cases g1 with
      | root => obtain ⟨x, g, -⟩ := ok.root; exact ⟨x, g⟩
      | child hat => obtain ⟨x, g, -⟩ := hat; exact ⟨x, g⟩
    obtain ⟨x, hx⟩ := hex
    have hji : j ≠ i := by rintro rfl; exact hbel ⟨[], rfl⟩
    obtain ⟨nd', e, e1, e2, e3, -⟩ := hc.coll.fwd (by rw [Tree.orphan_ne hji]; exact hx) hg
    obtain ⟨f1, f2, f3⟩ := same_obs h1 ok h' ok' hbj hx e e1 e2 e3
    refine ⟨h'.path_found ok' (gen g1 hbel), f1, f2, f3, fun m k hk => ?_⟩
    rw [h'.lookup_iff ok' hbj, h1.lookup_iff ok hbj, at_collected hc.coll, at_orphan]
    exact ⟨fun hh => hh.1.1, fun hh => ⟨⟨hh, hk⟩, fun hh' => hg hh'.1⟩⟩

/-- What a successful `unlink` of inode `i` does (`locks`: number of locks on it): no entry leads to it
any more; not locked, it is gone; locked, it keeps its attributes, flags and target, without a
directory; inodes which have a path and are not below `i` keep their path, attributes, flags, target
and entries. -/
structure Unlinked (d : DB) (i : Ino) (locks : Nat) (d' : DB) : Prop where
  entry : ∀ p n, p < W64 → lookup d p n = .ok (.ok i) → lookup d' p n = .ok (.error ENOENT)
  unlocked : locks = 0 → Missing d' i
  locked : 0 < locks → getattr d' i = getattr d i ∧ readlink d' i = readlink d i ∧ (∀ f, testFlag d' i f = testFlag d i f) ∧ parent d' i = .ok 0
  outside : ∀ j b, j < W64 → path d j = .ok (.ok b) → ¬ Below d i j →
    path d' j = .ok (.ok b) ∧ getattr d' j = getattr d j ∧ readlink d' j = readlink d j
      ∧ (∀ f, testFlag d' j f = testFlag d j f) ∧ ∀ m k, k ≠ i → (lookup d' j m = .ok (.ok k) ↔ lookup d j m = .ok (.ok k))

/-- C24, unlinking an inode. -/
theorem C24_unlink_inode {w w' : World} (h : Reach w) {i : Ino} (ha : Allowed w (.op (.unlinkIno i)))
    (hs : w.step (.op (.unlinkIno i)) = .ok (w', .unit (.ok ()))) : Unlinked w.db i (w.locks i) w'.db := by
  obtain ⟨s, t, t', o1⟩ := h.op ha hs
  have hcall := o1.call
  simp only [doOp] at hcall
  by_cases hri : i = ROOT
  · subst hri; rw [unlinkIno_root o1.trep] at hcall; cases hcall
  · cases hi : s.nodes i with
    | none => rw [unlinkIno_missing o1.trep o1.range hri hi] at hcall; cases hcall
    | some nd =>
      obtain ⟨s', t2, g1, g2⟩ := unlinkIno_spec o1.trep hri hi
      rw [g1] at hcall; cases hcall
      obtain ⟨e1, e2, e3, e4⟩ := unlink_core (d := w.db) (d' := w'.db) (by rw [← o1.db]; exact o1.trep.1) o1.trep.2 (by rw [o1.db']; exact g2.rep.1) g2.rep.2 hi hri g2
      rw [o1.refs] at e2 e3
      exact ⟨e1, e2, e3, e4⟩

/-- C24, unlinking a name. -/
theorem C24_unlink_name {w w' : World} (h : Reach w) {p : Ino} {n : Bytes} {i : Ino} (ha : Allowed w (.op (.unlinkName p n)))
    (hl : lookup w.db p n = .ok (.ok i)) {out : Out}
    (hs : w.step (.op (.unlinkName p n)) = .ok (w', out)) : out = .unit (.ok ()) ∧ Unlinked w.db i (w.locks i) w'.db := by
  obtain ⟨s, t, t', o1⟩ := h.op ha hs
  have hcall := o1.call
  simp only [doOp] at hcall
  have h1 : Rep s w.db := by rw [← o1.db]; exact o1.trep.1
  have hat := (h1.lookup_iff o1.trep.2 o1.range).mp hl
  obtain ⟨s', t2, g1, g2⟩ := unlinkName_spec o1.trep hat
  rw [g1] at hcall; cases hcall
  obtain ⟨nd, hi, hloc⟩ := hat
  obtain ⟨e1, e2, e3, e4⟩ := unlink_core (d := w.db) (d' := w'.db) h1 o1.trep.2 (by rw [o1.db']; exact g2.rep.1) g2.rep.2 hi (OK.loc_ne_root o1.trep.2 hi hloc) g2
  rw [o1.refs] at e2 e3
  exact ⟨rfl, e1, e2, e3, e4⟩

/-- The world after an operation which changed nothing. -/
theorem step_nothing {w w' : World} {o : Op} {out : Out} (hs : w.step (.op o) = .ok (w', out)) {f r} (hst : w.stack = f :: r)
    (hd : doOp (f.txn w.refs) o = .ok (f.txn w.refs, out)) : w' = w := by
  simp only [World.step, hst] at hs
  split at hs
  · cases hs
  · rw [hd] at hs; cases hs
    cases w; simp only at hst; subst hst; rfl

theorem step_stack {w w' : World} {o : Op} {out : Out} (hs : w.step (.op o) = .ok (w', out)) : ∃ f r, w.stack = f :: r ∧ ∃ t', doOp (f.txn w.refs) o = .ok (t', out) := by
  simp only [World.step] at hs
  split at hs
  · cases hs
  · rename_i f r hst
    split at hs
    · cases hs
    · cases hd : doOp (f.txn w.refs) o with
      | error e => rw [hd] at hs; cases hs
      | ok v => rw [hd] at hs; obtain ⟨t, o⟩ := v; cases hs; exact ⟨f, r, hst, t, hd⟩

/-- C24: unlinking a name which is not there, or an inode which does not exist, is ENOENT and changes
nothing. -/
theorem C24_missing {w w' : World} (h : Reach w) {out : Out} :
    (∀ {p : Ino} {n : Bytes}, p < W64 → n.length ≤ 503 → p ≠ 0 → lookup w.db p n = .ok (.error ENOENT) → w.step (.op (.unlinkName p n)) = .ok (w', out) →
      w' = w ∧ out = .unit (.error ENOENT))
    ∧ (∀ {i : Ino}, i < W64 → Missing w.db i → w.step (.op (.unlinkIno i)) = .ok (w', out) → w' = w ∧ out = .unit (.error ENOENT)) := by
  constructor
  · intro p n hp hn hp0 hl hs
    obtain ⟨f, r, hst, t', hd⟩ := step_stack hs
    obtain ⟨⟨s, h1, ok⟩, -⟩ := h.inv.frames f (by rw [hst]; simp)
    have hdb : w.db = f.db := by simp [World.db, hst]
    rw [hdb] at hl
    have hno : ∀ j, ¬ s.At p n j := fun j hj => by rw [h1.lookup_found ok hj] at hl; cases hl
    have e := unlinkName_missing (t := f.txn w.refs) ⟨h1, ok⟩ hp hno
    have hd' : doOp (f.txn w.refs) (.unlinkName p n) = .ok (f.txn w.refs, .unit (.error ENOENT)) := by simp only [doOp, e, bind_ok, pure_eq_ok]
    have hout : out = .unit (.error ENOENT) := by rw [hd'] at hd; cases hd; rfl
    subst hout
    exact ⟨step_nothing hs hst hd', rfl⟩
  · intro i hb hm hs
    obtain ⟨f, r, hst, t', hd⟩ := step_stack hs
    obtain ⟨⟨s, h1, ok⟩, -⟩ := h.inv.frames f (by rw [hst]; simp)
    have hdb : w.db = f.db := by simp [World.db, hst]
    rw [hdb, h1.missing ok hb] at hm
    have hr : i ≠ ROOT := by rintro rfl; obtain ⟨x, g, -⟩ := ok.root; rw [hm] at g; cases g
    have e := unlinkIno_missing (t := f.txn w.refs) ⟨h1, ok⟩ hb hr hm
    have hd' : doOp (f.txn w.refs) (.unlinkIno i) = .ok (f.txn w.refs, .unit (.error ENOENT)) := by simp only [doOp, e, bind_ok, pure_eq_ok]
    have hout : out = .unit (.error ENOENT) := by rw [hd'] at hd; cases hd; rfl
    subst hout
    exact ⟨step_nothing hs hst hd', rfl⟩

/-- A finite listing is only possible for a directory which has a place in the tree, or the root. -/
theorem ReaddirFrom.has_parent {d : DB} {dir : Ino} (hd0 : dir ≠ 0) : ∀ {l}, ReaddirFrom d dir 0 l → ∃ p, parent d dir = .ok p ∧ p ≠ 0 := by
  have gen : ∀ (n : Nat) (l : List (Ino × Bytes)), l.length = n → ReaddirFrom d dir 0 l → ∃ p, parent d dir = .ok p ∧ p ≠ 0 := by
    intro n
    induction n using Nat.strongRecOn with
    | ind n ih =>
      intro l hn hl
      cases hp : parent d dir with
      | ok p =>
        by_cases hp0 : p = 0
        · subst hp0
          cases hl with
          | eof e => rw [readdir_dot] at e; cases e
          | entry e r =>
            rw [readdir_dot] at e; cases e
            cases r with
            | eof e => rw [readdir_dotdot hp hd0 hd0] at e; cases e
            | entry e r =>
              rw [readdir_dotdot hp hd0 hd0] at e; cases e
              rename_i rest
              simp only [List.length_cons] at hn
              have := ih rest.length (by omega) rest rfl r
              rw [hp] at this; exact this
        · exact ⟨p, rfl, hp0⟩
      | error e =>
        have hr : readdir d dir dir = .ok (.error EIO) := by unfold readdir; rw [if_neg hd0, hp]
        cases hl with
        | eof e => rw [readdir_dot] at e; cases e
        | entry e r =>
          rw [readdir_dot] at e; cases e
          cases r with
          | eof e => rw [hr] at e; exact absurd e (by decide)
          | entry e r => rw [hr] at e; cases e
  intro l hl; exact gen _ l rfl hl

/-- C24: what is not found by `lookup` is not listed by `readdir`; in particular unlinked entries are
not. -/
theorem C24_not_listed {w : World} (h : ReachP w) {d : DB} (hv : View w d) {p : Ino} {n : Bytes} {i : Ino} (hp : p < W64) (hp0 : p ≠ 0)
    (hn : lookup d p n ≠ .ok (.ok i)) (hdot : n ≠ [0x2e] ∧ n ≠ [0x2e, 0x2e]) {l : List (Ino × Bytes)} (hl : ReaddirFrom d p 0 l) : (i, n) ∉ l := by
  obtain ⟨q, hq, hq0⟩ := hl.has_parent hp0
  obtain ⟨k, h1, h2, h3⟩ := C27_readdir_partial h hv hp hq hq0
  rw [hl.unique h1]
  intro hm
  rcases List.mem_append.mp hm with hm | hm
  · rw [List.mem_cons] at hm
    rcases hm with hm | hm
    · cases hm; exact hdot.1 rfl
    · split at hm
      · cases hm
      · rw [List.mem_singleton] at hm; cases hm; exact hdot.2 rfl
  · exact hn ((h3 i n).mp hm)

example : ∃ w, ReachP w ∧ lookup w.db 1 "b".toUTF8.toList = .ok (.ok 3) ∧ w.locks 3 = 0 ∧ w.locks 4 = 1 ∧ lookup w.db 3 "c".toUTF8.toList = .ok (.ok 4)
    ∧ (w.run [.op (.unlinkName 1 "b".toUTF8.toList), .op (.getattr 3), .op (.getattr 4), .op (.parent 4), .op (.lookup 1 "a".toUTF8.toList), .op (.unlinkIno 4),
        .op (.unlinkIno 3), .op (.unlinkName 1 "z".toUTF8.toList)]).map Prod.snd
      = .ok [.unit (.ok ()), .attr (.error ENOENT), .attr (.ok (4, { linkA with size := 1 })), .ino (.ok 0), .ino (.ok 2), .unit (.ok ()),
          .unit (.error ENOENT), .unit (.error ENOENT)] :=
  demoP_ex (cs := demoOps) (by decide +kernel)

/-- The hypotheses of `C24_unlink_inode`: inode 4 is locked. -/
example : ∃ w w', ReachP w ∧ Allowed w (.op (.unlinkIno 4)) ∧ w.step (.op (.unlinkIno 4)) = .ok (w', .unit (.ok ())) ∧
    w.locks 4 = 1 ∧ parent w.db 4 = .ok 3 ∧ parent w'.db 4 = .ok 0 :=
  demo_step (cs := demoOps) (by decide +kernel)

/-- The hypotheses of `C24_unlink_name`: directory 3 has the entry `c`. -/
example : ∃ w w', ReachP w ∧ Allowed w (.op (.unlinkName 1 "b".toUTF8.toList)) ∧
    w.step (.op (.unlinkName 1 "b".toUTF8.toList)) = .ok (w', .unit (.ok ())) ∧
    lookup w.db 1 "b".toUTF8.toList = .ok (.ok 3) ∧ lookup w.db 3 "c".toUTF8.toList = .ok (.ok 4) :=
  demo_step (cs := demoOps) (by decide +kernel)

/-- The hypotheses of `C24_missing`, for a name and for an inode, and of `C24_not_listed`. -/
example : (∃ w w', ReachP w ∧ Allowed w (.op (.unlinkName 1 "z".toUTF8.toList)) ∧
      w.step (.op (.unlinkName 1 "z".toUTF8.toList)) = .ok (w', .unit (.error ENOENT)) ∧ lookup w.db 1 "z".toUTF8.toList = .ok (.error ENOENT)) ∧
    (∃ w w', ReachP w ∧ Allowed w (.op (.unlinkIno 9)) ∧ w.step (.op (.unlinkIno 9)) = .ok (w', .unit (.error ENOENT)) ∧ getattr w.db 9 = .error ENOENT) ∧
    ∃ w, ReachP w ∧ lookup w.db 3 "z".toUTF8.toList = .ok (.error ENOENT) ∧ ReaddirFrom w.db 3 0 [(3, ".".toUTF8.toList), (1, "..".toUTF8.toList), (4, "c".toUTF8.toList)] := by
  refine ⟨demo_step (cs := demoOps) (by decide +kernel), demo_step (cs := demoOps) (by decide +kernel), ?_⟩
  obtain ⟨w, h1, h2, h3, h4, h5, h6⟩ := demoP_ex (cs := demoOps) (P := fun w => lookup w.db 3 "z".toUTF8.toList = .ok (.error ENOENT) ∧
    readdir w.db 3 0 = .ok (.ok (3, ".".toUTF8.toList)) ∧ readdir w.db 3 3 = .ok (.ok (1, "..".toUTF8.toList)) ∧ readdir w.db 3 1 = .ok (.ok (4, "c".toUTF8.toList)) ∧
    readdir w.db 3 4 = .ok (.error EOF_)) (by decide +kernel)
  exact ⟨w, h1, h2, .entry h3 (.entry h4 (.entry h5 (.eof h6)))⟩

/-! ### C25 -/

/-- `getattr` and `test_flag` work on the inode; so does `readlink` if `lnk`. -/
def Works (d : DB) (i : Ino) (lnk : Bool) : Prop :=
  (∃ a, getattr d i = .ok (i, a)) ∧ (∀ f, ∃ b, testFlag d i f = .ok b) ∧ (lnk = true → ∃ t, readlink d i = .ok t)

/-- Runs of calls without crash during which inode `i` is always locked. -/
inductive LockedRun (i : Ino) : World → World → Prop
  | refl {w} : LockedRun i w w
  | step {w w1 w2 c o} : LockedRun i w w1 → 0 < w1.locks i → Allowed w1 c → c ≠ .crash → w1.step c = .ok (w2, o) → LockedRun i w w2

theorem Rep.works {s : Tree} {d : DB} (h : Rep s d) (ok : s.OK) {i} (hb : i < W64) {lnk} : Works d i lnk ↔ ∃ nd, s.nodes i = some nd ∧ (lnk = true → ∃ t, nd.target = some t) := by
  unfold Works
  rw [h.getattr ok hb, h.readlink ok hb]
  constructor
  · rintro ⟨⟨a, h1⟩, -, h3⟩
    cases hn : s.nodes i with
    | none => rw [hn] at h1; cases h1
    | some nd =>
      refine ⟨nd, rfl, fun hl => ?_⟩
      obtain ⟨t, ht⟩ := h3 hl
      rw [hn] at ht
      cases hx : nd.target with
      | none => simp [hx] at ht
      | some t => exact ⟨t, rfl⟩
  · rintro ⟨nd, h1, h2⟩
    refine ⟨⟨nd.attr, by rw [h1]⟩, fun f => ⟨hasFlag nd.flags f, by rw [h.testFlag ok hb, h1]⟩, fun hl => ?_⟩
    obtain ⟨t, ht⟩ := h2 hl
    exact ⟨t, by rw [h1]; simp [ht]⟩

/-- C25, one call. -/
theorem C25_step {w w' : World} (h : Reach w) {c : Call} {o : Out} {i : Ino} (hb : i < W64) {lnk : Bool} (hl : 0 < w.locks i)
    (hw : ∀ d, View w d → Works d i lnk) (ha : Allowed w c) (hc : c ≠ .crash) (hs : w.step c = .ok (w', o)) :
    ∀ d, View w' d → Works d i lnk := by
  cases c with
  | crash => exact absurd rfl hc
  | openInit uid gid now =>
    simp only [World.step] at hs
    split at hs
    · rename_i hp
      have := (h.inv.down (by rw [hp]; simp)).2
      simp [World.locks, this, Refs.empty] at hl
    · cases hs
  | openClean =>
    simp only [World.step] at hs
    split at hs
    · rename_i hp
      have := (h.inv.down (by rw [hp]; simp)).2
      simp [World.locks, this, Refs.empty] at hl
    · cases hs
  | beginRO =>
    simp only [World.step] at hs
    split at hs
    · rename_i hp
      cases hs
      rintro d (⟨-, rfl⟩ | ⟨f, hf, rfl⟩)
      · exact hw _ (.inl ⟨hp.1, rfl⟩)
      · simp only [List.mem_singleton] at hf; subst hf; exact hw _ (.inl ⟨hp.1, rfl⟩)
    · cases hs
  | beginRW =>
    simp only [World.step] at hs
    split at hs
    · rename_i hp
      cases hs
      rintro d (⟨-, rfl⟩ | ⟨f, hf, rfl⟩)
      · exact hw _ (.inl ⟨hp.1, rfl⟩)
      · simp only [List.mem_singleton] at hf; subst hf; exact hw _ (.inl ⟨hp.1, rfl⟩)
    · cases hs
  | nested =>
    simp only [World.step] at hs
    split at hs
    · cases hs
    · rename_i f r hst
      split at hs
      · cases hs
      · cases hs
        rintro d (⟨h1, rfl⟩ | ⟨g, hg, rfl⟩)
        · exact hw _ (.inl ⟨h1, rfl⟩)
        · simp only [List.mem_cons] at hg
          rcases hg with rfl | rfl | hg
          · exact hw _ (.inr ⟨f, by rw [hst]; simp, rfl⟩)
          · exact hw _ (.inr ⟨g, by rw [hst]; simp, rfl⟩)
          · exact hw _ (.inr ⟨g, by rw [hst]; simp [hg], rfl⟩)
  | op o1 =>
    obtain ⟨s, t, s', t', h1, ok, h1', ok', sh, hr, -, os⟩ := h.op' ha hs
    obtain ⟨f, r, hst, -⟩ := step_stack hs
    have hup := h.up_of_stack hst
    have hwdb := hw w.db (View.db (.inl hup))
    obtain ⟨nd, g1, g2⟩ := (h1.works ok hb).mp hwdb
    have hnew : Works w'.db i lnk := by
      rw [h1'.works ok' hb]
      obtain ⟨nd', g3⟩ := sh.locked_stays ok g1 (by rw [hr]; exact hl)
      refine ⟨nd', g3, fun hlnk => ?_⟩
      rcases sh.contents ok g1 with e | ⟨nd2, e1, -, -, -, e2⟩
      · rw [g3] at e; cases e
      · rw [g3] at e1; cases e1
        rcases e2 with e2 | ⟨dest, -, e2⟩
        · rw [e2]; exact g2 hlnk
        · exact ⟨dest, e2⟩
    simp only [World.step, hst] at hs
    split at hs
    · cases hs
    · cases hd : doOp (f.txn w.refs) o1 with
      | error e => rw [hd] at hs; cases hs
      | ok v =>
        rw [hd] at hs; obtain ⟨v1, v2⟩ := v; cases hs
        rintro d (⟨h2, rfl⟩ | ⟨g, hg, rfl⟩)
        · exact hw _ (.inl ⟨hup, rfl⟩)
        · simp only [List.mem_cons] at hg
          rcases hg with rfl | hg
          · exact hnew
          · exact hw _ (.inr ⟨g, by rw [hst]; simp [hg], rfl⟩)
  | commit =>
    simp only [World.step] at hs
    split at hs
    · cases hs
    · rename_i f hst
      have hup := h.up_of_stack hst
      cases hs
      rintro d (⟨h1, rfl⟩ | ⟨g, hg, rfl⟩)
      · simp only
        split
        · exact hw _ (.inl ⟨h1, rfl⟩)
        · exact hw _ (.inr ⟨f, by rw [hst]; simp, rfl⟩)
      · cases hg
    · rename_i f g r hst
      have hup := h.up_of_stack hst
      cases hs
      rintro d (⟨h1, rfl⟩ | ⟨x, hx, rfl⟩)
      · exact hw _ (.inl ⟨h1, rfl⟩)
      · simp only [List.mem_cons] at hx
        rcases hx with rfl | hx
        · exact hw _ (.inr ⟨f, by rw [hst]; simp, rfl⟩)
        · exact hw _ (.inr ⟨x, by rw [hst]; simp [hx], rfl⟩)
  | abort =>
    simp only [World.step] at hs
    split at hs
    · cases hs
    · rename_i f r hst
      cases hu : undoAll w.refs f.hooks.reverse with
      | error e => rw [hu] at hs; cases hs
      | ok v =>
        rw [hu] at hs; cases hs
        rintro d (⟨h1, rfl⟩ | ⟨x, hx, rfl⟩)
        · exact hw _ (.inl ⟨h1, rfl⟩)
        · exact hw _ (.inr ⟨x, by rw [hst]; simp at hx ⊢; exact .inr hx, rfl⟩)
  | drop =>
    simp only [World.step] at hs
    split at hs
    · cases hs
    · rename_i f r hst
      cases hs
      rintro d (⟨h1, rfl⟩ | ⟨x, hx, rfl⟩)
      · exact hw _ (.inl ⟨h1, rfl⟩)
      · exact hw _ (.inr ⟨x, by rw [hst]; simp at hx ⊢; exact .inr hx, rfl⟩)

theorem LockedRun.reach {i : Ino} {w w' : World} (h : Reach w) (hr : LockedRun i w w') : Reach w' := by
  induction hr with
  | refl => exact h
  | step _ _ h1 _ h2 ih => exact .step ih h1 h2

/-- C25: as long as its lock count is positive, an inode which all open transactions see keeps
working, whatever calls are made. -/
theorem C25_locked_survive {w w' : World} (h : Reach w) {i : Ino} (hb : i < W64) {lnk : Bool} (hw : ∀ d, View w d → Works d i lnk)
    (hr : LockedRun i w w') : ∀ d, View w' d → Works d i lnk := by
  induction hr with
  | refl => exact hw
  | step h1 h2 h3 h4 h5 ih => exact C25_step (LockedRun.reach h h1) hb h2 ih h3 h4 h5

/-- Inode 4 (a symbolic link) is committed and locked; its directory and itself are unlinked. -/
example : ∃ w, ReachP w ∧ w.stack.length = 0 ∧ readlink w.db 4 = .ok "x".toUTF8.toList ∧ 0 < w.locks 4
    ∧ (w.run [.beginRW, .op (.unlinkIno 3), .op (.unlinkIno 4), .nested, .op .clean, .commit, .commit, .beginRO, .op (.getattr 3), .op (.readlink 4)]).map (fun p => p.2.drop 8)
      = .ok [.attr (.error ENOENT), .bytes (.ok "x".toUTF8.toList)] :=
  demoP_ex (cs := demoOps ++ [.commit]) (by decide +kernel)

/-- The hypotheses of `C25_step` and of `C25_locked_survive`: link 4 is locked and works in every view,
then it is unlinked. -/
example : ∃ w w', ReachP w ∧ 0 < w.locks 4 ∧ (∀ d, View w d → Works d 4 true) ∧ Allowed w (.op (.unlinkIno 4)) ∧
    w.step (.op (.unlinkIno 4)) = .ok (w', .unit (.ok ())) ∧ LockedRun 4 w w' := by
  obtain ⟨w, w', h1, h2, h3, h4⟩ := demo_step (cs := demoOps ++ [.commit, .beginRW]) (c := .op (.unlinkIno 4)) (out := .unit (.ok ()))
    (P := fun w _ => 0 < w.locks 4 ∧ w.stack.length = 1 ∧ (getattr w.db 4 = .ok (4, { linkA with size := 1 }) ∧ testFlag w.db 4 0 = .ok false ∧ readlink w.db 4 = .ok "x".toUTF8.toList) ∧
      getattr w.disk 4 = .ok (4, { linkA with size := 1 }) ∧ testFlag w.disk 4 0 = .ok false ∧ readlink w.disk 4 = .ok "x".toUTF8.toList) (by decide +kernel)
  have works : ∀ {d : DB}, getattr d 4 = .ok (4, { linkA with size := 1 }) ∧ testFlag d 4 0 = .ok false ∧ readlink d 4 = .ok "x".toUTF8.toList → Works d 4 true := by
    intro d ⟨g1, g2, g3⟩
    refine ⟨⟨_, g1⟩, ?_, fun _ => ⟨_, g3⟩⟩
    intro f
    unfold testFlag at g2 ⊢
    cases hx : d.inodes.find (key8 4) with
    | none => rw [hx] at g2; cases g2
    | some x => exact ⟨_, rfl⟩
  refine ⟨w, w', h1, h4.1, ?_, h2, h3, .step .refl h4.1 h2 (by simp) h3⟩
  intro d hv
  rcases hv with ⟨-, rfl⟩ | ⟨f, hf, rfl⟩
  · exact works h4.2.2.2
  · obtain ⟨f', hs⟩ := List.length_eq_one_iff.mp h4.2.1
    have : w.db = f'.db := by unfold World.db; rw [hs]
    rw [hs, List.mem_singleton] at hf
    rw [hf, ← this]
    exact works h4.2.2.1

/-! ### C28 -/

/-- C28: `readlink` after `writelink` returns the target, the size is its length, everything else is
unchanged. -/
theorem C28_writelink {w w' : World} (h : Reach w) {i : Ino} {dest : Bytes} (ha : Allowed w (.op (.writelink i dest)))
    (hs : w.step (.op (.writelink i dest)) = .ok (w', .unit (.ok ()))) :
    readlink w'.db i = .ok dest ∧ (∃ a, getattr w.db i = .ok (i, a) ∧ fmt a.mode = S_IFLNK ∧ getattr w'.db i = .ok (i, { a with size := dest.length }))
    ∧ (∀ f, testFlag w'.db i f = testFlag w.db i f)
    ∧ (∀ j, j < W64 → j ≠ i → getattr w'.db j = getattr w.db j ∧ readlink w'.db j = readlink w.db j ∧ ∀ f, testFlag w'.db j f = testFlag w.db j f)
    ∧ (∀ p n k, p < W64 → (lookup w'.db p n = .ok (.ok k) ↔ lookup w.db p n = .ok (.ok k))) := by
  obtain ⟨s, t, t', o1⟩ := h.op ha hs
  have hcall := o1.call
  have hb : i < W64 := o1.range
  have h1 : Rep s w.db := by rw [← o1.db]; exact o1.trep.1
  have ok := o1.trep.2
  cases hi : s.nodes i with
  | none => rw [doOp, writelink_missing o1.trep hb hi] at hcall; cases hcall
  | some nd =>
    by_cases hf : fmt nd.attr.mode = S_IFLNK
    · obtain ⟨t1, g1, g2, -⟩ := writelink_spec o1.trep (dest := dest) hi hf
      rw [doOp, g1] at hcall; cases hcall
      have h1' := g2.1; rw [← o1.db'] at h1'
      have ok' := g2.2
      refine ⟨by rw [h1'.readlink ok' hb, Tree.set_self], ⟨nd.attr, by rw [h1.getattr ok hb, hi], hf, by rw [h1'.getattr ok' hb, Tree.set_self]⟩, fun f => ?_, ?_, ?_⟩
      · rw [h1'.testFlag ok' hb, Tree.set_self, h1.testFlag ok hb, hi]
      · intro j hj hne
        rw [h1'.getattr ok' hj, h1.getattr ok hj, h1'.readlink ok' hj, h1.readlink ok hj, Tree.set_ne hne]
        exact ⟨rfl, rfl, fun f => by rw [h1'.testFlag ok' hj, h1.testFlag ok hj, Tree.set_ne hne]⟩
      · intro p n k hp
        rw [h1'.lookup_iff ok' hp, h1.lookup_iff ok hp, at_set hi (by rfl)]
    · rw [doOp, writelink_notlink o1.trep hi hf] at hcall; cases hcall

/-- C28: `writelink` fails with ENOENT for missing inodes and EINVAL for anything but symbolic links,
and changes nothing then; otherwise it succeeds. -/
theorem C28_writelink_result {w w' : World} (h : Reach w) {i : Ino} {dest : Bytes} {out : Out} (hb : i < W64)
    (hs : w.step (.op (.writelink i dest)) = .ok (w', out)) :
    (Missing w.db i → w' = w ∧ out = .unit (.error ENOENT))
    ∧ (∀ a, getattr w.db i = .ok (i, a) → fmt a.mode ≠ S_IFLNK → w' = w ∧ out = .unit (.error EINVAL))
    ∧ (∀ a, getattr w.db i = .ok (i, a) → fmt a.mode = S_IFLNK → out = .unit (.ok ())) := by
  obtain ⟨f, r, hst, t', hd⟩ := step_stack hs
  obtain ⟨⟨s, h1, ok⟩, -⟩ := h.inv.frames f (by rw [hst]; simp)
  have hdb : w.db = f.db := by simp [World.db, hst]
  rw [hdb]
  refine ⟨fun hm => ?_, fun a hg hf => ?_, fun a hg hf => ?_⟩
  · rw [h1.missing ok hb] at hm
    have hd' : doOp (f.txn w.refs) (.writelink i dest) = .ok (f.txn w.refs, .unit (.error ENOENT)) := by
      rw [doOp, writelink_missing (t := f.txn w.refs) ⟨h1, ok⟩ hb hm]
    have hout : out = .unit (.error ENOENT) := by rw [hd'] at hd; cases hd; rfl
    subst hout; exact ⟨step_nothing hs hst hd', rfl⟩
  · rw [h1.getattr ok hb] at hg
    cases hi : s.nodes i with
    | none => rw [hi] at hg; cases hg
    | some nd =>
      rw [hi] at hg
      have : nd.attr = a := by simpa using hg
      subst this
      have hd' : doOp (f.txn w.refs) (.writelink i dest) = .ok (f.txn w.refs, .unit (.error EINVAL)) := by
        rw [doOp, writelink_notlink (t := f.txn w.refs) ⟨h1, ok⟩ hi hf]
      have hout : out = .unit (.error EINVAL) := by rw [hd'] at hd; cases hd; rfl
      subst hout; exact ⟨step_nothing hs hst hd', rfl⟩
  · rw [h1.getattr ok hb] at hg
    cases hi : s.nodes i with
    | none => rw [hi] at hg; cases hg
    | some nd =>
      rw [hi] at hg
      have : nd.attr = a := by simpa using hg
      subst this
      obtain ⟨t1, g1, -⟩ := writelink_spec (t := f.txn w.refs) ⟨h1, ok⟩ (dest := dest) hi hf
      rw [doOp, g1] at hd; cases hd; rfl

/-- C28: no other operation changes what `readlink` returns, except by removing the inode or creating
it (then there is no target yet). -/
theorem C28_kept {w w' : World} (h : Reach w) {o : Op} {out : Out} (ha : Allowed w (.op o)) (hs : w.step (.op o) = .ok (w', out))
    {i : Ino} (hb : i < W64) (ho : ∀ dest, o ≠ .writelink i dest) :
    readlink w'.db i = readlink w.db i ∨ (readlink w'.db i = .error ENOENT ∧ Missing w'.db i)
      ∨ (readlink w'.db i = .error EINVAL ∧ Missing w.db i ∧ out = .ino (.ok i)) := by
  obtain ⟨s, t, s', t', h1, ok, h1', ok', sh, hr, -, os⟩ := h.op' ha hs
  rw [h1.readlink ok hb, h1'.readlink ok' hb, h1.missing ok hb, h1'.missing ok' hb]
  cases hi : s.nodes i with
  | none =>
    cases hi' : s'.nodes i with
    | none => exact .inl rfl
    | some nd' =>
      obtain ⟨p, n, a, e1, e2, e3, e4, e5, e6⟩ := sh.created hi' hi
      exact .inr (.inr ⟨by simp [e6], rfl, e2⟩)
  | some nd =>
    rcases sh.contents ok hi with e | ⟨nd', e1, -, -, -, e2⟩
    · rw [e]; exact .inr (.inl ⟨rfl, rfl⟩)
    · rw [e1]
      rcases e2 with e2 | ⟨dest, e2, -⟩
      · exact .inl (by simp [e2])
      · exact absurd e2 (ho dest)

/-- C28: `readlink` is ENOENT exactly for missing inodes, and EINVAL for other inodes without target;
only symbolic links have one. -/
theorem C28_readlink {w : World} (h : Reach w) {d : DB} (hv : View w d) {i : Ino} (hb : i < W64) :
    (readlink d i = .error ENOENT ↔ Missing d i) ∧ (∀ e, readlink d i = .error e → e = ENOENT ∨ e = EINVAL)
    ∧ (∀ t, readlink d i = .ok t → ∃ a, getattr d i = .ok (i, a) ∧ fmt a.mode = S_IFLNK) := by
  obtain ⟨s, h1, ok⟩ := h.inv.view hv
  rw [h1.readlink ok hb, h1.missing ok hb]
  cases hi : s.nodes i with
  | none => simp
  | some nd =>
    refine ⟨?_, ?_, ?_⟩
    · cases ht : nd.target <;> simp [ht, ENOENT, EINVAL]
    · cases ht : nd.target <;> simp [ht]
    · intro t ht
      cases hx : nd.target with
      | none => simp [hx] at ht
      | some t => exact ⟨nd.attr, by rw [h1.getattr ok hb, hi], ok.target i nd t hi hx⟩

example : ∃ w, ReachP w ∧ readlink w.db 4 = .ok "x".toUTF8.toList ∧ getattr w.db 4 = .ok (4, { linkA with size := 1 })
    ∧ (w.run [.op (.writelink 4 "new".toUTF8.toList), .op (.getattr 4), .op (.writelink 3 "y".toUTF8.toList), .op (.writelink 9 "y".toUTF8.toList), .op (.readlink 3), .op (.readlink 9), .op (.readlink 4)]).map Prod.snd
      = .ok [.unit (.ok ()), .attr (.ok (4, { linkA with size := 3 })), .unit (.error EINVAL), .unit (.error ENOENT), .bytes (.error EINVAL), .bytes (.error ENOENT), .bytes (.ok "new".toUTF8.toList)] :=
  demoP_ex (cs := demoOps) (by decide +kernel)

/-- The hypotheses of `C28_writelink` and of `C28_writelink_result` (for a link) … -/
example : ∃ w w', ReachP w ∧ Allowed w (.op (.writelink 4 "new".toUTF8.toList)) ∧ w.step (.op (.writelink 4 "new".toUTF8.toList)) = .ok (w', .unit (.ok ())) ∧
    readlink w.db 4 = .ok "x".toUTF8.toList ∧ getattr w.db 4 = .ok (4, { linkA with size := 1 }) :=
  demo_step (cs := demoOps) (by decide +kernel)

/-- … for a directory, and for an inode which does not exist. -/
example : (∃ w w', ReachP w ∧ Allowed w (.op (.writelink 3 [])) ∧ w.step (.op (.writelink 3 [])) = .ok (w', .unit (.error EINVAL)) ∧ getattr w.db 3 = .ok (3, dirA)) ∧
    ∃ w w', ReachP w ∧ Allowed w (.op (.writelink 9 [])) ∧ w.step (.op (.writelink 9 [])) = .ok (w', .unit (.error ENOENT)) ∧ getattr w.db 9 = .error ENOENT :=
  ⟨demo_step (cs := demoOps) (by decide +kernel), demo_step (cs := demoOps) (by decide +kernel)⟩

/-- The hypotheses of `C28_kept`, in its first two cases: the target of link 4 stays when its entry is
removed, because the inode is locked; without the lock both are gone. `C28_readlink` applies to all
these states. -/
example : (∃ w w', ReachP w ∧ Allowed w (.op (.unlinkIno 4)) ∧ w.step (.op (.unlinkIno 4)) = .ok (w', .unit (.ok ())) ∧
      readlink w.db 4 = .ok "x".toUTF8.toList ∧ readlink w'.db 4 = .ok "x".toUTF8.toList) ∧
    ∃ w w', ReachP w ∧ Allowed w (.op (.unlinkIno 4)) ∧ w.step (.op (.unlinkIno 4)) = .ok (w', .unit (.ok ())) ∧
      readlink w.db 4 = .ok "x".toUTF8.toList ∧ readlink w'.db 4 = .error ENOENT :=
  ⟨demo_step (cs := demoOps) (by decide +kernel), demo_step (cs := demoOps ++ [.op (.release 4 1)]) (by decide +kernel)⟩

/-! ### C30 -/

theorem hasFlag_eq (fl : Nat) (f : Flag) : hasFlag fl f = fl.testBit f := by
  unfold hasFlag
  rw [Nat.one_shiftLeft]
  cases hb : fl.testBit f with
  | false =>
    have : fl &&& 2 ^ f = 0 := by
      apply Nat.eq_of_testBit_eq; intro i
      rw [Nat.testBit_and, Nat.testBit_two_pow, Nat.zero_testBit]
      by_cases h : f = i
      · subst h; simp [hb]
      · simp [h]
    simp [this]
  | true =>
    have : fl &&& 2 ^ f ≠ 0 := by
      intro h
      have := congrArg (fun x => x.testBit f) h
      simp [Nat.testBit_and, hb, Nat.testBit_two_pow] at this
    simp [this]

theorem setFlag_get (fl : Nat) {f g : Flag} (on : Bool) (hf : f < 16) (hg : g < 16) :
    hasFlag (setFlag fl f on) g = if g = f then on else hasFlag fl g := by
  rw [hasFlag_eq, hasFlag_eq]
  unfold setFlag u16
  rw [show (65536 : Nat) = 2 ^ 16 from rfl, show (65535 : Nat) = 2 ^ 16 - 1 from rfl, Nat.one_shiftLeft]
  cases on with
  | true =>
    simp only [if_true, Nat.testBit_mod_two_pow, hg, decide_true, Bool.true_and, Nat.testBit_or, Nat.testBit_two_pow]
    by_cases h : g = f
    · subst h; simp
    · rw [if_neg h]; have : ¬ f = g := fun hh => h hh.symm; simp [this]
  | false =>
    simp only [Bool.false_eq_true, if_false, Nat.testBit_and, Nat.testBit_xor, Nat.testBit_two_pow_sub_one, Nat.testBit_mod_two_pow, hg, decide_true, Bool.true_and,
      Nat.testBit_two_pow]
    by_cases h : g = f
    · subst h; simp
    · rw [if_neg h]; have : ¬ f = g := fun hh => h hh.symm; simp [this]

theorem foldl_setFlag (l : List Flag) (on : Bool) : ∀ (fl : Nat) {g : Flag}, (∀ f ∈ l, f < 16) → g < 16 →
    hasFlag (l.foldl (fun x f => setFlag x f on) fl) g = if g ∈ l then on else hasFlag fl g := by
  induction l with
  | nil => intro fl g _ _; simp
  | cons f l ih =>
    intro fl g hl hg
    rw [List.foldl_cons, ih _ (fun x hx => hl x (by simp [hx])) hg, setFlag_get _ _ (hl f (by simp)) hg]
    by_cases h1 : g ∈ l <;> by_cases h2 : g = f <;> simp [h1, h2]

/-- C30: `update_flags` clears exactly the flags to clear, sets exactly the others to set, and changes
nothing else. -/
theorem C30_update {w w' : World} (h : Reach w) {i : Ino} {a b : List Flag} (ha : Allowed w (.op (.updateFlags i a b)))
    (hs : w.step (.op (.updateFlags i a b)) = .ok (w', .unit (.ok ()))) :
    (∀ f, f < 16 → ∃ old, testFlag w.db i f = .ok old ∧ testFlag w'.db i f = .ok (if f ∈ b then false else if f ∈ a then true else old))
    ∧ getattr w'.db i = getattr w.db i ∧ readlink w'.db i = readlink w.db i
    ∧ (∀ j, j < W64 → j ≠ i → getattr w'.db j = getattr w.db j ∧ readlink w'.db j = readlink w.db j ∧ ∀ f, testFlag w'.db j f = testFlag w.db j f)
    ∧ (∀ p n k, p < W64 → (lookup w'.db p n = .ok (.ok k) ↔ lookup w.db p n = .ok (.ok k))) := by
  obtain ⟨s, t, t', o1⟩ := h.op ha hs
  have hcall := o1.call
  have hb : i < W64 := o1.range.1
  have h1 : Rep s w.db := by rw [← o1.db]; exact o1.trep.1
  have ok := o1.trep.2
  cases hi : s.nodes i with
  | none => rw [doOp, updateFlags_missing o1.trep hb hi] at hcall; cases hcall
  | some nd =>
    obtain ⟨t1, g1, g2, -⟩ := updateFlags_spec o1.trep (a := a) (b := b) hi
    rw [doOp, g1] at hcall; cases hcall
    have h1' := g2.1; rw [← o1.db'] at h1'
    have ok' := g2.2
    refine ⟨fun f hf => ⟨hasFlag nd.flags f, by rw [h1.testFlag ok hb, hi], ?_⟩, ?_, ?_, ?_, ?_⟩
    · rw [h1'.testFlag ok' hb, Tree.set_self]
      simp only
      unfold newFlags
      rw [foldl_setFlag b false _ o1.range.2.2 hf, foldl_setFlag a true _ o1.range.2.1 hf]
    · rw [h1'.getattr ok' hb, Tree.set_self, h1.getattr ok hb, hi]
    · rw [h1'.readlink ok' hb, Tree.set_self, h1.readlink ok hb, hi]
    · intro j hj hne
      rw [h1'.getattr ok' hj, h1.getattr ok hj, h1'.readlink ok' hj, h1.readlink ok hj, Tree.set_ne hne]
      exact ⟨rfl, rfl, fun f => by rw [h1'.testFlag ok' hj, h1.testFlag ok hj, Tree.set_ne hne]⟩
    · intro p n k hp
      rw [h1'.lookup_iff ok' hp, h1.lookup_iff ok hp, at_set hi (by rfl)]

/-- C30: on missing inodes `update_flags` is ENOENT and changes nothing, `test_flag` is ENOENT; on
others they succeed. -/
theorem C30_missing {w w' : World} (h : Reach w) {i : Ino} {a b : List Flag} {out : Out} (hb : i < W64)
    (hs : w.step (.op (.updateFlags i a b)) = .ok (w', out)) :
    (Missing w.db i → w' = w ∧ out = .unit (.error ENOENT) ∧ ∀ f, testFlag w.db i f = .error ENOENT)
    ∧ (¬ Missing w.db i → out = .unit (.ok ())) := by
  obtain ⟨f, r, hst, t', hd⟩ := step_stack hs
  obtain ⟨⟨s, h1, ok⟩, -⟩ := h.inv.frames f (by rw [hst]; simp)
  have hdb : w.db = f.db := by simp [World.db, hst]
  rw [hdb, h1.missing ok hb]
  refine ⟨fun hm => ?_, fun hm => ?_⟩
  · have hd' : doOp (f.txn w.refs) (.updateFlags i a b) = .ok (f.txn w.refs, .unit (.error ENOENT)) := by
      rw [doOp, updateFlags_missing (t := f.txn w.refs) ⟨h1, ok⟩ hb hm]
    have hout : out = .unit (.error ENOENT) := by rw [hd'] at hd; cases hd; rfl
    subst hout; exact ⟨step_nothing hs hst hd', rfl, fun g => by rw [h1.testFlag ok hb, hm]⟩
  · cases hi : s.nodes i with
    | none => exact absurd hi hm
    | some nd =>
      obtain ⟨t1, g1, -⟩ := updateFlags_spec (t := f.txn w.refs) ⟨h1, ok⟩ (a := a) (b := b) hi
      rw [doOp, g1] at hd; cases hd; rfl

/-- C30: no other operation changes flags of an inode, except `emplace` on it (which clears them all)
and operations which remove it. -/
theorem C30_kept {w w' : World} (h : Reach w) {o : Op} {out : Out} (ha : Allowed w (.op o)) (hs : w.step (.op o) = .ok (w', out))
    {i : Ino} (hb : i < W64) (ho : ∀ a b, o ≠ .updateFlags i a b) :
    (∀ f, testFlag w'.db i f = testFlag w.db i f) ∨ Missing w'.db i ∨ ((∃ p n a, o = .emplace p n a) ∧ out = .ino (.ok i) ∧ ∀ f, testFlag w'.db i f = .ok false) := by
  obtain ⟨s, t, s', t', h1, ok, h1', ok', sh, hr, -, os⟩ := h.op' ha hs
  rw [h1'.missing ok' hb]
  cases hi : s.nodes i with
  | none =>
    cases hi' : s'.nodes i with
    | none => exact .inr (.inl rfl)
    | some nd' =>
      obtain ⟨p, n, a, e1, e2, e3, e4, e5, e6⟩ := sh.created hi' hi
      exact .inr (.inr ⟨⟨p, n, a, e1⟩, e2, fun f => by rw [h1'.testFlag ok' hb, hi']; simp [e5, hasFlag]⟩)
  | some nd =>
    rcases sh.contents ok hi with e | ⟨nd', e1, -, -, e2, -⟩
    · exact .inr (.inl e)
    · rcases e2 with e2 | ⟨p, n, a, g1, g2, g3⟩ | ⟨a, b, e2, -⟩
      · exact .inl (fun f => by rw [h1'.testFlag ok' hb, h1.testFlag ok hb, hi, e1]; simp [e2])
      · exact .inr (.inr ⟨⟨p, n, a, g1⟩, g2, fun f => by rw [h1'.testFlag ok' hb, e1]; simp [g3, hasFlag]⟩)
      · exact absurd e2 (ho a b)

example : ∃ w, ReachP w ∧ testFlag w.db 3 SYNCED = .ok false
    ∧ (w.run [.op (.updateFlags 3 [SYNCED, 3] []), .op (.testFlag 3 SYNCED), .op (.updateFlags 3 [5] [3]), .op (.testFlag 3 3), .op (.testFlag 3 5), .op (.testFlag 3 0), .op (.updateFlags 9 [0] [])]).map Prod.snd
      = .ok [.unit (.ok ()), .bool (.ok true), .unit (.ok ()), .bool (.ok false), .bool (.ok true), .bool (.ok true), .unit (.error ENOENT)] :=
  demoP_ex (cs := demoOps) (by decide +kernel)

/-- The hypotheses of `C30_update`, and of `C30_missing` for an existing inode … -/
example : ∃ w w', ReachP w ∧ Allowed w (.op (.updateFlags 3 [SYNCED, 3] [5])) ∧ w.step (.op (.updateFlags 3 [SYNCED, 3] [5])) = .ok (w', .unit (.ok ())) ∧
    testFlag w.db 3 SYNCED = .ok false ∧ testFlag w'.db 3 SYNCED = .ok true :=
  demo_step (cs := demoOps) (by decide +kernel)

/-- … and of `C30_missing` for a missing one. -/
example : ∃ w w', ReachP w ∧ Allowed w (.op (.updateFlags 9 [SYNCED] [])) ∧ w.step (.op (.updateFlags 9 [SYNCED] [])) = .ok (w', .unit (.error ENOENT)) ∧
    getattr w.db 9 = .error ENOENT :=
  demo_step (cs := demoOps) (by decide +kernel)

/-- The hypotheses of `C30_kept`: another operation keeps the flag; `emplace` of the same directory
clears it. -/
example : (∃ w w', ReachP w ∧ Allowed w (.op (.unlinkIno 4)) ∧ w.step (.op (.unlinkIno 4)) = .ok (w', .unit (.ok ())) ∧
      testFlag w.db 3 SYNCED = .ok true ∧ testFlag w'.db 3 SYNCED = .ok true) ∧
    ∃ w w', ReachP w ∧ Allowed w (.op (.emplace 1 "b".toUTF8.toList dirA)) ∧ w.step (.op (.emplace 1 "b".toUTF8.toList dirA)) = .ok (w', .ino (.ok 3)) ∧
      testFlag w.db 3 SYNCED = .ok true ∧ testFlag w'.db 3 SYNCED = .ok false :=
  ⟨demo_step (cs := demoOps ++ [.op (.updateFlags 3 [SYNCED] [])]) (by decide +kernel), demo_step (cs := demoOps ++ [.op (.updateFlags 3 [SYNCED] [])]) (by decide +kernel)⟩

end Dragonstash.Cache
