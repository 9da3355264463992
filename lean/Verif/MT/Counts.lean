/-
  What single calls do to the lock counts, whatever the databases contain.
-/
import Verif.Cache.Txn
import Verif.Cache.Inv
namespace Dragonstash.Cache
open Codec

/-- How many locks of inode `i` a call gives back. -/
def Op.back (i : Ino) : Op → Nat
  | .release j n => if j = i then n else 0
  | _ => 0

/-- How many locks of inode `i` a call takes at most. -/
def Op.takes (i : Ino) : Op → Nat
  | .lock j => if j = i then 1 else 0
  | _ => 0

theorem doom_count (r : Refs) (j i : Ino) : ((r.doom j).1 i).nrefs = (r i).nrefs := by
  unfold Refs.doom
  split
  · rfl
  · simp only [Refs.set]; split
    · rename_i h; rw [h]
    · rfl

theorem firstFree_count : ∀ {l : List (Bytes × Unit)} {r r' : Refs} {j : Ino}, firstFree l r = some (j, r') → ∀ i, (r' i).nrefs = (r i).nrefs
  | [], _, _, _, h, _ => by cases h
  | e :: t, r, r', j, h, i => by
    unfold firstFree at h
    have hd := doom_count r (leDec e.1) i
    rcases hx : r.doom (leDec e.1) with ⟨r1, e1 | u⟩
    · rw [hx] at h; exact firstFree_count h i
    · rw [hx] at h hd; cases h; exact hd

theorem cleanLoop_count : ∀ {f : Nat} {d d' : DB} {r r' : Refs}, cleanLoop f d r = .ok (d', r') → ∀ i, (r' i).nrefs = (r i).nrefs
  | 0, _, _, _, _, h, _ => by cases h
  | f + 1, d, d', r, r', h, i => by
    unfold cleanLoop at h
    split at h
    · cases h; rfl
    · rename_i j r1 hj
      rcases hd : removeOne d j with e | d1
      · rw [hd] at h; cases h
      · rw [hd] at h
        simp only [bind_ok] at h
        rw [cleanLoop_count h i, firstFree_count hj i]

theorem clean_count {t t' : Txn} {r : Res Unit} (h : clean t = .ok (t', r)) (i : Ino) : (t'.refs i).nrefs = (t.refs i).nrefs := by
  unfold clean cleanOrphans at h
  rcases hc : cleanLoop (t.db.inodes.size + t.db.treei.size + t.db.orphans.size + 1) t.db t.refs with e | ⟨d, r⟩
  · rw [hc] at h; cases h
  · rw [hc] at h; cases h; exact cleanLoop_count hc i

theorem unlinkIno_count {t t' : Txn} {j : Ino} {r : Res Unit} (h : unlinkIno t j = .ok (t', r)) (i : Ino) : (t'.refs i).nrefs = (t.refs i).nrefs := by
  unfold unlinkIno at h
  split at h
  · cases h; rfl
  · exact clean_count h i

theorem unlinkName_count {t t' : Txn} {p : Ino} {n : Bytes} {r : Res Unit} (h : unlinkName t p n = .ok (t', r)) (i : Ino) :
    (t'.refs i).nrefs = (t.refs i).nrefs := by
  unfold unlinkName at h
  split at h
  · cases h; rfl
  · exact unlinkIno_count h i

theorem emplaceNew_count {t t' : Txn} {d : DB} {p : Ino} {n : Bytes} {a : Attrs} {r : Res Ino} (h : emplaceNew t d p n a = .ok (t', r)) (i : Ino) :
    (t'.refs i).nrefs = (t.refs i).nrefs := by
  unfold emplaceNew allocNext at h
  split at h
  · cases h
  · simp only [bind_ok] at h
    unfold cleanOrphans at h
    simp only at h
    generalize hc : cleanLoop _ _ t.refs = x at h
    rcases x with e | ⟨d', r'⟩
    · cases h
    · cases h; exact cleanLoop_count hc i

theorem emplace_count {t t' : Txn} {p : Ino} {n : Bytes} {a : Attrs} {r : Res Ino} (h : emplace t p n a = .ok (t', r)) (i : Ino) :
    (t'.refs i).nrefs = (t.refs i).nrefs := by
  unfold emplace at h
  split at h
  · cases h; rfl
  · split at h
    · exact emplaceNew_count h i
    · split at h
      · cases h
      · split at h
        · cases h; rfl
        · exact emplaceNew_count h i

/-- Only `release` lowers a lock count, by what is released; only `lock` raises it, by one. (`lock`
overflows if the count is 2^64 - 1.) -/
theorem doOp_counts {t t' : Txn} {o : Op} {out : Out} (h : doOp t o = .ok (t', out)) (i : Ino) :
    (t'.refs i).nrefs ≤ (t.refs i).nrefs + o.takes i ∧ ((t.refs i).nrefs + 1 < W64 → (t.refs i).nrefs ≤ (t'.refs i).nrefs + o.back i) := by
  have same : (t'.refs i).nrefs = (t.refs i).nrefs → (t'.refs i).nrefs ≤ (t.refs i).nrefs + o.takes i ∧ ((t.refs i).nrefs + 1 < W64 → (t.refs i).nrefs ≤ (t'.refs i).nrefs + o.back i) :=
    fun e => ⟨by omega, fun _ => by omega⟩
  have ro : ∀ {β : Type} {m : M β} {f : β → Out}, (do let r ← m; pure (t, f r)) = (.ok (t', out) : M (Txn × Out)) → t' = t := by
    intro β m f hm
    cases m with
    | error e => cases hm
    | ok v => cases hm; rfl
  have coll : ∀ {α : Type} {m : M (Txn × Res α)} {f : Res α → Out}, (do let (t', r) ← m; pure (t', f r)) = (.ok (t', out) : M (Txn × Out)) →
      ∃ r, m = .ok (t', r) := by
    intro α m f hm
    cases m with
    | error e => cases hm
    | ok v => obtain ⟨v1, v2⟩ := v; cases hm; exact ⟨v2, rfl⟩
  cases o with
  | lookup p n => exact same (by rw [ro h])
  | getattr j => cases h; exact same rfl
  | readlink j => cases h; exact same rfl
  | readdir dir prev => exact same (by rw [ro h])
  | path j => exact same (by rw [ro h])
  | name j => cases h; exact same rfl
  | parent j => cases h; exact same rfl
  | testFlag j f => cases h; exact same rfl
  | lock j =>
    simp only [doOp] at h; cases h
    unfold Cache.lock Refs.incref
    by_cases hd : (t.refs j).doomed = true
    · simp only [hd, if_true]; exact ⟨by omega, fun _ => by omega⟩
    · simp only [hd]
      simp only [Bool.false_eq_true, if_false, Refs.set, Op.takes, Op.back]
      by_cases e : i = j
      · subst e
        simp only [if_true]
        refine ⟨Nat.mod_le _ _, fun hb => ?_⟩
        have : u64 ((t.refs i).nrefs + 1) = (t.refs i).nrefs + 1 := Nat.mod_eq_of_lt hb
        omega
      · rw [if_neg e, if_neg (fun hh => e hh.symm)]; exact ⟨by omega, fun _ => by omega⟩
  | release j n =>
    obtain ⟨r, hm⟩ := coll h
    unfold Cache.release Refs.decref at hm
    by_cases hn : n = 0
    · simp only [hn, if_true] at hm; cases hm; exact same rfl
    · simp only [hn, if_false] at hm
      by_cases hlt : (t.refs j).nrefs < n
      · simp only [hlt, if_true, bind_err] at hm; cases hm
      · simp only [hlt, if_false, bind_ok] at hm; cases hm
        simp only [Refs.set, Op.takes, Op.back]
        by_cases e : i = j
        · subst e; simp only [if_true]; exact ⟨by omega, fun _ => by omega⟩
        · rw [if_neg e, if_neg (fun hh => e hh.symm)]; exact ⟨by omega, fun _ => by omega⟩
  | emplace p n a => obtain ⟨r, hm⟩ := coll h; exact same (emplace_count hm i)
  | unlinkIno j => obtain ⟨r, hm⟩ := coll h; exact same (unlinkIno_count hm i)
  | unlinkName p n => obtain ⟨r, hm⟩ := coll h; exact same (unlinkName_count hm i)
  | clean => obtain ⟨r, hm⟩ := coll h; exact same (clean_count hm i)
  | writelink j dest =>
    simp only [doOp] at h; cases h
    refine same ?_
    unfold writelink
    split
    · rfl
    · split <;> rfl
  | updateFlags j a b =>
    simp only [doOp] at h; cases h
    refine same ?_
    unfold updateFlags
    split <;> rfl
  | startRewrite dir =>
    obtain ⟨r, hm⟩ := coll h
    refine same ?_
    unfold startRewrite at hm
    split at hm
    · cases hm; rfl
    · split at hm
      · cases hm; rfl
      · rename_i e l heq
        cases hc : collectKids dir (e :: l) [] with
        | error x => rw [hc] at hm; cases hm
        | ok v => rw [hc] at hm; cases hm; rfl
  | finishRewrite =>
    simp only [doOp] at h; cases h
    refine same ?_
    unfold finishRewrite
    split <;> rfl

end Dragonstash.Cache
