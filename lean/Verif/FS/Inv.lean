/-
  Lock counts along requests, and the invariant of live systems.
-/
import Verif.FS.Trans
namespace Dragonstash.FS
open Cache Codec
variable {s s' : Tree} {d d' : DB} {r r' : Refs}

theorem Put.counts {p n a res} (h : Put p n a s r res s' r') (i : Ino) : (r' i).nrefs = (r i).nrefs := by
  cases h with
  | bad => rfl
  | same => rfl
  | new _ _ _ _ h4 => exact (h4 i).1

theorem Removed.counts {j} (h : Removed s r j s' r') (i : Ino) : (r' i).nrefs = (r i).nrefs := (h.refs i).1

theorem Puts.counts {B base j k l} (h : Puts B base j k l s r s' r') (i : Ino) : (r' i).nrefs = (r i).nrefs := by
  induction h with
  | nil => rfl
  | skip _ _ ih => exact ih
  | put _ h1 _ ih => rw [ih, h1.counts]

theorem SyncTo.counts {B base j l} (h : SyncTo B base j l s r s' r') (i : Ino) : (r' i).nrefs = (r i).nrefs := by
  cases h with
  | mk h1 => exact h1.counts i

theorem foldl_subRef_count (l : List (Ino × Nat)) : ∀ (r : Refs) (i : Ino),
    (l.foldl (fun r x => subRef r x.1 x.2) r i).nrefs = (r i).nrefs - ((l.filter (fun x => x.1 == i)).map Prod.snd).sum := by
  induction l with
  | nil => intro r i; rfl
  | cons x l ih =>
    intro r i
    rw [List.foldl_cons, ih, subRef_count, List.filter_cons]
    by_cases h : x.1 = i
    · subst h; simp; omega
    · have : ¬ i = x.1 := fun hh => h hh.symm
      simp [h, this]

theorem takeWhile_all {p : UInt8 → Bool} : ∀ {l : Bytes}, (∀ x ∈ l, p x = true) → l.takeWhile p = l := by
  intro l
  induction l with
  | nil => intro _; rfl
  | cons x l ih => intro h; rw [List.takeWhile_cons, h x (by simp)]; simp [ih (fun y hy => h y (by simp [hy]))]

theorem cstr_eq {n : Bytes} (h : (0 : UInt8) ∉ n) : cstr n = n := by
  unfold cstr
  apply takeWhile_all
  intro x hx
  simp only [bne_iff_ne, ne_eq]
  rintro rfl; exact h hx

theorem given_buf (i : Ino) : ∀ {l : List Ent} {b : Nat}, (∀ x ∈ l, EntName x.2.1) → (Reply.bufPlus (l.map Ent.dent) b).given i = occurs i l := by
  intro l b
  induction l with
  | nil => intro _; rfl
  | cons x l ih =>
    intro h
    have h1 := ih (fun y hy => h y (by simp [hy]))
    have hx : cstr x.2.1 = x.2.1 := cstr_eq (h x (by simp)).2.1
    unfold occurs at h1 ⊢
    simp only [Reply.given] at h1 ⊢
    rw [List.map_cons, List.filter_cons, List.filter_cons]
    have : ((Ent.dent x).name != [0x2e] && (Ent.dent x).name != [0x2e, 0x2e] && (Ent.dent x).stat.ino == i) = (!isDot x.2.1 && x.1 == i) := by
      unfold Ent.dent mkDEnt osStat isDot; simp only; rw [hx, Bool.not_or]; rfl
    rw [this]
    split
    · simp only [List.length_cons]; rw [h1]
    · exact h1

theorem occurs_append (i : Ino) (a b : List Ent) : occurs i (a ++ b) = occurs i a + occurs i b := by
  unfold occurs; rw [List.filter_append, List.length_append]

/-- Number of references which a request takes without handing the inode to the kernel. -/
theorem abs_counts {B rq rep} (h : Abs B d s r rq rep s' r') (hr : ∀ i, rq.returned i ≤ (r i).nrefs) (i : Ino) :
    (r i).nrefs + rep.given i ≤ (r' i).nrefs + rq.returned i ∧
    ((∀ dir size off, rq ≠ .readdirplus dir size off) → (r' i).nrefs + rq.returned i = (r i).nrefs + rep.given i) := by
  have key : (r' i).nrefs + rq.returned i = (r i).nrefs + rep.given i → (r i).nrefs + rep.given i ≤ (r' i).nrefs + rq.returned i ∧
    ((∀ dir size off, rq ≠ .readdirplus dir size off) → (r' i).nrefs + rq.returned i = (r i).nrefs + rep.given i) := fun h => ⟨by omega, fun _ => h⟩
  cases h with
  | lkBad _ _ h3 => exact key (by rw [h3.counts]; rfl)
  | lkPut _ _ h3 =>
    apply key; rw [addRef_count, h3.counts]
    simp only [Reply.given, Req.returned, osStat, eq_comm (a := i)]
    split <;> simp_all
  | lkHit =>
    apply key; rw [addRef_count]
    simp only [Reply.given, Req.returned, osStat, eq_comm (a := i)]
    split <;> simp_all
  | lkErr _ _ _ _ h3 => exact key (by rw [h3.counts]; rfl)
  | @forget j n =>
    apply key
    have := hr i
    rw [subRef_count]
    simp only [Reply.given, Req.returned] at this ⊢
    by_cases hj : j = i
    · subst hj; simp at this ⊢; omega
    · have : ¬ i = j := fun hh => hj hh.symm
      simp [hj, this]
  | @forgetMulti l =>
    apply key
    have := hr i
    rw [foldl_subRef_count]
    simp only [Reply.given, Req.returned] at this ⊢
    omega
  | rlErr _ _ _ _ h3 => exact key (by rw [h3.counts]; rfl)
  | odSync _ _ h3 => exact key (by rw [h3.counts]; rfl)
  | rdEof => apply key; split <;> rfl
  | @plAll dir size off l e b _ _ h3 _ =>
    refine ⟨?_, fun hh => absurd rfl (hh _ _ _)⟩
    rw [plusRefs_count]
    split
    · show _ ≤ _; simp only [Reply.given, Req.returned]; omega
    · rw [given_buf i h3]; simp only [Req.returned]; omega
  | @plPart dir size off P x Q e b _ _ h3 _ _ =>
    refine ⟨?_, fun hh => absurd rfl (hh _ _ _)⟩
    rw [plusRefs_count, given_buf i (fun y hy => h3 y (by simp [hy])), occurs_append]
    simp only [Req.returned]; omega
  | _ => exact key rfl

theorem abs_counts_le {B rq rep} (h : Abs B d s r rq rep s' r') (i : Ino) : (r' i).nrefs ≤ (r i).nrefs + d.treei.size + 2 := by
  cases h with
  | lkBad _ _ h3 => rw [h3.counts]; omega
  | lkPut _ _ h3 => rw [addRef_count, h3.counts]; split <;> omega
  | lkHit => rw [addRef_count]; split <;> omega
  | lkErr _ _ _ _ h3 => rw [h3.counts]; omega
  | forget => rw [subRef_count]; omega
  | forgetMulti => rw [foldl_subRef_count]; omega
  | rlErr _ _ _ _ h3 => rw [h3.counts]; omega
  | odSync _ _ h3 => rw [h3.counts]; omega
  | @plAll dir size off l e b _ _ h3 h4 => rw [plusRefs_count]; have := occurs_le i l; omega
  | @plPart dir size off P x Q e b _ _ h3 h4 _ =>
    rw [plusRefs_count]; have := occurs_le i (P ++ [x]); simp at this h4; omega
  | _ => omega

/-- Invariant of live systems. -/
theorem live_inv {y : Sys} (h : Live y) : ∃ s, SI s y.disk y.refs ∧ ∀ i, y.held i ≤ (y.refs i).nrefs := by
  induction h with
  | @mount uid gid now d r ho =>
    obtain ⟨s, h1, h2, h3⟩ := root_rep uid gid now
    obtain ⟨-, s2, h4, -⟩ := open_SI h1 h2 h3 ho
    exact ⟨s2, h4, fun i => Nat.zero_le _⟩
  | @remount y uid gid now d r _ ho ih =>
    obtain ⟨s, h1, -⟩ := ih
    have hi : initDB y.disk uid gid now = y.disk := by
      unfold initDB; rw [h1.rep.next]
    rw [hi] at ho
    obtain ⟨-, s2, h4, -⟩ := open_SI h1.rep h1.ok h1.wf ho
    exact ⟨s2, h4, fun i => Nat.zero_le _⟩
  | @serve y B rq st _ hv hd hf ih =>
    obtain ⟨s, h1, h2⟩ := ih
    rcases dispatch_served h1 h2 hv with ⟨s', d', r', rep, g1, g2, g3⟩ | ⟨dir, size, off, e, -, -, g1⟩
    · rw [g1] at hd; cases hd
      refine ⟨s', g2, fun i => ?_⟩
      have hret := hv.2.2.1
      have := (abs_counts g3 (fun j => Nat.le_trans (hret j) (h2 j)) i).1
      have h5 := h2 i
      have h6 := hret i
      show heldAfter y.held rq [rep] i ≤ (r' i).nrefs
      unfold heldAfter
      simp only [List.map_cons, List.map_nil, List.sum_cons, List.sum_nil]
      omega
    · rw [g1] at hd; cases hd; cases hf

end Dragonstash.FS
