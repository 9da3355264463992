/-
  Consequences of the transitions `Abs` for statements about live systems.
-/
import Verif.FS.Answer
import Verif.FS.Demo
namespace Dragonstash.FS
open Cache Codec
variable {s s' : Tree} {d d' : DB} {r r' : Refs}

/-- An answered request as a transition. -/
theorem Answered.abs {y y' : Sys} {B rq rep} (ha : Answered y B rq rep y') (h : SI s y.disk y.refs) (hl : Live y) (hv : Valid y B rq) :
    ∃ s', SI s' y'.disk y'.refs ∧ Abs B y.disk s y.refs rq rep s' y'.refs := by
  obtain ⟨st, h1, h2, h3, rfl⟩ := ha
  obtain ⟨-, -, hh⟩ := live_inv hl
  rcases dispatch_served h hh hv with ⟨s', d', r', rep', g1, g2, g3⟩ | ⟨dir, size, off, e, -, -, g1⟩
  · rw [g1] at h1; cases h1; cases h3
    exact ⟨s', g2, g3⟩
  · rw [g1] at h1; cases h1; cases h2

theorem linked_iff (h : SI s d r) {i} (hb : i < W64) : Linked s i ↔ ∃ p, Cache.parent d i = .ok p ∧ p ≠ 0 := by
  rw [h.rep.parent h.ok hb]
  by_cases hr : i = ROOT
  · rw [if_pos hr]; exact ⟨fun _ => ⟨ROOT, rfl, by decide⟩, fun _ => .inl hr⟩
  · rw [if_neg hr]
    cases hn : s.nodes i with
    | none =>
      refine ⟨?_, by rintro ⟨p, h1, -⟩; cases h1⟩
      rintro (h1 | ⟨p, n, nd, h1, -⟩)
      · exact absurd h1 hr
      · rw [hn] at h1; cases h1
    | some nd =>
      simp only [Except.ok.injEq, exists_eq_left']
      unfold Node.par
      cases hl : nd.loc with
      | none =>
        refine ⟨?_, fun hh => absurd rfl hh⟩
        rintro (h1 | ⟨p, n, nd', h1, h2⟩)
        · exact absurd h1 hr
        · rw [hn] at h1; cases h1; rw [hl] at h2; cases h2
      | some l =>
        obtain ⟨p, n⟩ := l
        refine ⟨fun _ => ?_, fun _ => .inr ⟨p, n, nd, hn, hl⟩⟩
        have := (h.ok.loc i nd p n hn hl).1
        simp; omega

/-- Requests are answered, except `readdir` on directories without a parent. -/
theorem answered_of {y : Sys} {B rq} (h : SI s y.disk y.refs) (hl : Live y) (hv : Valid y B rq)
    (hr : ∀ dir size off, rq = .readdir dir size off → ∃ p, Cache.parent y.disk dir = .ok p ∧ p ≠ 0) :
    ∃ rep y' s', Answered y B rq rep y' ∧ SI s' y'.disk y'.refs ∧ Abs B y.disk s y.refs rq rep s' y'.refs := by
  obtain ⟨-, -, hh⟩ := live_inv hl
  rcases dispatch_served h hh hv with ⟨s', d', r', rep, g1, g2, g3⟩ | ⟨dir, size, off, e, rfl, g0, g1⟩
  · exact ⟨rep, y.after rq (done d' r' rep), s', ⟨_, g1, rfl, rfl, rfl⟩, g2, g3⟩
  · exact absurd ((linked_iff h hv.1.1).mpr (hr _ _ _ rfl)) g0

theorem ite_or {c : Prop} [Decidable c] {a b z : St} (h : (if c then (pure a : M St) else pure b) = .ok z) : z = a ∨ z = b := by
  split at h
  · cases h; exact .inl rfl
  · cases h; exact .inr rfl

/-- The database does not change while the backend is not connected. -/
theorem offline_disk {B : Backend} (hB : Offline B) {rq : Req} {st : St} (h : dispatch B d r rq = .ok st) : st.disk = d := by
  have hfin : ∀ x : St, x.finish.disk = x.disk := by
    intro x; unfold St.finish; split
    · unfold St.reply; split
      · rfl
      · rfl
    · rfl
  have hrep : ∀ (x : St) rep, (x.reply rep).disk = x.disk := by
    intro x rep; unfold St.reply; split
    · rfl
    · split <;> rfl
  have hlock : ∀ (x : St) (t : Txn) i a, x.disk = t.db → (lockAndReply x t i a).disk = x.disk := by
    intro x t i a ht
    unfold lockAndReply
    split
    · rw [hrep]; rfl
    · rename_i t' hl
      rw [hrep]
      show t'.db = _
      unfold lock at hl
      split at hl <;> cases hl
      exact ht.symm
  unfold dispatch at h
  have hh : ∀ {x : M St}, (∀ z, x = .ok z → z.disk = d) → (do let z ← x; pure z.finish) = .ok st → st.disk = d := by
    intro x hx hd
    cases x with
    | error e => cases hd
    | ok z => cases hd; rw [hfin]; exact hx z rfl
  refine hh ?_ h
  intro z hz
  cases rq with
  | lookup p n =>
    simp only [handle, lookup, St.txn] at hz
    cases hp : path d p with
    | error e => rw [hp] at hz; cases hz
    | ok x =>
      rw [hp] at hz
      simp only [bind_ok] at hz
      cases x with
      | error e => cases hz; exact hrep _ _
      | ok b =>
        simp only [hB.lstat, if_true] at hz
        cases hl : Cache.lookup d p n with
        | error e => rw [hl] at hz; cases hz
        | ok x =>
          rw [hl] at hz
          simp only [bind_ok] at hz
          cases x with
          | error e =>
            simp only at hz
            rcases ite_or hz with rfl | rfl <;> exact hrep _ _
          | ok i =>
            simp only at hz
            split at hz
            · cases hz; exact hrep _ _
            · cases hz; exact hlock _ _ _ _ rfl
  | forget i n =>
    simp only [handle, forget, St.txn] at hz
    cases hr : release { db := d, refs := r } i n with
    | error e => rw [hr] at hz; cases hz
    | ok x =>
      rw [hr] at hz
      obtain ⟨t, x⟩ := x
      cases x <;> (cases hz; exact hrep _ _)
  | getattr i =>
    simp only [handle, getattr] at hz
    split at hz <;> (cases hz; exact hrep _ _)
  | readlink i =>
    simp only [handle, readlink, St.txn] at hz
    cases hp : path d i with
    | error e => rw [hp] at hz; cases hz
    | ok x =>
      rw [hp] at hz
      simp only [bind_ok] at hz
      cases x with
      | error e => cases hz; exact hrep _ _
      | ok b =>
        simp only [hB.readlink, if_true] at hz
        split at hz <;> (cases hz; exact hrep _ _)
  | opendir i =>
    simp only [handle, opendir, St.txn] at hz
    cases hp : path d i with
    | error e => rw [hp] at hz; cases hz
    | ok x =>
      rw [hp] at hz
      simp only [bind_ok] at hz
      cases x with
      | error e => cases hz; exact hrep _ _
      | ok b =>
        simp only [hB.opendir, if_true] at hz
        cases hz; exact hrep _ _
  | readdir dir size off =>
    simp only [handle, readdir] at hz
    cases hp : readdirLoop d dir size (d.treei.size + 4) off [] 0 with
    | error e => rw [hp] at hz; cases hz
    | ok pg =>
      rw [hp] at hz
      simp only [bind_ok] at hz
      split at hz <;> split at hz <;> (cases hz; simp only [hrep])
  | releasedir i => cases hz; exact hrep _ _
  | readdirplus dir size off =>
    simp only [handle, readdirplus, St.txn] at hz
    cases hp : plusLoop { db := d, refs := r } dir size (d.treei.size + 4) off [] 0 with
    | error e => rw [hp] at hz; cases hz
    | ok x =>
      rw [hp] at hz
      simp only [bind_ok] at hz
      rcases x with ⟨t, pg⟩ | t
      · simp only at hz
        split at hz <;> (cases hz; exact hrep _ _)
      · cases hz; exact hrep _ _
  | forgetMulti l =>
    simp only [handle, forgetMulti, St.txn] at hz
    cases hp : forgetLoop l { db := d, refs := r } with
    | error e => rw [hp] at hz; cases hz
    | ok t => rw [hp] at hz; cases hz; exact hrep _ _
  | other => cases hz; exact hrep _ _

/-! ### Formats and flags -/

/-- The effect of a request on the tree. -/
theorem abs_eff {B rq rep} (h : Abs B d s r rq rep s' r') (hi : SI s d r) (hr : rq.inRange) (hd : rq.onDir d) (hn : s.next + 1 < W64) :
    ∃ r1, Eff s r s' r1 := by
  have dir : ∀ {p cs}, p < W64 → s.PathTo p cs → (∀ x, Cache.getattr d p = .ok x → fmt x.2.mode = S_IFDIR) → s.IsDir p := by
    intro p cs hb hp hd
    obtain ⟨nd, hnd⟩ := conn_exists hi.ok ⟨cs, hp⟩
    exact isDir_of hi hb hd hnd
  cases h with
  | lkBad h1 _ h3 => exact ⟨_, (h3.eff hi.ok (dir hr h1 hd) hn).1⟩
  | lkPut h1 _ h3 => exact ⟨_, (h3.eff hi.ok (dir hr h1 hd) hn).1⟩
  | lkErr _ _ _ _ h3 => exact ⟨_, h3.eff.1⟩
  | rlPut _ _ h3 h4 => exact ⟨_, .set h3 rfl rfl (fun _ _ => h4)⟩
  | rlErr _ _ _ _ h3 => exact ⟨_, h3.eff.1⟩
  | odSync _ _ h3 =>
    cases h3 with
    | @mk s1 _ nd rw h1 h2 h3 h4 h5 h6 =>
      have hset : Eff s1 r' (s1.set _ { nd with flags := newFlags nd.flags [SYNCED] [] }) r' := .set h3 rfl rfl (fun t ht => h4.target _ nd t h3 ht)
      refine ⟨r', .trans h6 (.trans hset ?_)⟩
      generalize s1.set _ { nd with flags := newFlags nd.flags [SYNCED] [] } = x
      clear h5 h2 hset
      generalize marks rw = l
      induction l generalizing x with
      | nil => exact .refl
      | cons j l ih => exact .trans (.orphan j) (ih _)
  | _ => exact ⟨_, .refl⟩

theorem hasFlag_zero (f : Nat) : hasFlag 0 f = false := by unfold hasFlag; simp

theorem Put.flags {p n a res} (h : Put p n a s r res s' r') {j nd'} (hj : s'.nodes j = some nd') (hf : hasFlag nd'.flags SYNCED = true) :
    ∃ nd, s.nodes j = some nd ∧ hasFlag nd.flags SYNCED = true := by
  cases h with
  | bad => exact ⟨nd', hj, hf⟩
  | @same i nd h1 h2 h3 =>
    by_cases hji : j = i
    · subst hji; rw [Tree.set_self] at hj; cases hj; rw [hasFlag_zero] at hf; cases hf
    · rw [Tree.set_ne hji] at hj; exact ⟨nd', hj, hf⟩
  | @new s1 _ _ _ h1 h2 h3 h4 =>
    obtain ⟨-, nd, k1, -, k2, -⟩ := h3.back hj
    rw [k2] at hf
    by_cases hjn : j = s1.next
    · rw [hjn, Tree.add_self] at k1; cases k1; rw [hasFlag_zero] at hf; cases hf
    · rw [Tree.add_ne hjn] at k1
      rcases h1 with ⟨rfl, -⟩ | ⟨i, x, rfl, k3, -⟩
      · exact ⟨nd, k1, hf⟩
      · by_cases hji : j = i
        · subst hji; rw [Tree.orphan_self k3] at k1; cases k1; exact ⟨x, k3, hf⟩
        · rw [Tree.orphan_ne hji] at k1; exact ⟨nd, k1, hf⟩

theorem orphan_flags {i j nd'} (hj : (s.orphan i).nodes j = some nd') : ∃ nd, s.nodes j = some nd ∧ nd.flags = nd'.flags ∧ nd.attr = nd'.attr := by
  by_cases h : j = i
  · subst h
    cases hn : s.nodes j with
    | none => rw [orphan_none hn] at hj; cases hj
    | some x => rw [Tree.orphan_self hn] at hj; cases hj; exact ⟨x, rfl, rfl, rfl⟩
  · rw [Tree.orphan_ne h] at hj; exact ⟨nd', hj, rfl, rfl⟩

theorem Removed.flags {i} (h : Removed s r i s' r') {j nd'} (hj : s'.nodes j = some nd') (hf : hasFlag nd'.flags SYNCED = true) :
    ∃ nd, s.nodes j = some nd ∧ hasFlag nd.flags SYNCED = true := by
  obtain ⟨-, nd, k1, -, k2, -⟩ := h.coll.back hj
  obtain ⟨x, k3, k4, -⟩ := orphan_flags k1
  exact ⟨x, k3, by rw [k4, ← k2]; exact hf⟩

theorem Puts.flags {B base i k l} (h : Puts B base i k l s r s' r') {j nd'} (hj : s'.nodes j = some nd') (hf : hasFlag nd'.flags SYNCED = true) :
    ∃ nd, s.nodes j = some nd ∧ hasFlag nd.flags SYNCED = true := by
  induction h generalizing nd' with
  | nil => exact ⟨nd', hj, hf⟩
  | skip _ _ ih => exact ih hj hf
  | put _ h1 _ ih => obtain ⟨x, h2, h3⟩ := ih hj hf; exact h1.flags h2 h3

theorem orphans_flags : ∀ {l : List Ino} {s : Tree} {j nd'}, (s.orphans l).nodes j = some nd' → ∃ nd, s.nodes j = some nd ∧ nd.flags = nd'.flags ∧ nd.attr = nd'.attr := by
  intro l
  induction l with
  | nil => intro s j nd' h; exact ⟨nd', h, rfl, rfl⟩
  | cons i l ih =>
    intro s j nd' h
    obtain ⟨x, h1, h2, h2'⟩ := ih h
    obtain ⟨y, h3, h4, h4'⟩ := orphan_flags h1
    exact ⟨y, h3, by rw [h4, h2], by rw [h4', h2']⟩

/-- Only a synchronisation marks directories as synchronised. -/
theorem abs_flags {B rq rep} (h : Abs B d s r rq rep s' r') {j nd'} (hj : s'.nodes j = some nd') (hf : hasFlag nd'.flags SYNCED = true) :
    (∃ nd, s.nodes j = some nd ∧ hasFlag nd.flags SYNCED = true) ∨
    (rq = .opendir j ∧ rep = .opened ∧ ∃ cs x, s.PathTo j cs ∧ B.opendir (backendPath (pathStr cs)) = .ok x) := by
  cases h with
  | lkBad _ _ h3 => exact .inl (h3.flags hj hf)
  | lkPut _ _ h3 => exact .inl (h3.flags hj hf)
  | lkErr _ _ _ _ h3 => exact .inl (h3.flags hj hf)
  | @rlPut i cs dest nd h1 h2 h3 h4 =>
    by_cases hji : j = i
    · subst hji; rw [Tree.set_self] at hj; cases hj; exact .inl ⟨nd, h3, hf⟩
    · rw [Tree.set_ne hji] at hj; exact .inl ⟨nd', hj, hf⟩
  | rlErr _ _ _ _ h3 => exact .inl (h3.flags hj hf)
  | @odSync i cs names e _ _ g1 g2 h3 =>
    cases h3 with
    | @mk s1 _ nd rw h1 h2 h3 h4 h5 h6 =>
      obtain ⟨x, k1, k2, -⟩ := orphans_flags hj
      by_cases hji : j = i
      · subst hji; exact .inr ⟨rfl, rfl, cs, _, g1, g2⟩
      · rw [Tree.set_ne hji] at k1
        exact .inl (h1.flags k1 (by rw [k2]; exact hf))
  | _ => exact .inl ⟨nd', hj, hf⟩

end Dragonstash.FS
