/-
  The life of a cache: any number of processes, one after the other, each with any number of threads. Inodes
  keep their identity: what kind of object they are, and where in the tree.
-/
import Verif.Props.FSCrash
import Verif.Props.Wire
namespace Dragonstash.Cache

/-- What exists in `s'` and is not new existed in `s`: as the same kind of object, in the same place (if it has one). -/
def Keep (s s' : Tree) : Prop := s.next ≤ s'.next ∧ ∀ i nd', s'.nodes i = some nd' → i < s.next →
  ∃ nd, s.nodes i = some nd ∧ fmt nd'.attr.mode = fmt nd.attr.mode ∧ (nd'.loc = nd.loc ∨ nd'.loc = none)

theorem Keep.refl (s : Tree) : Keep s s := ⟨Nat.le_refl _, fun _ nd h _ => ⟨nd, h, rfl, .inl rfl⟩⟩

theorem Keep.trans {s s' s'' : Tree} (h : Keep s s') (h' : Keep s' s'') : Keep s s'' := by
  refine ⟨Nat.le_trans h.1 h'.1, fun i nd'' hi hl => ?_⟩
  obtain ⟨nd', h1, h2, h3⟩ := h'.2 i nd'' hi (Nat.lt_of_lt_of_le hl h.1)
  obtain ⟨nd, g1, g2, g3⟩ := h.2 i nd' h1 hl
  refine ⟨nd, g1, h2.trans g2, ?_⟩
  rcases h3 with h3 | h3
  · rw [h3]; exact g3
  · exact .inr h3

theorem Collected.keep_ {s s' : Tree} {L : Ino → Prop} (h : Collected s L s') : Keep s s' := by
  refine ⟨Nat.le_of_eq h.next.symm, fun i nd' hi _ => ?_⟩
  obtain ⟨-, nd, h1, h2, -, -, h3⟩ := h.back hi
  exact ⟨nd, h1, by rw [h2], h3⟩

theorem orphan_keep (s : Tree) (i : Ino) : Keep s (s.orphan i) := by
  refine ⟨Nat.le_refl _, fun j nd' hj _ => ?_⟩
  by_cases hji : j = i
  · subst hji
    cases hn : s.nodes j with
    | none => rw [orphan_none hn] at hj; cases hj
    | some x => rw [Tree.orphan_self hn] at hj; cases hj; exact ⟨x, rfl, rfl, .inr rfl⟩
  · rw [Tree.orphan_ne hji] at hj; exact ⟨nd', hj, rfl, .inl rfl⟩

theorem Eff.keep_ {s s' : Tree} {r r' : Refs} (h : Eff s r s' r') : Keep s s' := by
  induction h with
  | refl => exact .refl _
  | @set s r i nd nd' h1 h2 h3 _ =>
    refine ⟨Nat.le_refl _, fun j x hj _ => ?_⟩
    by_cases hji : j = i
    · subst hji; rw [Tree.set_self] at hj; cases hj; exact ⟨nd, h1, h3, .inl h2⟩
    · rw [Tree.set_ne hji] at hj; exact ⟨x, hj, rfl, .inl rfl⟩
  | @orphan s r i => exact orphan_keep s i
  | @add s r p n a =>
    refine ⟨Nat.le_succ _, fun j x hj hl => ?_⟩
    rw [Tree.add_ne (by omega)] at hj; exact ⟨x, hj, rfl, .inl rfl⟩
  | collect _ h _ => exact h.keep_
  | trans _ _ ih1 ih2 => exact ih1.trans ih2

end Dragonstash.Cache

namespace Dragonstash.MT
open Cache FS Conc

/-! ### What replies say -/

/-- The `struct stat`s in a reply. -/
def Stats : Reply → OsStat → Prop
  | .entry st, x => x = st
  | .attr st, x => x = st
  | .buf l _, x => ∃ e ∈ l, x = e.stat
  | .bufPlus l _, x => ∃ e ∈ l, x = e.stat
  | _, _ => False

/-- The reply says that inode `i` is called `n` in directory `p`. -/
def Under : Req × Reply → Ino → Bytes → Ino → Prop
  | (.lookup p n, .entry st), q, m, i => q = p ∧ m = n ∧ i = st.ino
  | (.readdir p _ _, .buf l _), q, m, i => q = p ∧ m ≠ [0x2e] ∧ m ≠ [0x2e, 0x2e] ∧ ∃ e ∈ l, m = e.name ∧ i = e.stat.ino
  | (.readdirplus p _ _, .bufPlus l _), q, m, i => q = p ∧ m ≠ [0x2e] ∧ m ≠ [0x2e, 0x2e] ∧ ∃ e ∈ l, m = e.name ∧ i = e.stat.ino
  | _, _, _, _ => False

theorem readdir_entries {s : Tree} {d : DB} (h : Rep s d) (ok : s.OK) (wf : s.WF) {r : Refs} {dir size off : Nat} (hd : dir < W64) {st : St}
    (hh : FS.readdir { disk := d, refs := r } dir size off = .ok st) {l : List DEnt} {n : Nat} (hs : st.sent = [.buf l n]) :
    ∃ L e b, Stream d dir off L e b ∧ ∀ x ∈ l, x ∈ L.map Ent.dent := by
  obtain ⟨L, e, b, g1, g2, g3, g4, g5, g6⟩ := stream_exists (si_empty h ok wf) (dir := dir) (c := off) hd
  refine ⟨L, e, b, g1, ?_⟩
  cases b with
  | true =>
    have he := g5 rfl
    subst he
    rw [readdir_page (st := { disk := d, refs := r }) ⟨rfl, rfl⟩ g1 g2] at hh
    cases hh
    simp only [reply_fresh, done, List.cons.injEq, and_true] at hs
    split at hs
    · cases hs
    · cases hs; exact fun x hx => fitFrom_mem hx
  | false =>
    have he := g6 rfl
    unfold FS.readdir at hh
    by_cases hz : 0 < size
    · rcases readdirLoop_spec g1 (size := size) (d.treei.size + 4) [] 0 (by omega) hz with ⟨h1, h2⟩ | ⟨h1, x, h2⟩
      · simp only at hh
        rw [h2] at hh
        simp only [bind_ok, ne_eq, he, not_false_eq_true, if_true] at hh
        rw [if_neg (by simp)] at hh
        cases hh
        cases hs
      · simp only at hh
        rw [h2] at hh
        simp only [bind_ok, List.nil_append, ne_eq, not_true, if_false, bufLen_nil] at hh
        rw [if_neg (by simp), takeBytes_exact (by decide)] at hh
        cases hh
        cases hs
        exact fun x hx => fitFrom_mem hx
    · have h0 : size = 0 := by omega
      subst h0
      simp only at hh
      have hloop : FS.readdirLoop d dir 0 (d.treei.size + 4) off [] 0 = .ok ⟨[], 0, 0, false⟩ := by
        rw [FS.readdirLoop, if_neg (by simp)]; rfl
      rw [hloop] at hh
      cases hh
      cases hs
      intro x hx; cases hx

theorem forget_shape {d : DB} {r : Refs} {i n : Nat} {st : St} {rep : Reply} (hh : FS.forget { disk := d, refs := r } i n = .ok st) (hs : st.sent = [rep]) :
    rep = .none ∨ ∃ e, rep = .err e := by
  unfold FS.forget at hh
  cases h : release ({ disk := d, refs := r } : St).txn i n with
  | error e => rw [h] at hh; cases hh
  | ok x =>
    rw [h] at hh
    obtain ⟨t, e | u⟩ := x
    · cases hh; cases hs; exact .inr ⟨_, rfl⟩
    · cases hh; cases hs; exact .inl rfl

theorem forgetMulti_shape {d : DB} {r : Refs} {l : List (Ino × Nat)} {st : St} {rep : Reply} (hh : FS.forgetMulti { disk := d, refs := r } l = .ok st) (hs : st.sent = [rep]) :
    rep = .none := by
  unfold FS.forgetMulti at hh
  cases h : forgetLoop l ({ disk := d, refs := r } : St).txn with
  | error e => rw [h] at hh; cases hh
  | ok x => rw [h] at hh; cases hh; cases hs; rfl

theorem readdir_shape {d : DB} {r : Refs} {i size off : Nat} {st : St} {rep : Reply} (hh : FS.readdir { disk := d, refs := r } i size off = .ok st) (hs : st.sent = [rep]) :
    (∃ l n, rep = .buf l n) ∨ ∃ e, rep = .err e := by
  unfold FS.readdir at hh
  simp only at hh
  cases h : FS.readdirLoop d i size (d.treei.size + 4) off [] 0 with
  | error e => rw [h] at hh; cases hh
  | ok pg =>
    rw [h] at hh
    simp only [bind_ok] at hh
    by_cases he : pg.error = 0
    · simp only [he, ne_eq, not_true, if_false] at hh
      split at hh
      · cases hh; cases hs; exact .inr ⟨_, rfl⟩
      · cases hh; cases hs; exact .inl ⟨_, _, rfl⟩
    · simp only [he, ne_eq, not_false_eq_true, if_true] at hh
      split at hh
      · cases hh; cases hs; exact .inr ⟨_, rfl⟩
      · cases hh; cases hs; exact .inr ⟨_, rfl⟩

/-- The reply shows inodes as they are in `s`. -/
def Fits (s : Tree) (a : Req × Reply) : Prop :=
  (∀ st, Stats a.2 st → ∃ nd, s.nodes st.ino = some nd ∧ st = osStat st.ino nd.attr) ∧ ∀ p n i, Under a p n i → s.At p n i

theorem fits_none (s : Tree) {rq : Req} {rep : Reply} (h1 : ∀ st, ¬ Stats rep st) (h2 : ∀ p n i, ¬ Under (rq, rep) p n i) : Fits s (rq, rep) :=
  ⟨fun st h => absurd h (h1 st), fun p n i h => absurd h (h2 p n i)⟩

theorem fits_err (s : Tree) {rq : Req} {e : Errno} : Fits s (rq, .err e) := fits_none s (fun _ h => h) (fun _ _ _ h => by cases rq <;> exact h)

theorem fits_stream {s : Tree} {d : DB} {r : Refs} (h : SI s d r) {dir c : Ino} {L e b} (hd : dir < W64) (hs : Stream d dir c L e b) {l : List DEnt}
    (hl : ∀ x ∈ l, x ∈ L.map Ent.dent) : (∀ x ∈ l, ∃ nd, s.nodes x.stat.ino = some nd ∧ x.stat = osStat x.stat.ino nd.attr) ∧
    ∀ x ∈ l, x.name ≠ [0x2e] → x.name ≠ [0x2e, 0x2e] → s.At dir x.name x.stat.ino := by
  refine ⟨fun x hx => ?_, fun x hx h1 h2 => ?_⟩
  · obtain ⟨-, ⟨a, g1, g2⟩, -, g3, -⟩ := stream_true h hd hs (hl x hx)
    rw [h.rep.getattr h.ok g3] at g1
    cases hn : s.nodes x.stat.ino with
    | none => rw [hn] at g1; cases g1
    | some nd => rw [hn] at g1; cases g1; exact ⟨nd, rfl, g2⟩
  · rcases (stream_true h hd hs (hl x hx)).place with g | g | g
    · exact absurd g.1 h1
    · exact absurd g.1 h2
    · exact (h.rep.lookup_iff h.ok hd).mp g

/-- What a request which has ended answered is so before or after it. -/
theorem saw_fits {P : Tree → Prop} {d d' : DB} {q : Done} (h : Saw P d d' q) : ∃ s, (Rep s d ∨ Rep s d') ∧ s.OK ∧ Fits s (q.rq, q.rep) := by
  obtain ⟨rq, B, v, rep⟩ := q
  cases h with
  | @wrote s r s' r' hr k1 _ hin hon hnx hnx2 k3 k4 =>
    simp only at hr hin hon hnx2 k4 ⊢
    cases k4 with
    | @lkPut p n cs sr i _ _ h1 h2 h3 =>
      obtain ⟨nd, hnd⟩ := conn_exists k1.ok ⟨cs, h1⟩
      obtain ⟨g1, g2, x, g3, g4⟩ := h3.found k1.ok h1 (isDir_of k1 hin hon hnd) hnx
      refine ⟨s', .inr k3.rep, k3.ok, fun st hst => ?_, fun p' n' i' hu => ?_⟩
      · cases hst; exact ⟨x, g3, by rw [g4]; rfl⟩
      · obtain ⟨rfl, rfl, rfl⟩ := hu; exact g2
    | @lkHit p n cs i nd h1 h2 h3 h4 =>
      refine ⟨s, .inl k1.rep, k1.ok, fun st hst => ?_, fun p' n' i' hu => ?_⟩
      · cases hst; exact ⟨nd, h3, rfl⟩
      · obtain ⟨rfl, rfl, rfl⟩ := hu; exact ⟨nd, h3, h4⟩
    | _ => first | exact ⟨s, .inl k1.rep, k1.ok, fits_none s (fun _ h => h) (fun _ _ _ h => h)⟩ | cases hr
  | @read s r st s1 hr hrep ok wf _ hin hret hcnt hh hsent hf _ =>
    simp only at hr hin hh hsent ⊢
    refine ⟨s, .inl hrep, ok, ?_⟩
    cases rq with
    | lookup => cases hr
    | readlink => cases hr
    | opendir => cases hr
    | forget =>
      rcases forget_shape hh hsent with rfl | ⟨e, rfl⟩
      · exact fits_none s (fun _ h => h) (fun _ _ _ h => h)
      · exact fits_err s
    | forgetMulti =>
      obtain rfl := forgetMulti_shape hh hsent
      exact fits_none s (fun _ h => h) (fun _ _ _ h => h)
    | releasedir => cases hh; cases hsent; exact fits_none s (fun _ h => h) (fun _ _ _ h => h)
    | other => cases hh; cases hsent; exact fits_none s (fun _ h => h) (fun _ _ _ h => h)
    | getattr i =>
      simp only [handle, FS.getattr] at hh
      rw [hrep.getattr ok hin] at hh
      cases hn : s.nodes i with
      | none => rw [hn] at hh; cases hh; cases hsent; exact fits_err s
      | some nd =>
        rw [hn] at hh
        cases hh; cases hsent
        exact ⟨fun st hst => by cases hst; exact ⟨nd, hn, rfl⟩, fun _ _ _ h => h.elim⟩
    | readdir dir size off =>
      rcases readdir_shape hh hsent with ⟨l, n, rfl⟩ | ⟨e, rfl⟩
      · obtain ⟨L, e, b, g1, g2⟩ := readdir_entries hrep ok wf hin.1 hh hsent
        obtain ⟨f1, f2⟩ := fits_stream (si_empty hrep ok wf) hin.1 g1 g2
        refine ⟨fun st hst => ?_, fun p n i hu => ?_⟩
        · obtain ⟨e, he, rfl⟩ := hst; exact f1 e he
        · obtain ⟨rfl, n1, n2, e, he, rfl, rfl⟩ := hu; exact f2 e he n1 n2
      · exact fits_err s
    | readdirplus dir size off =>
      obtain ⟨L, e0, b0, hs, hl, -⟩ := stream_exists (si_empty hrep ok wf) (dir := dir) (c := off) hin.1
      have hlen : ∀ i, (r i).nrefs + L.length < W64 := fun i => by have := hcnt i; omega
      have sub : ∀ {A : List Ent}, (∀ y ∈ A, y ∈ lockable r L) → ∀ x ∈ A.map Ent.dent, x ∈ L.map Ent.dent := by
        intro A hA x hx
        obtain ⟨y, hy, rfl⟩ := List.mem_map.mp hx
        exact List.mem_map.mpr ⟨y, (lockable_mem (hA y hy)).1, rfl⟩
      have fin : ∀ {l n}, (∀ x ∈ l, x ∈ L.map Ent.dent) → Fits s (.readdirplus dir size off, .bufPlus l n) := by
        intro l n g2
        obtain ⟨f1, f2⟩ := fits_stream (si_empty hrep ok wf) hin.1 hs g2
        refine ⟨fun st hst => ?_, fun p n i hu => ?_⟩
        · obtain ⟨e, he, rfl⟩ := hst; exact f1 e he
        · obtain ⟨rfl, n1, n2, e, he, rfl, rfl⟩ := hu; exact f2 e he n1 n2
      simp only [handle] at hh
      rcases readdirplus_stale (r := r) hs hl hlen (size := size) with ⟨-, -, g⟩ | ⟨-, g⟩ | ⟨-, P, x, Q, g0, -, g⟩
      · rw [g] at hh; cases hh
        simp only [done, List.cons.injEq, and_true] at hsent
        split at hsent
        · cases hsent; exact fits_err s
        · cases hsent; exact fin (sub (fun _ h => h))
      · rw [g] at hh; cases hh; cases hsent; exact fin (fun x hx => by cases hx)
      · rw [g] at hh; cases hh; cases hsent
        exact fin (sub (fun y hy => by rw [g0]; exact List.mem_append_left _ hy))

/-! ### The life of a cache -/

/-- A cache in use, and all answers which its earlier processes have sent. The databases are created by
the first process; a later one finds what the one before it left when it died, at any moment. Each process
has any number of threads. -/
inductive Life : List (Req × Reply) → MSys → Prop
  | mount {uid gid now d r n} : openCleanDB (initDB emptyDB uid gid now) Refs.empty = .ok (d, r) → Room (CWorld.start d r) →
      Life [] (MSys.start d r n)
  | remount {past m uid gid now d r n} : Life past m → openCleanDB (initDB m.w.disk uid gid now) Refs.empty = .ok (d, r) →
      Room (CWorld.start d r) → Life (past ++ m.sent) (MSys.start d r n)
  | step {past m m' k} : Life past m → Step m k m' → Proper m k m' → Room m'.w → Life past m'

theorem Life.reach {past : List (Req × Reply)} {m : MSys} (h : Life past m) : MReach m := by
  induction h with
  | mount h1 h2 => exact .mount h1 h2
  | remount _ h1 h2 ih => exact .remount ih h1 h2
  | step _ h1 h2 h3 ih => exact .step ih h1 h2 h3

/-- The trees which the databases have held, oldest first. -/
structure Trees (ts : List Tree) (ds : List DB) (d : DB) (past : List (Req × Reply)) : Prop where
  keep : ts.Pairwise Keep
  ok : ∀ s ∈ ts, s.OK
  last : ∃ s, ts.getLast? = some s ∧ Rep s d
  all : ∀ d ∈ ds, ∃ s ∈ ts, Rep s d
  past : ∀ a ∈ past, ∃ s ∈ ts, Fits s a

theorem pairwise_snoc {ts : List Tree} {s s' : Tree} (h : ts.Pairwise Keep) (hl : ts.getLast? = some s) (hk : Keep s s') : (ts ++ [s']).Pairwise Keep := by
  rw [List.pairwise_append]
  refine ⟨h, List.pairwise_singleton _ _, fun a ha b hb => ?_⟩
  rw [List.mem_singleton.mp hb]
  obtain ⟨l, rfl⟩ := List.getLast?_eq_some_iff.mp hl
  rcases List.mem_append.mp ha with h1 | h1
  · exact ((List.pairwise_append.mp h).2.2 a h1 s (List.mem_singleton.mpr rfl)).trans hk
  · rw [List.mem_singleton.mp h1]; exact hk

theorem Trees.snoc {ts ds d past} {s s' : Tree} {d' : DB} (h : Trees ts ds d past) (hr : Rep s d) (ok : s.OK) (hr' : Rep s' d') (ok' : s'.OK) (hk : Keep s s') :
    Trees (ts ++ [s']) (ds ++ [d']) d' past := by
  obtain ⟨s0, h1, h2⟩ := h.last
  obtain rfl := Rep.inj h2 (h.ok s0 (List.mem_of_getLast? h1)) hr ok
  refine ⟨pairwise_snoc h.keep h1 hk, fun s hs => ?_, ⟨s', by simp, hr'⟩, fun d hd => ?_, fun a ha => ?_⟩
  · rcases List.mem_append.mp hs with hs | hs
    · exact h.ok s hs
    · rw [List.mem_singleton.mp hs]; exact ok'
  · rcases List.mem_append.mp hd with hd | hd
    · obtain ⟨s, g1, g2⟩ := h.all d hd; exact ⟨s, List.mem_append_left _ g1, g2⟩
    · rw [List.mem_singleton.mp hd]; exact ⟨s', by simp, hr'⟩
  · obtain ⟨s, g1, g2⟩ := h.past a ha; exact ⟨s, List.mem_append_left _ g1, g2⟩

/-- What was answered when `m` was running fits one of the trees. -/
theorem Trees.sent {ts ds past} {m : MSys} {d0 r0 n L H vs R s} (h : Trees ts ds m.w.disk past) (hst : Steps (MSys.start d0 r0 n) m) (hM : MInv d0 r0 m L H vs R ds) (hR : RInv m R ds s)
    (hP : PInv (fun _ => True) ds m.hist) : ∀ a ∈ m.sent, ∃ s ∈ ts, Fits s a := by
  have hist : ∀ {m' : MSys} {L' H' vs' R' ds'}, MInv d0 r0 m' L' H' vs' R' ds' → PInv (fun _ => True) ds' m'.hist → (∀ d ∈ ds', d ∈ ds) → ∀ q ∈ m'.hist, ∃ s ∈ ts, Fits s (q.rq, q.rep) := by
    intro m' L' H' vs' R' ds' hM' hP' hsub q hq
    obtain ⟨k, hk⟩ := List.mem_iff_getElem?.mp hq
    obtain ⟨d, d', h1, h2, h3⟩ := hP'.saw k q hk
    have m1 : d ∈ ds' := by
      unfold seen at h1
      split at h1 <;> exact List.mem_of_getElem? h1
    have m2 : d' ∈ ds' := List.mem_of_getElem? h2
    obtain ⟨s, g1, g2, g3⟩ := saw_fits h3
    rcases g1 with g1 | g1
    · obtain ⟨s2, f1, f2⟩ := h.all d (hsub d m1)
      obtain rfl := Rep.inj g1 g2 f2 (h.ok _ f1)
      exact ⟨s, f1, g3⟩
    · obtain ⟨s2, f1, f2⟩ := h.all d' (hsub d' m2)
      obtain rfl := Rep.inj g1 g2 f2 (h.ok _ f1)
      exact ⟨s, f1, g3⟩
  intro a ha
  have hperm := (C57_answers hst).mem_iff (a := a)
  rcases List.mem_append.mp (hperm.mp (List.mem_append_left _ ha)) with h1 | h1
  · obtain ⟨q, hq, rfl⟩ := List.mem_map.mp h1
    exact hist hM hP (fun _ h => h) q hq
  · obtain ⟨st, h2, h3⟩ := List.mem_filterMap.mp h1
    cases st with
    | leaving rq B v r =>
      obtain rfl : a = (rq, r) := by injection h3 with h3; exact h3.symm
      obtain ⟨k, hk⟩ := List.mem_iff_getElem?.mp h2
      obtain ⟨t, f, l, P, a1, a2, a3, -⟩ := (show Serving m.w L ds k rq B v (.done false [r]) from hM.threads k _ hk)
      have hw : ∃ w' out, m.w.step (.on k .drop) = .done w' out := by
        unfold CWorld.step
        simp only [a1]
        unfold CWorld.act
        simp only [a2]
        exact ⟨_, _, rfl⟩
      obtain ⟨w', out, hw⟩ := hw
      have hs := Step.leave hk hw
      obtain ⟨L', H', vs', R', ds', hM', -⟩ := hM.step hs
      have hP' := hP.step kept_true hM hR hM' hs (fun _ _ => trivial)
      have hsub : ∀ d ∈ ds', d ∈ ds := by
        have h4 := hM'.one
        obtain ⟨ds1, r1, d, d1, st, g1, -, -, -, -, -, -, rfl⟩ := h4.snoc_inv
        obtain ⟨rfl, -⟩ := hM.one.det g1
        intro e he
        rcases List.mem_append.mp he with he | he
        · exact he
        · have h5 := hM'.last
          rw [List.getLast?_append, List.getLast?_singleton] at h5
          have h6 : w'.disk = m.w.disk := step_disk hw (by simp)
          have h7 := List.mem_singleton.mp he
          have h8 := Option.some.inj h5
          rw [h7]
          refine List.mem_of_getLast? (?_ : ds1.getLast? = _)
          rw [hM.last, ← h6]; exact congrArg some h8.symm
      exact hist hM' hP' hsub ⟨rq, B, v, r⟩ (List.mem_append_right _ (List.mem_singleton.mpr rfl))
    | _ => cases h3

theorem Life.trees {past : List (Req × Reply)} {m : MSys} (h : Life past m) :
    ∃ d0 r0 n L H vs R ds s ts, Steps (MSys.start d0 r0 n) m ∧ MInv d0 r0 m L H vs R ds ∧ RInv m R ds s ∧ PInv (fun _ => True) ds m.hist ∧ Trees ts ds m.w.disk past := by
  have start : ∀ {d : DB} {r : Refs} {s : Tree} {n : Nat} {ts past}, SI s d r → Room (CWorld.start d r) → Trees ts [d] d past →
      ∃ d0 r0 n' L H vs R ds s ts, Steps (MSys.start d0 r0 n') (MSys.start d r n) ∧ MInv d0 r0 (MSys.start d r n) L H vs R ds ∧ RInv (MSys.start d r n) R ds s ∧
        PInv (fun _ => True) ds (MSys.start d r n).hist ∧ Trees ts ds (MSys.start d r n).w.disk past := by
    intro d r s n ts past h4 hroom hT
    obtain ⟨L, H, vs, R, ds, hM⟩ := minv_start d r n
    obtain ⟨rfl, rfl⟩ := OneByOne.det .start hM.one
    refine ⟨d, _, n, L, H, vs, _, _, s, ts, .refl, hM, rinv_start h4 hroom, ⟨fun d hd => ?_, fun k q hk => ?_⟩, hT⟩
    · rw [List.mem_singleton.mp hd]; exact ⟨s, h4.rep, h4.ok, trivial⟩
    · simp [MSys.start] at hk
  induction h with
  | @mount uid gid now d r n ho hroom =>
    obtain ⟨s, h1, h2, h3⟩ := root_rep uid gid now
    obtain ⟨s1, s2, h4, h5, h6, -⟩ := open_SI' h1 h2 h3 ho
    refine start h4 hroom (ts := [s2]) ⟨List.pairwise_singleton _ _, fun s hs => ?_, ⟨s2, rfl, h4.rep⟩, fun d hd => ?_, fun a ha => by cases ha⟩
    · rw [List.mem_singleton.mp hs]; exact h4.ok
    · rw [List.mem_singleton.mp hd]; exact ⟨s2, by simp, h4.rep⟩
  | @remount past m uid gid now d r n h0 ho hroom ih =>
    obtain ⟨d0, r0, n', L, H, vs, R, ds, s, ts, hst, hM, hR, hP, hT⟩ := ih
    have hi : initDB m.w.disk uid gid now = m.w.disk := by
      unfold initDB; rw [hR.si.rep.next]
    rw [hi] at ho
    obtain ⟨s1, s2, h4, h5, h6, -⟩ := open_SI' hR.si.rep hR.si.ok hR.si.wf ho
    have hsent := hT.sent hst hM hR hP
    have hT' := hT.snoc hR.si.rep hR.si.ok h4.rep h4.ok (h5.keep_.trans h6.keep_)
    refine start h4 hroom (ts := ts ++ [s2]) ⟨hT'.keep, hT'.ok, hT'.last, fun e he => hT'.all e (List.mem_append_right _ he), fun a ha => ?_⟩
    rcases List.mem_append.mp ha with h7 | h7
    · exact hT'.past a h7
    · obtain ⟨x, g1, g2⟩ := hsent a h7; exact ⟨x, List.mem_append_left _ g1, g2⟩
  | @step past m m' k h0 hs hp hroom ih =>
    obtain ⟨d0, r0, n, L, H, vs, R, ds, s, ts, hst, hM, hR, hP, hT⟩ := ih
    obtain ⟨L', H', vs', R', ds', hM', hRR⟩ := hM.step hs
    obtain ⟨s', hR'⟩ := hR.step hM hM' hRR hs hp hroom
    have hP' := hP.step kept_true hM hR hM' hs (fun _ _ => trivial)
    rcases step_hist hs with he | ⟨x, q, hk, he, hx⟩
    · have h1 := hM'.one
      rw [he] at h1
      obtain ⟨rfl, -⟩ := hM.one.det h1
      have := hM'.last
      rw [hM.last] at this
      exact ⟨d0, r0, n, L', H', vs', R', _, s', ts, .step hst hs, hM', hR', hP', by rw [← Option.some.inj this]; exact hT⟩
    · have h1 := hM'.one
      rw [he] at h1
      obtain ⟨ds1, r1, d, d1, st, g1, g2, g3, g4, g5, g6, g7, g8⟩ := h1.snoc_inv
      obtain ⟨rfl, -⟩ := hM.one.det g1
      have hlast := hM'.last
      rw [g8, List.getLast?_append, List.getLast?_singleton] at hlast
      have hlast := Option.some.inj hlast
      rw [hlast] at g8
      refine ⟨d0, r0, n, L', H', vs', R', ds', s', ts ++ [s'], .step hst hs, hM', hR', hP', ?_⟩
      rw [g8]
      refine hT.snoc hR.si.rep hR.si.ok hR'.si.rep hR'.si.ok ?_
      have hl := hM.one.length
      have hkq : m'.hist[m.hist.length]? = some q := by rw [he]; simp
      obtain ⟨e, e', k1, k2, k3⟩ := hP'.saw _ _ hkq
      cases k3 with
      | @wrote t r t' r' hr i1 _ hin hon hnx hnx2 i3 i4 =>
        have e1 : e = m.w.disk := by
          unfold seen at k1
          rw [hr, if_neg (by simp), g8, List.getElem?_append_left (by omega)] at k1
          have := hM.last
          rw [List.getLast?_eq_getElem?, hl] at this
          rw [Nat.add_sub_cancel] at this
          rw [this] at k1; exact (Option.some.inj k1).symm
        have e2 : e' = m'.w.disk := by
          rw [g8, ← hl, List.getElem?_concat_length] at k2; exact (Option.some.inj k2).symm
        subst e1; subst e2
        obtain rfl := Rep.inj i1.rep i1.ok hR.si.rep hR.si.ok
        obtain rfl := Rep.inj i3.rep i3.ok hR'.si.rep hR'.si.ok
        obtain ⟨r2, hE⟩ := abs_eff i4 i1 hin hon hnx
        exact hE.keep_
      | read hr _ _ _ _ _ _ _ _ _ _ _ =>
        have : m.w.disk = m'.w.disk := by
          rw [← hlast, hr, if_pos rfl]
          rw [hM.last] at g3; exact Option.some.inj g3
        obtain rfl := Rep.inj hR.si.rep hR.si.ok (by rw [this]; exact hR'.si.rep) hR'.si.ok
        exact .refl _

/-- All that was ever answered fits a sequence of trees in which inodes keep their identity. -/
theorem Life.answers {past : List (Req × Reply)} {m : MSys} (h : Life past m) :
    ∃ ts : List Tree, ts.Pairwise Keep ∧ (∀ s ∈ ts, s.OK) ∧ ∀ a ∈ past ++ m.sent, ∃ s ∈ ts, Fits s a := by
  obtain ⟨d0, r0, n, L, H, vs, R, ds, s, ts, hst, hM, hR, hP, hT⟩ := h.trees
  refine ⟨ts, hT.keep, hT.ok, fun a ha => ?_⟩
  rcases List.mem_append.mp ha with ha | ha
  · exact hT.past a ha
  · exact hT.sent hst hM hR hP a ha

/-- An inode number which was shown is below the next one. -/
theorem Life.shown_lt {past : List (Req × Reply)} {m : MSys} (h : Life past m) {a : Req × Reply} (ha : a ∈ past ++ m.sent) :
    ∃ s0 s, s0.OK ∧ Fits s0 a ∧ Rep s m.w.disk ∧ s.OK ∧ s0.next ≤ s.next := by
  obtain ⟨d0, r0, n, L, H, vs, R, ds, s, ts, hst, hM, hR, hP, hT⟩ := h.trees
  have : ∃ s ∈ ts, Fits s a := by
    rcases List.mem_append.mp ha with ha | ha
    · exact hT.past a ha
    · exact hT.sent hst hM hR hP a ha
  obtain ⟨s0, h1, h2⟩ := this
  obtain ⟨s', h3, h4⟩ := hT.last
  refine ⟨s0, s', hT.ok _ h1, h2, h4, hT.ok _ (List.mem_of_getLast? h3), ?_⟩
  obtain ⟨l, rfl⟩ := List.getLast?_eq_some_iff.mp h3
  rcases List.mem_append.mp h1 with h1 | h1
  · exact ((List.pairwise_append.mp hT.keep).2.2 _ h1 s' (List.mem_singleton.mpr rfl)).1
  · rw [List.mem_singleton.mp h1]; exact Nat.le_refl _

theorem mem_pairwise {α : Type} {R : α → α → Prop} {l : List α} (h : l.Pairwise R) {a b : α} (ha : a ∈ l) (hb : b ∈ l) : a = b ∨ R a b ∨ R b a := by
  obtain ⟨i, h1⟩ := List.mem_iff_getElem?.mp ha
  obtain ⟨j, h2⟩ := List.mem_iff_getElem?.mp hb
  obtain ⟨hi, h1⟩ := List.getElem?_eq_some_iff.mp h1
  obtain ⟨hj, h2⟩ := List.getElem?_eq_some_iff.mp h2
  have hp := List.pairwise_iff_getElem.mp h
  rcases Nat.lt_trichotomy i j with h3 | h3 | h3
  · have := hp i j hi hj h3; rw [h1, h2] at this; exact .inr (.inl this)
  · subst h3; rw [h1] at h2; exact .inl h2
  · have := hp j i hj hi h3; rw [h1, h2] at this; exact .inr (.inr this)

theorem Keep.same {s s' : Tree} (h : Keep s s') (ok : s.OK) {i : Ino} {nd nd' : Node} (h1 : s.nodes i = some nd) (h2 : s'.nodes i = some nd') :
    fmt nd'.attr.mode = fmt nd.attr.mode ∧ (nd'.loc = nd.loc ∨ nd'.loc = none) := by
  obtain ⟨x, g1, g2, g3⟩ := h.2 i nd' h2 (ok.bound i nd h1).2
  rw [h1] at g1; cases g1; exact ⟨g2, g3⟩

end Dragonstash.MT
