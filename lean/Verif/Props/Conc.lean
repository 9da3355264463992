/-
  C50, C51, C54: several threads.
-/
import Verif.Conc.Demo
import Verif.Conc.Hooks
import Verif.Conc.DebugMutex
import Verif.Conc.Serial
namespace Dragonstash.Conc
open Cache Codec

/-! ### C50 -/

/-- Runs (any interleaving) during which the lock count of inode `i` is positive. -/
inductive HeldRun (i : Ino) : CWorld → CWorld → Prop
  | refl {w} : HeldRun i w w
  | step {w w1 w2 c out} : HeldRun i w w1 → 0 < (w1.refs i).nrefs → CAllowed w1 c → w1.step c = .done w2 out → HeldRun i w w2

theorem HeldRun.run {i : Ino} {w w' : CWorld} (h : HeldRun i w w') : CRun w w' := by
  induction h with
  | refl => exact .refl
  | step _ _ ha hs ih => exact .step ih ha hs

/-- While it is locked, an inode does not leave the committed databases. -/
theorem held_step {w w' : CWorld} (h : CReach w) {c : CCall} {out : Out} {i F} (hb : i < W64) (hl : 0 < (w.refs i).nrefs)
    (hi : Has w.disk i F) (hs : w.step c = .done w' out) : Has w'.disk i F := by
  obtain ⟨-, hd⟩ := h.inv
  cases step_inv hs with
  | @commit k t f hk hf =>
    simp only
    cases hro : f.fr.ro with
    | true => simpa using hi
    | false =>
      have hc := hd.chain k t hk
      rw [hf] at hc; unfold Chain at hc
      rw [hro] at hc
      simp only [Bool.false_eq_true, if_false] at hc ⊢
      rcases hc.keep i F hb hi with h1 | ⟨-, h1⟩
      · exact h1
      · have := hd.refs.doomed i h1; omega
  | _ => exact hi

/-- C50: a read-only transaction sees inode `i` (of kind `F`) in its snapshot, and locks it. Then the
inode is in the committed databases, with the same kind, and stays there as long as its lock count is
positive, whatever all threads do; and every writer sees it as well. -/
theorem C50_locked {w w1 w2 : CWorld} (h : CReach w) {k : Nat} {t : CTxn} {f : CFrame} {i F} (hb : i < W64)
    (hk : w.txns k = some t) (hf : t.frames = [f]) (hro : f.fr.ro = true) (hi : Has f.fr.db i F)
    (ha : CAllowed w (.on k (.op (.lock i)))) (hs : w.step (.on k (.op (.lock i))) = .done w1 (.unit (.ok ())))
    (hr : HeldRun i w1 w2) :
    Has w2.disk i F ∧
    (0 < (w2.refs i).nrefs → ∀ j u g, w2.txns j = some u → g ∈ u.frames → g.fr.ro = false → Has g.fr.db i F) := by
  have h1 : CReach w1 := h.step ha hs
  have start : Has w1.disk i F := by
    obtain ⟨-, hd⟩ := h.inv
    cases step_inv hs with
    | @op k t' f' r o x _ mx hk' hf' hro' hd' hask hmx =>
      rw [hk] at hk'; cases hk'
      rw [hf] at hf'; cases hf'
      have hc := hd.chain k t hk
      rw [hf] at hc; unfold Chain at hc
      rw [if_pos hro] at hc
      rcases hc.keep i F hb hi with g | ⟨-, g⟩
      · exact g
      · have : doOp (f.fr.txn w.refs) (.lock i) = .ok (f.fr.txn w.refs, .unit (.error ESTALE)) := by
          simp only [doOp, Cache.lock, Refs.incref, Frame.txn, g, if_true]
        rw [this] at hd'; cases hd'
  have key : Has w2.disk i F := by
    induction hr with
    | refl => exact start
    | step hr' hp ha' hs' ih => exact held_step (h1.run hr'.run) hb hp ih hs'
  refine ⟨key, fun hp j u g hj hg hgro => ?_⟩
  obtain ⟨hl2, hd2⟩ := (h1.run hr.run).inv
  have nd : (w2.refs i).doomed = false := by
    cases hx : (w2.refs i).doomed with
    | false => rfl
    | true => have := hd2.refs.doomed i hx; omega
  have hc := hd2.chain j u hj
  have rec_ : ∀ l : List CFrame, Chain w2.refs w2.disk l → (∀ y ∈ l, y.fr.ro = false) → ∀ y ∈ l, Has y.fr.db i F := by
    intro l
    induction l with
    | nil => intro _ _ y hy; cases hy
    | cons a l ih =>
      intro hc hro y hy
      have rest := ih hc.tail (fun z hz => hro z (List.mem_cons_of_mem _ hz))
      rcases List.mem_cons.mp hy with rfl | hy
      · cases l with
        | nil =>
          unfold Chain at hc
          rw [hro y (by simp)] at hc
          simp only [Bool.false_eq_true, if_false] at hc
          rcases hc.keep i F hb key with h1 | ⟨-, h1⟩
          · exact h1
          · rw [nd] at h1; cases h1
        | cons b l =>
          rcases hc.2.2.1.keep i F hb (rest b (by simp)) with h1 | ⟨-, h1⟩
          · exact h1
          · rw [nd] at h1; cases h1
      · exact rest y hy
  refine rec_ u.frames hc (fun y hy => ?_) g hg
  cases hyr : y.fr.ro with
  | false => rfl
  | true =>
    have := ((hl2.txn j u hj).single y hy hyr).1
    rw [this] at hg; simp only [List.mem_singleton] at hg; subst hg; rw [hgro] at hyr; cases hyr

/-- C50: the lock count of an inode is only lowered by calling `release` on it, or by aborting a
transaction which locked it (`lock` registers the hook `unlock`). -/
theorem C50_count {w w' : CWorld} (h : TidyReach w) {c : CCall} {out : Out} (ha : CAllowed w c) (hs : w.step c = .done w' out) {i : Ino}
    (hlt : (w'.refs i).nrefs < (w.refs i).nrefs) :
    (∃ k n, c = .on k (.op (.release i n)) ∧ out = .unit (.ok ()) ∧ (w'.refs i).nrefs = (w.refs i).nrefs - n) ∨
    (∃ k t f r, c = .on k .abort ∧ w.txns k = some t ∧ t.frames = f :: r ∧ Undo.unlock i ∈ f.fr.hooks) := by
  obtain ⟨-, hd⟩ := h.reach.inv
  cases step_inv hs with
  | @op k t f r o x _ mx hk hf hro hdo hask hmx =>
    left
    obtain ⟨⟨s, h1, ok⟩, grw⟩ := hd.frames k t hk f (by rw [hf]; simp)
    have ha2 := ha.2 t f r hk hf
    have ha' : ∀ p n a, o = .emplace p n a → p ≠ 0 ∧ s.next + 1 < W64 := by
      rintro p n a rfl; simp only at ha2; exact ⟨ha2.1, ha2.2 _ h1.next⟩
    simp only at hlt
    rcases doOp_hooks (t := f.fr.txn w.refs) ⟨h1, ok⟩ ha.1 grw ha' hdo with ⟨-, h3, -⟩ | ⟨j, ho, -, -, h3⟩ | ⟨j, n, ho, h2, h4, h5, h3⟩
    · have := h3 i; simp only [Frame.txn] at this; omega
    · exfalso
      rw [h3] at hlt
      have hb : (w.refs j).nrefs + 1 < W64 := by subst ho; simpa using ha2
      unfold Refs.set at hlt
      by_cases e : i = j
      · subst e
        simp only [Frame.txn, if_true] at hlt
        have : u64 ((w.refs i).nrefs + 1) = (w.refs i).nrefs + 1 := Nat.mod_eq_of_lt hb
        omega
      · simp only [Frame.txn, e, if_false] at hlt; omega
    · rw [h3] at hlt
      unfold Refs.set at hlt
      by_cases e : i = j
      · subst e
        refine ⟨k, n, by rw [ho], ?_, ?_⟩
        · subst ho
          simp only [doOp, Cache.release] at hdo
          rw [if_neg (by omega)] at hdo
          have : (f.fr.txn w.refs).refs.decref i n = .ok ((f.fr.txn w.refs).refs.set i { (f.fr.txn w.refs).refs i with nrefs := ((f.fr.txn w.refs).refs i).nrefs - n }, .ok (((f.fr.txn w.refs).refs i).nrefs - n)) := by
            unfold Refs.decref
            rw [if_neg (by omega), if_neg (by omega)]
          simp only [this, bind_ok, pure_eq_ok] at hdo
          cases hdo; rfl
        · simp only; rw [h3]; simp [Refs.set, Frame.txn]
      · simp only [Frame.txn, e, if_false] at hlt; omega
  | @abort k t f refs hk hf hu =>
    obtain ⟨c, -, h2⟩ := h.hooks.abort hk hf hu
    exact .inr ⟨k, t, f, [], rfl, hk, hf, Fwd.raised h2 hlt⟩
  | @abortNested k t f g r refs hk hf hu =>
    obtain ⟨c, -, h2⟩ := h.hooks.abort hk hf hu
    exact .inr ⟨k, t, f, g :: r, rfl, hk, hf, Fwd.raised h2 hlt⟩
  | _ => simp only [CWorld.set] at hlt; omega

/-- The call gives locks of inode `i` back: it is `release`, or an abort of a transaction which
locked it. -/
def GivesBack (w : CWorld) (i : Ino) (c : CCall) : Prop :=
  (∃ k n, c = .on k (.op (.release i n))) ∨
  (∃ k t f r, c = .on k .abort ∧ w.txns k = some t ∧ t.frames = f :: r ∧ Undo.unlock i ∈ f.fr.hooks)

/-- Runs (any interleaving) during which nobody gives back locks of inode `i`. -/
inductive KeptRun (i : Ino) : CWorld → CWorld → Prop
  | refl {w} : KeptRun i w w
  | step {w w1 w2 c out} : KeptRun i w w1 → ¬ GivesBack w1 i c → Tidy w1 c → CAllowed w1 c → w1.step c = .done w2 out → KeptRun i w w2

/-- C50: a read-only transaction sees an inode in its snapshot and `lock` succeeds. Until someone
gives back a lock of this inode, it is in the committed databases, whatever all threads do. -/
theorem C50_kept {w w1 w2 : CWorld} (h : TidyReach w) {k : Nat} {t : CTxn} {f : CFrame} {i F} (hb : i < W64)
    (hk : w.txns k = some t) (hf : t.frames = [f]) (hro : f.fr.ro = true) (hi : Has f.fr.db i F)
    (ha : CAllowed w (.on k (.op (.lock i)))) (hs : w.step (.on k (.op (.lock i))) = .done w1 (.unit (.ok ())))
    (hr : KeptRun i w1 w2) : Has w2.disk i F ∧ (w.refs i).nrefs < (w2.refs i).nrefs := by
  have h1 : TidyReach w1 := h.step ha (fun _ _ _ _ he => by cases he) hs
  have c1 : (w1.refs i).nrefs = (w.refs i).nrefs + 1 := by
    have hb2 := ha.2 t f [] hk hf
    simp only at hb2
    cases step_inv hs with
    | @op k t' f' r o x _ mx hk' hf' hro' hd' hask hmx =>
      rw [hk] at hk'; cases hk'
      rw [hf] at hf'; cases hf'
      cases hdm : (w.refs i).doomed with
      | true => simp only [doOp, Cache.lock, Refs.incref, Frame.txn, hdm, if_true] at hd'; cases hd'
      | false =>
        simp only [doOp, Cache.lock, Refs.incref, Frame.txn, hdm] at hd'
        simp only [Bool.false_eq_true, if_false] at hd'
        cases hd'
        simp only [Refs.set, if_true]
        exact Nat.mod_eq_of_lt hb2
  have c2 : TidyReach w2 ∧ (w1.refs i).nrefs ≤ (w2.refs i).nrefs ∧ HeldRun i w1 w2 := by
    induction hr with
    | refl => exact ⟨h1, Nat.le_refl _, .refl⟩
    | @step w2 w3 c out hr' hg ht' ha' hs' ih =>
      obtain ⟨i1, i2, i3⟩ := ih
      refine ⟨i1.step ha' ht' hs', ?_, .step i3 (by omega) ha' hs'⟩
      by_cases hlt : (w3.refs i).nrefs < (w2.refs i).nrefs
      · exfalso
        rcases C50_count i1 ha' hs' hlt with ⟨k, n, e, -⟩ | e
        · exact hg (.inl ⟨k, n, e⟩)
        · exact hg (.inr e)
      · omega
  exact ⟨(C50_locked h.reach hb hk hf hro hi ha hs c2.2.2).1, by omega⟩

/-- The snapshot of a reader, and a writer which removes the file `a` (inode 2). If the reader locks
first, the file survives in the databases (it is only taken out of its directory); -/
def raceLockFirst : List CCall :=
  [.beginRO 0 0, .beginRW 1 1, .on 0 (.op (.lock 2)), .on 0 .commit, .on 0 .finish,
   .on 1 (.op (.unlinkName 1 [0x61])), .on 1 .commit, .on 1 .finish]

/-- if the writer removes it first, `lock` reports ESTALE, although the reader still sees the file. -/
def raceUnlinkFirst : List CCall :=
  [.beginRO 0 0, .beginRW 1 1, .on 1 (.op (.unlinkName 1 [0x61])), .on 1 .commit, .on 1 .finish,
   .on 0 (.op (.getattr 2)), .on 0 (.op (.lock 2))]

def attrIno : Out → Option Ino
  | .attr (.ok (i, _)) => some i
  | _ => none

/-- An interleaving of `C50_locked` (the run after the `lock` keeps a lock on inode 2); see `C50_kept` below for its
hypotheses one by one. -/
example : ((cdemo raceLockFirst).map (fun x => ((getattr x.1.disk 2).isOk, (lookup x.1.disk 1 [0x61]).toOption.map (·.isOk), (x.1.refs 2).nrefs))) =
    some (true, some false, 1) := by decide +kernel

example : ((cdemo raceUnlinkFirst).map (fun x => ((getattr x.1.disk 2).isOk, x.2.getLast?))) =
    some (false, some (.unit (.error ESTALE))) := by decide +kernel

/-! ### C51 -/

/-- The calls thread `th` can make when it uses one transaction at a time. -/
def Makes (w : CWorld) (th : Nat) : CCall → Prop
  | .beginRO k th' => th' = th ∧ w.txns k = none ∧ ∀ j u, w.txns j = some u → u.thread ≠ th
  | .beginRW k th' => th' = th ∧ w.txns k = none ∧ ∀ j u, w.txns j = some u → u.thread ≠ th
  | .on k _ => ∃ t, w.txns k = some t ∧ t.thread = th

/-- Each thread has at most one transaction. -/
def OnePerThread (w : CWorld) : Prop := ∀ j k t u, w.txns j = some t → w.txns k = some u → t.thread = u.thread → j = k

/-- This stays so as long as threads use one transaction at a time. -/
theorem OnePerThread.step {w w' : CWorld} (h : OnePerThread w) {th c out} (hm : Makes w th c) (hs : w.step c = .done w' out) : OnePerThread w' := by
  have upd : ∀ {k : Nat} {t t' : CTxn}, w.txns k = some t →
      (∀ j, w'.txns j = if j = k then some t' else w.txns j) → t'.thread = t.thread → OnePerThread w' := by
    intro k t t' hk e ht j l x y hj hl hxy
    rw [e] at hj hl
    by_cases ej : j = k <;> by_cases el : l = k
    · rw [ej, el]
    · rw [if_pos ej] at hj; rw [if_neg el] at hl; cases hj
      exact ej.trans (h k l t y hk hl (ht ▸ hxy))
    · rw [if_neg ej] at hj; rw [if_pos el] at hl; cases hl
      exact (h j k x t hj hk (ht ▸ hxy)).trans el.symm
    · rw [if_neg ej] at hj; rw [if_neg el] at hl
      exact h j l x y hj hl hxy
  have new : ∀ {k : Nat} {t' : CTxn}, t'.thread = th → (∀ j u, w.txns j = some u → u.thread ≠ th) →
      (∀ j, w'.txns j = if j = k then some t' else w.txns j) → OnePerThread w' := by
    intro k t' ht hn e j l x y hj hl hxy
    rw [e] at hj hl
    by_cases ej : j = k <;> by_cases el : l = k
    · rw [ej, el]
    · rw [if_pos ej] at hj; rw [if_neg el] at hl; cases hj
      exact absurd (hxy.symm.trans ht) (hn l y hl)
    · rw [if_neg ej] at hj; rw [if_pos el] at hl; cases hl
      exact absurd (hxy.trans ht) (hn j x hj)
    · rw [if_neg ej] at hj; rw [if_neg el] at hl
      exact h j l x y hj hl hxy
  cases step_inv hs with
  | beginRO hk => exact new hm.1 hm.2.2 (fun j => rfl)
  | beginRW hk hw => exact new hm.1 hm.2.2 (fun j => rfl)
  | op mx hk hf => exact upd hk (fun j => rfl) rfl
  | nested hk hf => exact upd hk (fun j => rfl) rfl
  | commit hk hf => exact upd hk (fun j => rfl) rfl
  | commitNested hk hf => exact upd hk (fun j => rfl) rfl
  | abort hk hf => exact upd hk (fun j => rfl) rfl
  | abortNested hk hf => exact upd hk (fun j => rfl) rfl
  | drop hk hf => exact upd hk (fun j => rfl) rfl
  | @finish k t hk hf =>
    intro j l x y hj hl hxy
    simp only [CWorld.set] at hj hl
    by_cases ej : j = k
    · rw [if_pos ej] at hj; cases hj
    · by_cases el : l = k
      · rw [if_pos el] at hl; cases hl
      · rw [if_neg ej] at hj; rw [if_neg el] at hl
        exact h j l x y hj hl hxy

/-- A call which has to wait: beginning a write transaction while another transaction has the writer
lock, or an operation while another transaction has the mutex. -/
theorem C51_waits {w : CWorld} {c : CCall} (hs : w.step c = .blocked) :
    (∃ k th j, c = .beginRW k th ∧ w.writer = some j) ∨
    (∃ k o t j, c = .on k (.op o) ∧ w.txns k = some t ∧ w.mutex = some j ∧ t.frames.any (·.mx) = false ∧ w.owner ≠ some t.thread) := by
  cases c with
  | beginRO k th => simp only [CWorld.step] at hs; split at hs <;> cases hs
  | beginRW k th =>
    simp only [CWorld.step] at hs
    split at hs
    · cases hs
    · split at hs
      · rename_i h2
        obtain ⟨j, hj⟩ := Option.isSome_iff_exists.mp h2
        exact .inl ⟨k, th, j, rfl, hj⟩
      · cases hs
  | on k a =>
    right
    simp only [CWorld.step] at hs
    split at hs
    · cases hs
    · rename_i t hk
      cases a with
      | op o =>
        simp only [CWorld.act] at hs
        have run : ∀ f r mx, w.runOp k t f r o mx ≠ .blocked := by
          intro f r mx h; unfold CWorld.runOp at h; split at h <;> cases h
        split at hs
        · cases hs
        · split at hs
          · cases hs
          · split at hs
            · split at hs
              · exact absurd hs (run _ _ _)
              · exact absurd hs (run _ _ _)
              · rename_i hw
                unfold CWorld.acquire at hw
                by_cases h1 : t.frames.any (·.mx) = true
                · rw [if_pos h1] at hw; cases hw
                · rw [if_neg h1] at hw
                  by_cases h2 : w.owner = some t.thread
                  · rw [if_pos h2] at hw; cases hw
                  · rw [if_neg h2] at hw
                    by_cases h3 : w.mutex.isSome = true
                    · obtain ⟨j, hj⟩ := Option.isSome_iff_exists.mp h3
                      exact ⟨k, o, t, j, rfl, hk, hj, by simpa using h1, h2⟩
                    · rw [if_neg h3] at hw; cases hw
              · cases hs
            · exact absurd hs (run _ _ _)
      | nested => simp only [CWorld.act] at hs; split at hs; cases hs; split at hs <;> cases hs
      | commit => simp only [CWorld.act] at hs; split at hs <;> cases hs
      | abort => simp only [CWorld.act] at hs; split at hs; cases hs; split at hs; cases hs; split at hs <;> cases hs
      | drop => simp only [CWorld.act] at hs; split at hs <;> cases hs
      | finish => simp only [CWorld.act] at hs; split at hs <;> cases hs

/-- A call which throws EDEADLK: an operation in a transaction which does not have the mutex, while
another transaction of the same thread has it. -/
theorem C51_deadlk {w : CWorld} {c : CCall} (hs : w.step c = .deadlk) :
    ∃ k o t j u, c = .on k (.op o) ∧ w.txns k = some t ∧ t.frames ≠ [] ∧ t.frames.any (·.mx) = false ∧
      w.mutex = some j ∧ w.txns j = some u ∧ u.thread = t.thread := by
  cases c with
  | beginRO k th => simp only [CWorld.step] at hs; split at hs <;> cases hs
  | beginRW k th =>
    simp only [CWorld.step] at hs
    split at hs
    · cases hs
    · split at hs <;> cases hs
  | on k a =>
    simp only [CWorld.step] at hs
    split at hs
    · cases hs
    · rename_i t hk
      cases a with
      | op o =>
        simp only [CWorld.act] at hs
        have run : ∀ f r mx, w.runOp k t f r o mx ≠ .deadlk := by
          intro f r mx h; unfold CWorld.runOp at h; split at h <;> cases h
        split at hs
        · cases hs
        · rename_i f r hf
          split at hs
          · cases hs
          · split at hs
            · split at hs
              · exact absurd hs (run _ _ _)
              · exact absurd hs (run _ _ _)
              · cases hs
              · rename_i hw
                unfold CWorld.acquire at hw
                by_cases h1 : t.frames.any (·.mx) = true
                · rw [if_pos h1] at hw; cases hw
                · rw [if_neg h1] at hw
                  by_cases h2 : w.owner = some t.thread
                  · unfold CWorld.owner at h2
                    cases hj : w.mutex with
                    | none => rw [hj] at h2; cases h2
                    | some j =>
                      rw [hj] at h2
                      simp only at h2
                      cases hu : w.txns j with
                      | none => rw [hu] at h2; cases h2
                      | some u =>
                        rw [hu] at h2
                        exact ⟨k, o, t, j, u, rfl, hk, by rw [hf]; simp, by simpa using h1, rfl, hu, by simpa using h2⟩
                  · rw [if_neg h2] at hw
                    by_cases h3 : w.mutex.isSome = true
                    · rw [if_pos h3] at hw; cases hw
                    · rw [if_neg h3] at hw; cases hw
            · exact absurd hs (run _ _ _)
      | nested => simp only [CWorld.act] at hs; split at hs; cases hs; split at hs <;> cases hs
      | commit => simp only [CWorld.act] at hs; split at hs <;> cases hs
      | abort => simp only [CWorld.act] at hs; split at hs; cases hs; split at hs; cases hs; split at hs <;> cases hs
      | drop => simp only [CWorld.act] at hs; split at hs <;> cases hs
      | finish => simp only [CWorld.act] at hs; split at hs <;> cases hs

/-- A thread using one transaction at a time never gets EDEADLK. -/
theorem C51_no_deadlk {w : CWorld} (h : CReach w) (h1 : OnePerThread w) (c : CCall) : w.step c ≠ .deadlk := by
  intro hs
  obtain ⟨k, o, t, j, u, rfl, hk, hne, hm, hj, hu, ht⟩ := C51_deadlk hs
  obtain ⟨hl, -⟩ := h.inv
  obtain rfl := h1 j k u t hu hk ht
  rw [hk] at hu; cases hu
  obtain ⟨u', hu', hm'⟩ := hl.mx' j hj
  rw [hk] at hu'; cases hu'
  unfold CTxn.hasMutex at hm'
  rw [hm, Bool.or_false] at hm'
  exact hne ((hl.txn j t hk).tail hm')

/-- The transaction which has the mutex never has to wait. -/
theorem holder_free {w : CWorld} (h : CReach w) (h1 : OnePerThread w) {j : Nat} (hj : w.mutex = some j) (a : Act) : w.step (.on j a) ≠ .blocked := by
  intro hs
  rcases C51_waits hs with ⟨k, th, i, e, -⟩ | ⟨k, o, t, i, e, hk, -, -, ho⟩
  · cases e
  · cases e
    apply ho
    unfold CWorld.owner; rw [hj]; simp only; rw [hk]; rfl

/-- C51: when a thread has to wait, there is another thread none of whose calls has to wait or throws
EDEADLK. So never are all threads waiting for each other. -/
theorem C51_no_deadlock {w : CWorld} (h : CReach w) (h1 : OnePerThread w) {th : Nat} {c : CCall} (hm : Makes w th c) (hs : w.step c = .blocked) :
    ∃ th' j u, th' ≠ th ∧ w.txns j = some u ∧ u.thread = th' ∧
      ∀ c', Makes w th' c' → w.step c' ≠ .blocked ∧ w.step c' ≠ .deadlk := by
  obtain ⟨hl, -⟩ := h.inv
  -- the thread having the mutex is free
  have free : ∀ j u, w.mutex = some j → w.txns j = some u → ∀ c', Makes w u.thread c' → w.step c' ≠ .blocked ∧ w.step c' ≠ .deadlk := by
    intro j u hj hu c' hc
    refine ⟨?_, C51_no_deadlk h h1 c'⟩
    cases c' with
    | beginRO k t => exact absurd rfl (hc.2.2 j u hu)
    | beginRW k t => exact absurd rfl (hc.2.2 j u hu)
    | on k a =>
      obtain ⟨t, hk, ht⟩ := hc
      obtain rfl := h1 k j t u hk hu ht
      exact holder_free h h1 hj a
  rcases C51_waits hs with ⟨k, th', j, rfl, hw⟩ | ⟨k, o, t, j, rfl, hk, hj, hn, ho⟩
  · obtain ⟨rfl, hk, hnone⟩ := hm
    obtain ⟨u, hu, hwr⟩ := hl.wr' j hw
    -- the writer, unless it waits for the mutex
    cases hmx : w.mutex with
    | none =>
      refine ⟨u.thread, j, u, hnone j u hu, hu, rfl, fun c' hc => ⟨fun hb => ?_, C51_no_deadlk h h1 c'⟩⟩
      rcases C51_waits hb with ⟨k2, th2, i, rfl, -⟩ | ⟨k2, o, t, i, -, -, e, -⟩
      · exact hc.2.2 j u hu rfl
      · rw [hmx] at e; cases e
    | some m =>
      obtain ⟨v, hv, -⟩ := hl.mx' m hmx
      exact ⟨v.thread, m, v, hnone m v hv, hv, rfl, free m v hmx hv⟩
  · obtain ⟨u, hu, -⟩ := hl.mx' j hj
    refine ⟨u.thread, j, u, ?_, hu, rfl, free j u hj hu⟩
    obtain ⟨t', hk', rfl⟩ := hm
    rw [hk] at hk'; cases hk'
    intro e
    apply ho
    unfold CWorld.owner; rw [hj]; simp only; rw [hu]; simp [e]

/-- The call waits for transaction `j` to give back LMDB's writer lock or the mutex. -/
def WaitsFor (w : CWorld) : CCall → Nat → Prop
  | .beginRW _ _, j => w.writer = some j
  | .on _ (.op _), j => w.mutex = some j
  | _, _ => False

/-- C51: there is no set of threads in which everybody waits in the cache for a transaction of a thread
of the set. `next th` is the call thread `th` wants to make. -/
theorem C51_no_cycle {w : CWorld} (h : CReach w) (h1 : OnePerThread w) (S : Nat → Prop) (next : Nat → CCall)
    (hm : ∀ th, S th → Makes w th (next th)) (hb : ∀ th, S th → w.step (next th) = .blocked)
    (hclosed : ∀ th j u, S th → WaitsFor w (next th) j → w.txns j = some u → S u.thread) : ∀ th, ¬ S th := by
  intro th hS
  obtain ⟨hl, -⟩ := h.inv
  have mtx : ∀ th k o j, S th → next th = .on k (.op o) → w.mutex = some j → False := by
    intro th k o j hS hn hj
    obtain ⟨u, hu, -⟩ := hl.mx' j hj
    have hSu := hclosed th j u hS (by rw [hn]; exact hj) hu
    have hmu := hm _ hSu
    have hbu := hb _ hSu
    cases hn : next u.thread with
    | beginRO k t => rw [hn] at hmu; exact hmu.2.2 j u hu rfl
    | beginRW k t => rw [hn] at hmu; exact hmu.2.2 j u hu rfl
    | on k a =>
      rw [hn] at hmu hbu
      obtain ⟨t, hk, ht⟩ := hmu
      obtain rfl := h1 k j t u hk hu ht
      exact holder_free h h1 hj a hbu
  rcases C51_waits (hb th hS) with ⟨k, th', j, e, hw⟩ | ⟨k, o, t, j, e, -, hj, -⟩
  · obtain ⟨u, hu, -⟩ := hl.wr' j hw
    have hSu := hclosed th j u hS (by rw [e]; exact hw) hu
    rcases C51_waits (hb _ hSu) with ⟨k2, th2, i, e2, -⟩ | ⟨_, _, _, i, e2, _, hi, _⟩
    · have := hm _ hSu
      rw [e2] at this
      exact this.2.2 j u hu rfl
    · exact mtx _ _ _ i hSu e2 hi
  · exact mtx _ _ _ j hS e hj

/-- Calls on transaction `k` only. -/
inductive OwnRun (k : Nat) : CWorld → CWorld → Prop
  | refl {w} : OwnRun k w w
  | step {w w1 w2 a out} : w.step (.on k a) = .done w1 out → OwnRun k w1 w2 → OwnRun k w w2

/-- C51: every transaction can always be brought to its end, without waiting; then it has no locks. -/
theorem C51_ends {w : CWorld} (h : CReach w) {k : Nat} {t : CTxn} (hk : w.txns k = some t) :
    ∃ w', OwnRun k w w' ∧ w'.txns k = none ∧ w'.writer ≠ some k ∧ w'.mutex ≠ some k := by
  generalize hn : t.frames.length = n
  induction n generalizing w t with
  | zero =>
    have hf : t.frames = [] := List.length_eq_zero_iff.mp hn
    have hs : w.step (.on k .finish) = .done { w.set k none with
        writer := if t.wr then none else w.writer
        mutex := if t.tailM then none else w.mutex } (.unit (.ok ())) := by
      simp only [CWorld.step, hk, CWorld.act, hf]
    have h' := (h.step (c := .on k .finish) trivial hs).inv.1
    refine ⟨_, .step hs .refl, by simp [CWorld.set], ?_, ?_⟩
    · intro e; obtain ⟨u, hu, -⟩ := h'.wr' k e; simp [CWorld.set] at hu
    · intro e; obtain ⟨u, hu, -⟩ := h'.mx' k e; simp [CWorld.set] at hu
  | succ n ih =>
    match hf : t.frames with
    | [] => rw [hf] at hn; cases hn
    | [f] =>
      have hn0 : n = 0 := by rw [hf] at hn; simpa using hn.symm
      have hs : w.step (.on k .commit) = .done { w.set k (some { t with frames := [], wr := false, tailM := f.mx }) with
        disk := if f.fr.ro then w.disk else f.fr.db
        writer := if t.wr then none else w.writer } (.unit (.ok ())) := by
        simp only [CWorld.step, hk, CWorld.act, hf]
      obtain ⟨w', h1, h2⟩ := ih (h.step (c := .on k .commit) trivial hs) (t := { t with frames := [], wr := false, tailM := f.mx }) (by simp [CWorld.set]) (by simp [hn0])
      exact ⟨w', .step hs h1, h2⟩
    | f :: g :: r =>
      have hs : w.step (.on k .commit) = .done (w.set k (some { t with
        frames := ⟨{ g.fr with db := f.fr.db, hooks := g.fr.hooks ++ f.fr.hooks }, g.mx || f.mx⟩ :: r })) (.unit (.ok ())) := by
        simp only [CWorld.step, hk, CWorld.act, hf]
      obtain ⟨w', h1, h2⟩ := ih (h.step (c := .on k .commit) trivial hs) (t := { t with
        frames := ⟨{ g.fr with db := f.fr.db, hooks := g.fr.hooks ++ f.fr.hooks }, g.mx || f.mx⟩ :: r }) (by simp [CWorld.set]) (by rw [hf] at hn; simpa using hn)
      exact ⟨w', .step hs h1, h2⟩

/-- Three transactions of threads 0, 1, 2: the reader 0 has the mutex, the writer 1 waits for it, and
thread 2 waits for the writer. -/
def threeThreads : List CCall := [.beginRO 0 0, .on 0 (.op (.lock 2)), .beginRW 1 1]

def isBlocked : Outcome → Bool
  | .blocked => true
  | _ => false

def isDeadlk : Outcome → Bool
  | .deadlk => true
  | _ => false

/-- Both kinds of `C51_waits`. -/
example : ((cdemo threeThreads).map (fun x => (isBlocked (x.1.step (.on 1 (.op (.unlinkName 1 [0x61])))), isBlocked (x.1.step (.beginRW 2 2)),
    isBlocked (x.1.step (.on 0 (.op (.release 2 1)))), x.1.mutex, x.1.writer))) = some (true, true, false, some 0, some 1) := by decide +kernel

/-- One transaction per thread is necessary: reader 0 and a second transaction of its thread, which is to
be a writer, deadlock with a writer in another thread. -/
example : ((cdemo threeThreads).map (fun x => (isBlocked (x.1.step (.on 1 (.op (.unlinkName 1 [0x61])))), isBlocked (x.1.step (.beginRW 2 0))))) =
    some (true, true) := by decide +kernel

/-- The hypothesis of `C51_deadlk`: a thread which would lock the mutex twice gets EDEADLK. -/
example : ((cdemo [.beginRO 0 0, .on 0 (.op (.lock 2)), .beginRW 1 0]).map (fun x => isDeadlk (x.1.step (.on 1 (.op (.unlinkName 1 [0x61])))))) = some true := by
  decide +kernel

/-! The mutex itself (debug_mutex.hpp), with its relaxed atomic variable. -/

/-- C51: `lock` throws EDEADLK only if the calling thread has the mutex already. -/
theorem C51_mutex_throws {s s' : DebugMutex.State} (h : DebugMutex.Reach s) {th : Nat} (hs : DebugMutex.Step s (.edeadlk th) s') :
    s.pc th = .holds ∧ s.held = some th := by
  cases hs with
  | lockThrow hp hc =>
    have : s.pc th = .holds := by
      by_cases e : s.pc th = .holds
      · exact e
      · exact absurd hc (h.inv.other th e)
    exact ⟨this, (h.inv.own th).mp (by rw [this]; rfl)⟩

/-- C51: if the calling thread has the mutex, whatever value the check loads, it throws; so no thread
ever waits for a mutex it has itself. -/
theorem C51_mutex_self {s : DebugMutex.State} (h : DebugMutex.Reach s) {th : Nat} :
    (s.pc th = .holds → ∀ v, s.CanLoad th v → v = some th) ∧ (s.pc th = .waiting → s.held ≠ some th) := by
  refine ⟨fun hp v hv => h.inv.loads hp hv, fun hp e => ?_⟩
  have := (h.inv.own th).mpr e
  rw [hp] at this; cases this

/-- C51: two threads never have the mutex at once. -/
theorem C51_mutex_excl {s : DebugMutex.State} (h : DebugMutex.Reach s) {a b : Nat} (ha : s.pc a = .holds) (hb : s.pc b = .holds) : a = b := by
  have h1 := (h.inv.own a).mp (by rw [ha]; rfl)
  have h2 := (h.inv.own b).mp (by rw [hb]; rfl)
  rw [h1] at h2; cases h2; rfl

/-- A state for `C51_mutex_throws`, `C51_mutex_self` and `C51_mutex_excl`. Thread 1 locks and unlocks, then thread 2 locks: thread 2 has the mutex, and thread 1 could still
load the value which thread 2 has overwritten. -/
example : ∃ s, DebugMutex.Reach s ∧ s.pc 2 = .holds ∧ s.CanLoad 1 none ∧ s.CanLoad 1 (some 2) ∧ ¬ s.CanLoad 1 (some 1) := by
  have r1 := DebugMutex.Reach.init.step (.lockCheck (th := 1) (v := none) (.inl rfl) ⟨[], [], rfl, Nat.le_refl _⟩ (by decide))
  have r2 := r1.step (.acquire (th := 1) rfl rfl)
  have r3 := r2.step (.setOwner (th := 1) rfl)
  have r4 := r3.step (.clearOwner (th := 1) rfl)
  have r5 := r4.step (.release (th := 1) rfl)
  have r6 := r5.step (.lockCheck (th := 2) (v := none) (.inl rfl) ⟨[], [some 1, none], rfl, by decide⟩ (by decide))
  have r7 := r6.step (.acquire (th := 2) rfl rfl)
  have r8 := r7.step (.setOwner (th := 2) rfl)
  exact ⟨_, r8, rfl, ⟨[some 2], [some 1, none], rfl, by decide⟩, ⟨[], [none, some 1, none], rfl, by decide⟩, r8.inv.other 1 (by decide)⟩

/-! ### C54 -/

/-- The transaction a call is about. -/
def CCall.txn : CCall → Nat
  | .beginRO k _ => k
  | .beginRW k _ => k
  | .on k _ => k

/-- C54: a call of a transaction which does not have the mutex, neither before nor after, leaves the
reference table alone, and does not look at it: with any other table it does and returns the same. -/
theorem C54_table {w w' : CWorld} (h : CReach w) {c : CCall} {out : Out} (hs : w.step c = .done w' out)
    (h1 : w.mutex ≠ some c.txn) (h2 : w'.mutex ≠ some c.txn) :
    w'.refs = w.refs ∧ ∀ r, ({ w with refs := r } : CWorld).step c = .done { w' with refs := r } out := by
  obtain ⟨hl, -⟩ := h.inv
  cases step_inv hs with
  | beginRO hk => exact ⟨rfl, fun r => by simp only [CWorld.step, hk]; rfl⟩
  | beginRW hk hw => exact ⟨rfl, fun r => by simp only [CWorld.step, hk, hw]; rfl⟩
  | @op k t f r o x _ mx hk hf hro hdo hask hmx =>
    have hn : t.frames.any (·.mx) = false := by
      cases hb : t.frames.any (·.mx) with
      | false => rfl
      | true => exact absurd (hl.mx k t hk (by unfold CTxn.hasMutex; rw [hb]; simp)) h1
    have hmx0 : mx = false := by
      cases mx with
      | false => rfl
      | true => simp only [if_true] at h2; exact absurd rfl h2
    have hna : asksRefs f.fr.db o = false := by
      cases ha : asksRefs f.fr.db o with
      | false => rfl
      | true => rcases hask ha with e | e
                · rw [hmx0] at e; cases e
                · rw [hn] at e; cases e
    refine ⟨((doOp_norefs (t := f.fr.txn w.refs) hna w.refs).2 x out hdo).1, fun r' => ?_⟩
    have hd := (doOp_norefs (t := f.fr.txn w.refs) hna r').1
    rw [hdo] at hd
    have hd' : doOp (f.fr.txn r') o = .ok ({ x with refs := r' }, out) := hd
    have hro' : (f.fr.ro && !o.isRO) = false := by
      cases e : f.fr.ro with
      | false => rfl
      | true => rw [hro e]; rfl
    simp only [CWorld.step, hk, CWorld.act, hf, hro', hna, Bool.false_eq_true, if_false, CWorld.runOp, hd', hmx0]
    rfl
  | nested hk hf hro => exact ⟨rfl, fun r => by simp only [CWorld.step, hk, CWorld.act, hf, hro]; rfl⟩
  | commit hk hf => exact ⟨rfl, fun r => by simp only [CWorld.step, hk, CWorld.act, hf]; rfl⟩
  | commitNested hk hf => exact ⟨rfl, fun r => by simp only [CWorld.step, hk, CWorld.act, hf]; rfl⟩
  | @abort k t f refs hk hf hu =>
    have hh := hl.no_hooks hk h1
    rw [hf] at hh
    have hh' : f.fr.hooks = [] := by simpa [allHooks] using hh
    rw [hh'] at hu; cases hu
    exact ⟨rfl, fun r => by simp only [CWorld.step, hk, CWorld.act, hf, hh']; rfl⟩
  | @abortNested k t f g r refs hk hf hu =>
    have hh := hl.no_hooks hk h1
    rw [hf] at hh
    have hh' : f.fr.hooks = [] := by
      unfold allHooks at hh; exact (List.append_eq_nil_iff.mp hh).2
    rw [hh'] at hu; cases hu
    exact ⟨rfl, fun r => by simp only [CWorld.step, hk, CWorld.act, hf, hh']; rfl⟩
  | drop hk hf => exact ⟨rfl, fun r => by simp only [CWorld.step, hk, CWorld.act, hf]; rfl⟩
  | finish hk hf => exact ⟨rfl, fun r => by simp only [CWorld.step, hk, CWorld.act, hf]; rfl⟩

/-- C54: the mutex is with at most one transaction, and so is LMDB's writer lock; a write transaction
has the latter as long as it is open, and only its commit changes the committed databases. -/
theorem C54_writer {w w' : CWorld} (h : CReach w) {c : CCall} {out : Out} (hs : w.step c = .done w' out) (hd : w'.disk ≠ w.disk) :
    ∃ t f, c = .on c.txn .commit ∧ w.writer = some c.txn ∧ w.txns c.txn = some t ∧ t.frames = [f] ∧ f.fr.ro = false ∧ w'.disk = f.fr.db ∧
      ∀ j u g, w.txns j = some u → g ∈ u.frames → g.fr.ro = false → j = c.txn := by
  obtain ⟨hl, -⟩ := h.inv
  cases step_inv hs with
  | @commit k t f hk hf =>
    have hro : f.fr.ro = false := by
      cases e : f.fr.ro with
      | false => rfl
      | true => exact absurd (by simp [e, CWorld.set]) hd
    have hw := hl.wr k t hk ((hl.txn k t hk).rw f (by rw [hf]; simp) hro)
    refine ⟨t, f, rfl, hw, hk, hf, hro, by simp [hro], fun j u g hj hg hgr => ?_⟩
    have := hl.wr j u hj ((hl.txn j u hj).rw g hg hgr)
    rw [hw] at this; cases this; rfl
  | _ => exact absurd rfl hd

/-! ### C55 -/

/-- C55: whatever way transactions (without nested ones) of all threads interleave, the committed
databases are the same, and all operations return the same, as if the transactions had run one after
the other in the order in which they ended; a read-only one works on the databases which were committed
when it began. When no transaction is open, the reference table is the same as well. -/
theorem C55_serial {d0 : DB} {r0 : Refs} {w : CWorld} {L H} (h : Flat d0 r0 w L H) :
    ∃ vs R, Serial d0 r0 (w.disk :: vs) R H ∧ ((∀ k, L k = none) → R = w.refs) := by
  obtain ⟨vs, R, hi⟩ := h.inv
  refine ⟨vs, R, hi.serial, fun hn => hi.refs (fun k t f hk hf => ?_)⟩
  obtain ⟨l, hl⟩ := (hi.logs k).mp ⟨t, f, hk, hf⟩
  rw [hn k] at hl; cases hl

/-- C55: also what open transactions have seen so far is what they would have seen had they started
after those which ended and not been interrupted. -/
theorem C55_open {d0 : DB} {r0 : Refs} {w : CWorld} {L H} (h : Flat d0 r0 w L H) :
    ∃ vs R, Serial d0 r0 (w.disk :: vs) R H ∧ ∀ k l, L k = some l →
      ∃ d x, WorksOn (w.disk :: vs) l d ∧ runOps ⟨d, R, none, []⟩ l.ops = .ok (x, l.outs) := by
  obtain ⟨vs, R, hi⟩ := h.inv
  refine ⟨vs, R, hi.serial, fun k l hl => ?_⟩
  obtain ⟨t, f, hk, hf⟩ := (hi.logs k).mpr ⟨l, hl⟩
  obtain ⟨d, h1, h2⟩ := hi.runs hk hf hl
  exact ⟨d, _, h1, h2⟩

/-- Every interleaving in which no nested transaction is begun is covered. -/
inductive CRunF : CWorld → CWorld → Prop
  | refl {w} : CRunF w w
  | step {w w1 w2 c out} : CRunF w w1 → (∀ k, c ≠ .on k .nested) → w1.step c = .done w2 out → CRunF w w2

theorem C55_covers {d0 : DB} {r0 : Refs} {w : CWorld} (h : CRunF (CWorld.start d0 r0) w) : ∃ L H, Flat d0 r0 w L H := by
  generalize hw : CWorld.start d0 r0 = w0 at h
  induction h with
  | refl => subst hw; exact ⟨_, _, .start⟩
  | @step w1 w2 c out _ hn hs ih =>
    obtain ⟨L, H, ih⟩ := ih
    have opn : ∀ k t f r, w1.txns k = some t → t.frames = f :: r → ∃ l, L k = some l := by
      intro k t f r hk hf
      obtain ⟨vs, R, hi⟩ := ih.inv
      refine (hi.logs k).mp ⟨t, f, hk, ?_⟩
      rcases hi.flat k t hk with e | ⟨g, e⟩
      · rw [hf] at e; cases e
      · rw [hf] at e; cases e; exact hf
    cases step_inv hs with
    | beginRO hk => exact ⟨_, _, .beginRO ih hs⟩
    | beginRW hk => exact ⟨_, _, .beginRW ih hs⟩
    | op mx hk hf => obtain ⟨l, hl⟩ := opn _ _ _ _ hk hf; exact ⟨_, _, .op ih hs hl⟩
    | nested hk => exact absurd rfl (hn _)
    | commit hk hf => obtain ⟨l, hl⟩ := opn _ _ _ _ hk hf; exact ⟨_, _, .ends (e := .commit) ih hs hl⟩
    | commitNested hk hf => obtain ⟨l, hl⟩ := opn _ _ _ _ hk hf; exact ⟨_, _, .ends (e := .commit) ih hs hl⟩
    | abort hk hf => obtain ⟨l, hl⟩ := opn _ _ _ _ hk hf; exact ⟨_, _, .ends (e := .abort) ih hs hl⟩
    | abortNested hk hf => obtain ⟨l, hl⟩ := opn _ _ _ _ hk hf; exact ⟨_, _, .ends (e := .abort) ih hs hl⟩
    | drop hk hf => obtain ⟨l, hl⟩ := opn _ _ _ _ hk hf; exact ⟨_, _, .ends (e := .drop) ih hs hl⟩
    | finish hk hf => exact ⟨_, _, .finish ih hs⟩

/-! ### C56 -/

/-- Runs (any interleaving) during which transaction `k` is not destroyed. -/
inductive RunKeeping (k : Nat) : CWorld → CWorld → Prop
  | refl {w} : RunKeeping k w w
  | step {w w1 w2 c out} : RunKeeping k w w1 → c ≠ .on k .finish → w1.step c = .done w2 out → RunKeeping k w w2

/-- C56: as long as a read-only transaction is open, it works on the same databases. -/
theorem C56_snapshot {w w' : CWorld} {k : Nat} {t : CTxn} {f : CFrame} (hk : w.txns k = some t) (hf : t.frames = [f]) (hro : f.fr.ro = true)
    (hr : RunKeeping k w w') :
    ∃ t', w'.txns k = some t' ∧ t'.thread = t.thread ∧ (t'.frames = [] ∨ ∃ f', t'.frames = [f'] ∧ f'.fr.ro = true ∧ f'.fr.db = f.fr.db) := by
  induction hr with
  | refl => exact ⟨t, hk, rfl, .inr ⟨f, hf, hro, rfl⟩⟩
  | @step w1 w2 c out _ hc hs ih =>
    obtain ⟨t1, hk1, hth, h1⟩ := ih
    have keep : ∀ j u, j ≠ k → (∀ i, w2.txns i = if i = j then u else w1.txns i) →
        ∃ t', w2.txns k = some t' ∧ t'.thread = t.thread ∧ (t'.frames = [] ∨ ∃ f', t'.frames = [f'] ∧ f'.fr.ro = true ∧ f'.fr.db = f.fr.db) := by
      intro j u hj e
      exact ⟨t1, by rw [e, if_neg (fun h => hj h.symm)]; exact hk1, hth, h1⟩
    cases step_inv hs with
    | @beginRO j th hj => exact keep j _ (by rintro rfl; rw [hk1] at hj; cases hj) (fun i => rfl)
    | @beginRW j th hj => exact keep j _ (by rintro rfl; rw [hk1] at hj; cases hj) (fun i => rfl)
    | @op j u g r o x _ mx hj hg hgro hdo hask hmx =>
      by_cases e : j = k
      · subst e
        rw [hk1] at hj; cases hj
        rcases h1 with h1 | ⟨f', h1, h2, h3⟩
        · rw [hg] at h1; cases h1
        · rw [hg] at h1; cases h1
          refine ⟨_, set_self, hth, .inr ⟨_, rfl, h2, ?_⟩⟩
          exact (roOp_db (hgro h2) hdo).trans h3
      · exact keep j _ e (fun i => rfl)
    | @nested j u g r hj hg hgro =>
      by_cases e : j = k
      · subst e
        rw [hk1] at hj; cases hj
        rcases h1 with h1 | ⟨f', h1, h2, h3⟩
        · rw [hg] at h1; cases h1
        · rw [hg] at h1; cases h1; rw [hgro] at h2; cases h2
      · exact keep j _ e (fun i => rfl)
    | @commit j u g hj hg =>
      by_cases e : j = k
      · subst e; rw [hk1] at hj; cases hj
        exact ⟨_, set_self, hth, .inl rfl⟩
      · exact keep j _ e (fun i => rfl)
    | @commitNested j u g g' r hj hg =>
      by_cases e : j = k
      · subst e; rw [hk1] at hj; cases hj
        rcases h1 with h1 | ⟨f', h1, h2, h3⟩ <;> rw [hg] at h1 <;> cases h1
      · exact keep j _ e (fun i => rfl)
    | @abort j u g refs hj hg hu =>
      by_cases e : j = k
      · subst e; rw [hk1] at hj; cases hj
        exact ⟨_, set_self, hth, .inl rfl⟩
      · exact keep j _ e (fun i => rfl)
    | @abortNested j u g g' r refs hj hg hu =>
      by_cases e : j = k
      · subst e; rw [hk1] at hj; cases hj
        rcases h1 with h1 | ⟨f', h1, h2, h3⟩ <;> rw [hg] at h1 <;> cases h1
      · exact keep j _ e (fun i => rfl)
    | @drop j u g r hj hg =>
      by_cases e : j = k
      · subst e; rw [hk1] at hj; cases hj
        rcases h1 with h1 | ⟨f', h1, h2, h3⟩
        · rw [hg] at h1; cases h1
        · rw [hg] at h1; cases h1
          exact ⟨_, set_self, hth, .inl rfl⟩
      · exact keep j _ e (fun i => rfl)
    | @finish j u hj hg =>
      by_cases e : j = k
      · subst e; exact absurd rfl hc
      · exact keep j _ e (fun i => rfl)

/-- C56: so its answers do not depend on what the others do in the meantime (`lock` and `release`, which
are about the shared table, aside). -/
theorem C56_answers {w w1 w2 w3 w4 : CWorld} {k : Nat} {t : CTxn} {f : CFrame} (hk : w.txns k = some t) (hf : t.frames = [f]) (hro : f.fr.ro = true)
    {o : Op} (ho : ∀ d, asksRefs d o = false) {out1 out2 : Out}
    (h1 : w.step (.on k (.op o)) = .done w1 out1) (hr : RunKeeping k w w2) (h2 : w2.step (.on k (.op o)) = .done w3 out2) : out1 = out2 := by
  obtain ⟨t', hk', -, hh⟩ := C56_snapshot hk hf hro hr
  cases step_inv h1 with
  | @op j u g r o x _ mx hj hg hgro hdo hask hmx =>
    rw [hk] at hj; cases hj; rw [hf] at hg; cases hg
    cases step_inv h2 with
    | @op j u g r o y _ my hj hg hgro' hdo' hask' hmy =>
      rw [hk'] at hj; cases hj
      rcases hh with hh | ⟨f', e1, e2, e3⟩
      · rw [hh] at hg; cases hg
      · rw [e1] at hg; cases hg
        -- an operation of a read-only transaction only looks at the databases
        have key : ∀ (t t' : Txn) (x y : Txn) (a b : Out), t.db = t'.db → o.isRO = true → doOp t o = .ok (x, a) → doOp t' o = .ok (y, b) → a = b := by
          intro t t' x y a b hdb hio ha hb
          cases o <;> simp only [Op.isRO] at hio <;> first | cases hio | skip
          case lock i => have := ho w.disk; cases this
          case release i n =>
            have hn : n = 0 := by simpa [asksRefs] using ho w.disk
            subst hn
            simp only [doOp, Cache.release, if_true] at ha hb
            cases ha; cases hb; rfl
          case lookup p n =>
            simp only [doOp, ← hdb] at ha hb
            cases e : lookup t.db p n with
            | error e' => rw [e] at ha; cases ha
            | ok v => rw [e] at ha hb; cases ha; cases hb; rfl
          case readdir p n =>
            simp only [doOp, ← hdb] at ha hb
            cases e : readdir t.db p n with
            | error e' => rw [e] at ha; cases ha
            | ok v => rw [e] at ha hb; cases ha; cases hb; rfl
          case path i =>
            simp only [doOp, ← hdb] at ha hb
            cases e : path t.db i with
            | error e' => rw [e] at ha; cases ha
            | ok v => rw [e] at ha hb; cases ha; cases hb; rfl
          all_goals (simp only [doOp, ← hdb] at ha hb; cases ha; cases hb; rfl)
        exact key _ _ _ _ _ _ (by simp only [Frame.txn, e3]) (hgro hro) hdo hdo'

/-! ### The hypotheses are met -/

/-- Calls which neither give locks of inode `i` back nor destroy a transaction. -/
def harmless (i : Ino) : CCall → Bool
  | .on _ (.op (.release j _)) => j != i
  | .on _ .abort => false
  | .on _ .drop => false
  | _ => true

theorem harmless_not {w : CWorld} {i : Ino} {c : CCall} (h : harmless i c = true) : ¬ GivesBack w i c ∧ Tidy w c := by
  constructor
  · rintro (⟨k, n, rfl⟩ | ⟨k, t, f, r, rfl, -⟩)
    · simp [harmless] at h
    · cases h
  · rintro k t f r rfl; cases h

theorem crun_kept {i : Ino} {cs : List CCall} : ∀ {w w1 w2 : CWorld} {os : List Out}, cs.all (harmless i) = true → KeptRun i w w1 → crun w1 cs = some (w2, os) → KeptRun i w w2 := by
  induction cs with
  | nil => intro w w1 w2 os _ h hd; cases hd; exact h
  | cons c cs ih =>
    intro w w1 w2 os ha h hd
    rw [List.all_cons, Bool.and_eq_true] at ha
    unfold crun at hd
    split at hd
    · rename_i hc
      split at hd
      · rename_i w' o hs
        cases hx : crun w' cs with
        | none => rw [hx] at hd; cases hd
        | some x =>
          rw [hx] at hd; cases hd
          exact ih ha.2 (.step h (harmless_not ha.1).1 (harmless_not ha.1).2 (callowedB_iff hc) hs) hx
      · cases hd
    · cases hd

theorem KeptRun.tidy {i : Ino} {w w' : CWorld} (h : TidyReach w) (hr : KeptRun i w w') : TidyReach w' := by
  induction hr with
  | refl => exact h
  | step _ _ ht ha hs ih => exact ih.step ha ht hs

/-- An instance of `C50_kept`: the reader sees the file `a` and locks it; then the writer removes it and
commits. -/
example : ∃ w w1 w2 t f, TidyReach w ∧ w.txns 0 = some t ∧ t.frames = [f] ∧ f.fr.ro = true ∧ Has f.fr.db 2 S_IFREG ∧
    CAllowed w (.on 0 (.op (.lock 2))) ∧ w.step (.on 0 (.op (.lock 2))) = .done w1 (.unit (.ok ())) ∧ KeptRun 2 w1 w2 ∧
    (lookup w2.disk 1 [0x61]).toOption.map (·.isOk) = some false := by
  have hw0 : ∃ w0, demo World.init oneFile = some w0 := by
    cases h : demo World.init oneFile with
    | some w0 => exact ⟨w0, rfl⟩
    | none => have : (demo World.init oneFile).isSome = true := by decide +kernel
              rw [h] at this; cases this
  obtain ⟨w0, hw0⟩ := hw0
  have hcd : ∀ cs, cdemo cs = crun (CWorld.start w0.disk w0.refs) cs := by intro cs; unfold cdemo; rw [hw0]
  have start : TidyReach (CWorld.start w0.disk w0.refs) := by
    refine .start (demo_reach .init hw0) ?_ ?_
    · have : (demo World.init oneFile).map (fun w => decide (w.phase = .up)) = some true := by decide +kernel
      rw [hw0] at this; simpa using this
    · have : (demo World.init oneFile).map (fun w => w.stack.isEmpty) = some true := by decide +kernel
      rw [hw0] at this; simpa using this
  let P : CWorld → Bool := fun w => match w.txns 0 with
    | none => false
    | some t => match t.frames with
      | [f] => f.fr.ro && (match getattr f.fr.db 2 with | .ok (i, a) => i == 2 && fmt a.mode == S_IFREG | .error _ => false) && callowedB w (.on 0 (.op (.lock 2)))
      | _ => false
  let Q : CWorld → Bool := fun w => match w.step (.on 0 (.op (.lock 2))) with
    | .done w1 o => o == .unit (.ok ()) && (match crun w1 [.on 0 .commit, .on 0 .finish, .on 1 (.op (.unlinkName 1 [0x61])), .on 1 .commit, .on 1 .finish] with
      | some (w2, _) => (lookup w2.disk 1 [0x61]).toOption.map (·.isOk) == some false
      | none => false)
    | _ => false
  have key : (cdemo [.beginRO 0 0, .beginRW 1 1]).map (fun x => P x.1 && Q x.1) = some true := by decide +kernel
  rw [hcd] at key
  cases hx : crun (CWorld.start w0.disk w0.refs) [.beginRO 0 0, .beginRW 1 1] with
  | none => rw [hx] at key; cases key
  | some x =>
    obtain ⟨w, os⟩ := x
    rw [hx] at key
    simp only [Option.map_some, Option.some.injEq, Bool.and_eq_true] at key
    obtain ⟨hP, hQ⟩ := key
    have ht := (crun_kept (i := 2) (by decide) .refl hx).tidy start
    simp only [P] at hP
    split at hP
    · cases hP
    · rename_i t hk
      split at hP
      · rename_i f hf
        simp only [Bool.and_eq_true] at hP
        obtain ⟨⟨hro, hg⟩, ha⟩ := hP
        simp only [Q] at hQ
        split at hQ
        · rename_i w1 o hs
          simp only [Bool.and_eq_true, beq_iff_eq] at hQ
          obtain ⟨rfl, hQ⟩ := hQ
          split at hQ
          · rename_i w2 os2 hc
            refine ⟨w, w1, w2, t, f, ht, hk, hf, hro, ?_, callowedB_iff ha, hs, crun_kept (by decide) .refl hc, by simpa using hQ⟩
            split at hg
            · rename_i i a hga
              simp only [Bool.and_eq_true, beq_iff_eq] at hg
              obtain ⟨rfl, hg⟩ := hg
              exact ⟨a, hga, hg⟩
            · cases hg
          · cases hQ
        · cases hQ
      · cases hP

/-- C56: the reader in `raceUnlinkFirst` still sees inode 2 after the writer removed it and committed. -/
example : ((cdemo raceUnlinkFirst).map (fun x => x.2.map attrIno)) = some [none, none, none, none, none, some 2, none] := by decide +kernel

def notNested : CCall → Bool
  | .on _ .nested => false
  | _ => true

theorem crun_flat {cs : List CCall} : ∀ {w w1 w2 : CWorld} {os : List Out}, cs.all notNested = true → CRunF w w1 → crun w1 cs = some (w2, os) → CRunF w w2 := by
  induction cs with
  | nil => intro w w1 w2 os _ h hd; cases hd; exact h
  | cons c cs ih =>
    intro w w1 w2 os ha h hd
    rw [List.all_cons, Bool.and_eq_true] at ha
    unfold crun at hd
    split at hd
    · split at hd
      · rename_i w' o hs
        cases hx : crun w' cs with
        | none => rw [hx] at hd; cases hd
        | some x =>
          rw [hx] at hd; cases hd
          refine ih ha.2 (.step h ?_ hs) hx
          rintro k rfl; cases ha.1
      · cases hd
    · cases hd

/-- An instance of `C55_serial`, `C55_open` and `C55_covers`: the interleaving `raceLockFirst`, which leaves inode 2 locked. -/
example : ∃ d0 r0 w L H, Flat d0 r0 w L H ∧ (w.refs 2).nrefs = 1 := by
  have key : (cdemo raceLockFirst).map (fun x => (x.1.refs 2).nrefs == 1) = some true := by decide +kernel
  unfold cdemo at key
  split at key
  · cases key
  · rename_i w0 hw0
    cases hx : crun (CWorld.start w0.disk w0.refs) raceLockFirst with
    | none => rw [hx] at key; cases key
    | some x =>
      obtain ⟨w, os⟩ := x
      rw [hx] at key
      obtain ⟨L, H, hf⟩ := C55_covers (crun_flat (by decide) .refl hx)
      exact ⟨_, _, w, L, H, hf, by simpa using key⟩

/-- The calls of thread `k` use transaction `k` (for examples only). -/
def ownCall : CCall → Bool
  | .beginRO k th => k == th
  | .beginRW k th => k == th
  | .on _ _ => true

def Own (w : CWorld) : Prop := ∀ k t, w.txns k = some t → t.thread = k

theorem Own.one {w : CWorld} (h : Own w) : OnePerThread w := fun j k t u hj hk e => (h j t hj).symm.trans (e.trans (h k u hk))

theorem Own.step {w w' : CWorld} (h : Own w) {c out} (hc : ownCall c = true) (hs : w.step c = .done w' out) : Own w' := by
  have upd : ∀ {k : Nat} {x : Option CTxn}, (∀ j, w'.txns j = if j = k then x else w.txns j) → (∀ t, x = some t → t.thread = k) → Own w' := by
    intro k x e hx j t hj
    rw [e] at hj
    by_cases ej : j = k
    · rw [if_pos ej] at hj; exact (hx t hj).trans ej.symm
    · rw [if_neg ej] at hj; exact h j t hj
  have same : ∀ {k : Nat} {t t' : CTxn}, w.txns k = some t → t'.thread = t.thread → ∀ u, some t' = some u → u.thread = k := by
    intro k t t' hk e u hu; cases hu; exact e.trans (h k t hk)
  cases step_inv hs with
  | beginRO hk => exact upd (fun j => rfl) (fun t ht => by cases ht; exact (by simpa [ownCall] using hc : _ = _).symm)
  | beginRW hk hw => exact upd (fun j => rfl) (fun t ht => by cases ht; exact (by simpa [ownCall] using hc : _ = _).symm)
  | op mx hk hf => exact upd (fun j => rfl) (same hk rfl)
  | nested hk hf => exact upd (fun j => rfl) (same hk rfl)
  | commit hk hf => exact upd (fun j => rfl) (same hk rfl)
  | commitNested hk hf => exact upd (fun j => rfl) (same hk rfl)
  | abort hk hf => exact upd (fun j => rfl) (same hk rfl)
  | abortNested hk hf => exact upd (fun j => rfl) (same hk rfl)
  | drop hk hf => exact upd (fun j => rfl) (same hk rfl)
  | finish hk hf => exact upd (fun j => rfl) (fun t ht => by cases ht)

theorem crun_own {cs : List CCall} : ∀ {w w' : CWorld} {os : List Out}, cs.all ownCall = true → Own w → crun w cs = some (w', os) → Own w' := by
  induction cs with
  | nil => intro w w' os _ h hd; cases hd; exact h
  | cons c cs ih =>
    intro w w' os ha h hd
    rw [List.all_cons, Bool.and_eq_true] at ha
    unfold crun at hd
    split at hd
    · split at hd
      · rename_i w1 o hs
        cases hx : crun w1 cs with
        | none => rw [hx] at hd; cases hd
        | some x => rw [hx] at hd; cases hd; exact ih ha.2 (h.step ha.1 hs) hx
      · cases hd
    · cases hd

/-- A reachable world in which each thread has one transaction, with an observation of it. -/
theorem cdemo_own {cs : List CCall} {P : CWorld → Bool} (hc : cs.all ownCall = true) (h : ((cdemo cs).map (fun x => P x.1)) = some true) :
    ∃ w, CReach w ∧ Own w ∧ P w = true := by
  cases hd : cdemo cs with
  | none => rw [hd] at h; cases h
  | some x =>
    obtain ⟨w, os⟩ := x
    rw [hd] at h
    refine ⟨w, cdemo_reach hd, ?_, by simpa using h⟩
    unfold cdemo at hd
    split at hd
    · cases hd
    · exact crun_own hc (fun k t hk => by cases hk) hd

theorem isBlocked_iff {o : Outcome} (h : isBlocked o = true) : o = .blocked := by cases o <;> first | rfl | cases h

/-- The hypotheses of `C51_no_deadlk` and `C51_no_deadlock`, for both kinds of waiting (`C51_no_cycle` says that no set of
such threads is closed under waiting), and of `C51_ends`. -/
example : ∃ w t, CReach w ∧ OnePerThread w ∧ w.txns 1 = some t ∧ Makes w 1 (.on 1 (.op (.unlinkName 1 [0x61]))) ∧
    w.step (.on 1 (.op (.unlinkName 1 [0x61]))) = .blocked ∧ Makes w 2 (.beginRW 2 2) ∧ w.step (.beginRW 2 2) = .blocked := by
  obtain ⟨w, h1, h2, h3⟩ := cdemo_own (cs := threeThreads) (P := fun w => isBlocked (w.step (.on 1 (.op (.unlinkName 1 [0x61])))) && isBlocked (w.step (.beginRW 2 2)) &&
    ((w.txns 1).isSome && (w.txns 2).isNone)) (by decide) (by decide +kernel)
  simp only [Bool.and_eq_true] at h3
  obtain ⟨⟨g1, g2⟩, g3, g4⟩ := h3
  obtain ⟨t, ht⟩ := Option.isSome_iff_exists.mp g3
  have hn : w.txns 2 = none := by simpa using g4
  refine ⟨w, t, h1, h2.one, ht, ⟨t, ht, h2 1 t ht⟩, isBlocked_iff g1, ⟨rfl, hn, ?_⟩, isBlocked_iff g2⟩
  intro j u hu e
  obtain rfl := (h2 j u hu).symm.trans e
  rw [hn] at hu; cases hu

/-- One more step of a reachable world, with an observation of both worlds (for examples only). -/
theorem cdemo_step {cs : List CCall} {c : CCall} {P : CWorld → CWorld → Out → Bool}
    (h : ((cdemo cs).map (fun x => callowedB x.1 c && (match x.1.step c with | .done w' o => P x.1 w' o | _ => false))) = some true) :
    ∃ w w' out, CReach w ∧ CAllowed w c ∧ w.step c = .done w' out ∧ P w w' out = true := by
  obtain ⟨w, h1, h2⟩ := cdemo_ex (P := fun w => callowedB w c && (match w.step c with | .done w' o => P w w' o | _ => false)) h
  rw [Bool.and_eq_true] at h2
  obtain ⟨h2, h3⟩ := h2
  split at h3
  · rename_i w' o hs; exact ⟨w, w', o, h1, callowedB_iff h2, hs, h3⟩
  · cases h3

/-- The hypotheses of `C54_table`: a reader has the mutex, the writer replaces the attributes of a file without needing it. -/
example : ∃ w w' out, CReach w ∧ CAllowed w (.on 1 (.op (.emplace 1 [0x61] (fileA 1)))) ∧ w.step (.on 1 (.op (.emplace 1 [0x61] (fileA 1)))) = .done w' out ∧
    (w.mutex == some 0 && w'.mutex == some 0 && w.writer == some 1 && out == .ino (.ok 2)) = true :=
  cdemo_step (cs := threeThreads) (by decide +kernel)

/-- The hypotheses of `C54_writer`: a commit which changes the file. -/
example : ∃ w w' out, CReach w ∧ CAllowed w (.on 1 .commit) ∧ w.step (.on 1 .commit) = .done w' out ∧
    (match lookup w.disk 1 [0x62], lookup w'.disk 1 [0x62] with | .ok (.error _), .ok (.ok i) => i == 3 | _, _ => false) = true :=
  cdemo_step (cs := [.beginRW 1 1, .on 1 (.op (.emplace 1 [0x62] (fileA 1)))]) (by decide +kernel)

/-- Steps as in `C50_count`: the count falls by a `release` (and its transaction could be aborted, as in the second
case, after a `lock`). -/
example : (∃ w w' out, CReach w ∧ CAllowed w (.on 0 (.op (.release 2 1))) ∧ w.step (.on 0 (.op (.release 2 1))) = .done w' out ∧
      ((w.refs 2).nrefs == 1 && (w'.refs 2).nrefs == 0) = true) ∧
    ∃ w w' out, CReach w ∧ CAllowed w (.on 0 .abort) ∧ w.step (.on 0 .abort) = .done w' out ∧ ((w.refs 2).nrefs == 1 && (w'.refs 2).nrefs == 0) = true :=
  ⟨cdemo_step (cs := threeThreads) (by decide +kernel), cdemo_step (cs := threeThreads) (by decide +kernel)⟩

/-- Runs of other transactions (for examples only). -/
theorem crun_keeping {k : Nat} {cs : List CCall} : ∀ {w w1 w2 : CWorld} {os : List Out}, (∀ c ∈ cs, c ≠ .on k .finish) → RunKeeping k w w1 →
    crun w1 cs = some (w2, os) → RunKeeping k w w2 := by
  induction cs with
  | nil => intro w w1 w2 os _ h hd; cases hd; exact h
  | cons c cs ih =>
    intro w w1 w2 os ha h hd
    unfold crun at hd
    split at hd
    · split at hd
      · rename_i w' o hs
        cases hx : crun w' cs with
        | none => rw [hx] at hd; cases hd
        | some x => rw [hx] at hd; cases hd; exact ih (fun c hc => ha c (List.mem_cons_of_mem _ hc)) (.step h (ha c List.mem_cons_self) hs) hx
      · cases hd
    · cases hd

/-- The hypotheses of `C56_snapshot` and `C56_answers`: between the two `getattr` of the reader the writer removes the file and
commits. -/
example : ∃ w w1 w2 w3 t f out out', CReach w ∧ w.txns 0 = some t ∧ t.frames = [f] ∧ f.fr.ro = true ∧ (∀ d, asksRefs d (.getattr 2) = false) ∧
    w.step (.on 0 (.op (.getattr 2))) = .done w1 out ∧ RunKeeping 0 w w2 ∧ w2.step (.on 0 (.op (.getattr 2))) = .done w3 out' ∧
    (getattr w.disk 2).isOk = true ∧ (getattr w2.disk 2).isOk = false := by
  obtain ⟨w, h1, h2⟩ := cdemo_ex (cs := [.beginRO 0 0, .beginRW 1 1]) (P := fun w =>
    (match w.txns 0 with | some t => (match t.frames with | [f] => f.fr.ro | _ => false) | none => false) && (getattr w.disk 2).isOk &&
    (match w.step (.on 0 (.op (.getattr 2))) with | .done _ _ => true | _ => false) &&
    (match crun w [.on 1 (.op (.unlinkName 1 [0x61])), .on 1 .commit, .on 1 .finish] with
      | some (w2, _) => !(getattr w2.disk 2).isOk && (match w2.step (.on 0 (.op (.getattr 2))) with | .done _ _ => true | _ => false)
      | none => false)) (by decide +kernel)
  simp only [Bool.and_eq_true] at h2
  obtain ⟨⟨⟨g1, g2⟩, g3⟩, g4⟩ := h2
  split at g1
  · rename_i t ht
    split at g1
    · rename_i f hf
      split at g3
      · rename_i w1 out hs
        split at g4
        · rename_i w2 os hc
          simp only [Bool.and_eq_true] at g4
          obtain ⟨g4, g5⟩ := g4
          split at g5
          · rename_i w3 out' hs'
            exact ⟨w, w1, w2, w3, t, f, out, out', h1, ht, hf, g1, fun _ => rfl, hs, crun_keeping (by simp) .refl hc, hs', g2, by simpa using g4⟩
          · cases g5
        · cases g4
      · cases g3
    · cases g1
  · cases g1

end Dragonstash.Conc
