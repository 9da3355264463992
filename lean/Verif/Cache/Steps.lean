/-
  Inversion of single calls, the reference table in reachable worlds, and what transactions do to
  lock counts. Used by the property files.
-/
import Verif.Cache.Shape
namespace Dragonstash.Cache
open Codec

/-! ### Inversion -/

theorem step_op {w w' : World} {o : Op} {out : Out} (hs : w.step (.op o) = .ok (w', out)) :
    ∃ f r t, w.stack = f :: r ∧ (f.ro && !o.isRO) = false ∧ doOp (f.txn w.refs) o = .ok (t, out) ∧
      w' = { w with refs := t.refs, stack := ⟨t.db, t.rewrite, t.hooks, f.ro⟩ :: r } := by
  simp only [World.step] at hs
  split at hs
  · cases hs
  · rename_i f r hst
    split at hs
    · cases hs
    · rename_i hro
      cases hd : doOp (f.txn w.refs) o with
      | error e => rw [hd] at hs; cases hs
      | ok v => rw [hd] at hs; obtain ⟨t, x⟩ := v; cases hs; exact ⟨f, r, t, hst, by simpa using hro, hd, rfl⟩

theorem step_begin {w w' : World} {out : Out} {c : Call} (hc : c = .beginRO ∨ c = .beginRW) (hs : w.step c = .ok (w', out)) :
    w.stack = [] ∧ w.phase = .up ∧ w' = { w with stack := [{ db := w.disk, ro := decide (c = .beginRO) }] } := by
  rcases hc with rfl | rfl <;> simp only [World.step] at hs <;> split at hs
  · rename_i h; cases hs; exact ⟨h.2, h.1, rfl⟩
  · cases hs
  · rename_i h; cases hs; exact ⟨h.2, h.1, rfl⟩
  · cases hs

theorem step_nested {w w' : World} {out : Out} (hs : w.step .nested = .ok (w', out)) :
    ∃ f r, w.stack = f :: r ∧ f.ro = false ∧ w' = { w with stack := { db := f.db } :: f :: r } := by
  simp only [World.step] at hs
  split at hs
  · cases hs
  · rename_i f r hst
    split at hs
    · cases hs
    · rename_i h; cases hs; exact ⟨f, r, hst, by simpa using h, rfl⟩

theorem step_abort {w w' : World} {out : Out} (hs : w.step .abort = .ok (w', out)) :
    ∃ f r refs, w.stack = f :: r ∧ undoAll w.refs f.hooks.reverse = .ok refs ∧ w' = { w with refs := refs, stack := r } ∧ out = .unit (.ok ()) := by
  simp only [World.step] at hs
  split at hs
  · cases hs
  · rename_i f r hst
    cases hu : undoAll w.refs f.hooks.reverse with
    | error e => rw [hu] at hs; cases hs
    | ok v => rw [hu] at hs; cases hs; exact ⟨f, r, v, hst, hu, rfl, rfl⟩

theorem step_openClean {w w' : World} {out : Out} (hs : w.step .openClean = .ok (w', out)) :
    w.phase = .inited ∧ ∃ d r, openCleanDB w.disk w.refs = .ok (d, r) ∧ w' = { w with phase := .up, disk := d, refs := r } := by
  simp only [World.step] at hs
  split at hs
  · rename_i hp
    cases hu : openCleanDB w.disk w.refs with
    | error e => rw [hu] at hs; cases hs
    | ok v => obtain ⟨d, r⟩ := v; rw [hu] at hs; cases hs; exact ⟨hp, d, r, rfl, rfl⟩
  · cases hs

theorem step_openInit {w w' : World} {out : Out} {u g : Nat} {now : Timespec} (hs : w.step (.openInit u g now) = .ok (w', out)) :
    w.phase = .down ∧ w' = { w with phase := .inited, disk := initDB w.disk u g now } := by
  simp only [World.step] at hs
  split at hs
  · rename_i hp; cases hs; exact ⟨hp, rfl⟩
  · cases hs

/-! ### Operations and hooks -/

theorem Eff.doomed {s s' : Tree} {r r'} (h : Eff s r s' r') : ∀ i, (r i).doomed = true → (r' i).doomed = true := by
  induction h with
  | collect _ _ h => exact fun i hi => (h i).2.mpr (.inl hi)
  | trans _ _ ih1 ih2 => exact fun i hi => ih2 i (ih1 i hi)
  | _ => exact fun _ h => h

/-- The reference table in reachable worlds: counts are 64 bit numbers, doomed inodes have none. -/
structure RefsOK (r : Refs) : Prop where
  lt : ∀ i, (r i).nrefs < W64
  doomed : ∀ i, (r i).doomed = true → (r i).nrefs = 0

theorem DoomedBy.ok {s : Tree} {r r' : Refs} (h : DoomedBy r r' (Gone s (locked r))) (ok : RefsOK r) : RefsOK r' := by
  refine ⟨fun i => by rw [(h i).1]; exact ok.lt i, fun i hi => ?_⟩
  rw [(h i).1]
  rcases (h i).2.mp hi with h1 | h1
  · exact ok.doomed i h1
  · have := h1.not_locked; unfold locked at this; omega

theorem Eff.refsOK {s s' : Tree} {r r'} (h : Eff s r s' r') (ok : RefsOK r) : RefsOK r' := by
  induction h with
  | collect _ _ h => exact h.ok ok
  | trans _ _ ih1 ih2 => exact ih2 (ih1 ok)
  | _ => exact ok

theorem RefsOK.set {r : Refs} (ok : RefsOK r) {i : Ino} {x : Rec} (h1 : x.nrefs < W64) (h2 : x.doomed = true → x.nrefs = 0) : RefsOK (r.set i x) := by
  constructor <;> intro j <;> unfold Refs.set <;> split
  · exact h1
  · exact ok.lt j
  · exact h2
  · exact ok.doomed j

theorem RefsOK.decref {r r' : Refs} (ok : RefsOK r) {i n k} (h : r.decref i n = .ok (r', k)) : RefsOK r' := by
  unfold Refs.decref at h
  split at h
  · cases h; exact ok
  · split at h
    · cases h
    · cases h
      refine ok.set ?_ ?_
      · have := ok.lt i; show (r i).nrefs - n < _; omega
      · intro hd; have := ok.doomed i hd; show (r i).nrefs - n = 0; omega

theorem RefsOK.incref {r r' : Refs} (ok : RefsOK r) {i n k} (h : r.incref i n = (r', k)) : RefsOK r' := by
  unfold Refs.incref at h
  split at h
  · cases h; exact ok
  · rename_i hd
    cases h
    refine ok.set ?_ ?_
    · show u64 _ < _; unfold u64; exact Nat.mod_lt _ (by decide)
    · intro hd'; exact absurd hd' hd

theorem RefsOK.undoAll {l : List Undo} : ∀ {r r' : Refs}, RefsOK r → undoAll r l = .ok r' → RefsOK r' := by
  induction l with
  | nil => intro r r' ok h; cases h; exact ok
  | cons u l ih =>
    intro r r' ok h
    unfold Cache.undoAll at h
    cases hu : undo r u with
    | error e => rw [hu] at h; cases h
    | ok r1 =>
      rw [hu] at h
      refine ih ?_ h
      cases u with
      | unlock i =>
        unfold undo at hu
        cases hd : r.decref i 1 with
        | error e => simp only [hd, bind_err] at hu; cases hu
        | ok v =>
          obtain ⟨r2, x⟩ := v
          simp only [hd, bind_ok] at hu
          cases x with
          | error e => cases hu
          | ok k => cases hu; exact ok.decref hd
      | relock i n =>
        unfold undo at hu
        cases hd : r.incref i n with
        | mk r2 x =>
          simp only [hd] at hu
          cases x with
          | error e => cases hu
          | ok k => cases hu; exact ok.incref hd

/-- What an operation does to hooks and lock counts. -/
theorem doOp_hooks {s : Tree} {t t' : Txn} {o : Op} {out : Out} (h : TRep s t) (hr : o.inRange) (hrw : RewriteOK t.rewrite)
    (ha : ∀ p n a, o = .emplace p n a → p ≠ 0 ∧ s.next + 1 < W64)
    (he : doOp t o = .ok (t', out)) :
    (t'.hooks = t.hooks ∧ (∀ i, (t'.refs i).nrefs = (t.refs i).nrefs) ∧ ∀ i, (t.refs i).doomed = true → (t'.refs i).doomed = true) ∨
    (∃ i, o = .lock i ∧ t'.hooks = t.hooks ++ [.unlock i] ∧ (t.refs i).doomed = false ∧
      t'.refs = t.refs.set i { t.refs i with nrefs := u64 ((t.refs i).nrefs + 1) }) ∨
    (∃ i n, o = .release i n ∧ t'.hooks = t.hooks ++ [.relock i n] ∧ 0 < n ∧ n ≤ (t.refs i).nrefs ∧
      t'.refs = t.refs.set i { t.refs i with nrefs := (t.refs i).nrefs - n }) := by
  by_cases hl : ∃ i, o = .lock i
  · obtain ⟨i, rfl⟩ := hl
    simp only [doOp] at he; cases he
    unfold Cache.lock Refs.incref
    by_cases hd : (t.refs i).doomed = true
    · simp [hd]
    · rw [if_neg hd]
      exact .inr (.inl ⟨i, rfl, rfl, by simpa using hd, rfl⟩)
  · by_cases hr' : ∃ i n, o = .release i n
    · obtain ⟨i, n, rfl⟩ := hr'
      simp only [doOp] at he
      cases hm : Cache.release t i n with
      | error e => rw [hm] at he; cases he
      | ok v =>
        rw [hm] at he; obtain ⟨v1, v2⟩ := v; cases he
        unfold Cache.release Refs.decref at hm
        by_cases hn : n = 0
        · simp only [hn, if_true] at hm; cases hm; exact .inl ⟨rfl, fun _ => rfl, fun _ h => h⟩
        · simp only [hn, if_false] at hm
          by_cases hlt : (t.refs i).nrefs < n
          · simp only [hlt, if_true, bind_err] at hm; cases hm
          · simp only [hlt, if_false, bind_ok] at hm; cases hm
            exact .inr (.inr ⟨i, n, rfl, rfl, by omega, by omega, rfl⟩)
    · obtain ⟨s', h1, -, h2 | ⟨-, -, h2⟩⟩ := doOp_eff h hr hrw ha he
      · exact .inl ⟨h2.2.1, h2.1.counts, h2.1.doomed⟩
      · exact absurd h2 (not_or.mpr ⟨hl, hr'⟩)


theorem RefsOK.doOp {s : Tree} {t t' : Txn} {o : Op} {out : Out} (h : TRep s t) (hr : o.inRange) (hrw : RewriteOK t.rewrite)
    (ha : ∀ p n a, o = .emplace p n a → p ≠ 0 ∧ s.next + 1 < W64)
    (he : doOp t o = .ok (t', out)) (ok : RefsOK t.refs) : RefsOK t'.refs := by
  obtain ⟨s', h1, -, h2 | ⟨-, -, h2⟩⟩ := doOp_eff h hr hrw ha he
  · exact h2.1.refsOK ok
  · rcases doOp_hooks h hr hrw ha he with ⟨-, h3, h4⟩ | ⟨i, rfl, -, h4, h5⟩ | ⟨i, n, rfl, -, h4, h5, h6⟩
    · rcases h2 with ⟨i, rfl⟩ | ⟨i, n, rfl⟩
      · simp only [Cache.doOp] at he; cases he
        unfold Cache.lock Refs.incref
        split <;> rename_i heq <;> split at heq <;> cases heq
        · exact ok
        · exact ok.incref (i := i) (n := 1) (k := .ok (u64 ((t.refs i).nrefs + 1))) (by unfold Refs.incref; rw [if_neg (by assumption)])
      · simp only [Cache.doOp] at he
        cases hm : Cache.release t i n with
        | error e => rw [hm] at he; cases he
        | ok v =>
          rw [hm] at he; obtain ⟨v1, v2⟩ := v; cases he
          unfold Cache.release at hm
          by_cases hn : n = 0
          · simp only [hn, if_true] at hm; cases hm; exact ok
          · simp only [hn, if_false] at hm
            cases hd : t.refs.decref i n with
            | error e => simp only [hd, bind_err] at hm; cases hm
            | ok v =>
              obtain ⟨r, x⟩ := v
              simp only [hd, bind_ok] at hm
              cases x with
              | error e => cases hm
              | ok k => cases hm; exact ok.decref hd
    · rw [h5]
      refine ok.set ?_ ?_
      · show u64 _ < _; unfold u64; exact Nat.mod_lt _ (by decide)
      · intro hd; rw [show (t.refs i).doomed = true from hd] at h4; cases h4
    · rw [h6]
      refine ok.set ?_ ?_
      · have := ok.lt i; show (t.refs i).nrefs - n < _; omega
      · intro hd; have := ok.doomed i hd; show (t.refs i).nrefs - n = 0; omega

theorem Refs.empty_ok : RefsOK Refs.empty := ⟨fun _ => by show 0 < W64; decide, fun _ h => by cases h⟩

theorem Reach.refsOK {w : World} (h : Reach w) : RefsOK w.refs := by
  induction h with
  | init => exact Refs.empty_ok
  | @step w c w' o hw ha hs ih =>
    cases c with
    | crash => simp only [World.step] at hs; cases hs; exact Refs.empty_ok
    | openInit uid gid now => rw [(step_openInit hs).2]; exact ih
    | openClean =>
      obtain ⟨hp, d, r, hc, rfl⟩ := step_openClean hs
      rcases hw.inv.disk with ⟨-, h2⟩ | ⟨s, h1, ok⟩
      · rw [hp] at h2; cases h2
      · obtain ⟨s1, s2, d', r1, r', e1, -, -, -, -, e2, -, e3, -⟩ := openClean_spec h1 ok w.refs
        rw [e1] at hc; cases hc
        exact e3.ok (e2.ok ih)
    | beginRO => rw [(step_begin (.inl rfl) hs).2.2]; exact ih
    | beginRW => rw [(step_begin (.inr rfl) hs).2.2]; exact ih
    | nested => obtain ⟨f, r, -, -, rfl⟩ := step_nested hs; exact ih
    | op o =>
      obtain ⟨s, t, t', o1⟩ := hw.op ha hs
      rw [o1.refs']
      exact RefsOK.doOp o1.trep o1.range o1.rwok o1.emp o1.call (by rw [o1.refs]; exact ih)
    | commit =>
      simp only [World.step] at hs
      split at hs
      · cases hs
      · cases hs; exact ih
      · cases hs; exact ih
    | abort =>
      obtain ⟨f, r, refs, -, hu, rfl, -⟩ := step_abort hs
      exact ih.undoAll hu
    | drop =>
      simp only [World.step] at hs
      split at hs
      · cases hs
      · cases hs; exact ih

/-! ### Undoing -/

/-- `Fwd c hs c'`: locking and releasing as recorded by the hooks `hs` (in the order of registration)
leads from the lock counts `c` to `c'`. -/
inductive Fwd : (Ino → Nat) → List Undo → (Ino → Nat) → Prop
  | nil {c} : Fwd c [] c
  | lock {c hs c' i} : Fwd c hs c' → c' i + 1 < W64 → Fwd c (hs ++ [.unlock i]) (fun j => if j = i then c' i + 1 else c' j)
  | release {c hs c' i n} : Fwd c hs c' → 0 < n → n ≤ c' i → c' i < W64 → Fwd c (hs ++ [.relock i n]) (fun j => if j = i then c' i - n else c' j)

theorem Fwd.trans {c1 c2 c3 : Ino → Nat} {h1 h2 : List Undo} (a : Fwd c1 h1 c2) (b : Fwd c2 h2 c3) : Fwd c1 (h1 ++ h2) c3 := by
  induction b with
  | nil => simpa using a
  | lock _ h ih => rw [← List.append_assoc]; exact .lock ih h
  | release _ h h' h'' ih => rw [← List.append_assoc]; exact .release ih h h' h''

/-- Running the hooks in reverse order gives back the counts, and does not fail unless an inode to be
locked again has been doomed. -/
theorem Fwd.undo {c c' : Ino → Nat} {hs : List Undo} (h : Fwd c hs c') : ∀ {r : Refs}, (∀ i, (r i).nrefs = c' i) →
    (∀ r', undoAll r hs.reverse = .ok r' → (∀ i, (r' i).nrefs = c i) ∧ ∀ i, (r' i).doomed = (r i).doomed) ∧
    ((∀ i n, Undo.relock i n ∈ hs → (r i).doomed = false) → ∃ r', undoAll r hs.reverse = .ok r') := by
  induction h with
  | nil => intro r hr; exact ⟨fun r' h => by cases h; exact ⟨hr, fun _ => rfl⟩, fun _ => ⟨r, rfl⟩⟩
  | @lock hs c1 i h1 h2 ih =>
    intro r hr
    have hi : (r i).nrefs = c1 i + 1 := by rw [hr i]; simp
    have hu : Cache.undo r (.unlock i) = .ok (r.set i { r i with nrefs := c1 i }) := by
      have hdec : r.decref i 1 = .ok (r.set i { r i with nrefs := c1 i }, .ok (c1 i)) := by
        unfold Refs.decref
        rw [if_neg (by decide), if_neg (by omega), hi, Nat.add_sub_cancel]
      simp only [Cache.undo, hdec, bind_ok, pure_eq_ok]
    have hc : ∀ j, ((r.set i { r i with nrefs := c1 i }) j).nrefs = c1 j := by
      intro j; unfold Refs.set
      by_cases hj : j = i
      · subst hj; simp
      · simp only [hj, if_false]; rw [hr j]; simp [hj]
    have hd : ∀ j, ((r.set i { r i with nrefs := c1 i }) j).doomed = (r j).doomed := by
      intro j; unfold Refs.set
      by_cases hj : j = i
      · subst hj; simp
      · simp [hj]
    obtain ⟨i1, i2⟩ := ih hc
    rw [List.reverse_append, List.reverse_singleton, List.singleton_append]
    simp only [undoAll, hu, bind_ok]
    refine ⟨fun r' h => ?_, fun h => i2 ?_⟩
    · obtain ⟨g1, g2⟩ := i1 r' h
      exact ⟨g1, fun j => (g2 j).trans (hd j)⟩
    · intro j n hj; rw [hd j]; exact h j n (by simp [hj])
  | @release hs c1 i n h1 h2 h3 h4 ih =>
    intro r hr
    have hi : (r i).nrefs = c1 i - n := by rw [hr i]; simp
    have hu64 : u64 ((r i).nrefs + n) = c1 i := by
      rw [hi, Nat.sub_add_cancel h3]; exact Nat.mod_eq_of_lt h4
    rw [List.reverse_append, List.reverse_singleton, List.singleton_append]
    by_cases hdm : (r i).doomed = true
    · have hu : Cache.undo r (.relock i n) = .error (.assertFail 716) := by
        simp only [Cache.undo, Refs.incref, if_pos hdm]
      simp only [undoAll, hu, bind_err]
      refine ⟨fun r' h => (by cases h), fun h => ?_⟩
      have := h i n (by simp); rw [hdm] at this; cases this
    · have hu : Cache.undo r (.relock i n) = .ok (r.set i { r i with nrefs := c1 i }) := by
        simp only [Cache.undo, Refs.incref, if_neg hdm, hu64]
      have hc : ∀ j, ((r.set i { r i with nrefs := c1 i }) j).nrefs = c1 j := by
        intro j; unfold Refs.set
        by_cases hj : j = i
        · subst hj; simp
        · simp only [hj, if_false]; rw [hr j]; simp [hj]
      have hd : ∀ j, ((r.set i { r i with nrefs := c1 i }) j).doomed = (r j).doomed := by
        intro j; unfold Refs.set
        by_cases hj : j = i
        · subst hj; simp
        · simp [hj]
      obtain ⟨i1, i2⟩ := ih hc
      simp only [undoAll, hu, bind_ok]
      refine ⟨fun r' h => ?_, fun h => i2 ?_⟩
      · obtain ⟨g1, g2⟩ := i1 r' h
        exact ⟨g1, fun j => (g2 j).trans (hd j)⟩
      · intro j n hj; rw [hd j]; exact h j n (by simp [hj])

theorem PathTo.collected {s s' : Tree} {L : Ino → Prop} (ok : s.OK) (h : Collected s L s') {i cs} (hp : s.PathTo i cs) : s'.PathTo i cs := by
  induction hp with
  | root => exact .root
  | child hat hp ih => exact .child ((at_collected h).mpr ⟨hat, fun hg => Conn.not_gone ok ⟨_, hp⟩ hg.1⟩) ih

end Dragonstash.Cache
