/-
  C97: several processes with the same cache file.
-/
import Verif.Cache.Procs
import Verif.Props.CacheTxn
namespace Dragonstash.Cache
open Codec

theorem GoodWF.inv {w : World} (h : Inv GoodWF w) : Inv Good w :=
  ⟨h.disk.imp id GoodWF.good, h.down, fun f hf => ⟨(h.frames f hf).1.good, (h.frames f hf).2⟩⟩

/-- C97: whatever the processes do and however their calls interleave, each of them finds the tables consistent,
in its open transactions and in those it would begin now. -/
theorem C97_consistent {m : PWorld} (h : PReach m) (p : Nat) {d : DB} (hv : View (m.of p) d) : Consistent d := by
  obtain ⟨s, hr, ok, -⟩ := (h.inv p).view hv
  exact hr.consistent ok

/-- C97: a transaction which a process begins sees what was last committed, by whatever process. -/
theorem C97_begin {m m' : PWorld} {p : Nat} {c : Call} {out : Out} (hc : c = .beginRO ∨ c = .beginRW) (hs : PStep m p c out m') :
    (m'.of p).db = m.disk := by
  obtain ⟨w, h1, rfl⟩ := hs.step
  rw [after_same]
  rcases hc with rfl | rfl
  · obtain ⟨-, -, rfl⟩ := step_begin (.inl rfl) h1; rfl
  · obtain ⟨-, -, rfl⟩ := step_begin (.inr rfl) h1; rfl

/-- C97: what a process sees in its open transactions, and its locks, are changed by nobody else. -/
theorem C97_snapshot {m m' : PWorld} {p q : Nat} {c : Call} {out : Out} (hs : PStep m q c out m') (hq : q ≠ p) :
    (m'.of p).stack = (m.of p).stack ∧ (m'.of p).refs = (m.of p).refs ∧ (m'.of p).phase = (m.of p).phase := by
  obtain ⟨w, -, rfl⟩ := hs.step
  rw [after_other _ _ (Ne.symm hq)]
  exact ⟨rfl, rfl, rfl⟩

/-- C97: what is stored changes only when a process commits a write transaction (and then to what this transaction
sees) or opens the cache. -/
theorem C97_committed {m m' : PWorld} {p : Nat} {c : Call} {out : Out} (hs : PStep m p c out m') :
    m'.disk = m.disk ∨ (c = .commit ∧ ∃ f, (m.of p).stack = [f] ∧ f.ro = false ∧ m'.disk = (m.of p).db) ∨
      (∃ u g now, c = .openInit u g now) ∨ c = .openClean := by
  obtain ⟨w, h1, rfl⟩ := hs.step
  exact C32_committed h1

/-- C97: no update is lost: as long as a process has a write transaction open, no other process changes what is
stored, so that its commit overwrites nothing which it has not seen. -/
theorem C97_no_lost_update {m m' : PWorld} (h : PReach m) {p q : Nat} {c : Call} {out : Out} {f : Frame} (hf : f ∈ (m.of p).stack) (hr : f.ro = false)
    (ha : Allowed (m.of q) c) (hs : PStep m q c out m') (hq : q ≠ p) : m'.disk = m.disk := by
  obtain ⟨w, h1, rfl⟩ := hs.step
  have iso := h.iso
  obtain ⟨-, -, -, g4, -⟩ := step_iso (h.inv q) ha h1 (iso.newer q) (iso.single q)
  rcases g4 with g4 | g4 | ⟨g, hg, hgr⟩
  · exact g4
  · have := hs.waits g4 p (Ne.symm hq) f hf; rw [hr] at this; cases this
  · exact absurd (iso.one q p g f hg hgr hf hr) hq

/-- C97: a number which some process gets for a new entry was never that of anything stored before, by whatever
process, even if it has been removed since. -/
theorem C97_numbers {m1 m m' : PWorld} (h : PReach m1) (hr : PRun m1 m) {p : Nat} {d : Ino} {n : Bytes} {a : Attrs} {i : Ino}
    (ha : Allowed (m.of p) (.op (.emplace d n a))) (hs : PStep m p (.op (.emplace d n a)) (.ino (.ok i)) m')
    (hn : lookup (m.of p).db d n ≠ .ok (.ok i)) : Missing m1.disk i ∧ Missing m.disk i := by
  have hm : PReach m := PRun.trans h hr
  obtain ⟨w, hw, rfl⟩ := hs.step
  obtain ⟨s, t, s', t', h1, ok, h1', ok', sh, -, -, o1⟩ := (GoodWF.inv (hm.inv p)).op' ha hw
  have hi : i = s.next := by
    rcases sh.emplace_inv with ⟨x, e1, e2, e3, -⟩ | ⟨-, e, -, e2⟩ | ⟨-, e, j, nd, -, -, -, e2⟩
    · exact absurd (h1.lookup_found ok ⟨x, e1, e2⟩) hn
    · exact e
    · exact e
  obtain ⟨f, r, t, hst, hro, -, -⟩ := step_op hw
  have hfro : f.ro = false := by
    cases hx : f.ro with
    | false => rfl
    | true => rw [hx] at hro; cases hro
  have hdb : (m.of p).db = f.db := by simp [World.db, hst]
  have hc : f.db.counter = s.next := by rw [← hdb]; simp [DB.counter, h1.next]
  have hnew := hm.iso.newer p f (by rw [show (m.proc p).stack = f :: r from hst]; simp) hfro
  have key : ∀ {m0 : PWorld}, PReach m0 → m0.disk.counter ≤ m.disk.counter → Missing m0.disk i := by
    intro m0 h0 hle
    rcases (h0.inv p).disk with ⟨hd, -⟩ | ⟨s0, r0, ok0, -⟩
    · show getattr m0.disk i = _
      rw [show m0.disk = emptyDB from hd]; rfl
    · have hb : i < W64 := by have := ok.next_lt; omega
      refine (r0.missing ok0 hb).mpr ?_
      cases hx : s0.nodes i with
      | none => rfl
      | some nd =>
        have h2 := (ok0.bound _ _ hx).2
        have h3 : m0.disk.counter = s0.next := by
          have := r0.next; unfold DB.counter; rw [show m0.disk.next = some s0.next from this]; rfl
        omega
  exact ⟨key h (PRun.counter h hr), key hm (Nat.le_refl _)⟩

/-- C97: a process which opens the cache, whatever the others do meanwhile (they may have read transactions open),
changes nothing which exists and has a path. -/
theorem C97_open {m m' : PWorld} (h : PReach m) {q : Nat} {c : Call} {out : Out} (hc : (∃ u g now, c = .openInit u g now) ∨ c = .openClean) (hs : PStep m q c out m')
    {i : Ino} {b : Bytes} (hb : i < W64) (hx : ¬ Missing m.disk i) (hp : path m.disk i = .ok (.ok b)) :
    path m'.disk i = .ok (.ok b) ∧ getattr m'.disk i = getattr m.disk i ∧ readlink m'.disk i = readlink m.disk i ∧
      (∀ f, testFlag m'.disk i f = testFlag m.disk i f) ∧ ∀ n j, lookup m'.disk i n = .ok (.ok j) ↔ lookup m.disk i n = .ok (.ok j) := by
  obtain ⟨w, h1, rfl⟩ := hs.step
  have hi := GoodWF.inv (h.inv q)
  have hne : m.disk.next ≠ none := by
    rcases hi.disk with ⟨hd, -⟩ | ⟨s, r0, -⟩
    · refine absurd ?_ hx
      show getattr m.disk i = _
      rw [show m.disk = emptyDB from hd]; rfl
    · have := r0.next; rw [show m.disk.next = _ from this]; simp
  rcases hc with ⟨u, g, now, rfl⟩ | rfl
  · obtain ⟨-, rfl⟩ := step_openInit h1
    show path (initDB m.disk u g now) i = _ ∧ getattr (initDB m.disk u g now) i = _ ∧ readlink (initDB m.disk u g now) i = _ ∧
      (∀ f, testFlag (initDB m.disk u g now) i f = _) ∧ ∀ n j, lookup (initDB m.disk u g now) i n = _ ↔ _
    rw [initDB_some hne]
    exact ⟨hp, rfl, rfl, fun _ => rfl, fun _ _ => Iff.rfl⟩
  · obtain ⟨hph, d, r, hd, rfl⟩ := step_openClean h1
    obtain ⟨w', outs, e1, -, -, -, -, -, e2, -⟩ := reopen_inv hi hne 0 0 ⟨0, 0⟩
    have hrefs := (hi.down (by rw [hph]; simp)).2
    have hd' : openCleanDB m.disk Refs.empty = .ok (d, r) := by rw [← hrefs]; exact hd
    have hw : w'.disk = d := by
      have : (m.of q).run [.crash, .openInit 0 0 ⟨0, 0⟩, .openClean] = .ok (⟨.up, d, r, []⟩, [.unit (.ok ()), .unit (.ok ()), .unit (.ok ())]) := by
        simp [World.run, World.step, PWorld.of, initDB_some hne, hd']
      rw [this] at e1; cases e1; rfl
    have := e2 i b hb hp
    rw [hw] at this
    exact this

/-- C97, the full statement for locks: an object which some process has locked keeps working for it while other
processes use the cache, as it does when no other process is there (C25). -/
def C97_locks_full : Prop :=
  ∀ {m m' : PWorld}, PReach m → ∀ {p q : Nat} {c : Call} {out : Out}, Allowed (m.of q) c → Proper (m.of q) c → PStep m q c out m' → q ≠ p →
    ∀ {i : Ino}, i < W64 → 0 < (m.of p).locks i → ¬ Missing m.disk i → ¬ Missing m'.disk i

/-- C97, what holds of it: an object with a path survives everything except the commit of another process's write
transaction, and then it is still there if this transaction has not removed it. What is missing: a process
which opens the cache, or collects garbage, removes unlinked objects which others have locked. -/
theorem C97_locks_partial {m m' : PWorld} (h : PReach m) {q : Nat} {c : Call} {out : Out} (hs : PStep m q c out m')
    {i : Ino} {b : Bytes} (hb : i < W64) (hx : ¬ Missing m.disk i) (hp : path m.disk i = .ok (.ok b)) (hc : c = .commit → ¬ Missing (m.of q).db i) :
    ¬ Missing m'.disk i := by
  rcases C97_committed hs with h1 | ⟨h1, f, h2, h3, h4⟩ | h1 | h1
  · rw [h1]; exact hx
  · rw [h4]; exact hc h1
  · unfold Missing; rw [(C97_open h (.inl h1) hs hb hx hp).2.1]; exact hx
  · unfold Missing; rw [(C97_open h (.inr h1) hs hb hx hp).2.1]; exact hx

/-! ### Examples -/

/-- Processes in a list, for evaluation. -/
def toPW (d : DB) (l : List Proc) : PWorld := ⟨d, fun q => l.getD q ⟨.down, Refs.empty, []⟩⟩

/-- No process of the list but `p` writes. -/
def freeB (p : Nat) (l : List Proc) : Bool := (List.range l.length).all fun q => q == p || (l.getD q ⟨.down, Refs.empty, []⟩).stack.all Frame.ro

/-- Runs calls of the processes, provided that all are allowed, proper and need not wait. -/
def demoPW (d : DB) (l : List Proc) : List (Nat × Call) → Option (DB × List Proc)
  | [] => some (d, l)
  | (p, c) :: cs =>
    let w := (toPW d l).of p
    if p < l.length ∧ allowedB w c = true ∧ properB w c = true ∧ (c.writes = true → freeB p l = true) then
      match w.step c with
      | .ok (w', _) => demoPW w'.disk (l.set p ⟨w'.phase, w'.refs, w'.stack⟩) cs
      | .error _ => none
    else none

theorem freeB_ok {p : Nat} {d : DB} {l : List Proc} (h : freeB p l = true) : (toPW d l).free p := by
  intro q hq f hf
  by_cases hl : q < l.length
  · have := List.all_eq_true.mp h q (List.mem_range.mpr hl)
    simp only [Bool.or_eq_true, beq_iff_eq, hq, false_or] at this
    exact List.all_eq_true.mp this f hf
  · have : (toPW d l).proc q = ⟨.down, Refs.empty, []⟩ := by
      show l.getD q _ = _
      rw [List.getD_eq_getElem?_getD, List.getElem?_eq_none (by omega)]; rfl
    rw [this] at hf; cases hf

theorem toPW_after {p : Nat} {d : DB} {l : List Proc} (w : World) (hp : p < l.length) :
    (toPW d l).after p w = toPW w.disk (l.set p ⟨w.phase, w.refs, w.stack⟩) := by
  unfold toPW PWorld.after
  congr 1
  funext q
  by_cases hq : q = p
  · subst hq
    simp [List.getD_eq_getElem?_getD, hp]
  · simp only [hq, if_false, List.getD_eq_getElem?_getD]
    rw [List.getElem?_set_ne (Ne.symm hq)]

theorem demoPW_run {cs : List (Nat × Call)} : ∀ {m : PWorld} {d : DB} {l : List Proc} {d' l'}, PRun m (toPW d l) → demoPW d l cs = some (d', l') → PRun m (toPW d' l') := by
  induction cs with
  | nil => intro m d l d' l' h hd; cases hd; exact h
  | cons x cs ih =>
    intro m d l d' l' h hd
    obtain ⟨p, c⟩ := x
    unfold demoPW at hd
    by_cases hc : p < l.length ∧ allowedB ((toPW d l).of p) c = true ∧ properB ((toPW d l).of p) c = true ∧ (c.writes = true → freeB p l = true)
    · simp only [if_pos hc] at hd
      cases hs : ((toPW d l).of p).step c with
      | error e => rw [hs] at hd; cases hd
      | ok v =>
        obtain ⟨w', o⟩ := v
        rw [hs] at hd
        refine ih (.step (out := o) h (allowedB_iff hc.2.1) (properB_iff hc.2.2.1) ⟨fun hw => freeB_ok (hc.2.2.2 hw), w', hs, ?_⟩) hd
        exact (toPW_after w' hc.1).symm
    · simp only [if_neg hc] at hd; cases hd

/-- Two processes which have not been started. -/
def twoProcs : List Proc := [⟨.down, Refs.empty, []⟩, ⟨.down, Refs.empty, []⟩]

theorem start_two : PWorld.start = toPW emptyDB twoProcs := by
  unfold PWorld.start toPW
  congr 1
  funext q
  match q with
  | 0 => rfl
  | 1 => rfl
  | q + 2 => rfl

theorem demoPW_reach {cs : List (Nat × Call)} {d : DB} {l : List Proc} (h : demoPW emptyDB twoProcs cs = some (d, l)) : PReach (toPW d l) := by
  refine demoPW_run ?_ h
  rw [start_two]; exact .refl

/-- Two histories, one after the other. -/
theorem demoPW_ex {cs cs' : List (Nat × Call)} {P : PWorld → PWorld → Prop} [∀ a b, Decidable (P a b)]
    (h : (match demoPW emptyDB twoProcs cs with
      | some (d, l) => (match demoPW d l cs' with | some (d', l') => decide (P (toPW d l) (toPW d' l')) | none => false)
      | none => false) = true) : ∃ m m', PReach m ∧ PRun m m' ∧ P m m' := by
  split at h
  · rename_i d l hd
    split at h
    · rename_i d' l' hd'
      exact ⟨_, _, demoPW_reach hd, demoPW_run .refl hd', by simpa using h⟩
    · cases h
  · cases h

/-- One call after a history. -/
theorem demoPW_step {cs : List (Nat × Call)} {q : Nat} {c : Call} {out : Out} {P : PWorld → PWorld → Prop} [∀ a b, Decidable (P a b)]
    (h : (match demoPW emptyDB twoProcs cs with
      | some (d, l) => decide (q < l.length) && allowedB ((toPW d l).of q) c && properB ((toPW d l).of q) c && (!c.writes || freeB q l) &&
          (match ((toPW d l).of q).step c with
            | .ok (w, o) => decide (o = out) && decide (P (toPW d l) (toPW w.disk (l.set q ⟨w.phase, w.refs, w.stack⟩)))
            | .error _ => false)
      | none => false) = true) :
    ∃ m m', PReach m ∧ Allowed (m.of q) c ∧ Proper (m.of q) c ∧ PStep m q c out m' ∧ P m m' := by
  split at h
  · rename_i d l hd
    simp only [Bool.and_eq_true, Bool.or_eq_true, decide_eq_true_eq] at h
    obtain ⟨⟨⟨⟨h1, h2⟩, h3⟩, h4⟩, h5⟩ := h
    split at h5
    · rename_i w o hs
      simp only [Bool.and_eq_true, decide_eq_true_eq] at h5
      obtain ⟨rfl, h6⟩ := h5
      refine ⟨_, _, demoPW_reach hd, allowedB_iff h2, properB_iff h3, ⟨fun hw => freeB_ok ?_, w, hs, (toPW_after w h1).symm⟩, h6⟩
      rw [hw] at h4; simpa using h4
    · cases h5
  · cases h

/-- Process `p` opens the cache. -/
def popen (p : Nat) : List (Nat × Call) := opened.map fun c => (p, c)

/-- Process 0 has created `a` (2), looked it up, and then it was unlinked. -/
def heldOrphan : List (Nat × Call) := popen 0 ++
  [(0, .beginRW), (0, .op (.emplace 1 "a".toUTF8.toList (fileA 1))), (0, .op (.lock 2)), (0, .commit), (0, .beginRW), (0, .op (.unlinkIno 2)), (0, .commit)]

/-- C97: the full statement fails: process 0 has an object open which was unlinked (as the kernel does with a file it
still knows); when a second process opens the cache, the object is removed. -/
theorem C97_locks_counterexample : ¬ C97_locks_full := by
  intro hf
  obtain ⟨m, m', h1, h2, h3, h4, h5, h6, h7⟩ := demoPW_step (cs := heldOrphan ++ [(1, .openInit 0 0 ⟨0, 0⟩)]) (q := 1) (c := .openClean) (out := .unit (.ok ()))
    (P := fun m m' => (m.of 0).locks 2 = 1 ∧ getattr m.disk 2 = .ok (2, fileA 1) ∧ getattr m'.disk 2 = .error ENOENT) (by decide +kernel)
  refine hf h1 h2 h3 h4 (p := 0) (by decide) (i := 2) (by decide) (by rw [h5]; decide) ?_ h7
  unfold Missing; rw [h6]; simp

/-- C97: and it fails when another process unlinks an object which is locked by nobody there. -/
theorem C97_unlink_counterexample : ∃ m m', PReach m ∧ Allowed (m.of 1) .commit ∧ Proper (m.of 1) .commit ∧ PStep m 1 .commit (.unit (.ok ())) m' ∧
    (m.of 0).locks 2 = 1 ∧ getattr m.disk 2 = .ok (2, fileA 1) ∧ getattr m'.disk 2 = .error ENOENT :=
  demoPW_step (cs := popen 0 ++ [(0, .beginRW), (0, .op (.emplace 1 "a".toUTF8.toList (fileA 1))), (0, .op (.lock 2)), (0, .commit)] ++ popen 1 ++
    [(1, .beginRW), (1, .op (.unlinkIno 2))]) (by decide +kernel)

/-- The hypotheses of `C97_numbers`: process 0 creates `a` (2) and unlinks it; process 1 creates `a` again and gets 3. Process 0
has a read transaction open meanwhile (`C97_snapshot`, `C97_begin`, `C97_consistent`). -/
example : ∃ m m', PReach m ∧ Allowed (m.of 1) (.op (.emplace 1 "a".toUTF8.toList dirA)) ∧ Proper (m.of 1) (.op (.emplace 1 "a".toUTF8.toList dirA)) ∧
    PStep m 1 (.op (.emplace 1 "a".toUTF8.toList dirA)) (.ino (.ok 3)) m' ∧
    (lookup (m.of 1).db 1 "a".toUTF8.toList = .ok (.error ENOENT) ∧ lookup (m'.of 1).db 1 "a".toUTF8.toList = .ok (.ok 3) ∧
      lookup (m'.of 0).db 1 "a".toUTF8.toList = .ok (.ok 2) ∧ lookup m'.disk 1 "a".toUTF8.toList = .ok (.error ENOENT)) :=
  demoPW_step (cs := popen 0 ++ popen 1 ++ [(1, .beginRW), (1, .op (.emplace 1 "a".toUTF8.toList (fileA 1))), (1, .commit), (0, .beginRO),
    (1, .beginRW), (1, .op (.unlinkIno 2)), (1, .commit), (1, .beginRW)]) (by decide +kernel)

/-- The hypotheses of `C97_open` and `C97_locks_partial`: process 1 opens the cache while process 0 has a read transaction open
and files 2 and 3, of which 3 is unlinked and still locked. -/
example : ∃ m m', PReach m ∧ Allowed (m.of 1) .openClean ∧ Proper (m.of 1) .openClean ∧ PStep m 1 .openClean (.unit (.ok ())) m' ∧
    (path m.disk 2 = .ok (.ok "/a".toUTF8.toList) ∧ getattr m.disk 2 = .ok (2, fileA 1) ∧ getattr m'.disk 2 = .ok (2, fileA 1) ∧
      getattr m'.disk 3 = .error ENOENT ∧ getattr (m'.of 0).db 3 = .ok (3, dirA)) :=
  demoPW_step (cs := popen 0 ++ [(0, .beginRW), (0, .op (.emplace 1 "a".toUTF8.toList (fileA 1))), (0, .op (.emplace 1 "b".toUTF8.toList dirA)), (0, .op (.lock 3)), (0, .commit),
    (0, .beginRW), (0, .op (.unlinkIno 3)), (0, .commit), (0, .beginRO), (1, .openInit 0 0 ⟨0, 0⟩)]) (by decide +kernel)

/-- The hypotheses of `C97_no_lost_update`: process 0 writes, process 1 commits a read transaction. -/
example : ∃ m m', PReach m ∧ Allowed (m.of 1) .commit ∧ Proper (m.of 1) .commit ∧ PStep m 1 .commit (.unit (.ok ())) m' ∧
    (((m.of 0).stack.map Frame.ro) = [false] ∧ lookup (m.of 0).db 1 "a".toUTF8.toList = .ok (.ok 2) ∧ lookup (m.of 1).db 1 "a".toUTF8.toList = .ok (.error ENOENT)) :=
  demoPW_step (cs := popen 0 ++ popen 1 ++ [(1, .beginRO), (0, .beginRW), (0, .op (.emplace 1 "a".toUTF8.toList (fileA 1)))]) (by decide +kernel)

end Dragonstash.Cache
