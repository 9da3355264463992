/-
  C20, C31, C32: inode numbers over the whole history, aborted transactions, crashes and reopening.
-/
import Verif.Cache.Steps
import Verif.Props.CacheOps
namespace Dragonstash.Cache
open Codec

/-! ### C20 -/

/-- A record of the inode numbers which `emplace` returned for new entries: those of committed
transactions, and those of each open transaction (innermost first). -/
structure Ledger where
  committed : List Ino
  pending : List (List Ino)

/-- How a call (in world `w`, with result `out`) changes the record: a number returned by `emplace`
is new unless the name already had this inode; a commit hands the numbers on to the enclosing
transaction or makes them permanent; an abort, a dropped transaction or a crash forgets them. -/
def Ledger.note (l : Ledger) (w : World) (c : Call) (out : Out) : Ledger :=
  match c with
  | .beginRO | .beginRW | .nested => { l with pending := [] :: l.pending }
  | .op (.emplace p n _) => match out, l.pending with
    | .ino (.ok i), x :: xs => if lookup w.db p n = .ok (.ok i) then l else { l with pending := (i :: x) :: xs }
    | _, _ => l
  | .commit => match l.pending with
    | [] => l
    | [x] => ⟨x ++ l.committed, []⟩
    | x :: y :: ys => { l with pending := (x ++ y) :: ys }
  | .abort | .drop => { l with pending := l.pending.tail }
  | .crash => { l with pending := [] }
  | _ => l

/-- Histories, including reopening, with the record of new numbers. -/
inductive History : World → Ledger → Prop
  | init : History World.init ⟨[], []⟩
  | step {w l c w' out} : History w l → Allowed w c → w.step c = .ok (w', out) → History w' (l.note w c out)

theorem History.reach {w l} (h : History w l) : Reach w := by
  induction h with
  | init => exact .init
  | step _ h1 h2 ih => exact .step ih h1 h2

/-- Every reachable world has a history. -/
theorem Reach.history {w} (h : Reach w) : ∃ l, History w l := by
  induction h with
  | init => exact ⟨_, .init⟩
  | step _ h1 h2 ih => obtain ⟨l, ih⟩ := ih; exact ⟨_, .step ih h1 h2⟩

/-- Numbers `l` were given out when the databases are `d`. -/
structure LedAt (d : DB) (l : List Ino) : Prop where
  nodup : l.Nodup
  range : ∀ i ∈ l, 2 ≤ i ∧ ∃ n, d.next = some n ∧ i < n
  all : ∀ i, i < W64 → ¬ Missing d i → i = 1 ∨ i ∈ l

def Led (com : List Ino) (disk : DB) : List Frame → List (List Ino) → Prop
  | [], [] => LedAt disk com
  | f :: r, x :: xs => LedAt f.db (x ++ (xs.flatten ++ com)) ∧ Led com disk r xs
  | _, _ => False

theorem Led.disk {com : List Ino} {disk : DB} : ∀ {fs : List Frame} {xs}, Led com disk fs xs → LedAt disk com
  | [], [], h => h
  | _ :: _, _ :: _, h => Led.disk h.2

theorem LedAt.op {w w' : World} {o : Op} {out : Out} (h : Reach w) (ha : Allowed w (.op o)) (hs : w.step (.op o) = .ok (w', out))
    {l : List Ino} (hl : LedAt w.db l) :
    (LedAt w'.db l ∧ ∀ p n a i, o = .emplace p n a → out = .ino (.ok i) → lookup w.db p n = .ok (.ok i)) ∨
    ∃ p n a i, o = .emplace p n a ∧ out = .ino (.ok i) ∧ lookup w.db p n ≠ .ok (.ok i) ∧ LedAt w'.db (i :: l) := by
  obtain ⟨s, t, s', t', h1, ok, h1', ok', sh, hr, -, o1⟩ := h.op' ha hs
  have hnext : ∀ i, (∃ n, w.db.next = some n ∧ i < n) ↔ i < s.next := by
    intro i; rw [h1.next]; simp
  have hnext' : ∀ i, (∃ n, w'.db.next = some n ∧ i < n) ↔ i < s'.next := by
    intro i; rw [h1'.next]; simp
  have hmono := sh.next
  by_cases hnew : ∃ p n a i, o = .emplace p n a ∧ out = .ino (.ok i) ∧ lookup w.db p n ≠ .ok (.ok i)
  · obtain ⟨p, n, a, i, rfl, rfl, hlk⟩ := hnew
    refine .inr ⟨p, n, a, i, rfl, rfl, hlk, ?_⟩
    have hi : i = s.next ∧ s'.next = s.next + 1 := by
      rcases sh.emplace_inv with ⟨x, e1, e2, e3, -⟩ | ⟨-, e, -, e2⟩ | ⟨-, e, j, nd, -, -, -, e2⟩
      · exact absurd (h1.lookup_found ok ⟨x, e1, e2⟩) hlk
      · exact ⟨e, e2.coll.next⟩
      · exact ⟨e, e2.coll.next⟩
    obtain ⟨rfl, hn'⟩ := hi
    refine ⟨List.nodup_cons.mpr ⟨fun hm => ?_, hl.nodup⟩, ?_, ?_⟩
    · have := (hnext _).mp (hl.range _ hm).2; omega
    · intro i hi
      rw [hnext', hn']
      rcases List.mem_cons.mp hi with rfl | hi
      · exact ⟨ok.next_ge, by omega⟩
      · have := hl.range i hi; have := (hnext i).mp this.2; exact ⟨(hl.range i hi).1, by omega⟩
    · intro i hb hx
      rw [h1'.missing ok' hb] at hx
      cases hi' : s'.nodes i with
      | none => exact absurd hi' hx
      | some nd =>
        cases hi : s.nodes i with
        | none => obtain ⟨p, n, a, -, -, e, -⟩ := sh.created hi' hi; exact .inr (by simp [e])
        | some nd0 =>
          rcases hl.all i hb (by rw [h1.missing ok hb, hi]; simp) with h | h
          · exact .inl h
          · exact .inr (by simp [h])
  · refine .inl ⟨⟨hl.nodup, ?_, ?_⟩, ?_⟩
    · intro i hi
      rw [hnext']
      have := hl.range i hi; have := (hnext i).mp this.2; exact ⟨(hl.range i hi).1, by omega⟩
    · intro i hb hx
      rw [h1'.missing ok' hb] at hx
      cases hi' : s'.nodes i with
      | none => exact absurd hi' hx
      | some nd =>
        cases hi : s.nodes i with
        | none =>
          obtain ⟨p, n, a, e1, e2, e3, -⟩ := sh.created hi' hi
          refine absurd ⟨p, n, a, i, e1, e2, fun hlk => ?_⟩ hnew
          have hp : p < W64 := by have := o1.range; rw [e1] at this; exact this
          obtain ⟨x, e4, -⟩ := (h1.lookup_iff ok hp).mp hlk
          rw [hi] at e4; cases e4
        | some nd0 => exact hl.all i hb (by rw [h1.missing ok hb, hi]; simp)
    · intro p n a i e1 e2
      exact Classical.byContradiction fun hc => hnew ⟨p, n, a, i, e1, e2, hc⟩

theorem note_op_ne {l : Ledger} {w : World} {o : Op} {out : Out} (h : ∀ p n a i, o = .emplace p n a → out = .ino (.ok i) → lookup w.db p n = .ok (.ok i)) :
    l.note w (.op o) out = l := by
  unfold Ledger.note
  cases o with
  | emplace p n a =>
    simp only
    split
    · rename_i i x xs hp; rw [if_pos (h p n a i rfl rfl)]
    · rfl
  | _ => rfl

theorem initDB_some {d : DB} {u g : Nat} {now : Timespec} (h : d.next ≠ none) : initDB d u g now = d := by
  unfold initDB; cases hn : d.next with
  | none => exact absurd hn h
  | some n => rfl

theorem initDB_exists {u g : Nat} {now : Timespec} {i : Ino} (hb : i < W64) (h : ¬ Missing (initDB emptyDB u g now) i) : i = 1 := by
  refine Classical.byContradiction fun hi => h ?_
  unfold Missing Cache.getattr
  have : (initDB emptyDB u g now).inodes.find (key8 i) = none := by
    show (Tab.empty.put (key8 ROOT) _).find _ = _
    rw [Tab.find_put]
    rw [if_neg]
    · rfl
    · intro he; exact hi (((key8_inj (by decide) hb).mp he).symm)
  rw [this]

theorem History.led {w l} (h : History w l) : Led l.committed w.disk w.stack l.pending := by
  induction h with
  | init =>
    refine ⟨List.nodup_nil, by simp, ?_⟩
    intro i _ hm; exact absurd rfl hm
  | @step w l c w' out hw ha hs ih =>
    have hR := hw.reach
    cases c with
    | crash =>
      simp only [World.step] at hs; cases hs
      exact ih.disk
    | openInit u g now =>
      obtain ⟨hp, rfl⟩ := step_openInit hs
      have hst := (hR.inv.down (by rw [hp]; simp)).1
      show Led l.committed (initDB w.disk u g now) w.stack l.pending
      rw [hst] at ih ⊢
      cases hpd : l.pending with
      | cons x xs => rw [hpd] at ih; exact ih.elim
      | nil =>
        have ih := ih.disk
        rcases hR.inv.disk with ⟨hd, -⟩ | hg
        · rw [hd] at ih ⊢
          refine ⟨ih.nodup, ?_, ?_⟩
          · intro i hi; obtain ⟨-, n, hn, -⟩ := ih.range i hi; cases hn
          · intro i hb hm; exact .inl (initDB_exists hb hm)
        · obtain ⟨n, hn⟩ := hg.next
          rw [initDB_some (by rw [hn]; simp)]; exact ih
    | openClean =>
      obtain ⟨hp, d, r, hc, rfl⟩ := step_openClean hs
      have hst := (hR.inv.down (by rw [hp]; simp)).1
      show Led l.committed d w.stack l.pending
      rw [hst] at ih ⊢
      cases hpd : l.pending with
      | cons x xs => rw [hpd] at ih; exact ih.elim
      | nil =>
        have ih := ih.disk
        rcases hR.inv.disk with ⟨-, h2⟩ | ⟨s, h1, ok⟩
        · rw [hp] at h2; cases h2
        · obtain ⟨s1, s2, d', r1, r', e1, e2, e3, e4, e5, -, e6, -⟩ := openClean_spec h1 ok w.refs
          rw [e1] at hc; cases hc
          refine ⟨ih.nodup, ?_, ?_⟩
          · intro i hi
            rw [e2.next, e6.next, e5.next, ← h1.next]; exact ih.range i hi
          · intro i hb hm
            rw [e2.missing e4 hb] at hm
            cases hi : s2.nodes i with
            | none => exact absurd hi hm
            | some nd =>
              obtain ⟨-, x, g1, -⟩ := e6.back hi
              obtain ⟨-, y, g2, -⟩ := e5.back g1
              exact ih.all i hb (by rw [h1.missing ok hb, g2]; simp)
    | beginRO =>
      obtain ⟨hst, -, rfl⟩ := step_begin (.inl rfl) hs
      rw [hst] at ih
      cases hpd : l.pending with
      | cons x xs => rw [hpd] at ih; exact ih.elim
      | nil => simp only [Ledger.note, hpd]; rw [hpd] at ih; exact ⟨ih, ih⟩
    | beginRW =>
      obtain ⟨hst, -, rfl⟩ := step_begin (.inr rfl) hs
      rw [hst] at ih
      cases hpd : l.pending with
      | cons x xs => rw [hpd] at ih; exact ih.elim
      | nil => simp only [Ledger.note, hpd]; rw [hpd] at ih; exact ⟨ih, ih⟩
    | nested =>
      obtain ⟨f, r, hst, -, rfl⟩ := step_nested hs
      rw [hst] at ih
      cases hpd : l.pending with
      | nil => rw [hpd] at ih; exact ih.elim
      | cons x xs =>
        simp only [Ledger.note, hpd]; rw [hpd] at ih
        exact ⟨by simpa using ih.1, ih⟩
    | op o =>
      obtain ⟨f, r, t, hst, -, -, hw'⟩ := step_op hs
      have hdb : w.db = f.db := by simp [World.db, hst]
      have hst' : w'.stack = ⟨t.db, t.rewrite, t.hooks, f.ro⟩ :: r := by rw [hw']
      have hdb' : w'.db = t.db := by simp [World.db, hst']
      have hdk : w'.disk = w.disk := by rw [hw']
      rw [hst] at ih
      cases hpd : l.pending with
      | nil => rw [hpd] at ih; exact ih.elim
      | cons x xs =>
        rw [hpd] at ih
        rcases LedAt.op hR ha hs (by rw [hdb]; exact ih.1) with ⟨g1, g2⟩ | ⟨p, n, a, i, rfl, rfl, g3, g4⟩
        · rw [note_op_ne g2, hst', hpd, hdk]
          exact ⟨by rw [hdb'] at g1; exact g1, ih.2⟩
        · rw [hst', hdk]
          simp only [Ledger.note, hpd, if_neg g3]
          exact ⟨by rw [hdb'] at g4; exact g4, ih.2⟩
    | commit =>
      simp only [World.step] at hs
      split at hs
      · cases hs
      · rename_i f hst
        cases hs
        rw [hst] at ih
        cases hpd : l.pending with
        | nil => rw [hpd] at ih; exact ih.elim
        | cons x xs =>
          rw [hpd] at ih
          cases xs with
          | cons y ys => exact ih.2.elim
          | nil =>
            simp only [Ledger.note, hpd]
            have h1 := ih.1
            simp only [List.flatten_nil, List.nil_append] at h1
            show LedAt _ _
            split
            · rename_i hro
              rw [← (hR.ro f (by rw [hst]; simp) hro).2]; exact h1
            · exact h1
      · rename_i f g r hst
        cases hs
        rw [hst] at ih
        cases hpd : l.pending with
        | nil => rw [hpd] at ih; exact ih.elim
        | cons x xs =>
          rw [hpd] at ih
          cases xs with
          | nil => exact ih.2.elim
          | cons y ys =>
            simp only [Ledger.note, hpd]
            refine ⟨?_, ih.2.2⟩
            have h1 := ih.1
            simpa [List.append_assoc] using h1
    | abort =>
      obtain ⟨f, r, refs, hst, -, rfl, -⟩ := step_abort hs
      rw [hst] at ih
      cases hpd : l.pending with
      | nil => rw [hpd] at ih; exact ih.elim
      | cons x xs => rw [hpd] at ih; simp only [Ledger.note, hpd]; exact ih.2
    | drop =>
      simp only [World.step] at hs
      split at hs
      · cases hs
      · rename_i f r hst
        cases hs
        rw [hst] at ih
        cases hpd : l.pending with
        | nil => rw [hpd] at ih; exact ih.elim
        | cons x xs => rw [hpd] at ih; simp only [Ledger.note, hpd]; exact ih.2

/-- C20: no number is given out twice, in committed history or in the transactions which are open,
and 0 and 1 never are. -/
theorem C20_never_reused {w : World} {l : Ledger} (h : History w l) :
    (l.pending.flatten ++ l.committed).Nodup ∧ ∀ i ∈ l.pending.flatten ++ l.committed, 2 ≤ i ∧ i < W64 := by
  have hl := h.led
  have key : ∀ {d : DB} {L : List Ino}, LedAt d L → d = w.disk ∨ (∃ f ∈ w.stack, d = f.db) → L.Nodup ∧ ∀ i ∈ L, 2 ≤ i ∧ i < W64 := by
    intro d L hL hd
    refine ⟨hL.nodup, fun i hi => ?_⟩
    obtain ⟨h2, n, hn, hlt⟩ := hL.range i hi
    refine ⟨h2, ?_⟩
    have good : (d = emptyDB ∨ Good d) := by
      rcases hd with rfl | ⟨f, hf, rfl⟩
      · exact h.reach.inv.disk.imp (fun h => h.1) id
      · exact .inr (h.reach.inv.frames f hf).1
    rcases good with rfl | ⟨s, g1, ok⟩
    · cases hn
    · rw [g1.next] at hn; cases hn; have := ok.next_lt; omega
  cases hs : w.stack with
  | nil =>
    rw [hs] at hl
    cases hp : l.pending with
    | nil => rw [hp] at hl; exact key hl (.inl rfl)
    | cons x xs => rw [hp] at hl; exact hl.elim
  | cons f r =>
    rw [hs] at hl
    cases hp : l.pending with
    | nil => rw [hp] at hl; exact hl.elim
    | cons x xs =>
      rw [hp] at hl
      have := key hl.1 (.inr ⟨f, by rw [hs]; simp, rfl⟩)
      simpa [List.append_assoc] using this

/-- C20: the record is complete: every inode a transaction can see is the root, or its number was
given out by a committed transaction or by one of the open ones. -/
theorem C20_complete {w : World} {l : Ledger} (h : History w l) {i : Ino} (hb : i < W64) :
    (¬ Missing w.disk i → i = 1 ∨ i ∈ l.committed) ∧ (¬ Missing w.db i → i = 1 ∨ i ∈ l.pending.flatten ++ l.committed) := by
  have hl := h.led
  refine ⟨fun hm => hl.disk.all i hb hm, fun hm => ?_⟩
  unfold World.db at hm
  cases hs : w.stack with
  | nil =>
    rw [hs] at hl hm
    cases hp : l.pending with
    | nil => rw [hp] at hl; exact Led.disk (xs := []) hl |>.all i hb hm
    | cons x xs => rw [hp] at hl; exact hl.elim
  | cons f r =>
    rw [hs] at hl hm
    cases hp : l.pending with
    | nil => rw [hp] at hl; exact hl.elim
    | cons x xs =>
      rw [hp] at hl
      have := hl.1.all i hb hm
      simpa [List.append_assoc] using this

/-- C20: in particular a new number differs from all numbers given out before (unless they were
rolled back), also when the entry has been removed in the meantime. -/
theorem C20_step {w w' : World} {l : Ledger} (h : History w l) {p : Ino} {n : Bytes} {a : Attrs} {i : Ino}
    (ha : Allowed w (.op (.emplace p n a))) (hs : w.step (.op (.emplace p n a)) = .ok (w', .ino (.ok i)))
    (hn : lookup w.db p n ≠ .ok (.ok i)) : i ∉ l.pending.flatten ∧ i ∉ l.committed ∧ i ≠ 0 ∧ i ≠ 1 := by
  obtain ⟨h1, h2⟩ := C20_never_reused (h.step ha hs)
  have hl := h.led
  obtain ⟨f, r, t, hst, -⟩ := step_op hs
  rw [hst] at hl
  cases hp : l.pending with
  | nil => rw [hp] at hl; exact hl.elim
  | cons x xs =>
    simp only [Ledger.note, hp, if_neg hn, List.flatten_cons, List.cons_append] at h1 h2
    rw [List.nodup_cons] at h1
    have h2 := h2 i (by simp)
    simp only [List.mem_append, not_or, List.flatten_cons] at h1 ⊢
    refine ⟨⟨h1.1.1.1, h1.1.1.2⟩, h1.1.2, by omega, by omega⟩

/-- Numbers 2 and 3 are committed; 4 is given out in a nested transaction. Inode 2 is removed. -/
def demoHist : List Call := opened ++ [.beginRW, .op (.emplace 1 "a".toUTF8.toList dirA), .op (.emplace 2 "b".toUTF8.toList (fileA 1)), .commit,
  .crash] ++ opened ++ [.beginRW, .op (.unlinkIno 2), .nested]

/-- Runs calls with the record (for examples only). -/
def demoL (w : World) (l : Ledger) : List Call → Option (World × Ledger)
  | [] => some (w, l)
  | c :: cs => if allowedB w c then
      match w.step c with
      | .ok (w', out) => demoL w' (l.note w c out) cs
      | .error _ => none
    else none

theorem demoL_hist {cs : List Call} : ∀ {w w' : World} {l l'}, History w l → demoL w l cs = some (w', l') → History w' l' := by
  induction cs with
  | nil => intro w w' l l' h hd; cases hd; exact h
  | cons c cs ih =>
    intro w w' l l' h hd
    unfold demoL at hd
    split at hd
    · rename_i hc
      split at hd
      · rename_i w1 o hs; exact ih (.step h (allowedB_iff hc) hs) hd
      · cases hd
    · cases hd

theorem demoL_ex {cs : List Call} {P : World × Ledger → Prop} [DecidablePred P]
    (h : (match demoL World.init ⟨[], []⟩ cs with | some x => decide (P x) | none => false) = true) : ∃ w l, History w l ∧ P (w, l) := by
  split at h
  · rename_i x hx; exact ⟨x.1, x.2, demoL_hist .init hx, by simpa using h⟩
  · cases h

/-- A history for `C20_never_reused`, `C20_complete` and `C20_step`: objects were created in an earlier run of the
program, then 2 is unlinked (and removed), and in a nested transaction a new object gets the same
name and a new inode number. -/
example : ∃ w l, History w l ∧ l.committed = [3, 2] ∧ l.pending = [[4], []] ∧ getattr w.db 2 = .error ENOENT ∧
    (w.run [.commit, .op (.emplace 1 "c".toUTF8.toList dirA)]).map Prod.snd = .ok [.unit (.ok ()), .ino (.ok 5)] :=
  demoL_ex (cs := demoHist ++ [.op (.emplace 1 "a".toUTF8.toList dirA)])
    (P := fun x => x.2.committed = [3, 2] ∧ x.2.pending = [[4], []] ∧ getattr x.1.db 2 = .error ENOENT ∧
    (x.1.run [.commit, .op (.emplace 1 "c".toUTF8.toList dirA)]).map Prod.snd = .ok [.unit (.ok ()), .ino (.ok 5)]) (by decide +kernel)

/-! ### C31 -/

/-- `lock` of inode `i` is refused with ESTALE. -/
def World.stale (w : World) (i : Ino) : Prop := ∀ t : Txn, t.refs = w.refs → (lock t i).2 = .error ESTALE

/-- The calls of a transaction which is open at the beginning: operations, and nested transactions
which are committed or aborted. -/
inductive Body : World → World → Prop
  | nil {w} : Body w w
  | op {w w1 w2 o out} : Body w w1 → Allowed w1 (.op o) → w1.step (.op o) = .ok (w2, out) → Body w w2
  | sub {w w1 w2 w3 w4 c o1 o2} : Body w w1 → w1.step .nested = .ok (w2, o1) → Body w2 w3 → (c = .commit ∨ c = .abort) →
      w3.step c = .ok (w4, o2) → Body w w4

/-- `c` begins a transaction. -/
def Begins (c : Call) : Prop := c = .beginRO ∨ c = .beginRW ∨ c = .nested

/-- C31 in full. It does not hold, see the counterexamples. -/
def AbortLeavesNoTrace : Prop :=
  ∀ w0 w1 w2 c o1, Reach w0 → Begins c → w0.step c = .ok (w1, o1) → Body w1 w2 →
    ∃ w3 o3, w2.step .abort = .ok (w3, o3) ∧ w3.stack = w0.stack ∧ w3.disk = w0.disk ∧ w3.db = w0.db ∧ w3.locks = w0.locks ∧
      ∀ i, w3.stale i ↔ w0.stale i

theorem stale_iff {w : World} {i : Ino} : w.stale i ↔ (w.refs i).doomed = true := by
  constructor
  · intro h
    have := h ⟨emptyDB, w.refs, none, []⟩ rfl
    unfold Cache.lock Refs.incref at this
    split at this <;> rename_i heq <;> split at heq <;> cases heq <;> first | assumption | cases this
  · intro h t ht
    unfold Cache.lock Refs.incref
    rw [ht, if_pos h]

theorem Body.reach {w w' : World} (hb : Body w w') : Reach w → Reach w' := by
  induction hb with
  | nil => exact id
  | op _ h1 h2 ih => exact fun h => .step (ih h) h1 h2
  | sub _ h1 _ h3 h4 ih1 ih2 =>
    intro h
    refine .step (ih2 (.step (c := .nested) (ih1 h) trivial h1)) ?_ h4
    rcases h3 with rfl | rfl <;> trivial

/-- What a transaction body does. -/
theorem Body.spec {w w' : World} (hb : Body w w') : Reach w → ∀ {f r}, w.stack = f :: r →
    ∃ f' hs, w'.stack = f' :: r ∧ w'.disk = w.disk ∧ w'.phase = w.phase ∧ f'.ro = f.ro ∧ f'.hooks = f.hooks ++ hs ∧
      Fwd w.locks hs w'.locks ∧ (∀ i, (w.refs i).doomed = true → (w'.refs i).doomed = true) ∧
      (∀ i n, Undo.relock i n ∈ hs → (w.refs i).doomed = false) ∧
      (f.ro = true → ∀ i, (w'.refs i).doomed = (w.refs i).doomed) := by
  induction hb with
  | nil => intro _ f r h; exact ⟨f, [], h, rfl, rfl, rfl, by simp, .nil, fun _ h => h, by simp, fun _ _ => rfl⟩
  | @op w w1 w2 o out hb ha hs ih =>
    intro hR f r hst
    obtain ⟨f1, hs1, e1, e2, e3, e4, e5, e6, e7, e8, e9⟩ := ih hR hst
    have hR1 := hb.reach hR
    obtain ⟨f', r', t', g1, g2, g3, rfl⟩ := step_op hs
    rw [e1] at g1; cases g1
    obtain ⟨⟨s, h1, ok⟩, hrw⟩ := hR1.inv.frames f1 (by rw [e1]; simp)
    have ha2 := ha.2 f1 r e1
    have hemp : ∀ p n a, o = .emplace p n a → p ≠ 0 ∧ s.next + 1 < W64 := by
      rintro p n a rfl; simp only at ha2; exact ⟨ha2.1, ha2.2 _ h1.next⟩
    have rok := hR1.refsOK
    rcases doOp_hooks (t := f1.txn w1.refs) ⟨h1, ok⟩ ha.1 hrw hemp g3 with ⟨k1, k2, k3⟩ | ⟨i, rfl, k1, k2, k3⟩ | ⟨i, n, rfl, k1, k2, k3, k4⟩
    · refine ⟨_, hs1, rfl, e2, e3, e4, ?_, ?_, fun i hi => k3 i (e7 i hi), e8, ?_⟩
      · show t'.hooks = _; rw [k1]; exact e5
      · have : World.locks { w1 with refs := t'.refs, stack := ⟨t'.db, t'.rewrite, t'.hooks, f1.ro⟩ :: r } = w1.locks := by
          funext i; exact k2 i
        rw [this]; exact e6
      · intro hro i
        rw [← e9 hro i]
        show (t'.refs i).doomed = _
        rw [e4, hro] at g2
        have hro' : o.isRO = true := by simpa using g2
        have : t'.refs = w1.refs ∨ (∃ j, o = .lock j) ∨ ∃ j n, o = .release j n := by
          obtain ⟨s', -, sh⟩ := doOp_shape (t := f1.txn w1.refs) ⟨h1, ok⟩ ha.1 hrw hemp g3
          cases sh with
          | same _ h => exact .inl h
          | lock => exact .inr (.inl ⟨_, rfl⟩)
          | release => exact .inr (.inr ⟨_, _, rfl⟩)
          | _ => cases hro'
        rcases this with h | ⟨j, rfl⟩ | ⟨j, n, rfl⟩
        · rw [h]
        · simp only [Cache.doOp] at g3; cases g3
          unfold Cache.lock Refs.incref
          split <;> rename_i heq <;> split at heq <;> cases heq
          · rfl
          · show ((w1.refs.set j _) i).doomed = _
            unfold Refs.set; split <;> rename_i h
            · rw [h]; rfl
            · rfl
        · simp only [Cache.doOp] at g3
          unfold Cache.release Refs.decref at g3
          by_cases hn : n = 0
          · simp only [hn, if_true, bind_ok] at g3; cases g3; rfl
          · simp only [hn, if_false] at g3
            by_cases hlt : ((f1.txn w1.refs).refs j).nrefs < n
            · simp only [hlt, if_true, bind_err] at g3; cases g3
            · simp only [hlt, if_false, bind_ok] at g3; cases g3
              show ((w1.refs.set j _) i).doomed = _
              unfold Refs.set; split <;> rename_i h
              · rw [h]; rfl
              · rfl
    · have hlt : w1.locks i + 1 < W64 := by have := ha2; simp only at this; exact this
      have hset : ∀ j, (t'.refs j).nrefs = if j = i then w1.locks i + 1 else w1.locks j := by
        intro j; rw [k3]; unfold Refs.set; split
        · show u64 _ = _; exact Nat.mod_eq_of_lt hlt
        · rfl
      have hdm : ∀ j, (t'.refs j).doomed = (w1.refs j).doomed := by
        intro j; rw [k3]; unfold Refs.set; split <;> rename_i h
        · rw [h]; rfl
        · rfl
      refine ⟨_, hs1 ++ [.unlock i], rfl, e2, e3, e4, ?_, ?_, fun j hj => by show (t'.refs j).doomed = true; rw [hdm j]; exact e7 j hj, ?_, ?_⟩
      · show t'.hooks = _; rw [k1, ← List.append_assoc]; exact congrArg (· ++ _) e5
      · have : World.locks { w1 with refs := t'.refs, stack := ⟨t'.db, t'.rewrite, t'.hooks, f1.ro⟩ :: r } = fun j => if j = i then w1.locks i + 1 else w1.locks j := by
          funext j; exact hset j
        rw [this]; exact .lock e6 hlt
      · intro j n hj; simp only [List.mem_append, List.mem_singleton, reduceCtorEq, or_false] at hj; exact e8 j n hj
      · intro hro j; rw [← e9 hro j]; exact hdm j
    · have hset : ∀ j, (t'.refs j).nrefs = if j = i then w1.locks i - n else w1.locks j := by
        intro j; rw [k4]; unfold Refs.set; split
        · rfl
        · rfl
      have hdm : ∀ j, (t'.refs j).doomed = (w1.refs j).doomed := by
        intro j; rw [k4]; unfold Refs.set; split <;> rename_i h
        · rw [h]; rfl
        · rfl
      refine ⟨_, hs1 ++ [.relock i n], rfl, e2, e3, e4, ?_, ?_, fun j hj => by show (t'.refs j).doomed = true; rw [hdm j]; exact e7 j hj, ?_, ?_⟩
      · show t'.hooks = _; rw [k1, ← List.append_assoc]; exact congrArg (· ++ _) e5
      · have : World.locks { w1 with refs := t'.refs, stack := ⟨t'.db, t'.rewrite, t'.hooks, f1.ro⟩ :: r } = fun j => if j = i then w1.locks i - n else w1.locks j := by
          funext j; exact hset j
        rw [this]; exact .release e6 k2 k3 (rok.lt i)
      · intro j m hj
        simp only [List.mem_append, List.mem_singleton, Undo.relock.injEq] at hj
        rcases hj with hj | ⟨rfl, rfl⟩
        · exact e8 j m hj
        · cases hd : (w.refs j).doomed with
          | false => rfl
          | true =>
            have := rok.doomed j (e7 j hd)
            have k3' : m ≤ (w1.refs j).nrefs := k3
            omega
      · intro hro j; rw [← e9 hro j]; exact hdm j
  | @sub w w1 w2 w3 w4 c o1 o2 hb h1 hb2 hc h4 ih1 ih2 =>
    intro hR f r hst
    obtain ⟨f1, hs1, e1, e2, e3, e4, e5, e6, e7, e8, e9⟩ := ih1 hR hst
    have hR1 := hb.reach hR
    have hR2 := Reach.step hR1 (c := .nested) trivial h1
    obtain ⟨f', r', g1, g2, rfl⟩ := step_nested h1
    rw [e1] at g1; cases g1
    obtain ⟨f3, hs3, k1, k2, k3, k4, k5, k6, k7, k8, -⟩ := ih2 hR2 (f := { db := f1.db }) (r := f1 :: r) rfl
    have hro : f.ro = false := by rw [← e4]; exact g2
    rcases hc with rfl | rfl
    · simp only [World.step, k1] at h4
      cases h4
      refine ⟨_, hs1 ++ hs3, rfl, k2.trans e2, k3.trans e3, e4, ?_, e6.trans k6, fun i hi => k7 i (e7 i hi), ?_, ?_⟩
      · show f1.hooks ++ f3.hooks = _
        rw [k5, e5, List.append_assoc]; rfl
      · intro i n hi
        rcases List.mem_append.mp hi with hi | hi
        · exact e8 i n hi
        · have := k8 i n hi
          cases hd : (w.refs i).doomed with
          | false => rfl
          | true => have h := e7 i hd; rw [show (w1.refs i).doomed = false from this] at h; cases h
      · intro h; rw [hro] at h; cases h
    · obtain ⟨f', r', refs, g1, hu, rfl, -⟩ := step_abort h4
      rw [k1] at g1; cases g1
      have hk5 : f3.hooks = hs3 := by rw [k5]; rfl
      rw [hk5] at hu
      obtain ⟨hu1, hu2⟩ := (k6.undo (r := w3.refs) (fun _ => rfl)).1 _ hu
      refine ⟨f1, hs1, rfl, k2.trans e2, k3.trans e3, e4, e5, ?_, ?_, e8, ?_⟩
      · have : World.locks { w3 with refs := refs, stack := f1 :: r } = w1.locks := by funext i; exact hu1 i
        rw [this]; exact e6
      · intro i hi; show (refs i).doomed = true; rw [hu2 i]; exact k7 i (e7 i hi)
      · intro h; rw [hro] at h; cases h

theorem begin_stack {w w' : World} {c : Call} {o : Out} (hc : Begins c) (hs : w.step c = .ok (w', o)) :
    ∃ f, w'.stack = f :: w.stack ∧ f.hooks = [] ∧ w'.refs = w.refs ∧ w'.disk = w.disk ∧ w'.phase = w.phase ∧ (c = .beginRO → f.ro = true) := by
  rcases hc with rfl | rfl | rfl
  · obtain ⟨h1, -, rfl⟩ := step_begin (.inl rfl) hs; exact ⟨{ db := w.disk, ro := true }, by simp [h1], rfl, rfl, rfl, rfl, fun _ => rfl⟩
  · obtain ⟨h1, -, rfl⟩ := step_begin (.inr rfl) hs; exact ⟨{ db := w.disk }, by simp [h1], rfl, rfl, rfl, rfl, fun h => by cases h⟩
  · obtain ⟨f, r, h1, -, rfl⟩ := step_nested hs; exact ⟨{ db := f.db }, by rw [h1], rfl, rfl, rfl, rfl, fun h => by cases h⟩

theorem begin_allowed {w : World} {c : Call} (hc : Begins c) : Allowed w c := by
  rcases hc with rfl | rfl | rfl <;> trivial

/-- C31 without lockability and possible failure of `abort` itself: after `abort()`, the contents of
the databases and all lock counts are what they were before the transaction began; inodes which could
not be locked still cannot. Missing: `abort` can fail an assertion, and inodes can have become
unlockable (counterexamples below). -/
theorem C31_abort_partial {w0 w1 w2 w3 : World} {c : Call} {o1 o3 : Out} (h : Reach w0) (hc : Begins c) (hs : w0.step c = .ok (w1, o1))
    (hb : Body w1 w2) (ha : w2.step .abort = .ok (w3, o3)) :
    w3.stack = w0.stack ∧ w3.disk = w0.disk ∧ w3.db = w0.db ∧ w3.phase = w0.phase ∧ w3.locks = w0.locks ∧
      (∀ i, w0.stale i → w3.stale i) ∧ ∀ i, w3.stale i ↔ w2.stale i := by
  obtain ⟨f, e1, e2, e3, e4, e5, -⟩ := begin_stack hc hs
  obtain ⟨f', hs', g1, g2, g3, g4, g5, g6, g7, g8, -⟩ := hb.spec (h.step (begin_allowed hc) hs) e1
  obtain ⟨f'', r, refs, k1, hu, rfl, -⟩ := step_abort ha
  rw [g1] at k1; cases k1
  rw [g5, e2, List.nil_append] at hu
  obtain ⟨hu1, hu2⟩ := (g6.undo (r := w2.refs) (fun _ => rfl)).1 _ hu
  refine ⟨rfl, g2.trans e4, ?_, g3.trans e5, ?_, ?_, ?_⟩
  · show World.db _ = World.db _
    unfold World.db; simp only; rw [g2, e4]
  · funext i
    show (refs i).nrefs = _
    rw [hu1 i]; unfold World.locks; rw [e3]
  · intro i hi
    rw [stale_iff] at hi ⊢
    show (refs i).doomed = true
    rw [hu2 i]; exact g7 i (by rw [e3]; exact hi)
  · intro i
    rw [stale_iff, stale_iff]
    show (refs i).doomed = true ↔ _
    rw [hu2 i]

/-- C31 in full for transactions in which no inode was removed (so none became unlockable): `abort`
succeeds and leaves no trace. -/
theorem C31_no_removal_partial {w0 w1 w2 : World} {c : Call} {o1 : Out} (h : Reach w0) (hc : Begins c) (hs : w0.step c = .ok (w1, o1))
    (hb : Body w1 w2) (hn : ∀ i, w2.stale i → w0.stale i) :
    ∃ w3 o3, w2.step .abort = .ok (w3, o3) ∧ w3.stack = w0.stack ∧ w3.disk = w0.disk ∧ w3.db = w0.db ∧ w3.locks = w0.locks ∧
      ∀ i, w3.stale i ↔ w0.stale i := by
  obtain ⟨f, e1, e2, e3, e4, e5, -⟩ := begin_stack hc hs
  obtain ⟨f', hs', g1, g2, g3, g4, g5, g6, g7, g8, -⟩ := hb.spec (h.step (begin_allowed hc) hs) e1
  obtain ⟨refs, hu⟩ := (g6.undo (r := w2.refs) (fun _ => rfl)).2 (by
    intro i n hi
    have := g8 i n hi
    rw [e3] at this
    cases hd : (w2.refs i).doomed with
    | false => rfl
    | true => have h := stale_iff.mp (hn i (stale_iff.mpr hd)); rw [this] at h; cases h)
  have ha : w2.step .abort = .ok ({ w2 with refs := refs, stack := w0.stack }, .unit (.ok ())) := by
    simp only [World.step, g1, g5, e2, List.nil_append, hu, bind_ok, pure_eq_ok]
  obtain ⟨k1, k2, k3, k4, k5, k6, k7⟩ := C31_abort_partial h hc hs hb ha
  exact ⟨_, _, ha, k1, k2, k3, k5, fun i => ⟨fun hi => hn i ((k7 i).mp hi), k6 i⟩⟩

/-- C31 in full for read-only transactions. -/
theorem C31_read_only {w0 w1 w2 : World} {o1 : Out} (h : Reach w0) (hs : w0.step .beginRO = .ok (w1, o1)) (hb : Body w1 w2) :
    ∃ w3 o3, w2.step .abort = .ok (w3, o3) ∧ w3.stack = w0.stack ∧ w3.disk = w0.disk ∧ w3.db = w0.db ∧ w3.locks = w0.locks ∧
      ∀ i, w3.stale i ↔ w0.stale i := by
  refine C31_no_removal_partial h (.inl rfl) hs hb ?_
  obtain ⟨f, e1, e2, e3, e4, e5, e6⟩ := begin_stack (.inl rfl) hs
  obtain ⟨f', hs', -, -, -, -, -, -, -, -, g9⟩ := hb.spec (h.step (c := .beginRO) trivial hs) e1
  intro i hi
  rw [stale_iff] at hi ⊢
  rw [g9 (e6 rfl) i, e3] at hi; exact hi

/-- Bodies given by lists of operations (for examples). -/
theorem Body.of_ops {cs : List Op} : ∀ {w0 w w' : World}, Body w0 w → demo w (cs.map .op) = some w' → Body w0 w' := by
  induction cs with
  | nil => intro w0 w w' h hd; cases hd; exact h
  | cons c cs ih =>
    intro w0 w w' h hd
    rw [List.map_cons] at hd
    unfold demo at hd
    split at hd
    · rename_i hc
      split at hd
      · rename_i w1 o hs; exact ih (.op h (allowedB_iff hc) hs) hd
      · cases hd
    · cases hd

/-- A transaction given by calls before it and operations in it. -/
theorem body_ex {cs : List Call} {ops : List Op} {P : World → World → Prop} [∀ a b, Decidable (P a b)]
    (h : (match demo World.init cs with
      | some w0 => (match w0.step .beginRW with
        | .ok (w1, _) => (match demo w1 (ops.map .op) with
          | some w2 => decide (P w0 w2)
          | none => false)
        | .error _ => false)
      | none => false) = true) :
    ∃ w0 w1 w2 o, Reach w0 ∧ w0.step .beginRW = .ok (w1, o) ∧ Body w1 w2 ∧ P w0 w2 := by
  split at h
  · rename_i w0 h0
    split at h
    · rename_i w1 o h1
      split at h
      · rename_i w2 h2
        exact ⟨w0, w1, w2, o, demo_reach .init h0, h1, Body.of_ops .nil h2, by simpa using h⟩
      · cases h
    · cases h
  · cases h

/-- Unlinking inode 2 and aborting: it exists again, but cannot be locked any more. -/
theorem C31_stale_counterexample : ∃ w0 w1 w2 o, Reach w0 ∧ w0.step .beginRW = .ok (w1, o) ∧ Body w1 w2 ∧
    ((w0.refs 2).doomed = false ∧ (w2.run [.abort, .beginRW, .op (.getattr 2), .op (.lock 2)]).map Prod.snd
      = .ok [.unit (.ok ()), .unit (.ok ()), .attr (.ok (2, dirA)), .unit (.error ESTALE)]) :=
  body_ex (cs := opened ++ [.beginRW, .op (.emplace 1 "a".toUTF8.toList dirA), .commit]) (ops := [.unlinkIno 2])
    (P := fun w0 w2 => (w0.refs 2).doomed = false ∧ (w2.run [.abort, .beginRW, .op (.getattr 2), .op (.lock 2)]).map Prod.snd
      = .ok [.unit (.ok ()), .unit (.ok ()), .attr (.ok (2, dirA)), .unit (.error ESTALE)]) (by decide +kernel)

/-- Releasing and unlinking inode 2 and aborting: the rollback cannot lock it again and fails an
assertion (cache.cpp 716). -/
theorem C31_assert_counterexample : ∃ w0 w1 w2 o, Reach w0 ∧ w0.step .beginRW = .ok (w1, o) ∧ Body w1 w2 ∧
    (w2.run [.abort]).map Prod.snd = .error (.assertFail 716) :=
  body_ex (cs := opened ++ [.beginRW, .op (.emplace 1 "a".toUTF8.toList dirA), .op (.lock 2), .commit]) (ops := [.release 2 1, .unlinkIno 2])
    (P := fun _ w2 => (w2.run [.abort]).map Prod.snd = .error (.assertFail 716)) (by decide +kernel)

/-- C31 in full is false. -/
theorem C31_counterexample : ¬ AbortLeavesNoTrace := by
  intro hall
  obtain ⟨w0, w1, w2, o, h1, h2, h3, h4⟩ := C31_assert_counterexample
  obtain ⟨w3, o3, ha, -⟩ := hall w0 w1 w2 _ o h1 (.inr (.inl rfl)) h2 h3
  simp only [World.run, ha, bind_ok, pure_eq_ok, Except.map] at h4
  cases h4

/-- The hypotheses of `C31_no_removal_partial` hold for a transaction which creates, locks, releases
and modifies. -/
example : ∃ w0 w1 w2 o, Reach w0 ∧ w0.step .beginRW = .ok (w1, o) ∧ Body w1 w2 ∧
    ((w2.refs 2).doomed = false ∧ (w2.refs 3).doomed = false ∧ w0.locks 2 = 2 ∧ w2.locks 2 = 1 ∧ w2.locks 3 = 1 ∧ getattr w2.db 2 = .ok (2, { dirA with uid := 7 }) ∧
      (w2.run [.abort, .beginRW, .op (.getattr 2), .op (.getattr 3), .op (.release 2 2)]).map Prod.snd
        = .ok [.unit (.ok ()), .unit (.ok ()), .attr (.ok (2, dirA)), .attr (.error ENOENT), .unit (.ok ())]) :=
  body_ex (cs := opened ++ [.beginRW, .op (.emplace 1 "a".toUTF8.toList dirA), .op (.lock 2), .op (.lock 2), .commit])
    (ops := [.emplace 2 "b".toUTF8.toList (fileA 1), .lock 3, .release 2 1, .emplace 1 "a".toUTF8.toList { dirA with uid := 7 }])
    (P := fun w0 w2 => (w2.refs 2).doomed = false ∧ (w2.refs 3).doomed = false ∧ w0.locks 2 = 2 ∧ w2.locks 2 = 1 ∧ w2.locks 3 = 1 ∧ getattr w2.db 2 = .ok (2, { dirA with uid := 7 }) ∧
      (w2.run [.abort, .beginRW, .op (.getattr 2), .op (.getattr 3), .op (.release 2 2)]).map Prod.snd
        = .ok [.unit (.ok ()), .unit (.ok ()), .attr (.ok (2, dirA)), .attr (.error ENOENT), .unit (.ok ())]) (by decide +kernel)

/-- The hypotheses of `C31_abort_partial`, with a removal: the transaction unlinks a file which is locked
by nobody, then it is aborted; the file is there again, but its number is stale. -/
example : ∃ w0 w1 w2 o, Reach w0 ∧ w0.step .beginRW = .ok (w1, o) ∧ Body w1 w2 ∧
    (getattr w2.db 2 = .error ENOENT ∧ (w2.run [.abort, .beginRW, .op (.getattr 2), .op (.lock 2)]).map Prod.snd
        = .ok [.unit (.ok ()), .unit (.ok ()), .attr (.ok (2, fileA 1)), .unit (.error ESTALE)]) :=
  body_ex (cs := opened ++ [.beginRW, .op (.emplace 1 "a".toUTF8.toList (fileA 1)), .commit]) (ops := [.unlinkIno 2])
    (P := fun _ w2 => getattr w2.db 2 = .error ENOENT ∧ (w2.run [.abort, .beginRW, .op (.getattr 2), .op (.lock 2)]).map Prod.snd
        = .ok [.unit (.ok ()), .unit (.ok ()), .attr (.ok (2, fileA 1)), .unit (.error ESTALE)]) (by decide +kernel)

/-- The beginning of a read-only transaction, as in `C31_read_only`. -/
example : ∃ w0 w1, ReachP w0 ∧ Allowed w0 .beginRO ∧ w0.step .beginRO = .ok (w1, .unit (.ok ())) ∧
    (getattr w0.db 2 = .ok (2, fileA 1) ∧ (w1.run [.op (.lock 2), .op (.getattr 2), .abort]).map Prod.snd = .ok [.unit (.ok ()), .attr (.ok (2, fileA 1)), .unit (.ok ())]) :=
  demo_step (cs := opened ++ [.beginRW, .op (.emplace 1 "a".toUTF8.toList (fileA 1)), .commit]) (by decide +kernel)

/-! ### C32 -/

/-- C32: the contents of the file change only when the outermost read-write transaction commits, and
are then what this transaction saw; and when the cache is opened. In particular a crash does not
change them, nor does anything in a transaction which is not committed. -/
theorem C32_committed {w w' : World} {c : Call} {o : Out} (hs : w.step c = .ok (w', o)) :
    w'.disk = w.disk ∨ (c = .commit ∧ ∃ f, w.stack = [f] ∧ f.ro = false ∧ w'.disk = w.db) ∨ (∃ u g now, c = .openInit u g now) ∨ c = .openClean := by
  cases c with
  | crash => simp only [World.step] at hs; cases hs; exact .inl rfl
  | openInit u g now => exact .inr (.inr (.inl ⟨u, g, now, rfl⟩))
  | openClean => exact .inr (.inr (.inr rfl))
  | beginRO => rw [(step_begin (.inl rfl) hs).2.2]; exact .inl rfl
  | beginRW => rw [(step_begin (.inr rfl) hs).2.2]; exact .inl rfl
  | nested => obtain ⟨f, r, -, -, rfl⟩ := step_nested hs; exact .inl rfl
  | op o => obtain ⟨f, r, t, -, -, -, rfl⟩ := step_op hs; exact .inl rfl
  | abort => obtain ⟨f, r, refs, -, -, rfl, -⟩ := step_abort hs; exact .inl rfl
  | drop =>
    simp only [World.step] at hs
    split at hs
    · cases hs
    · cases hs; exact .inl rfl
  | commit =>
    simp only [World.step] at hs
    split at hs
    · cases hs
    · rename_i f hst
      cases hs
      cases hro : f.ro with
      | true => exact .inl (by simp)
      | false => exact .inr (.inl ⟨rfl, f, hst, hro, by simp [World.db, hst]⟩)
    · cases hs; exact .inl rfl

/-- Opening an initialised cache file when nothing is locked. -/
theorem openClean_empty {s : Tree} {d : DB} (h : Rep s d) (ok : s.OK) :
    ∃ s' d' r', openCleanDB d Refs.empty = .ok (d', r') ∧ CollectedTo s ⟨d, Refs.empty, none, []⟩ s' ⟨d', r', none, []⟩ := by
  obtain ⟨s1, s2, d', r1, r', e1, e2, e3, e4, e5, e6, e7, e8, e9⟩ := openClean_spec h ok Refs.empty
  have hno : ∀ i, ¬ Gone s1 (locked r1) i := by
    intro i hg
    induction hg with
    | orphan g1 g2 g3 => exact absurd (e9 _ _ g1 g2 g3) (by simp [Refs.empty])
    | child _ _ _ _ _ ih => exact ih
  have hsame : ∀ i, s2.nodes i = s1.nodes i := fun i => e7.keep i (hno i) (fun nd p n _ _ hg => hno p hg.1)
  refine ⟨s2, d', r', e1, ⟨e2, e4⟩, ?_, ?_, ?_, rfl, rfl⟩
  · refine ⟨e7.next.trans e5.next, ?_, ?_, ?_⟩
    · intro i hi; rw [hsame]; exact e5.gone i hi
    · intro i nd p n h1 h2 h3 h4 h5; rw [hsame]; exact e5.cut i nd p n h1 h2 h3 h4 h5
    · intro i h1 h2; rw [hsame]; exact e5.keep i h1 h2
  · intro i
    refine ⟨(e8 i).1.trans (e6 i).1, ?_⟩
    rw [(e8 i).2, (e6 i).2]
    simp [hno i]
  · intro i nd h1 h2 h3; rw [hsame] at h1; exact e9 i nd h1 h2 h3

theorem reopen_inv {w : World} (h : Inv Good w) (hi : w.disk.next ≠ none) (u g : Nat) (now : Timespec) :
    ∃ w' outs, w.run [.crash, .openInit u g now, .openClean] = .ok (w', outs) ∧ w'.phase = .up ∧ w'.stack = [] ∧ (∀ i, w'.locks i = 0) ∧
      CollectedObs w.disk (fun _ => 0) w'.disk ∧
      (∀ i, i < W64 → ¬ Garbage w'.disk (fun _ => 0) i) ∧
      (∀ i b, i < W64 → path w.disk i = .ok (.ok b) → path w'.disk i = .ok (.ok b) ∧ getattr w'.disk i = getattr w.disk i ∧
        readlink w'.disk i = readlink w.disk i ∧ (∀ f, testFlag w'.disk i f = testFlag w.disk i f) ∧
        ∀ n j, lookup w'.disk i n = .ok (.ok j) ↔ lookup w.disk i n = .ok (.ok j)) ∧
      (∀ i, i < W64 → (w'.stale i ↔ Garbage w.disk (fun _ => 0) i)) := by
  rcases h.disk with ⟨hd, -⟩ | ⟨s, h1, ok⟩
  · rw [hd] at hi; exact absurd rfl hi
  obtain ⟨s', d', r', e1, e2⟩ := openClean_empty h1 ok
  have obs := e2.obs h1 ok e2.rep.1 e2.rep.2
  have hrun : w.run [.crash, .openInit u g now, .openClean] = .ok (⟨.up, d', r', []⟩, [.unit (.ok ()), .unit (.ok ()), .unit (.ok ())]) := by
    simp [World.run, World.step, initDB_some hi, e1]
  refine ⟨_, _, hrun, rfl, rfl, fun i => (e2.refs i).1, obs, ?_, ?_, ?_⟩
  · intro i hb hg
    refine e2.no_garbage e2.rep.1 e2.rep.2 i hb ?_
    have : (fun j => (r' j).nrefs) = fun _ => 0 := by funext j; exact (e2.refs j).1
    show Garbage d' (fun j => (r' j).nrefs) i
    rw [this]; exact hg
  · intro i b hb hp
    obtain ⟨cs, g1, rfl⟩ := h1.path_iff ok hb hp
    have hng : ¬ Garbage w.disk (fun _ => 0) i := by
      intro hg
      exact Conn.not_gone ok ⟨cs, g1⟩ ((h1.garbage ok (r := Refs.empty) hb).mp hg)
    obtain ⟨k1, k2, k3⟩ := obs.kept i hb hng
    refine ⟨e2.rep.1.path_found e2.rep.2 (PathTo.collected ok e2.coll g1), k1, k2, k3, fun n j => ?_⟩
    rw [obs.entries i n j hb]
    exact ⟨fun h => h.1, fun h => ⟨h, fun hg => hng hg.1⟩⟩
  · intro i hb
    rw [stale_iff]
    show (r' i).doomed = true ↔ _
    rw [(e2.refs i).2]
    show _ ∨ Gone s (locked Refs.empty) i ↔ _
    rw [← h1.garbage ok hb]
    simp [Refs.empty]

/-- C32: a crash at any point of any history on a cache file which has been initialised, and opening
the cache again (with any arguments): the constructor succeeds; no inode is locked; the contents are
those of the file (see `C32_committed`) without the garbage (unlinked inodes, which were only kept by
locks, and what was below them); everything reachable from the root is found under the same path,
with the same attributes, flags and link target; exactly the removed inodes cannot be locked. -/
theorem C32_reopen {w : World} (h : Reach w) (hi : w.disk.next ≠ none) (u g : Nat) (now : Timespec) :
    ∃ w' outs, w.run [.crash, .openInit u g now, .openClean] = .ok (w', outs) ∧ w'.phase = .up ∧ w'.stack = [] ∧ (∀ i, w'.locks i = 0) ∧
      CollectedObs w.disk (fun _ => 0) w'.disk ∧
      (∀ i, i < W64 → ¬ Garbage w'.disk (fun _ => 0) i) ∧
      (∀ i b, i < W64 → path w.disk i = .ok (.ok b) → path w'.disk i = .ok (.ok b) ∧ getattr w'.disk i = getattr w.disk i ∧
        readlink w'.disk i = readlink w.disk i ∧ (∀ f, testFlag w'.disk i f = testFlag w.disk i f) ∧
        ∀ n j, lookup w'.disk i n = .ok (.ok j) ↔ lookup w.disk i n = .ok (.ok j)) ∧
      (∀ i, i < W64 → (w'.stale i ↔ Garbage w.disk (fun _ => 0) i)) :=
  reopen_inv h.inv hi u g now

theorem clean_nothing {d : DB} {r : Refs} (h : ∀ k, d.orphans.find k = none) : cleanOrphans d r = .ok (d, r) := by
  have : d.orphans.entries = [] := by
    cases he : d.orphans.entries with
    | nil => rfl
    | cons x t =>
      have h1 : d.orphans.find x.1 = some x.2 := (Tab.mem_iff _ _ _).mp (by rw [he]; simp)
      rw [h x.1] at h1; cases h1
  unfold cleanOrphans cleanLoop
  rw [this]; rfl

/-- C32: crashing right after opening (or at any time when nothing has been committed since) and
opening again changes nothing at all: the databases are identical. -/
theorem C32_reopen_again {w w' : World} {outs : List Out} (h : Reach w) (hi : w.disk.next ≠ none) {u g u' g' : Nat} {now now' : Timespec}
    (hr : w.run [.crash, .openInit u g now, .openClean] = .ok (w', outs)) :
    ∃ w'' outs', w'.run [.crash, .openInit u' g' now', .openClean] = .ok (w'', outs') ∧ w''.disk = w'.disk ∧ w''.phase = .up ∧ w''.stack = [] ∧
      ∀ i, w''.locks i = 0 ∧ ¬ w''.stale i := by
  rcases h.inv.disk with ⟨hd, -⟩ | ⟨s, h1, ok⟩
  · rw [hd] at hi; exact absurd rfl hi
  obtain ⟨s', d', r', e1, e2⟩ := openClean_empty h1 ok
  have hrun : w.run [.crash, .openInit u g now, .openClean] = .ok (⟨.up, d', r', []⟩, [.unit (.ok ()), .unit (.ok ()), .unit (.ok ())]) := by
    simp [World.run, World.step, initDB_some hi, e1]
  rw [hrun] at hr; cases hr
  have horph : ∀ k, d'.orphans.find k = none := by
    intro k
    cases hk : d'.orphans.find k with
    | none => rfl
    | some x =>
      obtain ⟨i, nd, -, g1, g2, g3⟩ := (e2.rep.1.orphans k _).mp hk
      exact absurd (e2.clean i nd g1 g3 g2) (by simp [Refs.empty])
  have hc : openCleanDB d' Refs.empty = .ok (d', Refs.empty) := by
    unfold openCleanDB; rw [clean_nothing horph, bind_ok]; exact clean_nothing horph
  have hn : d'.next ≠ none := by have := e2.rep.1.next; simp only at this; rw [this]; simp
  refine ⟨⟨.up, d', Refs.empty, []⟩, [.unit (.ok ()), .unit (.ok ()), .unit (.ok ())], ?_, rfl, rfl, rfl, fun i => ⟨rfl, ?_⟩⟩
  · simp [World.run, World.step, initDB_some hn, hc]
  · rw [stale_iff]; simp [Refs.empty]

/-- C32: a crash before the file was initialised leaves an empty file; opening it gives an empty root
directory. -/
theorem C32_fresh {w : World} (h : Reach w) (hi : w.disk.next = none) (u g : Nat) (now : Timespec) :
    ∃ w' outs, w.run [.crash, .openInit u g now, .openClean] = .ok (w', outs) ∧ w'.phase = .up ∧
      getattr w'.disk 1 = .ok (1, { size := 0, nblocks := 0, uid := u, gid := g, atime := now, mtime := now, ctime := now, mode := 0o040000 }) ∧
      ∀ i, i < W64 → i ≠ 1 → Missing w'.disk i := by
  rcases h.inv.disk with ⟨hd, -⟩ | hg
  · have hc : openCleanDB (initDB emptyDB u g now) Refs.empty = .ok (initDB emptyDB u g now, Refs.empty) := by
      have : ∀ k, (initDB emptyDB u g now).orphans.find k = none := fun k => rfl
      unfold openCleanDB; rw [clean_nothing this, bind_ok]; exact clean_nothing this
    refine ⟨⟨.up, initDB emptyDB u g now, Refs.empty, []⟩, [.unit (.ok ()), .unit (.ok ()), .unit (.ok ())], ?_, rfl, ?_, ?_⟩
    · simp [World.run, World.step, hd, hc]
    · show Cache.getattr (initDB emptyDB u g now) 1 = _
      have : (initDB emptyDB u g now).inodes.find (key8 1) = some (mkInode (rootAttrs u g now) 0) :=
        Tab.find_put_self Tab.empty (key8 ROOT) (mkInode (rootAttrs u g now) 0)
      unfold Cache.getattr
      rw [this]; rfl
    · intro i hb h1
      exact Classical.byContradiction fun hm => h1 (initDB_exists hb hm)
  · obtain ⟨n, hn⟩ := hg.next; rw [hn] at hi; cases hi

/-- The hypotheses of `C32_reopen` and `C32_reopen_again`; `C32_committed` applies to every call of such a run. A
crash in the middle of a transaction; inode 2 was unlinked while locked, inode 3 is below it. -/
example : ∃ w, Reach w ∧ w.stack.length = 1 ∧ (w.disk.next.isSome) = true ∧ getattr w.disk 2 = .ok (2, dirA) ∧ path w.disk 4 = .ok (.ok "/c".toUTF8.toList) ∧
    (w.run [.crash, .openInit 0 0 ⟨0, 0⟩, .openClean, .beginRO, .op (.getattr 2), .op (.getattr 3), .op (.getattr 4), .op (.lookup 1 "d".toUTF8.toList)]).map (fun p => p.2.drop 4)
      = .ok [.attr (.error ENOENT), .attr (.error ENOENT), .attr (.ok (4, fileA 2)), .ino (.error ENOENT)] :=
  demo_ex (cs := opened ++ [.beginRW, .op (.emplace 1 "a".toUTF8.toList dirA), .op (.emplace 2 "b".toUTF8.toList (fileA 1)), .op (.emplace 1 "c".toUTF8.toList (fileA 2)),
    .op (.lock 2), .op (.unlinkIno 2), .commit, .beginRW, .op (.emplace 1 "d".toUTF8.toList dirA)]) (by decide +kernel)

/-- The hypotheses of `C32_fresh`: nothing has been stored yet. -/
example : Reach World.init ∧ World.init.disk.next = none := ⟨.init, rfl⟩

end Dragonstash.Cache
