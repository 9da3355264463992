/-
  C81: streams over cached directories (`CachedDir`).
-/
import Verif.Cache.CachedDir
import Verif.Props.Codec
namespace Dragonstash.CachedDir
open Codec

/-! ### Specification -/

/-- The value is an entry: version 1, inode number (8 bytes), mode (4 bytes), a name. -/
def enc (e : Ent) : Bytes := leEnc 1 1 ++ (leEnc 8 e.ino ++ (leEnc 4 e.mode ++ e.name))

def Ent.Fits (e : Ent) : Prop := e.ino < 256 ^ 8 ∧ e.mode < 256 ^ 4 ∧ e.name ≠ []

/-- A stream of entries as users expect it: position, and the answers to calls. -/
def specCall (l : List Ent) (pos : Nat) : Op → Nat × Out
  | .read => match l[pos]? with
    | some e => (pos + 1, .read (.ok (e, pos)))
    | none => (pos, .read (.error 0))
  | .seek o => if o < 0 ∨ o > pos then (pos, .seek (.error EINVAL)) else (o.toNat, .seek (.ok ()))

def specCalls (l : List Ent) : Nat → List Op → List Out
  | _, [] => []
  | pos, o :: os => (specCall l pos o).2 :: specCalls l (specCall l pos o).1 os

/-- C81 in full: entries are listed once each, in order, with their offsets, and again after seeking back. -/
def C81_full : Prop := ∀ (l : List Ent) (ops : List Op), (∀ e ∈ l, e.Fits) → use (l.map enc) ops = .ok (specCalls l 0 ops)

/-- What the `k`-th value of `l` is listed as. -/
def shown (v : Bytes) (off : Int) : Ret := match parseEntry v with
  | .ok r => r.map (fun e => (e, off))
  | .error _ => .error 0

/-- The values which the stream lists: not the first, but the last twice - or the only one. -/
def listed : List Bytes → List Bytes
  | [] => []
  | [v] => [v]
  | _ :: l => l ++ (l.getLast?).toList

/-! ### Proofs -/

/-- C81: whatever the bytes are, parsing reads inside the value only and no assertion fails. -/
theorem C81_parse (b : Bytes) : (∃ e, parseEntry b = .ok (.ok e) ∧ b.head? = some 1 ∧ 13 < b.length ∧ e.name = b.drop 13) ∨
    (parseEntry b = .ok (.error EIO) ∧ ¬ (b.head? = some 1 ∧ 13 < b.length)) := by
  unfold parseEntry
  cases b with
  | nil => right; simp
  | cons x xs =>
    have hv : rd (x :: xs) 0 1 = .ok x.toNat := by
      rw [rd_ok (by simp)]; simp [fieldAt, leDec]
    have hx : x.toNat = 1 ↔ x = 1 := by
      constructor
      · intro h; exact UInt8.toNat_inj.mp h
      · intro h; rw [h]; rfl
    rw [if_neg (by simp), hv]
    simp only [bind_ok]
    by_cases h1 : x.toNat = 1
    · rw [if_neg (by simpa using h1)]
      by_cases h2 : (x :: xs).length - 1 ≤ 12
      · rw [if_pos h2]; right
        exact ⟨rfl, by rintro ⟨-, h3⟩; omega⟩
      · rw [if_neg h2, rd_ok (by omega), rd_ok (by omega)]
        simp only [bind_ok]
        rw [chk_of (by simp only [decide_eq_true_eq]; omega)]
        left
        exact ⟨_, rfl, by rw [hx.mp h1]; rfl, by omega, rfl⟩
    · rw [if_pos (by simpa using h1)]
      right
      refine ⟨rfl, ?_⟩
      rintro ⟨h3, -⟩
      simp only [List.head?_cons, Option.some.injEq] at h3
      exact h1 (hx.mpr h3)

/-- C81: entries come back as they were written. -/
theorem C81_roundtrip {e : Ent} (h : e.Fits) : parseEntry (enc e) = .ok (.ok e) := by
  obtain ⟨hi, hm, hn⟩ := h
  obtain ⟨ino, mode, name⟩ := e
  simp only at *
  have hl : 1 ≤ name.length := List.length_pos_iff.mpr hn
  have hlen : (enc ⟨ino, mode, name⟩).length = 13 + name.length := by simp [enc]; omega
  have v : rd (enc ⟨ino, mode, name⟩) 0 1 = .ok 1 := rd_at (a := []) rfl (by decide)
  have f1 : rd (enc ⟨ino, mode, name⟩) 1 8 = .ok ino := by
    refine rd_at (a := leEnc 1 1) ?_ hi
    simp [enc]
  have f2 : rd (enc ⟨ino, mode, name⟩) 9 4 = .ok mode := by
    refine rd_at (a := leEnc 1 1 ++ leEnc 8 ino) ?_ hm
    simp [enc]
  have hd : (enc ⟨ino, mode, name⟩).drop 13 = name := by
    unfold enc; simp only
    rw [show leEnc 1 1 ++ (leEnc 8 ino ++ (leEnc 4 mode ++ name)) = (leEnc 1 1 ++ leEnc 8 ino ++ leEnc 4 mode) ++ name by simp]
    rw [List.drop_left' (by simp)]
  unfold parseEntry
  rw [if_neg (by omega), v]
  simp only [bind_ok]
  rw [if_neg (by simp), if_neg (by omega), f1, f2]
  simp only [bind_ok]
  rw [chk_of (by simp only [decide_eq_true_eq]; omega), hd]
  rfl

theorem parse_shown (v : Bytes) : ∃ r, parseEntry v = .ok r ∧ ∀ o, shown v o = r.map (fun e => (e, o)) := by
  unfold shown
  rcases C81_parse v with ⟨e, h, -⟩ | ⟨h, -⟩
  · exact ⟨.ok e, h, fun o => by rw [h]⟩
  · exact ⟨.error EIO, h, fun o => by rw [h]⟩

/-- The states of a stream: at value `p`, before the end was noticed or after. -/
def before (dups : List Bytes) (p : Nat) : St := ⟨dups, p, false, -1, p⟩
def after (dups : List Bytes) (p : Nat) (z : Int) : St := ⟨dups, p, true, z, p⟩

theorem listed_get : ∀ (dups : List Bytes) (p : Nat), (listed dups)[p]? =
    if p + 1 < dups.length then dups[p + 1]? else if p < dups.length then dups[p]? else none
  | [], p => by simp [listed]
  | [v], p => by
    simp only [listed, List.length_cons, List.length_nil]
    rw [if_neg (by omega)]
    split
    · rfl
    · rename_i h; exact List.getElem?_eq_none (by simp; omega)
  | v :: w :: l, p => by
    have e : listed (v :: w :: l) = (w :: l) ++ ((w :: l).getLast?).toList := rfl
    have e2 : ((w :: l).getLast?).toList = [(w :: l).getLast (by simp)] := by rw [List.getLast?_eq_some_getLast (by simp)]; rfl
    rw [e, e2]
    by_cases h1 : p < (w :: l).length
    · rw [List.getElem?_append_left h1, if_pos (by simp only [List.length_cons] at h1 ⊢; omega)]; rfl
    · rw [if_neg (by simp only [List.length_cons] at h1 ⊢; omega)]
      by_cases h2 : p = (w :: l).length
      · rw [if_pos (by rw [h2]; simp)]
        rw [List.getElem?_append_right (by omega), h2, Nat.sub_self, List.getLast_eq_getElem]
        simp only [List.length_cons, Nat.add_sub_cancel]
        simp
      · rw [if_neg (by simp only [List.length_cons] at h1 h2 ⊢; omega)]
        exact List.getElem?_eq_none (by simp only [List.length_append, List.length_cons, List.length_nil] at h1 h2 ⊢; omega)

theorem read_before {dups : List Bytes} {p : Nat} (hp : p < dups.length) : ∃ v, (listed dups)[p]? = some v ∧
    readDir (before dups p) = .ok (if p + 1 < dups.length then before dups (p + 1) else after dups p (p + 1), shown v p) := by
  unfold readDir before
  simp only [Bool.false_eq_true, if_false, List.getElem?_eq_getElem hp]
  rw [listed_get]
  by_cases h : p + 1 < dups.length
  · rw [if_pos h, if_pos h, List.getElem?_eq_getElem h]
    obtain ⟨r, h1, h2⟩ := parse_shown dups[p + 1]
    refine ⟨_, rfl, ?_⟩
    simp only [h1, bind_ok, h2, pure_eq_ok, Int.natCast_add, Int.cast_ofNat_Int]
  · have hn : dups[p + 1]? = none := List.getElem?_eq_none (by omega)
    rw [if_neg h, if_neg h, if_pos hp, hn, List.getElem?_eq_getElem hp]
    obtain ⟨r, h1, h2⟩ := parse_shown dups[p]
    refine ⟨_, rfl, ?_⟩
    simp only [markEof, Bool.false_eq_true, if_false, h1, h2]
    rfl

theorem read_after {dups : List Bytes} {p : Nat} {z : Int} : readDir (after dups p z) = .ok (after dups p z, .error 0) := rfl

theorem back_spec : ∀ (k : Nat) {s : St}, k ≤ s.pos → s.off = s.pos → back k s = .ok { s with pos := s.pos - k, off := ((s.pos - k : Nat) : Int) }
  | 0, s, _, h => by simp [back, ← h]
  | k + 1, s, hk, h => by
    unfold back
    rw [if_neg (by omega), back_spec k (by simp only; omega) (by simp only; omega)]
    simp only [Nat.sub_sub, Nat.add_comm 1 k]

theorem seek_spec {s : St} (h : s.off = s.pos) (o : Int) :
    seek o s = .ok (if o < 0 ∨ o > s.pos then (s, .error EINVAL) else ({ s with pos := o.toNat, off := o }, .ok ())) := by
  unfold seek
  by_cases h1 : o < 0
  · rw [if_pos h1, if_pos (.inl h1)]
  · rw [if_neg h1]
    by_cases h2 : o > s.off
    · rw [if_pos h2, if_pos (.inr (by omega))]
    · have hn : ¬ (o < 0 ∨ o > s.pos) := by omega
      rw [if_neg h2, if_neg hn]
      by_cases h3 : o = s.off
      · rw [if_pos h3]
        have : o.toNat = s.pos := by omega
        rw [this, h3]
      · rw [if_neg h3, back_spec _ (by omega) h]
        simp only [bind_ok, pure_eq_ok]
        have e1 : s.pos - (s.off - o).toNat = o.toNat := by omega
        rw [e1]
        have e2 : ((o.toNat : Nat) : Int) = o := by omega
        rw [e2]

/-- The states which occur. -/
def Ok (dups : List Bytes) (s : St) : Prop := (∃ p, p < dups.length ∧ s = before dups p) ∨ ∃ p z, s = after dups p z

theorem call_ok {dups : List Bytes} {s : St} (h : Ok dups s) (o : Op) : ∃ s' r, call s o = .ok (s', r) ∧ Ok dups s' := by
  cases o with
  | read =>
    unfold call
    rcases h with ⟨p, hp, rfl⟩ | ⟨p, z, rfl⟩
    · obtain ⟨v, -, h2⟩ := read_before hp
      rw [h2]
      refine ⟨_, _, rfl, ?_⟩
      split
      · rename_i h; exact .inl ⟨_, h, rfl⟩
      · exact .inr ⟨_, _, rfl⟩
    · rw [read_after]; exact ⟨_, _, rfl, .inr ⟨_, _, rfl⟩⟩
  | seek o =>
    rcases h with ⟨p, hp, rfl⟩ | ⟨p, z, rfl⟩
    · simp only [call, seek_spec (s := before dups p) rfl o]
      split
      · exact ⟨_, _, rfl, .inl ⟨p, hp, rfl⟩⟩
      · rename_i h
        simp only [before] at h
        refine ⟨_, _, rfl, .inl ⟨o.toNat, by omega, ?_⟩⟩
        simp only [before, St.mk.injEq, true_and]; omega
    · simp only [call, seek_spec (s := after dups p z) rfl o]
      split
      · exact ⟨_, _, rfl, .inr ⟨p, z, rfl⟩⟩
      · rename_i h
        simp only [after] at h
        refine ⟨_, _, rfl, .inr ⟨o.toNat, z, ?_⟩⟩
        simp only [after, St.mk.injEq, true_and]; omega

theorem open_ok (dups : List Bytes) : ∃ s, open_ dups = .ok s ∧ Ok dups s ∧ (dups ≠ [] → s = before dups 0) ∧ (dups = [] → s = after [] 0 1) := by
  cases dups with
  | nil => exact ⟨_, rfl, .inr ⟨0, 1, rfl⟩, fun h => absurd rfl h, fun _ => rfl⟩
  | cons v l => exact ⟨_, rfl, .inl ⟨0, by simp, rfl⟩, fun _ => rfl, fun h => by cases h⟩

/-- C81: no sequence of calls fails an assertion, throws, or reads outside of a value, whatever the values are. -/
theorem C81_safe (dups : List Bytes) (ops : List Op) : ∃ outs, use dups ops = .ok outs := by
  obtain ⟨s, h1, h2, -⟩ := open_ok dups
  unfold use
  rw [h1]
  simp only [bind_ok]
  clear h1
  induction ops generalizing s with
  | nil => exact ⟨_, rfl⟩
  | cons o l ih =>
    obtain ⟨s', r, h3, h4⟩ := call_ok h2 o
    obtain ⟨outs, h5⟩ := ih s' h4
    exact ⟨r :: outs, by unfold calls; rw [h3, bind_ok]; simp only [h5, bind_ok, pure_eq_ok]⟩

/-- The answers to reading on and on from value `p`. -/
def run (dups : List Bytes) (p k : Nat) : List Out :=
  (List.range k).map fun i => .read (match (listed dups)[p + i]? with | some v => shown v (p + i : Nat) | none => .error 0)

theorem run_succ (dups : List Bytes) (p k : Nat) : run dups p (k + 1) =
    .read (match (listed dups)[p]? with | some v => shown v p | none => .error 0) :: run dups (p + 1) k := by
  unfold run
  rw [List.range_succ_eq_map, List.map_cons, List.map_map]
  congr 1
  apply List.map_congr_left
  intro i _
  have e : p + (i + 1) = p + 1 + i := by omega
  simp only [Function.comp, Nat.succ_eq_add_one, e]

theorem calls_after {dups : List Bytes} {p : Nat} {z : Int} : ∀ k, calls (after dups p z) (List.replicate k .read) = .ok (List.replicate k (.read (.error 0)))
  | 0 => rfl
  | k + 1 => by
    rw [List.replicate_succ, List.replicate_succ, calls, call, read_after]
    simp only [bind_ok, pure_eq_ok]
    rw [calls_after k]; rfl

theorem run_none {dups : List Bytes} : ∀ {k p : Nat}, dups.length ≤ p → run dups p k = List.replicate k (.read (.error 0))
  | 0, _, _ => rfl
  | k + 1, p, h => by
    rw [run_succ, run_none (by omega), listed_get, if_neg (by omega), if_neg (by omega)]; rfl

theorem calls_before {dups : List Bytes} : ∀ {k p : Nat}, p < dups.length → calls (before dups p) (List.replicate k .read) = .ok (run dups p k)
  | 0, p, _ => rfl
  | k + 1, p, hp => by
    obtain ⟨v, h1, h2⟩ := read_before hp
    rw [List.replicate_succ, calls, call, h2, run_succ, h1]
    simp only [bind_ok, pure_eq_ok]
    split
    · rename_i h; rw [calls_before h]; rfl
    · rename_i h; rw [calls_after, run_none (by omega)]; rfl

/-- C81: exactly what reading gives: the `k`-th read gives the `k`-th of `listed dups`, with offset `k`, and then
the end, for ever. So it is what was stored only if there is at most one entry. -/
theorem C81_reads_partial (dups : List Bytes) (k : Nat) : use dups (List.replicate k .read) = .ok (run dups 0 k) := by
  unfold use
  obtain ⟨s, h1, -, h2, h3⟩ := open_ok dups
  rw [h1]
  simp only [bind_ok]
  by_cases h : dups = []
  · rw [h3 h, calls_after, run_none (by rw [h]; simp)]
  · rw [h2 h]
    exact calls_before (List.length_pos_iff.mpr h)

/-- C81: in particular, for a directory with one entry or none, what users expect. -/
theorem C81_one_partial {l : List Ent} (hl : l.length ≤ 1) (hf : ∀ e ∈ l, e.Fits) (k : Nat) :
    use (l.map enc) (List.replicate k .read) = .ok (specCalls l 0 (List.replicate k .read)) := by
  rw [C81_reads_partial]
  congr 1
  have eof : ∀ (k p : Nat), l.length ≤ p → specCalls l p (List.replicate k .read) = List.replicate k (.read (.error 0)) := by
    intro k
    induction k with
    | zero => intro p _; rfl
    | succ k ih =>
      intro p hp
      rw [List.replicate_succ, List.replicate_succ, specCalls]
      simp only [specCall, List.getElem?_eq_none hp]
      rw [ih p hp]
  match l, hl with
  | [], _ => rw [eof k 0 (by simp), run_none (by simp)]
  | [e], _ =>
    cases k with
    | zero => rfl
    | succ k =>
      rw [run_succ, run_none (by simp), List.replicate_succ, specCalls]
      simp only [specCall, List.getElem?_cons_zero, Nat.zero_add]
      rw [eof k 1 (by simp)]
      simp only [List.map_cons, List.map_nil, listed, List.getElem?_cons_zero, shown, C81_roundtrip (hf e (by simp))]
      rfl

/-- C81: after seeking back, before the end was met, the reads are repeated. After the end was met seeking
does not help: there is nothing more to read. -/
theorem C81_seek (dups : List Bytes) (k o m : Nat) (ho : o ≤ k) :
    (k < dups.length → use dups (List.replicate k .read ++ .seek o :: List.replicate m .read) = .ok (run dups 0 k ++ .seek (.ok ()) :: run dups o m)) ∧
    (dups.length ≤ k → o < dups.length → use dups (List.replicate k .read ++ .seek o :: List.replicate m .read) =
      .ok (run dups 0 k ++ .seek (.ok ()) :: List.replicate m (.read (.error 0)))) := by
  have sb : ∀ {p o : Nat}, o ≤ p → seek o (before dups p) = .ok (before dups o, .ok ()) := by
    intro p o h
    rw [seek_spec rfl, if_neg (by simp only [before]; omega)]; rfl
  have sa : ∀ {p o : Nat} {z}, o ≤ p → seek o (after dups p z) = .ok (after dups o z, .ok ()) := by
    intro p o z h
    rw [seek_spec rfl, if_neg (by simp only [after]; omega)]; rfl
  have aft : ∀ (k : Nat) {p : Nat} {z : Int} (l : List Op), calls (after dups p z) (List.replicate k .read ++ l) =
      (calls (after dups p z) l).map (List.replicate k (.read (.error 0)) ++ ·) := by
    intro k
    induction k with
    | zero => intro p z l; cases h : calls (after dups p z) l <;> simp [h, Except.map]
    | succ k ih =>
      intro p z l
      rw [List.replicate_succ, List.cons_append, calls, call, read_after]
      simp only [bind_ok, pure_eq_ok, ih]
      cases calls (after dups p z) l <;> rfl
  have bef : ∀ (k : Nat) {p : Nat} (l : List Op), p < dups.length → calls (before dups p) (List.replicate k .read ++ l) =
      (calls (if p + k < dups.length then before dups (p + k) else after dups (dups.length - 1) dups.length) l).map (run dups p k ++ ·) := by
    intro k
    induction k with
    | zero =>
      intro p l hp
      rw [Nat.add_zero, if_pos hp]
      simp only [List.replicate_zero, List.nil_append, run, List.range_zero, List.map_nil]
      cases calls (before dups p) l <;> rfl
    | succ k ih =>
      intro p l hp
      obtain ⟨v, h1, h2⟩ := read_before hp
      rw [List.replicate_succ, List.cons_append, calls, call, h2, run_succ, h1]
      simp only [bind_ok, pure_eq_ok]
      by_cases h : p + 1 < dups.length
      · rw [if_pos h, ih l h, show p + 1 + k = p + (k + 1) by omega]
        split
        · cases calls (before dups (p + (k + 1))) l <;> rfl
        · cases calls (after dups (dups.length - 1) dups.length) l <;> rfl
      · have e1 : p = dups.length - 1 := by omega
        have e2 : ((p : Int) + 1) = (dups.length : Int) := by omega
        rw [if_neg h, if_neg (by omega), aft, run_none (by omega), e2, ← e1]
        cases calls (after dups p dups.length) l <;> rfl
  unfold use
  obtain ⟨s, h1, -, h2, -⟩ := open_ok dups
  rw [h1]
  simp only [bind_ok]
  refine ⟨fun hk => ?_, fun hk hoo => ?_⟩
  · have hne : dups ≠ [] := by intro h; rw [h] at hk; simp at hk
    rw [h2 hne, bef k _ (by omega), Nat.zero_add, if_pos hk, calls, call, sb ho]
    simp only [bind_ok, pure_eq_ok]
    rw [calls_before (by omega)]; rfl
  · have hne : dups ≠ [] := by intro h; rw [h] at hoo; simp at hoo
    rw [h2 hne, bef k _ (by omega), Nat.zero_add, if_neg (by omega), calls, call, sa (by omega)]
    simp only [bind_ok, pure_eq_ok]
    rw [calls_after]; rfl

def ab : List Ent := [⟨2, 33188, [0x61]⟩, ⟨3, 33188, [0x62]⟩]

/-- Two entries: the second is listed twice, the first never. -/
theorem C81_counterexample : ¬ C81_full := by
  intro h
  have := h ab [.read, .read, .read] (by intro e he; simp only [ab, List.mem_cons, List.not_mem_nil, or_false] at he; rcases he with rfl | rfl <;> exact ⟨by decide, by decide, by simp⟩)
  exact absurd this (by decide +kernel)

/-- What `C81_reads_partial` and `C81_seek` say, on a directory with two entries (`C81_safe` and `C81_parse` have no hypotheses). -/
example : use (ab.map enc) [.read, .read, .read, .seek 0, .read] =
    .ok [.read (.ok (⟨3, 33188, [0x62]⟩, 0)), .read (.ok (⟨3, 33188, [0x62]⟩, 1)), .read (.error 0), .seek (.ok ()), .read (.error 0)] := by decide +kernel

/-- `C81_roundtrip` and `C81_one_partial` for an entry `a`. -/
example : (⟨2, 33188, [0x61]⟩ : Ent).Fits ∧ use ([(⟨2, 33188, [0x61]⟩ : Ent)].map enc) [.read, .read] =
    .ok [.read (.ok (⟨2, 33188, [0x61]⟩, 0)), .read (.error 0)] := by
  refine ⟨by unfold Ent.Fits; decide, by decide +kernel⟩

end Dragonstash.CachedDir
