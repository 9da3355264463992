/-
  Lock counts and the kernel's references, under all interleavings of requests.
-/
import Verif.MT.Inv
import Verif.MT.Stale
import Verif.MT.Counts
namespace Dragonstash.MT
open Cache FS Conc

/-! ### The serial history is determined -/

theorem OneByOne.snoc_inv {d0 : DB} {r0 : Refs} {ds r H q} (h : OneByOne d0 r0 ds r (H ++ [q])) :
    ∃ ds1 r1 d d1 st, OneByOne d0 r0 ds1 r1 H ∧ (if readOnly q.rq then ds1[q.ver]? else ds1.getLast?) = some d ∧ ds1.getLast? = some d1 ∧
      handle q.B { disk := d, refs := r1 } q.rq = .ok st ∧ st.sent = [q.rep] ∧ st.fault = none ∧ r = st.refs ∧
      ds = ds1 ++ [if readOnly q.rq then d1 else st.disk] := by
  generalize hH : H ++ [q] = H' at h
  cases h with
  | start => simp at hH
  | @ro ds1 r1 H1 q1 d d1 st h1 h2 h3 h4 h5 h6 h7 =>
    obtain ⟨rfl, h8⟩ := List.append_inj' hH rfl
    rw [List.cons.injEq] at h8; obtain ⟨rfl, -⟩ := h8
    exact ⟨ds1, r1, d, d1, st, h1, by rw [h2, if_pos rfl]; exact h3, h4, h5, h6, h7, rfl, by rw [h2, if_pos rfl]⟩
  | @rw ds1 r1 H1 q1 d st h1 h2 h3 h4 h5 h6 =>
    obtain ⟨rfl, h8⟩ := List.append_inj' hH rfl
    rw [List.cons.injEq] at h8; obtain ⟨rfl, -⟩ := h8
    exact ⟨ds1, r1, d, d, st, h1, by rw [h2, if_neg (by simp)]; exact h3, h3, h4, h5, h6, rfl, by rw [h2, if_neg (by simp)]⟩

theorem OneByOne.det {d0 : DB} {r0 : Refs} {ds r H} (h : OneByOne d0 r0 ds r H) : ∀ {ds' r'}, OneByOne d0 r0 ds' r' H → ds' = ds ∧ r' = r := by
  induction h with
  | start =>
    intro ds' r' h'
    generalize hH : ([] : List Done) = H' at h'
    cases h' with
    | start => exact ⟨rfl, rfl⟩
    | _ => simp at hH
  | @ro ds1 r1 H1 q d d1 st h1 h2 h3 h4 h5 h6 h7 ih =>
    intro ds' r' h'
    obtain ⟨ds2, r2, d', d1', st', g1, g2, g3, g4, -, -, rfl, rfl⟩ := h'.snoc_inv
    obtain ⟨rfl, rfl⟩ := ih g1
    rw [h2, if_pos rfl, h3] at g2; cases g2
    rw [h4] at g3; cases g3
    rw [h5] at g4; cases g4
    rw [h2, if_pos rfl]; exact ⟨rfl, rfl⟩
  | @rw ds1 r1 H1 q d st h1 h2 h3 h4 h5 h6 ih =>
    intro ds' r' h'
    obtain ⟨ds2, r2, d', d1', st', g1, g2, g3, g4, -, -, rfl, rfl⟩ := h'.snoc_inv
    obtain ⟨rfl, rfl⟩ := ih g1
    rw [h2, if_neg (by simp), h3] at g2; cases g2
    rw [h4] at g4; cases g4
    rw [h2, if_neg (by simp)]; exact ⟨rfl, rfl⟩

/-! ### Programs of handlers -/

/-- Read-only handlers use read-only calls; a reply which is sent before the transaction ends hands out
no inode; there is one reply, except (`two`) in `readdir`, when an error is followed by a second one. -/
def Prog.Fine (ro two : Bool) : Prog → Prop
  | .op o k => (ro = true → o.isRO = true) ∧ ∀ out, Prog.Fine ro two (k out)
  | .done c reps => (c = false → ∀ r ∈ reps, ∀ i, Reply.given i r = 0) ∧ ((∃ r, reps = [r]) ∨ (two = true ∧ c = false ∧ ∃ e r, reps = [.err e, r]))
  | .stuck _ => True

theorem Fine.err {ro two c e} : Prog.Fine ro two (.done c [.err e]) :=
  ⟨fun _ r hr i => by rw [List.mem_singleton.mp hr]; rfl, .inl ⟨_, rfl⟩⟩

theorem Fine.commit {ro two r} : Prog.Fine ro two (.done true [r]) := ⟨fun h => (by cases h), .inl ⟨_, rfl⟩⟩

theorem fine_lockAndReply {i a} : (lockAndReply i a).Fine false false := by
  refine ⟨fun h => (by cases h), fun out => ?_⟩
  simp only
  split
  · exact Fine.err
  · exact Fine.commit
  · trivial

theorem fine_lookup {B p n} : (lookup B p n).Fine false false := by
  refine ⟨fun h => (by cases h), fun out => ?_⟩
  simp only
  split
  · exact Fine.err
  · split
    · refine ⟨fun h => (by cases h), fun out => ?_⟩
      simp only
      split
      · exact Fine.err
      · exact fine_lockAndReply
      · trivial
    · split
      · refine ⟨fun h => (by cases h), fun out => ?_⟩
        simp only
        split
        · split
          · refine ⟨fun h => (by cases h), fun out => ?_⟩
            simp only
            split <;> exact Fine.err
          · exact Fine.err
        · refine ⟨fun h => (by cases h), fun out => ?_⟩
          simp only
          split
          · exact Fine.err
          · exact fine_lockAndReply
          · trivial
        · trivial
      · exact ⟨fun h => (by cases h), fun out => Fine.commit⟩
  · trivial

theorem fine_readlink {B i} : (readlink B i).Fine false false := by
  refine ⟨fun h => (by cases h), fun out => ?_⟩
  simp only
  split
  · exact Fine.err
  · split
    · exact ⟨fun h => (by cases h), fun out => Fine.commit⟩
    · split
      · refine ⟨fun h => (by cases h), fun out => ?_⟩
        simp only
        split
        · exact Fine.err
        · exact ⟨fun _ r hr i => by rw [List.mem_singleton.mp hr]; rfl, .inl ⟨_, rfl⟩⟩
        · trivial
      · exact ⟨fun h => (by cases h), fun out => Fine.commit⟩
  · trivial

theorem fine_syncLoop {B base i k} (hk : k.Fine false false) : ∀ {l : List Bytes} {c}, (syncLoop B base i c l k).Fine false false
  | [], c => hk
  | n :: l, c => by
    unfold syncLoop
    split
    · exact fine_syncLoop hk
    · exact ⟨fun h => (by cases h), fun out => fine_syncLoop hk⟩

theorem fine_opendir {B i} : (opendir B i).Fine false false := by
  refine ⟨fun h => (by cases h), fun out => ?_⟩
  simp only
  split
  · exact Fine.err
  · split
    · split
      · exact Fine.commit
      · exact Fine.err
    · refine ⟨fun h => (by cases h), fun out => fine_syncLoop ?_⟩
      exact ⟨fun h => (by cases h), fun out => ⟨fun h => (by cases h), fun out => Fine.commit⟩⟩
  · trivial

theorem fine_readdirLoop {dir size k} (hk : ∀ pg, (k pg).Fine true true) : ∀ {f c buf s}, (readdirLoop dir size k f c buf s).Fine true true
  | 0, _, _, _ => trivial
  | f + 1, c, buf, s => by
    unfold readdirLoop
    split
    · refine ⟨fun _ => rfl, fun out => ?_⟩
      simp only
      split
      · exact hk _
      · refine ⟨fun _ => rfl, fun out => ?_⟩
        simp only
        split
        · exact hk _
        · exact fine_readdirLoop hk
        · trivial
      · trivial
    · exact hk _

theorem fine_readdir {dir size off f} : (readdir dir size off f).Fine true true := by
  have key : ∀ (e : Errno) (r : Reply), (∀ i, r.given i = 0) → (Prog.done false ((if e ≠ 0 then [Reply.err e] else []) ++ [r])).Fine true true := by
    intro e r hr
    by_cases he : e ≠ 0
    · rw [if_pos he]
      refine ⟨fun _ x hx i => ?_, .inr ⟨rfl, rfl, e, r, rfl⟩⟩
      simp only [List.cons_append, List.nil_append, List.mem_cons, List.not_mem_nil, or_false] at hx
      rcases hx with rfl | rfl
      · rfl
      · exact hr i
    · rw [if_neg he]
      refine ⟨fun _ x hx i => ?_, .inl ⟨r, rfl⟩⟩
      simp only [List.nil_append, List.mem_cons, List.not_mem_nil, or_false] at hx
      subst hx; exact hr i
  refine fine_readdirLoop (fun pg => ?_)
  simp only
  split
  · refine ⟨fun _ => rfl, fun out => ?_⟩
    simp only
    split
    · exact key _ _ (fun _ => rfl)
    · exact key _ _ (fun _ => rfl)
  · exact key _ _ (fun _ => rfl)

theorem fine_plusLoop {dir size k} (hk : ∀ pg, (k pg).Fine true false) : ∀ {f c buf s}, (plusLoop dir size k f c buf s).Fine true false
  | 0, _, _, _ => trivial
  | f + 1, c, buf, s => by
    unfold plusLoop
    split
    · refine ⟨fun _ => rfl, fun out => ?_⟩
      simp only
      split
      · exact hk _
      · refine ⟨fun _ => rfl, fun out => ?_⟩
        simp only
        split
        · exact hk _
        · split
          · exact fine_plusLoop hk
          · refine ⟨fun _ => rfl, fun out => ?_⟩
            simp only
            split
            · split
              · exact fine_plusLoop hk
              · exact Fine.err
            · exact fine_plusLoop hk
            · trivial
        · trivial
      · trivial
    · exact hk _

theorem fine_readdirplus {dir size off f} : (readdirplus dir size off f).Fine true false := by
  refine fine_plusLoop (fun pg => ?_)
  split
  · exact Fine.err
  · exact Fine.commit

theorem fine_forgetMulti : ∀ {l : List (Ino × Nat)}, (forgetMulti l).Fine true false
  | [] => Fine.commit
  | (_, _) :: _ => ⟨fun _ => rfl, fun _ => fine_forgetMulti⟩

/-- The request which may be answered twice. -/
def Req.isReaddir : Req → Bool
  | .readdir .. => true
  | _ => false

theorem prog_fine {B fuel rq P} (h : prog B fuel rq = some P) : P.Fine (readOnly rq) (Req.isReaddir rq) := by
  cases rq with
  | lookup => cases h; exact fine_lookup
  | forget =>
    cases h
    refine ⟨fun _ => rfl, fun out => ?_⟩
    simp only
    split
    · exact Fine.err
    · exact Fine.commit
    · trivial
  | getattr =>
    cases h
    refine ⟨fun _ => rfl, fun out => ?_⟩
    simp only
    split
    · exact Fine.err
    · exact ⟨fun _ r hr i => by rw [List.mem_singleton.mp hr]; rfl, .inl ⟨_, rfl⟩⟩
    · trivial
  | readlink => cases h; exact fine_readlink
  | opendir => cases h; exact fine_opendir
  | readdir => cases h; exact fine_readdir
  | releasedir => cases h
  | readdirplus => cases h; exact fine_readdirplus
  | forgetMulti => cases h; exact fine_forgetMulti
  | other => cases h

theorem Follow.fine {ro two P ops outs p} (h : Follow P ops outs p) (hP : P.Fine ro two) : p.Fine ro two := by
  induction h with
  | nil => exact hP
  | snoc _ ih => exact ih.2 _

/-- A program gives back at most `b`. -/
def Prog.Within (b : Ino → Nat) : Prog → Prop
  | .op o k => (∀ i, o.back i ≤ b i) ∧ ∀ out, Prog.Within (fun i => b i - o.back i) (k out)
  | .done _ _ => True
  | .stuck _ => True

/-- Neither the program nor what follows gives back anything. -/
def Prog.Keeps : Prog → Prop
  | .op o k => (∀ i, o.back i = 0) ∧ ∀ out, Prog.Keeps (k out)
  | .done _ _ => True
  | .stuck _ => True

theorem Prog.Keeps.within : ∀ {p : Prog}, p.Keeps → ∀ b, p.Within b
  | .op o k, h, b => ⟨fun i => by rw [h.1 i]; omega, fun out => (h.2 out).within _⟩
  | .done _ _, _, _ => trivial
  | .stuck _, _, _ => trivial

theorem keeps_lockAndReply {i a} : (lockAndReply i a).Keeps := by
  refine ⟨fun _ => rfl, fun out => ?_⟩
  simp only
  split <;> trivial

theorem keeps_lookup {B p n} : (lookup B p n).Keeps := by
  refine ⟨fun _ => rfl, fun out => ?_⟩
  simp only
  split
  · trivial
  · split
    · refine ⟨fun _ => rfl, fun out => ?_⟩
      simp only
      split
      · trivial
      · exact keeps_lockAndReply
      · trivial
    · split
      · refine ⟨fun _ => rfl, fun out => ?_⟩
        simp only
        split
        · split
          · refine ⟨fun _ => rfl, fun out => ?_⟩
            simp only
            split <;> trivial
          · trivial
        · refine ⟨fun _ => rfl, fun out => ?_⟩
          simp only
          split
          · trivial
          · exact keeps_lockAndReply
          · trivial
        · trivial
      · exact ⟨fun _ => rfl, fun out => trivial⟩
  · trivial

theorem keeps_readlink {B i} : (readlink B i).Keeps := by
  refine ⟨fun _ => rfl, fun out => ?_⟩
  simp only
  split
  · trivial
  · split
    · exact ⟨fun _ => rfl, fun out => trivial⟩
    · split
      · refine ⟨fun _ => rfl, fun out => ?_⟩
        simp only
        split <;> trivial
      · exact ⟨fun _ => rfl, fun out => trivial⟩
  · trivial

theorem keeps_syncLoop {B base i k} (hk : k.Keeps) : ∀ {l : List Bytes} {c}, (syncLoop B base i c l k).Keeps
  | [], c => hk
  | n :: l, c => by
    unfold syncLoop
    split
    · exact keeps_syncLoop hk
    · exact ⟨fun _ => rfl, fun out => keeps_syncLoop hk⟩

theorem keeps_opendir {B i} : (opendir B i).Keeps := by
  refine ⟨fun _ => rfl, fun out => ?_⟩
  simp only
  split
  · trivial
  · split
    · split <;> trivial
    · refine ⟨fun _ => rfl, fun out => keeps_syncLoop ?_⟩
      exact ⟨fun _ => rfl, fun out => ⟨fun _ => rfl, fun out => trivial⟩⟩
  · trivial

theorem keeps_readdirLoop {dir size k} (hk : ∀ pg, (k pg).Keeps) : ∀ {f c buf s}, (readdirLoop dir size k f c buf s).Keeps
  | 0, _, _, _ => trivial
  | f + 1, c, buf, s => by
    unfold readdirLoop
    split
    · refine ⟨fun _ => rfl, fun out => ?_⟩
      simp only
      split
      · exact hk _
      · refine ⟨fun _ => rfl, fun out => ?_⟩
        simp only
        split
        · exact hk _
        · exact keeps_readdirLoop hk
        · trivial
      · trivial
    · exact hk _

theorem keeps_readdir {dir size off f} : (readdir dir size off f).Keeps := by
  refine keeps_readdirLoop (fun pg => ?_)
  simp only
  split
  · refine ⟨fun _ => rfl, fun out => ?_⟩
    simp only
    split <;> trivial
  · trivial

theorem keeps_plusLoop {dir size k} (hk : ∀ pg, (k pg).Keeps) : ∀ {f c buf s}, (plusLoop dir size k f c buf s).Keeps
  | 0, _, _, _ => trivial
  | f + 1, c, buf, s => by
    unfold plusLoop
    split
    · refine ⟨fun _ => rfl, fun out => ?_⟩
      simp only
      split
      · exact hk _
      · refine ⟨fun _ => rfl, fun out => ?_⟩
        simp only
        split
        · exact hk _
        · split
          · exact keeps_plusLoop hk
          · refine ⟨fun _ => rfl, fun out => ?_⟩
            simp only
            split
            · split
              · exact keeps_plusLoop hk
              · trivial
            · exact keeps_plusLoop hk
            · trivial
        · trivial
      · trivial
    · exact hk _

theorem keeps_readdirplus {dir size off f} : (readdirplus dir size off f).Keeps := by
  refine keeps_plusLoop (fun pg => ?_)
  split <;> trivial

theorem within_forgetMulti : ∀ {l : List (Ino × Nat)} {b : Ino → Nat}, (∀ i, Req.returned i (.forgetMulti l) ≤ b i) → (forgetMulti l).Within b
  | [], _, _ => trivial
  | (j, n) :: l, b, h => by
    refine ⟨fun i => ?_, fun _ => within_forgetMulti (fun i => ?_)⟩
    · have := h i
      simp only [Req.returned, List.filter_cons, Op.back] at this ⊢
      by_cases e : j = i
      · subst e; simp at this; rw [if_pos rfl]; omega
      · rw [if_neg e]; omega
    · have := h i
      simp only [Req.returned, List.filter_cons, Op.back] at this ⊢
      by_cases e : j = i
      · subst e; simp at this ⊢; omega
      · rw [if_neg e]
        have e' : (j == i) = false := by simpa using e
        simp only [e', Bool.false_eq_true, if_false] at this
        omega

theorem prog_within {B fuel rq P} (h : prog B fuel rq = some P) : P.Within (fun i => rq.returned i) := by
  cases rq with
  | lookup => cases h; exact keeps_lookup.within _
  | forget j n =>
    cases h
    refine ⟨fun i => Nat.le_refl _, fun out => ?_⟩
    simp only
    split <;> trivial
  | getattr =>
    cases h
    refine ⟨fun i => Nat.le_refl _, fun out => ?_⟩
    simp only
    split <;> trivial
  | readlink => cases h; exact keeps_readlink.within _
  | opendir => cases h; exact keeps_opendir.within _
  | readdir => cases h; exact keeps_readdir.within _
  | releasedir => cases h
  | readdirplus => cases h; exact keeps_readdirplus.within _
  | forgetMulti => cases h; exact within_forgetMulti (fun _ => Nat.le_refl _)
  | other => cases h

/-- How much calls give back. -/
def backs (i : Ino) (ops : List Op) : Nat := (ops.map (Op.back i)).sum

theorem backs_snoc (i : Ino) (ops : List Op) (o : Op) : backs i (ops ++ [o]) = backs i ops + o.back i := by
  simp [backs]

theorem Follow.within {P ops outs p} {b : Ino → Nat} (h : Follow P ops outs p) (hP : P.Within b) :
    (∀ i, backs i ops ≤ b i) ∧ p.Within (fun i => b i - backs i ops) := by
  induction h with
  | nil => exact ⟨fun i => Nat.zero_le _, by simpa [backs] using hP⟩
  | @snoc ops outs o c out _ ih =>
    obtain ⟨h1, h2⟩ := ih
    refine ⟨fun i => ?_, ?_⟩
    · have := h2.1 i; have := h1 i; simp only at *; rw [backs_snoc]; omega
    · have := h2.2 out
      have e : (fun i => b i - backs i (ops ++ [o])) = (fun i => b i - backs i ops - o.back i) := by
        funext i; rw [backs_snoc]; omega
      rw [e]; exact this

end Dragonstash.MT
