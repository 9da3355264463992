/-
  Interleaved requests, and the same requests one after the other.
-/
import Verif.MT.Model
import Verif.MT.Seq
namespace Dragonstash.MT
open Cache FS Conc

/-- `OneByOne d0 r0 ds r H`: starting with databases `d0` and reference table `r0`, the requests of `H`
are handled one after the other, each without any other in between, by the handlers of
`Verif.FS.Model`; the replies are as `H` says, `ds` are the databases after 0, 1, 2, ... requests, and
`r` is the reference table at the end. Requests which only read the databases see those after
`q.ver` requests; the others the newest ones. -/
inductive OneByOne (d0 : DB) (r0 : Refs) : List DB → Refs → List Done → Prop
  | start : OneByOne d0 r0 [d0] r0 []
  | ro {ds r H q d d1 st} : OneByOne d0 r0 ds r H → readOnly q.rq = true → ds[q.ver]? = some d → ds.getLast? = some d1 →
      handle q.B { disk := d, refs := r } q.rq = .ok st → st.sent = [q.rep] → st.fault = none →
      OneByOne d0 r0 (ds ++ [d1]) st.refs (H ++ [q])
  | rw {ds r H q d st} : OneByOne d0 r0 ds r H → readOnly q.rq = false → ds.getLast? = some d →
      handle q.B { disk := d, refs := r } q.rq = .ok st → st.sent = [q.rep] → st.fault = none →
      OneByOne d0 r0 (ds ++ [st.disk]) st.refs (H ++ [q])

theorem OneByOne.length {d0 : DB} {r0 : Refs} {ds r H} (h : OneByOne d0 r0 ds r H) : ds.length = H.length + 1 := by
  induction h with
  | start => rfl
  | ro _ _ _ _ _ _ _ ih => simp [ih]
  | rw _ _ _ _ _ _ ih => simp [ih]

/-! ### Following a program -/

/-- `p` is what remains of `P` after the calls `ops`, which returned `outs`. -/
inductive Follow : Prog → List Op → List Out → Prog → Prop
  | nil {P} : Follow P [] [] P
  | snoc {P ops outs o c out} : Follow P ops outs (.op o c) → Follow P (ops ++ [o]) (outs ++ [out]) (c out)

theorem runOps_split {o : Op} : ∀ {os : List Op} {t x : Txn} {outs : List Out} {out : Out}, os.length = outs.length →
    runOps t (os ++ [o]) = .ok (x, outs ++ [out]) → ∃ t1, runOps t os = .ok (t1, outs) ∧ doOp t1 o = .ok (x, out)
  | [], t, x, outs, out, hlen, h => by
    obtain rfl : outs = [] := List.length_eq_zero_iff.mp hlen.symm
    simp only [List.nil_append, runOps] at h
    rcases hd : doOp t o with e | ⟨t1, o1⟩
    · rw [hd] at h; cases h
    · rw [hd] at h; cases h; exact ⟨t, rfl, hd⟩
  | a :: os, t, x, outs, out, hlen, h => by
    obtain ⟨b, outs, rfl⟩ : ∃ b l, outs = b :: l := by
      cases outs with
      | nil => simp at hlen
      | cons b l => exact ⟨b, l, rfl⟩
    simp only [List.cons_append, runOps] at h
    rcases hd : doOp t a with e | ⟨t1, o1⟩
    · rw [hd] at h; cases h
    · rw [hd] at h
      simp only at h
      rcases hr : runOps t1 (os ++ [o]) with e | ⟨t2, outs2⟩
      · rw [hr] at h; cases h
      · rw [hr] at h
        simp only [Except.ok.injEq, Prod.mk.injEq, List.cons.injEq] at h
        obtain ⟨rfl, rfl, rfl⟩ := h
        obtain ⟨t3, h1, h2⟩ := runOps_split (by simpa using hlen) hr
        exact ⟨t3, by simp only [runOps, hd, h1], h2⟩

theorem Follow.len {P : Prog} {ops outs p} (h : Follow P ops outs p) : ops.length = outs.length := by
  induction h with
  | nil => rfl
  | snoc _ ih => simp [ih]

/-- Running the program is running its calls, and then what remains. -/
theorem Follow.run {P : Prog} {ops outs p} (h : Follow P ops outs p) : ∀ {t x : Txn}, runOps t ops = .ok (x, outs) → P.run t = p.run x := by
  induction h with
  | nil => intro t x h; cases h; rfl
  | @snoc ops outs o c out hf ih =>
    intro t x hr
    obtain ⟨t1, h1, h2⟩ := runOps_split hf.len hr
    rw [ih h1, run_op h2]

/-! ### Serial histories are determined -/

theorem worksOn_inj {vs : List DB} {l : Log} {d d' : DB} (h : WorksOn vs l d) (h' : WorksOn vs l d') : d = d' := by
  unfold WorksOn at h h'
  cases hr : l.ro with
  | true =>
    rw [hr, if_pos rfl] at h h'
    obtain ⟨n, o, e1, e2⟩ := h
    obtain ⟨n', o', e1', e2'⟩ := h'
    have hl : n.length = n'.length := by
      have h1 := congrArg List.length e1
      have h2 := congrArg List.length e1'
      simp at h1 h2; omega
    rw [e1] at e1'
    have := (List.append_inj e1' hl).2
    cases this; rfl
  | false =>
    rw [hr, if_neg (by simp)] at h h'
    obtain ⟨o, e1⟩ := h
    obtain ⟨o', e1'⟩ := h'
    rw [e1] at e1'; cases e1'; rfl

theorem serial_snoc {d0 : DB} {r0 : Refs} {vs r H l e} (h : Serial d0 r0 vs r (H ++ [(l, e)])) :
    ∃ vs1 r1 d x, Serial d0 r0 vs1 r1 H ∧ WorksOn vs1 l d ∧ runOps ⟨d, r1, none, []⟩ l.ops = .ok (x, l.outs) ∧
      (e = .commit → vs = (if l.ro then vs1 else x.db :: vs1) ∧ r = x.refs) ∧
      (e = .drop → vs = vs1 ∧ r = x.refs) ∧ (e = .abort → vs = vs1 ∧ undoAll x.refs x.hooks.reverse = .ok r) := by
  generalize hH : H ++ [(l, e)] = H' at h
  cases h with
  | start => simp at hH
  | @commit vs1 r1 H1 l1 d x h1 h2 h3 h4 =>
    have := List.append_inj' hH rfl
    obtain ⟨rfl, h5⟩ := this; cases h5
    exact ⟨vs1, r1, d, x, h1, h3, h4, fun _ => ⟨rfl, rfl⟩, fun h => (by cases h), fun h => (by cases h)⟩
  | @abort vs1 r1 H1 l1 d x r' h1 h2 h3 h4 hu =>
    have := List.append_inj' hH rfl
    obtain ⟨rfl, h5⟩ := this; cases h5
    exact ⟨_, r1, d, x, h1, h3, h4, fun h => (by cases h), fun h => (by cases h), fun _ => ⟨rfl, hu⟩⟩
  | @drop vs1 r1 H1 l1 d x h1 h2 h3 h4 =>
    have := List.append_inj' hH rfl
    obtain ⟨rfl, h5⟩ := this; cases h5
    exact ⟨_, r1, d, x, h1, h3, h4, fun h => (by cases h), fun _ => ⟨rfl, rfl⟩, fun h => (by cases h)⟩

theorem serial_det {d0 : DB} {r0 : Refs} {vs r H} (h : Serial d0 r0 vs r H) : ∀ {vs' r'}, Serial d0 r0 vs' r' H → vs' = vs ∧ r' = r := by
  induction h with
  | start =>
    intro vs' r' h'
    generalize hH : ([] : List (Log × End)) = H' at h'
    cases h' with
    | start => exact ⟨rfl, rfl⟩
    | _ => simp at hH
  | @commit vs1 r1 H1 l1 d x h1 h2 h3 h4 ih =>
    intro vs' r' h'
    obtain ⟨vs2, r2, d2, x2, g1, g2, g3, g4, -, -⟩ := serial_snoc h'
    obtain ⟨rfl, rfl⟩ := ih g1
    obtain rfl := worksOn_inj h3 g2
    rw [h4] at g3; cases g3
    exact g4 rfl
  | @abort vs1 r1 H1 l1 d x r' h1 h2 h3 h4 hu ih =>
    intro vs' r' h'
    obtain ⟨vs2, r2, d2, x2, g1, g2, g3, -, -, g4⟩ := serial_snoc h'
    obtain ⟨rfl, rfl⟩ := ih g1
    obtain rfl := worksOn_inj h3 g2
    rw [h4] at g3; cases g3
    obtain ⟨e1, e2⟩ := g4 rfl
    rw [hu] at e2; cases e2
    exact ⟨e1, rfl⟩
  | @drop vs1 r1 H1 l1 d x h1 h2 h3 h4 ih =>
    intro vs' r' h'
    obtain ⟨vs2, r2, d2, x2, g1, g2, g3, -, g4, -⟩ := serial_snoc h'
    obtain ⟨rfl, rfl⟩ := ih g1
    obtain rfl := worksOn_inj h3 g2
    rw [h4] at g3; cases g3
    exact g4 rfl

end Dragonstash.MT
