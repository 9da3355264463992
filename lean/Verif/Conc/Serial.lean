/-
  Interleaved transactions, and the same transactions one after the other.
-/
import Verif.Conc.Inv
namespace Dragonstash.Conc
open Cache Codec

/-- What a top-level transaction (without nested ones) did: whether it is read-only, how many versions
of the databases had been committed when it began, its operations and what they returned. -/
structure Log where
  ro : Bool
  ver : Nat
  ops : List Op := []
  outs : List Out := []

/-- How it ended. -/
inductive End where
  | commit | abort | drop
  deriving DecidableEq

def End.act : End → Act
  | .commit => .commit
  | .abort => .abort
  | .drop => .drop

/-! ### One after the other -/

/-- The operations of a transaction, undisturbed. -/
def runOps (t : Txn) : List Op → M (Txn × List Out)
  | [] => .ok (t, [])
  | o :: os => match doOp t o with
    | .error e => .error e
    | .ok (t1, out) => match runOps t1 os with
      | .error e => .error e
      | .ok (t2, outs) => .ok (t2, out :: outs)

/-- The databases a transaction works on: `vs` are the committed versions, newest first. A write
transaction works on the newest; a read-only one on the one which was the newest when it began. -/
def WorksOn (vs : List DB) (l : Log) (d : DB) : Prop :=
  if l.ro then ∃ newer older, vs = newer ++ d :: older ∧ older.length + 1 = l.ver
  else ∃ older, vs = d :: older

/-- `Serial d0 r0 vs r H`: starting with databases `d0` and reference table `r0`, running the
transactions of `H` one after the other, each without any other in between, gives the committed
versions `vs` and the table `r`, and the operations return what `H` says. -/
inductive Serial (d0 : DB) (r0 : Refs) : List DB → Refs → List (Log × End) → Prop
  | start : Serial d0 r0 [d0] r0 []
  | commit {vs r H l d x} : Serial d0 r0 vs r H → (l.ro = true → ∀ o ∈ l.ops, o.isRO = true) →
      WorksOn vs l d → runOps ⟨d, r, none, []⟩ l.ops = .ok (x, l.outs) →
      Serial d0 r0 (if l.ro then vs else x.db :: vs) x.refs (H ++ [(l, .commit)])
  | abort {vs r H l d x r'} : Serial d0 r0 vs r H → (l.ro = true → ∀ o ∈ l.ops, o.isRO = true) →
      WorksOn vs l d → runOps ⟨d, r, none, []⟩ l.ops = .ok (x, l.outs) → undoAll x.refs x.hooks.reverse = .ok r' →
      Serial d0 r0 vs r' (H ++ [(l, .abort)])
  | drop {vs r H l d x} : Serial d0 r0 vs r H → (l.ro = true → ∀ o ∈ l.ops, o.isRO = true) →
      WorksOn vs l d → runOps ⟨d, r, none, []⟩ l.ops = .ok (x, l.outs) →
      Serial d0 r0 vs x.refs (H ++ [(l, .drop)])

/-! ### Interleaved -/

/-- How many versions have been committed. -/
def versions (H : List (Log × End)) : Nat := 1 + (H.filter (fun e => !e.1.ro && (e.2 == .commit))).length

def setLog (L : Nat → Option Log) (k : Nat) (l : Option Log) : Nat → Option Log := fun j => if j = k then l else L j

/-- `Flat d0 r0 w L H`: an interleaving of transactions without nested ones leads to `w`; `L` are the
logs of the open transactions, and `H` of those which ended, in the order in which they ended. -/
inductive Flat (d0 : DB) (r0 : Refs) : CWorld → (Nat → Option Log) → List (Log × End) → Prop
  | start : Flat d0 r0 (CWorld.start d0 r0) (fun _ => none) []
  | beginRO {w L H k th w' out} : Flat d0 r0 w L H → w.step (.beginRO k th) = .done w' out →
      Flat d0 r0 w' (setLog L k (some { ro := true, ver := versions H })) H
  | beginRW {w L H k th w' out} : Flat d0 r0 w L H → w.step (.beginRW k th) = .done w' out →
      Flat d0 r0 w' (setLog L k (some { ro := false, ver := versions H })) H
  | op {w L H k o w' out l} : Flat d0 r0 w L H → w.step (.on k (.op o)) = .done w' out → L k = some l →
      Flat d0 r0 w' (setLog L k (some { l with ops := l.ops ++ [o], outs := l.outs ++ [out] })) H
  | ends {w L H k e w' out l} : Flat d0 r0 w L H → w.step (.on k (End.act e)) = .done w' out → L k = some l →
      Flat d0 r0 w' (setLog L k none) (H ++ [(l, e)])
  | finish {w L H k w' out} : Flat d0 r0 w L H → w.step (.on k .finish) = .done w' out → Flat d0 r0 w' L H

/-! ### The invariant -/

theorem runOps_snoc {o : Op} : ∀ {os : List Op} {t t1 t2 : Txn} {outs : List Out} {out : Out}, runOps t os = .ok (t1, outs) →
    doOp t1 o = .ok (t2, out) → runOps t (os ++ [o]) = .ok (t2, outs ++ [out])
  | [], t, t1, t2, outs, out, h1, h2 => by cases h1; simp only [List.nil_append, runOps, h2]
  | a :: os, t, t1, t2, outs, out, h1, h2 => by
    simp only [runOps] at h1
    cases ha : doOp t a with
    | error e => rw [ha] at h1; cases h1
    | ok x =>
      obtain ⟨t', o'⟩ := x
      rw [ha] at h1
      simp only at h1
      cases hb : runOps t' os with
      | error e => rw [hb] at h1; cases h1
      | ok y =>
        obtain ⟨t'', os'⟩ := y
        rw [hb] at h1; cases h1
        have := runOps_snoc hb h2
        simp only [List.cons_append, runOps, ha, this]

theorem versions_snoc {H : List (Log × End)} {l : Log} {e : End} :
    versions (H ++ [(l, e)]) = versions H + (if !l.ro && (e == .commit) then 1 else 0) := by
  unfold versions
  rw [List.filter_append, List.length_append]
  cases h : (!l.ro && (e == .commit)) <;> simp [h] <;> omega

theorem Serial.length {d0 : DB} {r0 : Refs} {vs r H} (h : Serial d0 r0 vs r H) : vs.length = versions H := by
  induction h with
  | start => rfl
  | @commit vs r H l d x _ _ _ _ ih => rw [versions_snoc]; cases hl : l.ro <;> simp [ih]
  | abort _ _ _ _ _ ih => rw [versions_snoc, ih]; simp
  | drop _ _ _ _ ih => rw [versions_snoc, ih]; simp

/-- What is true of an open transaction: its operations, run at the present end `R` of the serial
history, give its state. -/
structure OpenOK (w : CWorld) (vs : List DB) (R : Refs) (k : Nat) (f : CFrame) (l : Log) : Prop where
  ro : f.fr.ro = l.ro
  only : l.ro = true → ∀ o ∈ l.ops, o.isRO = true
  runs : ∃ d, WorksOn vs l d ∧
    (w.mutex = some k → runOps ⟨d, R, none, []⟩ l.ops = .ok (f.fr.txn w.refs, l.outs)) ∧
    (w.mutex ≠ some k → ∀ r, runOps ⟨d, r, none, []⟩ l.ops = .ok (f.fr.txn r, l.outs))

structure SerInv (d0 : DB) (r0 : Refs) (w : CWorld) (L : Nat → Option Log) (H : List (Log × End)) (vs : List DB) (R : Refs) : Prop where
  lock : LockInv w
  serial : Serial d0 r0 (w.disk :: vs) R H
  logs : ∀ k, (∃ t f, w.txns k = some t ∧ t.frames = f :: []) ↔ (∃ l, L k = some l)
  flat : ∀ k t, w.txns k = some t → t.frames = [] ∨ ∃ f, t.frames = [f]
  refs : (∀ k t f, w.txns k = some t → t.frames = [f] → w.mutex ≠ some k) → R = w.refs
  opens : ∀ k t f l, w.txns k = some t → t.frames = [f] → L k = some l → OpenOK w (w.disk :: vs) R k f l

/-- Another transaction's step: this one is not affected. -/
theorem OpenOK.other {w w' : CWorld} {vs vs' : List DB} {R R' : Refs} {k : Nat} {f : CFrame} {l : Log} (h : OpenOK w vs R k f l)
    (hvs : (∃ a, vs' = a ++ vs ∧ l.ro = true) ∨ vs' = vs) (h1 : w.mutex = some k → w'.mutex = some k ∧ R' = R ∧ w'.refs = w.refs) (h2 : w.mutex ≠ some k → w'.mutex ≠ some k) :
    OpenOK w' vs' R' k f l := by
  refine ⟨h.ro, h.only, ?_⟩
  obtain ⟨d, hd, h3, h4⟩ := h.runs
  refine ⟨d, ?_, ?_, ?_⟩
  · rcases hvs with ⟨a, rfl, hro⟩ | rfl
    · unfold WorksOn at hd ⊢
      rw [if_pos hro] at hd ⊢
      obtain ⟨n, o, e1, e2⟩ := hd
      exact ⟨a ++ n, o, by rw [e1, List.append_assoc], e2⟩
    · exact hd
  · intro hm
    by_cases e : w.mutex = some k
    · obtain ⟨-, e2, e3⟩ := h1 e
      rw [e2, e3]; exact h3 e
    · exact absurd hm (h2 e)
  · intro hm
    by_cases e : w.mutex = some k
    · exact absurd (h1 e).1 hm
    · exact h4 e

theorem SerInv.noMutex {d0 : DB} {r0 : Refs} {w : CWorld} {L H vs R} (h : SerInv d0 r0 w L H vs R) (hm : w.mutex = none) : R = w.refs :=
  h.refs (fun k t f _ _ => by rw [hm]; intro e; cases e)

/-- Beginning. -/
theorem SerInv.begin {d0 : DB} {r0 : Refs} {w w' : CWorld} {L H vs R} (h : SerInv d0 r0 w L H vs R) {k : Nat} (hk : w.txns k = none)
    {t : CTxn} {l : Log} {b : Bool} (hl : LockInv w') (e1 : ∀ j, w'.txns j = if j = k then some t else w.txns j) (e2 : w'.disk = w.disk) (e3 : w'.refs = w.refs)
    (e4 : w'.mutex = w.mutex) (ht : t.frames = [⟨{ db := w.disk, ro := b }, false⟩]) (hlog : l = { ro := b, ver := versions H }) :
    SerInv d0 r0 w' (setLog L k (some l)) H vs R := by
  have hmk : w.mutex ≠ some k := by
    intro e; obtain ⟨u, hu, -⟩ := h.lock.mx' k e; rw [hk] at hu; cases hu
  refine ⟨hl, by rw [e2]; exact h.serial, fun j => ?_, fun j u hj => ?_, fun hno => ?_, fun j u f lj hj hf hlj => ?_⟩
  · rw [e1]; unfold setLog
    by_cases e : j = k
    · rw [if_pos e, if_pos e]; exact ⟨fun _ => ⟨l, rfl⟩, fun _ => ⟨t, _, rfl, ht⟩⟩
    · rw [if_neg e, if_neg e]; exact h.logs j
  · rw [e1] at hj
    by_cases e : j = k
    · rw [if_pos e] at hj; cases hj; exact .inr ⟨_, ht⟩
    · rw [if_neg e] at hj; exact h.flat j u hj
  · rw [e3]
    refine h.refs (fun j u f hj hf => ?_)
    have e : j ≠ k := by rintro rfl; rw [hk] at hj; cases hj
    have := hno j u f (by rw [e1, if_neg e]; exact hj) hf
    rw [e4] at this; exact this
  · rw [e1] at hj
    unfold setLog at hlj
    by_cases e : j = k
    · rw [if_pos e] at hj hlj; cases hj; cases hlj
      rw [ht] at hf; cases hf
      subst e
      subst hlog
      refine ⟨rfl, fun _ o ho => (by cases ho), w.disk, ?_, fun hm => ?_, fun _ r => ?_⟩
      · rw [e2]
        unfold WorksOn
        cases b with
        | true =>
          rw [if_pos rfl]
          refine ⟨[], vs, rfl, ?_⟩
          have := h.serial.length
          simpa using this
        | false => rw [if_neg (by simp)]; exact ⟨vs, rfl⟩
      · rw [e4] at hm; exact absurd hm hmk
      · rfl
    · rw [if_neg e] at hj hlj
      rw [e2]
      exact (h.opens j u f lj hj hf hlj).other (.inr rfl) (fun hm => ⟨by rw [e4]; exact hm, rfl, e3⟩) (fun hm => by rw [e4]; exact hm)

/-- Ending. -/
theorem SerInv.ending {d0 : DB} {r0 : Refs} {w w' : CWorld} {L H vs R vs' R'} (h : SerInv d0 r0 w L H vs R) {k : Nat} {t u : CTxn} {f : CFrame} {l : Log} {e : End}
    (hk : w.txns k = some t) (hf : t.frames = [f])
    (hl' : LockInv w') (e1 : ∀ j, w'.txns j = if j = k then some u else w.txns j) (hu : u.frames = [])
    (hser : Serial d0 r0 (w'.disk :: vs') R' (H ++ [(l, e)]))
    (hvs : (w'.disk :: vs' = w.disk :: vs) ∨ ((∃ a, w'.disk :: vs' = a ++ w.disk :: vs) ∧ f.fr.ro = false))
    (hmx : w.mutex = some k → R' = w'.refs)
    (hmx' : w.mutex ≠ some k → R' = R ∧ w'.refs = w.refs)
    (hm1 : ∀ j, j ≠ k → (w'.mutex = some j ↔ w.mutex = some j)) :
    SerInv d0 r0 w' (setLog L k none) (H ++ [(l, e)]) vs' R' := by
  refine ⟨hl', hser, fun j => ?_, fun j v hj => ?_, fun hno => ?_, fun j v g lj hj hg hlj => ?_⟩
  · rw [e1]; unfold setLog
    by_cases ej : j = k
    · rw [if_pos ej, if_pos ej]
      constructor
      · rintro ⟨t', f', h1, h2⟩; cases h1; rw [hu] at h2; cases h2
      · rintro ⟨l', h1⟩; cases h1
    · rw [if_neg ej, if_neg ej]; exact h.logs j
  · rw [e1] at hj
    by_cases ej : j = k
    · rw [if_pos ej] at hj; cases hj; exact .inl hu
    · rw [if_neg ej] at hj; exact h.flat j v hj
  · by_cases hm : w.mutex = some k
    · exact hmx hm
    · obtain ⟨a1, a2⟩ := hmx' hm
      rw [a1, a2]
      refine h.refs (fun j v g hj hg => ?_)
      by_cases ej : j = k
      · subst ej; exact hm
      · have := hno j v g (by rw [e1, if_neg ej]; exact hj) hg
        exact fun e => this ((hm1 j ej).mpr e)
  · rw [e1] at hj
    unfold setLog at hlj
    by_cases ej : j = k
    · rw [if_pos ej] at hlj; cases hlj
    · rw [if_neg ej] at hj hlj
      have ho := h.opens j v g lj hj hg hlj
      refine ho.other ?_ (fun hm => ?_) (fun hm e => hm ((hm1 j ej).mp e))
      · rcases hvs with e | ⟨⟨a, e⟩, hro⟩
        · exact .inr e
        · refine .inl ⟨a, e, ?_⟩
          cases hr : lj.ro with
          | true => rfl
          | false =>
            exfalso
            have w1 := h.lock.wr k t hk ((h.lock.txn k t hk).rw f (by rw [hf]; simp) hro)
            have w2 := h.lock.wr j v hj ((h.lock.txn j v hj).rw g (by rw [hg]; simp) (by rw [ho.ro, hr]))
            rw [w1] at w2; cases w2; exact ej rfl
      · have hm' : w.mutex ≠ some k := by rw [hm]; intro e; cases e; exact ej rfl
        obtain ⟨a1, a2⟩ := hmx' hm'
        exact ⟨(hm1 j ej).mpr hm, a1, a2⟩

theorem SerInv.holds {d0 : DB} {r0 : Refs} {w : CWorld} {L H vs R} (h : SerInv d0 r0 w L H vs R) {k : Nat} {t : CTxn} {f : CFrame}
    (hk : w.txns k = some t) (hf : t.frames = [f]) : (f.mx = true ↔ w.mutex = some k) ∧ t.tailM = false := by
  have htl : t.tailM = false := by
    cases ht : t.tailM with
    | false => rfl
    | true => have := (h.lock.txn k t hk).tail ht; rw [hf] at this; cases this
  refine ⟨?_, htl⟩
  rw [← h.lock.has hk]
  unfold CTxn.hasMutex
  rw [htl, hf]; simp

theorem SerInv.noHooks {d0 : DB} {r0 : Refs} {w : CWorld} {L H vs R} (h : SerInv d0 r0 w L H vs R) {k : Nat} {t : CTxn} {f : CFrame}
    (hk : w.txns k = some t) (hf : t.frames = [f]) (hm : w.mutex ≠ some k) : f.fr.hooks = [] := by
  by_cases e : f.fr.hooks = []
  · exact e
  · exfalso
    have := (h.lock.txn k t hk).hooks [] f [] hf e
    simp only [List.any_cons, List.any_nil, Bool.or_false] at this
    exact hm ((h.holds hk hf).1.mp this)

/-- The state of an open transaction is what its operations give when run now. -/
theorem SerInv.runs {d0 : DB} {r0 : Refs} {w : CWorld} {L H vs R} (h : SerInv d0 r0 w L H vs R) {k : Nat} {t : CTxn} {f : CFrame} {l : Log}
    (hk : w.txns k = some t) (hf : t.frames = [f]) (hl : L k = some l) :
    ∃ d, WorksOn (w.disk :: vs) l d ∧ runOps ⟨d, R, none, []⟩ l.ops = .ok (f.fr.txn (if w.mutex = some k then w.refs else R), l.outs) := by
  obtain ⟨d, h1, h2, h3⟩ := (h.opens k t f l hk hf hl).runs
  refine ⟨d, h1, ?_⟩
  by_cases hm : w.mutex = some k
  · rw [if_pos hm]; exact h2 hm
  · rw [if_neg hm]; exact h3 hm R

theorem Flat.inv {d0 : DB} {r0 : Refs} {w L H} (h : Flat d0 r0 w L H) : ∃ vs R, SerInv d0 r0 w L H vs R := by
  induction h with
  | start =>
    refine ⟨[], r0, ⟨fun _ _ h => (by cases h), fun _ h => (by cases h), fun _ _ h => (by cases h), fun _ h => (by cases h), fun _ _ h => (by cases h)⟩, .start,
      fun k => ⟨fun ⟨_, _, h, _⟩ => (by cases h), fun ⟨_, h⟩ => (by cases h)⟩, fun _ _ h => (by cases h), fun _ => rfl, fun _ _ _ _ h => (by cases h)⟩
  | @beginRO w L H k th w' out _ hs ih =>
    obtain ⟨vs, R, ih⟩ := ih
    have hs' := step_inv hs
    have hl := ih.lock.step hs'
    cases hs' with
    | beginRO hk => exact ⟨vs, R, ih.begin hk hl (fun j => rfl) rfl rfl rfl rfl rfl⟩
  | @beginRW w L H k th w' out _ hs ih =>
    obtain ⟨vs, R, ih⟩ := ih
    have hs' := step_inv hs
    have hl := ih.lock.step hs'
    cases hs' with
    | beginRW hk => exact ⟨vs, R, ih.begin hk hl (fun j => rfl) rfl rfl rfl rfl rfl⟩
  | @op w L H k o w' out l _ hs hlk ih =>
    obtain ⟨vs, R, ih⟩ := ih
    have hs' := step_inv hs
    have hl := ih.lock.step hs'
    cases hs' with
    | @op _ t f r _ x _ mx hk hf hro hdo hask hmx =>
      obtain rfl : r = [] := by
        rcases ih.flat k t hk with e | ⟨g, e⟩
        · rw [hf] at e; cases e
        · rw [hf] at e; cases e; rfl
      have ho := ih.opens k t f l hk hf hlk
      have hh := ih.holds hk hf
      -- a call which does not have the mutex afterwards did not need the table
      have noask : mx = false → w.mutex ≠ some k → asksRefs f.fr.db o = false := by
        intro h1 h2
        cases ha : asksRefs f.fr.db o with
        | false => rfl
        | true =>
          rcases hask ha with e | e
          · rw [h1] at e; cases e
          · rw [hf] at e
            simp only [List.any_cons, List.any_nil, Bool.or_false] at e
            exact absurd (hh.1.mp e) h2
      have hxr : mx = false → w.mutex ≠ some k → x.refs = w.refs := fun h1 h2 =>
        ((doOp_norefs (t := f.fr.txn w.refs) (noask h1 h2) w.refs).2 x out hdo).1
      refine ⟨vs, R, hl, ih.serial, fun j => ?_, fun j u hj => ?_, fun hno => ?_, fun j u g lj hj hg hlj => ?_⟩
      · simp only [CWorld.set, setLog]
        by_cases e : j = k
        · rw [if_pos e, if_pos e]; exact ⟨fun _ => ⟨_, rfl⟩, fun _ => ⟨_, _, rfl, rfl⟩⟩
        · rw [if_neg e, if_neg e]; exact ih.logs j
      · simp only [CWorld.set] at hj
        by_cases e : j = k
        · rw [if_pos e] at hj; cases hj; exact .inr ⟨_, rfl⟩
        · rw [if_neg e] at hj; exact ih.flat j u hj
      · have h1 := hno k { t with frames := [⟨⟨x.db, x.rewrite, x.hooks, f.fr.ro⟩, f.mx || mx⟩] } _ (by simp only [CWorld.set, if_true]) rfl
        simp only at h1 ⊢
        have hmx0 : mx = false := by
          cases mx with
          | false => rfl
          | true => simp at h1
        rw [hmx0] at h1
        simp only [Bool.false_eq_true, if_false] at h1
        rw [hxr hmx0 h1]
        refine ih.refs (fun j u g hj hg => ?_)
        by_cases e : j = k
        · subst e; exact h1
        · have := hno j u g (by simp only [CWorld.set, if_neg e]; exact hj) hg
          simp only [hmx0, Bool.false_eq_true, if_false] at this
          exact this
      · simp only [CWorld.set, setLog] at hj hlj
        by_cases e : j = k
        · rw [if_pos e] at hj hlj; cases hj; cases hlj
          subst e
          simp only [List.cons.injEq, and_true] at hg
          subst hg
          refine ⟨ho.ro, fun hr o' ho' => ?_, ?_⟩
          · rcases List.mem_append.mp ho' with h1 | h1
            · exact ho.only hr o' h1
            · simp only [List.mem_singleton] at h1; subst h1
              exact hro (by rw [ho.ro]; exact hr)
          · obtain ⟨d, h1, h2, h3⟩ := ho.runs
            refine ⟨d, h1, fun hm => ?_, fun hm r => ?_⟩
            · simp only at hm ⊢
              cases mx with
              | true =>
                obtain ⟨-, -, hn⟩ := hmx rfl
                have hR := ih.noMutex hn
                rw [hR]
                exact runOps_snoc (h3 (by rw [hn]; intro e; cases e) w.refs) hdo
              | false =>
                simp only [Bool.false_eq_true, if_false] at hm
                exact runOps_snoc (h2 hm) hdo
            · simp only at hm ⊢
              have hmx0 : mx = false := by
                cases mx with
                | false => rfl
                | true => simp at hm
              rw [hmx0] at hm
              simp only [Bool.false_eq_true, if_false] at hm
              have := (doOp_norefs (t := f.fr.txn w.refs) (noask hmx0 hm) r).1
              rw [hdo] at this
              exact runOps_snoc (h3 hm r) this
        · rw [if_neg e] at hj hlj
          refine (ih.opens j u g lj hj hg hlj).other (.inr rfl) (fun hm => ?_) (fun hm => ?_)
          · have hk' : w.mutex ≠ some k := by rw [hm]; intro h; cases h; exact e rfl
            have hmx0 : mx = false := by
              cases mx with
              | false => rfl
              | true => have := (hmx rfl).2.2; rw [hm] at this; cases this
            exact ⟨by simp [hmx0, hm], rfl, hxr hmx0 hk'⟩
          · simp only
            cases mx with
            | true => simp only [if_true]; intro h; cases h; exact e rfl
            | false => simpa using hm
  | @ends w L H k e w' out l _ hs hlk ih =>
    obtain ⟨vs, R, ih⟩ := ih
    have hs' := step_inv hs
    have hl := ih.lock.step hs'
    cases e with
    | commit =>
      simp only [End.act] at hs'
      cases hs' with
      | @commit _ t f hk hf =>
        have ho := ih.opens k t f l hk hf hlk
        obtain ⟨d, hd, hrun⟩ := ih.runs hk hf hlk
        have hser := Serial.commit ih.serial ho.only hd hrun
        have hm1 : ∀ j, j ≠ k → (w.mutex = some j ↔ w.mutex = some j) := fun _ _ => Iff.rfl
        cases hro : l.ro with
        | true =>
          rw [hro, if_pos rfl] at hser
          refine ⟨vs, (if w.mutex = some k then w.refs else R), ih.ending (u := { t with frames := [], wr := false, tailM := f.mx }) hk hf hl (fun j => rfl) rfl ?_ (.inl ?_) (fun hm => ?_) (fun hm => ⟨?_, rfl⟩) hm1⟩
          · simp only [ho.ro, hro, if_true]; exact hser
          · simp only [ho.ro, hro, if_true]
          · rw [if_pos hm]; rfl
          · rw [if_neg hm]
        | false =>
          rw [hro, if_neg (by simp)] at hser
          refine ⟨w.disk :: vs, (if w.mutex = some k then w.refs else R), ih.ending (u := { t with frames := [], wr := false, tailM := f.mx }) hk hf hl (fun j => rfl) rfl ?_ (.inr ⟨⟨[f.fr.db], ?_⟩, by rw [ho.ro, hro]⟩) (fun hm => ?_) (fun hm => ⟨?_, rfl⟩) hm1⟩
          · simp only [ho.ro, hro, Bool.false_eq_true, if_false]; exact hser
          · simp only [ho.ro, hro, Bool.false_eq_true, if_false]; rfl
          · rw [if_pos hm]; rfl
          · rw [if_neg hm]
      | @commitNested _ t f g r hk hf =>
        exfalso
        rcases ih.flat k t hk with e | ⟨g, e⟩ <;> rw [hf] at e <;> cases e
    | abort =>
      simp only [End.act] at hs'
      cases hs' with
      | @abort _ t f refs hk hf hu =>
        have ho := ih.opens k t f l hk hf hlk
        obtain ⟨d, hd, hrun⟩ := ih.runs hk hf hlk
        have hm1 : ∀ j, j ≠ k → (w.mutex = some j ↔ w.mutex = some j) := fun _ _ => Iff.rfl
        by_cases hm : w.mutex = some k
        · rw [if_pos hm] at hrun
          have hser := Serial.abort ih.serial ho.only hd hrun hu
          exact ⟨vs, refs, ih.ending (u := { t with frames := [], wr := false, tailM := f.mx }) hk hf hl (fun j => rfl) rfl hser (.inl rfl) (fun _ => rfl) (fun h => absurd hm h) hm1⟩
        · rw [if_neg hm] at hrun
          have hh := ih.noHooks hk hf hm
          rw [hh] at hu; cases hu
          have hser := Serial.abort (r' := R) ih.serial ho.only hd hrun (by simp only [Frame.txn, hh]; rfl)
          exact ⟨vs, R, ih.ending (u := { t with frames := [], wr := false, tailM := f.mx }) hk hf hl (fun j => rfl) rfl hser (.inl rfl) (fun h => absurd h hm) (fun _ => ⟨rfl, rfl⟩) hm1⟩
      | @abortNested _ t f g r refs hk hf hu =>
        exfalso
        rcases ih.flat k t hk with e | ⟨g, e⟩ <;> rw [hf] at e <;> cases e
    | drop =>
      simp only [End.act] at hs'
      cases hs' with
      | @drop _ t f r hk hf =>
        obtain rfl : r = [] := by
          rcases ih.flat k t hk with e | ⟨g, e⟩
          · rw [hf] at e; cases e
          · rw [hf] at e; cases e; rfl
        have ho := ih.opens k t f l hk hf hlk
        have hh := ih.holds hk hf
        obtain ⟨d, hd, hrun⟩ := ih.runs hk hf hlk
        have hser := Serial.drop ih.serial ho.only hd hrun
        refine ⟨vs, (if w.mutex = some k then w.refs else R), ih.ending (u := { t with frames := [] }) hk hf hl (fun j => rfl) rfl hser (.inl rfl) (fun hm => ?_) (fun hm => ⟨?_, rfl⟩) (fun j hj => ?_)⟩
        · rw [if_pos hm]; rfl
        · rw [if_neg hm]
        · simp only
          cases hm : f.mx with
          | false => simp
          | true =>
            have := hh.1.mp hm
            rw [this]; simp; exact fun h => hj h.symm
  | @finish w L H k w' out _ hs ih =>
    obtain ⟨vs, R, ih⟩ := ih
    have hs' := step_inv hs
    have hl := ih.lock.step hs'
    cases hs' with
    | @finish _ t hk hf =>
      have hm1 : ∀ j, j ≠ k → ((if t.tailM then none else w.mutex) = some j ↔ w.mutex = some j) := by
        intro j hj
        cases ht : t.tailM with
        | false => simp
        | true =>
          have := ih.lock.mx k t hk (by unfold CTxn.hasMutex; simp [ht])
          rw [this]; simp; exact fun h => hj h.symm
      refine ⟨vs, R, hl, ih.serial, fun j => ?_, fun j u hj => ?_, fun hno => ?_, fun j u g lj hj hg hlj => ?_⟩
      · simp only [CWorld.set]
        by_cases e : j = k
        · subst e
          rw [if_pos rfl]
          constructor
          · rintro ⟨_, _, h, _⟩; cases h
          · intro h
            obtain ⟨t', f', h1, h2⟩ := (ih.logs j).mpr h
            rw [hk] at h1; cases h1; rw [hf] at h2; cases h2
        · rw [if_neg e]; exact ih.logs j
      · simp only [CWorld.set] at hj
        by_cases e : j = k
        · rw [if_pos e] at hj; cases hj
        · rw [if_neg e] at hj; exact ih.flat j u hj
      · refine ih.refs (fun j u g hj hg => ?_)
        have e : j ≠ k := by rintro rfl; rw [hk] at hj; cases hj; rw [hf] at hg; cases hg
        have := hno j u g (by simp only [CWorld.set, if_neg e]; exact hj) hg
        exact fun h => this ((hm1 j e).mpr h)
      · simp only [CWorld.set] at hj
        by_cases e : j = k
        · rw [if_pos e] at hj; cases hj
        · rw [if_neg e] at hj
          exact (ih.opens j u g lj hj hg hlj).other (.inr rfl) (fun hm => ⟨(hm1 j e).mpr hm, rfl, rfl⟩) (fun hm h => hm ((hm1 j e).mp h))

end Dragonstash.Conc
