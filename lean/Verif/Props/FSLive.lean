/-
  C88: every request is answered, once; without new requests the threads come to rest; with a fair
  scheduler no request waits forever, even if new ones keep coming.
-/
import Verif.MT.Fair
import Verif.Props.FSConc
namespace Dragonstash.MT
open Cache FS Conc

/-! ### Single steps -/

theorem getElem?_set_self' {α : Type} {l : List α} {k : Nat} {x y : α} (h : l[k]? = some x) : (l.set k y)[k]? = some y := by
  rw [List.getElem?_set, if_pos rfl, if_pos]
  exact (List.getElem?_eq_some_iff.mp h).1

/-- What a step does to the thread which makes it, and to the replies. -/
theorem Step.account {m m' : MSys} {k : Nat} (h : Step m k m') : ∃ st st', m.th[k]? = some st ∧ m'.th = m.th.set k st' ∧
    ((st = .idle ∧ (∃ rq B, st' = .recv rq B) ∧ m'.sent = m.sent) ∨
     (st ≠ .idle ∧ st'.unanswered = st.unanswered ∧ m'.sent = m.sent) ∨
     (st ≠ .idle ∧ st'.unanswered = none ∧ ∃ rq r, st.unanswered = some rq ∧ m'.sent = m.sent ++ [(rq, r)])) := by
  cases h with
  | issue hk => exact ⟨_, _, hk, rfl, .inl ⟨rfl, ⟨_, _, rfl⟩, rfl⟩⟩
  | direct hk => exact ⟨_, _, hk, rfl, .inr (.inr ⟨by simp, rfl, _, _, rfl, rfl⟩)⟩
  | begin_ hk => exact ⟨_, _, hk, rfl, .inr (.inl ⟨by simp, rfl, rfl⟩)⟩
  | call hk => exact ⟨_, _, hk, rfl, .inr (.inl ⟨by simp, rfl, rfl⟩)⟩
  | commit hk => exact ⟨_, _, hk, rfl, .inr (.inl ⟨by simp, rfl, rfl⟩)⟩
  | unlock hk => exact ⟨_, _, hk, rfl, .inr (.inl ⟨by simp, rfl, rfl⟩)⟩
  | answer hk => exact ⟨_, _, hk, rfl, .inr (.inr ⟨by simp, rfl, _, _, rfl, rfl⟩)⟩
  | reply hk => exact ⟨_, _, hk, rfl, .inr (.inr ⟨by simp, rfl, _, _, rfl, rfl⟩)⟩
  | leave hk => exact ⟨_, _, hk, rfl, .inr (.inl ⟨by simp, rfl, rfl⟩)⟩
  | finish hk => exact ⟨_, _, hk, rfl, .inr (.inl ⟨by simp, rfl, rfl⟩)⟩

theorem Step.others {m m' : MSys} {k j : Nat} (h : Step m k m') (hj : j ≠ k) : m'.th[j]? = m.th[j]? := by
  obtain ⟨st, st', -, h2, -⟩ := h.account
  rw [h2, List.getElem?_set, if_neg (Ne.symm hj)]

theorem own_irrefl {k : Nat} {st : TState} : ¬ Own k st st := by
  intro h
  have := C59_finite k st
  induction this with
  | intro st _ ih => exact ih st h h

theorem Step.own {m m' : MSys} {k : Nat} {st : TState} (h : Step m k m') (hk : m.th[k]? = some st) (hn : st ≠ .idle) :
    ∃ st', m'.th[k]? = some st' ∧ Own k st' st := by
  obtain ⟨st0, st', h1, h2, -⟩ := h.account
  have := getElem?_set_self' (y := st') hk
  rw [← h2] at this
  exact ⟨st', this, m, m', h, hk, this, hn⟩

/-- The mutex of the reference table, and LMDB's lock, are free between two owners. -/
theorem Step.handover {m m' : MSys} {k j : Nat} (h : Step m k m') :
    (m.w.mutex = some j → m'.w.mutex = some j ∨ m'.w.mutex = none) ∧ (m.w.writer = some j → m'.w.writer = some j ∨ m'.w.writer = none) := by
  have cs : ∀ {c : CCall} {w' : CWorld} {out : Out}, m.w.step c = .done w' out →
      (m.w.mutex = some j → w'.mutex = some j ∨ w'.mutex = none) ∧ (m.w.writer = some j → w'.writer = some j ∨ w'.writer = none) := by
    intro c w' out hs
    have ite : ∀ {b : Bool} {x : Option Nat}, x = some j → (if b then none else x) = some j ∨ (if b then none else x) = none := by
      intro b x hx; cases b
      · left; simpa using hx
      · right; rfl
    cases step_inv hs with
    | beginRO => exact ⟨.inl, .inl⟩
    | beginRW _ hw => exact ⟨.inl, fun hj => by rw [hw] at hj; cases hj⟩
    | op mx _ _ _ _ _ hm =>
      refine ⟨fun hj => ?_, .inl⟩
      cases mx with
      | false => left; simpa using hj
      | true => rw [(hm rfl).2.2] at hj; cases hj
    | nested => exact ⟨.inl, .inl⟩
    | commit => exact ⟨.inl, ite⟩
    | commitNested => exact ⟨.inl, .inl⟩
    | abort => exact ⟨.inl, ite⟩
    | abortNested => exact ⟨ite, .inl⟩
    | drop => exact ⟨ite, .inl⟩
    | finish => exact ⟨ite, ite⟩
  cases h with
  | issue => exact ⟨.inl, .inl⟩
  | direct => exact ⟨.inl, .inl⟩
  | begin_ _ _ hs => exact cs hs
  | call _ hs => exact cs hs
  | commit _ hs => exact cs hs
  | unlock _ hs => exact cs hs
  | answer => exact ⟨.inl, .inl⟩
  | reply => exact ⟨.inl, .inl⟩
  | leave _ hs => exact cs hs
  | finish _ hs => exact cs hs

/-- Who waits, waits for a lock which is taken. -/
theorem Waits.taken {m : MSys} {k : Nat} (h : MReach m) (hw : Waits m k) :
    (∃ rq B v o c, m.th[k]? = some (.run rq B v (.op o c)) ∧ ∃ j, m.w.mutex = some j) ∨
    (∃ rq B, m.th[k]? = some (.recv rq B) ∧ ∃ j, m.w.writer = some j) := by
  obtain ⟨d0, r0, n, L, H, vs, R, ds, s, hs, hM, hR⟩ := h.inv
  cases hw with
  | @writer rq B hk hb =>
    refine .inr ⟨rq, B, hk, ?_⟩
    cases hw : m.w.writer with
    | some j => exact ⟨j, rfl⟩
    | none =>
      have ht : m.w.txns k = none := hM.threads k _ hk
      simp only [CWorld.step, ht, hw] at hb; cases hb
  | @mutex rq B v o c hi hb =>
    refine .inl ⟨rq, B, v, o, c, hi, ?_⟩
    cases hm : m.w.mutex with
    | some j => exact ⟨j, rfl⟩
    | none =>
      exfalso
      obtain ⟨u, f, l, P, h1, h2, -⟩ := hM.threads k _ hi
      have nb : ∀ mx, m.w.runOp k u f [] o mx ≠ .blocked := by
        intro mx hh; unfold CWorld.runOp at hh; split at hh <;> cases hh
      simp only [CWorld.step, h1, CWorld.act, h2] at hb
      split at hb
      · cases hb
      · split at hb
        · cases hacq : m.w.acquire u with
          | wait =>
            unfold CWorld.acquire at hacq
            split at hacq
            · cases hacq
            · split at hacq
              · cases hacq
              · rw [hm] at hacq; cases hacq
          | have_ => rw [hacq] at hb; exact nb _ hb
          | got => rw [hacq] at hb; exact nb _ hb
          | deadlk => rw [hacq] at hb; cases hb
        · exact nb _ hb

/-- The owners of the locks have a request, and a transaction. -/
theorem owner_busy {m : MSys} (h : MReach m) {j : Nat} (hj : m.w.mutex = some j ∨ m.w.writer = some j) :
    ∃ st, m.th[j]? = some st ∧ st ≠ .idle ∧ ∀ rq B, st ≠ .recv rq B := by
  obtain ⟨d0, r0, n, L, H, vs, R, ds, s, hs, hM, hR⟩ := h.inv
  have ht : ∃ t, m.w.txns j = some t := by
    rcases hj with hj | hj
    · obtain ⟨t, ht, -⟩ := hM.ser.lock.mx' j hj; exact ⟨t, ht⟩
    · obtain ⟨t, ht, -⟩ := hM.ser.lock.wr' j hj; exact ⟨t, ht⟩
  obtain ⟨t, ht⟩ := ht
  obtain ⟨-, st, g1, g2⟩ := owner_thread hs hM ht
  refine ⟨st, g1, g2, ?_⟩
  rintro rq B rfl
  rw [show m.w.txns j = none from hM.threads j _ g1] at ht; cases ht

/-! ### Accounting -/

/-- The requests which are being served and not yet answered. -/
def MSys.pending (m : MSys) : List Req := m.th.filterMap TState.unanswered

theorem pending_set {l : List TState} {k : Nat} {st st' : TState} (h : l[k]? = some st) :
    ∃ A C, l.filterMap TState.unanswered = A ++ st.unanswered.toList ++ C ∧ (l.set k st').filterMap TState.unanswered = A ++ st'.unanswered.toList ++ C := by
  induction l generalizing k with
  | nil => simp at h
  | cons a l ih =>
    cases k with
    | zero =>
      simp only [List.getElem?_cons_zero, Option.some.injEq] at h
      subst h
      refine ⟨[], l.filterMap TState.unanswered, ?_, ?_⟩
      · cases ha : a.unanswered <;> simp [ha]
      · cases ha : st'.unanswered <;> simp [ha]
    | succ k =>
      simp only [List.getElem?_cons_succ] at h
      obtain ⟨A, C, h1, h2⟩ := ih h
      refine ⟨a.unanswered.toList ++ A, C, ?_, ?_⟩
      · cases ha : a.unanswered <;> simp [ha, h1]
      · cases ha : a.unanswered <;> simp [ha, h2]

/-- C88: every request which the kernel sends is answered at most once, and is either answered or still
being served: what was answered meanwhile and what is being served now are, in some order, what was
being served before and what the kernel sent. -/
theorem C88_account {m m' : MSys} {l : List Req} (h : Exec m l m') :
    ∃ new, m'.sent = m.sent ++ new ∧ (new.map Prod.fst ++ m'.pending).Perm (m.pending ++ l) := by
  induction h with
  | refl => exact ⟨[], by simp, by simp⟩
  | @issue l m1 m2 k rq B _ hs hi hr ih =>
    obtain ⟨new, h1, h2⟩ := ih
    obtain ⟨st, st', g1, g2, g3⟩ := hs.account
    rw [hi] at g1; cases g1
    rw [g2, getElem?_set_self' hi] at hr; cases hr
    rcases g3 with ⟨-, -, g3⟩ | ⟨g3, -⟩ | ⟨g3, -⟩
    · refine ⟨new, by rw [g3, h1], ?_⟩
      obtain ⟨A, C, e1, e2⟩ := pending_set (st' := .recv rq B) hi
      unfold MSys.pending at h2 ⊢
      rw [g2, e2]
      rw [e1] at h2
      simp only [TState.unanswered, Option.toList_none, Option.toList_some, List.append_nil, List.append_assoc] at h2 ⊢
      refine List.Perm.trans ?_ (List.Perm.trans (h2.append_right [rq]) (by simp))
      simp only [List.append_assoc]
      refine List.Perm.append_left _ (List.Perm.append_left _ ?_)
      exact List.perm_append_comm
    · exact absurd rfl g3
    · exact absurd rfl g3
  | @served l m1 m2 k _ hs ih =>
    obtain ⟨new, h1, h2⟩ := ih
    obtain ⟨st, st', g1, g2, g3⟩ := hs.1.account
    obtain ⟨A, C, e1, e2⟩ := pending_set (st' := st') g1
    rcases g3 with ⟨rfl, -⟩ | ⟨-, g4, g3⟩ | ⟨-, g4, rq, r, g5, g3⟩
    · exact absurd g1 hs.2
    · refine ⟨new, by rw [g3, h1], ?_⟩
      unfold MSys.pending at h2 ⊢
      rw [g2, e2, g4, ← e1]; exact h2
    · refine ⟨new ++ [(rq, r)], by rw [g3, h1, List.append_assoc], ?_⟩
      unfold MSys.pending at h2 ⊢
      rw [g2, e2, g4]
      rw [e1, g5] at h2
      refine List.Perm.trans ?_ h2
      simp only [Option.toList_none, Option.toList_some, List.append_nil, List.append_assoc, List.map_append, List.map_cons, List.map_nil]
      refine List.Perm.append_left _ ?_
      rw [← List.append_assoc, ← List.append_assoc]
      exact List.Perm.append_right C List.perm_append_comm

theorem pending_idle {m : MSys} (h : ∀ st ∈ m.th, st = .idle) : m.pending = [] := by
  unfold MSys.pending
  rw [List.filterMap_eq_nil_iff]
  intro st hst; rw [h st hst]; rfl

/-- C88: when the threads which served some requests are all idle again, each request was answered
exactly once. -/
theorem C88_once {m m' : MSys} {l : List Req} (h : Exec m l m') (h0 : ∀ st ∈ m.th, st = .idle) (h1 : ∀ st ∈ m'.th, st = .idle) :
    ∃ new, m'.sent = m.sent ++ new ∧ (new.map Prod.fst).Perm l := by
  obtain ⟨new, g1, g2⟩ := C88_account h
  rw [pending_idle h0, pending_idle h1] at g2
  exact ⟨new, g1, by simpa using g2⟩

/-! ### Coming to rest -/

theorem acc_list {α : Type} : ∀ (l : List α) (R : Nat → α → α → Prop), (∀ k a, Acc (R k) a) →
    Acc (fun l' l => ∃ k a a', l[k]? = some a ∧ R k a' a ∧ l' = l.set k a') l := by
  intro l
  induction l with
  | nil => intro R _; exact ⟨_, by rintro _ ⟨k, a, a', h, -⟩; simp at h⟩
  | cons a l ih =>
    intro R hR
    have key : ∀ a, Acc (R 0) a → ∀ l, Acc (fun l' l => ∃ k a a', l[k]? = some a ∧ R (k + 1) a' a ∧ l' = l.set k a') l →
        Acc (fun l' l => ∃ k a a', l[k]? = some a ∧ R k a' a ∧ l' = l.set k a') (a :: l) := by
      intro a ha
      induction ha with
      | intro a _ iha =>
        intro l hl
        induction hl with
        | intro l hl' ihl =>
          refine ⟨_, ?_⟩
          rintro _ ⟨k, b, b', h1, h2, rfl⟩
          cases k with
          | zero =>
            simp only [List.getElem?_cons_zero, Option.some.injEq] at h1
            subst h1
            exact iha b' h2 l ⟨_, hl'⟩
          | succ k =>
            simp only [List.getElem?_cons_succ] at h1
            exact ihl _ ⟨k, b, b', h1, h2, rfl⟩
    exact key a (hR 0 a) l (ih (fun k => R (k + 1)) (fun k => hR (k + 1)))

/-- C88: there is no infinite sequence of steps of threads which serve requests, unless new requests come. -/
theorem C88_finite (m : MSys) : Acc (fun m' m => ∃ k, Served m k m') m := by
  have : ∀ l : List TState, Acc (fun l' l => ∃ k a a', l[k]? = some a ∧ Own k a' a ∧ l' = l.set k a') l → ∀ m : MSys, m.th = l →
      Acc (fun m' m => ∃ k, Served m k m') m := by
    intro l hl
    induction hl with
    | intro l _ ih =>
      rintro m rfl
      refine ⟨_, ?_⟩
      rintro m' ⟨k, hs, hn⟩
      obtain ⟨st, st', g1, g2, -⟩ := hs.account
      have g3 : st ≠ .idle := by rintro rfl; exact hn g1
      have g4 : m'.th[k]? = some st' := by rw [g2]; exact getElem?_set_self' g1
      exact ih m'.th ⟨k, st, st', g1, ⟨m, m', hs, g1, g4, g3⟩, g2⟩ m' rfl
  exact this _ (acc_list _ _ (fun k st => C59_finite k st)) m rfl

/-- C88: if no more requests come, all threads come to rest, in whatever order they go on, and the
requests which were being served have been answered, once each; but for the second reply to a `readdir`. -/
theorem C88_rest_partial {m : MSys} (h : MReach m) :
    Inevitable (fun m' => ((∀ st ∈ m'.th, st = .idle) ∧ ∃ new, m'.sent = m.sent ++ new ∧ (new.map Prod.fst).Perm m.pending) ∨
      (∃ k, TwoReplies m' k) ∨ Improper m') m := by
  have gen : ∀ m', Acc (fun m' m => ∃ k, Served m k m') m' → MReach m' → Exec m [] m' →
      Inevitable (fun m' => ((∀ st ∈ m'.th, st = .idle) ∧ ∃ new, m'.sent = m.sent ++ new ∧ (new.map Prod.fst).Perm m.pending) ∨
        (∃ k, TwoReplies m' k) ∨ Improper m') m' := by
    intro m1 hacc
    induction hacc with
    | intro m1 _ ih =>
      intro h hex
      by_cases himp : Improper m1
      · exact .now (.inr (.inr himp))
      by_cases htwo : ∃ k, TwoReplies m1 k
      · exact .now (.inr (.inl htwo))
      by_cases hid : ∀ st ∈ m1.th, st = .idle
      · obtain ⟨new, g1, g2⟩ := C88_account hex
        rw [pending_idle hid] at g2
        exact .now (.inl ⟨hid, new, g1, by simpa using g2⟩)
      refine .next ?_ ?_
      · simp only [Classical.not_forall] at hid
        obtain ⟨st, hst, hn⟩ := hid
        obtain ⟨k, hk⟩ := List.getElem?_of_mem hst
        obtain ⟨j, st', g1, g2, ⟨m', g3⟩ | g3⟩ := C59_progress_partial h hk hn
        · exact ⟨j, m', g3, by rw [g1]; intro e; cases e; exact g2 rfl⟩
        · exact absurd ⟨j, g3⟩ htwo
      · intro k m' hs
        by_cases hp : Proper m1 k m' ∧ Room m'.w
        · exact ih m' ⟨k, hs⟩ (.step h hs.1 hp.1 hp.2) (.served hex hs)
        · exact absurd ⟨k, m', hs, hp⟩ himp
  exact gen m (C88_finite m) h .refl

/-! ### Fair schedulers -/

theorem IsRun.reach {σ : Nat → MSys} (h : IsRun σ) : ∀ n, MReach (σ n) := by
  intro n
  induction n with
  | zero => exact h.start
  | succ n ih =>
    rcases h.next n with e | ⟨k, h1, h2, h3⟩
    · rw [e]; exact ih
    · exact .step ih h1 h2 h3

/-- A property which holds and later does not any more: there is a last time. -/
theorem last_time {P : Nat → Prop} {n n' : Nat} (hn : P n) (hle : n ≤ n') (h : ¬ P n') : ∃ j, n ≤ j ∧ j < n' ∧ P j ∧ ¬ P (j + 1) := by
  induction n' with
  | zero => have : n = 0 := by omega
            subst this; exact absurd hn h
  | succ n' ih =>
    by_cases hp : P n'
    · refine ⟨n', ?_, by omega, hp, h⟩
      by_cases e : n = n' + 1
      · subst e; exact absurd hn h
      · omega
    · by_cases e : n = n' + 1
      · subst e; exact absurd hn h
      · obtain ⟨j, h1, h2, h3⟩ := ih (by omega) hp
        exact ⟨j, h1, by omega, h3⟩

/-- The state of a thread changes only by its own steps. -/
theorem IsRun.change {σ : Nat → MSys} (h : IsRun σ) {k n : Nat} {st : TState} (hk : (σ n).th[k]? = some st) (hc : (σ (n + 1)).th[k]? ≠ some st) :
    Step (σ n) k (σ (n + 1)) := by
  rcases h.next n with e | ⟨j, h1, -⟩
  · rw [e] at hc; exact absurd hk hc
  · by_cases e : k = j
    · rw [e]; exact h1
    · rw [h1.others e] at hc; exact absurd hk hc

/-- A thread becomes idle, or stays where it is forever. -/
theorem IsRun.settle {σ : Nat → MSys} (h : IsRun σ) {k : Nat} : ∀ {st : TState} {n : Nat}, (σ n).th[k]? = some st →
    (∃ n', n ≤ n' ∧ (σ n').th[k]? = some .idle) ∨ ∃ N st', n ≤ N ∧ st' ≠ .idle ∧ ∀ n', N ≤ n' → (σ n').th[k]? = some st' := by
  intro st
  have := C59_finite k st
  induction this with
  | intro st _ ih =>
    intro n hk
    by_cases hid : st = .idle
    · subst hid; exact .inl ⟨n, Nat.le_refl _, hk⟩
    by_cases hall : ∀ n', n ≤ n' → (σ n').th[k]? = some st
    · exact .inr ⟨n, st, Nat.le_refl _, hid, hall⟩
    simp only [Classical.not_forall] at hall
    obtain ⟨n', hle, hne⟩ := hall
    obtain ⟨j, g1, -, g2, g3⟩ := last_time (P := fun i => (σ i).th[k]? = some st) hk hle hne
    obtain ⟨st', g4, g5⟩ := (h.change g2 g3).own g2 hid
    rcases ih st' g5 g4 with ⟨i, h1, h2⟩ | ⟨N, st2, h1, h2⟩
    · exact .inl ⟨i, by omega, h2⟩
    · exact .inr ⟨N, st2, by omega, h2⟩

/-- A thread which stays where it is waits, if the scheduler is fair. -/
theorem IsRun.stays {σ : Nat → MSys} (h : IsRun σ) (hf : Fair σ) (h2 : ∀ n k, ¬ TwoReplies (σ n) k) {k N : Nat} {st : TState} (hn : st ≠ .idle)
    (hk : ∀ n', N ≤ n' → (σ n').th[k]? = some st) : ∃ N', N ≤ N' ∧ ∀ n', N' ≤ n' → (σ n').th[k]? = some st ∧ Waits (σ n') k := by
  by_cases hinf : ∀ n, ∃ n', n ≤ n' ∧ ∃ m', Served (σ n') k m'
  · obtain ⟨n', g1, g2, -⟩ := hf k hinf N
    obtain ⟨st', g3, g4⟩ := g2.own (hk n' g1) hn
    rw [hk (n' + 1) (by omega)] at g3; cases g3
    exact absurd g4 own_irrefl
  · simp only [Classical.not_forall] at hinf
    obtain ⟨n, hn'⟩ := hinf
    refine ⟨max N n, by omega, fun n' hle => ⟨hk n' (by omega), ?_⟩⟩
    have hkn := hk n' (by omega)
    rcases C59_lives_partial (h.reach n') hkn hn with ⟨m', g⟩ | g | g
    · refine absurd ⟨n', by omega, m', g, ?_⟩ hn'
      rw [hkn]; intro e; cases e; exact hn rfl
    · exact g
    · exact absurd g (h2 n' k)

/-- A lock is given back. -/
theorem IsRun.released {σ : Nat → MSys} (h : IsRun σ) {L : MSys → Option Nat} {j n n' : Nat}
    (hand : ∀ m k m', Step m k m' → L m = some j → L m' = some j ∨ L m' = none)
    (hj : L (σ n) = some j) (hle : n ≤ n') (hne : L (σ n') ≠ some j) : ∃ i, n ≤ i ∧ L (σ i) = none := by
  obtain ⟨i, g1, -, g2, g3⟩ := last_time (P := fun i => L (σ i) = some j) hj hle hne
  rcases h.next i with e | ⟨k, hs, -⟩
  · rw [e] at g3; exact absurd g2 g3
  · rcases hand _ _ _ hs g2 with g | g
    · exact absurd g g3
    · exact ⟨i + 1, by omega, g⟩

/-- Nobody waits forever for the mutex of the reference table. -/
theorem IsRun.mutex_free {σ : Nat → MSys} (h : IsRun σ) (hf : Fair σ) (h2 : ∀ n k, ¬ TwoReplies (σ n) k) (N : Nat) : ∃ n, N ≤ n ∧ (σ n).w.mutex = none := by
  cases hj : (σ N).w.mutex with
  | none => exact ⟨N, Nat.le_refl _, hj⟩
  | some j =>
    by_cases hall : ∀ n, N ≤ n → (σ n).w.mutex = some j
    · exfalso
      obtain ⟨st, g1, -⟩ := owner_busy (h.reach N) (.inl hj)
      rcases h.settle g1 with ⟨n', q1, q2⟩ | ⟨M, st', q1, q2, q3⟩
      · obtain ⟨st', e1, e2, -⟩ := owner_busy (h.reach n') (.inl (hall n' q1))
        rw [q2] at e1; cases e1; exact e2 rfl
      · obtain ⟨N', q4, q5⟩ := h.stays hf h2 q2 q3
        exact C59_mutex (h.reach N') (hall N' (by omega)) (q5 N' (Nat.le_refl _)).2
    · simp only [Classical.not_forall] at hall
      obtain ⟨n', hle, hne⟩ := hall
      exact h.released (L := fun m => m.w.mutex) (fun m k m' hs => hs.handover.1) hj hle hne

/-- Nobody stays forever at a call which needs the mutex. -/
theorem IsRun.stays_recv {σ : Nat → MSys} (h : IsRun σ) (hf : Fair σ) (h2 : ∀ n k, ¬ TwoReplies (σ n) k) {k N : Nat} {st : TState} (hn : st ≠ .idle)
    (hk : ∀ n', N ≤ n' → (σ n').th[k]? = some st) : (∃ rq B, st = .recv rq B) ∧ ∃ N', N ≤ N' ∧ ∀ n', N' ≤ n' → ∃ j, (σ n').w.writer = some j := by
  obtain ⟨N', g1, g2⟩ := h.stays hf h2 hn hk
  obtain ⟨n, q1, q2⟩ := h.mutex_free hf h2 N'
  have recv : ∃ rq B, st = .recv rq B := by
    rcases (g2 n q1).2.taken (h.reach n) with ⟨rq, B, v, o, c, -, j, e⟩ | ⟨rq, B, e, -⟩
    · rw [q2] at e; cases e
    · rw [(g2 n q1).1] at e; cases e; exact ⟨rq, B, rfl⟩
  refine ⟨recv, N', g1, fun n' hle => ?_⟩
  rcases (g2 n' hle).2.taken (h.reach n') with ⟨rq, B, v, o, c, e, -⟩ | ⟨rq, B, e, hw⟩
  · obtain ⟨rq', B', rfl⟩ := recv
    rw [(g2 n' hle).1] at e; cases e
  · exact hw

/-- Every thread becomes idle. -/
theorem IsRun.idle {σ : Nat → MSys} (h : IsRun σ) (hf : Fair σ) (h2 : ∀ n k, ¬ TwoReplies (σ n) k) {k n : Nat} {st : TState} (hk : (σ n).th[k]? = some st) :
    ∃ n', n ≤ n' ∧ (σ n').th[k]? = some .idle := by
  rcases h.settle hk with g | ⟨N, st', g1, g2, g3⟩
  · exact g
  exfalso
  obtain ⟨-, N', g4, g5⟩ := h.stays_recv hf h2 g2 g3
  obtain ⟨j, hj⟩ := g5 N' (Nat.le_refl _)
  by_cases hall : ∀ n, N' ≤ n → (σ n).w.writer = some j
  · obtain ⟨st0, e1, -⟩ := owner_busy (h.reach N') (.inr hj)
    rcases h.settle e1 with ⟨n', q1, q2⟩ | ⟨M, st2, q1, q2, q3⟩
    · obtain ⟨st3, e3, e4, -⟩ := owner_busy (h.reach n') (.inr (hall n' q1))
      rw [q2] at e3; cases e3; exact e4 rfl
    · obtain ⟨⟨rq, B, rfl⟩, -⟩ := h.stays_recv hf h2 q2 q3
      obtain ⟨st3, e3, -, e4⟩ := owner_busy (h.reach M) (.inr (hall M q1))
      rw [q3 M (Nat.le_refl _)] at e3; cases e3; exact e4 _ _ rfl
  · simp only [Classical.not_forall] at hall
    obtain ⟨n', hle, hne⟩ := hall
    obtain ⟨i, e1, e2⟩ := h.released (L := fun m => m.w.writer) (fun m k m' hs => hs.handover.2) hj hle hne
    obtain ⟨j', e3⟩ := g5 i e1
    rw [e2] at e3; cases e3

/-- Until a thread is idle again it replies once. -/
theorem IsRun.replies {σ : Nat → MSys} (h : IsRun σ) {k n : Nat} {rq : Req} {st : TState} (hk : (σ n).th[k]? = some st) (hu : st.unanswered = some rq) :
    ∀ d, (∀ i, n ≤ i → i < n + d → (σ i).th[k]? ≠ some .idle) →
      ∃ st', (σ (n + d)).th[k]? = some st' ∧
        ((st'.unanswered = some rq ∧ ∀ i, n ≤ i → i < n + d → Step (σ i) k (σ (i + 1)) → (σ (i + 1)).sent = (σ i).sent) ∨
         (st'.unanswered = none ∧ ∃ j r, n ≤ j ∧ j < n + d ∧ Step (σ j) k (σ (j + 1)) ∧ (σ (j + 1)).sent = (σ j).sent ++ [(rq, r)] ∧
            ∀ i, n ≤ i → i < n + d → i ≠ j → Step (σ i) k (σ (i + 1)) → (σ (i + 1)).sent = (σ i).sent)) := by
  intro d
  induction d with
  | zero => intro _; exact ⟨st, hk, .inl ⟨hu, fun i h1 h2 => by omega⟩⟩
  | succ d ih =>
    intro hid
    obtain ⟨st1, g1, g2⟩ := ih (fun i h1 h2 => hid i h1 (by omega))
    have hni : st1 ≠ .idle := by rintro rfl; exact hid (n + d) (by omega) (by omega) g1
    -- either the thread itself makes the step or nothing changes for it
    by_cases hs : Step (σ (n + d)) k (σ (n + d + 1))
    · obtain ⟨st0, st2, a1, a2, a3⟩ := hs.account
      rw [g1] at a1; cases a1
      have a4 : (σ (n + d + 1)).th[k]? = some st2 := by rw [a2]; exact getElem?_set_self' g1
      refine ⟨st2, a4, ?_⟩
      rcases a3 with ⟨rfl, -⟩ | ⟨-, b1, b2⟩ | ⟨-, b1, rq', r, b2, b3⟩
      · exact absurd rfl hni
      · rcases g2 with ⟨c1, c2⟩ | ⟨c1, j, r, c2, c3, c4, c5, c6⟩
        · refine .inl ⟨by rw [b1, c1], fun i h1 h2 h3 => ?_⟩
          by_cases e : i = n + d
          · subst e; exact b2
          · exact c2 i h1 (by omega) h3
        · refine .inr ⟨by rw [b1, c1], j, r, c2, by omega, c4, c5, fun i h1 h2 h3 h4 => ?_⟩
          by_cases e : i = n + d
          · subst e; exact b2
          · exact c6 i h1 (by omega) h3 h4
      · rcases g2 with ⟨c1, c2⟩ | ⟨c1, -⟩
        · rw [c1] at b2; cases b2
          refine .inr ⟨b1, n + d, r, by omega, by omega, hs, b3, fun i h1 h2 h3 h4 => c2 i h1 (by omega) h4⟩
        · rw [c1] at b2; cases b2
    · have a4 : (σ (n + d + 1)).th[k]? = some st1 := by
        rcases Classical.em ((σ (n + d + 1)).th[k]? = some st1) with e | e
        · exact e
        · exact absurd (h.change g1 e) hs
      refine ⟨st1, a4, ?_⟩
      rcases g2 with ⟨c1, c2⟩ | ⟨c1, j, r, c2, c3, c4, c5, c6⟩
      · refine .inl ⟨c1, fun i h1 h2 h3 => ?_⟩
        by_cases e : i = n + d
        · subst e; exact absurd h3 hs
        · exact c2 i h1 (by omega) h3
      · refine .inr ⟨c1, j, r, c2, by omega, c4, c5, fun i h1 h2 h3 h4 => ?_⟩
        by_cases e : i = n + d
        · subst e; exact absurd h4 hs
        · exact c6 i h1 (by omega) h3 h4

/-- The full property: in a fair run a thread which has got a request becomes idle again. -/
def C88_full : Prop := ∀ σ, IsRun σ → Fair σ → ∀ (n k : Nat) (st : TState), (σ n).th[k]? = some st → ∃ n', n ≤ n' ∧ (σ n').th[k]? = some TState.idle

/-- C88: in a fair run, in which no thread is about to reply twice to a `readdir`, every request is
answered exactly once by the thread which got it, which then takes new requests; even if new requests
keep coming. -/
theorem C88_fair_partial {σ : Nat → MSys} (h : IsRun σ) (hf : Fair σ) (h2 : ∀ n k, ¬ TwoReplies (σ n) k) {k n : Nat} {st : TState} {rq : Req}
    (hk : (σ n).th[k]? = some st) (hu : st.unanswered = some rq) : ∃ (n' j : Nat) (r : Reply), n ≤ j ∧ j < n' ∧ Step (σ j) k (σ (j + 1)) ∧ (σ (j + 1)).sent = (σ j).sent ++ [(rq, r)] ∧
      (∀ i, n ≤ i → i < n' → i ≠ j → Step (σ i) k (σ (i + 1)) → (σ (i + 1)).sent = (σ i).sent) ∧
      (σ n').th[k]? = some .idle ∧ ∀ i, n ≤ i → i < n' → (σ i).th[k]? ≠ some .idle := by
  obtain ⟨n1, g1, g2⟩ := h.idle hf h2 hk
  have first : ∃ n', n ≤ n' ∧ (σ n').th[k]? = some .idle ∧ ∀ i, n ≤ i → i < n' → (σ i).th[k]? ≠ some .idle := by
    have : ∀ d n, (σ (n + d)).th[k]? = some .idle → ∃ n', n ≤ n' ∧ (σ n').th[k]? = some .idle ∧ ∀ i, n ≤ i → i < n' → (σ i).th[k]? ≠ some .idle := by
      intro d
      induction d with
      | zero => intro n hh; exact ⟨n, Nat.le_refl _, hh, fun i _ _ => by omega⟩
      | succ d ih =>
        intro n hh
        by_cases e : (σ n).th[k]? = some .idle
        · exact ⟨n, Nat.le_refl _, e, fun i _ _ => by omega⟩
        · obtain ⟨n', q1, q2, q3⟩ := ih (n + 1) (by rw [show n + 1 + d = n + (d + 1) by omega]; exact hh)
          refine ⟨n', by omega, q2, fun i h1 h2 => ?_⟩
          by_cases e2 : i = n
          · subst e2; exact e
          · exact q3 i (by omega) h2
    exact this (n1 - n) n (by rw [show n + (n1 - n) = n1 by omega]; exact g2)
  obtain ⟨n', q1, q2, q3⟩ := first
  obtain ⟨st', a1, a2⟩ := h.replies hk hu (n' - n) (fun i h1 h2 => q3 i h1 (by omega))
  rw [show n + (n' - n) = n' by omega] at a1 a2
  rw [q2] at a1; cases a1
  rcases a2 with ⟨a2, -⟩ | ⟨-, j, r, b1, b2, b3, b4, b5⟩
  · cases a2
  · exact ⟨n', j, r, b1, b2, b3, b4, b5, q2, q3⟩

/-- C88: false in full: the thread which is about to send a second reply never goes on. -/
theorem C88_counterexample : ¬ C88_full := by
  intro hfull
  obtain ⟨m, hm, h2, h3⟩ : ∃ m, MReach m ∧ (m.th[0]?.map TState.twice) = some true ∧ m.th.length = 1 :=
    demoMT_ex (n := 1) (l := [.issue 0 tblA (.lookup 1 [0x61]), .go 0, .go 0, .go 0, .go 0, .go 0, .go 0, .go 0,
      .issue 0 {} (.lookup 1 [0x61]), .go 0, .go 0, .go 0, .go 0, .go 0, .go 0,
      .issue 0 {} (.readdir 2 4096 0), .go 0, .go 0, .go 0, .go 0, .go 0]) (by decide +kernel)
  cases hk : m.th[0]? with
  | none => rw [hk] at h2; cases h2
  | some st =>
    rw [hk] at h2
    have h2' : st.twice = true := by simpa using h2
    obtain ⟨i, size, off, B, v, e, r, rfl⟩ := TState.twice_iff h2'
    have stuck : ∀ k m', ¬ Served m k m' := by
      rintro k m' ⟨hs, hn⟩
      by_cases hk0 : k = 0
      · subst hk0
        rcases hs.go with g | g
        · exact hn g
        · simp only [MSys.go, hk] at g; cases g
      · obtain ⟨st, st', g, -⟩ := hs.account
        rw [List.getElem?_eq_none (by omega)] at g; cases g
    obtain ⟨n', -, g⟩ := hfull (fun _ => m) ⟨hm, fun _ => .inl rfl⟩ (fun k hh => by
      obtain ⟨n', -, m', g⟩ := hh 0; exact absurd g (stuck k m')) 0 0 _ hk
    simp only [hk] at g; cases g

/-! ### Readers -/

/-- A program which only makes calls which do not ask for the reference table. -/
def Prog.Reads : Prog → Prop
  | .op o k => (∀ d, asksRefs d o = false) ∧ ∀ out, Prog.Reads (k out)
  | .done _ _ => True
  | .stuck _ => True

theorem Follow.reads {P ops outs p} (h : Follow P ops outs p) (hP : P.Reads) : p.Reads := by
  induction h with
  | nil => exact hP
  | snoc _ ih => exact ih.2 _

theorem reads_loop {dir size k} (hk : ∀ pg, (k pg).Reads) : ∀ {f c buf s}, (readdirLoop dir size k f c buf s).Reads
  | 0, _, _, _ => trivial
  | f + 1, c, buf, s => by
    unfold readdirLoop
    split
    · refine ⟨fun _ => rfl, fun out => ?_⟩
      simp only
      split
      · exact hk _
      · refine ⟨fun _ => rfl, fun out => ?_⟩
        simp only
        split
        · exact hk _
        · exact reads_loop hk
        · trivial
      · trivial
    · exact hk _

theorem prog_reads {B fuel rq P} (h : prog B fuel rq = some P) (hr : (∃ i, rq = .getattr i) ∨ ∃ i size off, rq = .readdir i size off) : P.Reads := by
  rcases hr with ⟨i, rfl⟩ | ⟨i, size, off, rfl⟩
  · cases h
    refine ⟨fun _ => rfl, fun out => ?_⟩
    simp only
    split <;> trivial
  · cases h
    refine reads_loop (fun pg => ?_)
    simp only
    split
    · refine ⟨fun _ => rfl, fun out => ?_⟩
      simp only
      split <;> trivial
    · trivial

/-- C88: requests which only read never wait for a lock: a thread which serves `getattr` or `readdir` can
always go on, whatever the other threads are doing; but for the second reply to `readdir`. -/
theorem C88_readers_partial {m : MSys} (h : MReach m) {k : Nat} {st : TState} {rq : Req} (hk : m.th[k]? = some st) (hq : st.request = some rq)
    (hr : (∃ i, rq = .getattr i) ∨ ∃ i size off, rq = .readdir i size off) : (∃ m', Step m k m') ∨ TwoReplies m k := by
  have hn : st ≠ .idle := by rintro rfl; cases hq
  obtain ⟨d0, r0, n, L, H, vs, R, ds, s, hs, hM, hR⟩ := h.inv
  rcases C59_lives_partial h hk hn with g | g | g
  · exact .inl g
  · cases g with
    | @writer rq' B hk' hb =>
      rw [hk] at hk'; cases hk'
      cases hq
      have ht : m.w.txns k = none := hM.threads k _ hk
      have hro : readOnly rq = true := by rcases hr with ⟨i, rfl⟩ | ⟨i, size, off, rfl⟩ <;> rfl
      cases hp : prog B (m.w.disk.treei.size + 4) rq with
      | none => exact .inl ⟨_, .direct hk hp⟩
      | some P =>
        refine .inl ⟨_, .begin_ hk hp (w' := m.w.set k (some ⟨k, [⟨{ db := m.w.disk, ro := true }, false⟩], false, false⟩)) (out := .unit (.ok ())) ?_⟩
        rw [hro, if_pos rfl]; simp only [CWorld.step, ht]
    | @mutex rq' B v o c hk' hb =>
      exfalso
      rw [hk] at hk'; cases hk'
      cases hq
      obtain ⟨u, f, l, P, h1, h2, _, _, _, g1, g2, _⟩ := hM.threads k _ hk
      have hreads := (Follow.reads g2 (prog_reads g1 hr)).1
      have nb : ∀ mx, m.w.runOp k u f [] o mx ≠ .blocked := by
        intro mx hh; unfold CWorld.runOp at hh; split at hh <;> cases hh
      simp only [CWorld.step, h1, CWorld.act, h2, hreads] at hb
      split at hb
      · cases hb
      · exact nb _ hb
  · exact .inr g

/-- C88: no request other than lookup, readlink and opendir waits for LMDB's lock: after it was received it
begins at once. -/
theorem C88_begins {m : MSys} (h : MReach m) {k : Nat} {rq : Req} {B : Backend} (hk : m.th[k]? = some (.recv rq B))
    (h1 : ∀ p n, rq ≠ .lookup p n) (h2 : ∀ i, rq ≠ .readlink i) (h3 : ∀ i, rq ≠ .opendir i) : ∃ m', Step m k m' := by
  obtain ⟨d0, r0, n, L, H, vs, R, ds, s, hs, hM, hR⟩ := h.inv
  have ht : m.w.txns k = none := hM.threads k _ hk
  cases hp : prog B (m.w.disk.treei.size + 4) rq with
  | none => exact ⟨_, .direct hk hp⟩
  | some P =>
    have hro : readOnly rq = true := by
      cases rq <;> first | rfl | exact absurd rfl (h1 _ _) | exact absurd rfl (h2 _) | exact absurd rfl (h3 _) | cases hp
    refine ⟨_, .begin_ hk hp (w' := m.w.set k (some ⟨k, [⟨{ db := m.w.disk, ro := true }, false⟩], false, false⟩)) (out := .unit (.ok ())) ?_⟩
    rw [hro, if_pos rfl]; simp only [CWorld.step, ht]

/-- A `getattr` while another thread has both locks.
(The hypotheses of `C88_readers_partial`, `C88_begins` and `C88_rest_partial`; `C88_finite` has none.) -/
example : ∃ m, MReach m ∧ (m.th[1]?.bind TState.request) = some (.getattr 1) ∧ m.w.writer = some 0 ∧ m.w.mutex = some 0 :=
  demoMT_ex (n := 2) (l := [.issue 0 tblA (.lookup 1 [0x61]), .issue 1 tblA (.getattr 1), .go 0, .go 0, .go 0, .go 1]) (by decide +kernel)

/-! ### Examples -/

theorem demoMT_one {a : Ev} {l : List Ev} {m m' : MSys} {cap cap' : Nat} (hc : ∀ i, (m.w.refs i).nrefs ≤ cap)
    (hd : demoMT m cap (a :: l) = some (m', cap')) : ∃ m1 cap1 k, Step m k m1 ∧ Proper m k m1 ∧ Room m1.w ∧ (∀ i, (m1.w.refs i).nrefs ≤ cap1) ∧
      demoMT m1 cap1 l = some (m', cap') ∧ ∀ l', demoMT m cap (a :: l') = demoMT m1 cap1 l' := by
  cases a with
  | issue k t rq =>
    have hd0 := hd
    simp only [demoMT] at hd
    split at hd
    · rename_i hk
      split at hd
      · rename_i hv
        have hv0 := hv
        simp only [Bool.and_eq_true, decide_eq_true_eq] at hv
        obtain ⟨⟨⟨h1, h2⟩, h3⟩, h4⟩ := hv
        have hlen : k < m.th.length := (List.getElem?_eq_some_iff.mp hk).1
        exact ⟨_, cap, k, .issue hk, .issue (rq := rq) (B := t.backend)
          (by simp only [MSys.to]; rw [List.getElem?_set, if_pos rfl, if_pos hlen])
          (by cases rq <;> simp_all [Req.inRangeB, Req.inRange]; exact h1) (returnedB_iff h2)
          (fun p names e hp => by have := Tbl.maxNames_ge hp; omega), roomB_iff hc h4, hc, hd,
          fun l' => by simp only [demoMT, hk]; rw [if_pos hv0]⟩
      · cases hd
    · cases hd
  | go k =>
    simp only [demoMT] at hd
    split at hd
    · cases hd
    · rename_i m1 hm
      split at hd
      · rename_i hv
        have hv0 := hv
        rw [Bool.and_eq_true] at hv
        obtain ⟨h1, h2⟩ := hv
        have hs := MSys.go_step hm
        have hc' : ∀ i, (m1.w.refs i).nrefs ≤ cap + 1 := fun i => by
          have := step_counts hs i; have := hc i; omega
        have hp : Proper m k m1 := by
          by_cases hr : ∃ rq B, m.th[k]? = some (.recv rq B)
          · obtain ⟨rq, B, hr⟩ := hr
            unfold MSys.goB at h1
            rw [hr] at h1
            simp only at h1
            exact .begin_ hr (by cases rq <;> first | trivial | exact onDirB_iff h1)
          · exact .other (fun rq B hh => hr ⟨rq, B, hh⟩) (go_notRecv hm)
        exact ⟨m1, cap + 1, k, hs, hp, roomB_iff hc' h2, hc', hd, fun l' => by simp only [demoMT, hm]; rw [if_pos hv0]⟩
      · cases hd

/-- A finite list of events, after which nothing happens any more, as a run. -/
theorem demo_run : ∀ {l : List Ev} {m m' : MSys} {cap cap' : Nat}, MReach m → (∀ i, (m.w.refs i).nrefs ≤ cap) → demoMT m cap l = some (m', cap') →
    ∃ σ, IsRun σ ∧ σ 0 = m ∧ (∀ n, n ≤ l.length → ∃ c, demoMT m cap (l.take n) = some (σ n, c)) ∧ ∀ n, l.length ≤ n → σ n = m' := by
  intro l
  induction l with
  | nil =>
    intro m m' cap cap' h hc hd
    cases hd
    exact ⟨fun _ => m, ⟨h, fun _ => .inl rfl⟩, rfl, fun n _ => ⟨cap, by simp [demoMT]⟩, fun _ _ => rfl⟩
  | cons a l ih =>
    intro m m' cap cap' h hc hd
    obtain ⟨m1, cap1, k, h1, h2, h3, h4, h5, h6⟩ := demoMT_one hc hd
    obtain ⟨σ, g1, g2, g3, g4⟩ := ih (h.step h1 h2 h3) h4 h5
    refine ⟨fun n => match n with | 0 => m | n + 1 => σ n, ⟨h, ?_⟩, rfl, ?_, ?_⟩
    · intro n
      cases n with
      | zero => exact .inr ⟨k, by show Step m k (σ 0) ∧ Proper m k (σ 0) ∧ Room (σ 0).w; rw [g2]; exact ⟨h1, h2, h3⟩⟩
      | succ n => exact g1.next n
    · intro n hn
      cases n with
      | zero => exact ⟨cap, by simp [demoMT]⟩
      | succ n =>
        obtain ⟨c, hc⟩ := g3 n (by simpa using hn)
        exact ⟨c, by rw [List.take_succ_cons, h6]; exact hc⟩
    · intro n hn
      cases n with
      | zero => simp at hn
      | succ n => exact g4 n (by simpa using hn)

/-- Two lookups of different names at the same time. -/
def demoEvents : List Ev :=
  [.issue 0 tblA (.lookup 1 [0x61]), .issue 1 tblA (.lookup 1 [0x6c]), .go 0, .go 0, .go 0, .go 0, .go 0, .go 0, .go 0,
    .go 1, .go 1, .go 1, .go 1, .go 1, .go 1, .go 1]

def TState.isIdle : TState → Bool
  | .idle => true
  | _ => false

theorem TState.isIdle_iff {st : TState} (h : st.isIdle = true) : st = .idle := by cases st <;> first | rfl | cases h

/-- The hypotheses of C88 are met: a fair run in which a thread has to wait for LMDB's lock.
(This is for `C88_fair_partial`.) -/
example : ∃ σ, IsRun σ ∧ Fair σ ∧ (∀ n k, ¬ TwoReplies (σ n) k) ∧ (∃ st, (σ 5).th[1]? = some st ∧ st.unanswered = some (.lookup 1 [0x6c])) ∧
    (match (σ 5).w.step (.beginRW 1 1) with | .blocked => true | _ => false) = true := by
  have hall : ∀ n ∈ List.range 17, (match demoMount 2 (demoEvents.take n) with
      | some (m, _) => m.th.all (fun st => !st.twice)
      | none => false) = true := by decide +kernel
  have h5 : (match demoMount 2 (demoEvents.take 5) with
      | some (m, _) => decide ((m.th[1]?.bind TState.unanswered) = some (.lookup 1 [0x6c]) ∧ (match m.w.step (.beginRW 1 1) with | .blocked => true | _ => false) = true)
      | none => false) = true := by decide +kernel
  have hend : (match demoMount 2 demoEvents with
      | some (m, _) => m.th.all TState.isIdle
      | none => false) = true := by decide +kernel
  unfold demoMount at hall h5 hend
  cases ho : openCleanDB (initDB emptyDB 0 0 ⟨0, 0⟩) Refs.empty with
  | error e => rw [ho] at hend; cases hend
  | ok x =>
    obtain ⟨d, r⟩ := x
    rw [ho] at hall h5 hend
    simp only at hall h5 hend
    by_cases hr : roomB (CWorld.start d r) 0 = true
    · simp only [hr, if_true] at hall h5 hend
      have hc : ∀ i, ((CWorld.start d r).refs i).nrefs ≤ 0 := by
        obtain ⟨s, h1, h2, h3⟩ := root_rep 0 0 ⟨0, 0⟩
        have h0 : SI s (initDB emptyDB 0 0 ⟨0, 0⟩) Refs.empty := ⟨h1, h2, h3, fun i hi => (by cases hi), fun i hi => absurd hi (by simp [Refs.empty]), Refs.empty_ok⟩
        exact fun i => Nat.le_of_eq (open_counts h0 ho i)
      cases hd : demoMT (MSys.start d r 2) 0 demoEvents with
      | none => rw [hd] at hend; cases hend
      | some y =>
        obtain ⟨m', cap'⟩ := y
        rw [hd] at hend
        obtain ⟨σ, g1, g2, g3, g4⟩ := demo_run (MReach.mount (n := 2) ho (roomB_iff hc hr)) hc hd
        have hid : ∀ k (st : TState), m'.th[k]? = some st → st = .idle := fun k st hk =>
          TState.isIdle_iff (List.all_eq_true.mp hend st (List.mem_of_getElem? hk))
        have rest : ∀ n, 16 ≤ n → ∀ k m2, ¬ Served (σ n) k m2 := by
          rintro n hn k m2 ⟨hs, hi⟩
          obtain ⟨st, st', e, -⟩ := hs.account
          rw [g4 n hn] at e hi
          rw [hid k st e] at e
          exact hi e
        refine ⟨σ, g1, ?_, ?_, ?_, ?_⟩
        · intro k hh
          obtain ⟨n', q1, m2, q2⟩ := hh 16
          exact absurd q2 (rest n' q1 k m2)
        · rintro n k ⟨i, size, off, B, v, e, r', hk⟩
          by_cases hn : n < 17
          · obtain ⟨c, hc'⟩ := g3 n (by simp [demoEvents]; omega)
            have := hall n (List.mem_range.mpr hn)
            rw [hc'] at this
            have := List.all_eq_true.mp this _ (List.mem_of_getElem? hk)
            simp [TState.twice] at this
          · rw [g4 n (by simp [demoEvents]; omega)] at hk
            cases hid k _ hk
        · obtain ⟨c, hc'⟩ := g3 5 (by decide)
          rw [hc'] at h5
          have := (of_decide_eq_true h5).1
          cases hk : (σ 5).th[1]? with
          | none => rw [hk] at this; cases this
          | some st => rw [hk] at this; exact ⟨st, rfl, this⟩
        · obtain ⟨c, hc'⟩ := g3 5 (by decide)
          rw [hc'] at h5
          exact (of_decide_eq_true h5).2
    · simp only [hr] at hend; cases hend
theorem Exec.front {m m1 m2 : MSys} {l l1 : List Req} (h : Exec m l1 m1) (h2 : Exec m1 l m2) : Exec m (l1 ++ l) m2 := by
  induction h2 with
  | refl => simpa using h
  | issue _ a b c ih => rw [← List.append_assoc]; exact .issue ih a b c
  | served _ a ih => exact .served ih a

def Ev.issued : Ev → Option Req
  | .issue _ _ rq => some rq
  | .go _ => none

theorem demo_exec : ∀ {l : List Ev} {m m' : MSys} {cap cap' : Nat}, demoMT m cap l = some (m', cap') → Exec m (l.filterMap Ev.issued) m' := by
  intro l
  induction l with
  | nil => intro m m' cap cap' hd; cases hd; exact .refl
  | cons a l ih =>
    intro m m' cap cap' hd
    cases a with
    | issue k t rq =>
      simp only [demoMT] at hd
      split at hd
      · rename_i hk
        split at hd
        · have hlen : k < m.th.length := (List.getElem?_eq_some_iff.mp hk).1
          have := Exec.front (.issue (rq := rq) (B := t.backend) .refl (.issue hk) hk
            (by simp only [MSys.to]; rw [List.getElem?_set, if_pos rfl, if_pos hlen])) (ih hd)
          simpa [Ev.issued] using this
        · cases hd
      · cases hd
    | go k =>
      simp only [demoMT] at hd
      split at hd
      · cases hd
      · rename_i m1 hm
        split at hd
        · have hn : m.th[k]? ≠ some .idle := by intro e; simp only [MSys.go, e] at hm; cases hm
          have := Exec.front (.served .refl ⟨MSys.go_step hm, hn⟩) (ih hd)
          rw [List.filterMap_cons_none (show (Ev.go k).issued = none from rfl)]
          simpa using this
        · cases hd

/-- The hypotheses of C88_once are met: two lookups, and all threads are idle in the end.
(Also those of `C88_account`.) -/
example : ∃ m m', (∀ st ∈ m.th, st = .idle) ∧ (∀ st ∈ m'.th, st = .idle) ∧ Exec m [.lookup 1 [0x61], .lookup 1 [0x6c]] m' ∧ m'.sent.length = 2 := by
  have hend : (match demoMount 2 demoEvents with
      | some (m, _) => m.th.all TState.isIdle && decide (m.sent.length = 2)
      | none => false) = true := by decide +kernel
  unfold demoMount at hend
  cases ho : openCleanDB (initDB emptyDB 0 0 ⟨0, 0⟩) Refs.empty with
  | error e => rw [ho] at hend; cases hend
  | ok x =>
    obtain ⟨d, r⟩ := x
    rw [ho] at hend
    simp only at hend
    by_cases hr : roomB (CWorld.start d r) 0 = true
    · simp only [hr, if_true] at hend
      cases hd : demoMT (MSys.start d r 2) 0 demoEvents with
      | none => rw [hd] at hend; cases hend
      | some y =>
        obtain ⟨m', cap'⟩ := y
        rw [hd] at hend
        simp only [Bool.and_eq_true, decide_eq_true_eq] at hend
        refine ⟨MSys.start d r 2, m', ?_, fun st hst => TState.isIdle_iff (List.all_eq_true.mp hend.1 st hst), demo_exec hd, hend.2⟩
        intro st hst
        exact List.eq_of_mem_replicate hst
    · simp only [hr] at hend; cases hend

end Dragonstash.MT
