/-
  C122: the kernel answers programs by itself for one second after a reply, not longer.
-/
import Verif.Props.Fresh
namespace Dragonstash.FS
open Cache

variable {H : Nat → Backend} {K : Kern}

/-! ### Specification -/

/-- A request which was sent at `sent` and answered with `rep` at `got`. -/
structure Exchange where
  sent : Nat
  got : Nat
  rq : Req
  rep : Reply

/-- As `Timed`: all histories, with all requests and replies since the cache was created (the last first). -/
inductive Told (H : Nat → Backend) : List Exchange → Kern → Prop
  | mount {uid gid now d r t} : openCleanDB (initDB emptyDB uid gid now) Refs.empty = .ok (d, r) → Told H [] (.fresh ⟨d, r, fun _ => 0⟩ t)
  | remount {L K uid gid now d r t} : Told H L K → K.now ≤ t → openCleanDB (initDB K.sys.disk uid gid now) Refs.empty = .ok (d, r) →
      Told H L (.fresh ⟨d, r, fun _ => 0⟩ t)
  | wait {L K t} : Told H L K → K.now ≤ t → Told H L { K with now := t }
  | drop {L K ent attr} : Told H L K → (∀ p n, ent p n = none ∨ ent p n = K.ent p n) → (∀ i, attr i = none ∨ attr i = K.attr i) →
      Told H L { K with ent := ent, attr := attr }
  | ask {L K B rq rep y t} : Told H L K → Valid K.sys B rq → rq.named → K.now ≤ t → Answers H K.now t B → Answered K.sys B rq rep y →
      Told H (⟨K.now, t, rq, rep⟩ :: L) ({ K with sys := y, now := t, slow := max K.slow (t - K.now) }.took K.now rq rep)

/-- The exchange says that name `n` in directory `p` is the inode `i`. -/
def Exchange.names (x : Exchange) (p : Ino) (n : Bytes) (i : Ino) : Prop :=
  (x.rq = .lookup p n ∧ ∃ st, x.rep = .entry st ∧ st.ino = i) ∨
  (∃ size off l b, x.rq = .readdirplus p size off ∧ x.rep = .bufPlus l b ∧ ∃ e ∈ l, e.name = n ∧ e.stat.ino = i)

/-- The exchange says that the attributes of inode `i` are `st`. -/
def Exchange.shows (x : Exchange) (i : Ino) (st : OsStat) : Prop :=
  st.ino = i ∧ ((∃ p n, x.rq = .lookup p n ∧ x.rep = .entry st) ∨ (x.rq = .getattr i ∧ x.rep = .attr st) ∨
    (∃ p size off l b, x.rq = .readdirplus p size off ∧ x.rep = .bufPlus l b ∧ ∃ e ∈ l, e.stat = st))

/-- At most one second ago. -/
def Exchange.recent (x : Exchange) (now : Nat) : Prop := x.got ≤ now ∧ now ≤ x.got + 1000

/-! ### Theorems -/

/-- All histories have such a list. -/
theorem told_iff : Timed H K ↔ ∃ L, Told H L K := by
  constructor
  · intro h
    induction h with
    | mount h => exact ⟨_, .mount h⟩
    | remount _ h1 h2 ih => obtain ⟨L, ih⟩ := ih; exact ⟨_, .remount ih h1 h2⟩
    | wait _ h1 ih => obtain ⟨L, ih⟩ := ih; exact ⟨_, .wait ih h1⟩
    | drop _ h1 h2 ih => obtain ⟨L, ih⟩ := ih; exact ⟨_, .drop ih h1 h2⟩
    | ask _ h1 h2 h3 h4 h5 ih => obtain ⟨L, ih⟩ := ih; exact ⟨_, .ask ih h1 h2 h3 h4 h5⟩
  · rintro ⟨L, h⟩
    induction h with
    | mount h => exact .mount h
    | remount _ h1 h2 ih => exact .remount ih h1 h2
    | wait _ h1 ih => exact .wait ih h1
    | drop _ h1 h2 ih => exact .drop ih h1 h2
    | ask _ h1 h2 h3 h4 h5 ih => exact .ask ih h1 h2 h3 h4 h5

/-- What is cached was said by an exchange, and is valid for a second from then. -/
structure Expires (L : List Exchange) (K : Kern) : Prop where
  ent : ∀ p n e, K.ent p n = some e → ∃ x ∈ L, x.names p n e.ino ∧ x.got ≤ K.now ∧ e.until_ = x.got + 1000
  attr : ∀ i a, K.attr i = some a → ∃ x ∈ L, x.shows i a.stat ∧ x.got ≤ K.now ∧ a.until_ = x.got + 1000

theorem enterAll_now (K : Kern) (p : Ino) (l : List DEnt) : (K.enterAll p l).now = K.now := by
  induction l generalizing K with
  | nil => rfl
  | cons e l ih => unfold Kern.enterAll; split <;> rw [ih]; rfl

theorem Expires.enterAll {L : List Exchange} {p : Ino} {x : Exchange} (hx : x ∈ L) {size off b} {l : List DEnt} (h1 : x.rq = .readdirplus p size off) (h2 : x.rep = .bufPlus l b) :
    ∀ {l'}, l' <:+ l → ∀ {K : Kern}, x.got = K.now → Expires L K → Expires L (K.enterAll p l')
  | [], _, _, _, h => h
  | e :: l', hs, K, hg, h => by
    have he : e ∈ l := hs.subset (List.mem_cons_self ..)
    have ht : l' <:+ l := List.IsSuffix.trans ⟨[e], rfl⟩ hs
    unfold Kern.enterAll
    split
    · exact Expires.enterAll hx h1 h2 ht hg h
    · refine Expires.enterAll hx h1 h2 ht (K := K.enter ..) hg ⟨fun q m e' hq => ?_, fun i a ha => ?_⟩
      · simp only [Kern.enter] at hq ⊢
        by_cases hc : q = p ∧ m = e.name
        · rw [if_pos hc] at hq
          cases hq
          obtain ⟨rfl, rfl⟩ := hc
          exact ⟨x, hx, .inr ⟨_, _, _, _, h1, h2, e, he, rfl, rfl⟩, Nat.le_of_eq hg, by rw [hg]; rfl⟩
        · rw [if_neg hc] at hq; exact h.ent q m e' hq
      · simp only [Kern.enter] at ha ⊢
        by_cases hc : i = e.stat.ino
        · rw [if_pos hc] at ha
          cases ha
          exact ⟨x, hx, ⟨hc.symm, .inr (.inr ⟨_, _, _, _, _, h1, h2, e, he, rfl⟩)⟩, Nat.le_of_eq hg, by rw [hg]; rfl⟩
        · rw [if_neg hc] at ha; exact h.attr i a ha

theorem Expires.later {L : List Exchange} {K : Kern} {t : Nat} (h : Expires L K) (ht : K.now ≤ t) {y : Sys} {s : Nat} {x : Exchange} : Expires (x :: L) { K with sys := y, now := t, slow := s } :=
  ⟨fun p n e he => by obtain ⟨x, h1, h2, h3, h4⟩ := h.ent p n e he; exact ⟨x, List.mem_cons_of_mem _ h1, h2, Nat.le_trans h3 ht, h4⟩,
   fun i a ha => by obtain ⟨x, h1, h2, h3, h4⟩ := h.attr i a ha; exact ⟨x, List.mem_cons_of_mem _ h1, h2, Nat.le_trans h3 ht, h4⟩⟩

theorem told_expires {L : List Exchange} (h : Told H L K) : Expires L K := by
  induction h with
  | mount => exact ⟨nofun, nofun⟩
  | remount => exact ⟨nofun, nofun⟩
  | wait _ ht ih =>
    exact ⟨fun p n e he => by obtain ⟨x, h1, h2, h3, h4⟩ := ih.ent p n e he; exact ⟨x, h1, h2, Nat.le_trans h3 ht, h4⟩,
      fun i a ha => by obtain ⟨x, h1, h2, h3, h4⟩ := ih.attr i a ha; exact ⟨x, h1, h2, Nat.le_trans h3 ht, h4⟩⟩
  | drop _ he ha ih =>
    refine ⟨fun p n e hh => ?_, fun i a hh => ?_⟩
    · simp only at hh
      rcases he p n with g | g <;> rw [g] at hh
      · cases hh
      · exact ih.ent p n e hh
    · simp only at hh
      rcases ha i with g | g <;> rw [g] at hh
      · cases hh
      · exact ih.attr i a hh
  | @ask L K B rq rep y t hT hv hn ht hA ha ih =>
    have h := ih.later (y := y) (s := max K.slow (t - K.now)) (x := ⟨K.now, t, rq, rep⟩) ht
    have hx : (⟨K.now, t, rq, rep⟩ : Exchange) ∈ (⟨K.now, t, rq, rep⟩ : Exchange) :: L := List.mem_cons_self ..
    generalize hk : ({ K with sys := y, now := t, slow := max K.slow (t - K.now) } : Kern) = K1 at h ⊢
    have hnow : K1.now = t := by rw [← hk]
    unfold Kern.took
    split
    · rename_i p n st
      refine ⟨fun q m e he => ?_, fun i a hi => ?_⟩
      · simp only [Kern.enter] at he ⊢
        by_cases hc : q = p ∧ m = n
        · rw [if_pos hc] at he
          cases he
          obtain ⟨rfl, rfl⟩ := hc
          exact ⟨_, hx, .inl ⟨rfl, st, rfl, rfl⟩, Nat.le_of_eq hnow.symm, by rw [hnow]; rfl⟩
        · rw [if_neg hc] at he; exact h.ent q m e he
      · simp only [Kern.enter] at hi ⊢
        by_cases hc : i = st.ino
        · rw [if_pos hc] at hi
          cases hi
          exact ⟨_, hx, ⟨hc.symm, .inl ⟨_, _, rfl, rfl⟩⟩, Nat.le_of_eq hnow.symm, by rw [hnow]; rfl⟩
        · rw [if_neg hc] at hi; exact h.attr i a hi
    · rename_i p n _
      refine ⟨fun q m e he => ?_, h.attr⟩
      simp only at he
      by_cases hc : q = p ∧ m = n
      · rw [if_pos hc] at he; cases he
      · rw [if_neg hc] at he; exact h.ent q m e he
    · rename_i j st
      refine ⟨h.ent, fun i a hi => ?_⟩
      simp only at hi
      by_cases hc : i = j
      · rw [if_pos hc] at hi
        cases hi
        subst hc
        have hs : st.ino = i := by
          obtain ⟨s, h1, h2⟩ := live_inv (timed_live (told_iff.mpr ⟨_, hT⟩))
          obtain ⟨x, hd, hf, hs, -⟩ := ha
          rcases dispatch_served h1 h2 hv with ⟨s', d', r', rep', g1, g2, g3⟩ | ⟨dir, size, off, e, -, -, g1⟩
          · rw [g1] at hd
            cases hd
            cases hs
            cases g3; rfl
          · rw [g1] at hd; cases hd; cases hf
        exact ⟨_, hx, ⟨hs, .inr (.inl ⟨rfl, rfl⟩)⟩, Nat.le_of_eq hnow.symm, by rw [hnow]; rfl⟩
      · rw [if_neg hc] at hi; exact h.attr i a hi
    · rename_i p size off l b
      exact Expires.enterAll hx rfl rfl (List.suffix_refl _) hnow.symm ⟨h.ent, h.attr⟩
    · exact ⟨h.ent, h.attr⟩
    · exact h

/-- C122: the kernel leads programs from a name to an inode by itself only within a second after a reply which said so. -/
theorem C122_entry {L : List Exchange} (h : Told H L K) {p : Ino} {n : Bytes} {e : KEntry} (he : K.ent p n = some e) (hv : K.now ≤ e.until_) :
    ∃ x ∈ L, x.names p n e.ino ∧ x.recent K.now := by
  obtain ⟨x, h1, h2, h3, h4⟩ := (told_expires h).ent p n e he
  exact ⟨x, h1, h2, h3, by omega⟩

/-- C122: the kernel shows attributes by itself only within a second after a reply which contained them. -/
theorem C122_attr {L : List Exchange} (h : Told H L K) {i : Ino} {a : KAttr} (ha : K.attr i = some a) (hv : K.now ≤ a.until_) :
    ∃ x ∈ L, x.shows i a.stat ∧ x.recent K.now := by
  obtain ⟨x, h1, h2, h3, h4⟩ := (told_expires h).attr i a ha
  exact ⟨x, h1, h2, h3, by omega⟩

/-- The hypotheses of `C122_entry` and `C122_attr` can be met: 700 ms after a lookup, the kernel has the entry and the attributes. -/
example : ∃ L K e a, Told (fun t => (grows t).backend) L K ∧ K.ent ROOT [0x61] = some e ∧ K.now ≤ e.until_ ∧ K.attr e.ino = some a ∧ K.now ≤ a.until_ ∧ a.stat.size = 5 ∧ K.now = 700 ∧
    (∃ x ∈ L, x.names ROOT [0x61] e.ino ∧ x.recent K.now) ∧ ∃ x ∈ L, x.shows e.ino a.stat ∧ x.recent K.now := by
  obtain ⟨K, e, x, h1, ⟨p, a, k1, k2, k3, k4, k5, rfl⟩, -, -, h4, -, h5, -⟩ := startT_ex (T := grows) (l := [.ask (.lookup 1 [0x61]), .upto 700]) (n := [0x61]) (size := 5)
    (now := 700) (slow := 0) (how := .lookup) (since := some 0) (by decide +kernel)
  obtain ⟨L, hL⟩ := told_iff.mp h1
  cases k1
  exact ⟨L, K, e, a, hL, k2, k3, k4, k5, h5, h4, C122_entry hL k2 k3, C122_attr hL k4 k5⟩

/-- The same with a listing. -/
example : ∃ L K e a, Told (fun t => (grows t).backend) L K ∧ K.ent ROOT [0x61] = some e ∧ K.now ≤ e.until_ ∧ K.attr e.ino = some a ∧ K.now ≤ a.until_ ∧ e.how = .listing ∧
    (∃ x ∈ L, x.names ROOT [0x61] e.ino ∧ x.recent K.now) ∧ ∃ x ∈ L, x.shows e.ino a.stat ∧ x.recent K.now := by
  obtain ⟨K, e, x, h1, ⟨p, a, k1, k2, k3, k4, k5, rfl⟩, h2, -⟩ := startT_ex (T := grows) (l := [.ask (.opendir 1), .upto 2000, .ask (.opendir 1), .upto 4000, .ask (.readdirplus 1 500 0), .upto 4800])
    (n := [0x61]) (size := 9) (now := 4800) (slow := 0) (how := .listing) (since := some 2000) (by decide +kernel)
  obtain ⟨L, hL⟩ := told_iff.mp h1
  cases k1
  exact ⟨L, K, e, a, hL, k2, k3, k4, k5, h2, C122_entry hL k2 k3, C122_attr hL k4 k5⟩

end Dragonstash.FS
