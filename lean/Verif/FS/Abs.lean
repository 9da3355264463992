/-
  The requests as transitions of the abstract tree (`Abs`), and the proof that the handlers do
  exactly this.
-/
import Verif.FS.Pages
import Verif.Props.CacheRewrite
namespace Dragonstash.FS
open Cache Codec
variable {s s' : Tree} {d d' : DB} {r r' : Refs}

/-- A tree from which inode `i` has been taken out of its directory, and garbage collected. -/
structure Removed (s : Tree) (r : Refs) (i : Ino) (s' : Tree) (r' : Refs) : Prop where
  ok : s'.OK
  coll : Collected (s.orphan i) (locked r) s'
  refs : DoomedBy r r' (Gone (s.orphan i) (locked r))

/-- Storing attributes `a` under the name `n` in directory `p` (`emplace`); `res` is the inode. -/
inductive Put (p : Ino) (n : Bytes) (a : Attrs) (s : Tree) (r : Refs) : Res Ino → Tree → Refs → Prop
  | bad : ¬ GoodName n → Put p n a s r (.error (if n.length > 503 then ENAMETOOLONG else EINVAL)) s r
  | same {i nd} : s.nodes i = some nd → nd.loc = some (p, n) → fmt nd.attr.mode = fmt a.mode →
      Put p n a s r (.ok i) (s.set i { nd with attr := a, flags := 0 }) r
  | new {s1 s' r'} : GoodName n → ((s1 = s ∧ ∀ i, ¬ s.At p n i) ∨
        ∃ i nd, s1 = s.orphan i ∧ s.nodes i = some nd ∧ nd.loc = some (p, n) ∧ fmt nd.attr.mode ≠ fmt a.mode) →
      s'.OK → Collected (s1.add p n a) (locked r) s' → DoomedBy r r' (Gone (s1.add p n a) (locked r)) →
      Put p n a s r (.ok s.next) s' r'

/-- The marks of a directory rewrite after a `Put`. -/
def unmark (rw : Option (List Ino)) : Res Ino → Option (List Ino)
  | .ok i => rw.map (fun l => l.filter (· ≠ i))
  | .error _ => rw

theorem Put.eff {p n a res} (h : Put p n a s r res s' r') (ok : s.OK) (hp : s.IsDir p) (hnext : s.next + 1 < W64) :
    Eff s r s' r' ∧ EffP s r s' r' := by
  obtain ⟨pn, hpn, hpf⟩ := hp
  have hb := OK.lt ok hpn
  have h0 := (ok.bound p pn hpn).1
  cases h with
  | bad => exact ⟨.refl, .refl⟩
  | @same i nd h1 h2 h3 =>
    exact ⟨.set h1 rfl h3.symm (fun t ht => by simp only; rw [← h3]; exact ok.target i nd t h1 ht), .set h1 rfl h3.symm⟩
  | @new s1 _ _ hn h1 h2 h3 h4 =>
    have e2 : Eff (s1.add p n a) r s' r' := .collect h2 h3 h4
    rcases h1 with ⟨rfl, hfree⟩ | ⟨i, nd, rfl, hi, hl, -⟩
    · have e1 : Eff s1 r (s1.add p n a) r := .add h0 hb hn hnext hfree
      exact ⟨.trans e1 e2, .trans (.add ⟨pn, hpn, hpf⟩) e1 (.collect h3)⟩
    · have e0 : Eff s r (s.orphan i) r := .orphan i
      have e1 : Eff (s.orphan i) r ((s.orphan i).add p n a) r := .add h0 hb hn hnext (orphan_free ok ⟨nd, hi, hl⟩)
      exact ⟨.trans e0 (.trans e1 e2), .trans (.orphan i) e0 (.trans (.add (IsDir.orphan i ⟨pn, hpn, hpf⟩)) e1 (.collect h3))⟩

theorem Put.next {p n a res} (h : Put p n a s r res s' r') : s'.next ≤ s.next + 1 := by
  cases h with
  | bad => omega
  | same => exact Nat.le_succ _
  | @new s1 _ _ _ h1 _ h3 _ =>
    rw [h3.next]
    rcases h1 with ⟨rfl, -⟩ | ⟨i, nd, rfl, -⟩ <;> exact Nat.le_refl _

/-- `emplace` does a `Put`. -/
theorem emplace_put {t : Txn} (h : TRep s t) {p n a} (hp : s.IsDir p) (hnext : s.next + 1 < W64) :
    ∃ t' res s', emplace t p n a = .ok (t', res) ∧ Put p n a s t.refs res s' t'.refs ∧ TRep s' t' ∧ t'.hooks = t.hooks ∧
      ((t'.rewrite = unmark t.rewrite res) ∨ (res = .ok s.next ∧ t'.rewrite = t.rewrite)) := by
  obtain ⟨pn, hpn, -⟩ := hp
  have hb := OK.lt h.2 hpn
  have h0 := (h.2.bound p pn hpn).1
  rcases emplace_cases h (n := n) (a := a) hb (by omega) hnext with ⟨hn, h1⟩ | ⟨hn, i, nd, t', h1, h2, h3, h4, h5, h6, h7, h8⟩ | ⟨hn, s1, s', t', h1, h2, h3⟩
  · exact ⟨t, _, s, h1, .bad hn, h, rfl, .inl rfl⟩
  · exact ⟨t', _, _, h4, by rw [h6]; exact .same h1 h2 h3, h5, h7, .inl h8⟩
  · exact ⟨t', _, s', h2, .new hn h1 h3.rep.2 h3.coll h3.refs, h3.rep, h3.hooks, .inr ⟨rfl, h3.rewrite⟩⟩

instance (n : Bytes) : Decidable (GoodName n) := by unfold GoodName; infer_instance

/-- The entries which a synchronisation stores, latest first. -/
def listed (B : Backend) (base : Bytes) : Nat → List Bytes → List (Bytes × Attrs) → List (Bytes × Attrs)
  | _, [], acc => acc
  | k, n :: l, acc =>
    match B.lstat k (entryPath base n) with
    | .error _ => listed B base (k + 1) l acc
    | .ok sr => listed B base (k + 1) l (if GoodName n then (n, fromBackend sr) :: acc else acc)

/-- The loop of `opendir` as a sequence of `Put`s. -/
inductive Puts (B : Backend) (base : Bytes) (i : Ino) : Nat → List Bytes → Tree → Refs → Tree → Refs → Prop
  | nil {k s r} : Puts B base i k [] s r s r
  | skip {k n l s r s' r' e} : B.lstat k (entryPath base n) = .error e → Puts B base i (k + 1) l s r s' r' →
      Puts B base i k (n :: l) s r s' r'
  | put {k n l s r s1 r1 s' r' sr res} : B.lstat k (entryPath base n) = .ok sr → Put i n (fromBackend sr) s r res s1 r1 →
      Puts B base i (k + 1) l s1 r1 s' r' → Puts B base i k (n :: l) s r s' r'

/-- The entries of directory `i` after the loop, which marked those of `s0` and stored `A`. -/
structure Synced (i : Ino) (s0 : Tree) (A : List (Bytes × Attrs)) (s : Tree) (rw : Option (List Ino)) : Prop where
  rewr : ∃ l, Rewr i s0 l s rw ∧ l.map Prod.fst = A.map Prod.fst ∧
    ∀ m j, l.lookup m = some j → ∃ nd a, s.nodes j = some nd ∧ A.lookup m = some a ∧ nd.attr = a

theorem lookup_none_iff {β : Type} {l : List (Bytes × β)} {m : Bytes} : l.lookup m = none ↔ m ∉ l.map Prod.fst := by
  induction l with
  | nil => simp
  | cons x l ih =>
    obtain ⟨k, v⟩ := x
    rw [List.lookup_cons]
    by_cases h : m = k
    · simp [h]
    · rw [show (m == k) = false by simpa using h]
      simp only [List.map_cons, List.mem_cons, h, false_or]
      exact ih

theorem lookup_cons' {β : Type} {n m : Bytes} {i : β} {l : List (Bytes × β)} :
    ((n, i) :: l).lookup m = if m = n then some i else l.lookup m := by
  rw [List.lookup_cons]
  by_cases h : m = n
  · simp [h]
  · rw [show (m == n) = false by simpa using h, if_neg h]

theorem Synced.put {i n a A res rw} {s0 : Tree} (h : Synced i s0 A s rw) (ok : s.OK) (hi : s.IsDir i) (hnext : s.next + 1 < W64)
    (hp : Put i n a s r res s' r') {rw'} (hrw : rw' = unmark rw res ∨ (res = .ok s.next ∧ rw' = rw)) :
    Synced i s0 (if GoodName n then (n, a) :: A else A) s' rw' := by
  obtain ⟨l, h1, h2, h3⟩ := h.rewr
  obtain ⟨pn, hpn, -⟩ := hi
  have hb := OK.lt ok hpn
  have h0 := (ok.bound i pn hpn).1
  cases hp with
  | bad hn =>
    rw [if_neg hn]
    have : rw' = rw := by rcases hrw with h | ⟨h, -⟩; exact h; cases h
    rw [this]; exact ⟨l, h1, h2, h3⟩
  | @same j nd g1 g2 g3 =>
    have hn := (ok.loc j nd i n g1 g2).2.2
    rw [if_pos hn]
    have hrw' : rw' = rw.map (fun l => l.filter (· ≠ j)) := by
      rcases hrw with h | ⟨h, -⟩
      · exact h
      · cases h; rw [OK.fresh ok] at g1; cases g1
    refine ⟨(n, j) :: l, by rw [hrw']; exact h1.keep ok g1 g2 rfl g3.symm, by simp [h2], ?_⟩
    intro m k hk
    rw [lookup_cons'] at hk ⊢
    by_cases hm : m = n
    · rw [if_pos hm] at hk ⊢; cases hk
      exact ⟨_, a, Tree.set_self, rfl, rfl⟩
    · rw [if_neg hm] at hk ⊢
      obtain ⟨x, b, k1, k2, k3⟩ := h3 m k hk
      refine ⟨x, b, ?_, k2, k3⟩
      rw [Tree.set_ne]
      · exact k1
      · rintro rfl
        obtain ⟨y, k4, k5⟩ := (h1.at_ m k).mpr (.inl hk)
        rw [g1] at k4; cases k4; rw [g2] at k5; cases k5; exact hm rfl
  | @new s1 _ _ hn g1 g2 g3 g4 =>
    rw [if_pos hn]
    have hrw' : rw' = rw := by
      rcases hrw with h | ⟨-, h⟩
      · rw [h]
        unfold unmark
        cases hx : rw with
        | none => rfl
        | some L =>
          simp only [Option.map_some, Option.some.injEq]
          apply List.filter_eq_self.mpr
          intro y hy
          have := (h1.own L y hx hy).1
          simp; omega
      · exact h
    rw [hrw']
    have hR := h1.add ok hn (by omega) hb hnext g1 g3
    refine ⟨(n, s.next) :: l, hR, by simp [h2], ?_⟩
    intro m k hk
    obtain ⟨y, k4, -⟩ := (hR.at_ m k).mpr (.inl hk)
    obtain ⟨-, z, k6, k7, -⟩ := g3.back k4
    rw [lookup_cons'] at hk ⊢
    have hnext1 : s1.next = s.next := by rcases g1 with ⟨rfl, -⟩ | ⟨_, _, rfl, -⟩ <;> rfl
    by_cases hm : m = n
    · rw [if_pos hm] at hk ⊢; cases hk
      rw [← hnext1, Tree.add_self] at k6; cases k6
      exact ⟨y, a, k4, rfl, by rw [k7]⟩
    · rw [if_neg hm] at hk ⊢
      obtain ⟨x, b, k1, k2, k3⟩ := h3 m k hk
      refine ⟨y, b, k4, k2, ?_⟩
      rw [Tree.add_ne (by rw [hnext1]; have := (ok.bound k x k1).2; omega)] at k6
      rw [k7, ← k3]
      rcases g1 with ⟨rfl, -⟩ | ⟨j, _, rfl, -⟩
      · rw [k1] at k6; cases k6; rfl
      · by_cases hj : k = j
        · subst hj; rw [Tree.orphan_self k1] at k6; cases k6; rfl
        · rw [Tree.orphan_ne hj, k1] at k6; cases k6; rfl

/-- Inode numbers are not reused. -/
theorem eff_none (h : Eff s r s' r') {i} (hi : i < s.next) (hn : s.nodes i = none) : i < s'.next ∧ s'.nodes i = none := by
  induction h with
  | refl => exact ⟨hi, hn⟩
  | @set s r j x x' g1 _ _ _ =>
    refine ⟨hi, ?_⟩
    rw [Tree.set_ne]
    · exact hn
    · rintro rfl; rw [hn] at g1; cases g1
  | orphan j => exact ⟨hi, orphan_none hn⟩
  | add => exact ⟨Nat.lt_succ_of_lt hi, by rw [Tree.add_ne (by omega)]; exact hn⟩
  | @collect s s' r r' g1 g2 g3 =>
    refine ⟨by rw [g2.next]; exact hi, ?_⟩
    cases hx : s'.nodes i with
    | none => rfl
    | some nd => obtain ⟨-, y, h5, -⟩ := g2.back hx; rw [hn] at h5; cases h5
  | trans e1 e2 ih1 ih2 => obtain ⟨a, b⟩ := ih1 hi hn; exact ih2 a b

/-- The format of an inode does not change. -/
theorem eff_fmt (h : Eff s r s' r') (ok : s.OK) {i nd nd'} (h1 : s.nodes i = some nd) (h2 : s'.nodes i = some nd') :
    fmt nd'.attr.mode = fmt nd.attr.mode := by
  induction h generalizing nd nd' with
  | refl => rw [h1] at h2; cases h2; rfl
  | @set s r j x x' g1 g2 g3 g4 =>
    by_cases hj : i = j
    · subst hj; rw [Tree.set_self] at h2; cases h2; rw [g1] at h1; cases h1; exact g3
    · rw [Tree.set_ne hj, h1] at h2; cases h2; rfl
  | @orphan s r j =>
    by_cases hj : i = j
    · subst hj; rw [Tree.orphan_self h1] at h2; cases h2; rfl
    · rw [Tree.orphan_ne hj, h1] at h2; cases h2; rfl
  | add => rw [Tree.add_ne (OK.ne_next ok h1), h1] at h2; cases h2; rfl
  | collect _ g =>
    obtain ⟨-, y, k1, k2, -⟩ := g.back h2
    rw [h1] at k1; cases k1; rw [k2]
  | @trans s1 r1 s2 r2 s3 r3 e1 e2 ih1 ih2 =>
    cases hm : s2.nodes i with
    | some x => rw [ih2 (e1.ok ok) hm h2, ih1 ok h1 hm]
    | none =>
      have := (eff_none e2 (Nat.lt_of_lt_of_le (ok.bound i nd h1).2 e1.next) hm).2
      rw [this] at h2; cases h2

theorem conn_exists (ok : s.OK) {i} (hc : s.Conn i) : ∃ nd, s.nodes i = some nd := by
  obtain ⟨cs, hp⟩ := hc
  cases hp with
  | root => obtain ⟨x, g, -⟩ := ok.root; exact ⟨x, g⟩
  | child hat => obtain ⟨x, g, -⟩ := hat; exact ⟨x, g⟩

theorem eff_dir (h : Eff s r s' r') (ok : s.OK) {i} (hc : s'.Conn i) (hd : s.IsDir i) : s'.IsDir i := by
  obtain ⟨nd, h1, h2⟩ := hd
  obtain ⟨nd', hn'⟩ := conn_exists (h.ok ok) hc
  exact ⟨nd', hn', by rw [eff_fmt h ok h1 hn']; exact h2⟩

/-- The loop of `opendir`. -/
theorem syncLoop_spec {B : Backend} {base : Bytes} {i : Ino} {s0 : Tree} : ∀ (names : List Bytes) (k : Nat) (s : Tree) (t : Txn) (A : List (Bytes × Attrs)),
    SI s t.db t.refs → s.IsDir i → Synced i s0 A s t.rewrite → RewriteOK t.rewrite → s.next + names.length < W64 →
    ∃ t' s', syncLoop B base i k names t = .ok t' ∧ Puts B base i k names s t.refs s' t'.refs ∧ SI s' t'.db t'.refs ∧ s'.IsDir i ∧
      Synced i s0 (listed B base k names A) s' t'.rewrite ∧ RewriteOK t'.rewrite ∧ Eff s t.refs s' t'.refs := by
  intro names
  induction names with
  | nil => intro k s t A h hi hs hrw _; exact ⟨t, s, rfl, .nil, h, hi, hs, hrw, .refl⟩
  | cons n l ih =>
    intro k s t A h hi hs hrw hlen
    simp only [List.length_cons] at hlen
    unfold syncLoop
    cases hls : B.lstat k (entryPath base n) with
    | error e =>
      simp only
      obtain ⟨t', s', g1, g2, g3, g4, g5, g6, g7⟩ := ih (k + 1) s t A h hi hs hrw (by omega)
      refine ⟨t', s', g1, .skip hls g2, g3, g4, ?_, g6, g7⟩
      unfold listed; rw [hls]; exact g5
    | ok sr =>
      simp only
      obtain ⟨t1, res, s1, g1, g2, g3, g4, g5⟩ := emplace_put (t := t) (s := s) ⟨h.rep, h.ok⟩ (n := n) (a := fromBackend sr) hi (by omega)
      obtain ⟨e1, e2⟩ := g2.eff h.ok hi (by omega)
      have h1 : SI s1 t1.db t1.refs := h.eff e1 e2 g3.1
      have hs1 := hs.put h.ok hi (by omega) g2 g5
      have hc : s1.Conn i := by obtain ⟨L, k1, -⟩ := hs1.rewr; exact k1.conn
      have hrw1 : RewriteOK t1.rewrite := by
        rcases g5 with g5 | ⟨-, g5⟩
        · rw [g5]
          cases res with
          | error e => exact hrw
          | ok j =>
            intro L hL x hx
            cases hrl : t.rewrite with
            | none => rw [hrl] at hL; cases hL
            | some L0 =>
              rw [hrl] at hL; cases hL
              exact hrw L0 hrl x (List.mem_filter.mp hx).1
        · rw [g5]; exact hrw
      obtain ⟨t', s', k1, k2, k3, k4, k5, k6, k7⟩ := ih (k + 1) s1 t1 _ h1 (eff_dir e1 h.ok hc hi) hs1 hrw1 (by have := g2.next; omega)
      refine ⟨t', s', ?_, .put hls g2 k2, k3, k4, ?_, k6, .trans e1 k7⟩
      · rw [g1]; exact k1
      · unfold listed; rw [hls]; exact k5

/-- The inodes marked. -/
def marks (rw : Option (List Ino)) : List Ino := rw.getD []

/-- A synchronisation of directory `i`: marking, storing, setting the flag, unlinking what is still
marked. -/
inductive SyncTo (B : Backend) (base : Bytes) (i : Ino) (names : List Bytes) (s : Tree) (r : Refs) : Tree → Refs → Prop
  | mk {s1 r' nd rw} : Puts B base i 0 names s r s1 r' → Synced i s (listed B base 0 names []) s1 rw → s1.nodes i = some nd → s1.OK →
      (∀ j ∈ marks rw, j < W64) → Eff s r s1 r' →
      SyncTo B base i names s r ((s1.set i { nd with flags := newFlags nd.flags [SYNCED] [] }).orphans (marks rw)) r'

theorem sync_spec {B : Backend} {base : Bytes} {i : Ino} {names : List Bytes} {t : Txn} (h : SI s t.db t.refs) (hi : s.IsDir i) (hc : s.Conn i)
    (hrw : t.rewrite = none) (hlen : s.next + names.length < W64) :
    ∃ t' s', sync B base i names t = .ok t' ∧ SyncTo B base i names s t.refs s' t'.refs ∧ SI s' t'.db t'.refs := by
  obtain ⟨nd0, hnd0, -⟩ := id hi
  have hb := OK.lt h.ok hnd0
  obtain ⟨t1, a1, a2, a3, a4, a5⟩ := startRewrite_spec (t := t) ⟨h.rep, h.ok⟩ hb hrw
  have h1 : SI s t1.db t1.refs := by rw [a2, a3]; exact h
  have hrw1 : RewriteOK t1.rewrite := by
    intro L hL j hj
    obtain ⟨n, nd, k, -⟩ := (a5 j).mp ⟨L, hL, hj⟩
    exact OK.lt h.ok k
  have hs1 : Synced i s [] s t1.rewrite := ⟨[], Rewr.start h.ok hc a5, rfl, by intro m j hj; cases hj⟩
  obtain ⟨t2, s2, b1, b2, b3, b4, b5, b6, b7⟩ := syncLoop_spec (B := B) (base := base) names 0 s t1 [] h1 hi hs1 hrw1 hlen
  obtain ⟨nd, hnd, -⟩ := id b4
  obtain ⟨t3, c1, c2, c3, c4, c5⟩ := updateFlags_spec (t := t2) (s := s2) ⟨b3.rep, b3.ok⟩ (a := [SYNCED]) (b := []) hnd
  have e3 : Eff s2 t2.refs (s2.set i { nd with flags := newFlags nd.flags [SYNCED] [] }) t2.refs :=
    .set hnd rfl rfl (fun t ht => b3.ok.target i nd t hnd ht)
  have h3 : SI (s2.set i { nd with flags := newFlags nd.flags [SYNCED] [] }) t3.db t3.refs := by
    rw [c3]; exact b3.eff e3 (.set hnd rfl rfl) c2.1
  have hm : ∀ j ∈ marks t2.rewrite, j < W64 := by
    intro j hj
    cases hx : t2.rewrite with
    | none => rw [hx] at hj; cases hj
    | some L => rw [hx] at hj; exact b6 L hx j hj
  have hrefs : t1.refs = t.refs := a3
  have hfin : ∃ t4, finishRewrite t3 = (t4, (finishRewrite t3).2) ∧ Rep ((s2.set i { nd with flags := newFlags nd.flags [SYNCED] [] }).orphans (marks t2.rewrite)) t4.db ∧
      t4.refs = t3.refs := by
    cases hx : t2.rewrite with
    | none =>
      have : finishRewrite t3 = (t3, .error EBADFD) := by unfold finishRewrite; rw [c5, hx]
      exact ⟨t3, by rw [this], c2.1, rfl⟩
    | some L =>
      obtain ⟨t4, d1, d2, d3, -⟩ := finishRewrite_some (t := t3) c2 (by rw [c5, hx]) (b6 L hx)
      exact ⟨t4, by rw [d1], d2.1, d3⟩
  obtain ⟨t4, d1, d2, d3⟩ := hfin
  obtain ⟨-, -, e4, e5⟩ := finish_fold hm (r := t3.refs) h3.rep h3.ok
  refine ⟨t4, (s2.set i { nd with flags := newFlags nd.flags [SYNCED] [] }).orphans (marks t2.rewrite), ?_, ?_, ?_⟩
  · unfold sync
    rw [a1]
    simp only [bind_ok]
    rw [b1]
    simp only [bind_ok]
    rw [c1]
    simp only
    rw [d1]; rfl
  · rw [d3, c3, ← hrefs]
    exact .mk b2 b5 hnd b3.ok hm b7
  · rw [d3]; exact h3.eff e4 e5 d2

end Dragonstash.FS
