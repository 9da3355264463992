import Verif.Props.Absence
import Verif.Props.Frozen
import Verif.FS.Demo
/-
  C116: asking twice changes nothing.
-/
namespace Dragonstash.FS
open Cache Codec

/-! ### Specification -/

/-- The backend says the same about a name however often it is asked. -/
def Steady (B : Backend) : Prop := ∀ k p, B.lstat k p = B.lstat 0 p

/-- Requests which can be repeated: all but those by which the kernel gives back references, and but those for a link (other than the root)
which the backend refuses to read for another reason than that it does not exist, or that the backend is not connected. -/
def Repeatable (d : DB) (B : Backend) : Req → Prop
  | .forget _ _ | .forgetMulti _ => False
  | .readlink i => ∀ b e, Cache.path d i = .ok (.ok b) → B.readlink (if b = [] then [0x2f] else b) = .error e → e = ENOENT ∨ e = ENOTCONN ∨ i = 1
  | _ => True

/-! ### Trees -/

section trees
variable {s s' s1 s2 : Tree} {d d' : DB} {r r' r1 r2 : Refs}

theorem set_id {i nd} (h : s.nodes i = some nd) : s.set i nd = s := by
  cases s with
  | mk nodes next =>
    unfold Tree.set
    congr 1
    funext j
    simp only
    by_cases e : j = i
    · rw [if_pos e, e]; exact h.symm
    · rw [if_neg e]

theorem orphan_id {i} (h : ∀ nd, s.nodes i = some nd → nd.loc = none) : s.orphan i = s := by
  cases s with
  | mk nodes next =>
    unfold Tree.orphan
    congr 1
    funext j
    simp only at h ⊢
    by_cases e : j = i
    · rw [if_pos e, e]
      cases hn : nodes i with
      | none => rfl
      | some nd =>
        have := h nd hn
        cases nd
        simp only at this
        subst this
        rfl
    · rw [if_neg e]

theorem orphans_id : ∀ {l : List Ino} {s : Tree}, (∀ i ∈ l, ∀ nd, s.nodes i = some nd → nd.loc = none) → s.orphans l = s := by
  intro l
  induction l with
  | nil => intro s _; rfl
  | cons i l ih =>
    intro s h
    have e : s.orphans (i :: l) = (s.orphan i).orphans l := rfl
    rw [e, orphan_id (h i (by simp))]
    exact ih (fun j hj => h j (by simp [hj]))

/-- The entry `n` of directory `i` has just been stored with the attributes `a`. -/
def JustStored (s : Tree) (i : Ino) (n : Bytes) (a : Attrs) : Prop := ∃ j nd, s.nodes j = some nd ∧ nd.loc = some (i, n) ∧ nd.attr = a ∧ nd.flags = 0

/-- Storing once more what is stored does nothing. -/
theorem Put.again {i n a res} (h : Put i n a s r res s' r') (ok : s.OK) (hf : GoodName n → JustStored s i n a) : s' = s ∧ r' = r ∧
    ∀ j, res = .ok j → s.At i n j := by
  cases h with
  | bad => exact ⟨rfl, rfl, fun j h => by cases h⟩
  | @same j nd h1 h2 h3 =>
    obtain ⟨k, ndk, f1, f2, f3, f4⟩ := hf (ok.loc j nd i n h1 h2).2.2
    obtain rfl := ok.uniq j k nd ndk _ h1 f1 h2 f2
    rw [h1] at f1; cases f1
    refine ⟨?_, rfl, fun j hj => by cases hj; exact ⟨nd, h1, h2⟩⟩
    subst f3
    cases nd
    simp only at f4
    subst f4
    exact set_id h1
  | @new s1 _ _ hn h1 h2 h3 h4 =>
    obtain ⟨k, ndk, f1, f2, f3, f4⟩ := hf hn
    rcases h1 with ⟨-, hfree⟩ | ⟨j, nd, -, hj, hl, hfm⟩
    · exact absurd ⟨ndk, f1, f2⟩ (hfree k)
    · obtain rfl := ok.uniq j k nd ndk _ hj f1 hl f2
      rw [hj] at f1; cases f1
      exact absurd (by rw [f3]) hfm

/-- After storing an entry it is stored; the others remain. -/
theorem Put.fresh {i n a res} (h : Put i n a s r res s' r') (ok : s.OK) (hi : s.IsDir i) (hc : s.Conn i) (hnext : s.next + 1 < W64) :
    (GoodName n → JustStored s' i n a) ∧ (∀ m b, m ≠ n → JustStored s i m b → JustStored s' i m b) ∧ s'.Conn i := by
  obtain ⟨pn, hpn, -⟩ := id hi
  have hb := OK.lt ok hpn
  have hp0 := (ok.bound i pn hpn).1
  cases h with
  | bad hn => exact ⟨fun h => absurd h hn, fun _ _ _ h => h, hc⟩
  | @same j nd h1 h2 h3 =>
    refine ⟨fun _ => ⟨j, _, Tree.set_self, h2, rfl, rfl⟩, fun m b hm hf => ?_, ?_⟩
    · obtain ⟨k, ndk, f1, f2, f3, f4⟩ := hf
      have e : k ≠ j := by
        rintro rfl
        rw [h1] at f1; cases f1
        rw [h2] at f2; cases f2
        exact hm rfl
      exact ⟨k, ndk, by rw [Tree.set_ne e]; exact f1, f2, f3, f4⟩
    · obtain ⟨cs, hcs⟩ := hc
      exact ⟨cs, PathTo.of_at (fun p n i hat => (at_set (nd' := { nd with attr := a, flags := 0 }) h1 rfl).mpr hat) hcs⟩
  | @new s1 _ _ hn h1 h2 h3 h4 =>
    have ok1 : s1.OK := by rcases h1 with ⟨rfl, -⟩ | ⟨i, nd, rfl, -⟩; exact ok; exact OK.orphan ok i
    have hn1 : s1.next = s.next := by rcases h1 with ⟨rfl, -⟩ | ⟨i, nd, rfl, -⟩ <;> rfl
    have hc1 : s1.Conn i := by
      rcases h1 with ⟨rfl, -⟩ | ⟨j, nd, rfl, k5, k6, -⟩
      · exact hc
      · exact Conn.orphan ok hc ⟨nd, k5, k6⟩
    have hfree : ∀ j, ¬ s1.At i n j := by
      rcases h1 with ⟨rfl, h⟩ | ⟨j, nd, rfl, k5, k6, -⟩
      · exact h
      · exact orphan_free ok ⟨nd, k5, k6⟩
    have ok2 : (s1.add i n a).OK := OK.addNode ok1 hp0 hb hn (by rw [hn1]; exact hnext) hfree
    have hc2 : (s1.add i n a).Conn i := Conn.add ok1 hc1
    have hkeep : ∀ m b, JustStored (s1.add i n a) i m b → JustStored s' i m b := by
      rintro m b ⟨k, ndk, f1, f2, f3, f4⟩
      refine ⟨k, ndk, ?_, f2, f3, f4⟩
      rw [h3.keep k ?_ ?_]
      · exact f1
      · obtain ⟨cs, hcs⟩ := hc2
        exact Conn.not_gone ok2 ⟨cs ++ [m], .child ⟨ndk, f1, f2⟩ hcs⟩
      · intro nd p m' e1 e2 e3
        rw [f1] at e1; cases e1
        rw [f2] at e2; cases e2
        exact Conn.not_gone ok2 hc2 e3.1
    refine ⟨fun _ => hkeep n a ⟨s1.next, _, Tree.add_self, rfl, rfl, rfl⟩, fun m b hm hf => hkeep m b ?_, ?_⟩
    · obtain ⟨k, ndk, f1, f2, f3, f4⟩ := hf
      have f1' : s1.nodes k = some ndk := by
        rcases h1 with ⟨rfl, -⟩ | ⟨j, nd, rfl, k5, k6, -⟩
        · exact f1
        · have e : k ≠ j := by
            rintro rfl
            rw [k5] at f1; cases f1
            rw [k6] at f2; cases f2
            exact hm rfl
          simp only [Tree.orphan]
          rw [if_neg e]; exact f1
      have e : k ≠ s1.next := by
        intro e
        rw [e, OK.fresh ok1] at f1'; cases f1'
      exact ⟨k, ndk, by rw [Tree.add_ne e]; exact f1', f2, f3, f4⟩
    · obtain ⟨cs, hcs⟩ := hc2
      exact ⟨cs, PathTo.collected ok2 h3 hcs⟩

theorem at_unique (ok : s.OK) {p n i j} (h : s.At p n i) (h' : s.At p n j) : i = j := by
  obtain ⟨a, h1, h2⟩ := h
  obtain ⟨b, h3, h4⟩ := h'
  exact ok.uniq i j a b _ h1 h3 h2 h4

theorem map_shorter {P Q : List Ent} {x : Ent} (h : (P ++ x :: Q).map Ent.dent = P.map Ent.dent) : False := by
  have := congrArg List.length h
  simp at this

/-- The names which a synchronisation stores, if the backend is steady. -/
theorem listed_mem {B : Backend} {base : Bytes} (hB : Steady B) : ∀ {l : List Bytes} {k acc n a}, (n, a) ∈ listed B base k l acc ↔
    (n, a) ∈ acc ∨ (n ∈ l ∧ GoodName n ∧ ∃ sr, B.lstat 0 (entryPath base n) = .ok sr ∧ a = fromBackend sr) := by
  intro l
  induction l with
  | nil => intro k acc n a; simp [listed]
  | cons m l ih =>
    intro k acc n a
    unfold listed
    cases hl : B.lstat k (entryPath base m) with
    | error e =>
      simp only
      rw [ih]
      constructor
      · rintro (h | ⟨h1, h2⟩)
        · exact .inl h
        · exact .inr ⟨.tail _ h1, h2⟩
      · rintro (h | ⟨h1, h2, sr, h3, h4⟩)
        · exact .inl h
        · rcases List.mem_cons.mp h1 with rfl | h1
          · rw [hB] at hl; rw [hl] at h3; cases h3
          · exact .inr ⟨h1, h2, sr, h3, h4⟩
    | ok sr =>
      simp only
      rw [ih]
      rw [hB] at hl
      constructor
      · rintro (h | ⟨h1, h2⟩)
        · by_cases hm : GoodName m
          · rw [if_pos hm] at h
            rcases List.mem_cons.mp h with h | h
            · cases h
              exact .inr ⟨.head _, hm, sr, hl, rfl⟩
            · exact .inl h
          · rw [if_neg hm] at h; exact .inl h
        · exact .inr ⟨.tail _ h1, h2⟩
      · rintro (h | ⟨h1, h2, sr', h3, h4⟩)
        · by_cases hm : GoodName m
          · rw [if_pos hm]; exact .inl (.tail _ h)
          · rw [if_neg hm]; exact .inl h
        · rcases List.mem_cons.mp h1 with rfl | h1
          · rw [hl] at h3; cases h3
            rw [if_pos h2, h4]; exact .inl (.head _)
          · exact .inr ⟨h1, h2, sr', h3, h4⟩

theorem Puts.fresh {B base i k l} (h : Puts B base i k l s r s' r') (hB : Steady B) (ok : s.OK) (hi : s.IsDir i) (hc : s.Conn i) (hnext : s.next + l.length < W64) :
    (∀ n ∈ l, ∀ sr, GoodName n → B.lstat 0 (entryPath base n) = .ok sr → JustStored s' i n (fromBackend sr)) ∧
    (∀ m sr, B.lstat 0 (entryPath base m) = .ok sr → JustStored s i m (fromBackend sr) → JustStored s' i m (fromBackend sr)) := by
  induction h with
  | nil => exact ⟨fun n hn => (nomatch hn), fun _ _ _ h => h⟩
  | @skip k n l s r s' r' e h1 h2 ih =>
    obtain ⟨g1, g2⟩ := ih ok hi hc (by rw [List.length_cons] at hnext; omega)
    refine ⟨fun m hm sr hg hl => ?_, g2⟩
    rcases List.mem_cons.mp hm with rfl | hm
    · rw [hB] at h1; rw [hl] at h1; cases h1
    · exact g1 m hm sr hg hl
  | @put k n l s r s1 r1 s' r' sr res h1 h2 h3 ih =>
    rw [List.length_cons] at hnext
    have hx : s.next + 1 < W64 := by omega
    obtain ⟨e1, -⟩ := h2.eff ok hi hx
    obtain ⟨f1, f2, f3⟩ := h2.fresh ok hi hc hx
    have := h2.next
    obtain ⟨g1, g2⟩ := ih (e1.ok ok) (eff_dir e1 ok f3 hi) f3 (by omega)
    rw [hB] at h1
    have all : ∀ m sr, B.lstat 0 (entryPath base m) = .ok sr → JustStored s i m (fromBackend sr) → JustStored s1 i m (fromBackend sr) := by
      intro m sr' hl hf
      by_cases e : m = n
      · subst e
        rw [hl] at h1; cases h1
        obtain ⟨j, nd, a, b, -⟩ := hf
        exact f1 (ok.loc j nd i m a b).2.2
      · exact f2 m _ e hf
    refine ⟨fun m hm sr' hg hl => ?_, fun m sr' hl hf => g2 m sr' hl (all m sr' hl hf)⟩
    rcases List.mem_cons.mp hm with rfl | hm
    · obtain rfl : sr' = sr := by rw [hl] at h1; exact Except.ok.inj h1
      exact g2 m sr' hl (f1 hg)
    · exact g1 m hm sr' hg hl

theorem Puts.again {B base i k l} (h : Puts B base i k l s r s' r') (hB : Steady B) (ok : s.OK)
    (hf : ∀ n ∈ l, ∀ sr, GoodName n → B.lstat 0 (entryPath base n) = .ok sr → JustStored s i n (fromBackend sr)) : s' = s ∧ r' = r := by
  induction h with
  | nil => exact ⟨rfl, rfl⟩
  | skip h1 h2 ih => exact ih ok (fun n hn => hf n (.tail _ hn))
  | @put k n l s r s1 r1 s' r' sr res h1 h2 h3 ih =>
    rw [hB] at h1
    obtain ⟨rfl, rfl, -⟩ := h2.again ok (fun hg => hf n (.head _) sr hg h1)
    exact ih ok (fun n hn => hf n (.tail _ hn))

theorem setFlag_true_twice (x f : Nat) : setFlag (setFlag x f true) f true = setFlag x f true := by
  unfold setFlag u16
  simp only [if_true]
  apply Nat.eq_of_testBit_eq
  intro j
  rw [show (65536 : Nat) = 2 ^ 16 from rfl]
  simp only [Nat.testBit_mod_two_pow, Nat.testBit_or]
  cases decide (j < 16) <;> cases x.testBit j <;> cases (1 <<< f).testBit j <;> rfl

/-- Listing a directory again does nothing. -/
theorem SyncTo.again {B base i l} (h : SyncTo B base i l s r s1 r1) (h' : SyncTo B base i l s1 r2 s2 r') (hB : Steady B) (ok : s.OK) (ok1 : s1.OK) (wf : s.WF) (hi : s.IsDir i)
    (hc : s.Conn i) (hnext : s.next + l.length < W64) : s2 = s1 ∧ r' = r2 := by
  cases h with
  | @mk t1 _ nd rw hp hs hn hok hm he =>
  have hfresh := (hp.fresh hB ok hi hc hnext).1
  obtain ⟨l1, hw1, hl1, -⟩ := hs.rewr
  have key : ∀ n ∈ l, ∀ sr, GoodName n → B.lstat 0 (entryPath base n) = .ok sr →
      JustStored ((t1.set i { nd with flags := newFlags nd.flags [SYNCED] [] }).orphans (marks rw)) i n (fromBackend sr) := by
    intro n hnl sr hg hls
    obtain ⟨j, ndj, f1, f2, f3, f4⟩ := hfresh n hnl sr hg hls
    have hji : j ≠ i := by
      rintro rfl
      obtain ⟨cs, hcs⟩ := hw1.conn
      have := congrArg List.length (PathTo.unique hok hcs (.child ⟨ndj, f1, f2⟩ hcs))
      simp at this
    have hmk : j ∉ marks rw := by
      intro hjm
      have : ∃ L, rw = some L ∧ j ∈ L := by
        cases hx : rw with
        | none => rw [hx] at hjm; cases hjm
        | some L => rw [hx] at hjm; exact ⟨L, rfl, hjm⟩
      have hnone := (hw1.mark n j ⟨ndj, f1, f2⟩).1 this
      rw [lookup_none_iff, hl1] at hnone
      exact hnone (List.mem_map.mpr ⟨(n, fromBackend sr), (listed_mem hB).mpr (.inr ⟨hnl, hg, sr, hls, rfl⟩), rfl⟩)
    obtain ⟨nd3, k1, k2, k3, -, -, k4⟩ := orphans_nodes (l := marks rw) (s := t1.set i { nd with flags := newFlags nd.flags [SYNCED] [] }) (j := j) (nd := ndj)
      (by rw [Tree.set_ne hji]; exact f1)
    exact ⟨j, nd3, k1, by rw [k4 hmk]; exact f2, by rw [k2]; exact f3, by rw [k3]; exact f4⟩
  cases h' with
  | @mk t2 _ nd' rw' hp' hs' hn' hok' hm' he' =>
  obtain ⟨rfl, rfl⟩ := hp'.again hB ok1 key
  refine ⟨?_, rfl⟩
  obtain ⟨l2, hw2, hl2, -⟩ := hs'.rewr
  obtain ⟨nd3, k1, -, k3, -, -, -⟩ := orphans_nodes (l := marks rw) (s := t1.set i { nd with flags := newFlags nd.flags [SYNCED] [] }) (j := i) Tree.set_self
  rw [hn'] at k1; cases k1
  have hfl : { nd' with flags := newFlags nd'.flags [SYNCED] [] } = nd' := by
    simp only at k3
    cases nd'
    simp only at k3
    subst k3
    simp only [newFlags, List.foldl, setFlag_true_twice]
  rw [hfl, set_id hn']
  apply orphans_id
  intro j hj ndj hnj
  cases hl : ndj.loc with
  | none => rfl
  | some x =>
    exfalso
    obtain ⟨q, m⟩ := x
    have hrw : ∃ L, rw' = some L ∧ j ∈ L := by
      cases hx : rw' with
      | none => rw [hx] at hj; cases hj
      | some L => rw [hx] at hj; exact ⟨L, rfl, hj⟩
    obtain ⟨L, hL, hjL⟩ := hrw
    have hat : ((t1.set i { nd with flags := newFlags nd.flags [SYNCED] [] }).orphans (marks rw)).At q m j := ⟨ndj, hnj, hl⟩
    have hq := (hw2.own L j hL hjL).2 q m hat
    subst hq
    have hnone := (hw2.mark m j hat).1 ⟨L, hL, hjL⟩
    obtain ⟨hat1, hjm⟩ := orphans_At.mp hat
    have hat1 : t1.At q m j := (at_set (nd' := { nd with flags := newFlags nd.flags [SYNCED] [] }) hn rfl).mp hat1
    have hno1 : ¬ l1.lookup m = none := by
      intro h
      obtain ⟨L1, hL1, hj1⟩ := (hw1.mark m j hat1).2 h
      rw [hL1] at hjm
      exact hjm hj1
    rw [lookup_none_iff] at hnone hno1
    rw [hl1] at hno1
    rw [hl2] at hnone
    exact hno1 hnone

theorem holds_root (ok : s.OK) : Holds (fun _ a => fmt a.mode = S_IFDIR) [] s := by
  refine ⟨⟨ROOT, .root⟩, fun ds k nd hd hk hnd => ?_⟩
  obtain rfl := List.prefix_nil.mp hd
  have := PathTo.inj ok hk .root
  subst this
  obtain ⟨x, h1, h2, -⟩ := ok.root
  rw [hnd] at h1; cases h1
  exact h2

theorem holds_any {i cs} (hp : s.PathTo i cs) : Holds (fun _ _ => True) cs s := ⟨⟨i, hp⟩, fun _ _ _ _ _ _ => trivial⟩

theorem Puts.path {B base i k l cs} (h : Puts B base i k l s r s' r') (ok : s.OK) (hi : s.IsDir i) (hp : s.PathTo i cs) (hnext : s.next + l.length < W64) : s'.PathTo i cs := by
  induction h with
  | nil => exact hp
  | skip _ _ ih => exact ih ok hi hp (by rw [List.length_cons] at hnext; omega)
  | @put k n l s r s1 r1 s' r' sr res h1 h2 h3 ih =>
    rw [List.length_cons] at hnext
    have hx : s.next + 1 < W64 := by omega
    obtain ⟨e1, -⟩ := h2.eff ok hi hx
    obtain ⟨f1, f2, f3⟩ := h2.fresh ok hi ⟨cs, hp⟩ hx
    have := h2.next
    exact ih (e1.ok ok) (eff_dir e1 ok f3 hi) (h2.stay (A := fun _ a => fmt a.mode = S_IFDIR) (fs := []) ok hi hx hp (fun h => by simp at h) (fun _ _ _ h h' => h.trans h'.symm) (holds_root ok)).2 (by omega)

theorem SyncTo.path {B base i l cs} (h : SyncTo B base i l s r s' r') (ok : s.OK) (hi : s.IsDir i) (hp : s.PathTo i cs) (hnext : s.next + l.length < W64) : s'.PathTo i cs := by
  cases h with
  | @mk t1 _ nd rw h1 hs hn hok hm he =>
  have h2 := h1.path ok hi hp hnext
  obtain ⟨l1, hw1, -, -⟩ := hs.rewr
  refine (h2.set (nd' := { nd with flags := newFlags nd.flags [SYNCED] [] }) hn rfl).orphans fun ds k hpre hk hm => ?_
  have hk : t1.PathTo k ds := PathTo.of_at (fun p n i hat => (at_set (nd' := { nd with flags := newFlags nd.flags [SYNCED] [] }) hn rfl).mp hat) hk
  cases hk with
  | root => rfl
  | @child q m _ es hat hq =>
    exfalso
    have hrw : ∃ L, rw = some L ∧ k ∈ L := by
      cases hx : rw with
      | none => rw [hx] at hm; cases hm
      | some L => rw [hx] at hm; exact ⟨L, rfl, hm⟩
    obtain ⟨L, hL, hkL⟩ := hrw
    have := (hw1.own L k hL hkL).2 q m hat
    subst this
    have := PathTo.unique hok hq h2
    subst this
    have := hpre.length_le
    rw [List.length_append, List.length_singleton] at this
    omega

theorem stream_error {d : DB} {dir c : Ino} {l l' : List Ent} {e e' : Errno} {b b' : Bool} (h : Stream d dir c l e b) (h' : Stream d dir c l' e' b') : e = e' ∧ b = b' := by
  induction h generalizing l' e' b' with
  | stop h1 =>
    cases h' with
    | stop k1 => rw [h1] at k1; cases k1; exact ⟨rfl, rfl⟩
    | noattr k1 => rw [h1] at k1; cases k1
    | entry k1 => rw [h1] at k1; cases k1
  | noattr h1 h2 =>
    cases h' with
    | stop k1 => rw [h1] at k1; cases k1
    | noattr k1 k2 => rw [h1] at k1; cases k1; rw [h2] at k2; cases k2; exact ⟨rfl, rfl⟩
    | entry k1 k2 => rw [h1] at k1; cases k1; rw [h2] at k2; cases k2
  | entry h1 h2 _ ih =>
    cases h' with
    | stop k1 => rw [h1] at k1; cases k1
    | noattr k1 k2 => rw [h1] at k1; cases k1; rw [h2] at k2; cases k2
    | entry k1 k2 k3 => rw [h1] at k1; cases k1; rw [h2] at k2; cases k2; exact ih k3

/-- A request which is made again. -/
theorem abs_again {B : Backend} {rq rep rep'} (h : Abs B d s r rq rep s1 r1) (h' : Abs B d' s1 r2 rq rep' s2 r') (hI : SI s d r) (hI1 : SI s1 d' r2)
    (hB : ∀ i, rq = .opendir i → Steady B) (hq : Repeatable d B rq) (hr : rq.inRange) (hd : rq.onDir d) (hn : s.next + 1 < W64)
    (hn2 : ∀ p names e, B.opendir p = .ok (names, e) → s.next + names.length + 1 < W64) : s2 = s1 ∧ rep' = rep := by
  have ok := hI.ok
  have ok1 := hI1.ok
  have dir : ∀ {p cs}, p < W64 → s.PathTo p cs → (∀ x, Cache.getattr d p = .ok x → fmt x.2.mode = S_IFDIR) → s.IsDir p := by
    intro p cs hb hp hd
    obtain ⟨nd, hnd⟩ := conn_exists hI.ok ⟨cs, hp⟩
    exact isDir_of hI hb hd hnd
  have same : s1 = s → d' = d := fun e => by subst e; exact hI1.rep.unique hI.rep
  cases h with
  | lkGone h1 =>
    cases h' with
    | lkGone => exact ⟨rfl, rfl⟩
    | lkBad g1 => exact absurd ⟨_, g1⟩ h1
    | lkPut g1 => exact absurd ⟨_, g1⟩ h1
    | lkHit g1 => exact absurd ⟨_, g1⟩ h1
    | lkMiss g1 => exact absurd ⟨_, g1⟩ h1
    | lkErr g1 => exact absurd ⟨_, g1⟩ h1
    | lkErrMiss g1 => exact absurd ⟨_, g1⟩ h1
  | @lkBad p n cs sr e _ _ h1 h2 h3 =>
    cases h3 with
    | bad hbad =>
    cases h' with
    | lkGone g1 => exact absurd ⟨_, h1⟩ g1
    | lkBad g1 g2 g3 => cases g3; exact ⟨rfl, rfl⟩
    | lkPut g1 g2 g3 =>
      cases g3 with
      | same a b => exact absurd (ok1.loc _ _ _ _ a b).2.2 hbad
      | new a => exact absurd a hbad
    | lkHit g1 g2 => obtain rfl := PathTo.unique ok1 h1 g1; rw [h2] at g2; cases g2
    | lkMiss g1 g2 => obtain rfl := PathTo.unique ok1 h1 g1; rw [h2] at g2; cases g2
    | lkErr g1 g2 => obtain rfl := PathTo.unique ok1 h1 g1; rw [h2] at g2; cases g2
    | lkErrMiss g1 g2 => obtain rfl := PathTo.unique ok1 h1 g1; rw [h2] at g2; cases g2
  | @lkPut p n cs sr i _ r1' h1 h2 h3 =>
    have hdir := dir hr h1 hd
    obtain ⟨p1, p2, -⟩ := h3.found ok h1 hdir hn
    have hgn : GoodName n := by
      cases h3 with
      | same a b => exact (ok.loc _ _ _ _ a b).2.2
      | new a => exact a
    have hf := (h3.fresh ok hdir ⟨_, h1⟩ hn).1 hgn
    cases h' with
    | lkGone g1 => exact absurd ⟨_, p1⟩ g1
    | lkBad g1 g2 g3 => cases g3 with | bad g => exact absurd hgn g
    | lkPut g1 g2 g3 =>
      obtain rfl := PathTo.unique ok1 p1 g1
      rw [h2] at g2; cases g2
      obtain ⟨e1, -, e2⟩ := g3.again ok1 (fun _ => hf)
      obtain rfl := at_unique ok1 (e2 _ rfl) p2
      exact ⟨e1, rfl⟩
    | lkHit g1 g2 => obtain rfl := PathTo.unique ok1 p1 g1; rw [h2] at g2; cases g2
    | lkMiss g1 g2 => obtain rfl := PathTo.unique ok1 p1 g1; rw [h2] at g2; cases g2
    | lkErr g1 g2 => obtain rfl := PathTo.unique ok1 p1 g1; rw [h2] at g2; cases g2
    | lkErrMiss g1 g2 => obtain rfl := PathTo.unique ok1 p1 g1; rw [h2] at g2; cases g2
  | @lkHit p n cs i nd h1 h2 h3 h4 =>
    cases h' with
    | lkGone g1 => exact absurd ⟨_, h1⟩ g1
    | lkBad g1 g2 => obtain rfl := PathTo.unique ok1 h1 g1; rw [h2] at g2; cases g2
    | lkPut g1 g2 => obtain rfl := PathTo.unique ok1 h1 g1; rw [h2] at g2; cases g2
    | lkHit g1 g2 g3 g4 =>
      obtain rfl := ok1.uniq _ _ _ _ _ h3 g3 h4 g4
      rw [h3] at g3; cases g3
      exact ⟨rfl, rfl⟩
    | lkMiss g1 g2 g3 => exact absurd ⟨_, h3, h4⟩ (g3 i)
    | lkErr g1 g2 g3 => obtain rfl := PathTo.unique ok1 h1 g1; rw [h2] at g2; cases g2; exact absurd rfl g3
    | lkErrMiss g1 g2 g3 => obtain rfl := PathTo.unique ok1 h1 g1; rw [h2] at g2; cases g2; exact absurd rfl g3
  | @lkMiss p n cs h1 h2 h3 =>
    cases h' with
    | lkGone g1 => exact absurd ⟨_, h1⟩ g1
    | lkBad g1 g2 => obtain rfl := PathTo.unique ok1 h1 g1; rw [h2] at g2; cases g2
    | lkPut g1 g2 => obtain rfl := PathTo.unique ok1 h1 g1; rw [h2] at g2; cases g2
    | lkHit g1 g2 g3 g4 => exact absurd ⟨_, g3, g4⟩ (h3 _)
    | lkMiss g1 g2 g3 => exact ⟨rfl, by rw [same rfl]⟩
    | lkErr g1 g2 g3 => obtain rfl := PathTo.unique ok1 h1 g1; rw [h2] at g2; cases g2; exact absurd rfl g3
    | lkErrMiss g1 g2 g3 => obtain rfl := PathTo.unique ok1 h1 g1; rw [h2] at g2; cases g2; exact absurd rfl g3
  | @lkErr p n cs be i _ _ h1 h2 h3 h4 h5 =>
    have p1 : s1.PathTo p cs := (h5.stay (A := fun _ _ => True) (fs := cs) ok (.child h4 h1) (fun h => by
      have := h.length_le
      rw [List.length_append, List.length_singleton] at this
      omega) (holds_any h1)).1 cs p (List.prefix_refl _) h1
    have hfree : ∀ j, ¬ s1.At p n j := by
      intro j hj
      have := (at_orphan.mp ((at_collected h5.coll).mp hj).1)
      exact this.2 (at_unique ok this.1 h4)
    cases h' with
    | lkGone g1 => exact absurd ⟨_, p1⟩ g1
    | lkBad g1 g2 => obtain rfl := PathTo.unique ok1 p1 g1; rw [h2] at g2; cases g2
    | lkPut g1 g2 => obtain rfl := PathTo.unique ok1 p1 g1; rw [h2] at g2; cases g2
    | lkHit g1 g2 => obtain rfl := PathTo.unique ok1 p1 g1; rw [h2] at g2; cases g2; exact absurd rfl h3
    | lkMiss g1 g2 => obtain rfl := PathTo.unique ok1 p1 g1; rw [h2] at g2; cases g2; exact absurd rfl h3
    | lkErr g1 g2 g3 g4 => exact absurd g4 (hfree _)
    | lkErrMiss g1 g2 => obtain rfl := PathTo.unique ok1 p1 g1; rw [h2] at g2; cases g2; exact ⟨rfl, rfl⟩
  | @lkErrMiss p n cs be h1 h2 h3 h4 =>
    cases h' with
    | lkGone g1 => exact absurd ⟨_, h1⟩ g1
    | lkBad g1 g2 => obtain rfl := PathTo.unique ok1 h1 g1; rw [h2] at g2; cases g2
    | lkPut g1 g2 => obtain rfl := PathTo.unique ok1 h1 g1; rw [h2] at g2; cases g2
    | lkHit g1 g2 => obtain rfl := PathTo.unique ok1 h1 g1; rw [h2] at g2; cases g2; exact absurd rfl h3
    | lkMiss g1 g2 => obtain rfl := PathTo.unique ok1 h1 g1; rw [h2] at g2; cases g2; exact absurd rfl h3
    | lkErr g1 g2 g3 g4 => exact absurd g4 (h4 _)
    | lkErrMiss g1 g2 => obtain rfl := PathTo.unique ok1 h1 g1; rw [h2] at g2; cases g2; exact ⟨rfl, rfl⟩
  | forget => exact hq.elim
  | forgetMulti => exact hq.elim
  | gaHit h1 =>
    cases h' with
    | gaHit g1 => rw [h1] at g1; cases g1; exact ⟨rfl, rfl⟩
    | gaMiss g1 => rw [h1] at g1; cases g1
  | gaMiss h1 =>
    cases h' with
    | gaHit g1 => rw [h1] at g1; cases g1
    | gaMiss g1 => exact ⟨rfl, rfl⟩
  | rlGone h1 =>
    cases h' with
    | rlGone => exact ⟨rfl, rfl⟩
    | rlPut g1 => exact absurd ⟨_, g1⟩ h1
    | rlOther g1 => exact absurd ⟨_, g1⟩ h1
    | rlHit g1 => exact absurd ⟨_, g1⟩ h1
    | rlMiss g1 => exact absurd ⟨_, g1⟩ h1
    | rlErr g1 => exact absurd ⟨_, g1⟩ h1
    | rlErrRoot => exact absurd ⟨_, .root⟩ h1
  | @rlPut i cs dest nd h1 h2 h3 h4 =>
    have p1 := h1.set (nd' := { nd with attr := { nd.attr with size := dest.length }, target := some dest }) h3 rfl
    have h3' := Tree.set_self (s := s) (i := i) (nd := { nd with attr := { nd.attr with size := dest.length }, target := some dest })
    cases h' with
    | rlGone g1 => exact absurd ⟨_, p1⟩ g1
    | rlPut g1 g2 g3 g4 =>
      obtain rfl := PathTo.unique ok1 p1 g1; rw [h2] at g2; cases g2
      rw [h3'] at g3; cases g3
      exact ⟨set_id h3', rfl⟩
    | rlOther g1 g2 g3 g4 => rw [h3'] at g3; cases g3; exact absurd h4 g4
    | rlHit g1 g2 => obtain rfl := PathTo.unique ok1 p1 g1; rw [h2] at g2; cases g2
    | rlMiss g1 g2 => obtain rfl := PathTo.unique ok1 p1 g1; rw [h2] at g2; cases g2
    | rlErr g1 g2 => obtain rfl := PathTo.unique ok1 p1 g1; rw [h2] at g2; cases g2
    | rlErrRoot g2 => obtain rfl := PathTo.root_nil ok1 p1; rw [show backendPath (pathStr []) = [0x2f] from rfl, g2] at h2; cases h2
  | @rlOther i cs dest nd h1 h2 h3 h4 =>
    cases h' with
    | rlGone g1 => exact absurd ⟨_, h1⟩ g1
    | rlPut g1 g2 g3 g4 => rw [h3] at g3; cases g3; exact absurd g4 h4
    | rlOther g1 g2 g3 g4 => obtain rfl := PathTo.unique ok1 h1 g1; rw [h2] at g2; cases g2; exact ⟨rfl, rfl⟩
    | rlHit g1 g2 => obtain rfl := PathTo.unique ok1 h1 g1; rw [h2] at g2; cases g2
    | rlMiss g1 g2 => obtain rfl := PathTo.unique ok1 h1 g1; rw [h2] at g2; cases g2
    | rlErr g1 g2 => obtain rfl := PathTo.unique ok1 h1 g1; rw [h2] at g2; cases g2
    | rlErrRoot g2 => obtain rfl := PathTo.root_nil ok1 h1; rw [show backendPath (pathStr []) = [0x2f] from rfl, g2] at h2; cases h2
  | @rlHit i cs nd t h1 h2 h3 h4 =>
    cases h' with
    | rlGone g1 => exact absurd ⟨_, h1⟩ g1
    | rlPut g1 g2 => obtain rfl := PathTo.unique ok1 h1 g1; rw [h2] at g2; cases g2
    | rlOther g1 g2 => obtain rfl := PathTo.unique ok1 h1 g1; rw [h2] at g2; cases g2
    | rlHit g1 g2 g3 g4 => rw [h3] at g3; cases g3; rw [h4] at g4; cases g4; exact ⟨rfl, rfl⟩
    | rlMiss g1 g2 g3 g4 => rw [h3] at g3; cases g3; rw [h4] at g4; cases g4
    | rlErr g1 g2 g3 => obtain rfl := PathTo.unique ok1 h1 g1; rw [h2] at g2; cases g2; exact absurd rfl g3
    | rlErrRoot g2 g3 => obtain rfl := PathTo.root_nil ok1 h1; rw [show backendPath (pathStr []) = [0x2f] from rfl, g2] at h2; cases h2; exact absurd rfl g3
  | @rlMiss i cs nd h1 h2 h3 h4 =>
    cases h' with
    | rlGone g1 => exact absurd ⟨_, h1⟩ g1
    | rlPut g1 g2 => obtain rfl := PathTo.unique ok1 h1 g1; rw [h2] at g2; cases g2
    | rlOther g1 g2 => obtain rfl := PathTo.unique ok1 h1 g1; rw [h2] at g2; cases g2
    | rlHit g1 g2 g3 g4 => rw [h3] at g3; cases g3; rw [h4] at g4; cases g4
    | rlMiss g1 g2 g3 g4 => exact ⟨rfl, rfl⟩
    | rlErr g1 g2 g3 => obtain rfl := PathTo.unique ok1 h1 g1; rw [h2] at g2; cases g2; exact absurd rfl g3
    | rlErrRoot g2 g3 => obtain rfl := PathTo.root_nil ok1 h1; rw [show backendPath (pathStr []) = [0x2f] from rfl, g2] at h2; cases h2; exact absurd rfl g3
  | @rlErr i cs be _ _ h1 h2 h3 h4 h5 =>
    have hbe : be = ENOENT := by
      rcases hq _ _ (hI.rep.path_found ok h1) h2 with h | h | h
      · exact h
      · exact absurd h h3
      · exact absurd h h4
    subst hbe
    have hg : ¬ s1.Conn i := by
      rintro ⟨ds, hp⟩
      cases hp with
      | root => exact h4 rfl
      | child hj _ => exact (at_orphan.mp ((at_collected h5.coll).mp hj).1).2 rfl
    cases h' with
    | rlGone => exact ⟨rfl, rfl⟩
    | rlPut g1 => exact absurd ⟨_, g1⟩ hg
    | rlOther g1 => exact absurd ⟨_, g1⟩ hg
    | rlHit g1 => exact absurd ⟨_, g1⟩ hg
    | rlMiss g1 => exact absurd ⟨_, g1⟩ hg
    | rlErr g1 => exact absurd ⟨_, g1⟩ hg
    | rlErrRoot => exact absurd ⟨_, .root⟩ hg
  | rlErrRoot h2 h3 =>
    have h2 : B.readlink (backendPath (pathStr [])) = _ := h2
    cases h' with
    | rlGone g1 => exact absurd ⟨_, .root⟩ g1
    | rlPut g1 g2 => obtain rfl := PathTo.root_nil ok1 g1; rw [h2] at g2; cases g2
    | rlOther g1 g2 => obtain rfl := PathTo.root_nil ok1 g1; rw [h2] at g2; cases g2
    | rlHit g1 g2 => obtain rfl := PathTo.root_nil ok1 g1; rw [h2] at g2; cases g2; exact absurd rfl h3
    | rlMiss g1 g2 => obtain rfl := PathTo.root_nil ok1 g1; rw [h2] at g2; cases g2; exact absurd rfl h3
    | rlErr g1 g2 g3 g4 => exact absurd rfl g4
    | rlErrRoot g2 => have g2 : B.readlink (backendPath (pathStr [])) = _ := g2; rw [h2] at g2; cases g2; exact ⟨rfl, rfl⟩
  | odGone h1 =>
    cases h' with
    | odGone => exact ⟨rfl, rfl⟩
    | odOff g1 => exact absurd ⟨_, g1⟩ h1
    | odErr g1 => exact absurd ⟨_, g1⟩ h1
    | odSync g1 => exact absurd ⟨_, g1⟩ h1
  | odOff h1 h2 =>
    cases h' with
    | odGone g1 => exact absurd ⟨_, h1⟩ g1
    | odOff => exact ⟨rfl, rfl⟩
    | odErr g1 g2 g3 => obtain rfl := PathTo.unique ok1 h1 g1; rw [h2] at g2; cases g2; exact absurd rfl g3
    | odSync g1 g2 => obtain rfl := PathTo.unique ok1 h1 g1; rw [h2] at g2; cases g2
  | odErr h1 h2 h3 =>
    cases h' with
    | odGone g1 => exact absurd ⟨_, h1⟩ g1
    | odOff g1 g2 => obtain rfl := PathTo.unique ok1 h1 g1; rw [h2] at g2; cases g2; exact absurd rfl h3
    | odErr g1 g2 g3 => obtain rfl := PathTo.unique ok1 h1 g1; rw [h2] at g2; cases g2; exact ⟨rfl, rfl⟩
    | odSync g1 g2 => obtain rfl := PathTo.unique ok1 h1 g1; rw [h2] at g2; cases g2
  | @odSync i cs names e _ _ h1 h2 h3 =>
    have hdir := dir hr h1 hd
    have hlen : s.next + names.length < W64 := by have := hn2 _ _ _ h2; omega
    have p1 := h3.path ok hdir h1 hlen
    cases h' with
    | odGone g1 => exact absurd ⟨_, p1⟩ g1
    | odOff g1 g2 => obtain rfl := PathTo.unique ok1 p1 g1; rw [h2] at g2; cases g2
    | odErr g1 g2 => obtain rfl := PathTo.unique ok1 p1 g1; rw [h2] at g2; cases g2
    | odSync g1 g2 g3 =>
      obtain rfl := PathTo.unique ok1 p1 g1; rw [h2] at g2; cases g2
      exact ⟨(h3.again g3 (hB _ rfl) ok ok1 hI.wf hdir ⟨_, h1⟩ hlen).1, rfl⟩
  | rdEof h1 =>
    have := same rfl; subst this
    cases h' with
    | rdEof g1 => rw [MT.stream_unique h1 g1]; exact ⟨rfl, rfl⟩
    | rdPart g0 g1 => exact nomatch (stream_error h1 g1).2
  | rdPart h0 h1 =>
    have := same rfl; subst this
    cases h' with
    | rdEof g1 => exact nomatch (stream_error h1 g1).2
    | rdPart g0 g1 => rw [MT.stream_unique h1 g1]; exact ⟨rfl, rfl⟩
  | plAll h1 h2 h3 h4 h5 =>
    have := same rfl; subst this
    cases h' with
    | plAll g1 g2 => rw [MT.stream_unique h1 g1, (stream_error h1 g1).1]; exact ⟨rfl, rfl⟩
    | plZero => omega
    | plPart g1 g2 => rw [MT.stream_unique h1 g1] at h2; rw [h2] at g2; exact (map_shorter g2).elim
  | plZero =>
    have := same rfl; subst this
    cases h' with
    | plAll g1 g2 g3 g4 g5 => omega
    | plZero => exact ⟨rfl, rfl⟩
    | plPart g1 g2 g3 g4 g5 => omega
  | plPart h1 h2 h3 h4 h5 =>
    have := same rfl; subst this
    cases h' with
    | plAll g1 g2 => rw [← MT.stream_unique h1 g1, h2] at g2; exact (map_shorter g2.symm).elim
    | plZero => omega
    | plPart g1 g2 => rw [MT.stream_unique h1 g1] at h2; rw [h2] at g2; rw [g2]; exact ⟨rfl, rfl⟩
  | releasedir => cases h'; exact ⟨rfl, rfl⟩
  | other => cases h'; exact ⟨rfl, rfl⟩

/-- What could be repeated can be repeated again. -/
theorem abs_repeatable {B : Backend} {rq rep} (h : Abs B d s r rq rep s1 r1) (hI : SI s d r) (hI1 : SI s1 d' r2) (hr : rq.inRange) (hq : Repeatable d B rq) : Repeatable d' B rq := by
  have go : ∀ {i}, rq = .readlink i → (∀ cs, s1.PathTo i cs → s.PathTo i cs) → Repeatable d' B rq := by
    intro i e hp
    subst e
    intro b e hb hrl
    obtain ⟨cs, h1, rfl⟩ := hI1.rep.path_iff hI1.ok hr hb
    exact hq _ _ (hI.rep.path_found hI.ok (hp cs h1)) hrl
  cases h with
  | rlGone => exact go rfl fun _ h => h
  | @rlPut i cs dest nd h1 h2 h3 h4 =>
    exact go rfl fun _ h => PathTo.of_at (fun p n i hat => (at_set (nd' := { nd with attr := { nd.attr with size := dest.length }, target := some dest }) h3 rfl).mp hat) h
  | rlOther => exact go rfl fun _ h => h
  | rlHit => exact go rfl fun _ h => h
  | rlMiss => exact go rfl fun _ h => h
  | rlErr h1 h2 h3 h4 h5 => exact go rfl fun _ h => PathTo.of_at (fun p n i hat => (at_orphan.mp ((at_collected h5.coll).mp hat).1).1) h
  | rlErrRoot => exact go rfl fun _ h => h
  | forget => exact hq.elim
  | forgetMulti => exact hq.elim
  | _ => trivial

end trees

/-! ### C116 -/

/-- **C116.** A request which is made again while the backend says the same is answered in the same way, and the database stays exactly
as the first one left it. -/
theorem C116_again_partial {y y1 : Sys} {B : Backend} {rq : Req} {rep : Reply} (hy : Live y) (hv : Valid y B rq) (ha : Answered y B rq rep y1) (hv1 : Valid y1 B rq)
    (hB : ∀ i, rq = .opendir i → Steady B) (hq : Repeatable y.disk B rq) :
    ∃ y2, Answered y1 B rq rep y2 ∧ y2.disk = y1.disk ∧ Repeatable y1.disk B rq := by
  obtain ⟨s, h1, -⟩ := live_inv hy
  obtain ⟨s1, h2, h3⟩ := ha.abs h1 hy hv
  have hy1 := ha.live hy hv
  have hrp := abs_repeatable h3 h1 h2 hv.1 hq
  by_cases hrd : ∃ dir size off, rq = .readdir dir size off
  · obtain ⟨dir, size, off, rfl⟩ := hrd
    have : y1.disk = y.disk ∧ y1.refs = y.refs := by
      generalize y1.refs = r' at h2 h3 ⊢
      cases h3 with
      | rdEof => exact ⟨h2.rep.unique h1.rep, rfl⟩
      | rdPart => exact ⟨h2.rep.unique h1.rep, rfl⟩
    obtain ⟨st, k1, k2, k3, k4⟩ := ha
    refine ⟨y1.after _ st, ⟨st, by rw [this.1, this.2]; exact k1, k2, k3, rfl⟩, ?_, hrp⟩
    rw [k4]; rfl
  · obtain ⟨rep', y2, s2, g1, g2, g3⟩ := answered_of h2 hy1 hv1 (fun dir size off e => absurd ⟨dir, size, off, e⟩ hrd)
    obtain ⟨hr, hd, -, hroom1, -⟩ := hv
    have hn := hroom1 _ h1.rep.next
    obtain ⟨rfl, rfl⟩ := abs_again h3 g3 h1 h2 hB hq hr hd hn.1 (fun p names e hp => by have := hn.2 p names e hp; omega)
    exact ⟨y2, g1, g2.rep.unique h2.rep, hrp⟩

/-- The request is made any number of times; `reps` are the answers. -/
inductive Repeats (B : Backend) (rq : Req) : List Reply → Sys → Sys → Prop
  | nil {y} : Repeats B rq [] y y
  | cons {y y1 y2 rep reps} : Valid y B rq → Answered y B rq rep y1 → Repeats B rq reps y1 y2 → Repeats B rq (rep :: reps) y y2

/-- **C116.** However often it is made again. -/
theorem C116_often_partial {y y1 y2 : Sys} {B : Backend} {rq : Req} {rep : Reply} {reps : List Reply} (hy : Live y) (hv : Valid y B rq) (ha : Answered y B rq rep y1)
    (hB : ∀ i, rq = .opendir i → Steady B) (hq : Repeatable y.disk B rq) (h : Repeats B rq reps y1 y2) : y2.disk = y1.disk ∧ ∀ x ∈ reps, x = rep := by
  induction h generalizing y with
  | nil => exact ⟨rfl, by simp⟩
  | @cons y1 y1' y2 rep' reps h1 h2 h3 ih =>
    obtain ⟨y2', g1, g2, g3⟩ := C116_again_partial hy hv ha h1 hB hq
    obtain ⟨rfl, rfl⟩ := g1.unique h2
    obtain ⟨e1, e2⟩ := ih (ha.live hy hv) h1 h2 g3
    refine ⟨e1.trans g2, fun x hx => ?_⟩
    rcases List.mem_cons.mp hx with rfl | hx
    · rfl
    · exact e2 x hx

/-- C116 in full: for every request but those which give back references. -/
def C116_full : Prop := ∀ (y y1 : Sys) (B : Backend) (rq : Req) (rep : Reply), (∀ i n, rq ≠ .forget i n) → (∀ l, rq ≠ .forgetMulti l) →
  Live y → Valid y B rq → Answered y B rq rep y1 → Valid y1 B rq → Steady B → ∃ y2, Answered y1 B rq rep y2 ∧ y2.disk = y1.disk

/-! ### Non-vacuity -/

theorem demoFS_once {y y1 : Sys} {cap cap1 : Nat} {t : Tbl} {rq : Req} {rep : Reply} (hy : Live y) (hc : ∀ i, (y.refs i).nrefs ≤ cap)
    (h : demoFS y cap [] [.req t rq] = some (y1, cap1, [rep])) : Valid y t.backend rq ∧ Answered y t.backend rq rep y1 ∧ Live y1 ∧ ∀ i, (y1.refs i).nrefs ≤ cap1 := by
  refine ⟨?_, ?_, demoFS_live hy hc h⟩ <;> simp only [demoFS] at h <;> split at h
  · rename_i hv; exact validB_iff hc hv
  · cases h
  · split at h
    · rename_i st hs
      split at h
      · rename_i hf
        simp only [List.append_nil, Option.some.injEq, Prod.mk.injEq] at h
        exact ⟨st, hs, by simpa using hf, h.2.2, h.1.symm⟩
      · cases h
    · cases h
  · cases h

/-- A request is made twice after a history. -/
def twiceB (l : List Act) (t : Tbl) (rq : Req) (P : Sys → Sys → Reply → Reply → Bool) : Bool :=
  match demoRun l with
  | some (y, cap, _) =>
    match demoFS y cap [] [.req t rq] with
    | some (y1, cap1, [rep]) =>
      match demoFS y1 cap1 [] [.req t rq] with
      | some (_, _, [rep2]) => P y y1 rep rep2
      | _ => false
    | _ => false
  | none => false

theorem twice_ex {l : List Act} {t : Tbl} {rq : Req} {P : Sys → Sys → Reply → Reply → Bool} (h : twiceB l t rq P = true) :
    ∃ y y1 y2 rep rep2, Live y ∧ Valid y t.backend rq ∧ Answered y t.backend rq rep y1 ∧ Valid y1 t.backend rq ∧ Answered y1 t.backend rq rep2 y2 ∧ P y y1 rep rep2 = true := by
  unfold twiceB at h
  cases hd : demoRun l with
  | none => rw [hd] at h; cases h
  | some x =>
    obtain ⟨y, cap, o⟩ := x
    rw [hd] at h
    obtain ⟨hy, hc⟩ := demoRun_live hd
    simp only at h
    split at h
    · rename_i y1 cap1 rep h1
      obtain ⟨a1, a2, a3, a4⟩ := demoFS_once hy hc h1
      split at h
      · rename_i y2 cap2 rep2 h2
        obtain ⟨b1, b2, -⟩ := demoFS_once a3 a4 h2
        exact ⟨y, y1, y2, rep, rep2, hy, a1, a2, b1, b2, h⟩
      · cases h
    · cases h

theorem steady_tbl (t : Tbl) : Steady t.backend := fun _ _ => rfl

/-- A file of which the backend says that it is not a link. -/
def tblReg : Tbl where
  stats := [([0x2f, 0x61], .ok (bFile 5))]
  links := [([0x2f, 0x61], .error EINVAL)]

/-- It is false: reading something as a link which is none is answered with EINVAL once, and the inode is removed; then the answer is ENOENT. -/
theorem C116_counterexample : ¬ C116_full := by
  intro h
  obtain ⟨y, y1, y2, rep, rep2, h1, h2, h3, h4, h5, h6⟩ := twice_ex (l := [.req tblReg (.lookup 1 [0x61])]) (t := tblReg) (rq := .readlink 2)
    (P := fun _ _ rep rep2 => decide (rep = .err EINVAL ∧ rep2 = .err ENOENT)) (by decide +kernel)
  simp only [decide_eq_true_eq] at h6
  obtain ⟨rfl, rfl⟩ := h6
  obtain ⟨y2', g1, -⟩ := h y y1 tblReg.backend (.readlink 2) _ (by simp) (by simp) h1 h2 h3 h4 (steady_tbl _)
  exact nomatch (g1.unique h5).1

/-- The hypotheses of `C116_again_partial` can be met: the root directory, which holds `/a` and `/l`, is listed for the first time. -/
example : ∃ y y1, Live y ∧ Valid y tblA.backend (.opendir 1) ∧ Answered y tblA.backend (.opendir 1) .opened y1 ∧ Valid y1 tblA.backend (.opendir 1) ∧
    Repeatable y.disk tblA.backend (.opendir 1) ∧ Steady tblA.backend ∧ Cache.lookup y.disk 1 [0x6c] = .ok (.error ENOENT) ∧ ∃ i, Cache.lookup y1.disk 1 [0x6c] = .ok (.ok i) := by
  obtain ⟨y, y1, y2, rep, rep2, h1, h2, h3, h4, h5, h6⟩ := twice_ex (l := []) (t := tblA) (rq := .opendir 1)
    (P := fun y y1 rep _ => decide (rep = .opened ∧ Cache.lookup y.disk 1 [0x6c] = .ok (.error ENOENT) ∧ Cache.lookup y1.disk 1 [0x6c] = .ok (.ok 3))) (by decide +kernel)
  simp only [decide_eq_true_eq] at h6
  obtain ⟨rfl, h7, h8⟩ := h6
  exact ⟨y, y1, h1, h2, h3, h4, trivial, steady_tbl _, h7, 3, h8⟩

/-- And for a link, `/l`, whose target is stored by the first request. -/
example : ∃ y y1 y2, Live y ∧ Valid y tblA.backend (.readlink 2) ∧ Answered y tblA.backend (.readlink 2) (.readlink [0x61]) y1 ∧ Repeatable y.disk tblA.backend (.readlink 2) ∧
    Repeats tblA.backend (.readlink 2) [.readlink [0x61]] y1 y2 ∧ Cache.readlink y.disk 2 = .error EINVAL ∧ Cache.readlink y1.disk 2 = .ok [0x61] := by
  obtain ⟨y, y1, y2, rep, rep2, h1, h2, h3, h4, h5, h6⟩ := twice_ex (l := [.req tblA (.lookup 1 [0x6c])]) (t := tblA) (rq := .readlink 2)
    (P := fun y y1 rep rep2 => decide (rep = .readlink [0x61] ∧ rep2 = .readlink [0x61] ∧ Cache.readlink y.disk 2 = .error EINVAL ∧ Cache.readlink y1.disk 2 = .ok [0x61] ∧
      Cache.path y.disk 2 = .ok (.ok [0x2f, 0x6c]))) (by decide +kernel)
  simp only [decide_eq_true_eq] at h6
  obtain ⟨rfl, rfl, h7, h8, h9⟩ := h6
  refine ⟨y, y1, y2, h1, h2, h3, fun b e hb he => ?_, .cons h4 h5 .nil, h7, h8⟩
  rw [h9] at hb; cases hb
  have : tblA.backend.readlink [0x2f, 0x6c] = .ok [0x61] := by decide
  have he : tblA.backend.readlink [0x2f, 0x6c] = .error e := he
  rw [this] at he; cases he

end Dragonstash.FS

namespace Dragonstash.MT
open Cache FS Conc

/-- **C116**, with threads: of two requests with one effect on the database after the other, which are the same while the backend says the same, the second
is answered like the first, and leaves the database as it is. -/
theorem C116_threads_partial {m : MSys} (hm : MReach m) {k : Nat} {q q' : Done} (hk : m.hist[k]? = some q) (hk' : m.hist[k + 1]? = some q') (hw : readOnly q.rq = false)
    (hrq : q'.rq = q.rq) (hB : q'.B = q.B) (hst : ∀ i, q.rq = .opendir i → Steady q.B) (hq : ∀ d, Repeatable d q.B q.rq) :
    q'.rep = q.rep ∧ ∃ d0 r0 n ds R, Steps (MSys.start d0 r0 n) m ∧ OneByOne d0 r0 ds R m.hist ∧ ds.getLast? = some m.w.disk ∧ ds[k + 2]? = ds[k + 1]? := by
  obtain ⟨d0, r0, n, L, H, vs, R, ds, s, hst0, hM, hR, hP⟩ := hm.any.inv kept_true
  obtain ⟨d, d1, h1, h2, h3⟩ := hP.saw k q hk
  obtain ⟨e, e1, g1, g2, g3⟩ := hP.saw (k + 1) q' hk'
  unfold seen at h1 g1
  rw [hw] at h1
  rw [hrq, hw] at g1
  simp only [Bool.false_eq_true, if_false] at h1 g1
  rw [h2] at g1; cases g1
  obtain ⟨rq, B, v, rep⟩ := q
  obtain ⟨rq', B', v', rep'⟩ := q'
  simp only at hw hrq hB hst hq h3 g3 ⊢
  subst hrq hB
  cases h3 with
  | read hr => rw [hw] at hr; cases hr
  | @wrote s0 r0 s1 r1 _ i1 _ i2 i3 i4 i5 i6 i7 =>
  cases g3 with
  | read hr => rw [hw] at hr; cases hr
  | @wrote t0 r2 s2 r3 _ j1 _ j2 j3 j4 j5 j6 j7 =>
  obtain rfl := Rep.inj i6.rep i6.ok j1.rep j1.ok
  obtain ⟨rfl, e2⟩ := abs_again i7 j7 i1 j1 hst (hq d) i2 i3 i4 i5
  refine ⟨e2, d0, _, n, ds, R, hst0, hM.one, hM.last, ?_⟩
  rw [g2, h2, j6.rep.unique j1.rep]

/-- Two threads list the root directory, one after the other. -/
def twiceEvs : List Ev := [.issue 0 tblA (.opendir 1)] ++ List.replicate 10 (.go 0) ++ [.issue 1 tblA (.opendir 1)] ++ List.replicate 10 (.go 1)

/-- The hypotheses of `C116_threads_partial` can be met. -/
example : ∃ m q q', MReach m ∧ m.hist[0]? = some q ∧ m.hist[1]? = some q' ∧ readOnly q.rq = false ∧ q'.rq = q.rq ∧ q'.B = q.B ∧ (∀ i, q.rq = .opendir i → Steady q.B) ∧
    ∀ d, Repeatable d q.B q.rq := by
  obtain ⟨m, hm, hr⟩ := demoMT_exQ (Q := fun _ B => B = tblA.backend) (n := 2) (l := twiceEvs) (P := fun m => m.hist.map (·.rq) = [.opendir 1, .opendir 1])
    (by
      intro a ha
      simp only [twiceEvs, List.mem_append, List.mem_cons, List.not_mem_nil, or_false, List.mem_replicate] at ha
      rcases ha with ((rfl | ⟨-, rfl⟩) | rfl) | ⟨-, rfl⟩ <;> first | trivial | rfl) (by decide +kernel)
  have hB := hm.all
  generalize hh : m.hist = H at hr hB
  match H, hr, hB with
  | [], hr, hB => exact nomatch hr
  | [_], hr, hB => simp at hr
  | _ :: _ :: _ :: _, hr, hB => simp at hr
  | [q, q'], hr, hB =>
    simp only [List.map_cons, List.map_nil, List.cons.injEq, and_true] at hr
    have b1 : q.B = tblA.backend := hB q (by simp)
    have b2 : q'.B = tblA.backend := hB q' (by simp)
    exact ⟨m, q, q', hm.reach, by rw [hh]; rfl, by rw [hh]; rfl, by rw [hr.1]; rfl, by rw [hr.1, hr.2], by rw [b1, b2], fun _ _ => by rw [b1]; exact steady_tbl _,
      fun d => by rw [hr.1]; trivial⟩

end Dragonstash.MT
