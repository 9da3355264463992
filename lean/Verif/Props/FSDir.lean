/-
  C39: synchronising a directory with the backend. C43: reading a directory in pages.
-/
import Verif.Props.FSReply
namespace Dragonstash.FS
open Cache Codec
variable {y y' : Sys} {B : Backend} {rq : Req} {rep : Reply}

/-! ### C39 a synchronised directory mirrors the backend -/

/-- What the backend said about entry `m` while the directory `base` was being listed: `sr` is its
last successful answer to an `lstat` of this entry. (The `k`-th `lstat` is about the `k`-th name.) -/
def Seen (B : Backend) (base : Bytes) (names : List Bytes) (m : Bytes) (sr : BStat) : Prop :=
  ∃ k, names[k]? = some m ∧ B.lstat k (entryPath base m) = .ok sr ∧
    ∀ k' sr', k < k' → names[k']? = some m → B.lstat k' (entryPath base m) ≠ .ok sr'

/-- The path under which an entry is looked up, `b` being the path of the directory. (`b` has one byte
only for an entry of the root with an empty name.) -/
theorem C39_paths {b m : Bytes} (hb : b.length ≠ 1) : entryPath (backendPath b) m = b ++ 0x2f :: m := by
  unfold entryPath backendPath
  by_cases h : b = []
  · subst h; simp
  · rw [if_neg h]
    have : 0 < b.length := List.length_pos_iff.mpr h
    rw [if_pos (by omega)]; simp

/-- `C39_paths` below the root and in a directory. -/
example : entryPath (backendPath []) [0x61] = [0x2f, 0x61] ∧ entryPath (backendPath [0x2f, 0x61]) [0x62] = [0x2f, 0x61, 0x2f, 0x62] :=
  ⟨C39_paths (by decide), C39_paths (by decide)⟩

def SeenFrom (B : Backend) (base : Bytes) (q : Nat) (names : List Bytes) (m : Bytes) (sr : BStat) : Prop :=
  ∃ k, names[k]? = some m ∧ B.lstat (q + k) (entryPath base m) = .ok sr ∧
    ∀ k' sr', k < k' → names[k']? = some m → B.lstat (q + k') (entryPath base m) ≠ .ok sr'

theorem seen_iff {base : Bytes} {names m sr} : Seen B base names m sr ↔ SeenFrom B base 0 names m sr := by
  unfold Seen SeenFrom; simp only [Nat.zero_add]

theorem SeenFrom.cons {base : Bytes} {q n names m sr} (h : SeenFrom B base (q + 1) names m sr) : SeenFrom B base q (n :: names) m sr := by
  obtain ⟨k, h1, h2, h3⟩ := h
  refine ⟨k + 1, by simpa using h1, by rw [show q + (k + 1) = q + 1 + k by omega]; exact h2, ?_⟩
  intro k' sr' hk h4
  obtain ⟨k', rfl⟩ : ∃ j, k' = j + 1 := ⟨k' - 1, by omega⟩
  rw [show q + (k' + 1) = q + 1 + k' by omega]
  exact h3 k' sr' (by omega) (by simpa using h4)

/-- The last name is either the first of the list or one behind it. -/
theorem SeenFrom.cases {base : Bytes} {q n names m sr} (h : SeenFrom B base q (n :: names) m sr) :
    SeenFrom B base (q + 1) names m sr ∨ (n = m ∧ B.lstat q (entryPath base m) = .ok sr ∧ ∀ sr', ¬ SeenFrom B base (q + 1) names m sr') := by
  obtain ⟨k, h1, h2, h3⟩ := h
  cases k with
  | zero =>
    simp only [List.getElem?_cons_zero, Option.some.injEq] at h1
    refine .inr ⟨h1, h2, ?_⟩
    rintro sr' ⟨k, g1, g2, -⟩
    refine h3 (k + 1) sr' (by omega) (by simpa using g1) ?_
    rw [show q + (k + 1) = q + 1 + k by omega]; exact g2
  | succ k =>
    refine .inl ⟨k, by simpa using h1, by rw [show q + 1 + k = q + (k + 1) by omega]; exact h2, ?_⟩
    intro k' sr' hk h4
    have := h3 (k' + 1) sr' (by omega) (by simpa using h4)
    rwa [show q + (k' + 1) = q + 1 + k' by omega] at this

theorem SeenFrom.here {base : Bytes} {q names m sr} (h : B.lstat q (entryPath base m) = .ok sr) (h2 : ∀ sr', ¬ SeenFrom B base (q + 1) names m sr') :
    SeenFrom B base q (m :: names) m sr := by
  refine ⟨0, rfl, h, ?_⟩
  intro k' sr' hk h4 h5
  obtain ⟨k', rfl⟩ : ∃ j, k' = j + 1 := ⟨k' - 1, by omega⟩
  -- there is a last successful answer
  have : ∀ (fuel : Nat) (k : Nat) sr', names.length ≤ k + fuel → names[k]? = some m → B.lstat (q + 1 + k) (entryPath base m) = .ok sr' → ∃ sr'', SeenFrom B base (q + 1) names m sr'' := by
    intro fuel
    induction fuel with
    | zero =>
      intro k sr' hlen hk _
      have : k < names.length := (List.getElem?_eq_some_iff.mp hk).1
      omega
    | succ f ih =>
      intro k sr' hlen hk hl
      by_cases hex : ∃ k2 sr2, k < k2 ∧ names[k2]? = some m ∧ B.lstat (q + 1 + k2) (entryPath base m) = .ok sr2
      · obtain ⟨k2, sr2, g1, g2, g3⟩ := hex
        exact ih k2 sr2 (by omega) g2 g3
      · exact ⟨sr', k, hk, hl, fun k2 sr2 g1 g2 g3 => hex ⟨k2, sr2, g1, g2, g3⟩⟩
  obtain ⟨sr'', h6⟩ := this names.length k' sr' (by omega) (by simpa using h4) (by rw [show q + 1 + k' = q + (k' + 1) by omega]; exact h5)
  exact h2 sr'' h6

theorem listed_lookup {base : Bytes} {m : Bytes} {a : Attrs} : ∀ (names : List Bytes) (q : Nat) (acc : List (Bytes × Attrs)),
    (listed B base q names acc).lookup m = some a ↔
      (GoodName m ∧ ∃ sr, SeenFrom B base q names m sr ∧ a = fromBackend sr) ∨
      ((GoodName m → ∀ sr, ¬ SeenFrom B base q names m sr) ∧ acc.lookup m = some a) := by
  intro names
  induction names with
  | nil =>
    intro q acc
    have : ∀ sr, ¬ SeenFrom B base q [] m sr := by rintro sr ⟨k, h, -⟩; simp at h
    simp [listed, this]
  | cons n l ih =>
    intro q acc
    unfold listed
    cases hl : B.lstat q (entryPath base n) with
    | error e =>
      simp only
      rw [ih]
      have : ∀ sr, SeenFrom B base q (n :: l) m sr ↔ SeenFrom B base (q + 1) l m sr := by
        intro sr
        refine ⟨fun h => ?_, .cons⟩
        rcases h.cases with h | ⟨rfl, h, -⟩
        · exact h
        · rw [hl] at h; cases h
      simp only [this]
    | ok sr0 =>
      simp only
      rw [ih]
      by_cases hm : m = n
      · subst hm
        by_cases hg : GoodName m
        · rw [if_pos hg, lookup_cons', if_pos rfl]
          by_cases hex : ∃ sr, SeenFrom B base (q + 1) l m sr
          · obtain ⟨sr, hsr⟩ := hex
            have h1 : ∀ x, ¬ (∀ sr, ¬ SeenFrom B base (q + 1) l m sr) ∨ x := fun x => .inl (fun h => h sr hsr)
            constructor
            · rintro (⟨-, sr', g1, g2⟩ | ⟨g1, -⟩)
              · exact .inl ⟨hg, sr', g1.cons, g2⟩
              · exact absurd hsr (g1 hg sr)
            · rintro (⟨-, sr', g1, g2⟩ | ⟨g1, -⟩)
              · rcases g1.cases with g | ⟨-, -, g⟩
                · exact .inl ⟨hg, sr', g, g2⟩
                · exact absurd hsr (g sr)
              · exact absurd hsr.cons (g1 hg sr)
          · have hno : ∀ sr, ¬ SeenFrom B base (q + 1) l m sr := fun sr h => hex ⟨sr, h⟩
            have hh := SeenFrom.here (names := l) hl hno
            constructor
            · rintro (⟨-, sr', g1, g2⟩ | ⟨g1, g2⟩)
              · exact absurd g1 (hno sr')
              · cases g2; exact .inl ⟨hg, sr0, hh, rfl⟩
            · rintro (⟨-, sr', g1, g2⟩ | ⟨g1, g2⟩)
              · rcases g1.cases with g | ⟨-, g, -⟩
                · exact absurd g (hno sr')
                · rw [hl] at g; cases g; exact .inr ⟨fun _ => hno, by rw [g2]⟩
              · exact absurd hh (g1 hg sr0)
        · rw [if_neg hg]
          simp [hg]
      · have hs : ∀ sr, SeenFrom B base q (n :: l) m sr ↔ SeenFrom B base (q + 1) l m sr := by
          intro sr
          refine ⟨fun h => ?_, .cons⟩
          rcases h.cases with h | ⟨h, -⟩
          · exact h
          · exact absurd h.symm hm
        have : (if GoodName n then (n, fromBackend sr0) :: acc else acc).lookup m = acc.lookup m := by
          split
          · rw [lookup_cons', if_neg hm]
          · rfl
        simp only [hs, this]

/-- The directory after a synchronisation. -/
theorem SyncTo.entries {base : Bytes} {i : Ino} {names : List Bytes} {s s' : Tree} {r r' : Refs} (h : SyncTo B base i names s r s' r') (hc : s.Conn i) :
    (∀ m j nd, s'.nodes j = some nd → nd.loc = some (i, m) → GoodName m ∧ ∃ sr, Seen B base names m sr ∧ nd.attr = fromBackend sr) ∧
    (∀ m sr, GoodName m → Seen B base names m sr → ∃ j, s'.At i m j) ∧
    (∃ nd, s'.nodes i = some nd ∧ hasFlag nd.flags SYNCED = true) ∧
    (∀ p m j, p ≠ i → s'.At p m j → s.At p m j) ∧
    (∀ p m j, p ≠ i → s.At p m j → s'.At p m j ∨ s'.nodes p = none) := by
  cases h with
  | @mk s1 _ nd rw h1 h2 h3 h4 h5 h6 =>
    obtain ⟨l, g1, g2, g3⟩ := h2.rewr
    have hmark : ∀ j, j ∈ marks rw ↔ ∃ L, rw = some L ∧ j ∈ L := by
      intro j; unfold marks; cases rw <;> simp
    have hset : ∀ {q m j}, (s1.set i { nd with flags := newFlags nd.flags [SYNCED] [] }).At q m j ↔ s1.At q m j := at_set h3 rfl
    have hAt : ∀ q m j, ((s1.set i { nd with flags := newFlags nd.flags [SYNCED] [] }).orphans (marks rw)).At q m j ↔ s1.At q m j ∧ j ∉ marks rw := by
      intro q m j; rw [orphans_At, hset]
    have hin : ∀ m j, s1.At i m j ∧ j ∉ marks rw ↔ l.lookup m = some j := by
      intro m j
      constructor
      · rintro ⟨k1, k2⟩
        rcases (g1.at_ m j).mp k1 with k | ⟨k, -⟩
        · exact k
        · exact absurd ((hmark j).mpr ((g1.mark m j k1).mpr k)) k2
      · intro k
        have k1 := (g1.at_ m j).mpr (.inl k)
        refine ⟨k1, fun k2 => ?_⟩
        rw [(g1.mark m j k1).mp ((hmark j).mp k2)] at k; cases k
    refine ⟨?_, ?_, ?_, ?_, ?_⟩
    · intro m j x hx hl
      have hj := (hin m j).mp ((hAt i m j).mp ⟨x, hx, hl⟩)
      obtain ⟨nj, a, k1, k2, k3⟩ := g3 m j hj
      rcases (listed_lookup names 0 []).mp k2 with ⟨k4, sr, k5, k6⟩ | ⟨-, k4⟩
      · refine ⟨k4, sr, seen_iff.mpr k5, ?_⟩
        obtain ⟨z, k7, -, k8⟩ := orphans_flags hx
        rw [← k8, ← k6, ← k3]
        by_cases hji : j = i
        · subst hji; rw [Tree.set_self] at k7; cases k7; rw [h3] at k1; cases k1; rfl
        · rw [Tree.set_ne hji, k1] at k7; cases k7; rfl
      · cases k4
    · intro m sr hm hs
      have : m ∈ l.map Prod.fst := by
        rw [g2]
        have := (listed_lookup (B := B) (base := base) (m := m) (a := fromBackend sr) names 0 []).mpr (.inl ⟨hm, sr, seen_iff.mp hs, rfl⟩)
        exact List.mem_map.mpr ⟨_, lookup_mem this, rfl⟩
      cases hl : l.lookup m with
      | none => exact absurd this (lookup_none_iff.mp hl)
      | some j => exact ⟨j, (hAt i m j).mpr ((hin m j).mpr hl)⟩
    · obtain ⟨x, k1, -, k2, -⟩ := orphans_nodes (l := marks rw) (s := s1.set i { nd with flags := newFlags nd.flags [SYNCED] [] }) (j := i) Tree.set_self
      refine ⟨x, k1, ?_⟩
      rw [k2]
      show hasFlag (setFlag nd.flags SYNCED true) SYNCED = true
      rw [setFlag_get _ true (by decide) (by decide)]; simp
    · intro p m j hp hj
      exact g1.others1 p m j hp ((hAt p m j).mp hj).1
    · intro p m j hp hj
      rcases g1.others2 p m j hp hj with k | ⟨k, -⟩
      · refine .inl ((hAt p m j).mpr ⟨k, fun hm => ?_⟩)
        obtain ⟨L, k1, k2⟩ := (hmark j).mp hm
        exact hp ((g1.own L j k1 k2).2 p m k)
      · right
        apply orphans_none
        rw [Tree.set_ne hp]; exact k

/-- After `opendir` with the backend connected: the directory counts as synchronised; its entries are
exactly the names in the listing for which an `lstat` succeeded and which can be stored, with the
attributes which the last successful `lstat` gave. -/
theorem C39_entries (hl : Live y) {i : Ino} (hv : Valid y B (.opendir i)) {b : Bytes} (hp : Cache.path y.disk i = .ok (.ok b))
    {names : List Bytes} {e : Errno} (hB : B.opendir (backendPath b) = .ok (names, e)) :
    ∃ y', Answered y B (.opendir i) .opened y' ∧ testFlag y'.disk i SYNCED = .ok true ∧
      (∀ m j, Cache.lookup y'.disk i m = .ok (.ok j) →
        GoodName m ∧ ∃ sr, Seen B (backendPath b) names m sr ∧ Cache.getattr y'.disk j = .ok (j, fromBackend sr)) ∧
      (∀ m sr, GoodName m → Seen B (backendPath b) names m sr → ∃ j, Cache.lookup y'.disk i m = .ok (.ok j)) := by
  obtain ⟨s, k1, k2⟩ := live_inv hl
  obtain ⟨cs, hcs, rfl⟩ := k1.rep.path_iff k1.ok hv.1 hp
  obtain ⟨rep, y', s', h1, h2, h3⟩ := answered_of k1 hl hv (by rintro _ _ _ h; cases h)
  have key : rep = .opened ∧ SyncTo B (backendPath (pathStr cs)) i names s y.refs s' y'.refs := by
    generalize y'.refs = r' at h3
    cases h3 with
    | odGone hc => exact absurd ⟨cs, hcs⟩ hc
    | odOff hc hb => have := PathTo.unique k1.ok hc hcs; subst this; rw [hB] at hb; cases hb
    | odErr hc hb => have := PathTo.unique k1.ok hc hcs; subst this; rw [hB] at hb; cases hb
    | odSync hc hb hs => have := PathTo.unique k1.ok hc hcs; subst this; rw [hB] at hb; cases hb; exact ⟨rfl, hs⟩
  obtain ⟨rfl, hs⟩ := key
  obtain ⟨g1, g2, ⟨nd, g3, g4⟩, -⟩ := hs.entries ⟨cs, hcs⟩
  refine ⟨y', h1, ?_, ?_, ?_⟩
  · rw [h2.rep.testFlag h2.ok hv.1, g3]; simp only [g4]
  · intro m j hj
    obtain ⟨x, k3, k4⟩ := (h2.rep.lookup_iff h2.ok hv.1).mp hj
    obtain ⟨k5, sr, k6, k7⟩ := g1 m j x k3 k4
    exact ⟨k5, sr, k6, by rw [getattr_some h2 k3, k7]⟩
  · intro m sr hm hsn
    obtain ⟨j, hj⟩ := g2 m sr hm hsn
    exact ⟨j, h2.rep.lookup_found h2.ok hj⟩

/-- Other directories are not affected (unless they are removed because they were inside a replaced
entry). -/
theorem C39_others (hl : Live y) {i : Ino} (hv : Valid y B (.opendir i)) (ha : Answered y B (.opendir i) rep y') {p : Ino} (hpi : p ≠ i) (hp : p < W64)
    (m : Bytes) (j : Ino) :
    (Cache.lookup y'.disk p m = .ok (.ok j) → Cache.lookup y.disk p m = .ok (.ok j)) ∧
    (Cache.lookup y.disk p m = .ok (.ok j) → Cache.lookup y'.disk p m = .ok (.ok j) ∨ Cache.getattr y'.disk p = .error ENOENT) := by
  obtain ⟨s, k1, k2⟩ := live_inv hl
  obtain ⟨s', h2, h3⟩ := ha.abs k1 hl hv
  rw [h2.rep.lookup_iff h2.ok hp, k1.rep.lookup_iff k1.ok hp]
  have key : s' = s ∨ ((s'.At p m j → s.At p m j) ∧ (s.At p m j → s'.At p m j ∨ s'.nodes p = none)) := by
    generalize y'.refs = r' at h3
    cases h3 with
    | odSync hc hb hs =>
      obtain ⟨-, -, -, g1, g2⟩ := hs.entries ⟨_, hc⟩
      exact .inr ⟨g1 p m j hpi, g2 p m j hpi⟩
    | _ => exact .inl rfl
  rcases key with rfl | ⟨g1, g2⟩
  · exact ⟨id, .inl⟩
  · refine ⟨g1, fun h => ?_⟩
    rcases g2 h with h | h
    · exact .inl h
    · exact .inr (getattr_none h2 hp h)

/-- The full property: after a successful `opendir` of a backend directory, if the directory counts as
synchronised then the backend's listing was complete, and the cached entries are those of the backend
directory. -/
def C39_full : Prop := ∀ (y : Sys) (B : Backend) (i : Ino) (b : Bytes) (names : List Bytes) (e : Errno) (y' : Sys), Live y → Valid y B (.opendir i) →
  Cache.path y.disk i = .ok (.ok b) → B.opendir (backendPath b) = .ok (names, e) → Answered y B (.opendir i) .opened y' →
  testFlag y'.disk i SYNCED = .ok true → e = 0 ∧ ∀ m ∈ names, ∃ j, Cache.lookup y'.disk i m = .ok (.ok j)

/-- The listing fails in the middle. -/
def tblMid : Tbl where
  stats := [([0x2f, 0x61], .ok bDir)]
  dirs := [([0x2f], .ok ([[0x61]], EIO))]

/-- The connection is lost between the listing and the `lstat` of `a`. -/
def tblLost : Tbl where
  stats := [([0x2f, 0x61], .error ENOTCONN)]
  dirs := [([0x2f], .ok ([[0x61]], 0))]

/-- It is false: a listing which ends with an error counts as complete, entries which were cached
before are removed. -/
theorem C39_counterexample : ¬ C39_full := by
  intro h
  obtain ⟨y, h1, h2, h3, h4, h5⟩ := demoFS_valid (l := [.req tblA (.opendir 1)]) (t := tblMid) (rq := .opendir 1)
    (P := fun y => Cache.path y.disk 1 = .ok (.ok []) ∧ Cache.lookup y.disk 1 [0x6c] = .ok (.ok 3) ∧
      (match dispatch tblMid.backend y.disk y.refs (.opendir 1) with
        | .ok st => decide (st.fault = none ∧ st.sent = [.opened] ∧ testFlag st.disk 1 SYNCED = .ok true ∧ Cache.lookup st.disk 1 [0x6c] = .ok (.error ENOENT))
        | .error _ => false) = true) (by decide +kernel)
  split at h5
  · rename_i st hst
    simp only [decide_eq_true_eq] at h5
    exact absurd (h y _ 1 [] [[0x61]] EIO (y.after _ st) h1 h2 h3 rfl ⟨st, hst, h5.1, h5.2.1, rfl⟩ h5.2.2.1).1 (by decide)
  · cases h5

/-- Also, losing the connection during the synchronisation removes cached entries which exist in the
backend, and the directory counts as synchronised. -/
theorem C39_lost_counterexample : ∃ y st, Live y ∧ Valid y tblLost.backend (.opendir 1) ∧ Cache.lookup y.disk 1 [0x61] = .ok (.ok 2) ∧
    dispatch tblLost.backend y.disk y.refs (.opendir 1) = .ok st ∧ st.sent = [.opened] ∧
    testFlag st.disk 1 SYNCED = .ok true ∧ Cache.lookup st.disk 1 [0x61] = .ok (.error ENOENT) := by
  obtain ⟨y, h1, h2, h3, h5⟩ := demoFS_valid (l := [.req tblA (.opendir 1)]) (t := tblLost) (rq := .opendir 1)
    (P := fun y => Cache.lookup y.disk 1 [0x61] = .ok (.ok 2) ∧
      (match dispatch tblLost.backend y.disk y.refs (.opendir 1) with
        | .ok st => decide (st.sent = [.opened] ∧ testFlag st.disk 1 SYNCED = .ok true ∧ Cache.lookup st.disk 1 [0x61] = .ok (.error ENOENT))
        | .error _ => false) = true) (by decide +kernel)
  split at h5
  · rename_i st hst
    simp only [decide_eq_true_eq] at h5
    exact ⟨y, st, h1, h2, h3, hst, h5.1, h5.2.1, h5.2.2⟩
  · cases h5

/-- The claim holds if no `lstat` fails and the names can be stored: the cached entries are then
exactly the names in the listing. (Missing: listings which end with an error, or entries whose `lstat`
fails; those are treated like complete listings without these entries.) -/
theorem C39_mirror_partial (hl : Live y) {i : Ino} (hv : Valid y B (.opendir i)) {b : Bytes} (hp : Cache.path y.disk i = .ok (.ok b))
    {names : List Bytes} {e : Errno} (hB : B.opendir (backendPath b) = .ok (names, e)) (hg : ∀ m ∈ names, GoodName m)
    (hs : ∀ k m, names[k]? = some m → ∃ sr, B.lstat k (entryPath (backendPath b) m) = .ok sr) :
    ∃ y', Answered y B (.opendir i) .opened y' ∧ testFlag y'.disk i SYNCED = .ok true ∧
      ∀ m, (∃ j, Cache.lookup y'.disk i m = .ok (.ok j)) ↔ m ∈ names := by
  obtain ⟨y', h1, h2, h3, h4⟩ := C39_entries hl hv hp hB
  refine ⟨y', h1, h2, fun m => ⟨?_, fun hm => ?_⟩⟩
  · rintro ⟨j, hj⟩
    obtain ⟨-, sr, ⟨k, g, -⟩, -⟩ := h3 m j hj
    exact List.mem_of_getElem? g
  · obtain ⟨k, hk⟩ := List.getElem?_of_mem hm
    by_cases hno : ∃ sr, Seen B (backendPath b) names m sr
    · obtain ⟨sr, hsn⟩ := hno
      exact h4 m sr (hg m hm) hsn
    · exfalso
      have last : ∀ (f k : Nat), names.length ≤ k + f → names[k]? = some m → False := by
        intro f
        induction f with
        | zero => intro k hlen hk; have := (List.getElem?_eq_some_iff.mp hk).1; omega
        | succ f ih =>
          intro k hlen hk
          obtain ⟨sr, hsr⟩ := hs k m hk
          refine hno ⟨sr, k, hk, hsr, ?_⟩
          intro k' sr' hkk hk' _
          exact ih k' (by omega) hk'
      exact last names.length k (by omega) hk

/-- With the next example: the hypotheses of `C39_entries`, `C39_others` and `C39_mirror_partial`. -/
example : ∃ y, Live y ∧ Valid y tblA.backend (.opendir 1) ∧ Cache.path y.disk 1 = .ok (.ok []) :=
  demoFS_valid (l := [.req tblMid (.lookup 1 [0x61])]) (by decide +kernel)

example : tblA.backend.opendir (backendPath []) = .ok ([[0x61], [0x6c]], 0) ∧ Seen tblA.backend (backendPath []) [[0x61], [0x6c]] [0x61] bDir := by
  refine ⟨rfl, 0, rfl, by decide +kernel, ?_⟩
  intro k' sr' hk h
  have : k' = 1 ∨ 2 ≤ k' := by omega
  rcases this with rfl | h2
  · simp at h
  · rw [List.getElem?_eq_none (by simpa using h2)] at h; cases h

/-! ### C43 directory paging -/

/-- Reading a directory as the kernel does: the first request is for offset `off`, the `k`-th request
is for `σ k` bytes, and each one continues at the offset of the last entry received. `l` are the
entries received; `rep` is the reply which ends the sequence, an empty one or an error. -/
inductive Paging (y : Sys) (B : Backend) (dir : Ino) (σ : Nat → Nat) : Nat → Nat → List DEnt → Reply → Prop
  | more {k off p e n l rep} : Answered y B (.readdir dir (σ k) off) (.buf (p ++ [e]) n) y → Paging y B dir σ (k + 1) e.off l rep →
      Paging y B dir σ k off (p ++ [e] ++ l) rep
  | eof {k off} : Answered y B (.readdir dir (σ k) off) (.buf [] 0) y → Paging y B dir σ k off [] (.buf [] 0)
  | fail {k off e} : Answered y B (.readdir dir (σ k) off) (.err e) y → Paging y B dir σ k off [] (.err e)

/-- The outcome is determined. -/
theorem Paging.unique {dir : Ino} {σ : Nat → Nat} {k off : Nat} {l l' : List DEnt} {rep rep' : Reply} (h : Paging y B dir σ k off l rep)
    (h' : Paging y B dir σ k off l' rep') : l = l' ∧ rep = rep' := by
  induction h generalizing l' rep' with
  | more h1 _ ih =>
    cases h' with
    | more h2 h3 =>
      have := (h1.unique h2).1
      simp only [Reply.buf.injEq] at this
      obtain ⟨e1, e2⟩ := List.append_inj' this.1 rfl
      cases e2
      obtain ⟨rfl, rfl⟩ := ih h3
      rw [e1]; exact ⟨rfl, rfl⟩
    | eof h2 => have := (h1.unique h2).1; simp at this
    | fail h2 => have := (h1.unique h2).1; simp at this
  | eof h1 =>
    cases h' with
    | more h2 h3 => have := (h1.unique h2).1; simp at this
    | eof h2 => exact ⟨rfl, rfl⟩
    | fail h2 => have := (h1.unique h2).1; simp at this
  | fail h1 =>
    cases h' with
    | more h2 h3 => have := (h1.unique h2).1; simp at this
    | eof h2 => have := (h1.unique h2).1; simp at this
    | fail h2 => have := (h1.unique h2).1; cases this; exact ⟨rfl, rfl⟩

/-- Reading on behind the entries `P`. -/
theorem Stream.behind {d : DB} {dir c : Ino} {P Q : List Ent} {x : Ent} {e : Errno} {b : Bool} (h : Stream d dir c (P ++ x :: Q) e b) : Stream d dir x.1 Q e b := by
  induction P generalizing c with
  | nil => cases h with | entry _ _ h => exact h
  | cons z P ih => cases h with | entry _ _ h => exact ih h

theorem Sys.after_same {y : Sys} {B : Backend} {dir : Ino} {size off : Nat} {rep : Reply} (h : ∀ i, rep.given i = 0) :
    y.after (.readdir dir size off) (done y.disk y.refs rep) = y := by
  cases y
  show Sys.mk _ _ _ = _
  simp only [Sys.mk.injEq]
  refine ⟨rfl, rfl, ?_⟩
  funext j; simp [heldAfter, done, h j, Req.returned]

theorem readdir_answer {dir : Ino} {size off : Nat} {l : List Ent}
    (hs : Stream y.disk dir off l 0 true) (hl : l.length ≤ y.disk.treei.size + 2) :
    Answered y B (.readdir dir size off) (if 0 < size ∧ l = [] ∧ testFlag y.disk dir SYNCED ≠ .ok true then .err EIO
      else .buf (fitFrom 24 size 0 (l.map Ent.dent)) (bufLen 24 (fitFrom 24 size 0 (l.map Ent.dent)))) y := by
  refine ⟨done y.disk y.refs _, ?_, rfl, rfl, (Sys.after_same (B := B) ?_).symm⟩
  · unfold dispatch
    simp only [handle]
    rw [readdir_page (st := { disk := y.disk, refs := y.refs }) ⟨rfl, rfl⟩ hs hl]
    rfl
  · intro i; split <;> rfl

theorem paging_stream {dir : Ino} {σ : Nat → Nat} : ∀ (n : Nat) (l : List Ent) (off k : Nat), l.length ≤ n → Stream y.disk dir off l 0 true → l.length ≤ y.disk.treei.size + 2 →
    (∀ k, 0 < σ k) → (∀ k, ∀ x ∈ l, entSize 24 x.dent < σ k) →
    Paging y B dir σ k off (l.map Ent.dent) (if testFlag y.disk dir SYNCED = .ok true then .buf [] 0 else .err EIO) := by
  intro n
  induction n with
  | zero =>
    intro l off k hn hs _ h0 _
    have : l = [] := List.eq_nil_of_length_eq_zero (by omega)
    subst this
    have := readdir_answer (B := B) (size := σ k) hs (by simp)
    by_cases hf : testFlag y.disk dir SYNCED = .ok true
    · rw [if_pos hf]; rw [if_neg (fun h => h.2.2 hf)] at this
      exact .eof this
    · rw [if_neg hf]; rw [if_pos ⟨h0 k, rfl, hf⟩] at this
      exact .fail this
  | succ n ih =>
    intro l off k hn hs hlen h0 hsz
    cases l with
    | nil => exact ih [] off k (by simp) hs hlen h0 hsz
    | cons x l =>
      have ha := readdir_answer (B := B) (size := σ k) hs hlen
      rw [if_neg (by simp)] at ha
      obtain ⟨rest, g1, g2, g3⟩ := fitFrom_spec 24 (σ k) ((x :: l).map Ent.dent) 0 (h0 k)
      have hcons : fitFrom 24 (σ k) 0 ((x :: l).map Ent.dent) ≠ [] := by
        rw [List.map_cons, fitFrom, if_pos (by have := hsz k x (by simp); omega)]; simp
      obtain ⟨P, Q, hPQ, hP, hQ⟩ := List.map_eq_append_iff.mp g1
      have hPne : P ≠ [] := by rintro rfl; exact hcons (by rw [← hP]; rfl)
      obtain ⟨P', z, rfl⟩ : ∃ P' z, P = P' ++ [z] := ⟨P.dropLast, P.getLast hPne, (List.dropLast_concat_getLast hPne).symm⟩
      rw [← hP, List.map_append] at ha
      rw [hPQ] at hs hlen hsz hn ⊢
      rw [List.map_append, List.map_append]
      have hs' : Stream y.disk dir z.1 Q 0 true := by rw [List.append_assoc] at hs; exact hs.behind
      refine .more ha (ih Q _ (k + 1) ?_ hs' ?_ h0 (fun k x hx => hsz k x (by simp [hx])))
      · simp at hn; omega
      · simp at hlen; omega

/-- The listing of a linked directory. -/
theorem stream_all {s : Tree} {d : DB} {r : Refs} (h : SI s d r) {dir p : Ino} (hb : dir < W64) (hp : Cache.parent d dir = .ok p) (hp0 : p ≠ 0) :
    ∃ l : List Ent, Stream d dir 0 l 0 true ∧ l.length ≤ d.treei.size + 2 ∧ (∀ x ∈ l, EntName x.2.1 ∧ Cache.getattr d x.1 = .ok (x.1, x.2.2)) ∧
      l.map (fun x => (x.1, x.2.1)) = (dir, [0x2e]) :: (if dir = ROOT then [] else [(p, [0x2e, 0x2e])]) ++ kids d dir := by
  have hlen := kids_length d dir
  have main : ∀ L : List (Ino × Bytes), ReaddirFrom d dir 0 L → (∀ x ∈ L, EntName x.2 ∧ ∃ nd, s.nodes x.1 = some nd) → L.length ≤ d.treei.size + 2 →
      ∃ l : List Ent, Stream d dir 0 l 0 true ∧ l.length ≤ d.treei.size + 2 ∧ (∀ x ∈ l, EntName x.2.1 ∧ Cache.getattr d x.1 = .ok (x.1, x.2.2)) ∧
      l.map (fun x => (x.1, x.2.1)) = L := by
    intro L hL hx hlen
    refine ⟨withAttrs s L, .of_readdir h hL (fun x hm => (hx x hm).2), ?_, ?_, ?_⟩
    · have := withAttrs_length (s := s) L; omega
    · intro x hm
      obtain ⟨g1, nd, g2, g3⟩ := withAttrs_mem hm
      exact ⟨(hx _ g1).1, by rw [getattr_some h g2, g3]⟩
    · clear hL hlen
      induction L with
      | nil => rfl
      | cons x L ih =>
        obtain ⟨-, nd, hn⟩ := hx x (by simp)
        have : withAttrs s (x :: L) = (x.1, x.2, nd.attr) :: withAttrs s L := by unfold withAttrs; simp [hn]
        rw [this, List.map_cons, ih (fun z hz => hx z (by simp [hz]))]
  have dot : EntName [0x2e] := ⟨by decide, by decide, by decide⟩
  have dotdot : EntName [0x2e, 0x2e] := ⟨by decide, by decide, by decide⟩
  have hkid : ∀ x ∈ kids d dir, EntName x.2 ∧ ∃ nd, s.nodes x.1 = some nd := by
    intro x hx; obtain ⟨nd, h1, h2⟩ := kids_info h hb hx; exact ⟨h2, nd, h1⟩
  rcases (linked_iff h hb).mpr ⟨p, hp, hp0⟩ with rfl | ⟨q, m, nd, hi, hl⟩
  · rw [if_pos rfl]
    obtain ⟨nd, hi, -⟩ := h.ok.root
    refine main _ (h.rep.readdir_root h.ok ?_) ?_ ?_
    · rintro n ⟨x, h1, h2⟩
      exact Nat.lt_irrefl _ (h.wf _ x _ n h1 h2).1
    · intro x hx
      rcases List.mem_cons.mp hx with rfl | hx
      · exact ⟨dot, nd, hi⟩
      · exact hkid x hx
    · simp; omega
  · have hr : dir ≠ ROOT := OK.loc_ne_root h.ok hi hl
    rw [if_neg hr]
    obtain ⟨hlt, x, hx, -⟩ := h.wf dir nd q m hi hl
    have : p = q := by rw [h.rep.parent h.ok hb, if_neg hr, hi] at hp; simp [Node.par, hl] at hp; exact hp.symm
    subst this
    refine main _ (h.rep.readdir_all h.ok hi hl ?_ ?_ (by omega)) ?_ ?_
    · rintro n ⟨z, h1, h2⟩; have := (h.wf _ z _ n h1 h2).1; omega
    · rintro n ⟨z, h1, h2⟩; have := (h.wf _ z _ n h1 h2).1; omega
    · intro z hz
      rcases List.mem_cons.mp hz with rfl | hz
      · exact ⟨dot, nd, hi⟩
      · rcases List.mem_cons.mp hz with rfl | hz
        · exact ⟨dotdot, x, hx⟩
        · exact hkid z hz
    · simp; omega

/-- Space which an entry with a name of `n` bytes takes in a reply. -/
def entryBytes (n : Nat) : Nat := (24 + n + 7) / 8 * 8

/-- Reading a directory in pages, each of which has space for more than any one entry, gives `.`, `..`
(not for the root) and each entry of the directory exactly once, with the attributes of the inode, and
then the end of the directory, or EIO if the directory is not completely cached. -/
theorem C43_paging (hl : Live y) {dir p : Ino} (hd : dir < W64) (hp : Cache.parent y.disk dir = .ok p) (hp0 : p ≠ 0) {σ : Nat → Nat}
    (hσ : ∀ k, 32 < σ k) (hσ2 : ∀ k m i, Cache.lookup y.disk dir m = .ok (.ok i) → entryBytes m.length < σ k) :
    ∃ (l : List DEnt) (es : List (Ino × Bytes)),
      Paging y B dir σ 0 0 l (if testFlag y.disk dir SYNCED = .ok true then .buf [] 0 else .err EIO) ∧
      l.map (fun e => (e.stat.ino, e.name)) = (dir, [0x2e]) :: (if dir = ROOT then [] else [(p, [0x2e, 0x2e])]) ++ es ∧
      es.Nodup ∧ (∀ i m, (i, m) ∈ es ↔ Cache.lookup y.disk dir m = .ok (.ok i)) ∧
      ∀ e ∈ l, ∃ a, Cache.getattr y.disk e.stat.ino = .ok (e.stat.ino, a) ∧ e.stat = osStat e.stat.ino a := by
  obtain ⟨s, k1, k2⟩ := live_inv hl
  obtain ⟨l, g1, g2, g3, g4⟩ := stream_all k1 hd hp hp0
  have hmem : ∀ i m, (i, m) ∈ kids y.disk dir ↔ Cache.lookup y.disk dir m = .ok (.ok i) := by
    intro i m; rw [k1.rep.mem_kids k1.ok hd, k1.rep.lookup_iff k1.ok hd]
  have hname : ∀ x ∈ l, cstr x.2.1 = x.2.1 := fun x hx => cstr_eq (g3 x hx).1.2.1
  refine ⟨l.map Ent.dent, kids y.disk dir, paging_stream l.length l 0 0 (Nat.le_refl _) g1 g2 (fun k => by have := hσ k; omega) ?_, ?_,
    k1.rep.kids_nodup k1.ok, hmem, ?_⟩
  · intro k x hx
    have : (x.1, x.2.1) ∈ l.map (fun x => (x.1, x.2.1)) := List.mem_map.mpr ⟨x, hx, rfl⟩
    rw [g4] at this
    have hsz : entSize 24 x.dent = entryBytes x.2.1.length := by
      unfold entSize entryBytes Ent.dent mkDEnt; simp only; rw [hname x hx]
    rw [hsz]
    have small : ∀ {n}, n ≤ 8 → n ≤ 1 ∨ n ≤ 2 → entryBytes n < σ k := by
      intro n _ h2
      have := hσ k
      have h3 : entryBytes n ≤ 32 := by unfold entryBytes; rcases h2 with h | h <;> omega
      omega
    simp only [List.cons_append, List.mem_cons, List.mem_append] at this
    rcases this with h | h | h
    · simp only [Prod.mk.injEq] at h; rw [h.2]; exact small (by decide) (.inl (by decide))
    · split at h
      · cases h
      · rw [List.mem_singleton, Prod.mk.injEq] at h; rw [h.2]; exact small (by decide) (.inr (by decide))
    · exact hσ2 k _ _ ((hmem _ _).mp h)
  · rw [List.map_map, ← g4]
    apply List.map_congr_left
    intro x hx
    show (x.1, cstr x.2.1) = _
    rw [hname x hx]
  · intro e he
    obtain ⟨x, hx, rfl⟩ := List.mem_map.mp he
    exact ⟨x.2.2, (g3 x hx).2, rfl⟩

/-- In particular pages of more than 528 bytes, whatever the names. -/
theorem C43_page_size (hl : Live y) {dir : Ino} (hd : dir < W64) {m : Bytes} {i : Ino} (h : Cache.lookup y.disk dir m = .ok (.ok i)) : entryBytes m.length ≤ 528 := by
  obtain ⟨s, k1, k2⟩ := live_inv hl
  obtain ⟨nd, g1, g2⟩ := (k1.rep.lookup_iff k1.ok hd).mp h
  have := (k1.ok.loc i nd dir m g1 g2).2.2.1
  unfold entryBytes; omega

/-- A reply is never larger than requested, and consists of whole entries; it holds as many as fit with
a byte to spare. -/
theorem C43_reply_size (hl : Live y) {dir : Ino} {size off : Nat} (hv : Valid y B (.readdir dir size off)) {l : List DEnt} {n : Nat}
    (ha : Answered y B (.readdir dir size off) (.buf l n) y') : n = (l.map (fun e => entryBytes e.name.length)).sum ∧ (n < size ∨ n = 0) := by
  obtain ⟨s, k1, k2⟩ := live_inv hl
  obtain ⟨s', k3, k4⟩ := ha.abs k1 hl hv
  have fit : ∀ L : List DEnt, bufLen 24 (fitFrom 24 size 0 L) < size ∨ bufLen 24 (fitFrom 24 size 0 L) = 0 := by
    intro L
    by_cases hz : 0 < size
    · obtain ⟨rest, -, g, -⟩ := fitFrom_spec 24 size L 0 hz
      exact .inl (by omega)
    · have : fitFrom 24 size 0 L = [] := by
        cases L with
        | nil => rfl
        | cons e L => rw [fitFrom, if_neg (by omega)]
      rw [this]; exact .inr rfl
  have sz : ∀ L : List DEnt, bufLen 24 L = (L.map (fun e => entryBytes e.name.length)).sum := fun L => rfl
  have key : ∃ L, l = fitFrom 24 size 0 L ∧ n = bufLen 24 l := by
    generalize y'.refs = r' at k4
    generalize hrep : Reply.buf l n = rep at k4
    cases k4 with
    | @rdEof _ _ _ L _ =>
      split at hrep
      · cases hrep
      · cases hrep; exact ⟨_, rfl, rfl⟩
    | @rdPart _ _ _ L => cases hrep; exact ⟨_, rfl, rfl⟩
  obtain ⟨L, rfl, rfl⟩ := key
  exact ⟨sz _, fit _⟩

/-- The same with `readdirplus` requests, each of which takes references, so that the state changes. -/
inductive PagingPlus (B : Backend) (dir : Ino) (σ : Nat → Nat) : Nat → Nat → Sys → List DEnt → Sys → Prop
  | more {k off p e n l y y1 y'} : Answered y B (.readdirplus dir (σ k) off) (.bufPlus (p ++ [e]) n) y1 → PagingPlus B dir σ (k + 1) e.off y1 l y' →
      PagingPlus B dir σ k off y (p ++ [e] ++ l) y'
  | eof {k off y y'} : Answered y B (.readdirplus dir (σ k) off) (.bufPlus [] 0) y' → PagingPlus B dir σ k off y [] y'

theorem pagingPlus_stream {dir : Ino} {σ : Nat → Nat} {s : Tree} : ∀ (n : Nat) (l : List Ent) (off k : Nat) (y : Sys), l.length ≤ n → SI s y.disk y.refs →
    Stream y.disk dir off l 0 true → l.length ≤ y.disk.treei.size + 2 → (∀ x ∈ l, Cache.getattr y.disk x.1 = .ok (x.1, x.2.2) ∧ x.1 < W64) →
    (∀ i, (y.refs i).nrefs + (n + 1) * (y.disk.treei.size + 3) < W64) → (∀ k, 0 < σ k) → (∀ k, ∀ x ∈ l, entSize 152 x.dent < σ k) →
    ∃ y', PagingPlus B dir σ k off y (l.map Ent.dent) y' ∧ y'.disk = y.disk := by
  intro n
  induction n with
  | zero =>
    intro l off k y hn hI hs _ _ hcnt h0 _
    have : l = [] := List.eq_nil_of_length_eq_zero (by omega)
    subst this
    have hpg := readdirplus_page (st := { disk := y.disk, refs := y.refs }) (size := σ k) ⟨rfl, rfl⟩ hs (by simp) (by simp)
      (fun i => by have := hcnt i; simp only [Nat.zero_add, Nat.one_mul] at this; simp only [List.length_nil]; omega)
    have : dispatch B y.disk y.refs (.readdirplus dir (σ k) off) = .ok (done y.disk y.refs (.bufPlus [] 0)) := by
      unfold dispatch
      simp only [handle]
      rcases hpg with ⟨-, -, h⟩ | ⟨h, -⟩ | ⟨-, P, x, Q, h, -⟩
      · rw [h]; rfl
      · have := h0 k; omega
      · simp at h
    exact ⟨_, .eof ⟨_, this, rfl, rfl, rfl⟩, rfl⟩
  | succ n ih =>
    intro l off k y hn hI hs hlen hx hcnt h0 hsz
    have hmul : (n + 1 + 1) * (y.disk.treei.size + 3) = (n + 1) * (y.disk.treei.size + 3) + (y.disk.treei.size + 3) := by
      rw [Nat.add_mul (n + 1) 1, Nat.one_mul]
    have hex : ∀ x ∈ l, ∃ nd, s.nodes x.1 = some nd := by
      intro x hm
      obtain ⟨h1, h2⟩ := hx x hm
      cases hn : s.nodes x.1 with
      | some nd => exact ⟨nd, rfl⟩
      | none => rw [getattr_none hI h2 hn] at h1; cases h1
    cases l with
    | nil => exact ih [] off k y (by simp) hI hs hlen hx (fun i => by have := hcnt i; omega) h0 hsz
    | cons x l =>
      have hpg := readdirplus_page (st := { disk := y.disk, refs := y.refs }) (size := σ k) ⟨rfl, rfl⟩ hs hlen
        (fun x hm => by obtain ⟨nd, hnd⟩ := hex x hm; exact hI.not_doomed hnd)
        (fun i => by have := hcnt i; simp only at *; omega)
      -- each page consists of the entries P, and takes references for P and some more
      have page : ∃ P Q R rest, x :: l = P ++ Q ∧ P ≠ [] ∧ x :: l = R ++ rest ∧
          dispatch B y.disk y.refs (.readdirplus dir (σ k) off) = .ok (done y.disk (plusRefs y.refs R) (.bufPlus (P.map Ent.dent) (bufLen 152 (P.map Ent.dent)))) := by
        rcases hpg with ⟨-, -, h⟩ | ⟨h, -⟩ | ⟨hz, P, z, Q, hPQ, h1, h2⟩
        · refine ⟨x :: l, [], x :: l, [], by simp, by simp, by simp, ?_⟩
          unfold dispatch; simp only [handle]; rw [h]; rfl
        · have := h0 k; omega
        · refine ⟨P, z :: Q, P ++ [z], Q, hPQ, ?_, by rw [hPQ]; simp, ?_⟩
          · rintro rfl
            rw [List.map_cons, fitFrom, if_pos (by have := hsz k x (by simp); omega)] at h1
            simp at h1
          · unfold dispatch; simp only [handle]; rw [h2]; rfl
      obtain ⟨P, Q, R, rest, hPQ, hPne, hR, hdis⟩ := page
      obtain ⟨P', z, rfl⟩ : ∃ P' z, P = P' ++ [z] := ⟨P.dropLast, P.getLast hPne, (List.dropLast_concat_getLast hPne).symm⟩
      have hRlen : R.length ≤ y.disk.treei.size + 2 := by have := congrArg List.length hR; rw [List.length_append] at this; omega
      have hI1 : SI s y.disk (plusRefs y.refs R) := si_plusRefs hI (fun x hm => hex x (by rw [hR]; simp [hm])) (fun i => by have := hcnt i; omega)
      have hs' : Stream y.disk dir z.1 Q 0 true := by rw [hPQ, List.append_assoc] at hs; exact hs.behind
      have hlenPQ := congrArg List.length hPQ
      simp only [List.length_append, List.length_cons, List.length_nil] at hlenPQ
      simp only [List.length_cons] at hn hlen
      obtain ⟨y', g1, g2⟩ := ih Q z.1 (k + 1) (y.after (.readdirplus dir (σ k) off) (done y.disk (plusRefs y.refs R) (.bufPlus ((P' ++ [z]).map Ent.dent) (bufLen 152 ((P' ++ [z]).map Ent.dent)))))
        (by omega) hI1 hs' (by show _ ≤ y.disk.treei.size + 2; omega) (fun x hm => hx x (by rw [hPQ]; simp [hm]))
        (fun i => by
          show (plusRefs y.refs R i).nrefs + (n + 1) * (y.disk.treei.size + 3) < W64
          rw [plusRefs_count]; have := hcnt i; have := occurs_le i R; omega)
        h0 (fun k x hm => hsz k x (by rw [hPQ]; simp [hm]))
      refine ⟨y', ?_, g2⟩
      rw [hPQ, List.map_append, List.map_append]
      have ha : Answered y B (.readdirplus dir (σ k) off) (.bufPlus (P'.map Ent.dent ++ [z.dent]) (bufLen 152 ((P' ++ [z]).map Ent.dent)))
          (y.after (.readdirplus dir (σ k) off) (done y.disk (plusRefs y.refs R) (.bufPlus ((P' ++ [z]).map Ent.dent) (bufLen 152 ((P' ++ [z]).map Ent.dent))))) :=
        ⟨_, hdis, rfl, by simp [done], rfl⟩
      exact .more ha g1

/-- Space which an entry takes in a reply to `readdirplus`. -/
def plusBytes (n : Nat) : Nat := (152 + n + 7) / 8 * 8

/-- Reading a directory with `readdirplus` gives the same entries. The end of the directory is signalled
also if it is not completely cached. (Assuming that no lock count overflows.) -/
theorem C43_paging_plus (hl : Live y) {dir p : Ino} (hd : dir < W64) (hp : Cache.parent y.disk dir = .ok p) (hp0 : p ≠ 0) {σ : Nat → Nat}
    (hσ : ∀ k, 160 < σ k) (hσ2 : ∀ k m i, Cache.lookup y.disk dir m = .ok (.ok i) → plusBytes m.length < σ k)
    (hcnt : ∀ i, (y.refs i).nrefs + (y.disk.treei.size + 3) * (y.disk.treei.size + 3) < W64) :
    ∃ (l : List DEnt) (es : List (Ino × Bytes)) (y' : Sys), PagingPlus B dir σ 0 0 y l y' ∧ y'.disk = y.disk ∧
      l.map (fun e => (e.stat.ino, e.name)) = (dir, [0x2e]) :: (if dir = ROOT then [] else [(p, [0x2e, 0x2e])]) ++ es ∧
      es.Nodup ∧ (∀ i m, (i, m) ∈ es ↔ Cache.lookup y.disk dir m = .ok (.ok i)) ∧
      ∀ e ∈ l, ∃ a, Cache.getattr y.disk e.stat.ino = .ok (e.stat.ino, a) ∧ e.stat = osStat e.stat.ino a := by
  obtain ⟨s, k1, k2⟩ := live_inv hl
  obtain ⟨l, g1, g2, g3, g4⟩ := stream_all k1 hd hp hp0
  have hmem : ∀ i m, (i, m) ∈ kids y.disk dir ↔ Cache.lookup y.disk dir m = .ok (.ok i) := by
    intro i m; rw [k1.rep.mem_kids k1.ok hd, k1.rep.lookup_iff k1.ok hd]
  have hname : ∀ x ∈ l, cstr x.2.1 = x.2.1 := fun x hx => cstr_eq (g3 x hx).1.2.1
  have hin : ∀ x ∈ l, x.1 < W64 ∧ (x.2.1.length ≤ 2 ∨ (x.1, x.2.1) ∈ kids y.disk dir) := by
    intro x hx
    have : (x.1, x.2.1) ∈ l.map (fun x => (x.1, x.2.1)) := List.mem_map.mpr ⟨x, hx, rfl⟩
    rw [g4] at this
    simp only [List.cons_append, List.mem_cons, List.mem_append] at this
    rcases this with h | h | h
    · simp only [Prod.mk.injEq] at h; rw [h.1, h.2]; exact ⟨hd, .inl (by decide)⟩
    · split at h
      · cases h
      · rename_i hr
        rw [List.mem_singleton, Prod.mk.injEq] at h; rw [h.1, h.2]
        rw [k1.rep.parent k1.ok hd, if_neg hr] at hp
        cases hn : s.nodes dir with
        | none => rw [hn] at hp; cases hp
        | some nd =>
          obtain ⟨q, hq, hqb, -⟩ := parent_facts k1 hn
          rw [k1.rep.parent k1.ok hd, if_neg hr] at hq
          rw [hp] at hq; cases hq
          exact ⟨hqb, .inl (by decide)⟩
    · obtain ⟨nd, h1, -⟩ := (k1.rep.mem_kids k1.ok hd).mp h
      exact ⟨OK.lt k1.ok h1, .inr h⟩
  obtain ⟨y', h1, h2⟩ := pagingPlus_stream (B := B) (dir := dir) (σ := σ) (y.disk.treei.size + 2) l 0 0 y g2 k1 g1 g2 (fun x hx => ⟨(g3 x hx).2, (hin x hx).1⟩)
    hcnt (fun k => by have := hσ k; omega) (by
      intro k x hx
      have hsz : entSize 152 x.dent = plusBytes x.2.1.length := by
        unfold entSize plusBytes Ent.dent mkDEnt; simp only; rw [hname x hx]
      rw [hsz]
      rcases (hin x hx).2 with h | h
      · have := hσ k
        unfold plusBytes; omega
      · exact hσ2 k _ _ ((hmem _ _).mp h))
  refine ⟨l.map Ent.dent, kids y.disk dir, y', h1, h2, ?_, k1.rep.kids_nodup k1.ok, hmem, ?_⟩
  · rw [List.map_map, ← g4]
    apply List.map_congr_left
    intro x hx
    show (x.1, cstr x.2.1) = _
    rw [hname x hx]
  · intro e he
    obtain ⟨x, hx, rfl⟩ := List.mem_map.mp he
    exact ⟨x.2.2, (g3 x hx).2, rfl⟩

/-- The size must really be larger than the entry: with just enough space for the entry, the reply is
empty, which signals the end of the directory. -/
theorem C43_exact_size : ∃ y, Live y ∧ Valid y tblA.backend (.readdir 1 32 0) ∧ Answered y tblA.backend (.readdir 1 32 0) (.buf [] 0) y := by
  obtain ⟨y, h1, h2, h3⟩ := demoFS_valid (l := [.req tblA (.opendir 1)]) (t := tblA) (rq := .readdir 1 32 0)
    (P := fun y => (match dispatch tblA.backend y.disk y.refs (.readdir 1 32 0) with
        | .ok st => decide (st.fault = none ∧ st.sent = [.buf [] 0])
        | .error _ => false) = true) (by decide +kernel)
  refine ⟨y, h1, h2, ?_⟩
  split at h3
  · rename_i st hst
    simp only [decide_eq_true_eq] at h3
    obtain ⟨s, k1, k2⟩ := live_inv h1
    have ha : Answered y tblA.backend (.readdir 1 32 0) (.buf [] 0) (y.after (.readdir 1 32 0) st) := ⟨st, hst, h3.1, h3.2, rfl⟩
    obtain ⟨l, g1, g2, -⟩ := stream_all k1 (dir := 1) (p := 1) (by decide) (by rw [k1.rep.parent k1.ok (by decide)]; rfl) (by decide)
    have := readdir_answer (B := tblA.backend) (size := 32) g1 g2
    have hu := this.unique ha
    rw [hu.1] at this
    exact this
  · cases h3

/-- A directory with two entries, as in `C43_paging`, `C43_page_size`, `C43_reply_size` and `C43_paging_plus`. -/
example : ∃ y, Live y ∧ Cache.parent y.disk 1 = .ok 1 ∧ Cache.lookup y.disk 1 [0x61] = .ok (.ok 2) ∧ Cache.lookup y.disk 1 [0x6c] = .ok (.ok 3) ∧
    testFlag y.disk 1 SYNCED = .ok true :=
  demoFS_ex (l := [.req tblA (.opendir 1)]) (by decide +kernel)

end Dragonstash.FS
