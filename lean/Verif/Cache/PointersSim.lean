/-
  The functions with pointers (`Verif.Cache.Pointers`) do what the functions without them (`Verif.Cache.Model`) do.
-/
import Verif.Cache.Pointers
import Verif.Cache.Inv
namespace Dragonstash.Cache.Ptrs
open Codec

/-- What the program needs of lmdb-safe: keys which are found are returned from the database, or `put` of a cursor does not look
at the key. -/
def Lib.Suffices (L : Lib) : Prop := L.setKey = true ∨ L.current = true

/-- Keys have the size which the program expects. -/
structure KeysOK (d : DB) : Prop where
  treei : ∀ k v, d.treei.find k = some v → k.length = 16
  orphans : ∀ k v, d.orphans.find k = some v → k.length = 8

theorem keysOK_of {s : Tree} {d : DB} (h : Rep s d) : KeysOK d := by
  constructor
  · intro k v hk
    obtain ⟨i, nd, p, n, rfl, -⟩ := (h.treei k v).mp hk
    simp
  · intro k v hk
    obtain ⟨i, nd, rfl, -⟩ := (h.orphans k v).mp hk
    simp

theorem keysOK_empty : KeysOK emptyDB :=
  ⟨fun _ _ h => by simp [emptyDB] at h, fun _ _ h => by simp [emptyDB] at h⟩

/-! ### Following and finding -/

theorem follow_page {α : Type} (line : Nat) (s : PS) (v : α) : follow line s (some ⟨v, .page s.gen⟩) = .ok v := by
  simp [follow]

theorem find_none {V : Type} {L : Lib} {f : Fld V} {s : PS} {k : Bytes} {b : Bool} (h : (f.get s.db).find k = none) :
    find L f s k b = notFound := by unfold find; rw [h]

theorem find_some {V : Type} {L : Lib} {f : Fld V} {s : PS} {k : Bytes} {b : Bool} {v : V} (h : (f.get s.db).find k = some v) :
    find L f s k b = ⟨true, some ⟨k, if L.setKey then .page s.gen else .local_ b⟩, some ⟨v, .page s.gen⟩, some k⟩ := by
  unfold find; rw [h]

theorem get_none {V : Type} {f : Fld V} {s : PS} {k : Bytes} (h : (f.get s.db).find k = none) : get f s k = notFound := by
  unfold get; rw [h]

theorem get_some {V : Type} {f : Fld V} {s : PS} {k : Bytes} {v : V} (h : (f.get s.db).find k = some v) :
    get f s k = ⟨true, none, some ⟨v, .page s.gen⟩, none⟩ := by unfold get; rw [h]

theorem head_dropWhile {α : Type} (p : α → Bool) (l : List α) : (l.dropWhile p).head? = l.find? (fun x => !p x) := by
  induction l with
  | nil => rfl
  | cons x xs ih =>
    by_cases h : p x = true
    · rw [List.dropWhile_cons_of_pos h, ih, List.find?_cons_of_neg (by simp [h])]
    · rw [List.dropWhile_cons_of_neg h, List.find?_cons_of_pos (by simpa using h)]; rfl

theorem lower_eq {V : Type} (f : Fld V) (s : PS) (k : Bytes) : lower f s k = foundIn s ((f.get s.db).lower k).head? := by
  unfold lower Tab.lower; rw [head_dropWhile]

/-- The entry behind an entry. -/
theorem next_eq {V : Type} (f : Fld V) (s : PS) {pre l : List (Bytes × V)} {e : Bytes × V} (h : (f.get s.db).entries = pre ++ e :: l) :
    next f s (foundAt s e) = foundIn s l.head? := by
  have hs := (f.get s.db).sorted
  rw [h] at hs
  obtain ⟨-, hs2, hs3⟩ := List.pairwise_append.mp hs
  obtain ⟨hs4, -⟩ := List.pairwise_cons.mp hs2
  have e1 : (f.get s.db).entries.find? (fun x => blt e.1 x.1) = l.head? := by
    rw [h, List.find?_append]
    have h0 : pre.find? (fun x => blt e.1 x.1) = none := by
      rw [List.find?_eq_none]
      intro x hx
      rw [blt_asymm (hs3 x hx e (List.mem_cons_self ..))]; simp
    rw [h0, List.find?_cons_of_neg (by rw [blt_irrefl]; simp)]
    cases l with
    | nil => rfl
    | cons x xs =>
      have hx := hs4 x (List.mem_cons_self ..)
      simp [List.find?_cons, hx]
  show foundIn s ((f.get s.db).entries.find? (fun x => blt e.1 x.1)) = _
  rw [e1]

theorem atCursor_ok {V : Type} {line : Nat} {f : Fld V} {s : PS} {o : Found V} {k : Bytes} {v : V} (hp : o.pos = some k)
    (hf : (f.get s.db).find k = some v) : atCursor line f s o = .ok k := by
  unfold atCursor; rw [hp]; simp only; rw [hf]

theorem delAt_ok {V : Type} {line : Nat} {f : Fld V} {s : PS} {o : Found V} {k : Bytes} {v : V} (hp : o.pos = some k)
    (hf : (f.get s.db).find k = some v) : delAt line f s o = .ok (del f s k) := by
  unfold delAt; rw [atCursor_ok hp hf]; rfl

/-- `put` through the cursor which has just found the key. -/
theorem putAt_ok {V : Type} {L : Lib} (hL : L.Suffices) {line : Nat} {f : Fld V} {s : PS} {k : Bytes} {v w : V} {b : Bool}
    (hf : (f.get s.db).find k = some v) : putAt L line f s (find L f s k b) w = .ok (put f s k w) := by
  unfold putAt
  rw [find_some hf]
  rcases hL with hL | hL
  · rw [hL]
    simp only [if_true, follow_page]
    rw [atCursor_ok rfl hf]
    simp
  · rw [hL]
    simp only [if_true]
    rw [atCursor_ok rfl hf]; rfl

/-- With a named key nothing is needed. -/
theorem putAt_named {V : Type} {L : Lib} {line : Nat} {f : Fld V} {s : PS} {k : Bytes} {v w : V}
    (hf : (f.get s.db).find k = some v) : putAt L line f s (find L f s k true) w = .ok (put f s k w) := by
  unfold putAt
  rw [find_some hf]
  by_cases hc : L.current = true
  · rw [if_pos hc, atCursor_ok rfl hf]; rfl
  · rw [if_neg hc]
    by_cases hk : L.setKey = true
    · rw [if_pos hk, follow_page]; rfl
    · rw [if_neg hk]; rfl

/-! ### Reading -/

theorem name2_eq (L : Lib) (s : PS) (p i : Ino) : name2 L s p i = .ok (Cache.name2 s.db p i) := by
  unfold name2 Cache.name2
  by_cases h : i = ROOT ∨ p = INVALID
  · rw [if_pos h, if_pos h]
  · rw [if_neg h, if_neg h]
    cases hf : s.db.treei.find (key16 p i) with
    | none => rw [find_none (f := treei) hf]; rfl
    | some e => rw [find_some (f := treei) hf]; simp [follow_page]

theorem parent_eq (s : PS) (i : Ino) : parent s i = .ok (Cache.parent s.db i) := by
  unfold parent Cache.parent
  by_cases h : i = ROOT
  · rw [if_pos h, if_pos h]
  · rw [if_neg h, if_neg h]
    cases hf : s.db.inodes.find (key8 i) with
    | none => rw [get_none (f := inodes) hf]; rfl
    | some e => rw [get_some (f := inodes) hf]; simp [follow_page]

theorem name_eq (L : Lib) (s : PS) (i : Ino) : name L s i = .ok (Cache.name s.db i) := by
  unfold name Cache.name
  by_cases h : i = ROOT
  · rw [if_pos h, if_pos h]
  · rw [if_neg h, if_neg h, parent_eq]
    simp only [bind_ok]
    cases Cache.parent s.db i with
    | error e => rfl
    | ok p =>
      simp only
      by_cases hp : p = INVALID
      · rw [if_pos hp, if_pos hp]; rfl
      · rw [if_neg hp, if_neg hp, name2_eq]

theorem lookupLoop_eq (s : PS) (p : Ino) (n : Bytes) : ∀ (l pre : List (Bytes × DirEnt)) (f : Nat), s.db.treen.entries = pre ++ l → l.length < f →
    lookupLoop s p n f (foundIn s l.head?) = lookupScan p n l
  | _, _, 0, _, h => absurd h (Nat.not_lt_zero _)
  | [], _, f + 1, _, _ => rfl
  | e :: t, pre, f + 1, he, hf => by
    have hn : next treen s (foundAt s e) = foundIn s t.head? := next_eq treen s he
    have ih := lookupLoop_eq s p n t (pre ++ [e]) f (by rw [he]; simp) (by simp at hf; omega)
    unfold lookupLoop lookupScan
    show (if (!true) = true then _ else _) = _
    rw [if_neg (by simp)]
    show (do let k ← follow 520 s (some ⟨e.1, .page s.gen⟩); _) = _
    rw [follow_page]
    simp only [bind_ok]
    by_cases h8 : 8 ≤ e.1.length
    · rw [chk_of (decide_eq_true h8), bind_ok, bind_ok]
      show (do let k ← follow 521 s (some ⟨e.2, .page s.gen⟩); _) = _
      rw [follow_page]
      simp only [bind_ok]
      have hn' : next treen s (foundIn s (e :: t).head?) = foundIn s t.head? := hn
      rw [hn', ih]
      by_cases h1 : e.1.length - 8 ≠ n.length
      · rw [if_pos h1, if_pos h1]
      · rw [if_neg h1, if_neg h1]
        unfold readIno
        rw [if_pos h8]
        rfl
    · simp [chk, h8]

theorem lookup_eq (s : PS) (p : Ino) (n : Bytes) : lookup s p n = Cache.lookup s.db p n := by
  unfold lookup Cache.lookup
  cases checkName n false with
  | error e => rfl
  | ok u =>
    simp only
    by_cases hp : p = INVALID
    · rw [if_pos hp, if_pos hp]
    · rw [if_neg hp, if_neg hp, lower_eq]
      obtain ⟨pre, hpre⟩ := List.dropWhile_suffix (fun e : Bytes × DirEnt => blt e.1 (key8 p)) (l := s.db.treen.entries)
      refine lookupLoop_eq s p n _ pre _ hpre.symm ?_
      have := (Tab.lower_sublist s.db.treen (key8 p)).length_le
      exact Nat.lt_succ_of_le this

theorem getattr_eq (s : PS) (i : Ino) : getattr s i = .ok (Cache.getattr s.db i) := by
  unfold getattr Cache.getattr
  cases hf : s.db.inodes.find (key8 i) with
  | none => rw [get_none (f := inodes) hf]; rfl
  | some e => rw [get_some (f := inodes) hf]; simp [follow_page]

theorem readlink_eq (s : PS) (i : Ino) : readlink s i = .ok (Cache.readlink s.db i) := by
  unfold readlink Cache.readlink
  cases hf : s.db.links.find (key8 i) with
  | none =>
    rw [get_none (f := links) hf]
    cases hf' : s.db.inodes.find (key8 i) with
    | none => rw [get_none (f := inodes) hf']; rfl
    | some e => rw [get_some (f := inodes) hf']; rfl
  | some e => rw [get_some (f := links) hf]; simp [follow_page]

theorem testFlag_eq (L : Lib) (s : PS) (i : Ino) (f : Flag) : testFlag L s i f = .ok (Cache.testFlag s.db i f) := by
  unfold testFlag Cache.testFlag
  cases hf : s.db.inodes.find (key8 i) with
  | none => rw [find_none (f := inodes) hf]; rfl
  | some e => rw [find_some (f := inodes) hf]; simp [follow_page]

theorem readdir_eq (s : PS) (dir prev : Ino) : readdir s dir prev = Cache.readdir s.db dir prev := by
  unfold readdir Cache.readdir
  by_cases h0 : prev = 0
  · rw [if_pos h0, if_pos h0]
  · rw [if_neg h0, if_neg h0, parent_eq, bind_ok]
    cases Cache.parent s.db dir with
    | error e => rfl
    | ok p =>
      simp only
      by_cases h1 : prev ≠ p ∧ prev = dir
      · rw [if_pos h1, if_pos h1]; rfl
      · rw [if_neg h1, if_neg h1, lower_eq]
        obtain ⟨pre, hpre⟩ := List.dropWhile_suffix (fun e : Bytes × DirEnt => blt e.1 (key16 dir (if prev = p then 0 else prev))) (l := s.db.treei.entries)
        replace hpre : pre ++ s.db.treei.lower (key16 dir (if prev = p then 0 else prev)) = s.db.treei.entries := hpre
        simp only [show treei.get s.db = s.db.treei from rfl]
        revert hpre
        generalize s.db.treei.lower (key16 dir (if prev = p then 0 else prev)) = l
        intro hpre
        cases l with
        | nil => rfl
        | cons e t =>
          have hn : next treei s (foundIn s (e :: t).head?) = foundIn s t.head? := next_eq treei s hpre.symm
          rw [if_neg (by simp [foundIn, foundAt])]
          unfold readdirAt
          show (do let k ← follow 624 s (some ⟨e.1, .page s.gen⟩); _) = _
          rw [follow_page]
          simp only [bind_ok]
          by_cases h16 : e.1.length = 16
          · rw [chk_of (decide_eq_true h16), bind_ok, bind_ok]
            by_cases h2 : leDec (e.1.take 8) ≠ dir
            · rw [if_pos h2, if_pos h2]
            · rw [if_neg h2, if_neg h2]
              by_cases h3 : prev ≠ 0 ∧ leDec (e.1.drop 8) = prev
              · rw [if_pos h3, if_pos h3, hn]
                cases t with
                | nil => rfl
                | cons e' t' =>
                  rw [if_neg (by simp [foundIn, foundAt])]
                  show (do let k ← follow 638 s (some ⟨e'.1, .page s.gen⟩); _) = _
                  rw [follow_page]
                  simp only [bind_ok]
                  by_cases h16' : e'.1.length = 16
                  · rw [chk_of (decide_eq_true h16'), bind_ok, bind_ok]
                    by_cases h4 : leDec (e'.1.take 8) ≠ dir
                    · rw [if_pos h4, if_pos h4]
                    · rw [if_neg h4, if_neg h4]
                      unfold readdirEnd
                      show (do let k ← follow 647 s (some ⟨e'.2, .page s.gen⟩); _) = _
                      rw [follow_page]; rfl
                  · simp [chk, h16']
              · rw [if_neg h3, if_neg h3]
                unfold readdirEnd
                show (do let k ← follow 647 s (some ⟨e.2, .page s.gen⟩); _) = _
                rw [follow_page]; rfl
          · simp [chk, h16]

theorem pathLoop_eq (L : Lib) (s : PS) : ∀ (f : Nat) (i : Ino) (buf : Bytes), pathLoop L s f i buf = Cache.pathLoop s.db f i buf
  | 0, _, _ => rfl
  | f + 1, i, buf => by
    unfold pathLoop Cache.pathLoop
    rw [parent_eq, bind_ok]
    cases Cache.parent s.db i with
    | error e => rfl
    | ok p =>
      simp only
      rw [name2_eq, bind_ok]
      cases Cache.name2 s.db p i with
      | error e => rfl
      | ok n => simp only [pathLoop_eq L s f]; rfl

theorem path_eq (L : Lib) (s : PS) (i : Ino) : path L s i = Cache.path s.db i := by
  unfold path Cache.path; rw [pathLoop_eq]

/-! ### Writing -/

/-- The outcome of a function with pointers is that of a function without. -/
def Same {α : Type} (x : M (PS × α)) (y : M (DB × α)) : Prop := match y with
  | .ok (d, a) => ∃ g, x = .ok (⟨d, g⟩, a)
  | .error e => x = .error e

def SameS (x : M PS) (y : M DB) : Prop := match y with
  | .ok d => ∃ g, x = .ok ⟨d, g⟩
  | .error e => x = .error e

theorem unparent_eq {L : Lib} (hL : L.Suffices) (s : PS) (i : Ino) : ∃ g, unparent L s i = .ok ⟨{ s.db with
    inodes := match s.db.inodes.find (key8 i) with
      | none => s.db.inodes
      | some n => s.db.inodes.put (key8 i) { n with parent := 0 } }, g⟩ := by
  unfold unparent
  cases hf : s.db.inodes.find (key8 i) with
  | none => rw [find_none (f := inodes) hf]; exact ⟨s.gen, rfl⟩
  | some n =>
    refine ⟨s.gen + 1, ?_⟩
    have h1 := putAt_ok hL (line := 884) (f := inodes) (b := false) (w := { n with parent := 0 }) hf
    have h2 : (find L inodes s (key8 i) false).val = some ⟨n, .page s.gen⟩ := by rw [find_some (f := inodes) hf]
    have h3 : (find L inodes s (key8 i) false).rc = true := by rw [find_some (f := inodes) hf]
    simp only [h3, h2, Bool.not_true, Bool.false_eq_true, if_false, follow_page, bind_ok, h1]
    rfl

theorem makeOrphan_eq {L : Lib} (hL : L.Suffices) (s : PS) (i : Ino) :
    ∃ g, makeOrphan L s i = .ok (⟨(Cache.makeOrphan s.db i).1, g⟩, (Cache.makeOrphan s.db i).2) := by
  unfold makeOrphan Cache.makeOrphan
  rw [parent_eq, bind_ok]
  cases Cache.parent s.db i with
  | error e => exact ⟨s.gen, rfl⟩
  | ok p =>
    simp only
    by_cases hp : p = INVALID
    · rw [if_pos hp, if_pos hp]; exact ⟨s.gen, rfl⟩
    · rw [if_neg hp, if_neg hp]
      cases hf : s.db.treei.find (key16 p i) with
      | none => rw [find_none (f := treei) hf]; exact ⟨s.gen, rfl⟩
      | some e =>
        have h1 := delAt_ok (line := 864) (f := treei) (s := s) (o := find L treei s (key16 p i) true) (k := key16 p i) (by rw [find_some (f := treei) hf]) hf
        have h2 : (find L treei s (key16 p i) true).val = some ⟨e, .page s.gen⟩ := by rw [find_some (f := treei) hf]
        have h3 : (find L treei s (key16 p i) true).rc = true := by rw [find_some (f := treei) hf]
        simp only [h3, h2, Bool.not_true, Bool.false_eq_true, if_false, follow_page, bind_ok, h1]
        obtain ⟨g, hg⟩ := unparent_eq hL (put orphans (del treen (del treei s (key16 p i)) (keyN p e.name)) (key8 i) ()) i
        rw [hg]
        exact ⟨g, rfl⟩

theorem keysOK_makeOrphan {d : DB} (h : KeysOK d) (i : Ino) : KeysOK (Cache.makeOrphan d i).1 := by
  unfold Cache.makeOrphan
  cases Cache.parent d i with
  | error e => exact h
  | ok p =>
    simp only
    by_cases hp : p = INVALID
    · rw [if_pos hp]; exact h
    · rw [if_neg hp]
      cases d.treei.find (key16 p i) with
      | none => exact h
      | some e =>
        constructor
        · intro k v hk
          simp only [Tab.find_del] at hk
          split at hk
          · cases hk
          · exact h.treei k v hk
        · intro k v hk
          simp only [Tab.find_put] at hk
          split at hk
          · rename_i hh; rw [← hh]; simp
          · exact h.orphans k v hk

/-- Records of inodes and orphans stay. -/
theorem makeOrphan_keeps (d : DB) (i : Ino) : (∀ k v, d.inodes.find k = some v → ∃ v', (Cache.makeOrphan d i).1.inodes.find k = some v') ∧
    (∀ k v, d.orphans.find k = some v → ∃ v', (Cache.makeOrphan d i).1.orphans.find k = some v') := by
  unfold Cache.makeOrphan
  cases Cache.parent d i with
  | error e => exact ⟨fun k v h => ⟨v, h⟩, fun k v h => ⟨v, h⟩⟩
  | ok p =>
    simp only
    by_cases hp : p = INVALID
    · rw [if_pos hp]; exact ⟨fun k v h => ⟨v, h⟩, fun k v h => ⟨v, h⟩⟩
    · rw [if_neg hp]
      cases d.treei.find (key16 p i) with
      | none => exact ⟨fun k v h => ⟨v, h⟩, fun k v h => ⟨v, h⟩⟩
      | some e =>
        refine ⟨fun k v h => ?_, fun k v h => ?_⟩
        · simp only
          cases d.inodes.find (key8 i) with
          | none => exact ⟨v, h⟩
          | some n =>
            simp only [Tab.find_put]
            split
            · exact ⟨_, rfl⟩
            · exact ⟨v, h⟩
        · simp only [Tab.find_put]
          split
          · exact ⟨_, rfl⟩
          · exact ⟨v, h⟩

theorem orphanKids_eq {L : Lib} (hL : L.Suffices) (i : Ino) : ∀ (f : Nat) (s : PS), KeysOK s.db →
    SameS (orphanKids L f s i) (Cache.orphanKids f s.db i)
  | 0, _, _ => rfl
  | f + 1, s, h => by
    unfold orphanKids Cache.orphanKids
    rw [lower_eq]
    show SameS (if (!(foundIn s (s.db.treei.lower (key8 i)).head?).rc) = true then _ else _) _
    have hm : ∀ e ∈ s.db.treei.lower (key8 i), e.1.length = 16 := by
      intro e he
      exact h.treei e.1 e.2 ((Tab.mem_iff _ _ _).mp ((Tab.mem_lower_iff _ _ _).mp he).1)
    revert hm
    show (∀ e ∈ s.db.treei.lower (key8 i), e.1.length = 16) → SameS (if (!(foundIn s (s.db.treei.lower (key8 i)).head?).rc) = true then _ else
      (do let k ← follow 1066 s (foundIn s (s.db.treei.lower (key8 i)).head?).key; _)) _
    cases hl : s.db.treei.lower (key8 i) with
    | nil => exact fun _ => ⟨s.gen, rfl⟩
    | cons e t =>
      intro hm
      have h16 := hm e (List.mem_cons_self ..)
      rw [if_neg (by simp [foundIn, foundAt])]
      show SameS (do let k ← follow 1066 s (some ⟨e.1, .page s.gen⟩); _) _
      rw [follow_page]
      simp only [bind_ok]
      unfold readIno
      rw [if_pos (by omega), bind_ok]
      by_cases hi : leDec (e.1.take 8) ≠ i
      · rw [if_pos hi, if_pos hi]; exact ⟨s.gen, rfl⟩
      · rw [if_neg hi, if_neg hi]
        have hv : (lower treei s (key8 i)).val = some ⟨e.2, .page s.gen⟩ := by
          rw [lower_eq]; show (foundIn s (s.db.treei.lower (key8 i)).head?).val = _; rw [hl]; rfl
        rw [lower_eq] at hv
        rw [hv, follow_page]
        simp only [bind_ok]
        obtain ⟨g, hg⟩ := makeOrphan_eq hL s e.2.ino
        rw [hg]
        exact orphanKids_eq hL i f _ (keysOK_makeOrphan h _)

theorem orphanKids_keeps (i : Ino) : ∀ (f : Nat) (d d' : DB), Cache.orphanKids f d i = .ok d' → KeysOK d →
    KeysOK d' ∧ (∀ k v, d.inodes.find k = some v → ∃ v', d'.inodes.find k = some v') ∧
    (∀ k v, d.orphans.find k = some v → ∃ v', d'.orphans.find k = some v')
  | 0, _, _, h, _ => by cases h
  | f + 1, d, d', h, hk => by
    unfold Cache.orphanKids at h
    cases hl : d.treei.lower (key8 i) with
    | nil => rw [hl] at h; cases h; exact ⟨hk, fun k v h => ⟨v, h⟩, fun k v h => ⟨v, h⟩⟩
    | cons e t =>
      rw [hl] at h
      simp only at h
      by_cases hi : leDec (e.1.take 8) ≠ i
      · rw [if_pos hi] at h; cases h; exact ⟨hk, fun k v h => ⟨v, h⟩, fun k v h => ⟨v, h⟩⟩
      · rw [if_neg hi] at h
        obtain ⟨a1, a2, a3⟩ := orphanKids_keeps i f _ _ h (keysOK_makeOrphan hk _)
        obtain ⟨b2, b3⟩ := makeOrphan_keeps d e.2.ino
        refine ⟨a1, fun k v hv => ?_, fun k v hv => ?_⟩
        · obtain ⟨v', hv'⟩ := b2 k v hv; exact a2 k v' hv'
        · obtain ⟨v', hv'⟩ := b3 k v hv; exact a3 k v' hv'

theorem removeData_keeps {d d' : DB} {i : Ino} {n : Inode} (h : Cache.removeData d i n = .ok d') (hk : KeysOK d) :
    KeysOK d' ∧ (∀ k v, d.inodes.find k = some v → ∃ v', d'.inodes.find k = some v') ∧
    (∀ k v, d.orphans.find k = some v → ∃ v', d'.orphans.find k = some v') := by
  unfold Cache.removeData at h
  by_cases h1 : fmt n.attr.mode = S_IFLNK
  · rw [if_pos h1] at h; cases h; exact ⟨⟨hk.treei, hk.orphans⟩, fun k v h => ⟨v, h⟩, fun k v h => ⟨v, h⟩⟩
  · rw [if_neg h1] at h
    by_cases h2 : fmt n.attr.mode = S_IFDIR
    · rw [if_pos h2] at h; exact orphanKids_keeps i _ _ _ h hk
    · rw [if_neg h2] at h; cases h; exact ⟨hk, fun k v h => ⟨v, h⟩, fun k v h => ⟨v, h⟩⟩

theorem removeData_eq {L : Lib} (hL : L.Suffices) {s : PS} (h : KeysOK s.db) (i : Ino) (n : Inode) :
    SameS (removeData L s i n) (Cache.removeData s.db i n) := by
  unfold removeData Cache.removeData
  by_cases h1 : fmt n.attr.mode = S_IFLNK
  · rw [if_pos h1, if_pos h1]; exact ⟨_, rfl⟩
  · rw [if_neg h1, if_neg h1]
    by_cases h2 : fmt n.attr.mode = S_IFDIR
    · rw [if_pos h2, if_pos h2]; exact orphanKids_eq hL i _ s h
    · rw [if_neg h2, if_neg h2]; exact ⟨s.gen, rfl⟩

/-- One doomed inode: the cursor on the orphans is still at its entry when this is deleted. -/
theorem removeOne_eq {L : Lib} (hL : L.Suffices) {s : PS} (h : KeysOK s.db) (i : Ino) {o : Found Unit} {k : Bytes} (ho : o.pos = some k)
    (hk : k = key8 i) (hf : s.db.orphans.find k = some ()) :
    SameS (do let s ← removeInode L s i; delAt 1084 orphans s o) (Cache.removeOne s.db i) := by
  subst hk
  unfold removeInode Cache.removeOne
  cases hi : s.db.inodes.find (key8 i) with
  | none =>
    rw [find_none (f := inodes) hi]
    show SameS (delAt 1084 orphans s o) _
    rw [delAt_ok (f := orphans) ho hf]
    exact ⟨_, rfl⟩
  | some n =>
    have h2 : (find L inodes s (key8 i) false).val = some ⟨n, .page s.gen⟩ := by rw [find_some (f := inodes) hi]
    have h3 : (find L inodes s (key8 i) false).rc = true := by rw [find_some (f := inodes) hi]
    have h4 : (find L inodes s (key8 i) false).pos = some (key8 i) := by rw [find_some (f := inodes) hi]
    simp only [h3, h2, Bool.not_true, Bool.false_eq_true, if_false, follow_page, bind_ok]
    have hd := removeData_eq hL h i n
    cases hr : Cache.removeData s.db i n with
    | error e =>
      rw [hr] at hd
      rw [show removeData L s i n = .error e from hd]
      rfl
    | ok d' =>
      rw [hr] at hd
      obtain ⟨g, hg⟩ := hd
      rw [hg]
      obtain ⟨-, k2, k3⟩ := removeData_keeps hr h
      obtain ⟨v2, hv2⟩ := k2 _ _ hi
      obtain ⟨v3, hv3⟩ := k3 _ _ hf
      simp only [bind_ok]
      rw [delAt_ok (f := inodes) (s := ⟨d', g⟩) h4 hv2]
      simp only [bind_ok]
      rw [delAt_ok (f := orphans) (s := del inodes ⟨d', g⟩ (key8 i)) (v := v3) ho hv3]
      exact ⟨_, rfl⟩

theorem removeOne_keys {d d' : DB} {i : Ino} (h : Cache.removeOne d i = .ok d') (hk : KeysOK d) : KeysOK d' := by
  have hdel : ∀ (x : DB) (k : Bytes), KeysOK x → ∀ k' v, (x.orphans.del k).find k' = some v → k'.length = 8 := by
    intro x k hx k' v hv
    rw [Tab.find_del] at hv
    split at hv
    · cases hv
    · exact hx.orphans k' v hv
  unfold Cache.removeOne at h
  cases hi : d.inodes.find (key8 i) with
  | none => rw [hi] at h; cases h; exact ⟨hk.treei, hdel d _ hk⟩
  | some n =>
    rw [hi] at h
    simp only at h
    cases hr : Cache.removeData d i n with
    | error e => rw [hr] at h; cases h
    | ok x =>
      rw [hr] at h
      cases h
      obtain ⟨k1, -, -⟩ := removeData_keeps hr hk
      exact ⟨k1.treei, hdel x _ k1⟩

/-- The result of the walk over the orphans. -/
theorem skip_eq (s : PS) (h : KeysOK s.db) (r : Refs) : ∀ (l pre : List (Bytes × Unit)) (f : Nat), s.db.orphans.entries = pre ++ l → l.length < f →
    match firstFree l r with
    | none => skip s f (foundIn s l.head?) r = .ok none
    | some (i, r') => ∃ e ∈ l, leDec e.1 = i ∧ skip s f (foundIn s l.head?) r = .ok (some (i, foundAt s e, r'))
  | _, _, 0, _, h => absurd h (Nat.not_lt_zero _)
  | [], _, f + 1, _, _ => rfl
  | e :: t, pre, f + 1, he, hf => by
    have hn : next orphans s (foundAt s e) = foundIn s t.head? := next_eq orphans s he
    have ih := skip_eq s h r t (pre ++ [e]) f (by rw [he]; simp) (by simp at hf; omega)
    have h8 : e.1.length = 8 := h.orphans e.1 e.2 ((Tab.mem_iff _ _ _).mp (by rw [he]; simp))
    have hs : skip s (f + 1) (foundIn s (e :: t).head?) r = (match r.doom (leDec e.1) with
        | (r', .ok ()) => .ok (some (leDec e.1, foundAt s e, r'))
        | (_, .error _) => skip s f (foundIn s t.head?) r) := by
      show (if (!true) = true then _ else _) = _
      rw [if_neg (by simp)]
      show (do let k ← follow 1033 s (some ⟨e.1, .page s.gen⟩); _) = _
      rw [follow_page]
      simp only [bind_ok]
      unfold getIno
      rw [if_pos h8, bind_ok, ← hn]
      rfl
    rw [hs]
    unfold firstFree
    cases hd : r.doom (leDec e.1) with
    | mk r' res =>
      cases res with
      | ok u => exact ⟨e, List.mem_cons_self .., rfl, rfl⟩
      | error x =>
        simp only
        revert ih
        cases firstFree t r with
        | none => exact fun ih => ih
        | some y =>
          obtain ⟨i, r''⟩ := y
          rintro ⟨e', he', h1, h2⟩
          exact ⟨e', List.mem_cons_of_mem _ he', h1, h2⟩

theorem cleanLoop_eq {L : Lib} (hL : L.Suffices) : ∀ (f : Nat) (s : PS) (r : Refs), KeysOK s.db →
    Same (cleanLoop L f s r) (Cache.cleanLoop f s.db r)
  | 0, _, _, _ => rfl
  | f + 1, s, r, h => by
    unfold cleanLoop Cache.cleanLoop
    have hsk := skip_eq s h r s.db.orphans.entries [] (s.db.orphans.size + 1) rfl (Nat.lt_succ_self _)
    revert hsk
    show _ → Same (do let x ← skip s (s.db.orphans.size + 1) (foundIn s s.db.orphans.entries.head?) r; _) _
    cases firstFree s.db.orphans.entries r with
    | none =>
      intro hsk
      simp only at hsk
      rw [hsk]
      exact ⟨s.gen, rfl⟩
    | some y =>
      obtain ⟨i, r'⟩ := y
      rintro ⟨e, he, h1, h2⟩
      rw [h2]
      simp only [bind_ok]
      have hf : s.db.orphans.find e.1 = some () := (Tab.mem_iff _ _ _).mp he
      have h8 := h.orphans _ _ hf
      have hk : e.1 = key8 i := by
        rw [← h1]; unfold key8
        have := leEnc_leDec e.1
        rw [h8] at this
        exact this.symm
      have hr := removeOne_eq hL h i (o := foundAt s e) rfl hk hf
      cases hx : Cache.removeOne s.db i with
      | error x =>
        rw [hx] at hr
        have hr' : (do let s1 ← removeInode L s i; delAt 1084 orphans s1 (foundAt s e)) = .error x := hr
        revert hr'
        cases removeInode L s i with
        | error y => intro hr'; cases hr'; rfl
        | ok s' => 
          simp only [bind_ok]
          intro hr'
          rw [hr']; rfl
      | ok d' =>
        rw [hx] at hr
        obtain ⟨g, hg⟩ := hr
        revert hg
        cases removeInode L s i with
        | error y => intro hg; cases hg
        | ok s' =>
          simp only [bind_ok]
          intro hg
          rw [hg]
          exact cleanLoop_eq hL f ⟨d', g⟩ r' (removeOne_keys hx h)

theorem cleanOrphans_eq {L : Lib} (hL : L.Suffices) (s : PS) (r : Refs) (h : KeysOK s.db) :
    Same (cleanOrphans L s r) (Cache.cleanOrphans s.db r) := cleanLoop_eq hL _ s r h

theorem cleanLoop_keys : ∀ (f : Nat) (d d' : DB) (r r' : Refs), Cache.cleanLoop f d r = .ok (d', r') → KeysOK d → KeysOK d'
  | 0, _, _, _, _, h, _ => by cases h
  | f + 1, d, d', r, r', h, hk => by
    unfold Cache.cleanLoop at h
    cases hff : firstFree d.orphans.entries r with
    | none => rw [hff] at h; cases h; exact hk
    | some y =>
      obtain ⟨i, r1⟩ := y
      rw [hff] at h
      simp only at h
      cases hx : Cache.removeOne d i with
      | error e => rw [hx] at h; cases h
      | ok d1 => rw [hx] at h; exact cleanLoop_keys f d1 d' r1 r' h (removeOne_keys hx hk)

end Dragonstash.Cache.Ptrs
