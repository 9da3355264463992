/-
  Directory iteration (`readdir`), collection of the children of a directory, and `path`, under the
  representation relation.
-/
import Verif.Cache.Ops2
namespace Dragonstash.Cache
open Codec
variable {s : Tree} {d : DB}

theorem blt_zeros (k : Nat) (b : Bytes) (h : b.length = k) : blt b (leEnc k 0) = false := by
  induction k generalizing b with
  | zero => cases b with
    | nil => rfl
    | cons x xs => simp at h
  | succ k ih =>
    cases b with
    | nil => simp at h
    | cons x xs =>
      have h2 := ih xs (by simpa using h)
      show blt (x :: xs) (UInt8.ofNat (0 % 256) :: leEnc k (0 / 256)) = false
      rw [Nat.zero_div]
      unfold blt
      have hx : ¬ x < UInt8.ofNat (0 % 256) := by
        simp [UInt8.lt_iff_toNat_lt]
      simp [hx, h2]

theorem key16_ge_zero (p j : Ino) : blt (key16 p j) (key16 p 0) = false := by
  unfold key16
  rw [blt_append_left]
  exact blt_zeros 8 _ (by simp)

/-- The key belongs to an entry of directory `dir`. -/
def isIn (dir : Ino) (e : Bytes × DirEnt) : Bool := decide (leDec (e.1.take 8) = dir)

/-- Inode number in the key and name in the record. -/
def entOf (e : Bytes × DirEnt) : Ino × Bytes := (leDec (e.1.drop 8), e.2.name)

/-- The entries of `dir` at the beginning of a cursor position. -/
def kidsOf (dir : Ino) (l : List (Bytes × DirEnt)) : List (Ino × Bytes) := (l.takeWhile (isIn dir)).map entOf

theorem readdirAt_eq {dir prev : Ino} {l : List (Bytes × DirEnt)} (hlen : ∀ x ∈ l, x.1.length = 16) :
    readdirAt dir prev l = .ok (match kidsOf dir l with
      | [] => .error EOF_
      | x :: r => if prev ≠ 0 ∧ x.1 = prev then (match r with | [] => .error EOF_ | y :: _ => .ok y) else .ok x) := by
  cases l with
  | nil => rfl
  | cons e t =>
    have he := hlen e (List.mem_cons_self ..)
    unfold readdirAt
    simp only
    rw [chk_of (decide_eq_true he)]
    simp only [bind_ok]
    by_cases h1 : leDec (e.1.take 8) = dir
    · rw [if_neg (by simpa using h1)]
      have hk : kidsOf dir (e :: t) = entOf e :: kidsOf dir t := by
        unfold kidsOf; rw [List.takeWhile_cons_of_pos (by simp [isIn, h1])]; rfl
      rw [hk]
      simp only
      by_cases h2 : prev ≠ 0 ∧ leDec (e.1.drop 8) = prev
      · rw [if_pos h2, if_pos (show prev ≠ 0 ∧ (entOf e).1 = prev from h2)]
        cases t with
        | nil => rfl
        | cons e' t' =>
          have he' := hlen e' (by simp)
          simp only
          rw [chk_of (decide_eq_true he')]
          simp only [bind_ok]
          by_cases h3 : leDec (e'.1.take 8) = dir
          · rw [if_neg (by simpa using h3)]
            have hk : kidsOf dir (e' :: t') = entOf e' :: kidsOf dir t' := by
              unfold kidsOf; rw [List.takeWhile_cons_of_pos (by simp [isIn, h3])]; rfl
            rw [hk]; rfl
          · rw [if_pos h3]
            have hk : kidsOf dir (e' :: t') = [] := by
              unfold kidsOf; rw [List.takeWhile_cons_of_neg (by simp [isIn, h3])]; rfl
            rw [hk]; rfl
      · rw [if_neg h2, if_neg (show ¬ (prev ≠ 0 ∧ (entOf e).1 = prev) from h2)]
        rfl
    · rw [if_pos h1]
      have hk : kidsOf dir (e :: t) = [] := by
        unfold kidsOf; rw [List.takeWhile_cons_of_neg (by simp [isIn, h1])]; rfl
      rw [hk]; rfl

/-- All children of `dir`, in key order. -/
def kids (d : DB) (dir : Ino) : List (Ino × Bytes) := kidsOf dir (d.treei.lower (key16 dir 0))

theorem Rep.treei_key (h : Rep s d) (ok : s.OK) {x} (hx : x ∈ d.treei.entries) :
    ∃ i nd p n, x = (key16 p i, mkEnt i n) ∧ s.nodes i = some nd ∧ nd.loc = some (p, n) ∧ p < W64 ∧ i < W64 := by
  obtain ⟨i, nd, p, n, h1, h2, h3, h4⟩ := (h.treei _ _).mp ((Tab.mem_iff _ _ _).mp hx)
  exact ⟨i, nd, p, n, by rw [← h1, ← h4], h2, h3, (ok.loc i nd p n h2 h3).2.1, OK.lt ok h2⟩

theorem takeWhile_imp {α : Type} {p : α → Bool} {l : List α} {x : α} (h : x ∈ l.takeWhile p) : p x = true := by
  induction l with
  | nil => cases h
  | cons y ys ih =>
    by_cases hy : p y = true
    · rw [List.takeWhile_cons_of_pos hy] at h
      rcases List.mem_cons.mp h with rfl | h
      · exact hy
      · exact ih h
    · rw [List.takeWhile_cons_of_neg hy] at h; cases h

theorem dropWhile_dropWhile {α : Type} {p q : α → Bool} (h : ∀ x, p x = true → q x = true) (l : List α) :
    (l.dropWhile p).dropWhile q = l.dropWhile q := by
  induction l with
  | nil => rfl
  | cons x xs ih =>
    by_cases hp : p x = true
    · rw [List.dropWhile_cons_of_pos hp, List.dropWhile_cons_of_pos (h x hp), ih]
    · rw [List.dropWhile_cons_of_neg hp]

theorem dropWhile_append_of {α : Type} {q : α → Bool} {a b : List α} (ha : ∀ x ∈ a, q x = true)
    (hb : ∀ x r, b = x :: r → q x = false) : (a ++ b).dropWhile q = b := by
  induction a with
  | nil =>
    cases b with
    | nil => rfl
    | cons x r => rw [List.nil_append, List.dropWhile_cons_of_neg (by rw [hb x r rfl]; simp)]
  | cons x xs ih =>
    rw [List.cons_append, List.dropWhile_cons_of_pos (ha x (by simp)), ih (fun y hy => ha y (by simp [hy]))]

/-- Continuing behind a child gives the children behind it. -/
theorem Rep.kids_from (h : Rep s d) (ok : s.OK) {dir : Ino} (hd : dir < W64) {A B : List (Ino × Bytes)} {c : Ino} {n : Bytes}
    (hk : kids d dir = A ++ (c, n) :: B) : kidsOf dir (d.treei.lower (key16 dir c)) = (c, n) :: B := by
  unfold kids kidsOf at hk
  obtain ⟨A', R', h1, h2, h3⟩ := List.map_eq_append_iff.mp hk
  obtain ⟨e, B', h4, h5, h6⟩ := List.map_eq_cons_iff.mp h3
  subst h4
  have hl : d.treei.lower (key16 dir 0) = A' ++ e :: B' ++ (d.treei.lower (key16 dir 0)).dropWhile (isIn dir) := by
    rw [← h1, List.takeWhile_append_dropWhile]
  generalize (d.treei.lower (key16 dir 0)).dropWhile (isIn dir) = R at hl
  have hall : ∀ x ∈ A' ++ e :: B', isIn dir x = true := by
    intro x hx; rw [← h1] at hx; exact takeWhile_imp hx
  have heIn : isIn dir e = true := hall e (by simp)
  have heM : e ∈ d.treei.entries := ((Tab.mem_lower_iff _ _ _).mp (by rw [hl]; simp : e ∈ d.treei.lower (key16 dir 0))).1
  obtain ⟨i, nd, p, m, hx, hi, hloc, hp, hb⟩ := h.treei_key ok heM
  have hpd : p = dir := by
    unfold isIn at heIn; rw [hx] at heIn
    simp only [key16_take, leDec_key8 hp, decide_eq_true_eq] at heIn; exact heIn
  have hic : i = c := by
    unfold entOf at h5; rw [hx] at h5
    simp only [key16_drop, leDec_key8 hb, Prod.mk.injEq] at h5; exact h5.1
  subst hpd hic
  have hs := Tab.lower_sorted d.treei (key16 p 0)
  rw [hl] at hs
  have hlow : d.treei.lower (key16 p i) = e :: (B' ++ R) := by
    have : d.treei.lower (key16 p i) = (d.treei.lower (key16 p 0)).dropWhile (fun x => blt x.1 (key16 p i)) := by
      unfold Tab.lower
      rw [dropWhile_dropWhile]
      intro x hx
      have hge := key16_ge_zero p i
      rcases blt_total (key16 p 0) (key16 p i) with h | h | h
      · exact blt_trans hx h
      · rw [← h]; exact hx
      · rw [hge] at h; cases h
    rw [this, hl, List.append_assoc, List.cons_append]
    apply dropWhile_append_of
    · intro x hxA
      rw [List.append_assoc, List.pairwise_append] at hs
      have := hs.2.2 x hxA e (by simp)
      rw [hx] at this; exact this
    · intro x r hh
      rw [List.cons.injEq] at hh
      rw [← hh.1, hx]; exact blt_irrefl _
  rw [hlow]
  unfold kidsOf
  rw [List.takeWhile_cons_of_pos heIn, List.map_cons, h5]
  congr 1
  rw [← h6]
  congr 1
  -- takeWhile of the whole position
  have hfull : (d.treei.lower (key16 p 0)).takeWhile (isIn p) = A' ++ e :: (B' ++ R).takeWhile (isIn p) := by
    rw [hl, List.append_assoc, List.takeWhile_append_of_pos (fun x hx => hall x (by simp [hx])), List.cons_append,
      List.takeWhile_cons_of_pos heIn]
  rw [h1] at hfull
  have := List.append_cancel_left hfull
  rw [List.cons.injEq] at this
  exact this.2.symm

/-- Entries of a directory form a contiguous range. -/
theorem mem_takeWhile_in {p : Ino} {q : Bytes} (hq : blt (key8 p) q = true ∨ q = key8 p)
    {l : List (Bytes × DirEnt)} (hlen : ∀ x ∈ l, x.1.length = 16) (hge : ∀ x ∈ l, blt x.1 q = false)
    (hs : l.Pairwise (fun a b => blt a.1 b.1 = true)) (hp : p < W64) {x} (hx : x ∈ l) (hin : isIn p x = true) :
    x ∈ l.takeWhile (isIn p) := by
  induction l with
  | nil => cases hx
  | cons e t ih =>
    have hsc := List.pairwise_cons.mp hs
    have take8 : ∀ y, y.1.length = 16 → isIn p y = true → y.1.take 8 = key8 p := by
      intro y hy hi
      unfold isIn at hi
      simp only [decide_eq_true_eq] at hi
      have h8 : (y.1.take 8).length = 8 := by simp; omega
      have := leEnc_leDec (y.1.take 8)
      rw [h8, hi] at this; exact this.symm
    by_cases he : isIn p e = true
    · rw [List.takeWhile_cons_of_pos he]
      rcases List.mem_cons.mp hx with rfl | hx
      · exact List.mem_cons_self ..
      · exact List.mem_cons_of_mem _ (ih (fun y hy => hlen y (by simp [hy])) (fun y hy => hge y (by simp [hy])) hsc.2 hx)
    · exfalso
      rcases List.mem_cons.mp hx with rfl | hx
      · exact he hin
      · have hlt := hsc.1 x hx
        have hne : e.1.take (key8 p).length ≠ key8 p := by
          rw [key8_length]
          intro h; apply he
          unfold isIn; rw [h, leDec_key8 hp]; simp
        have hge8 : blt e.1 (key8 p) = false := by
          cases hb : blt e.1 (key8 p) with
          | false => rfl
          | true =>
            have hq' := hge e (List.mem_cons_self ..)
            rcases hq with h | h
            · rw [blt_trans hb h] at hq'; cases hq'
            · rw [h, hb] at hq'; cases hq'
        have := blt_prefix_gap (s := x.1.drop 8) hge8 (by rw [key8_length, hlen e (by simp)]; omega) hne
        rw [← take8 x (hlen x (by simp [hx])) hin, List.take_append_drop] at this
        rw [blt_asymm hlt] at this; cases this

/-- The children listed are exactly the entries of the directory. -/
theorem Rep.mem_kids (h : Rep s d) (ok : s.OK) {dir : Ino} (hd : dir < W64) {c : Ino} {n : Bytes} :
    (c, n) ∈ kids d dir ↔ s.At dir n c := by
  unfold kids kidsOf
  constructor
  · intro hm
    obtain ⟨e, he, hce⟩ := List.mem_map.mp hm
    have hin := takeWhile_imp he
    have hmem := ((Tab.mem_lower_iff _ _ _).mp ((List.takeWhile_sublist _).subset he)).1
    obtain ⟨i, nd, p, m, hx, hi, hloc, hp, hb⟩ := h.treei_key ok hmem
    unfold isIn at hin; rw [hx] at hin
    simp only [key16_take, leDec_key8 hp, decide_eq_true_eq] at hin
    unfold entOf at hce; rw [hx] at hce
    simp only [key16_drop, leDec_key8 hb, Prod.mk.injEq, mkEnt] at hce
    obtain ⟨rfl, rfl⟩ := hce
    exact ⟨nd, hi, by rw [hloc, hin]⟩
  · rintro ⟨nd, hi, hl⟩
    have hb := OK.lt ok hi
    refine List.mem_map.mpr ⟨(key16 dir c, mkEnt c n), ?_, by unfold entOf; simp [key16_drop, leDec_key8 hb, mkEnt]⟩
    refine mem_takeWhile_in (q := key16 dir 0) ?_ ?_ ?_ (Tab.lower_sorted _ _) hd ?_ ?_
    · left
      unfold key16 key8
      have : blt (leEnc 8 dir ++ leEnc 8 0) (leEnc 8 dir) = false := blt_prefix_self _ _
      rcases blt_total (leEnc 8 dir) (leEnc 8 dir ++ leEnc 8 0) with h | h | h
      · exact h
      · have := congrArg List.length h; simp at this
      · rw [this] at h; cases h
    · intro x hx
      obtain ⟨i, nd, p, m, hx, -⟩ := h.treei_key ok ((Tab.mem_lower_iff _ _ _).mp hx).1
      rw [hx]; simp
    · intro x hx; exact ((Tab.mem_lower_iff _ _ _).mp hx).2
    · exact (Tab.mem_lower_iff _ _ _).mpr ⟨(Tab.mem_iff _ _ _).mpr (h.ti_some hi hl), key16_ge_zero _ _⟩
    · unfold isIn; simp [key16_take, leDec_key8 hd]

theorem Rep.kids_nodup (h : Rep s d) (ok : s.OK) {dir : Ino} : (kids d dir).Nodup := by
  have hs : ((d.treei.lower (key16 dir 0)).takeWhile (isIn dir)).Pairwise (fun a b => blt a.1 b.1 = true) :=
    (Tab.lower_sorted _ _).sublist (List.takeWhile_sublist _)
  unfold kids kidsOf List.Nodup
  rw [List.pairwise_map]
  apply List.Pairwise.imp_of_mem _ hs
  intro a b ha hb hlt heq
  have ha1 := ((Tab.mem_lower_iff _ _ _).mp ((List.takeWhile_sublist _).subset ha)).1
  have hb1 := ((Tab.mem_lower_iff _ _ _).mp ((List.takeWhile_sublist _).subset hb)).1
  have ha2 := takeWhile_imp ha
  have hb2 := takeWhile_imp hb
  obtain ⟨i, nd, p, m, hx, -, -, hp, hi⟩ := h.treei_key ok ha1
  obtain ⟨j, nd', q, m', hy, -, -, hq, hj⟩ := h.treei_key ok hb1
  rw [hx, hy] at heq hlt
  rw [hx] at ha2; rw [hy] at hb2
  simp only [isIn, key16_take, leDec_key8 hp, leDec_key8 hq, decide_eq_true_eq] at ha2 hb2
  simp only [entOf, key16_drop, leDec_key8 hi, leDec_key8 hj, Prod.mk.injEq] at heq
  rw [heq.1, ha2, hb2, blt_irrefl] at hlt
  cases hlt

/-! ### start_dir_rewrite -/

theorem mem_setInsert {i j : Ino} {l : List Ino} : j ∈ setInsert i l ↔ j = i ∨ j ∈ l := by
  induction l with
  | nil => simp [setInsert]
  | cons x xs ih =>
    unfold setInsert
    split
    · simp
    · split
      · rename_i h; subst h; simp
      · simp only [List.mem_cons, ih]
        constructor
        · rintro (h | h | h) <;> simp [h]
        · rintro (h | h | h) <;> simp [h]

theorem collectKids_eq {dir : Ino} {l : List (Bytes × DirEnt)} (hlen : ∀ x ∈ l, x.1.length = 16) (acc : List Ino) :
    ∃ r, collectKids dir l acc = .ok r ∧ ∀ j, j ∈ r ↔ j ∈ acc ∨ ∃ n, (j, n) ∈ kidsOf dir l := by
  induction l generalizing acc with
  | nil => exact ⟨acc, rfl, by simp [kidsOf]⟩
  | cons e t ih =>
    unfold collectKids
    rw [chk_of (decide_eq_true (hlen e (by simp)))]
    simp only [bind_ok]
    by_cases h1 : leDec (e.1.take 8) = dir
    · rw [if_pos h1]
      obtain ⟨r, hr, hm⟩ := ih (fun x hx => hlen x (by simp [hx])) (setInsert (leDec (e.1.drop 8)) acc)
      have hk : kidsOf dir (e :: t) = entOf e :: kidsOf dir t := by
        unfold kidsOf; rw [List.takeWhile_cons_of_pos (by simp [isIn, h1])]; rfl
      refine ⟨r, hr, ?_⟩
      intro j
      rw [hm, mem_setInsert, hk]
      constructor
      · rintro ((h | h) | ⟨n, h⟩)
        · right; exact ⟨e.2.name, by rw [h]; exact List.mem_cons_self ..⟩
        · left; exact h
        · right; exact ⟨n, List.mem_cons_of_mem _ h⟩
      · rintro (h | ⟨n, h⟩)
        · exact .inl (.inr h)
        · rcases List.mem_cons.mp h with h | h
          · left; left; exact congrArg Prod.fst h
          · right; exact ⟨n, h⟩
    · rw [if_neg h1]
      have hk : kidsOf dir (e :: t) = [] := by
        unfold kidsOf; rw [List.takeWhile_cons_of_neg (by simp [isIn, h1])]; rfl
      exact ⟨acc, rfl, by simp [hk]⟩

/-- `start_dir_rewrite` marks exactly the entries of the directory; nothing is marked only if there is
nothing to mark. -/
theorem startRewrite_spec {t : Txn} (h : TRep s t) {dir} (hd : dir < W64) (hn : t.rewrite = none) :
    ∃ t', startRewrite t dir = .ok (t', .ok ()) ∧ t'.db = t.db ∧ t'.refs = t.refs ∧ t'.hooks = t.hooks ∧
      ∀ j, (∃ l, t'.rewrite = some l ∧ j ∈ l) ↔ ∃ n, s.At dir n j := by
  have hat : ∀ e, e ∈ t.db.treei.lower (key8 dir) → isIn dir e = true → e ∈ (t.db.treei.lower (key8 dir)).takeWhile (isIn dir) := by
    intro e he hi
    refine mem_takeWhile_in (q := key8 dir) (.inr rfl) ?_ ?_
      (Tab.lower_sorted _ _) hd he hi
    · intro x hx
      obtain ⟨i, nd, p, m, hx, -⟩ := h.1.treei_key h.2 ((Tab.mem_lower_iff _ _ _).mp hx).1
      rw [hx]; simp
    · intro x hx; exact ((Tab.mem_lower_iff _ _ _).mp hx).2
  have hkids : ∀ j, (∃ n, (j, n) ∈ kidsOf dir (t.db.treei.lower (key8 dir))) ↔ ∃ n, s.At dir n j := by
    intro j
    constructor
    · rintro ⟨n, hm⟩
      obtain ⟨e, he, hce⟩ := List.mem_map.mp hm
      have hin := takeWhile_imp he
      have hmem := ((Tab.mem_lower_iff _ _ _).mp ((List.takeWhile_sublist _).subset he)).1
      obtain ⟨i, nd, p, m, hx, hi, hloc, hp, hb⟩ := h.1.treei_key h.2 hmem
      unfold isIn at hin; rw [hx] at hin
      simp only [key16_take, leDec_key8 hp, decide_eq_true_eq] at hin
      unfold entOf at hce; rw [hx] at hce
      simp only [key16_drop, leDec_key8 hb, Prod.mk.injEq, mkEnt] at hce
      obtain ⟨rfl, rfl⟩ := hce
      exact ⟨m, nd, hi, by rw [hloc, hin]⟩
    · rintro ⟨n, nd, hi, hl⟩
      refine ⟨n, List.mem_map.mpr ⟨(key16 dir j, mkEnt j n), ?_, by unfold entOf; simp [key16_drop, leDec_key8 (OK.lt h.2 hi), mkEnt]⟩⟩
      apply hat
      · exact (Tab.mem_lower_iff _ _ _).mpr ⟨(Tab.mem_iff _ _ _).mpr (h.1.ti_some hi hl), by unfold key16 key8; exact blt_prefix_self _ _⟩
      · unfold isIn; simp [key16_take, leDec_key8 hd]
  unfold startRewrite
  rw [hn]
  simp only
  cases hlow : t.db.treei.lower (key8 dir) with
  | nil =>
    refine ⟨t, rfl, rfl, rfl, rfl, ?_⟩
    intro j
    rw [← hkids, hlow]
    simp [hn, kidsOf]
  | cons e l =>
    simp only
    obtain ⟨r, hr, hm⟩ := collectKids_eq (dir := dir) (l := e :: l) (by
      intro x hx
      rw [← hlow] at hx
      obtain ⟨i, nd, p, m, hx, -⟩ := h.1.treei_key h.2 ((Tab.mem_lower_iff _ _ _).mp hx).1
      rw [hx]; simp) []
    rw [hr]
    refine ⟨{ t with rewrite := some r }, rfl, rfl, rfl, rfl, ?_⟩
    intro j
    rw [← hkids, hlow]
    constructor
    · rintro ⟨l', h1, h2⟩
      cases h1
      simpa using (hm j).mp h2
    · intro h'
      exact ⟨r, rfl, (hm j).mpr (.inr h')⟩

/-! ### readdir -/

theorem Rep.len16 (h : Rep s d) (ok : s.OK) (k : Bytes) : ∀ x ∈ d.treei.lower k, x.1.length = 16 := by
  intro x hx
  obtain ⟨i, nd, p, m, hx, -⟩ := h.treei_key ok ((Tab.mem_lower_iff _ _ _).mp hx).1
  rw [hx]; simp

theorem readdir_dot {dir} : readdir d dir 0 = .ok (.ok (dir, [0x2e])) := by simp [readdir]

/-- `..` -/
theorem readdir_dotdot {dir p} (h : Cache.parent d dir = .ok p) (hd0 : dir ≠ 0) (hdp : dir ≠ p) :
    readdir d dir dir = .ok (.ok (p, [0x2e, 0x2e])) := by
  unfold readdir
  rw [if_neg hd0, h]
  simp [hdp]

/-- First entry of a list, or end of file. -/
def nextOf : List (Ino × Bytes) → Res (Ino × Bytes)
  | [] => .error EOF_
  | x :: _ => .ok x

/-- The first proper entry, asked for behind `..` (or behind `.` in the root). -/
theorem Rep.readdir_first (h : Rep s d) (ok : s.OK) {dir p} (hp : Cache.parent d dir = .ok p) (hp0 : p ≠ 0) 
    (hnk : ∀ n, (p, n) ∉ kids d dir) :
    readdir d dir p = .ok (nextOf (kids d dir)) := by
  unfold readdir
  rw [if_neg hp0, hp]
  simp only [ne_eq, not_true, false_and, if_false, if_true]
  rw [readdirAt_eq (h.len16 ok _)]
  unfold kids
  cases hk : kidsOf dir (d.treei.lower (key16 dir 0)) with
  | nil => rfl
  | cons x r =>
    simp only
    rw [if_neg]
    · rfl
    rintro ⟨-, hx⟩
    apply hnk x.2
    rw [← hx]; unfold kids; rw [hk]; exact List.mem_cons_self ..

/-- The entry behind a proper entry. -/
theorem Rep.readdir_next (h : Rep s d) (ok : s.OK) {dir p c n} {A B : List (Ino × Bytes)} (hd : dir < W64)
    (hp : Cache.parent d dir = .ok p) (hc0 : c ≠ 0) (hcd : c ≠ dir) (hcp : c ≠ p) (hk : kids d dir = A ++ (c, n) :: B) :
    readdir d dir c = .ok (nextOf B) := by
  unfold readdir
  rw [if_neg hc0, hp]
  simp only
  rw [if_neg (by rintro ⟨-, h⟩; exact hcd h), if_neg hcp, readdirAt_eq (h.len16 ok _), h.kids_from ok hd hk]
  simp only
  rw [if_pos ⟨hc0, trivial⟩]
  cases B <;> rfl

/-- Iterating `readdir` from `prev`, feeding back inode numbers, until end of file. -/
inductive ReaddirFrom (d : DB) (dir : Ino) : Ino → List (Ino × Bytes) → Prop
  | eof {prev} : readdir d dir prev = .ok (.error EOF_) → ReaddirFrom d dir prev []
  | entry {prev i n rest} : readdir d dir prev = .ok (.ok (i, n)) → ReaddirFrom d dir i rest →
      ReaddirFrom d dir prev ((i, n) :: rest)

theorem Rep.readdir_tail (h : Rep s d) (ok : s.OK) {dir p} (hd : dir < W64) (hp : Cache.parent d dir = .ok p)
    (hnp : ∀ n, (p, n) ∉ kids d dir) (hnd : ∀ n, (dir, n) ∉ kids d dir) :
    ∀ (B A : List (Ino × Bytes)) c n, kids d dir = A ++ (c, n) :: B → ReaddirFrom d dir c B := by
  intro B
  induction B with
  | nil =>
    intro A c n hk
    have hm : (c, n) ∈ kids d dir := by rw [hk]; simp
    have hat := (h.mem_kids ok hd).mp hm
    obtain ⟨nd, hi, hl⟩ := hat
    apply ReaddirFrom.eof
    rw [h.readdir_next ok hd hp (by have := (ok.bound c nd hi).1; omega) (by rintro rfl; exact hnd n hm) (by rintro rfl; exact hnp n hm) hk]
    rfl
  | cons x B ih =>
    intro A c n hk
    have hm : (c, n) ∈ kids d dir := by rw [hk]; simp
    have hat := (h.mem_kids ok hd).mp hm
    obtain ⟨nd, hi, hl⟩ := hat
    obtain ⟨i, m⟩ := x
    apply ReaddirFrom.entry
    · rw [h.readdir_next ok hd hp (by have := (ok.bound c nd hi).1; omega) (by rintro rfl; exact hnd n hm) (by rintro rfl; exact hnp n hm) hk]
      rfl
    · exact ih (A ++ [(c, n)]) i m (by rw [hk]; simp)

/-- The whole listing of a directory other than the root. -/
theorem Rep.readdir_all (h : Rep s d) (ok : s.OK) {dir nd p m} (hi : s.nodes dir = some nd) (hl : nd.loc = some (p, m))
    (hnp : ∀ n, ¬ s.At dir n p) (hnd : ∀ n, ¬ s.At dir n dir) (hne : p ≠ dir) :
    ReaddirFrom d dir 0 ((dir, [0x2e]) :: (p, [0x2e, 0x2e]) :: kids d dir) := by
  have hd := OK.lt ok hi
  have hloc := ok.loc dir nd p m hi hl
  have hpar : Cache.parent d dir = .ok p := by
    rw [h.parent ok hd, if_neg (OK.loc_ne_root ok hi hl), hi]; simp [Node.par, hl]
  have hnp' : ∀ n, (p, n) ∉ kids d dir := fun n hm => hnp n ((h.mem_kids ok hd).mp hm)
  have hnd' : ∀ n, (dir, n) ∉ kids d dir := fun n hm => hnd n ((h.mem_kids ok hd).mp hm)
  refine .entry readdir_dot (.entry (readdir_dotdot hpar (by have := (ok.bound dir nd hi).1; omega) (Ne.symm hne)) ?_)
  have hfirst := h.readdir_first ok hpar (by omega) hnp'
  cases hk : kids d dir with
  | nil => rw [hk] at hfirst; exact .eof hfirst
  | cons x B =>
    rw [hk] at hfirst
    obtain ⟨c, n⟩ := x
    exact .entry hfirst (h.readdir_tail ok hd hpar hnp' hnd' B [] c n (by rw [hk]; rfl))

/-- The whole listing of the root. -/
theorem Rep.readdir_root (h : Rep s d) (ok : s.OK) (hnd : ∀ n, ¬ s.At ROOT n ROOT) :
    ReaddirFrom d ROOT 0 ((ROOT, [0x2e]) :: kids d ROOT) := by
  have hd : ROOT < W64 := by decide
  have hpar : Cache.parent d ROOT = .ok ROOT := by rw [h.parent ok hd, if_pos rfl]
  have hnd' : ∀ n, (ROOT, n) ∉ kids d ROOT := fun n hm => hnd n ((h.mem_kids ok hd).mp hm)
  refine .entry readdir_dot ?_
  have hfirst := h.readdir_first ok hpar (by decide) hnd'
  cases hk : kids d ROOT with
  | nil => rw [hk] at hfirst; exact .eof hfirst
  | cons x B =>
    rw [hk] at hfirst
    obtain ⟨c, n⟩ := x
    exact .entry hfirst (h.readdir_tail ok hd hpar hnd' hnd' B [] c n (by rw [hk]; rfl))

/-- The listing is unique. -/
theorem ReaddirFrom.unique {dir prev l l'} (h : ReaddirFrom d dir prev l) (h' : ReaddirFrom d dir prev l') : l = l' := by
  induction h generalizing l' with
  | eof h1 =>
    cases h' with
    | eof => rfl
    | entry h2 => rw [h1] at h2; cases h2
  | entry h1 _ ih =>
    cases h' with
    | eof h2 => rw [h1] at h2; cases h2
    | entry h2 h3 => rw [h1] at h2; cases h2; rw [ih h3]

end Dragonstash.Cache
