/-
  What the loops of `readdir` and `readdirplus` send.
-/
import Verif.FS.Stream
namespace Dragonstash.FS
open Cache Codec
variable {s s' : Tree} {d d' : DB} {r r' : Refs}

/-- The entries which fit into `size` bytes, one byte being left over, `used` bytes being in use. -/
def fitFrom (hdr size : Nat) : Nat → List DEnt → List DEnt
  | _, [] => []
  | used, e :: l => if used + entSize hdr e < size then e :: fitFrom hdr size (used + entSize hdr e) l else []

theorem entSize_pos {hdr : Nat} (hh : 0 < hdr) (e : DEnt) : 0 < entSize hdr e := by
  unfold entSize
  have : 1 ≤ (hdr + e.name.length + 7) / 8 := by
    rw [Nat.le_div_iff_mul_le (by decide)]; omega
  omega

theorem bufLen_append (hdr : Nat) (a b : List DEnt) : bufLen hdr (a ++ b) = bufLen hdr a + bufLen hdr b := by
  unfold bufLen; rw [List.map_append, List.sum_append]

@[simp] theorem bufLen_nil (hdr : Nat) : bufLen hdr [] = 0 := rfl
@[simp] theorem bufLen_cons (hdr : Nat) (e : DEnt) (l : List DEnt) : bufLen hdr (e :: l) = entSize hdr e + bufLen hdr l := by
  unfold bufLen; simp

theorem takeBytes_exact {hdr : Nat} (hh : 0 < hdr) (a b : List DEnt) : takeBytes hdr (bufLen hdr a) (a ++ b) = a := by
  induction a with
  | nil =>
    cases b with
    | nil => rfl
    | cons e l => have := entSize_pos hh e; simp [takeBytes]; omega
  | cons e l ih =>
    rw [bufLen_cons, List.cons_append]
    unfold takeBytes
    rw [if_pos (by omega), Nat.add_sub_cancel_left, ih]

/-- What fits is a prefix, and its bytes. -/
theorem fitFrom_spec (hdr size : Nat) : ∀ (l : List DEnt) (used : Nat), used < size →
    ∃ rest, l = fitFrom hdr size used l ++ rest ∧ used + bufLen hdr (fitFrom hdr size used l) < size ∧
      (∀ e t, rest = e :: t → size ≤ used + bufLen hdr (fitFrom hdr size used l) + entSize hdr e) := by
  intro l
  induction l with
  | nil => intro used hu; exact ⟨[], rfl, hu, by simp⟩
  | cons e l ih =>
    intro used hu
    unfold fitFrom
    by_cases h : used + entSize hdr e < size
    · rw [if_pos h]
      obtain ⟨rest, h1, h2, h3⟩ := ih _ h
      refine ⟨rest, by rw [List.cons_append, ← h1], by rw [bufLen_cons]; omega, ?_⟩
      intro e' t hr
      have := h3 e' t hr
      rw [bufLen_cons]; omega
    · rw [if_neg h]
      refine ⟨e :: l, rfl, by simpa using hu, ?_⟩
      intro e' t hr
      rw [List.cons.injEq] at hr
      simp only [bufLen_nil]
      rw [← hr.1]; omega

/-- The loop of `readdir`. -/
theorem readdirLoop_spec {dir : Ino} {size : Nat} {c : Ino} {l : List Ent} {e : Errno} {b : Bool} (hs : Stream d dir c l e b) :
    ∀ (f : Nat) (buf : List DEnt) (ts : Nat), l.length < f → bufLen 24 buf < size →
    (fitFrom 24 size (bufLen 24 buf) (l.map Ent.dent) = l.map Ent.dent ∧
      readdirLoop d dir size f c buf ts = .ok ⟨buf ++ l.map Ent.dent, bufLen 24 (buf ++ l.map Ent.dent), e, b⟩) ∨
    (fitFrom 24 size (bufLen 24 buf) (l.map Ent.dent) ≠ l.map Ent.dent ∧ ∃ x,
      readdirLoop d dir size f c buf ts = .ok ⟨buf ++ fitFrom 24 size (bufLen 24 buf) (l.map Ent.dent) ++ [x],
        bufLen 24 (buf ++ fitFrom 24 size (bufLen 24 buf) (l.map Ent.dent)), 0, false⟩) := by
  induction hs with
  | stop h =>
    intro f buf ts hf hb
    obtain ⟨f, rfl⟩ : ∃ g, f = g + 1 := ⟨f - 1, by simp at hf; omega⟩
    left
    refine ⟨rfl, ?_⟩
    unfold readdirLoop
    rw [if_pos hb, h]
    simp
  | noattr h h2 =>
    intro f buf ts hf hb
    obtain ⟨f, rfl⟩ : ∃ g, f = g + 1 := ⟨f - 1, by simp at hf; omega⟩
    left
    refine ⟨rfl, ?_⟩
    unfold readdirLoop
    rw [if_pos hb, h]
    simp [h2]
  | @entry c i n j a l e b h h2 hs ih =>
    intro f buf ts hf hb
    obtain ⟨f, rfl⟩ : ∃ g, f = g + 1 := ⟨f - 1, by simp at hf; omega⟩
    have hd : Ent.dent (i, n, a) = mkDEnt i n a := rfl
    have hstep : readdirLoop d dir size (f + 1) c buf ts = readdirLoop d dir size f i (buf ++ [mkDEnt i n a]) (bufLen 24 buf) := by
      rw [readdirLoop, if_pos hb, h]
      simp [h2]
    rw [hstep, List.map_cons, hd]
    have hlen : bufLen 24 (buf ++ [mkDEnt i n a]) = bufLen 24 buf + entSize 24 (mkDEnt i n a) := by
      rw [bufLen_append]; simp
    by_cases hfit : bufLen 24 buf + entSize 24 (mkDEnt i n a) < size
    · rw [fitFrom, if_pos hfit, ← hlen]
      have := ih f (buf ++ [mkDEnt i n a]) (bufLen 24 buf) (by simp at hf; omega) (by rw [hlen]; exact hfit)
      simpa [List.append_assoc] using this
    · rw [fitFrom, if_neg hfit]
      right
      refine ⟨by simp, mkDEnt i n a, ?_⟩
      obtain ⟨f, rfl⟩ : ∃ g, f = g + 1 := ⟨f - 1, by simp at hf; omega⟩
      rw [readdirLoop, if_neg (by rw [hlen]; exact hfit)]
      simp

/-- `readdir` on a directory which is linked. -/
theorem readdir_page {st : St} {dir : Ino} {size off : Nat} {l : List Ent} (hst : st.sent = [] ∧ st.fault = none)
    (hs : Stream st.disk dir off l 0 true) (hl : l.length ≤ st.disk.treei.size + 2) :
    readdir st dir size off = .ok (st.reply (if 0 < size ∧ l = [] ∧ testFlag st.disk dir SYNCED ≠ .ok true then .err EIO
      else .buf (fitFrom 24 size 0 (l.map Ent.dent)) (bufLen 24 (fitFrom 24 size 0 (l.map Ent.dent))))) := by
  unfold readdir
  by_cases hz : 0 < size
  · rcases readdirLoop_spec hs (size := size) (st.disk.treei.size + 4) [] 0 (by omega) hz with ⟨h1, h2⟩ | ⟨h1, x, h2⟩
    · rw [h2]
      simp only [bind_ok, List.nil_append, ne_eq, not_true, if_false]
      simp only [bufLen_nil] at h1
      rw [h1]
      have hlen : bufLen 24 (l.map Ent.dent) = 0 ↔ l = [] := by
        cases l with
        | nil => simp
        | cons y t => have := entSize_pos (hdr := 24) (by decide) y.dent; simp; omega
      by_cases hc : l = [] ∧ testFlag st.disk dir SYNCED ≠ .ok true
      · rw [if_pos ⟨trivial, hlen.mpr hc.1, hc.2⟩, if_pos ⟨hz, hc⟩]; rfl
      · rw [if_neg (fun hh => hc ⟨hlen.mp hh.2.1, hh.2.2⟩), if_neg (fun hh => hc hh.2)]
        have := takeBytes_exact (hdr := 24) (by decide) (l.map Ent.dent) []
        rw [List.append_nil] at this
        rw [this]; rfl
    · rw [h2]
      simp only [bind_ok, List.nil_append, ne_eq, not_true, if_false, bufLen_nil] at h1 ⊢
      rw [if_neg (by simp)]
      have hne : l ≠ [] := by rintro rfl; exact h1 rfl
      rw [if_neg (fun hh => hne hh.2.1), takeBytes_exact (by decide)]; rfl
  · have h0 : size = 0 := by omega
    subst h0
    have hloop : readdirLoop st.disk dir 0 (st.disk.treei.size + 4) off [] 0 = .ok ⟨[], 0, 0, false⟩ := by
      rw [readdirLoop, if_neg (by simp)]; rfl
    rw [hloop]
    have hf : fitFrom 24 0 0 (l.map Ent.dent) = [] := by
      cases l with
      | nil => rfl
      | cons y t => simp [fitFrom]
    rw [hf]
    simp [takeBytes]

/-! ### readdirplus -/

/-- References which `readdirplus` takes. -/
def plusRefs (r : Refs) (l : List Ent) : Refs := l.foldl (fun r x => if isDot x.2.1 then r else addRef r x.1) r

theorem plusRefs_cons (r : Refs) (x : Ent) (l : List Ent) :
    plusRefs r (x :: l) = plusRefs (if isDot x.2.1 then r else addRef r x.1) l := rfl

theorem plusRefs_doomed (l : List Ent) : ∀ (r : Refs) (i : Ino), (plusRefs r l i).doomed = (r i).doomed := by
  induction l with
  | nil => intro r i; rfl
  | cons x l ih =>
    intro r i; rw [plusRefs_cons, ih]
    split
    · rfl
    · exact addRef_doomed ..

/-- How often an inode occurs in a listing, apart from `.` and `..`. -/
def occurs (i : Ino) (l : List Ent) : Nat := (l.filter (fun x => !isDot x.2.1 && x.1 == i)).length

theorem plusRefs_count (l : List Ent) : ∀ (r : Refs) (i : Ino), (plusRefs r l i).nrefs = (r i).nrefs + occurs i l := by
  induction l with
  | nil => intro r i; rfl
  | cons x l ih =>
    intro r i; rw [plusRefs_cons, ih]
    unfold occurs
    rw [List.filter_cons]
    by_cases hd : isDot x.2.1 = true
    · simp [hd]
    · rw [if_neg hd, addRef_count]
      by_cases hi : x.1 = i
      · simp [hd, hi]; omega
      · have : ¬ i = x.1 := fun h => hi h.symm
        simp [hi, this]

theorem occurs_le (i : Ino) (l : List Ent) : occurs i l ≤ l.length := List.length_filter_le ..

theorem si_plusRefs : ∀ {l : List Ent} {r}, SI s d r → (∀ x ∈ l, ∃ nd, s.nodes x.1 = some nd) → (∀ i, (r i).nrefs + l.length < W64) →
    SI s d (plusRefs r l) := by
  intro l
  induction l with
  | nil => intro r hr _ _; exact hr
  | cons x l ih =>
    intro r hr h1 h2
    rw [plusRefs_cons]
    obtain ⟨nd, hn⟩ := h1 x (by simp)
    split
    · exact ih hr (fun y hy => h1 y (by simp [hy])) (fun i => by have := h2 i; simp at this; omega)
    · refine ih (hr.addRef hn (by have := h2 x.1; simp at this; omega)) (fun y hy => h1 y (by simp [hy])) (fun i => ?_)
      have := h2 i
      rw [addRef_count]; simp at this; split <;> omega

/-- The loop of `readdirplus`. -/
theorem plusLoop_spec {dir : Ino} {size : Nat} {c : Ino} {l : List Ent} {e : Errno} {b : Bool} (hs : Stream d dir c l e b) :
    ∀ (f : Nat) (buf : List DEnt) (ts : Nat) (t : Txn), t.db = d → (∀ x ∈ l, (t.refs x.1).doomed = false) → (∀ i, (t.refs i).nrefs + l.length < W64) →
    l.length < f → bufLen 152 buf < size →
    (fitFrom 152 size (bufLen 152 buf) (l.map Ent.dent) = l.map Ent.dent ∧ ∃ t',
      plusLoop t dir size f c buf ts = .ok (.inl (t', ⟨buf ++ l.map Ent.dent, bufLen 152 (buf ++ l.map Ent.dent), e, false⟩)) ∧
      t'.db = d ∧ t'.refs = plusRefs t.refs l) ∨
    (∃ t' P x Q, l = P ++ x :: Q ∧ fitFrom 152 size (bufLen 152 buf) (l.map Ent.dent) = P.map Ent.dent ∧
      plusLoop t dir size f c buf ts = .ok (.inl (t', ⟨buf ++ P.map Ent.dent ++ [x.dent], bufLen 152 (buf ++ P.map Ent.dent), 0, false⟩)) ∧
      t'.db = d ∧ t'.refs = plusRefs t.refs (P ++ [x])) := by
  induction hs with
  | stop h =>
    intro f buf ts t ht hdm hcnt hf hb
    obtain ⟨f, rfl⟩ : ∃ g, f = g + 1 := ⟨f - 1, by simp at hf; omega⟩
    left
    refine ⟨rfl, t, ?_, ht, rfl⟩
    rw [plusLoop, if_pos hb, ht, h]
    simp
  | noattr h h2 =>
    intro f buf ts t ht hdm hcnt hf hb
    obtain ⟨f, rfl⟩ : ∃ g, f = g + 1 := ⟨f - 1, by simp at hf; omega⟩
    left
    refine ⟨rfl, t, ?_, ht, rfl⟩
    rw [plusLoop, if_pos hb, ht, h]
    simp [h2]
  | @entry c i n j a l e b h h2 hs ih =>
    intro f buf ts t ht hdm hcnt hf hb
    obtain ⟨f, rfl⟩ : ∃ g, f = g + 1 := ⟨f - 1, by simp at hf; omega⟩
    have hd : Ent.dent (i, n, a) = mkDEnt i n a := rfl
    have hstep : ∃ t1, plusLoop t dir size (f + 1) c buf ts = plusLoop t1 dir size f i (buf ++ [mkDEnt i n a]) (bufLen 152 buf) ∧
        t1.db = d ∧ t1.refs = if isDot n then t.refs else addRef t.refs i := by
      by_cases hdot : isDot n = true
      · refine ⟨t, ?_, ht, by rw [if_pos hdot]⟩
        rw [plusLoop, if_pos hb, ht, h]
        simp only [bind_ok, h2]
        rw [if_pos hdot]
      · obtain ⟨t1, k1, k2, k3⟩ := lock_ok (t := t) (i := i) (hdm (i, n, a) (by simp)) (by have := hcnt i; simp at this; omega)
        refine ⟨t1, ?_, by rw [k2, ht], by rw [if_neg hdot, k3]⟩
        rw [plusLoop, if_pos hb, ht, h]
        simp only [bind_ok, h2]
        rw [if_neg hdot, k1]
    obtain ⟨t1, hstep, ht1, hr1⟩ := hstep
    rw [hstep, List.map_cons, hd]
    have hlen : bufLen 152 (buf ++ [mkDEnt i n a]) = bufLen 152 buf + entSize 152 (mkDEnt i n a) := by
      rw [bufLen_append]; simp
    by_cases hfit : bufLen 152 buf + entSize 152 (mkDEnt i n a) < size
    · rw [fitFrom, if_pos hfit, ← hlen]
      have hdm1 : ∀ x ∈ l, (t1.refs x.1).doomed = false := by
        intro x hx; rw [hr1]
        split
        · exact hdm x (by simp [hx])
        · rw [addRef_doomed]; exact hdm x (by simp [hx])
      have hcnt1 : ∀ k, (t1.refs k).nrefs + l.length < W64 := by
        intro k; have := hcnt k; simp at this; rw [hr1]
        split
        · omega
        · rw [addRef_count]; split <;> omega
      have := ih f (buf ++ [mkDEnt i n a]) (bufLen 152 buf) t1 ht1 hdm1 hcnt1 (by simp at hf; omega) (by rw [hlen]; exact hfit)
      rcases this with ⟨g1, t', g2, g3, g4⟩ | ⟨t', P, x, Q, g0, g1, g2, g3, g4⟩
      · left
        refine ⟨by rw [g1], t', ?_, g3, ?_⟩
        · rw [g2]; simp
        · rw [g4, plusRefs_cons, hr1]
      · right
        refine ⟨t', (i, n, a) :: P, x, Q, by rw [g0]; rfl, by rw [g1]; rfl, ?_, g3, ?_⟩
        · rw [g2]; simp [hd]
        · rw [g4, List.cons_append, plusRefs_cons, hr1]
    · rw [fitFrom, if_neg hfit]
      right
      refine ⟨t1, [], (i, n, a), l, rfl, rfl, ?_, ht1, ?_⟩
      · obtain ⟨f, rfl⟩ : ∃ g, f = g + 1 := ⟨f - 1, by simp at hf; omega⟩
        rw [plusLoop, if_neg (by rw [hlen]; exact hfit)]
        simp [hd]
      · rw [hr1]; rfl

/-- `readdirplus`: the reply, and the references taken. -/
theorem readdirplus_page {st : St} {dir : Ino} {size off : Nat} {l : List Ent} {e : Errno} {b : Bool} (hst : st.sent = [] ∧ st.fault = none)
    (hs : Stream st.disk dir off l e b) (hl : l.length ≤ st.disk.treei.size + 2) (hdm : ∀ x ∈ l, (st.refs x.1).doomed = false)
    (hcnt : ∀ i, (st.refs i).nrefs + l.length < W64) :
    (0 < size ∧ fitFrom 152 size 0 (l.map Ent.dent) = l.map Ent.dent ∧
      readdirplus st dir size off = .ok ({ st with refs := plusRefs st.refs l }.reply
        (if e ≠ 0 then .err e else .bufPlus (l.map Ent.dent) (bufLen 152 (l.map Ent.dent))))) ∨
    (size = 0 ∧ readdirplus st dir size off = .ok (st.reply (.bufPlus [] 0))) ∨
    (0 < size ∧ ∃ P x Q, l = P ++ x :: Q ∧ fitFrom 152 size 0 (l.map Ent.dent) = P.map Ent.dent ∧
      readdirplus st dir size off = .ok ({ st with refs := plusRefs st.refs (P ++ [x]) }.reply (.bufPlus (P.map Ent.dent) (bufLen 152 (P.map Ent.dent))))) := by
  unfold readdirplus
  by_cases hz : 0 < size
  · rcases plusLoop_spec hs (size := size) (st.disk.treei.size + 4) [] 0 st.txn rfl hdm hcnt (by omega) hz with ⟨h1, t', h2, h3, h4⟩ | ⟨t', P, x, Q, h0, h1, h2, h3, h4⟩
    · left
      refine ⟨hz, h1, ?_⟩
      rw [h2]
      simp only [bind_ok, List.nil_append]
      have : st.drop t' = { st with refs := plusRefs st.refs l } := by unfold St.drop; rw [h4]; rfl
      rw [this]
      have htk := takeBytes_exact (hdr := 152) (by decide) (l.map Ent.dent) []
      rw [List.append_nil] at htk
      split
      · rfl
      · rw [htk]; rfl
    · right; right
      refine ⟨hz, P, x, Q, h0, h1, ?_⟩
      rw [h2]
      simp only [bind_ok, List.nil_append, ne_eq, not_true, if_false]
      have : st.drop t' = { st with refs := plusRefs st.refs (P ++ [x]) } := by unfold St.drop; rw [h4]; rfl
      rw [this, takeBytes_exact (by decide)]; rfl
  · right; left
    refine ⟨by omega, ?_⟩
    have : plusLoop st.txn dir size (st.disk.treei.size + 4) off [] 0 = .ok (.inl (st.txn, ⟨[], 0, 0, false⟩)) := by
      rw [plusLoop, if_neg (by simpa using hz)]; rfl
    rw [this]
    simp [takeBytes, St.drop, St.txn]

end Dragonstash.FS
