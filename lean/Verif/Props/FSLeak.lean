/-
  C40: exactly which locks `readdirplus` leaves behind, and the exact lock counts after every history.
-/
import Verif.Props.FSReply
namespace Dragonstash.FS
open Cache Codec
variable {y y' : Sys} {B : Backend} {rq : Req} {rep : Reply}

/-! ### Specification -/

/-- The offset behind the last entry of a reply to `readdirplus` with offset `off`. -/
def lastOff (off : Nat) (l : List DEnt) : Nat := (l.getLast?.map (fun e => e.stat.ino)).getD off

/-- The locks of `i` which a request leaves although no reply gave them to the kernel: one, if `i` is the
first entry of the directory behind the entries in a reply to `readdirplus` (and not "." or ".."). -/
def lostBy (y : Sys) (rq : Req) (rep : Reply) (i : Ino) : Nat :=
  match rq, rep with
  | .readdirplus dir size off, .bufPlus l _ =>
    if size = 0 then 0
    else match Cache.readdir y.disk dir (lastOff off l) with
    | .ok (.ok (j, n)) => if j = i ∧ n ≠ [0x2e] ∧ n ≠ [0x2e, 0x2e] then 1 else 0
    | _ => 0
  | _, _ => 0

/-- A history, with the number of locks lost since the process started. -/
inductive Lost : Sys → (Ino → Nat) → Prop
  | mount {uid gid now d r} : openCleanDB (initDB emptyDB uid gid now) Refs.empty = .ok (d, r) → Lost ⟨d, r, fun _ => 0⟩ (fun _ => 0)
  | remount {y uid gid now d r lost} : Lost y lost → openCleanDB (initDB y.disk uid gid now) Refs.empty = .ok (d, r) → Lost ⟨d, r, fun _ => 0⟩ (fun _ => 0)
  | serve {y B rq rep y' lost} : Lost y lost → Valid y B rq → Answered y B rq rep y' → Lost y' (fun i => lost i + lostBy y rq rep i)

/-! ### Proofs -/

theorem lastOff_nil (off : Nat) : lastOff off [] = off := rfl

theorem lastOff_cons (off : Nat) (x : Ent) (l : List Ent) : lastOff off ((x :: l).map Ent.dent) = lastOff x.1 (l.map Ent.dent) := by
  unfold lastOff
  cases l with
  | nil => rfl
  | cons z l => simp only [List.map_cons, List.getLast?_cons_cons]; rw [List.getLast?_cons]; rfl

theorem stream_next {d : DB} {dir : Ino} : ∀ {P : List Ent} {c : Ino} {x : Ent} {Q : List Ent} {e : Errno} {b : Bool}, Stream d dir c (P ++ x :: Q) e b →
    Cache.readdir d dir (lastOff c (P.map Ent.dent)) = .ok (.ok (x.1, x.2.1)) := by
  intro P
  induction P with
  | nil =>
    intro c x Q e b h
    cases h with
    | entry h1 h2 h3 => exact h1
  | cons z P ih =>
    intro c x Q e b h
    rw [List.cons_append] at h
    cases h with
    | entry h1 h2 h3 => rw [lastOff_cons]; exact ih h3

theorem stream_last {d : DB} {dir : Ino} {l : List Ent} {c : Ino} {e : Errno} {b : Bool} (h : Stream d dir c l e b) :
    Cache.readdir d dir (lastOff c (l.map Ent.dent)) = .ok (.error e) ∨
      ∃ i n, Cache.readdir d dir (lastOff c (l.map Ent.dent)) = .ok (.ok (i, n)) ∧ Cache.getattr d i = .error e := by
  induction h with
  | stop h => exact .inl h
  | noattr h hg => exact .inr ⟨_, _, h, hg⟩
  | entry h hg _ ih => rw [lastOff_cons]; exact ih

theorem stream_unique {d : DB} {dir : Ino} {c : Ino} {l : List Ent} {e : Errno} {b : Bool} (h : Stream d dir c l e b) :
    ∀ {l' e' b'}, Stream d dir c l' e' b' → l = l' ∧ e = e' ∧ b = b' := by
  induction h with
  | stop h =>
    intro l' e' b' h'
    cases h' with
    | stop g => rw [h] at g; cases g; exact ⟨rfl, rfl, rfl⟩
    | noattr g => rw [h] at g; cases g
    | entry g => rw [h] at g; cases g
  | noattr h hg =>
    intro l' e' b' h'
    cases h' with
    | stop g => rw [h] at g; cases g
    | noattr g gg => rw [h] at g; cases g; rw [hg] at gg; cases gg; exact ⟨rfl, rfl, rfl⟩
    | entry g gg => rw [h] at g; cases g; rw [hg] at gg; cases gg
  | entry h hg _ ih =>
    intro l' e' b' h'
    cases h' with
    | stop g => rw [h] at g; cases g
    | noattr g gg => rw [h] at g; cases g; rw [hg] at gg; cases gg
    | entry g gg g3 =>
      rw [h] at g; cases g
      rw [hg] at gg; cases gg
      obtain ⟨k1, k2, k3⟩ := ih g3
      exact ⟨by rw [k1], k2, k3⟩

/-- Where reading a directory fails, nothing but "." was read before. -/
theorem stream_fails {s : Tree} {d : DB} {r : Refs} (h : SI s d r) {dir c : Ino} (hd : dir < W64) {l : List Ent} {e : Errno} {b : Bool}
    (hs : Stream d dir c l e b) (he : e ≠ 0) : ∀ x ∈ l, isDot x.2.1 = true := by
  cases hi : s.nodes dir with
  | none =>
    by_cases hc0 : c = 0
    · subst hc0
      obtain ⟨rfl, -, -⟩ := stream_unique hs (.noattr readdir_dot (getattr_none h hd hi))
      simp
    · have hr : dir ≠ ROOT := by
        rintro rfl
        obtain ⟨nd, h1, -⟩ := h.ok.root; rw [hi] at h1; cases h1
      have hp : Cache.parent d dir = .error ENOENT := by rw [h.rep.parent h.ok hd, if_neg hr, hi]
      have : Cache.readdir d dir c = .ok (.error EIO) := by
        unfold Cache.readdir; rw [if_neg hc0, hp]
      obtain ⟨rfl, -, -⟩ := stream_unique hs (.stop this)
      simp
  | some nd =>
    obtain ⟨p, hp, hpb, hnp, hnd, hroot, hnr⟩ := parent_facts h hi
    have tail : ∀ {c : Ino} {l e b}, c ≠ 0 → ¬ (c ≠ p ∧ c = dir) → Stream d dir c l e b → e = 0 := by
      intro c l e b h1 h2 hs
      obtain ⟨l', g1, g2, g3⟩ := stream_tail h hi hp h1 h2
      exact (stream_unique hs (.of_readdir h g3 (fun x hx => by
        obtain ⟨y, k, -⟩ := kids_info h hd (g1 x hx); exact ⟨y, k⟩))).2.1
    have hd0 : dir ≠ 0 := by have := (h.ok.bound dir nd hi).1; omega
    have dd : ∀ {l e b}, Stream d dir dir l e b → e ≠ 0 → l = [] := by
      intro l e b hs he
      by_cases hpd : dir = p
      · exact absurd (tail hd0 (fun hh => hh.1 hpd) hs) he
      · have hdd := readdir_dotdot hp hd0 hpd
        cases hs with
        | stop g => rfl
        | noattr g => rfl
        | entry g1 g2 g3 =>
          rw [hdd] at g1; cases g1
          have hp0 : p ≠ 0 := by
            rintro rfl
            cases hn : s.nodes 0 with
            | none => rw [getattr_none h (by decide) hn] at g2; cases g2
            | some x => have := (h.ok.bound 0 x hn).1; omega
          exact absurd (tail hp0 (fun hh => hh.1 rfl) g3) he
    by_cases hc0 : c = 0
    · subst hc0
      cases hs with
      | stop g => simp
      | noattr g => simp
      | entry g1 g2 g3 =>
        rw [readdir_dot] at g1; cases g1
        rw [dd g3 he]
        intro x hx
        rcases List.mem_cons.mp hx with rfl | hx
        · rfl
        · simp at hx
    · by_cases hcd : c ≠ p ∧ c = dir
      · obtain ⟨-, rfl⟩ := hcd
        rw [dd hs he]; simp
      · exact absurd (tail hc0 hcd hs) he

/-- **C40**: what every request does to the lock counts, exactly: what the reply gives to the kernel, what the
request gives back, and the lock of the first entry which does not fit into a reply to `readdirplus`. -/
theorem C40_step_exact (hl : Live y) (hv : Valid y B rq) (ha : Answered y B rq rep y') (i : Ino) :
    (y'.refs i).nrefs + rq.returned i = (y.refs i).nrefs + rep.given i + lostBy y rq rep i := by
  by_cases hp : ∀ dir size off, rq ≠ .readdirplus dir size off
  · have h0 : lostBy y rq rep i = 0 := by
      cases rq with
      | readdirplus dir size off => exact absurd rfl (hp dir size off)
      | _ => rfl
    rw [h0]; exact C40_step hl hv ha hp i
  · have hp : ∃ dir size off, rq = .readdirplus dir size off := by
      cases rq with
      | readdirplus dir size off => exact ⟨_, _, _, rfl⟩
      | _ => exact absurd (fun _ _ _ h => by cases h) hp
    obtain ⟨dir, size, off, rfl⟩ := hp
    obtain ⟨s, k1, k2⟩ := live_inv hl
    obtain ⟨s', k3, k4⟩ := ha.abs k1 hl hv
    have hret : Req.returned i (.readdirplus dir size off) = 0 := rfl
    rw [hret, Nat.add_zero]
    generalize hy : y'.refs = r' at *
    cases k4 with
    | @plAll _ _ _ l e b h1 h2 h3 h4 =>
      rw [plusRefs_count]
      by_cases he : e = 0
      · subst he
        simp only [ne_eq, not_true_eq_false, if_false]
        rw [given_buf i h3]
        have h0 : lostBy y (.readdirplus dir size off) (.bufPlus (l.map Ent.dent) (bufLen 152 (l.map Ent.dent))) i = 0 := by
          unfold lostBy
          by_cases hz : size = 0
          · simp only [hz, if_true]
          · simp only [hz, if_false]
            rcases stream_last h1 with g | ⟨j, n, -, g⟩
            · rw [g]
            · unfold Cache.getattr at g
              cases hf : y.disk.inodes.find (key8 j) with
              | none => rw [hf] at g; cases g
              | some x => rw [hf] at g; cases g
        rw [h0]
        rfl
      · rw [if_pos he]
        have h0 : occurs i l = 0 := by
          unfold occurs
          rw [List.length_eq_zero_iff, List.filter_eq_nil_iff]
          intro x hx
          simp [stream_fails k1 hv.1.1 h1 he x hx]
        rw [h0]; rfl
    | plZero => rfl
    | @plPart _ _ _ P x Q e b h1 h2 h3 h4 h5 =>
      rw [plusRefs_count, occurs_append, given_buf i (fun z hz => h3 z (by simp [hz]))]
      have hz : size ≠ 0 := Nat.pos_iff_ne_zero.mp h5
      have hx : lostBy y (.readdirplus dir size off) (.bufPlus (P.map Ent.dent) (bufLen 152 (P.map Ent.dent))) i = occurs i [x] := by
        unfold lostBy occurs
        simp only [hz, if_false]
        rw [stream_next h1]
        simp only [List.filter_cons, List.filter_nil]
        by_cases hd : isDot x.2.1 = true
        · have : ¬ (x.1 = i ∧ x.2.1 ≠ [0x2e] ∧ x.2.1 ≠ [0x2e, 0x2e]) := by
            rintro ⟨-, g1, g2⟩
            simp [isDot, g1, g2] at hd
          rw [if_neg this]; simp [hd]
        · have hn : x.2.1 ≠ [0x2e] ∧ x.2.1 ≠ [0x2e, 0x2e] := by
            constructor <;> (intro g; apply hd; rw [g]; rfl)
          by_cases hj : x.1 = i
          · rw [if_pos ⟨hj, hn⟩]; simp [hd, hj]
          · rw [if_neg (fun g => hj g.1)]; simp [hj]
      rw [hx]; omega

/-- Every state has such a history. -/
theorem C40_histories (hl : Live y) : ∃ lost, Lost y lost := by
  induction hl with
  | mount h => exact ⟨_, .mount h⟩
  | remount _ h ih => obtain ⟨l, hl⟩ := ih; exact ⟨_, .remount hl h⟩
  | @serve y B rq st hy hv hd hf ih =>
    obtain ⟨l, hl⟩ := ih
    obtain ⟨st', rep, g1, g2⟩ := C41_sent hy hv
    rw [hd] at g1; cases g1
    exact ⟨_, .serve hl hv ⟨st, hd, hf, g2, rfl⟩⟩

theorem Lost.live {lost : Ino → Nat} (h : Lost y lost) : Live y := by
  induction h with
  | mount h => exact .mount h
  | remount _ h ih => exact .remount ih h
  | serve _ hv ha ih => obtain ⟨st, h1, h2, -, rfl⟩ := ha; exact .serve ih hv h1 h2

/-- **C40**: in every history, the lock count of an inode is the number of lookups which the kernel holds plus
the number of locks lost by `readdirplus` since the process started. -/
theorem C40_exact {lost : Ino → Nat} (h : Lost y lost) (i : Ino) : (y.refs i).nrefs = y.held i + lost i := by
  induction h with
  | @mount uid gid now d r ho =>
    obtain ⟨s, h1, h2, h3⟩ := root_rep uid gid now
    have h0 : SI s (initDB emptyDB uid gid now) Refs.empty := ⟨h1, h2, h3, fun i hi => (by cases hi), fun i hi => absurd hi (by simp [Refs.empty]), Refs.empty_ok⟩
    exact open_counts h0 ho i
  | @remount y uid gid now d r lost hy ho ih =>
    rw [init_same hy.live] at ho
    obtain ⟨s, h1, -⟩ := live_inv hy.live
    exact open_counts h1 ho i
  | @serve y B rq rep y' lost hy hv ha ih =>
    have h1 := C40_step_exact hy.live hv ha i
    obtain ⟨st, g1, g2, g3, rfl⟩ := ha
    have hr := hv.2.2.1 i
    show ((y.after rq st).refs i).nrefs = heldAfter y.held rq st.sent i + (lost i + lostBy y rq rep i)
    unfold heldAfter; rw [g3]
    simp only [List.map_cons, List.map_nil, List.sum_cons, List.sum_nil]
    omega

/-- Reading the same short page twice loses two locks of inode 2. -/
example : ∃ y lost, Lost y lost ∧ lost 2 = 2 ∧ lost 3 = 0 := by
  obtain ⟨y, h1, h2⟩ := demoFS_ex (l := [.req tblA (.opendir 1), .req tblA (.readdirplus 1 200 0), .req tblA (.readdirplus 1 200 0)])
    (P := fun y => (y.held 2 = 0 ∧ (y.refs 2).nrefs = 2) ∧ (y.held 3 = 0 ∧ (y.refs 3).nrefs = 0)) (by decide +kernel)
  obtain ⟨lost, hl⟩ := C40_histories h1
  have h3 := C40_exact hl 2
  have h4 := C40_exact hl 3
  exact ⟨y, lost, hl, by omega, by omega⟩

/-- A request as in `C40_step_exact` of which `lostBy` is not zero. -/
example : ∃ y, Live y ∧ Valid y tblA.backend (.readdirplus 1 200 0) ∧ Cache.readdir y.disk 1 (lastOff 0 []) = .ok (.ok (1, [0x2e])) ∧ Cache.readdir y.disk 1 1 = .ok (.ok (2, [0x61])) := 
  demoFS_valid (l := [.req tblA (.opendir 1)]) (by decide +kernel)

end Dragonstash.FS
