/-
  C63: reading a directory which changes meanwhile.
-/
import Verif.Cache.Cursor
import Verif.Props.CacheTree
import Verif.Props.FSDir
namespace Dragonstash.Cache
open Codec

/-- Reading directory `dir` on from position `prev` to the end: the `k`-th call of `readdir` is made in
the `k`-th of the states `ds`, with the inode number from the result before. -/
inductive ReadOver (dir : Ino) : Ino → List DB → List (Ino × Bytes) → Prop
  | eof {prev d} : readdir d dir prev = .ok (.error EOF_) → ReadOver dir prev [d] []
  | entry {prev d i n ds rest} : readdir d dir prev = .ok (.ok (i, n)) → ReadOver dir i ds rest →
      ReadOver dir prev (d :: ds) ((i, n) :: rest)

/-- A state in which the directory has the parent `p`. -/
def Placed (dir p : Ino) (d : DB) : Prop := ∃ s : Tree, Rep s d ∧ s.OK ∧ s.WF ∧ parent d dir = .ok p

theorem Placed.at_ne {dir p : Ino} {d : DB} {s : Tree} (h : Rep s d) (ok : s.OK) (wf : s.WF) (hd : dir < W64) (hp : parent d dir = .ok p) :
    (∀ n, ¬ s.At dir n p) ∧ ∀ {n j}, s.At dir n j → j ≠ dir ∧ j ≠ 0 ∧ j < W64 ∧ j ≠ p := by
  have key : ∀ {n j}, s.At dir n j → dir < j ∧ j < W64 := fun ⟨nd, h1, h2⟩ => ⟨(wf _ nd _ _ h1 h2).1, OK.lt ok h1⟩
  have hpd : p ≤ dir := by
    rw [h.parent ok hd] at hp
    by_cases hr : dir = ROOT
    · rw [if_pos hr] at hp; cases hp; omega
    · rw [if_neg hr] at hp
      cases hi : s.nodes dir with
      | none => rw [hi] at hp; cases hp
      | some nd =>
        rw [hi] at hp; simp only [Except.ok.injEq] at hp
        rw [← hp]
        unfold Node.par
        cases hl : nd.loc with
        | none => exact Nat.zero_le _
        | some l => obtain ⟨q, m⟩ := l; exact Nat.le_of_lt (wf dir nd q m hi hl).1
  refine ⟨fun n hn => ?_, fun hj => ?_⟩
  · have := (key hn).1; omega
  · obtain ⟨h1, h2⟩ := key hj
    exact ⟨by omega, by omega, h2, by omega⟩

theorem readOver_tail {dir p : Ino} (hd : dir < W64) {c : Ino} {ds : List DB} {l : List (Ino × Bytes)} (h : ReadOver dir c ds l) :
    (∀ d ∈ ds, Placed dir p d) → c ≠ 0 → c < W64 → ¬ (c ≠ p ∧ c = dir) →
    (∀ x ∈ l, Behind p c x.1) ∧ l.Pairwise (fun x y => Before x.1 y.1) ∧
    (∀ i m, (∀ d ∈ ds, lookup d dir m = .ok (.ok i)) → Behind p c i → (i, m) ∈ l) ∧
    (∀ (k : Nat) (x : Ino × Bytes), l[k]? = some x → ∃ d, ds[k]? = some d ∧ lookup d dir x.2 = .ok (.ok x.1)) := by
  induction h with
  | @eof c d h =>
    intro hds hc0 hcb hc
    obtain ⟨s, hr, ok, wf, hp⟩ := hds d (by simp)
    obtain ⟨n1, n2⟩ := Placed.at_ne hr ok wf hd hp
    refine ⟨by simp, .nil, fun i m hl hb => ?_, by simp⟩
    rcases hr.readdir_cursor ok hd hp hc0 hcb hc n1 with ⟨-, g⟩ | ⟨n, j, g, -⟩
    · exact absurd hb (g m i ((hr.lookup_iff ok hd).mp (hl d (by simp))))
    · rw [h] at g; cases g
  | @entry c d i n ds rest h hrest ih =>
    intro hds hc0 hcb hc
    obtain ⟨s, hr, ok, wf, hp⟩ := hds d (by simp)
    obtain ⟨n1, n2⟩ := Placed.at_ne hr ok wf hd hp
    rcases hr.readdir_cursor ok hd hp hc0 hcb hc n1 with ⟨g, -⟩ | ⟨n', j, g, g1, g2, g3⟩
    · rw [h] at g; cases g
    · rw [h] at g; cases g
      obtain ⟨a1, a2, a3, a4⟩ := n2 g1
      obtain ⟨b1, b2, b3, b4⟩ := ih (fun d hd => hds d (by simp [hd])) a2 a3 (fun hh => a1 hh.2)
      have hbef : ∀ {j}, Behind p i j → Before i j := by
        rintro j (hh | hh)
        · exact absurd hh a4
        · exact hh
      refine ⟨fun x hx => ?_, List.pairwise_cons.mpr ⟨fun x hx => hbef (b1 x hx), b2⟩, fun k m hl hb => ?_, fun k x hk => ?_⟩
      · rcases List.mem_cons.mp hx with rfl | hx
        · exact g2
        · have := hbef (b1 x hx)
          rcases g2 with hh | hh
          · exact .inl hh
          · exact .inr (hh.trans this)
      · have hat := (hr.lookup_iff ok hd).mp (hl d (by simp))
        rcases g3 m k hat hb with rfl | hh
        · obtain ⟨nd, e1, e2⟩ := hat
          obtain ⟨nd', e3, e4⟩ := g1
          rw [e1] at e3; cases e3
          rw [e2] at e4; cases e4
          exact List.mem_cons_self ..
        · exact List.mem_cons_of_mem _ (b3 k m (fun d hd => hl d (by simp [hd])) (.inr hh))
      · cases k with
        | zero => simp at hk; subst hk; exact ⟨d, rfl, (hr.lookup_iff ok hd).mpr g1⟩
        | succ k => exact b4 k x hk

theorem readOver_all {dir p : Ino} (hd : dir < W64) (hd0 : dir ≠ 0) (hp0 : p ≠ 0) {ds : List DB} {l : List (Ino × Bytes)}
    (hds : ∀ d ∈ ds, Placed dir p d) (h : ReadOver dir 0 ds l) :
    ∃ es, l = (dir, [0x2e]) :: (if dir = 1 then [] else [(p, [0x2e, 0x2e])]) ++ es ∧ (es.map Prod.fst).Nodup ∧
      (∀ i m, (∀ d ∈ ds, lookup d dir m = .ok (.ok i)) → (i, m) ∈ es) ∧
      ∀ x ∈ es, ∃ (k : Nat) (d : DB), l[k]? = some x ∧ ds[k]? = some d ∧ lookup d dir x.2 = .ok (.ok x.1) := by
  have nodup : ∀ {es : List (Ino × Bytes)}, es.Pairwise (fun x y => Before x.1 y.1) → (es.map Prod.fst).Nodup := by
    intro es hes
    unfold List.Nodup
    rw [List.pairwise_map]
    exact hes.imp (fun hlt heq => by rw [heq] at hlt; exact Before.irrefl _ hlt)
  have lift : ∀ {es : List (Ino × Bytes)} {ds' : List DB} (pre : List (Ino × Bytes)) (pre' : List DB), pre.length = pre'.length →
      (∀ (k : Nat) (x : Ino × Bytes), es[k]? = some x → ∃ d, ds'[k]? = some d ∧ lookup d dir x.2 = .ok (.ok x.1)) →
      ∀ x ∈ es, ∃ (k : Nat) (d : DB), (pre ++ es)[k]? = some x ∧ (pre' ++ ds')[k]? = some d ∧ lookup d dir x.2 = .ok (.ok x.1) := by
    intro es ds' pre pre' hlen hk x hx
    obtain ⟨k, hkx⟩ := List.mem_iff_getElem?.mp hx
    obtain ⟨d, h1, h2⟩ := hk k x hkx
    refine ⟨pre.length + k, d, ?_, ?_, h2⟩
    · rw [List.getElem?_append_right (by omega)]; simpa using hkx
    · rw [hlen, List.getElem?_append_right (by omega)]; simpa using h1
  cases h with
  | eof h => rw [readdir_dot] at h; cases h
  | @entry _ d i n ds rest h hrest =>
    rw [readdir_dot] at h; cases h
    obtain ⟨s, hr, ok, wf, hp⟩ := hds d (by simp)
    obtain ⟨n1, n2⟩ := Placed.at_ne hr ok wf hd hp
    have hpar := hp
    rw [hr.parent ok hd] at hpar
    by_cases h1 : dir = 1
    · rw [if_pos (show dir = ROOT from h1)] at hpar
      cases hpar
      obtain ⟨b1, b2, b3, b4⟩ := readOver_tail (p := ROOT) hd hrest (fun d hd => hds d (by simp [hd])) hd0 hd (fun hh => hh.1 h1)
      rw [if_pos h1]
      refine ⟨rest, rfl, nodup b2, fun i m hl => b3 i m (fun d hd => hl d (by simp [hd])) (.inl h1), ?_⟩
      exact lift [(dir, [0x2e])] [d] rfl b4
    · rw [if_neg h1]
      have hne : ∀ {d}, Placed dir p d → dir ≠ p := by
        rintro d ⟨s, hr, ok, wf, hp⟩ rfl
        rw [hr.parent ok hd, if_neg (show dir ≠ ROOT from h1)] at hp
        cases hi : s.nodes dir with
        | none => rw [hi] at hp; cases hp
        | some nd =>
          rw [hi] at hp; simp only [Except.ok.injEq] at hp
          unfold Node.par at hp
          cases hl : nd.loc with
          | none => rw [hl] at hp; exact hp0 hp.symm
          | some l => obtain ⟨q, m⟩ := l; rw [hl] at hp; have := (wf dir nd q m hi hl).1; simp only at hp; omega
      cases hrest with
      | eof h => 
        rename_i d'
        obtain ⟨s', hr', ok', wf', hp'⟩ := hds d' (by simp)
        rw [readdir_dotdot hp' hd0 (hne (hds d' (by simp)))] at h; cases h
      | @entry _ d' i n ds rest h hrest =>
        obtain ⟨s', hr', ok', wf', hp'⟩ := hds d' (by simp)
        rw [readdir_dotdot hp' hd0 (hne (hds d' (by simp)))] at h; cases h
        have hpb : p < W64 := by
          have : p < dir := by
            rw [hr.parent ok hd, if_neg (show dir ≠ ROOT from h1)] at hp
            cases hi : s.nodes dir with
            | none => rw [hi] at hp; cases hp
            | some nd =>
              rw [hi] at hp; simp only [Except.ok.injEq] at hp
              unfold Node.par at hp
              cases hl : nd.loc with
              | none => rw [hl] at hp; exact absurd hp.symm hp0
              | some l => obtain ⟨q, m⟩ := l; rw [hl] at hp; have := (wf dir nd q m hi hl).1; simp only at hp; omega
          omega
        obtain ⟨b1, b2, b3, b4⟩ := readOver_tail (p := p) hd hrest (fun d hd => hds d (by simp [hd])) hp0 hpb (fun hh => hh.1 rfl)
        refine ⟨rest, rfl, nodup b2, fun i m hl => b3 i m (fun d hd => hl d (by simp [hd])) (.inl rfl), ?_⟩
        exact lift [(dir, [0x2e]), (p, [0x2e, 0x2e])] [d, d'] rfl b4

/-- C63: a directory is read to the end while it changes in any way between the calls, as long as it
stays where it is. Every entry which it has all the time is listed; no inode is listed twice; whatever
is listed was an entry at the moment when it was. -/
theorem C63_listing {dir p : Ino} (hd : dir < W64) (hd0 : dir ≠ 0) (hp0 : p ≠ 0) {ds : List DB} {l : List (Ino × Bytes)}
    (hds : ∀ d ∈ ds, (∃ w, ReachP w ∧ View w d) ∧ parent d dir = .ok p) (hl : ReadOver dir 0 ds l) :
    ∃ es, l = (dir, [0x2e]) :: (if dir = 1 then [] else [(p, [0x2e, 0x2e])]) ++ es ∧ (es.map Prod.fst).Nodup ∧
      (∀ i m, (∀ d ∈ ds, lookup d dir m = .ok (.ok i)) → (i, m) ∈ es) ∧
      ∀ x ∈ es, ∃ (k : Nat) (d : DB), l[k]? = some x ∧ ds[k]? = some d ∧ lookup d dir x.2 = .ok (.ok x.1) :=
  readOver_all hd hd0 hp0 (fun d hm => by
    obtain ⟨⟨w, h1, h2⟩, h3⟩ := hds d hm
    obtain ⟨s, hr, ok, wf⟩ := h1.inv.view h2
    exact ⟨s, hr, ok, wf, h3⟩) hl

/-- The hypotheses of `C63_listing`: names `a`, `b`, `c` are listed while `b` is removed and `d` is added. -/
example : ∃ d d' : DB, (∃ w, ReachP w ∧ View w d) ∧ (∃ w, ReachP w ∧ View w d') ∧ parent d 1 = .ok 1 ∧ parent d' 1 = .ok 1 ∧
    (∀ x ∈ [d, d'], lookup x 1 "a".toUTF8.toList = .ok (.ok 2) ∧ lookup x 1 "c".toUTF8.toList = .ok (.ok 4)) ∧
    lookup d 1 "b".toUTF8.toList = .ok (.ok 3) ∧ lookup d' 1 "b".toUTF8.toList = .ok (.error ENOENT) ∧ lookup d 1 "d".toUTF8.toList = .ok (.error ENOENT) ∧
    ReadOver 1 0 [d, d, d', d', d'] [(1, [0x2e]), (2, "a".toUTF8.toList), (4, "c".toUTF8.toList), (5, "d".toUTF8.toList)] := by
  obtain ⟨w, h1, h2, h3, h4, h5, h6, h7, h8, h9⟩ := demoP_ex
    (cs := opened ++ [.beginRW, .op (.emplace 1 "a".toUTF8.toList dirA), .op (.emplace 1 "b".toUTF8.toList dirA), .op (.emplace 1 "c".toUTF8.toList dirA), .commit])
    (P := fun w => w.phase = .up ∧ parent w.disk 1 = .ok 1 ∧ lookup w.disk 1 "a".toUTF8.toList = .ok (.ok 2) ∧ lookup w.disk 1 "b".toUTF8.toList = .ok (.ok 3) ∧
      lookup w.disk 1 "c".toUTF8.toList = .ok (.ok 4) ∧ lookup w.disk 1 "d".toUTF8.toList = .ok (.error ENOENT) ∧
      readdir w.disk 1 0 = .ok (.ok (1, [0x2e])) ∧ readdir w.disk 1 1 = .ok (.ok (2, "a".toUTF8.toList))) (by decide +kernel)
  obtain ⟨w', g1, g2, g3, g4, g5, g6, g7, g8, g9⟩ := demoP_ex
    (cs := opened ++ [.beginRW, .op (.emplace 1 "a".toUTF8.toList dirA), .op (.emplace 1 "b".toUTF8.toList dirA), .op (.emplace 1 "c".toUTF8.toList dirA), .commit,
      .beginRW, .op (.unlinkName 1 "b".toUTF8.toList), .op (.emplace 1 "d".toUTF8.toList dirA), .commit])
    (P := fun w => w.phase = .up ∧ parent w.disk 1 = .ok 1 ∧ lookup w.disk 1 "a".toUTF8.toList = .ok (.ok 2) ∧ lookup w.disk 1 "b".toUTF8.toList = .ok (.error ENOENT) ∧
      lookup w.disk 1 "c".toUTF8.toList = .ok (.ok 4) ∧
      readdir w.disk 1 2 = .ok (.ok (4, "c".toUTF8.toList)) ∧ readdir w.disk 1 4 = .ok (.ok (5, "d".toUTF8.toList)) ∧ readdir w.disk 1 5 = .ok (.error EOF_)) (by decide +kernel)
  refine ⟨w.disk, w'.disk, ⟨w, h1, .inl ⟨h2, rfl⟩⟩, ⟨w', g1, .inl ⟨g2, rfl⟩⟩, h3, g3, ?_, h5, g5, h7, .entry h8 (.entry h9 (.entry g7 (.entry g8 (.eof g9))))⟩
  intro x hx
  rcases List.mem_cons.mp hx with rfl | hx
  · exact ⟨h4, h6⟩
  · rw [List.mem_singleton] at hx; subst hx; exact ⟨g4, g6⟩

end Dragonstash.Cache

namespace Dragonstash.FS
open Cache Codec

/-- In state `y`, a `readdir` or `readdirplus` request for `size` bytes from offset `off` is answered with the
entries `l`. -/
inductive PageOf (y : Sys) (dir : Ino) (size off : Nat) : List DEnt → Prop
  | rd {y' B l n} : Answered y B (.readdir dir size off) (.buf l n) y' → PageOf y dir size off l
  | plus {y' B l n} : Valid y B (.readdirplus dir size off) → Answered y B (.readdirplus dir size off) (.bufPlus l n) y' → PageOf y dir size off l

/-- The kernel reads a directory in pages, with `readdir` and `readdirplus` requests; the `k`-th request is
served in the `k`-th of the states `ys` (and with any backend), and each request continues at the offset of the
last entry received. It ends with an empty reply to a request with space for any entry, or with the
error which says that the directory is not completely cached. -/
inductive PagingOver (dir : Ino) : Nat → List Sys → List DEnt → Prop
  | more {y size off p e ys l} : PageOf y dir size off (p ++ [e]) → PagingOver dir e.off ys l → PagingOver dir off (y :: ys) (p ++ [e] ++ l)
  | eof {y size off} : 656 < size → PageOf y dir size off [] → PagingOver dir off [y] []
  | incomplete {y y' B size off} : Answered y B (.readdir dir size off) (.err EIO) y' → PagingOver dir off [y] []

/-- Entries read in one state, and then on. -/
theorem ReadOver.prepend {d : DB} {dir : Ino} : ∀ {P : List Ent} {Q : List Ent} {x : Ent} {c : Ino} {e b} {ds l}, Stream d dir c (P ++ x :: Q) e b → ReadOver dir x.1 ds l →
    ReadOver dir c (List.replicate (P.length + 1) d ++ ds) ((P ++ [x]).map (fun x => (x.1, x.2.1)) ++ l) := by
  intro P
  induction P with
  | nil => intro Q x c e b ds l h h2; cases h with | entry h1 _ _ => exact .entry h1 h2
  | cons z P ih =>
    intro Q x c e b ds l h h2
    cases h with
    | entry h1 _ h3 => exact .entry h1 (ih h3 h2)

theorem page_spec {y : Sys} {dir p : Ino} (hl : Live y) (hd : dir < W64) (hp0 : p ≠ 0) (hp : Cache.parent y.disk dir = .ok p) {size off : Nat} {l : List DEnt}
    (h : PageOf y dir size off l) : ∃ P Q : List Ent, Stream y.disk dir off (P ++ Q) 0 true ∧ l = P.map Ent.dent ∧ (∀ x ∈ P ++ Q, cstr x.2.1 = x.2.1) ∧
      (656 < size → P = [] → Q = []) := by
  obtain ⟨s, k1, k2⟩ := live_inv hl
  obtain ⟨L, e, b, g1, g2, g3, g4, -, -⟩ := stream_exists k1 (c := off) hd
  obtain ⟨rfl, rfl⟩ := g4 ((linked_iff k1 hd).mpr ⟨p, hp, hp0⟩)
  have hn : ∀ x ∈ L, cstr x.2.1 = x.2.1 := fun x hx => cstr_eq (g3 x hx).1.2.1
  have hsz : ∀ hdr, hdr ≤ 152 → ∀ x ∈ L, entSize hdr x.dent ≤ 656 := by
    intro hdr hh x hx
    have h1 := (g3 x hx).1.1
    unfold entSize Ent.dent mkDEnt
    simp only [hn x hx]
    omega
  have hfit : ∀ hdr, hdr ≤ 152 → 656 < size → fitFrom hdr size 0 (L.map Ent.dent) = [] → L = [] := by
    intro hdr hh hs hf
    cases L with
    | nil => rfl
    | cons x t =>
      have := hsz hdr hh x (by simp)
      rw [List.map_cons, fitFrom, if_pos (by omega)] at hf
      cases hf
  cases h with
  | @rd y' B l n ha =>
    have g := (ha.unique (readdir_answer (B := B) (size := size) g1 g2)).1
    split at g
    · cases g
    · simp only [Reply.buf.injEq] at g
      by_cases hz : 0 < size
      · obtain ⟨rest, f1, -, -⟩ := fitFrom_spec 24 size (L.map Ent.dent) 0 hz
        obtain ⟨P, Q, hPQ, hP, hQ⟩ := List.map_eq_append_iff.mp f1
        refine ⟨P, Q, by rw [← hPQ]; exact g1, by rw [g.1, hP], by rw [← hPQ]; exact hn, fun hs hPn => ?_⟩
        subst hPn
        have := hfit 24 (by decide) hs (by rw [← hP]; rfl)
        rw [this] at hPQ; simpa using hPQ.symm
      · have h0 : fitFrom 24 size 0 (L.map Ent.dent) = [] := by
          cases L with
          | nil => rfl
          | cons x t => rw [List.map_cons, fitFrom, if_neg (by omega)]
        exact ⟨[], L, g1, by rw [g.1, h0]; rfl, hn, fun hs => by omega⟩
  | @plus y' B l n hv ha =>
    have hroom := hv.2.2.2.2
    have hpg := readdirplus_page (st := { disk := y.disk, refs := y.refs }) (size := size) ⟨rfl, rfl⟩ g1 g2
      (fun x hm => by obtain ⟨-, nd, h1, -⟩ := g3 x hm; exact k1.not_doomed h1)
      (fun i => by have := hroom i; simp only at *; omega)
    obtain ⟨st, hst, -, hsent, -⟩ := ha
    unfold dispatch at hst
    simp only [handle] at hst
    rcases hpg with ⟨-, h1, h⟩ | ⟨hz, h⟩ | ⟨hz, P, x, Q, hPQ, h1, h⟩
    · rw [h] at hst; cases hst
      simp only [ne_eq, not_true, if_false] at hsent
      have : l = L.map Ent.dent := by
        simp [St.reply, St.finish] at hsent
        exact hsent.1.symm
      exact ⟨L, [], by simpa using g1, this, by simpa using hn, fun _ _ => rfl⟩
    · rw [h] at hst; cases hst
      have : l = [] := by simp [St.reply, St.finish] at hsent; exact hsent.1
      exact ⟨[], L, g1, by rw [this]; rfl, hn, fun hs => by omega⟩
    · rw [h] at hst; cases hst
      have : l = P.map Ent.dent := by simp [St.reply, St.finish] at hsent; exact hsent.1.symm
      refine ⟨P, x :: Q, by rw [← hPQ]; exact g1, this, by rw [← hPQ]; exact hn, fun hs hP => ?_⟩
      subst hP
      have := hfit 152 (by decide) hs (by rw [h1]; rfl)
      rw [this] at hPQ; simp at hPQ

theorem paging_read {dir p : Ino} (hd : dir < W64) (hp0 : p ≠ 0) {off : Nat} {ys : List Sys} {l : List DEnt} (h : PagingOver dir off ys l) :
    (∀ y ∈ ys, Live y ∧ Cache.parent y.disk dir = .ok p) →
    ∃ ds, (∀ d ∈ ds, ∃ y ∈ ys, d = y.disk) ∧ ReadOver dir off ds (l.map (fun e => (e.stat.ino, e.name))) := by
  induction h with
  | @more y size off q e ys l ha hrest ih =>
    intro hys
    obtain ⟨hl, hp⟩ := hys y (by simp)
    obtain ⟨P, Q, g1, g2, g3, -⟩ := page_spec hl hd hp0 hp ha
    obtain ⟨ds, i1, i2⟩ := ih (fun z hz => hys z (by simp [hz]))
    obtain ⟨P', z, rfl, hze⟩ : ∃ P' z, P = P' ++ [z] ∧ z.dent = e := by
      obtain ⟨P', z', a1, a2, a3⟩ := List.map_eq_append_iff.mp g2.symm
      cases z' with
      | nil => simp at a3
      | cons z b1 =>
        simp at a3
        obtain ⟨a3, rfl⟩ := a3
        exact ⟨P', z, a1, a3⟩
    have hst : Stream y.disk dir off (P' ++ z :: Q) 0 true := by rw [List.append_assoc] at g1; exact g1
    have hoff : e.off = z.1 := by rw [← hze]; exact rfl
    rw [hoff] at i2
    refine ⟨List.replicate (P'.length + 1) y.disk ++ ds, ?_, ?_⟩
    · intro d hd
      rcases List.mem_append.mp hd with hd | hd
      · exact ⟨y, by simp, List.eq_of_mem_replicate hd⟩
      · obtain ⟨z, h1, h2⟩ := i1 d hd
        exact ⟨z, by simp [h1], h2⟩
    · have := ReadOver.prepend hst i2
      rw [List.map_append, g2, List.map_map]
      have heq : ((P' ++ [z]).map ((fun e : DEnt => (e.stat.ino, e.name)) ∘ Ent.dent)) = (P' ++ [z]).map (fun x => (x.1, x.2.1)) :=
        List.map_congr_left (fun x hx => by
          have := g3 x (List.mem_append_left _ hx)
          show (x.1, cstr x.2.1) = _
          rw [this])
      rw [heq]; exact this
  | @eof y size off hsz ha =>
    intro hys
    obtain ⟨hl, hp⟩ := hys y (by simp)
    obtain ⟨P, Q, g1, g2, g3, g4⟩ := page_spec hl hd hp0 hp ha
    have hP : P = [] := by simpa using g2.symm
    have hQ := g4 hsz hP
    subst hP hQ
    cases g1 with
    | stop h =>
      refine ⟨[y.disk], ?_, .eof h⟩
      intro d hd; simp at hd; exact ⟨y, by simp, hd⟩
  | @incomplete y y' B size off ha =>
    intro hys
    obtain ⟨hl, hp⟩ := hys y (by simp)
    obtain ⟨s, k1, k2⟩ := live_inv hl
    obtain ⟨L, e, b, g1, g2, g3, g4, -, -⟩ := stream_exists k1 (c := off) hd
    obtain ⟨rfl, rfl⟩ := g4 ((linked_iff k1 hd).mpr ⟨p, hp, hp0⟩)
    have g := (ha.unique (readdir_answer (B := B) (size := size) g1 g2)).1
    split at g
    · rename_i hc
      obtain ⟨-, rfl, -⟩ := hc
      cases g1 with
      | stop h =>
        refine ⟨[y.disk], ?_, .eof h⟩
        intro d hd; simp at hd; exact ⟨y, by simp, hd⟩
    · cases g

/-- C63 for the mounted filesystem: the kernel reads a directory in pages to the end, while other requests
are served in between (which may change the directory in any way), as long as the directory stays where it is. Every
name which it has all the time, for the same inode, is listed; no inode is listed twice; whatever is listed was there in the
state in which the page was made. -/
theorem C63_paging {dir p : Ino} (hd : dir < W64) (hd0 : dir ≠ 0) (hp0 : p ≠ 0) {ys : List Sys} {l : List DEnt}
    (hys : ∀ y ∈ ys, Live y ∧ Cache.parent y.disk dir = .ok p) (h : PagingOver dir 0 ys l) :
    ∃ es, l.map (fun e => (e.stat.ino, e.name)) = (dir, [0x2e]) :: (if dir = 1 then [] else [(p, [0x2e, 0x2e])]) ++ es ∧ (es.map Prod.fst).Nodup ∧
      (∀ i m, (∀ y ∈ ys, Cache.lookup y.disk dir m = .ok (.ok i)) → (i, m) ∈ es) ∧
      ∀ x ∈ es, ∃ y ∈ ys, Cache.lookup y.disk dir x.2 = .ok (.ok x.1) := by
  obtain ⟨ds, h1, h2⟩ := paging_read hd hp0 h hys
  obtain ⟨es, g1, g2, g3, g4⟩ := readOver_all hd hd0 hp0 (p := p) (fun d hm => by
    obtain ⟨y, hy, rfl⟩ := h1 d hm
    obtain ⟨hl, hp⟩ := hys y hy
    obtain ⟨s, k1, -⟩ := live_inv hl
    exact ⟨s, k1.rep, k1.ok, k1.wf, hp⟩) h2
  refine ⟨es, g1, g2, fun i m hm => g3 i m (fun d hd => ?_), fun x hx => ?_⟩
  · obtain ⟨y, hy, rfl⟩ := h1 d hd
    exact hm y hy
  · obtain ⟨k, d, -, e2, e3⟩ := g4 x hx
    obtain ⟨y, hy, rfl⟩ := h1 d (List.mem_of_getElem? e2)
    exact ⟨y, hy, e3⟩

/-- The hypotheses of `C63_paging`: the root directory with `a` and `l` is read in three requests; `a` is removed after the
first. -/
example : ∃ y y' : Sys, (Live y ∧ Cache.parent y.disk 1 = .ok 1) ∧ (Live y' ∧ Cache.parent y'.disk 1 = .ok 1) ∧
    Cache.lookup y.disk 1 [0x61] = .ok (.ok 2) ∧ Cache.lookup y'.disk 1 [0x61] = .ok (.error ENOENT) ∧
    ∃ l, PagingOver 1 0 [y, y', y'] l ∧ l.map (·.name) = [[0x2e], [0x61], [0x6c]] := by
  obtain ⟨y, h1, h2, h3, h4⟩ := demoFS_ex (l := [.req tblA (.opendir 1)])
    (P := fun y => Cache.parent y.disk 1 = .ok 1 ∧ Cache.lookup y.disk 1 [0x61] = .ok (.ok 2) ∧
      (match dispatch tblA.backend y.disk y.refs (.readdir 1 80 0) with
        | .ok st => decide (st.fault = none) && (match st.sent with | [.buf [e1, e2] _] => decide (e1.name = [0x2e] ∧ e2.name = [0x61] ∧ e2.off = 2) | _ => false)
        | .error _ => false) = true) (by decide +kernel)
  obtain ⟨y', g1, g2, g3, g4, g5⟩ := demoFS_ex (l := [.req tblA (.opendir 1), .req {} (.lookup 1 [0x61])])
    (P := fun y => Cache.parent y.disk 1 = .ok 1 ∧ Cache.lookup y.disk 1 [0x61] = .ok (.error ENOENT) ∧
      (match dispatch tblA.backend y.disk y.refs (.readdir 1 80 2) with
        | .ok st => decide (st.fault = none) && (match st.sent with | [.buf [e1] _] => decide (e1.name = [0x6c] ∧ e1.off = 3) | _ => false)
        | .error _ => false) = true ∧
      (match dispatch tblA.backend y.disk y.refs (.readdir 1 4096 3) with
        | .ok st => decide (st.fault = none) && decide (st.sent = [.buf [] 0])
        | .error _ => false) = true) (by decide +kernel)
  refine ⟨y, y', ⟨h1, h2⟩, ⟨g1, g2⟩, h3, g3, ?_⟩
  split at h4
  rotate_left
  · cases h4
  rename_i st hst
  rw [Bool.and_eq_true, decide_eq_true_eq] at h4
  obtain ⟨f1, h4⟩ := h4
  split at h4
  rotate_left
  · cases h4
  rename_i e1 e2 n hs
  split at g4
  rotate_left
  · cases g4
  rename_i st' hst'
  rw [Bool.and_eq_true, decide_eq_true_eq] at g4
  obtain ⟨f2, g4⟩ := g4
  split at g4
  rotate_left
  · cases g4
  rename_i e3 n' hs'
  split at g5
  rotate_left
  · cases g5
  rename_i st'' hst''
  rw [Bool.and_eq_true, decide_eq_true_eq, decide_eq_true_eq] at g5
  simp only [decide_eq_true_eq] at h4 g4
  have b3 : PagingOver 1 e3.off [y'] [] := by rw [g4.2]; exact .eof (size := 4096) (by decide) (.rd ⟨st'', hst'', g5.1, g5.2, rfl⟩)
  have b2 : PagingOver 1 e2.off [y', y'] ([] ++ [e3] ++ []) := by rw [h4.2.2]; exact .more (.rd ⟨st', hst', f2, hs', rfl⟩) b3
  have b1 : PagingOver 1 0 [y, y', y'] ([e1] ++ [e2] ++ ([] ++ [e3] ++ [])) := .more (.rd ⟨st, hst, f1, hs, rfl⟩) b2
  exact ⟨_, b1, by simp [h4.1, h4.2.1, g4.1]⟩

end Dragonstash.FS
