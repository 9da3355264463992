/-
  C92: listings which are read page by page while several threads serve requests.
-/
import Verif.Props.LocalWhole
namespace Dragonstash.MT
open Cache FS Conc

/-! ### Specification -/

/-- A `readdir` or `readdirplus` request, which was answered with the entries `l`. -/
inductive PageQ (q : Done) (dir : Ino) (size off : Nat) (l : List DEnt) : Prop
  | rd {n} : q.rq = .readdir dir size off → q.rep = .buf l n → PageQ q dir size off l
  | plus {n} : q.rq = .readdirplus dir size off → q.rep = .bufPlus l n → PageQ q dir size off l

/-- The kernel reads a directory in pages: by the requests with the numbers `ks`, each continuing at the offset of the
last entry received (`hist` are the requests which have ended; all others are served by any threads at any
times). It ends with an empty reply to a request with space for any entry, or with the error which says that the
directory is not completely cached. -/
inductive Listing (hist : List Done) (dir : Ino) : Nat → List Nat → List DEnt → Prop
  | more {k q size off p e ks l} : hist[k]? = some q → PageQ q dir size off (p ++ [e]) → Listing hist dir e.off ks l → Listing hist dir off (k :: ks) (p ++ [e] ++ l)
  | eof {k q size off} : hist[k]? = some q → 656 < size → PageQ q dir size off [] → Listing hist dir off [k] []
  | incomplete {k q size off} : hist[k]? = some q → q.rq = .readdir dir size off → q.rep = .err EIO → Listing hist dir off [k] []

/-! ### Pages -/

/-- A page: the stream of entries, of which some are left out because they have been removed. -/
structure Page (d : DB) (r : Refs) (dir : Ino) (size off : Nat) (l : List DEnt) : Prop where
  ex : ∃ (L : List Ent) (f : Ent → Bool) (K : List Ent) (K' : List Ent), Stream d dir off L 0 true ∧ L.filter f = K ++ K' ∧ l = K.map Ent.dent ∧
    (∀ x ∈ L, cstr x.2.1 = x.2.1) ∧ (∀ x, f x = false → isDot x.2.1 = false ∧ (r x.1).doomed = true) ∧ (656 < size → l = [] → L.filter f = [])

theorem saw_page {P : Tree → Prop} {d d' : DB} {q : Done} (h : Saw P d d' q) {dir p : Ino} (hd : dir < W64) (hp0 : p ≠ 0) (hp : Cache.parent d dir = .ok p) {size off : Nat} {l : List DEnt}
    (hq : PageQ q dir size off l) : ∃ s1 r, SI s1 d' r ∧ Page d r dir size off l := by
  obtain ⟨rq, B, v, rep⟩ := q
  cases h with
  | @wrote s r s' r' hr k1 ho hin hon hnx hnx2 k3 k4 => cases hq with
    | rd h1 => simp only at h1 hr; rw [h1] at hr; cases hr
    | plus h1 => simp only at h1 hr; rw [h1] at hr; cases hr
  | @read s r st s1 hr hrep ok wf ho hin hret hcnt hh hsent hf hsi =>
    refine ⟨s1, r, hsi, ?_⟩
    have k1 := si_empty hrep ok wf
    obtain ⟨L, e, b, g1, g2, g3, g4, -, -⟩ := stream_exists k1 (c := off) hd
    obtain ⟨rfl, rfl⟩ := g4 ((linked_iff k1 hd).mpr ⟨p, hp, hp0⟩)
    have hn : ∀ x ∈ L, cstr x.2.1 = x.2.1 := fun x hx => cstr_eq (g3 x hx).1.2.1
    have hfit : ∀ hdr, hdr ≤ 152 → 656 < size → ∀ L' : List Ent, (∀ x ∈ L', x ∈ L) → fitFrom hdr size 0 (L'.map Ent.dent) = [] → L' = [] := by
      intro hdr hh hs L' hL hf
      cases L' with
      | nil => rfl
      | cons x t =>
        have : entSize hdr x.dent ≤ 656 := by
          have hx := hL x (by simp)
          have h1 := (g3 x hx).1.1
          unfold entSize Ent.dent mkDEnt
          simp only [hn x hx]
          omega
        rw [List.map_cons, fitFrom, if_pos (by omega)] at hf
        cases hf
    simp only at hh hsent hin hr
    cases hq with
    | @rd n h1 h2 =>
      simp only at h1 h2
      subst h1 h2
      simp only [handle] at hh
      rw [readdir_page (st := { disk := d, refs := r }) ⟨rfl, rfl⟩ g1 g2] at hh
      cases hh
      simp only [reply_fresh, done, List.cons.injEq, and_true] at hsent
      split at hsent
      · cases hsent
      · simp only [Reply.buf.injEq] at hsent
        have hl := hsent.1.symm
        have hfl : L.filter (fun _ => true) = L := List.filter_eq_self.mpr (fun _ _ => rfl)
        by_cases hz : 0 < size
        · obtain ⟨rest, f1, -, -⟩ := fitFrom_spec 24 size (L.map Ent.dent) 0 hz
          obtain ⟨K, K', hPQ, hP, hQ⟩ := List.map_eq_append_iff.mp f1
          refine ⟨L, fun _ => true, K, K', g1, by rw [hfl, hPQ], by rw [hl, hP], hn, (fun x hx => absurd hx (by simp)), fun hs hl0 => ?_⟩
          rw [hfl]; exact hfit 24 (by decide) hs L (fun _ h => h) (by rw [← hl]; exact hl0)
        · have h0 : fitFrom 24 size 0 (L.map Ent.dent) = [] := by
            cases L with
            | nil => rfl
            | cons x t => rw [List.map_cons, fitFrom, if_neg (by omega)]
          exact ⟨L, fun _ => true, [], L, g1, hfl, by rw [hl, h0]; rfl, hn, (fun x hx => absurd hx (by simp)), fun hs => by omega⟩
    | @plus n h1 h2 =>
      simp only at h1 h2
      subst h1 h2
      have hlen : ∀ i, (r i).nrefs + L.length < W64 := fun i => by have := hcnt i; omega
      have hdrop : ∀ x : Ent, (isDot x.2.1 || !(r x.1).doomed) = false → isDot x.2.1 = false ∧ (r x.1).doomed = true := by
        intro x hx
        cases h1 : isDot x.2.1 <;> cases h2 : (r x.1).doomed <;> simp [h1, h2] at hx ⊢
      have hsub : ∀ x ∈ lockable r L, x ∈ L := fun x hx => (List.mem_filter.mp hx).1
      simp only [handle] at hh
      rcases readdirplus_stale (r := r) g1 g2 hlen (size := size) with ⟨-, -, g⟩ | ⟨hz, g⟩ | ⟨-, K, x, Q, g0, gf, g⟩
      · rw [g] at hh; cases hh
        simp only [done, ne_eq, not_true, if_false, List.cons.injEq, and_true, Reply.bufPlus.injEq] at hsent
        refine ⟨L, fun x => isDot x.2.1 || !(r x.1).doomed, lockable r L, [], g1, by rw [List.append_nil]; rfl, hsent.1.symm, hn, hdrop, fun hs hl0 => ?_⟩
        rw [← hsent.1] at hl0
        exact List.map_eq_nil_iff.mp hl0
      · rw [g] at hh; cases hh
        simp only [done, List.cons.injEq, and_true, Reply.bufPlus.injEq] at hsent
        exact ⟨L, fun x => isDot x.2.1 || !(r x.1).doomed, [], lockable r L, g1, rfl, hsent.1.symm, hn, hdrop, fun hs => by omega⟩
      · rw [g] at hh; cases hh
        simp only [done, List.cons.injEq, and_true, Reply.bufPlus.injEq] at hsent
        refine ⟨L, fun x => isDot x.2.1 || !(r x.1).doomed, K, x :: Q, g1, g0, hsent.1.symm, hn, hdrop, fun hs hl0 => ?_⟩
        exact hfit 152 (by decide) hs (lockable r L) hsub (by rw [gf, hsent.1]; exact hl0)

/-- Request number `k` sees databases in which the directory has the parent `p`. -/
def SeesAt (ds : List DB) (hist : List Done) (k : Nat) (dir p : Ino) : Prop :=
  ∃ q d, hist[k]? = some q ∧ seen ds k q = some d ∧ Cache.parent d dir = .ok p

/-- Entry `i` was gone after request number `k`. -/
def GoneAfter (ds : List DB) (k : Nat) (i : Ino) : Prop := ∃ d, ds[k + 1]? = some d ∧ ∀ dir m, dir < W64 → Cache.lookup d dir m ≠ .ok (.ok i)

theorem readOver_eof {d : DB} {dir : Ino} : ∀ {L : List Ent} {c : Ino}, Stream d dir c L 0 true → ReadOver dir c (List.replicate (L.length + 1) d) (L.map (fun x => (x.1, x.2.1))) := by
  intro L
  induction L with
  | nil =>
    intro c h
    generalize he : (0 : Errno) = e, hb : true = b at h
    cases h with
    | stop h => subst he; exact .eof h
    | noattr => cases hb
  | cons x L ih =>
    intro c h
    cases h with
    | entry h1 _ h3 => exact .entry h1 (ih h3)

theorem listing_read {P : Tree → Prop} {ds : List DB} {hist : List Done} (hP : PInv P ds hist) {dir p : Ino} (hd : dir < W64) (hp0 : p ≠ 0) {off : Nat} {ks : List Nat} {l : List DEnt}
    (h : Listing hist dir off ks l) : (∀ k ∈ ks, SeesAt ds hist k dir p) →
    ∃ es l', (∀ d ∈ es, ∃ k ∈ ks, ∃ q, hist[k]? = some q ∧ seen ds k q = some d) ∧ ReadOver dir off es l' ∧ (l.map (fun e => (e.stat.ino, e.name))).Sublist l' ∧
      ∀ x ∈ l', x ∈ l.map (fun e => (e.stat.ino, e.name)) ∨ isDot x.2 = false ∧ ∃ k ∈ ks, GoneAfter ds k x.1 := by
  have doomed : ∀ {s1 : Tree} {d' : DB} {r : Refs} {k : Nat} {i : Ino}, SI s1 d' r → ds[k + 1]? = some d' → (r i).doomed = true → GoneAfter ds k i := by
    intro s1 d' r k i hsi hk hdm
    refine ⟨d', hk, fun dir m hdir hl => ?_⟩
    obtain ⟨nd, h1, -⟩ := (hsi.rep.lookup_iff hsi.ok hdir).mp hl
    rw [hsi.not_doomed h1] at hdm; cases hdm
  induction h with
  | @more k q size off a e ks l hk hpg hrest ih =>
    intro hks
    obtain ⟨q1, d, h1, h2, h3⟩ := hks k (by simp)
    rw [hk] at h1; cases h1
    obtain ⟨d1, d', e1, e2, e3⟩ := hP.saw k q hk
    rw [h2] at e1; cases e1
    obtain ⟨s1, r, hsi, ⟨L, f, K, K', g1, g2, g3, g4, g5, -⟩⟩ := saw_page e3 hd hp0 h3 hpg
    obtain ⟨es, l', i1, i2, i3, i4⟩ := ih (fun k hk => hks k (by simp [hk]))
    -- the last entry received
    obtain ⟨K0, z, rfl, hK0, hze⟩ : ∃ K0 z, K = K0 ++ [z] ∧ K0.map Ent.dent = a ∧ z.dent = e := by
      obtain ⟨K0, z', a1, a2, a3⟩ := List.map_eq_append_iff.mp g3.symm
      cases z' with
      | nil => simp at a3
      | cons z b1 =>
        simp at a3
        obtain ⟨a3, rfl⟩ := a3
        exact ⟨K0, z, a1, a2, a3⟩
    rw [List.append_assoc] at g2
    obtain ⟨A, A2, rfl, hA, hA2⟩ := List.filter_eq_append_iff.mp g2
    rw [List.singleton_append] at hA2
    obtain ⟨A3, Q, rfl, hA3, hz, hQ⟩ := List.filter_eq_cons_iff.mp hA2
    have hst : Stream d dir off ((A ++ A3) ++ z :: Q) 0 true := by rw [List.append_assoc]; exact g1
    have hoff : e.off = z.1 := by rw [← hze]; exact rfl
    rw [hoff] at i2
    have hro := ReadOver.prepend hst i2
    -- what is received is what is not left out
    have conv : ∀ {X : List Ent}, (∀ x ∈ X, cstr x.2.1 = x.2.1) → (X.map Ent.dent).map (fun e : DEnt => (e.stat.ino, e.name)) = X.map (fun x => (x.1, x.2.1)) := by
      intro X hX
      rw [List.map_map]
      exact List.map_congr_left (fun x hx => by
        show (x.1, cstr x.2.1) = _
        rw [hX x hx])
    have hf0 : (A ++ A3 ++ [z]).filter f = K0 ++ [z] := by
      rw [List.filter_append, List.filter_append, hA, List.filter_eq_nil_iff.mpr hA3]
      simp [hz]
    have hmem : ∀ x ∈ A ++ A3 ++ [z], x ∈ A ++ (A3 ++ z :: Q) := by
      intro x hx
      simp only [List.mem_append, List.mem_cons, List.mem_singleton, List.not_mem_nil, or_false] at hx ⊢
      rcases hx with (h | h) | h
      · exact .inl h
      · exact .inr (.inl h)
      · exact .inr (.inr (.inl h))
    have hgot : (a ++ [e]).map (fun e : DEnt => (e.stat.ino, e.name)) = ((A ++ A3 ++ [z]).filter f).map (fun x => (x.1, x.2.1)) := by
      rw [g3, hf0]
      exact conv (fun x hx => g4 x (hmem x (by rw [← hf0] at hx; exact (List.mem_filter.mp hx).1)))
    refine ⟨List.replicate ((A ++ A3).length + 1) d ++ es, _, ?_, hro, ?_, ?_⟩
    · intro x hx
      rcases List.mem_append.mp hx with hx | hx
      · rw [List.eq_of_mem_replicate hx]; exact ⟨k, by simp, q, hk, h2⟩
      · obtain ⟨k1, b1, b2⟩ := i1 x hx
        exact ⟨k1, by simp [b1], b2⟩
    · rw [List.map_append, hgot]
      exact List.Sublist.append (List.Sublist.map _ List.filter_sublist) i3
    · intro x hx
      rcases List.mem_append.mp hx with hx | hx
      · obtain ⟨y, hy, rfl⟩ := List.mem_map.mp hx
        cases hfy : f y with
        | true =>
          left
          rw [List.map_append, hgot]
          exact List.mem_append_left _ (List.mem_map.mpr ⟨y, List.mem_filter.mpr ⟨hy, hfy⟩, rfl⟩)
        | false => exact .inr ⟨(g5 y hfy).1, k, by simp, doomed hsi e2 (g5 y hfy).2⟩
      · rcases i4 x hx with b | ⟨b1, k1, b2, b3⟩
        · left; rw [List.map_append]; exact List.mem_append_right _ b
        · exact .inr ⟨b1, k1, by simp [b2], b3⟩
  | @eof k q size off hk hsz hpg =>
    intro hks
    obtain ⟨q1, d, h1, h2, h3⟩ := hks k (by simp)
    rw [hk] at h1; cases h1
    obtain ⟨d1, d', e1, e2, e3⟩ := hP.saw k q hk
    rw [h2] at e1; cases e1
    obtain ⟨s1, r, hsi, ⟨L, f, K, K', g1, g2, g3, g4, g5, g6⟩⟩ := saw_page e3 hd hp0 h3 hpg
    have hnone := List.filter_eq_nil_iff.mp (g6 hsz rfl)
    refine ⟨_, _, ?_, readOver_eof g1, List.nil_sublist _, fun x hx => ?_⟩
    · intro x hx
      rw [List.eq_of_mem_replicate hx]; exact ⟨k, by simp, q, hk, h2⟩
    · obtain ⟨y, hy, rfl⟩ := List.mem_map.mp hx
      have hfy : f y = false := by simpa using hnone y hy
      exact .inr ⟨(g5 y hfy).1, k, by simp, doomed hsi e2 (g5 y hfy).2⟩
  | @incomplete k q size off hk hrq hrep =>
    intro hks
    obtain ⟨q1, d, h1, h2, h3⟩ := hks k (by simp)
    rw [hk] at h1; cases h1
    obtain ⟨d1, d', e1, e2, e3⟩ := hP.saw k q hk
    rw [h2] at e1; cases e1
    obtain ⟨rq, B, v, rep⟩ := q
    simp only at hrq hrep
    subst hrq hrep
    cases e3 with
    | wrote hr => cases hr
    | @read s r st s1 hr hrep ok wf ho hin hret hcnt hh hsent hf hsi =>
      have k1 := si_empty hrep ok wf
      obtain ⟨L, e, b, g1, g2, g3, g4, -, -⟩ := stream_exists k1 (c := off) hd
      obtain ⟨rfl, rfl⟩ := g4 ((linked_iff k1 hd).mpr ⟨p, h3, hp0⟩)
      simp only [handle] at hh
      rw [readdir_page (st := { disk := d, refs := r }) ⟨rfl, rfl⟩ g1 g2] at hh
      cases hh
      simp only [reply_fresh, done, List.cons.injEq, and_true] at hsent
      split at hsent
      · rename_i hc
        obtain ⟨-, rfl, -⟩ := hc
        refine ⟨_, _, ?_, readOver_eof g1, List.nil_sublist _, fun x hx => by cases hx⟩
        intro x hx
        rw [List.eq_of_mem_replicate hx]; exact ⟨k, by simp, _, hk, h2⟩
      · cases hsent

/-- What is true of a listing which was read by the requests `ks`: it begins with `.` and `..`; no inode is
listed twice; what is listed was in the directory, in the databases which one of the requests saw; and what was
in the directory all the time (in the databases which each request saw and in those when it ended) is listed. -/
def ListingRight (ds : List DB) (hist : List Done) (dir p : Ino) (ks : List Nat) (l : List DEnt) : Prop :=
  ∃ es, l.map (fun e => (e.stat.ino, e.name)) = (dir, [0x2e]) :: (if dir = 1 then [] else [(p, [0x2e, 0x2e])]) ++ es ∧ (es.map Prod.fst).Nodup ∧
    (∀ i m, (∀ k ∈ ks, ∀ q d d', hist[k]? = some q → seen ds k q = some d → ds[k + 1]? = some d' → Cache.lookup d dir m = .ok (.ok i) ∧ Cache.lookup d' dir m = .ok (.ok i)) → (i, m) ∈ es) ∧
    ∀ x ∈ es, ∃ k ∈ ks, ∃ q d, hist[k]? = some q ∧ seen ds k q = some d ∧ Cache.lookup d dir x.2 = .ok (.ok x.1)

theorem listing_right {P : Tree → Prop} {ds : List DB} {hist : List Done} (hP : PInv P ds hist) (htree : ∀ d ∈ ds, ∃ s : Tree, Rep s d ∧ s.OK ∧ s.WF)
    {dir p : Ino} (hd : dir < W64) (hd0 : dir ≠ 0) (hp0 : p ≠ 0) {ks : List Nat} {l : List DEnt}
    (hks : ∀ k ∈ ks, SeesAt ds hist k dir p) (h : Listing hist dir 0 ks l) : ListingRight ds hist dir p ks l := by
  obtain ⟨es, l', h1, h2, h3, h4⟩ := listing_read hP hd hp0 h hks
  have mem : ∀ {k q d}, seen ds k q = some d → d ∈ ds := by
    intro k q d hs
    unfold seen at hs
    split at hs <;> exact List.mem_of_getElem? hs
  have hpl : ∀ d ∈ es, Placed dir p d := by
    intro d hm
    obtain ⟨k, hk, q, g1, g2⟩ := h1 d hm
    obtain ⟨q', d', g3, g4, g5⟩ := hks k hk
    rw [g1] at g3; cases g3
    rw [g2] at g4; cases g4
    obtain ⟨s, b1, b2, b3⟩ := htree d (mem g2)
    exact ⟨s, b1, b2, b3, g5⟩
  obtain ⟨rest, g1, g2, g3, g4⟩ := readOver_all hd hd0 hp0 hpl h2
  have ent : ∀ x ∈ rest, x.1 ≠ dir ∧ x.1 ≠ p := by
    intro x hx
    obtain ⟨k, d, -, b1, b2⟩ := g4 x hx
    obtain ⟨s, c1, c2, c3, c4⟩ := hpl d (List.mem_of_getElem? b1)
    obtain ⟨n1, n2⟩ := Placed.at_ne c1 c2 c3 hd c4
    obtain ⟨e1, -, -, e2⟩ := n2 ((c1.lookup_iff c2 hd).mp b2)
    exact ⟨e1, e2⟩
  generalize hl : l.map (fun e : DEnt => (e.stat.ino, e.name)) = lm at h3 h4
  subst g1
  -- the first entries are there
  have hdot : (dir, [0x2e]) ∈ lm := by
    rcases h4 (dir, [0x2e]) (by simp) with b | ⟨b, -⟩
    · exact b
    · cases b
  rw [List.cons_append] at h3
  obtain ⟨lm1, rfl, t3⟩ : ∃ lm1, lm = (dir, [0x2e]) :: lm1 ∧ lm1.Sublist ((if dir = 1 then [] else [(p, [0x2e, 0x2e])]) ++ rest) := by
    generalize hX : (if dir = 1 then [] else [(p, ([0x2e, 0x2e] : Bytes))]) ++ rest = X at h3
    cases h3 with
    | cons _ h3 =>
      exfalso
      have := h3.subset hdot
      rw [← hX] at this
      rcases List.mem_append.mp this with b | b
      · split at b
        · cases b
        · simp at b
      · exact (ent _ b).1 rfl
    | cons_cons _ h3 => exact ⟨_, rfl, h3⟩
  obtain ⟨lm2, rfl, u3⟩ : ∃ lm2, lm1 = (if dir = 1 then [] else [(p, [0x2e, 0x2e])]) ++ lm2 ∧ lm2.Sublist rest := by
    by_cases hr : dir = 1
    · rw [if_pos hr] at t3 ⊢; exact ⟨lm1, rfl, t3⟩
    · rw [if_neg hr] at t3 h4 ⊢
      have hdd : (p, [0x2e, 0x2e]) ∈ (dir, [0x2e]) :: lm1 := by
        rcases h4 (p, [0x2e, 0x2e]) (by simp) with b | ⟨b, -⟩
        · exact b
        · cases b
      have hdd : (p, [0x2e, 0x2e]) ∈ lm1 := by
        rcases List.mem_cons.mp hdd with b | b
        · simp at b
        · exact b
      rw [List.singleton_append] at t3
      cases t3 with
      | cons _ t3 => exact absurd rfl (ent _ (t3.subset hdd)).2
      | cons_cons _ t3 => exact ⟨_, rfl, t3⟩
  refine ⟨lm2, by rw [hl]; rfl, List.Sublist.nodup (List.Sublist.map _ u3) g2, fun i m hm => ?_, fun x hx => ?_⟩
  · have hin := g3 i m (fun d hdm => by
      obtain ⟨k, hk, q, b1, b2⟩ := h1 d hdm
      obtain ⟨-, d', -, b3, -⟩ := hP.saw k q b1
      exact (hm k hk q d d' b1 b2 b3).1)
    rcases h4 (i, m) (by simp [hin]) with b | ⟨-, k, b1, d', b2, b3⟩
    · rcases List.mem_cons.mp b with b | b
      · exact absurd (congrArg Prod.fst b) (ent _ hin).1
      rcases List.mem_append.mp b with b | b
      · split at b
        · cases b
        · exact absurd (congrArg Prod.fst (List.mem_singleton.mp b)) (ent _ hin).2
      · exact b
    · obtain ⟨q, d, c1, c2, -⟩ := hks k b1
      exact absurd (hm k b1 q d d' c1 c2 b2).2 (b3 dir m hd)
  · obtain ⟨k, d, -, b1, b2⟩ := g4 x (u3.subset hx)
    obtain ⟨k', c1, q, c2, c3⟩ := h1 d (List.mem_of_getElem? b1)
    exact ⟨k', c1, q, d, c2, c3, b2⟩

/-- C92: a directory is read in pages while any number of threads serve other requests, which may change it in any way,
as long as it stays where it is. -/
theorem C92_listing {m : MSys} (h : MReach m) : ∃ d0 r0 threads ds R, Steps (MSys.start d0 r0 threads) m ∧ OneByOne d0 r0 ds R m.hist ∧ ds.getLast? = some m.w.disk ∧
    ∀ {dir p : Ino} {ks : List Nat} {l : List DEnt}, dir < W64 → dir ≠ 0 → p ≠ 0 → (∀ k ∈ ks, SeesAt ds m.hist k dir p) → Listing m.hist dir 0 ks l → ListingRight ds m.hist dir p ks l := by
  obtain ⟨d0, r0, n, L, H, vs, R, ds, s, hst, hM, hR, hP⟩ := h.any.inv kept_true
  refine ⟨d0, r0, n, ds, R, hst, hM.one, hM.last, fun hd hd0 hp0 hks hl => listing_right hP (fun d hd => ?_) hd hd0 hp0 hks hl⟩
  obtain ⟨⟨s2, hold⟩, -⟩ := hR.old d hd
  exact ⟨s2, hold.rep, hold.ok, hold.wf⟩

/-! ### Finding listings in examples -/

/-- The entries with which a request for a page at `off` was answered, and the size asked for. -/
def pageB (q : Done) (dir : Ino) (off : Nat) : Option (Nat × List DEnt) :=
  match q.rq, q.rep with
  | .readdir i size o, .buf l _ => if i = dir ∧ o = off then some (size, l) else none
  | .readdirplus i size o, .bufPlus l _ => if i = dir ∧ o = off then some (size, l) else none
  | _, _ => none

theorem pageB_ok {q : Done} {dir off size : Nat} {l : List DEnt} (h : pageB q dir off = some (size, l)) : PageQ q dir size off l := by
  unfold pageB at h
  split at h
  · rename_i i sz o l' n h1 h2
    by_cases hc : i = dir ∧ o = off
    · rw [if_pos hc] at h; cases h; obtain ⟨rfl, rfl⟩ := hc; exact .rd h1 h2
    · rw [if_neg hc] at h; cases h
  · rename_i i sz o l' n h1 h2
    by_cases hc : i = dir ∧ o = off
    · rw [if_pos hc] at h; cases h; obtain ⟨rfl, rfl⟩ := hc; exact .plus h1 h2
    · rw [if_neg hc] at h; cases h
  · cases h

def listingB (hist : List Done) (dir : Ino) : Nat → List Nat → Option (List DEnt)
  | _, [] => none
  | off, k :: ks => match hist[k]? with
    | none => none
    | some q => if q.rep = .err EIO then (match q.rq with
        | .readdir i _ o => if i = dir ∧ o = off ∧ ks = [] then some [] else none
        | _ => none)
      else match pageB q dir off with
      | none => none
      | some (size, p) => match p.getLast? with
        | none => if 656 < size ∧ ks = [] then some [] else none
        | some e => match listingB hist dir e.off ks with
          | none => none
          | some l => some (p ++ l)

theorem listingB_ok {hist : List Done} {dir : Ino} : ∀ {ks : List Nat} {off : Nat} {l : List DEnt}, listingB hist dir off ks = some l → Listing hist dir off ks l := by
  intro ks
  induction ks with
  | nil => intro off l h; cases h
  | cons k ks ih =>
    intro off l h
    unfold listingB at h
    cases hk : hist[k]? with
    | none => rw [hk] at h; cases h
    | some q =>
      rw [hk] at h
      simp only at h
      by_cases he : q.rep = .err EIO
      · rw [if_pos he] at h
        split at h
        · rename_i i sz o h1
          by_cases hc : i = dir ∧ o = off ∧ ks = []
          · rw [if_pos hc] at h; cases h; obtain ⟨rfl, rfl, rfl⟩ := hc; exact .incomplete hk h1 he
          · rw [if_neg hc] at h; cases h
        · cases h
      · rw [if_neg he] at h
        cases hp : pageB q dir off with
        | none => rw [hp] at h; cases h
        | some x =>
          obtain ⟨size, p⟩ := x
          rw [hp] at h
          simp only at h
          cases hg : p.getLast? with
          | none =>
            rw [hg] at h
            simp only at h
            obtain rfl := List.getLast?_eq_none_iff.mp hg
            by_cases hc : 656 < size ∧ ks = []
            · rw [if_pos hc] at h; cases h; obtain ⟨h1, rfl⟩ := hc; exact .eof hk h1 (pageB_ok hp)
            · rw [if_neg hc] at h; cases h
          | some e =>
            rw [hg] at h
            simp only at h
            obtain ⟨p', rfl⟩ := List.getLast?_eq_some_iff.mp hg
            cases hl : listingB hist dir e.off ks with
            | none => rw [hl] at h; cases h
            | some l1 => rw [hl] at h; cases h; exact .more hk (pageB_ok hp) (ih hl)

end Dragonstash.MT
