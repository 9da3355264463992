/-
  Requests which only read the databases, on an older version of them: the reference table is the
  present one, so inodes which were removed meanwhile are doomed there.
-/
import Verif.FS.Facts
import Verif.FS.Inv
namespace Dragonstash.FS
open Cache Codec
variable {s s' s0 : Tree} {d d' dn : DB} {r r' : Refs}

theorem eff_doomed (h : Eff s r s' r') {i} (hd : (r i).doomed = true) : (r' i).doomed = true := by
  induction h with
  | refl => exact hd
  | set => exact hd
  | orphan => exact hd
  | add => exact hd
  | collect _ _ h3 => exact (h3 i).2.mpr (.inl hd)
  | trans _ _ ih1 ih2 => exact ih2 (ih1 hd)

/-- An inode stays, or its number is doomed. -/
theorem eff_keep (h : Eff s r s' r') (ok : s.OK) {i nd} (hi : s.nodes i = some nd) :
    (∃ nd', s'.nodes i = some nd') ∨ (r' i).doomed = true := by
  induction h generalizing nd with
  | refl => exact .inl ⟨nd, hi⟩
  | @set s r j x x' h1 h2 h3 h4 =>
    by_cases e : i = j
    · subst e; exact .inl ⟨x', Tree.set_self⟩
    · exact .inl ⟨nd, by rw [Tree.set_ne e]; exact hi⟩
  | @orphan s r j =>
    by_cases e : i = j
    · subst e; exact .inl ⟨_, Tree.orphan_self hi⟩
    · exact .inl ⟨nd, by rw [Tree.orphan_ne e]; exact hi⟩
  | add => exact .inl ⟨nd, by rw [Tree.add_ne (OK.ne_next ok hi)]; exact hi⟩
  | @collect s s' r r' h1 h2 h3 =>
    by_cases hg : Gone s (locked r) i
    · exact .inr ((h3 i).2.mpr (.inr hg))
    · obtain ⟨nd', h4, -⟩ := h2.fwd hi hg
      exact .inl ⟨nd', h4⟩
  | @trans s1 r1 s2 r2 s3 r3 e1 e2 ih1 ih2 =>
    rcases ih1 ok hi with ⟨nd', h1⟩ | h1
    · exact ih2 (e1.ok ok) h1
    · exact .inr (eff_doomed e2 h1)

theorem foldl_subRef_doomed (l : List (Ino × Nat)) : ∀ (r : Refs) (i : Ino), (l.foldl (fun r x => subRef r x.1 x.2) r i).doomed = (r i).doomed := by
  induction l with
  | nil => intro r i; rfl
  | cons x l ih => intro r i; rw [List.foldl_cons, ih, subRef_doomed]

/-- The effect of a request on the tree and on the doomed numbers. -/
theorem abs_eff' {B rq rep} (h : Abs B d s r rq rep s' r') (hi : SI s d r) (hr : rq.inRange) (hd : rq.onDir d) (hn : s.next + 1 < W64) :
    ∃ r1, Eff s r s' r1 ∧ ∀ i, (r' i).doomed = (r1 i).doomed := by
  have dir : ∀ {p cs}, p < W64 → s.PathTo p cs → (∀ x, Cache.getattr d p = .ok x → fmt x.2.mode = S_IFDIR) → s.IsDir p := by
    intro p cs hb hp hd
    obtain ⟨nd, hnd⟩ := conn_exists hi.ok ⟨cs, hp⟩
    exact isDir_of hi hb hd hnd
  cases h with
  | lkBad h1 _ h3 => exact ⟨_, (h3.eff hi.ok (dir hr h1 hd) hn).1, fun _ => rfl⟩
  | lkPut h1 _ h3 => exact ⟨_, (h3.eff hi.ok (dir hr h1 hd) hn).1, fun i => addRef_doomed ..⟩
  | lkHit => exact ⟨_, .refl, fun i => addRef_doomed ..⟩
  | lkErr _ _ _ _ h3 => exact ⟨_, h3.eff.1, fun _ => rfl⟩
  | forget => exact ⟨_, .refl, fun i => subRef_doomed ..⟩
  | forgetMulti => exact ⟨_, .refl, fun i => foldl_subRef_doomed ..⟩
  | rlPut _ _ h3 h4 => exact ⟨_, .set h3 rfl rfl (fun _ _ => h4), fun _ => rfl⟩
  | rlErr _ _ _ _ h3 => exact ⟨_, h3.eff.1, fun _ => rfl⟩
  | odSync _ _ h3 =>
    cases h3 with
    | @mk s1 _ nd rw h1 h2 h3 h4 h5 h6 =>
      have hset : Eff s1 r' (s1.set _ { nd with flags := newFlags nd.flags [SYNCED] [] }) r' := .set h3 rfl rfl (fun t ht => h4.target _ nd t h3 ht)
      refine ⟨r', .trans h6 (.trans hset ?_), fun _ => rfl⟩
      generalize s1.set _ { nd with flags := newFlags nd.flags [SYNCED] [] } = x
      clear h5 h2 hset
      generalize marks rw = l
      induction l generalizing x with
      | nil => exact .refl
      | cons j l ih => exact .trans (.orphan j) (ih _)
  | plAll => exact ⟨_, .refl, fun i => plusRefs_doomed ..⟩
  | plPart => exact ⟨_, .refl, fun i => plusRefs_doomed ..⟩
  | _ => exact ⟨_, .refl, fun _ => rfl⟩

/-! ### readdirplus with entries which were removed meanwhile -/

/-- The entries which are not left out: `.` and `..`, and those which can be locked. -/
def lockable (r : Refs) (l : List Ent) : List Ent := l.filter (fun x => isDot x.2.1 || !(r x.1).doomed)

theorem lock_stale {t : Txn} {i} (h : (t.refs i).doomed = true) : Cache.lock t i = (t, .error ESTALE) := by
  simp only [Cache.lock, Refs.incref, h, if_true]

theorem lockable_congr {r1 r2 : Refs} (h : ∀ i, (r1 i).doomed = (r2 i).doomed) (l : List Ent) : lockable r1 l = lockable r2 l := by
  unfold lockable
  congr 1
  funext x; rw [h]

theorem plusLoop_stale {dir : Ino} {size : Nat} {c : Ino} {l : List Ent} {e : Errno} {b : Bool} (hs : Stream d dir c l e b) :
    ∀ (f : Nat) (buf : List DEnt) (ts : Nat) (t : Txn), t.db = d → (∀ i, (t.refs i).nrefs + l.length < W64) →
    l.length < f → bufLen 152 buf < size →
    (fitFrom 152 size (bufLen 152 buf) ((lockable t.refs l).map Ent.dent) = (lockable t.refs l).map Ent.dent ∧ ∃ t',
      plusLoop t dir size f c buf ts = .ok (.inl (t', ⟨buf ++ (lockable t.refs l).map Ent.dent, bufLen 152 (buf ++ (lockable t.refs l).map Ent.dent), e, false⟩)) ∧
      t'.db = d ∧ t'.refs = plusRefs t.refs (lockable t.refs l)) ∨
    (∃ t' P x Q, lockable t.refs l = P ++ x :: Q ∧ fitFrom 152 size (bufLen 152 buf) ((lockable t.refs l).map Ent.dent) = P.map Ent.dent ∧
      plusLoop t dir size f c buf ts = .ok (.inl (t', ⟨buf ++ P.map Ent.dent ++ [x.dent], bufLen 152 (buf ++ P.map Ent.dent), 0, false⟩)) ∧
      t'.db = d ∧ t'.refs = plusRefs t.refs (P ++ [x])) := by
  induction hs with
  | stop h =>
    intro f buf ts t ht hcnt hf hb
    obtain ⟨f, rfl⟩ : ∃ g, f = g + 1 := ⟨f - 1, by simp at hf; omega⟩
    left
    refine ⟨rfl, t, ?_, ht, rfl⟩
    rw [plusLoop, if_pos hb, ht, h]
    simp [lockable]
  | noattr h h2 =>
    intro f buf ts t ht hcnt hf hb
    obtain ⟨f, rfl⟩ : ∃ g, f = g + 1 := ⟨f - 1, by simp at hf; omega⟩
    left
    refine ⟨rfl, t, ?_, ht, rfl⟩
    rw [plusLoop, if_pos hb, ht, h]
    simp [h2, lockable]
  | @entry c i n j a l e b h h2 hs ih =>
    intro f buf ts t ht hcnt hf hb
    obtain ⟨f, rfl⟩ : ∃ g, f = g + 1 := ⟨f - 1, by simp at hf; omega⟩
    have hd : Ent.dent (i, n, a) = mkDEnt i n a := rfl
    by_cases hstale : isDot n = false ∧ (t.refs i).doomed = true
    · -- the entry is left out
      have hl : lockable t.refs ((i, n, a) :: l) = lockable t.refs l := by
        unfold lockable; rw [List.filter_cons]; simp [hstale.1, hstale.2]
      have hstep : plusLoop t dir size (f + 1) c buf ts = plusLoop t dir size f i buf (bufLen 152 buf) := by
        rw [plusLoop, if_pos hb, ht, h]
        simp only [bind_ok, h2]
        rw [if_neg (by rw [hstale.1]; simp), lock_stale hstale.2]
        simp
      rw [hl, hstep]
      exact ih f buf (bufLen 152 buf) t ht (fun i => by have := hcnt i; simp at this; omega) (by simp at hf; omega) hb
    · have hl : lockable t.refs ((i, n, a) :: l) = (i, n, a) :: lockable t.refs l := by
        unfold lockable; rw [List.filter_cons]
        have : (isDot n || !(t.refs i).doomed) = true := by
          cases h1 : isDot n with
          | true => rfl
          | false =>
            cases h2 : (t.refs i).doomed with
            | false => rfl
            | true => exact absurd ⟨h1, h2⟩ hstale
        simp [this]
      have hstep : ∃ t1, plusLoop t dir size (f + 1) c buf ts = plusLoop t1 dir size f i (buf ++ [mkDEnt i n a]) (bufLen 152 buf) ∧
          t1.db = d ∧ t1.refs = if isDot n then t.refs else addRef t.refs i := by
        by_cases hdot : isDot n = true
        · refine ⟨t, ?_, ht, by rw [if_pos hdot]⟩
          rw [plusLoop, if_pos hb, ht, h]
          simp only [bind_ok, h2]
          rw [if_pos hdot]
        · have hnd : (t.refs i).doomed = false := by
            cases hx : (t.refs i).doomed with
            | false => rfl
            | true => exact absurd ⟨by simpa using hdot, hx⟩ hstale
          obtain ⟨t1, k1, k2, k3⟩ := lock_ok (t := t) (i := i) hnd (by have := hcnt i; simp at this; omega)
          refine ⟨t1, ?_, by rw [k2, ht], by rw [if_neg hdot, k3]⟩
          rw [plusLoop, if_pos hb, ht, h]
          simp only [bind_ok, h2]
          rw [if_neg hdot, k1]
      obtain ⟨t1, hstep, ht1, hr1⟩ := hstep
      have hlc : lockable t1.refs l = lockable t.refs l := by
        apply lockable_congr; intro i; rw [hr1]; split
        · rfl
        · exact addRef_doomed ..
      rw [hstep, hl, List.map_cons, hd]
      have hlen : bufLen 152 (buf ++ [mkDEnt i n a]) = bufLen 152 buf + entSize 152 (mkDEnt i n a) := by
        rw [bufLen_append]; simp
      by_cases hfit : bufLen 152 buf + entSize 152 (mkDEnt i n a) < size
      · rw [fitFrom, if_pos hfit, ← hlen]
        have hcnt1 : ∀ k, (t1.refs k).nrefs + l.length < W64 := by
          intro k; have := hcnt k; simp at this; rw [hr1]
          split
          · omega
          · rw [addRef_count]; split <;> omega
        have := ih f (buf ++ [mkDEnt i n a]) (bufLen 152 buf) t1 ht1 hcnt1 (by simp at hf; omega) (by rw [hlen]; exact hfit)
        rw [hlc] at this
        rcases this with ⟨g1, t', g2, g3, g4⟩ | ⟨t', P, x, Q, g0, g1, g2, g3, g4⟩
        · left
          refine ⟨by rw [g1], t', ?_, g3, ?_⟩
          · rw [g2]; simp
          · rw [g4, plusRefs_cons, hr1]
        · right
          refine ⟨t', (i, n, a) :: P, x, Q, by rw [g0]; rfl, by rw [g1]; rfl, ?_, g3, ?_⟩
          · rw [g2]; simp [hd]
          · rw [g4, List.cons_append, plusRefs_cons, hr1]
      · rw [fitFrom, if_neg hfit]
        right
        refine ⟨t1, [], (i, n, a), lockable t.refs l, rfl, rfl, ?_, ht1, ?_⟩
        · obtain ⟨f, rfl⟩ : ∃ g, f = g + 1 := ⟨f - 1, by simp at hf; omega⟩
          rw [plusLoop, if_neg (by rw [hlen]; exact hfit)]
          simp [hd]
        · rw [hr1]; rfl

/-- `readdirplus`: the reply, and the references taken. -/
theorem readdirplus_stale {dir : Ino} {size off : Nat} {l : List Ent} {e : Errno} {b : Bool}
    (hs : Stream d dir off l e b) (hl : l.length ≤ d.treei.size + 2) (hcnt : ∀ i, (r i).nrefs + l.length < W64) :
    (0 < size ∧ fitFrom 152 size 0 ((lockable r l).map Ent.dent) = (lockable r l).map Ent.dent ∧
      readdirplus { disk := d, refs := r } dir size off = .ok (done d (plusRefs r (lockable r l))
        (if e ≠ 0 then .err e else .bufPlus ((lockable r l).map Ent.dent) (bufLen 152 ((lockable r l).map Ent.dent))))) ∨
    (size = 0 ∧ readdirplus { disk := d, refs := r } dir size off = .ok (done d r (.bufPlus [] 0))) ∨
    (0 < size ∧ ∃ P x Q, lockable r l = P ++ x :: Q ∧ fitFrom 152 size 0 ((lockable r l).map Ent.dent) = P.map Ent.dent ∧
      readdirplus { disk := d, refs := r } dir size off = .ok (done d (plusRefs r (P ++ [x])) (.bufPlus (P.map Ent.dent) (bufLen 152 (P.map Ent.dent))))) := by
  unfold readdirplus
  by_cases hz : 0 < size
  · rcases plusLoop_stale hs (size := size) (d.treei.size + 4) [] 0 ({ disk := d, refs := r } : St).txn rfl hcnt (by omega) hz with ⟨h1, t', h2, h3, h4⟩ | ⟨t', P, x, Q, h0, h1, h2, h3, h4⟩
    · left
      refine ⟨hz, h1, ?_⟩
      rw [h2]
      simp only [bind_ok, List.nil_append]
      have : St.drop { disk := d, refs := r } t' = { disk := d, refs := plusRefs r (lockable r l) } := by unfold St.drop; rw [h4]; rfl
      rw [this]
      have htk := takeBytes_exact (hdr := 152) (by decide) ((lockable r l).map Ent.dent) []
      rw [List.append_nil] at htk
      have hx : lockable ({ disk := d, refs := r } : St).txn.refs l = lockable r l := rfl
      rw [hx, htk]
      split <;> rfl
    · right; right
      refine ⟨hz, P, x, Q, h0, h1, ?_⟩
      rw [h2]
      simp only [bind_ok, List.nil_append, ne_eq, not_true, if_false]
      have : St.drop { disk := d, refs := r } t' = { disk := d, refs := plusRefs r (P ++ [x]) } := by unfold St.drop; rw [h4]; rfl
      rw [this, takeBytes_exact (by decide)]; rfl
  · right; left
    refine ⟨by omega, ?_⟩
    have : plusLoop ({ disk := d, refs := r } : St).txn dir size (d.treei.size + 4) off [] 0 = .ok (.inl (({ disk := d, refs := r } : St).txn, ⟨[], 0, 0, false⟩)) := by
      rw [plusLoop, if_neg (by simpa using hz)]; rfl
    rw [this]
    simp [takeBytes, St.drop, St.txn, St.reply, done]

/-! ### All requests which only read -/

/-- The databases were those of the tree `s0` once: the inodes exist in the present tree `s`, or are doomed. -/
structure Old (s0 : Tree) (d : DB) (s : Tree) (r : Refs) : Prop where
  rep : Rep s0 d
  ok : s0.OK
  wf : s0.WF
  keep : ∀ i nd, s0.nodes i = some nd → (∃ nd', s.nodes i = some nd') ∨ (r i).doomed = true

theorem Old.now (h : SI s d r) : Old s d s r := ⟨h.rep, h.ok, h.wf, fun _ nd h => .inl ⟨nd, h⟩⟩

theorem Old.si (h : Old s0 d s r) : SI s0 d Refs.empty :=
  ⟨h.rep, h.ok, h.wf, fun i hi => (by cases hi), fun i hi => absurd hi (by simp [Refs.empty]), Refs.empty_ok⟩

theorem Old.eff {r1 : Refs} (h : Old s0 d s r) (ok : s.OK) (e : Eff s r s' r1) (hd : ∀ i, (r' i).doomed = (r1 i).doomed) : Old s0 d s' r' := by
  refine ⟨h.rep, h.ok, h.wf, fun i nd hi => ?_⟩
  rcases h.keep i nd hi with ⟨nd', h1⟩ | h1
  · rcases eff_keep e ok h1 with h2 | h2
    · exact .inl h2
    · exact .inr (by rw [hd]; exact h2)
  · exact .inr (by rw [hd]; exact eff_doomed e h1)

/-- What is proved about handlers which only read: one reply, and the state stays consistent. -/
def ReadServed (s : Tree) (d dn : DB) (r : Refs) (rq : Req) (x : M St) : Prop :=
  ∃ r' rep, x = .ok (done d r' rep) ∧ SI s dn r' ∧ (∀ i, (r' i).doomed = (r i).doomed) ∧
    (∀ i, (r i).nrefs + rep.given i ≤ (r' i).nrefs + rq.returned i) ∧
    (∀ i, (r' i).nrefs ≤ (r i).nrefs + d.treei.size + 2) ∧
    ((∀ dir size off, rq ≠ .readdirplus dir size off) → ∀ i, (r' i).nrefs + rq.returned i = (r i).nrefs + rep.given i)

theorem lockable_mem {l : List Ent} {x : Ent} (h : x ∈ lockable r l) : x ∈ l ∧ (isDot x.2.1 = true ∨ (r x.1).doomed = false) := by
  unfold lockable at h
  obtain ⟨h1, h2⟩ := List.mem_filter.mp h
  refine ⟨h1, ?_⟩
  simp only [Bool.or_eq_true, Bool.not_eq_true'] at h2; exact h2

/-- Locks on entries which are not doomed keep the state consistent. -/
theorem si_plusRefs' : ∀ {l : List Ent} {r}, SI s dn r → (∀ x ∈ l, isDot x.2.1 = true ∨ ∃ nd, s.nodes x.1 = some nd) → (∀ i, (r i).nrefs + l.length < W64) →
    SI s dn (plusRefs r l) := by
  intro l
  induction l with
  | nil => intro r hr _ _; exact hr
  | cons x l ih =>
    intro r hr h1 h2
    rw [plusRefs_cons]
    split
    · exact ih hr (fun y hy => h1 y (by simp [hy])) (fun i => by have := h2 i; simp at this; omega)
    · rename_i hdot
      rcases h1 x (by simp) with h3 | ⟨nd, hn⟩
      · exact absurd h3 hdot
      refine ih (hr.addRef hn (by have := h2 x.1; simp at this; omega)) (fun y hy => h1 y (by simp [hy])) (fun i => ?_)
      have := h2 i
      rw [addRef_count]; simp at this; split <;> omega

theorem si_foldl_subRef : ∀ (l : List (Ino × Nat)) {r : Refs}, SI s dn r → SI s dn (l.foldl (fun r x => subRef r x.1 x.2) r)
  | [], _, h => h
  | x :: l, _, h => by rw [List.foldl_cons]; exact si_foldl_subRef l (h.subRef x.1 x.2)

theorem read_served {B : Backend} {rq : Req} (h : SI s dn r) (ho : Old s0 d s r) (hr : rq.inRange)
    (hro : ∀ p n i j, rq ≠ .lookup p n ∧ rq ≠ .readlink i ∧ rq ≠ .opendir j) (hret : ∀ i, rq.returned i ≤ (r i).nrefs)
    (hcnt : ∀ i, (r i).nrefs + d.treei.size + 4 < W64) :
    ReadServed s d dn r rq (handle B { disk := d, refs := r } rq) ∨
    (∃ dir size off e, rq = .readdir dir size off ∧ handle B { disk := d, refs := r } rq = .ok (readdirFault d r e)) := by
  have same : ∀ {rep : Reply}, (∀ i, rep.given i = 0) → (∀ i, rq.returned i = 0) → ReadServed s d dn r rq (.ok (done d r rep)) := by
    intro rep h1 h2
    exact ⟨r, rep, rfl, h, fun _ => rfl, fun i => by rw [h1, h2]; omega, fun i => by omega, fun _ i => by rw [h1, h2]⟩
  cases rq with
  | lookup p n => exact absurd rfl (hro p n 0 0).1
  | readlink i => exact absurd rfl (hro 0 [] i 0).2.1
  | opendir i => exact absurd rfl (hro 0 [] 0 i).2.2
  | forget i n =>
    left
    have hn : n ≤ (r i).nrefs := by have := hret i; simpa [Req.returned] using this
    obtain ⟨t', h1, -, h2⟩ := release_ok (t := ⟨d, r, none, []⟩) hn
    refine ⟨subRef r i n, .none, ?_, h.subRef i n, fun j => subRef_doomed .., fun j => ?_, fun j => ?_, fun _ j => ?_⟩
    · simp only [handle, forget, St.txn, h1, bind_ok, St.drop, h2]; rfl
    · have := abs_counts (B := B) (d := d) (s := s) (r := r) .forget (rq := .forget i n) (rep := .none) (s' := s) hret j; exact this.1
    · rw [subRef_count]; omega
    · have := abs_counts (B := B) (d := d) (s := s) (r := r) .forget (rq := .forget i n) (rep := .none) (s' := s) hret j
      exact this.2 (fun _ _ _ hh => by cases hh)
  | getattr i =>
    left
    simp only [handle, getattr]
    rcases Cache.getattr d i with e | ⟨j, a⟩
    · exact same (fun _ => rfl) (fun _ => rfl)
    · exact same (fun _ => rfl) (fun _ => rfl)
  | readdir dir size off =>
    rcases readdir_served (B := B) ho.si (dir := dir) (size := size) (off := off) hr.1 with ⟨s', d', r', rep, h1, -, h2⟩ | ⟨-, e, h1⟩
    · left
      have hx : ∃ rep, readdir { disk := d, refs := r } dir size off = .ok (done d r rep) ∧ ∀ i, rep.given i = 0 := by
        have key : (readdirLoop d dir size (d.treei.size + 4) off [] 0) = (readdirLoop d dir size (d.treei.size + 4) off [] 0) := rfl
        revert h1
        unfold readdir
        simp only
        rcases readdirLoop d dir size (d.treei.size + 4) off [] 0 with e | pg
        · intro h1; cases h1
        · simp only [bind_ok]
          by_cases he : pg.error ≠ 0
          · rw [if_pos he, if_pos he]
            split
            · intro h1; cases h1
            · intro h1; cases h1
          · rw [if_neg he, if_neg he]
            simp only
            by_cases hc : pg.atEof = true ∧ bufLen 24 pg.buf = 0 ∧ testFlag d dir SYNCED ≠ .ok true
            · rw [if_pos hc, if_pos hc]; exact fun _ => ⟨_, rfl, fun _ => rfl⟩
            · rw [if_neg hc, if_neg hc]; exact fun _ => ⟨_, rfl, fun _ => rfl⟩
      obtain ⟨rep, hx1, hx2⟩ := hx
      simp only [handle]; rw [hx1]
      exact same hx2 (fun _ => rfl)
    · right
      refine ⟨dir, size, off, e, rfl, ?_⟩
      revert h1
      simp only [handle]
      unfold readdir readdirFault
      simp only
      rcases readdirLoop d dir size (d.treei.size + 4) off [] 0 with e' | pg
      · intro h1; cases h1
      · simp only [bind_ok]
        by_cases he : pg.error ≠ 0
        · rw [if_pos he, if_pos he]
          intro h1
          split at h1 <;> (split <;> (cases h1; rfl))
        · rw [if_neg he, if_neg he]
          intro h1
          split at h1 <;> cases h1
  | releasedir i => left; exact same (fun _ => rfl) (fun _ => rfl)
  | readdirplus dir size off =>
    left
    obtain ⟨l, e, b, g1, g2, g3, -⟩ := stream_exists ho.si (dir := dir) (c := off) hr.1
    have hc : ∀ i, (r i).nrefs + l.length < W64 := fun i => by have := hcnt i; omega
    have hex : ∀ x ∈ lockable r l, isDot x.2.1 = true ∨ ∃ nd, s.nodes x.1 = some nd := by
      intro x hx
      obtain ⟨h1, h2⟩ := lockable_mem hx
      rcases h2 with h2 | h2
      · exact .inl h2
      · obtain ⟨-, nd, h3, -⟩ := g3 x h1
        rcases ho.keep x.1 nd h3 with h4 | h4
        · exact .inr h4
        · rw [h2] at h4; cases h4
    have hname : ∀ x ∈ lockable r l, EntName x.2.1 := fun x hx => (g3 x (lockable_mem hx).1).1
    have hlen : (lockable r l).length ≤ l.length := List.length_filter_le ..
    simp only [handle]
    rcases readdirplus_stale (r := r) (size := size) g1 g2 hc with ⟨-, -, k⟩ | ⟨-, k⟩ | ⟨-, P, x, Q, k1, -, k⟩
    · rw [k]
      refine ⟨_, _, rfl, si_plusRefs' h hex (fun i => by have := hc i; omega), fun i => plusRefs_doomed .., fun i => ?_, fun i => ?_, fun hh => absurd rfl (hh _ _ _)⟩
      · rw [plusRefs_count]
        split
        · simp only [Reply.given, Req.returned]; omega
        · rw [given_buf i hname]; simp only [Req.returned]; omega
      · rw [plusRefs_count]; have := occurs_le i (lockable r l); omega
    · rw [k]; exact same (fun _ => rfl) (fun _ => rfl)
    · rw [k]
      have hlen2 : (P ++ [x]).length ≤ (lockable r l).length := by rw [k1]; simp
      refine ⟨_, _, rfl, si_plusRefs' h (fun y hy => hex y ?_) (fun i => by have := hc i; omega), fun i => plusRefs_doomed .., fun i => ?_, fun i => ?_, fun hh => absurd rfl (hh _ _ _)⟩
      · rw [k1]; simp only [List.mem_append, List.mem_cons, List.not_mem_nil, or_false] at hy ⊢
        rcases hy with hy | hy
        · exact .inl hy
        · exact .inr (.inl hy)
      · rw [plusRefs_count, given_buf i (fun y hy => hname y (by rw [k1]; simp [hy])), occurs_append]
        simp only [Req.returned]; omega
      · rw [plusRefs_count]; have := occurs_le i (P ++ [x]); omega
  | forgetMulti l =>
    left
    obtain ⟨t', h1, -, h2⟩ := forgetLoop_spec l ⟨d, r, none, []⟩ hret
    refine ⟨l.foldl (fun r x => subRef r x.1 x.2) r, .none, ?_, si_foldl_subRef l h, fun j => foldl_subRef_doomed .., fun j => ?_, fun j => ?_, fun _ j => ?_⟩
    · simp only [handle, forgetMulti, St.txn, h1, bind_ok, St.drop, h2]; rfl
    · exact (abs_counts (B := B) (d := d) (s := s) (r := r) .forgetMulti (rq := .forgetMulti l) (rep := .none) (s' := s) hret j).1
    · rw [foldl_subRef_count]; omega
    · exact (abs_counts (B := B) (d := d) (s := s) (r := r) .forgetMulti (rq := .forgetMulti l) (rep := .none) (s' := s) hret j).2 (fun _ _ _ hh => by cases hh)
  | other => left; exact same (fun _ => rfl) (fun _ => rfl)

end Dragonstash.FS
