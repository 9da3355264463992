/-
  C107: what the mount says is absent while disconnected, the backend has denied.
-/
import Verif.FS.Absence
import Verif.Props.Frozen
import Verif.Props.FSMulti
namespace Dragonstash.MT
open Cache FS Conc
variable {N : Bytes → Bytes → Prop} {m m' : MSys} {b : Nat}

/-! ### Specification -/

/-- While a request was handled, the backend said that there is no `n` in the directory with the path `b`: it answered ENOENT for its path, or it listed the directory
completely and `n` was not among the names. -/
inductive SaysNo (d : DB) (B : Backend) : Req → Bytes → Bytes → Prop
  | lookup {p b n} : Cache.path d p = .ok (.ok b) → B.lstat 0 (b ++ 0x2f :: n) = .error ENOENT → SaysNo d B (.lookup p n) b n
  | readlink {i b n} : Cache.path d i = .ok (.ok (b ++ 0x2f :: n)) → B.readlink (b ++ 0x2f :: n) = .error ENOENT → SaysNo d B (.readlink i) b n
  | list {i b n names} : Cache.path d i = .ok (.ok b) → B.opendir (if b = [] then [0x2f] else b) = .ok (names, 0) → n ∉ names → SaysNo d B (.opendir i) b n

/-- Requests in which the backend denies nothing but what is in `N`. -/
def Only (D : DB → Backend → Req → Bytes → Bytes → Prop) (N : Bytes → Bytes → Prop) : DB → Req → Backend → Prop := fun d rq B => ∀ b n, D d B rq b n → N b n

/-- **C107 (full).** If a request which begins after the backend was last connected is answered "there is no such name", then the backend has said so. `N b n` stands
for "the backend once said that there is no `n` in the directory with the path `b`". -/
def C107_full : Prop := ∀ (N : Bytes → Bytes → Prop) (m m' : MSys) (b k : Nat) (q : Done) (p : Ino) (n x : Bytes),
  MReachD (Only SaysNo N) m → Since Off m b m' → m'.hist[k]? = some q → q.after k b → q.rq = .lookup p n → GoodName n → p < W64 → Cache.path m.w.disk p = .ok (.ok x) →
  q.rep = .err ENOENT → N x n

/-- The entries of the directory `dir` as a program gets them which reads it with `readdir` from the offset `off` to the end: each request continues
behind the last entry received, and the last one, with space for any entry, receives none. All begin after the first `b` requests have ended. -/
inductive Ls (hist : List Done) (b : Nat) (dir : Ino) : Nat → List DEnt → Prop
  | eof {k : Nat} {q : Done} {size off n : Nat} : hist[k]? = some q → q.after k b → q.rq = .readdir dir size off → 528 < size → q.rep = .buf [] n → Ls hist b dir off []
  | more {k : Nat} {q : Done} {size off : Nat} {p : List DEnt} {e : DEnt} {n : Nat} {l : List DEnt} : hist[k]? = some q → q.after k b → q.rq = .readdir dir size off → q.rep = .buf (p ++ [e]) n → Ls hist b dir e.off l →
      Ls hist b dir off (p ++ [e] ++ l)

/-! ### Proofs -/

theorem kept_honest : Kept (Only Denies N) (Honest N) where
  root := fun {s uid gid now} h ok => by
    intro i nd cs n hp hn hf
    exfalso
    obtain rfl := root_only h ok hn
    have h1 := h.ino_some hn
    have hfl : nd.flags = 0 := by
      change (Tab.empty.put (Codec.key8 ROOT) _).find (Codec.key8 ROOT) = some (recOf nd) at h1
      rw [Tab.find_put, if_pos rfl] at h1
      have := congrArg (fun r => r.flags) (Option.some.inj h1)
      exact this.symm
    rw [hfl, hasFlag_zero] at hf; cases hf
  coll := fun h hc => h.collected hc
  abs := fun h hI hr hd _ hn hQ ho => abs_honest h hI hr hd hn hQ ho

/-- **C107.** What is missing in a directory which counts as completely known, the backend has denied. -/
theorem C107_absent_partial (h : MReachD (Only Denies N) m) {p : Ino} (hp : p < W64) {x : Bytes} (hx : Cache.path m.w.disk p = .ok (.ok x))
    (hf : Cache.testFlag m.w.disk p SYNCED = .ok true) {n : Bytes} (hn : GoodName n) (hno : ∀ i, Cache.lookup m.w.disk p n ≠ .ok (.ok i)) : N x n := by
  obtain ⟨d0, r0, nt, L, H, vs, R, ds, s, hst, hM, hR, hP, -⟩ := h.inv kept_honest
  obtain ⟨s', f1, f2, f3⟩ := hP.all _ (List.mem_of_getLast? hM.last)
  obtain ⟨cs, hcs, rfl⟩ := f1.path_iff f2 hp hx
  rw [f1.testFlag f2 hp] at hf
  cases hnd : s'.nodes p with
  | none => rw [hnd] at hf; cases hf
  | some nd =>
    rw [hnd] at hf
    exact f3 p nd cs n hcs hnd (by simpa using hf) hn (fun i hi => hno i ((f1.lookup_iff f2 hp).mpr hi))

/-- **C107.** If a lookup which begins after the backend was last connected is answered "there is no such name", the backend has denied it. -/
theorem C107_lookup_partial (h : MReachD (Only Denies N) m) (hs : Since Off m b m') {k : Nat} {q : Done} (hk : m'.hist[k]? = some q) (ha : q.after k b) {p : Ino} {n : Bytes}
    (hq : q.rq = .lookup p n) (hn : GoodName n) (hp : p < W64) {x : Bytes} (hx : Cache.path m.w.disk p = .ok (.ok x)) (hrep : q.rep = .err ENOENT) : N x n := by
  have ht := C106_told h.reach hs hk ha (fun i hi => by rw [hq] at hi; cases hi; exact ⟨x, hx⟩)
  rw [hq, hrep] at ht
  by_cases hl : ∃ i, Cache.lookup m.w.disk p n = .ok (.ok i)
  · obtain ⟨i, hl⟩ := hl
    obtain ⟨a, -, h2⟩ := ht.1 i hl
    cases h2
  · have h2 := ht.2 (fun i hi => hl ⟨i, hi⟩)
    have hlen : ¬ 503 < n.length := by have := hn.1; omega
    rw [if_neg hlen] at h2
    refine C107_absent_partial h hp hx ?_ hn (fun i hi => hl ⟨i, hi⟩)
    by_cases hf : Cache.testFlag m.w.disk p SYNCED = .ok true
    · exact hf
    · rw [if_neg hf] at h2; cases h2

theorem ls_stream (hm : MReach m) (hs : Since Off m b m') {dir off : Nat} (hd : dir < W64) {x : Bytes} (hx : Cache.path m.w.disk dir = .ok (.ok x)) {l : List DEnt}
    (hl : Ls m'.hist b dir off l) : Cache.testFlag m.w.disk dir SYNCED = .ok true ∧ ∃ L, Stream m.w.disk dir off L 0 true ∧ l = L.map Ent.dent := by
  have told : ∀ {k : Nat} {q : Done} {size off : Nat} {es : List DEnt} {n : Nat}, m'.hist[k]? = some q → q.after k b → q.rq = .readdir dir size off → q.rep = .buf es n →
      ∃ L, Stream m.w.disk dir off L 0 true ∧ es = fitFrom 24 size 0 (L.map Ent.dent) ∧ (0 < size → L = [] → Cache.testFlag m.w.disk dir SYNCED = .ok true) := by
    intro k q size off es n hk ha hq hrep
    have ht := C106_told hm hs hk ha (fun i hi => by rw [hq] at hi; cases hi; exact ⟨x, hx⟩)
    rw [hq, hrep] at ht
    obtain ⟨L, h1, h2⟩ := ht
    refine ⟨L, h1, ?_⟩
    by_cases hc : 0 < size ∧ L = [] ∧ Cache.testFlag m.w.disk dir SYNCED ≠ .ok true
    · rw [if_pos hc] at h2; cases h2
    · rw [if_neg hc] at h2; cases h2
      refine ⟨rfl, fun h3 h4 => ?_⟩
      by_cases hf : Cache.testFlag m.w.disk dir SYNCED = .ok true
      · exact hf
      · exact absurd ⟨h3, h4, hf⟩ hc
  induction hl with
  | @eof k q size off n hk ha hq hsz hrep =>
    obtain ⟨L, h1, h2, h3⟩ := told hk ha hq hrep
    have hL : L = [] := by
      cases L with
      | nil => rfl
      | cons y L =>
        exfalso
        obtain ⟨d0, r0, nt, L', H, vs, R, ds, s, -, hM, hR⟩ := hm.inv
        have hlen : y.2.1.length ≤ 503 := by
          obtain ⟨M, e0, b0, j1, -, j2, -⟩ := stream_exists hR.si (dir := dir) (c := off) hd
          obtain rfl := stream_unique h1 j1
          exact (j2 y (List.mem_cons_self ..)).1.1
        simp only [List.map_cons, fitFrom] at h2
        rw [if_pos] at h2
        · cases h2
        · unfold entSize Ent.dent mkDEnt
          have : (cstr y.2.1).length ≤ y.2.1.length := (List.takeWhile_sublist _).length_le
          simp only
          omega
    exact ⟨h3 (by omega) hL, L, h1, by rw [hL]; rfl⟩
  | @more k q size off p e n l hk ha hq hrep _ ih =>
    obtain ⟨hf, L, h1, h2⟩ := ih
    obtain ⟨L1, g1, g2, -⟩ := told hk ha hq hrep
    have hsz : 0 < size := by
      rcases Nat.eq_zero_or_pos size with rfl | hz
      · exfalso
        cases hL : L1.map Ent.dent with
        | nil => rw [hL] at g2; simp [fitFrom] at g2
        | cons y t => rw [hL] at g2; simp [fitFrom] at g2
      · exact hz
    obtain ⟨rest, k1, -, -⟩ := fitFrom_spec 24 size (L1.map Ent.dent) 0 hsz
    rw [← g2] at k1
    refine ⟨hf, L1, g1, ?_⟩
    rw [List.append_assoc] at k1
    obtain ⟨P, Q, rfl, k2, k3⟩ := List.map_eq_append_iff.mp k1
    obtain ⟨y, Q', rfl, k4, k5⟩ := List.map_eq_cons_iff.mp k3
    have hst := Stream.behind g1
    have : e.off = y.1 := by rw [← k4]; rfl
    rw [this] at h1
    obtain rfl := stream_unique h1 hst
    rw [h2, List.map_append, List.map_cons, k2, k4]
    simp
theorem conn_parent {s : Tree} {d : DB} {r : Refs} (h : SI s d r) {i : Ino} (hi : i < W64) {cs : List Bytes} (hp : s.PathTo i cs) : ∃ p, p ≠ 0 ∧ Cache.parent d i = .ok p := by
  cases hp with
  | root => exact ⟨ROOT, by decide, by rw [h.rep.parent h.ok hi, if_pos rfl]⟩
  | @child p n _ cs hat hp =>
    obtain ⟨nd, h1, h2⟩ := hat
    refine ⟨p, ?_, ?_⟩
    · obtain ⟨-, x, h3, -⟩ := h.wf i nd p n h1 h2
      have := (h.ok.bound p x h3).1
      omega
    · have hir : i ≠ ROOT := OK.loc_ne_root h.ok h1 h2
      rw [h.rep.parent h.ok hi, if_neg hir, h1]
      show Except.ok nd.par = _
      unfold Cache.Node.par
      rw [h2]

/-- **C107.** If a program reads a directory to the end after the backend was last connected, then each name which it did not get, the backend has denied. -/
theorem C107_ls_partial (h : MReachD (Only Denies N) m) (hs : Since Off m b m') {dir : Ino} (hd : dir < W64) {x : Bytes} (hx : Cache.path m.w.disk dir = .ok (.ok x))
    {l : List DEnt} (hl : Ls m'.hist b dir 0 l) {n : Bytes} (hn : GoodName n) (hno : ∀ e ∈ l, e.name ≠ n) : N x n := by
  obtain ⟨hf, L, h1, rfl⟩ := ls_stream h.reach hs hd hx hl
  refine C107_absent_partial h hd hx hf hn fun i hi => ?_
  obtain ⟨d0, r0, nt, L', H, vs, R, ds, s, -, hM, hR⟩ := h.reach.inv
  obtain ⟨cs, hcs, -⟩ := hR.si.rep.path_iff hR.si.ok hd hx
  obtain ⟨p, hp0, hp⟩ := conn_parent hR.si hd hcs
  obtain ⟨M, g1, -, -, g2⟩ := stream_all hR.si hd hp hp0
  obtain rfl := stream_unique h1 g1
  have hk : (i, n) ∈ kids m.w.disk dir := (hR.si.rep.mem_kids hR.si.ok hd).mpr ((hR.si.rep.lookup_iff hR.si.ok hd).mp hi)
  have : (i, n) ∈ L.map (fun x => (x.1, x.2.1)) := by rw [g2]; exact List.mem_append_right _ hk
  obtain ⟨⟨i', n', a⟩, k1, k2⟩ := List.mem_map.mp this
  cases k2
  refine hno _ (List.mem_map.mpr ⟨_, k1, rfl⟩) ?_
  exact cstr_eq hn.2.1

/-- A backend which makes no errors other than "there is no such name" and "not connected", and which does not fail within a listing. -/
structure Tame (B : Backend) : Prop where
  lstat : ∀ p e, B.lstat 0 p = .error e → e = ENOENT ∨ e = ENOTCONN
  readlink : ∀ p e, B.readlink p = .error e → e = ENOENT ∨ e = ENOTCONN
  list : ∀ b names e, B.opendir b = .ok (names, e) → e = 0 ∧ ∀ (k : Nat) n, names[k]? = some n → ∃ sr, B.lstat k (entryPath b n) = .ok sr

theorem Tame.says {d : DB} {B : Backend} (h : Tame B) {rq : Req} {b n : Bytes} (hd : Denies d B rq b n) : SaysNo d B rq b n := by
  cases hd with
  | lookup h0 h1 h2 =>
    rcases h.lstat _ _ h1 with rfl | rfl
    · exact .lookup h0 h1
    · exact absurd rfl h2
  | readlink h0 h1 h2 =>
    rcases h.readlink _ _ h1 with rfl | rfl
    · exact .readlink h0 h1
    · exact absurd rfl h2
  | list h0 h1 h2 =>
    obtain ⟨rfl, h3⟩ := h.list _ _ _ h1
    refine .list h0 h1 fun hm => ?_
    obtain ⟨k, hk⟩ := List.getElem?_of_mem hm
    obtain ⟨sr, h4⟩ := h3 k n hk
    exact h2 k sr hk h4

theorem MReachD.mono {Q Q' : DB → Req → Backend → Prop} (hq : ∀ d rq B, Q d rq B → Q' d rq B) {m : MSys} (h : MReachD Q m) : MReachD Q' m := by
  induction h with
  | mount h1 h2 => exact .mount h1 h2
  | remount _ h1 h2 ih => exact .remount ih h1 h2
  | step _ h1 h2 h3 h4 ih => exact .step ih h1 h2 h3 (fun q hm => hq _ _ _ (h4 q hm))

/-- **C107.** With such a backend the full claim holds. -/
theorem C107_strict_partial (h : MReachD (fun d rq B => Tame B ∧ Only SaysNo N d rq B) m) (hs : Since Off m b m') {k : Nat} {q : Done} (hk : m'.hist[k]? = some q)
    (ha : q.after k b) {p : Ino} {n : Bytes} (hq : q.rq = .lookup p n) (hn : GoodName n) (hp : p < W64) {x : Bytes} (hx : Cache.path m.w.disk p = .ok (.ok x)) (hrep : q.rep = .err ENOENT) : N x n :=
  C107_lookup_partial (h.mono fun _ _ _ hB b n hd => hB.2 b n (hB.1.says hd)) hs hk ha hq hn hp hx hrep

/-! ### Counterexample -/

theorem lrun_reachD {Q : DB → Req → Backend → Prop} {Qe : Req → Backend → Prop} (hQ : ∀ d rq B, Qe rq B → Q d rq B) : ∀ {l : List LEv} {past m cap past' m' cap'}, MReachD Q m →
    Ready Qe cap m → (∀ e ∈ l, e.Asks Qe) → lrun past m cap l = some (past', m', cap') → MReachD Q m' := by
  intro l
  induction l with
  | nil => intro past m cap past' m' cap' h _ _ hd; cases hd; exact h
  | cons e l ih =>
    intro past m cap past' m' cap' h hr hA hd
    cases e with
    | ev a =>
      simp only [lrun] at hd
      split at hd
      · cases hd
      · rename_i m1 cap1 hm
        obtain ⟨g1, k, g2, g3, g4⟩ := hr.event (hA _ (List.mem_cons_self ..)) hm
        exact ih (.step h g2 g3 g4 (fun q hq => hQ _ _ _ (g1.hist q (by rw [hq]; simp)))) g1 (fun e he => hA e (List.mem_cons_of_mem _ he)) hd
    | die n =>
      simp only [lrun] at hd
      split at hd
      · cases hd
      · rename_i d r ho
        split at hd
        · rename_i hroom
          obtain ⟨_, _, _, _, _, _, _, _, s, _, _, hR, _⟩ := hr.reach.any.inv kept_true
          have hi : initDB m.w.disk 0 0 ⟨0, 0⟩ = m.w.disk := by unfold initDB; rw [hR.si.rep.next]
          have ho' := ho
          rw [hi] at ho'
          have hc : ∀ i, ((CWorld.start d r).refs i).nrefs ≤ 0 := fun i => Nat.le_of_eq (open_counts (si_empty hR.si.rep hR.si.ok hR.si.wf) ho' i)
          exact ih (.remount h ho (roomB_iff hc hroom)) (ready_start (.remount hr.reach ho (roomB_iff hc hroom)) hc) (fun e he => hA e (List.mem_cons_of_mem _ he)) hd
        · cases hd

theorem lstart_reachD {Q : DB → Req → Backend → Prop} {Qe : Req → Backend → Prop} (hQ : ∀ d rq B, Qe rq B → Q d rq B) {n : Nat} {l : List LEv} {past m cap} (hA : ∀ e ∈ l, e.Asks Qe)
    (h : lstart n l = some (past, m, cap)) : MReachD Q m := by
  unfold lstart at h
  split at h
  · cases h
  · rename_i d r ho
    split at h
    · rename_i hroom
      have hc : ∀ i, ((CWorld.start d r).refs i).nrefs ≤ 0 := by
        obtain ⟨s, h1, h2, h3⟩ := root_rep 0 0 ⟨0, 0⟩
        exact fun i => Nat.le_of_eq (open_counts (si_empty h1 h2 h3) ho i)
      exact lrun_reachD hQ (.mount ho (roomB_iff hc hroom)) (ready_start (.mount ho (roomB_iff hc hroom)) hc) hA h
    · cases h

/-- First `l1` happens, and the process ends; then `l2`, disconnected, in the next process. -/
def absRun (l1 l2 : List LEv) : Option (MSys × MSys) := do
  let x ← lstart 2 (l1 ++ [.die 1])
  let y ← lrun x.1 x.2.1 x.2.2 l2
  pure (x.2.1, y.2.1)

theorem absRun_ok {Q : DB → Req → Backend → Prop} {Qe : Req → Backend → Prop} (hQ : ∀ d rq B, Qe rq B → Q d rq B) {l1 l2 : List LEv} (h1 : ∀ e ∈ l1, e.Asks Qe)
    (h2 : ∀ e ∈ l2, e.Asks (fun _ B => Offline B)) (hno : l2.any LEv.isDie = false)
    (h : absRun l1 l2 = some (m, m')) (hm : m.hist = []) (hi : m.th.all (fun t => match t with | .idle => true | _ => false) = true) : MReachD Q m ∧ Since Off m 0 m' := by
  unfold absRun at h
  obtain ⟨⟨p0, y0, c0⟩, e1, h⟩ := Option.bind_eq_some_iff.mp h
  obtain ⟨⟨p1, y1, c1⟩, e2, h⟩ := Option.bind_eq_some_iff.mp h
  cases h
  simp only at e2
  have hA : ∀ e ∈ l1 ++ [LEv.die 1], e.Asks Qe := by
    intro e he
    rcases List.mem_append.mp he with he | he
    · exact h1 e he
    · rw [List.mem_singleton.mp he]; trivial
  obtain ⟨g1, g2⟩ := lstart_life hA e1
  have g3 := lstart_reachD hQ hA e1
  have g2' : Ready (fun _ B => Offline B) c0 y0 := by
    refine ⟨g2.reach, g2.counts, fun j st hj => ?_, fun q hq => by rw [hm] at hq; cases hq⟩
    have := List.all_eq_true.mp hi st (List.mem_of_getElem? hj)
    cases st with
    | idle => trivial
    | recv => cases this
    | run => cases this
    | committed => cases this
    | answer => cases this
    | leaving => cases this
    | left => cases this
  obtain ⟨-, -, b1, f3, -, f4⟩ := lrun_since (Q := Off) (fun _ _ _ h => h) (.refl (m := y0)) g1 g2' h2 e2
  have := f4 hno
  rw [hm] at this
  subst this
  exact ⟨g3, f3⟩

theorem path_root (d : DB) : Cache.path d 1 = .ok (.ok []) := rfl

/-- The root directory is opened; the connection is lost between the listing and the `lstat` of `a`. -/
def absLost : List LEv := asks tblLost (.opendir 1) 8

/-- Disconnected, `a` is looked up. -/
def absAsk : List LEv := asks .offline (.lookup 1 [0x61]) 7

theorem absLost_says : (match absRun absLost absAsk with
    | some (m, m') => decide (m.hist = [] ∧ m.th.all (fun t => match t with | .idle => true | _ => false) = true ∧
        m'.hist.map (fun q => (q.rq, q.rep)) = [(.lookup 1 [0x61], .err ENOENT)])
    | none => false) = true := by decide +kernel

/-- The full claim is false: if the connection is lost while a directory is being read, names which the backend has just listed are said not to exist. -/
theorem C107_counterexample : ¬ C107_full := by
  intro hfull
  have hs := absLost_says
  generalize hd : absRun _ _ = o at hs
  obtain _ | ⟨m, m'⟩ := o
  · cases hs
  simp only [decide_eq_true_eq] at hs
  obtain ⟨e1, e2, e4⟩ := hs
  obtain ⟨g1, g2⟩ := absRun_ok (Q := Only SaysNo (fun b n => ¬ (b = [] ∧ n = [0x61]))) (Qe := fun rq B => ∀ d, Only SaysNo (fun b n => ¬ (b = [] ∧ n = [0x61])) d rq B) (fun _ _ _ h => h _)
    (asks_Asks (fun d b n h hbn => by
      obtain ⟨rfl, rfl⟩ := hbn
      cases h with
      | @list _ _ _ names _ h h' =>
        have : tblLost.backend.opendir (if ([] : Bytes) = [] then [0x2f] else []) = .ok ([[0x61]], 0) := by decide
        rw [this] at h; cases h
        exact h' (by decide))) (asks_Asks offline_table) (by decide) hd e1 e2
  obtain ⟨⟨rq, B, v, rep⟩, hq⟩ : ∃ q, m'.hist = [q] := by
    cases hh : m'.hist with
    | nil => rw [hh] at e4; cases e4
    | cons q t => cases t with
      | nil => exact ⟨q, rfl⟩
      | cons => rw [hh] at e4; simp at e4
  rw [hq] at e4
  simp only [List.map_cons, List.map_nil, List.cons.injEq, Prod.mk.injEq, and_true] at e4
  exact hfull _ m m' 0 0 _ 1 [0x61] [] g1 g2 (by rw [hq]; rfl) ⟨Nat.zero_le _, fun _ => Nat.zero_le _⟩ e4.1 ⟨by decide, by decide, by decide⟩ (by decide) (path_root _) e4.2 ⟨rfl, rfl⟩

/-- `a` is found, and nothing else is ever asked while the backend is connected. Disconnected, the directory is read with `readdirplus` to the end. -/
def absPlus1 : List LEv := asks tblA (.lookup 1 [0x61]) 7
def absPlus2 : List LEv := asks .offline (.readdirplus 1 1000 0) 10 ++ asks .offline (.readdirplus 1 1000 2) 5

/-- Two replies: a page with the names `ns`, whose last entry has the offset 2, and an empty page. -/
def pagesB (rq1 rq2 : Req) (mk : List DEnt → Nat → Reply) (h : List Done) : Bool := match h with
  | [q1, q2] => decide (q1.rq = rq1 ∧ q2.rq = rq2 ∧ q2.rep = mk [] 0) && match q1.rep with
    | .buf l n => decide (mk l n = .buf l n ∧ l.map (fun e => (e.name, e.off)) = [([0x2e], 1), ([0x61], 2)])
    | .bufPlus l n => decide (mk l n = .bufPlus l n ∧ l.map (fun e => (e.name, e.off)) = [([0x2e], 1), ([0x61], 2)])
    | _ => false
  | _ => false

theorem pagesB_ok {rq1 rq2 : Req} {mk : List DEnt → Nat → Reply} {h : List Done} (hp : pagesB rq1 rq2 mk h = true) :
    ∃ q1 q2 e1 e2 n, h = [q1, q2] ∧ q1.rq = rq1 ∧ q1.rep = mk [e1, e2] n ∧ e1.name = [0x2e] ∧ e2.name = [0x61] ∧ e2.off = 2 ∧ q2.rq = rq2 ∧ q2.rep = mk [] 0 := by
  unfold pagesB at hp
  have two : ∀ {l : List DEnt}, l.map (fun e => (e.name, e.off)) = [([0x2e], 1), ([0x61], 2)] → ∃ e1 e2, l = [e1, e2] ∧ e1.name = [0x2e] ∧ e2.name = [0x61] ∧ e2.off = 2 := by
    intro l hl
    match l, hl with
    | [e1, e2], hl =>
      simp only [List.map_cons, List.map_nil, List.cons.injEq, Prod.mk.injEq, and_true] at hl
      exact ⟨e1, e2, rfl, hl.1.1, hl.2.1, hl.2.2⟩
    | [], hl => simp at hl
    | [_], hl => simp at hl
    | _ :: _ :: _ :: _, hl => simp at hl
  match h, hp with
  | [q1, q2], hp =>
    simp only [Bool.and_eq_true, decide_eq_true_eq] at hp
    obtain ⟨⟨h1, h2, h3⟩, h4⟩ := hp
    cases hr : q1.rep with
    | buf l n =>
      rw [hr] at h4
      simp only [decide_eq_true_eq] at h4
      obtain ⟨e1, e2, rfl, k1, k2, k3⟩ := two h4.2
      exact ⟨q1, q2, e1, e2, n, rfl, h1, by rw [hr, h4.1], k1, k2, k3, h2, h3⟩
    | bufPlus l n =>
      rw [hr] at h4
      simp only [decide_eq_true_eq] at h4
      obtain ⟨e1, e2, rfl, k1, k2, k3⟩ := two h4.2
      exact ⟨q1, q2, e1, e2, n, rfl, h1, by rw [hr, h4.1], k1, k2, k3, h2, h3⟩
    | _ => rw [hr] at h4; cases h4
  | [], hp => cases hp
  | [_], hp => cases hp
  | _ :: _ :: _ :: _, hp => cases hp

theorem absPlus_says : (match absRun absPlus1 absPlus2 with
    | some (m, m') => decide (m.hist = [] ∧ m.th.all (fun t => match t with | .idle => true | _ => false) = true) && pagesB (.readdirplus 1 1000 0) (.readdirplus 1 1000 2) .bufPlus m'.hist
    | none => false) = true := by decide +kernel

/-- For listings with `readdirplus` nothing like this holds: here the backend has never denied anything, and the root directory, of which only `a` is known, ends after `a`
without an error. -/
theorem C107_plus_counterexample : ∃ m m' q1 q2 e1 e2 n, MReachD (Only Denies (fun _ _ => False)) m ∧ Since Off m 0 m' ∧ m'.hist = [q1, q2] ∧
    q1.rq = .readdirplus 1 1000 0 ∧ q1.rep = .bufPlus [e1, e2] n ∧ e1.name = [0x2e] ∧ e2.name = [0x61] ∧ e2.off = 2 ∧ q2.rq = .readdirplus 1 1000 2 ∧ q2.rep = .bufPlus [] 0 := by
  have hs := absPlus_says
  generalize hd : absRun _ _ = o at hs
  obtain _ | ⟨m, m'⟩ := o
  · cases hs
  simp only [Bool.and_eq_true, decide_eq_true_eq] at hs
  obtain ⟨⟨e1, e2⟩, e4⟩ := hs
  obtain ⟨g1, g2⟩ := absRun_ok (Q := Only Denies (fun _ _ => False)) (Qe := fun rq B => ∀ d, Only Denies (fun _ _ => False) d rq B) (fun _ _ _ h => h _)
    (asks_Asks (fun d b n h => by
      cases h with
      | @lookup _ _ _ e h0 h1 =>
        rw [path_root] at h0; cases h0
        have : tblA.backend.lstat 0 ([] ++ [0x2f, 0x61]) = .ok bDir := by decide
        rw [this] at h1; cases h1)) (by
      intro e he
      rcases List.mem_append.mp he with he | he
      · exact asks_Asks (rq := .readdirplus 1 1000 0) offline_table e he
      · exact asks_Asks (rq := .readdirplus 1 1000 2) offline_table e he) (by decide) hd e1 e2
  obtain ⟨q1, q2, x1, x2, n, k⟩ := pagesB_ok e4
  exact ⟨m, m', q1, q2, x1, x2, n, g1, g2, k⟩

/-! ### Non-vacuity -/

/-- There is `/a`. -/
def tblOne : Tbl where
  stats := [([0x2f, 0x61], .ok bDir)]
  dirs := [([0x2f], .ok ([[0x61]], 0))]

theorem tblOne_tame : Tame tblOne.backend where
  lstat := fun p e h => by
    simp only [Tbl.backend, tblOne, List.lookup_cons, List.lookup_nil] at h
    split at h
    · cases h
    · cases h; exact .inl rfl
  readlink := fun p e h => by cases h; exact .inl rfl
  list := fun b names e h => by
    simp only [Tbl.backend, tblOne, List.lookup_cons, List.lookup_nil] at h
    split at h
    · rename_i hb
      cases h
      refine ⟨rfl, fun k n hk => ?_⟩
      have hn : n = [0x61] := List.mem_singleton.mp (List.mem_of_getElem? hk)
      have hb' : b = [0x2f] := by simpa using hb
      subst hn hb'
      exact ⟨bDir, rfl⟩
    · cases h

/-- The root directory is opened while connected; disconnected, `b` is looked up. -/
def absDemo1 : List LEv := asks tblOne (.opendir 1) 9
def absDemo2 : List LEv := asks .offline (.lookup 1 [0x62]) 7

/-- Or the root directory is read. -/
def absDemo3 : List LEv := asks .offline (.readdir 1 1000 0) 9 ++ asks .offline (.readdir 1 1000 2) 6

theorem absDemo_says : (match absRun absDemo1 absDemo2 with
    | some (m, m') => decide (m.hist = [] ∧ m.th.all (fun t => match t with | .idle => true | _ => false) = true ∧ Cache.testFlag m.w.disk 1 SYNCED = .ok true ∧
        Cache.lookup m.w.disk 1 [0x62] = .ok (.error ENOENT) ∧ m'.hist.map (fun q => (q.rq, q.rep)) = [(.lookup 1 [0x62], .err ENOENT)])
    | none => false) = true := by decide +kernel

theorem absDemo_lists : (match absRun absDemo1 absDemo3 with
    | some (m, m') => decide (m.hist = [] ∧ m.th.all (fun t => match t with | .idle => true | _ => false) = true) &&
        pagesB (.readdir 1 1000 0) (.readdir 1 1000 2) .buf m'.hist
    | none => false) = true := by decide +kernel

/-- What is denied in these examples: everything in the root directory but `a`. -/
def absNo (b n : Bytes) : Prop := b = [] ∧ n ≠ [0x61]

theorem absDemo_only : ∀ d, Tame tblOne.backend ∧ Only SaysNo absNo d (.opendir 1) tblOne.backend := by
  refine fun d => ⟨tblOne_tame, fun b n h => ?_⟩
  cases h with
  | list h0 h1 h2 =>
    rw [path_root] at h0; cases h0
    have : tblOne.backend.opendir (if ([] : Bytes) = [] then [0x2f] else []) = .ok ([[0x61]], 0) := by decide
    rw [this] at h1; cases h1
    exact ⟨rfl, fun hn => h2 (by rw [hn]; decide)⟩

/-- The hypotheses of `C107_absent_partial`, `C107_lookup_partial` and `C107_strict_partial` can be met. -/
example : ∃ m m' q, MReachD (fun d rq B => Tame B ∧ Only SaysNo absNo d rq B) m ∧ MReachD (Only Denies absNo) m ∧ Since Off m 0 m' ∧ m'.hist[0]? = some q ∧ q.after 0 0 ∧
    q.rq = .lookup 1 [0x62] ∧ GoodName [0x62] ∧ Cache.path m.w.disk 1 = .ok (.ok []) ∧ q.rep = .err ENOENT ∧ Cache.testFlag m.w.disk 1 SYNCED = .ok true ∧
    (∀ i, Cache.lookup m.w.disk 1 [0x62] ≠ .ok (.ok i)) ∧ ¬ absNo [] [0x61] := by
  have hs := absDemo_says
  generalize hd : absRun _ _ = o at hs
  obtain _ | ⟨m, m'⟩ := o
  · cases hs
  simp only [decide_eq_true_eq] at hs
  obtain ⟨e1, e2, e3, e4, e5⟩ := hs
  obtain ⟨g1, g2⟩ := absRun_ok (Q := fun d rq B => Tame B ∧ Only SaysNo absNo d rq B) (Qe := fun rq B => ∀ d, Tame B ∧ Only SaysNo absNo d rq B) (fun _ _ _ h => h _)
    (asks_Asks absDemo_only) (asks_Asks offline_table) (by decide) hd e1 e2
  obtain ⟨⟨rq, B, v, rep⟩, hq⟩ : ∃ q, m'.hist = [q] := by
    cases hh : m'.hist with
    | nil => rw [hh] at e5; cases e5
    | cons q t => cases t with
      | nil => exact ⟨q, rfl⟩
      | cons => rw [hh] at e5; simp at e5
  rw [hq] at e5
  simp only [List.map_cons, List.map_nil, List.cons.injEq, Prod.mk.injEq, and_true] at e5
  exact ⟨m, m', _, g1, g1.mono fun _ _ _ hB b n hd => hB.2 b n (hB.1.says hd), g2, by rw [hq]; rfl, ⟨Nat.zero_le _, fun _ => Nat.zero_le _⟩, e5.1, ⟨by decide, by decide, by decide⟩,
    path_root _, e5.2, e3, fun i => by rw [e4]; simp, fun h => h.2 rfl⟩

/-- The hypotheses of `C107_ls_partial` can be met: `.` and `a` are listed. -/
example : ∃ m m' l, MReachD (Only Denies absNo) m ∧ Since Off m 0 m' ∧ Cache.path m.w.disk 1 = .ok (.ok []) ∧ Ls m'.hist 0 1 0 l ∧ l.map (·.name) = [[0x2e], [0x61]] := by
  have hs := absDemo_lists
  generalize hd : absRun _ _ = o at hs
  obtain _ | ⟨m, m'⟩ := o
  · cases hs
  simp only [Bool.and_eq_true, decide_eq_true_eq] at hs
  obtain ⟨⟨e1, e2⟩, e4⟩ := hs
  obtain ⟨g1, g2⟩ := absRun_ok (Q := fun d rq B => Tame B ∧ Only SaysNo absNo d rq B) (Qe := fun rq B => ∀ d, Tame B ∧ Only SaysNo absNo d rq B) (fun _ _ _ h => h _)
    (asks_Asks absDemo_only) (by
      intro e he
      rcases List.mem_append.mp he with he | he
      · exact asks_Asks (rq := .readdir 1 1000 0) offline_table e he
      · exact asks_Asks (rq := .readdir 1 1000 2) offline_table e he) (by decide) hd e1 e2
  obtain ⟨q1, q2, x1, x2, n, k1, k2, k3, k4, k5, k6, k7, k8⟩ := pagesB_ok e4
  refine ⟨m, m', [x1] ++ [x2] ++ [], g1.mono fun _ _ _ hB b n hd => hB.2 b n (hB.1.says hd), g2, path_root _, ?_, by simp [k4, k5]⟩
  refine .more (k := 0) (by rw [k1]; rfl) ⟨Nat.zero_le _, fun _ => Nat.zero_le _⟩ k2 k3 ?_
  rw [k6]
  exact .eof (k := 1) (by rw [k1]; rfl) ⟨Nat.zero_le _, fun _ => Nat.zero_le _⟩ k7 (by decide) k8

end Dragonstash.MT
