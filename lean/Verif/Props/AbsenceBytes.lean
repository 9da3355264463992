/-
  C126: what the mount says is absent while disconnected, the backend has denied (C107), on the stored bytes.
-/
import Verif.Props.Absence
import Verif.Props.FrameBytes
namespace Dragonstash.MTB
open Cache FS Conc ConcB
variable {N : Bytes → Bytes → Prop} {m m' : MSys} {b : Nat}

/-! ### Specification -/

/-- As `MT.MReachD`: reachable, where every request which ends satisfies `Q` with the database file and the backend it saw. -/
inductive MReachD (Q : Cache.B.DB → Req → Backend → Prop) : MSys → Prop
  | mount {pad pad' uid gid now n m} : MountFits uid gid now → mount pad pad' Cache.B.emptyDB uid gid now n = .ok m → Room m.w → MReachD Q m
  | remount {m pad pad' uid gid now n m'} : MReachD Q m → MountFits uid gid now → MTB.mount pad pad' m.w.disk uid gid now n = .ok m' → Room m'.w → MReachD Q m'
  | step {m m' k} : MReachD Q m → Step m k m' → Proper m k m' → Room m'.w → (∀ q, m'.hist = m.hist ++ [q] → Q m.w.disk q.rq q.B) → MReachD Q m'

/-- While a request was handled, the backend said that there is no `n` in the directory with the path `b`: it answered ENOENT for its path, or it listed the directory
completely and `n` was not among the names (as `MT.SaysNo`, with the paths in a database file). -/
inductive SaysNo (d : Cache.B.DB) (B : Backend) : Req → Bytes → Bytes → Prop
  | lookup {p b n} : Cache.B.path d p = .ok (.ok b) → B.lstat 0 (b ++ 0x2f :: n) = .error ENOENT → SaysNo d B (.lookup p n) b n
  | readlink {i b n} : Cache.B.path d i = .ok (.ok (b ++ 0x2f :: n)) → B.readlink (b ++ 0x2f :: n) = .error ENOENT → SaysNo d B (.readlink i) b n
  | list {i b n names} : Cache.B.path d i = .ok (.ok b) → B.opendir (if b = [] then [0x2f] else b) = .ok (names, 0) → n ∉ names → SaysNo d B (.opendir i) b n

/-- The backend said something because of which the name `n` in the directory with the path `b` is given up (as `FS.Denies`, with the paths in a database file). -/
inductive Denies (d : Cache.B.DB) (B : Backend) : Req → Bytes → Bytes → Prop
  | lookup {p b n e} : Cache.B.path d p = .ok (.ok b) → B.lstat 0 (b ++ 0x2f :: n) = .error e → e ≠ ENOTCONN → Denies d B (.lookup p n) b n
  | readlink {i b n e} : Cache.B.path d i = .ok (.ok (b ++ 0x2f :: n)) → B.readlink (b ++ 0x2f :: n) = .error e → e ≠ ENOTCONN → Denies d B (.readlink i) b n
  | list {i b n names e} : Cache.B.path d i = .ok (.ok b) → B.opendir (if b = [] then [0x2f] else b) = .ok (names, e) →
      (∀ (k : Nat) sr, names[k]? = some n → B.lstat k (entryPath (backendPath b) n) ≠ .ok sr) → Denies d B (.opendir i) b n

/-- Requests in which the backend denies nothing but what is in `N`. -/
def Only (D : Cache.B.DB → Backend → Req → Bytes → Bytes → Prop) (N : Bytes → Bytes → Prop) : Cache.B.DB → Req → Backend → Prop := fun d rq B => ∀ b n, D d B rq b n → N b n

/-- **C126 (full).** If a request which begins after the backend was last connected is answered "there is no such name", then the backend has said so. -/
def C126_full : Prop := ∀ (N : Bytes → Bytes → Prop) (m m' : MSys) (b k : Nat) (q : MT.Done) (p : Ino) (n x : Bytes),
  MReachD (Only SaysNo N) m → Since (fun _ _ B => Offline B) m b m' → m'.hist[k]? = some q → q.after k b → q.rq = .lookup p n → GoodName n → p < W64 →
  Cache.B.path m.w.disk p = .ok (.ok x) → q.rep = .err ENOENT → N x n

/-! ### Theorems -/

theorem denies_rel {x : Cache.B.DB} {d : DB} (h : DRel x d) {B : Backend} {rq : Req} {b n : Bytes} (k : FS.Denies d B rq b n) : Denies x B rq b n := by
  cases k with
  | lookup h1 h2 h3 => exact .lookup (by rw [path_rel h]; exact h1) h2 h3
  | readlink h1 h2 h3 => exact .readlink (by rw [path_rel h]; exact h1) h2 h3
  | list h1 h2 h3 => exact .list (by rw [path_rel h]; exact h1) h2 h3

theorem saysNo_rel {x : Cache.B.DB} {d : DB} (h : DRel x d) {B : Backend} {rq : Req} {b n : Bytes} (k : MT.SaysNo d B rq b n) : SaysNo x B rq b n := by
  cases k with
  | lookup h1 h2 => exact .lookup (by rw [path_rel h]; exact h1) h2
  | readlink h1 h2 => exact .readlink (by rw [path_rel h]; exact h1) h2
  | list h1 h2 h3 => exact .list (by rw [path_rel h]; exact h1) h2 h3

theorem only_denies {x : Cache.B.DB} {d : DB} {rq : Req} {B : Backend} (h : DRel x d) (k : Only Denies N x rq B) : MT.Only FS.Denies N d rq B := fun b n hd => k b n (denies_rel h hd)

theorem only_says {x : Cache.B.DB} {d : DB} {rq : Req} {B : Backend} (h : DRel x d) (k : Only SaysNo N x rq B) : MT.Only MT.SaysNo N d rq B := fun b n hd => k b n (saysNo_rel h hd)

theorem MReachD.rel {Q : Cache.B.DB → Req → Backend → Prop} {Q' : DB → Req → Backend → Prop} (hQ : ∀ {x d rq B}, DRel x d → Q x rq B → Q' d rq B) {b : MSys} (h : MReachD Q b) :
    ∃ m, MT.MReachD Q' m ∧ MSRel b m := by
  induction h with
  | mount hf hm hr =>
    obtain ⟨d, r, h1, h2⟩ := mount_left DRel.empty hf hm
    exact ⟨_, .mount h1 ((room_rel h2.w).mp hr), h2⟩
  | remount _ hf hm hr ih =>
    obtain ⟨m, h1, h2⟩ := ih
    obtain ⟨d, r, h3, h4⟩ := mount_left h2.w.disk hf hm
    exact ⟨_, .remount h1 h3 ((room_rel h4.w).mp hr), h4⟩
  | step _ hs hp hr hq ih =>
    obtain ⟨m, h1, h2⟩ := ih
    obtain ⟨m', h3, h4⟩ := step_left h2 hs hp.new
    exact ⟨m', .step h1 h3 (proper_left h2 h4 hp) ((room_rel h4.w).mp hr) (fun q e => hQ h2.w.disk (hq q (by rw [h4.hist, h2.hist]; exact e))), h4⟩

/-- **C126 (partial).** If the bytes of the database file do not contain a name of a directory which they say is known completely, the backend has denied this name. -/
theorem C126_absent_partial (h : MReachD (Only Denies N) m) {p : Ino} (hp : p < W64) {x : Bytes} (hx : Cache.B.path m.w.disk p = .ok (.ok x))
    (hf : Cache.B.testFlag m.w.disk p SYNCED = .ok (.ok true)) {n : Bytes} (hn : GoodName n) (hno : ∀ i, Cache.B.lookup m.w.disk p n ≠ .ok (.ok i)) : N x n := by
  obtain ⟨m1, h1, h2⟩ := h.rel (Q' := MT.Only FS.Denies N) (fun hr k => only_denies hr k)
  rw [path_rel h2.w.disk] at hx
  rw [testFlag_rel h2.w.disk] at hf
  exact MT.C107_absent_partial h1 hp hx (Except.ok.inj hf) hn (fun i hi => hno i (by rw [lookup_rel h2.w.disk]; exact hi))

/-- **C126 (partial).** If a request which begins after the backend was last connected is answered "there is no such name", the backend has denied the name. -/
theorem C126_lookup_partial (h : MReachD (Only Denies N) m) (hs : Since (fun _ _ B => Offline B) m b m') {k : Nat} {q : MT.Done} (hk : m'.hist[k]? = some q) (ha : q.after k b)
    {p : Ino} {n : Bytes} (hq : q.rq = .lookup p n) (hn : GoodName n) (hp : p < W64) {x : Bytes} (hx : Cache.B.path m.w.disk p = .ok (.ok x)) (hrep : q.rep = .err ENOENT) : N x n := by
  obtain ⟨m1, h1, h2⟩ := h.rel (Q' := MT.Only FS.Denies N) (fun hr k => only_denies hr k)
  obtain ⟨m2, h3, h4⟩ := hs.rel (Q' := MT.Off) (fun _ h => h) h2
  rw [path_rel h2.w.disk] at hx
  rw [h4.hist] at hk
  exact MT.C107_lookup_partial h1 h3 hk ha hq hn hp hx hrep

/-- **C126 (partial).** A name which is missing when the directory is read to its end the backend has denied. -/
theorem C126_ls_partial (h : MReachD (Only Denies N) m) (hs : Since (fun _ _ B => Offline B) m b m') {dir : Ino} (hd : dir < W64) {x : Bytes}
    (hx : Cache.B.path m.w.disk dir = .ok (.ok x)) {l : List DEnt} (hl : MT.Ls m'.hist b dir 0 l) {n : Bytes} (hn : GoodName n) (hno : ∀ e ∈ l, e.name ≠ n) : N x n := by
  obtain ⟨m1, h1, h2⟩ := h.rel (Q' := MT.Only FS.Denies N) (fun hr k => only_denies hr k)
  obtain ⟨m2, h3, h4⟩ := hs.rel (Q' := MT.Off) (fun _ h => h) h2
  rw [path_rel h2.w.disk] at hx
  rw [h4.hist] at hl
  exact MT.C107_ls_partial h1 h3 hd hx hl hn hno

/-- **C126 (partial).** The full claim, with a backend whose only errors are ENOENT and ENOTCONN and which does not fail within a listing. -/
theorem C126_strict_partial (h : MReachD (fun d rq B => MT.Tame B ∧ Only SaysNo N d rq B) m) (hs : Since (fun _ _ B => Offline B) m b m') {k : Nat} {q : MT.Done}
    (hk : m'.hist[k]? = some q) (ha : q.after k b) {p : Ino} {n : Bytes} (hq : q.rq = .lookup p n) (hn : GoodName n) (hp : p < W64) {x : Bytes}
    (hx : Cache.B.path m.w.disk p = .ok (.ok x)) (hrep : q.rep = .err ENOENT) : N x n := by
  obtain ⟨m1, h1, h2⟩ := h.rel (Q' := fun d rq B => MT.Tame B ∧ MT.Only MT.SaysNo N d rq B) (fun hr k => ⟨k.1, only_says hr k.2⟩)
  obtain ⟨m2, h3, h4⟩ := hs.rel (Q' := MT.Off) (fun _ h => h) h2
  rw [path_rel h2.w.disk] at hx
  rw [h4.hist] at hk
  exact MT.C107_strict_partial h1 h3 hk ha hq hn hp hx hrep

/-! ### Examples -/

/-- Checked histories on records are histories on bytes, with every property which steps and restarts keep. -/
theorem lrun_keeps (pad : Ino → Nat) {Qe : Req → Backend → Prop} (hF : ∀ rq B, Qe rq B → FSB.BackendFits B) {R : MSys → Prop}
    (hstep : ∀ {b b' k}, R b → Step b k b' → Proper b k b' → Room b'.w → (∀ q ∈ b'.hist, Qe q.rq q.B) → R b')
    (hdie : ∀ {b b' n}, R b → mount pad pad b.w.disk 0 0 ⟨0, 0⟩ n = .ok b' → Room b'.w → R b') :
    ∀ {l : List MT.LEv} {past m cap past' m' cap' b}, MT.Ready Qe cap m → (∀ e ∈ l, e.Asks Qe) → MT.lrun past m cap l = some (past', m', cap') →
    MSRel b m → R b → ∃ b', MSRel b' m' ∧ R b' := by
  intro l
  induction l with
  | nil => intro past m cap past' m' cap' b _ _ hd h1 h2; cases hd; exact ⟨b, h1, h2⟩
  | cons e l ih =>
    intro past m cap past' m' cap' b hr hA hd h1 h2
    cases e with
    | ev a =>
      simp only [MT.lrun] at hd
      split at hd
      · cases hd
      · rename_i m1 cap1 hm
        obtain ⟨g1, k, g2, g3, g4⟩ := hr.event (hA _ (List.mem_cons_self ..)) hm
        have hf : ∀ rq B, m1.th[k]? = some (.recv rq B) → FSB.BackendFits B := fun rq B hk => hF _ _ (g1.asks k _ hk)
        have hnew : NewFits m.th m1.th k := by
          intro hk rq B hrc
          cases g3 with
          | issue e1 e2 e3 e4 => rw [e1] at hrc; cases hrc; exact ⟨e2, hf _ _ e1⟩
          | begin_ e1 _ => rw [hk] at e1; cases e1
          | other _ e2 => exact absurd hrc (e2 rq B)
        obtain ⟨b1, k1, k2⟩ := step_right pad h1 g2 hnew
        exact ih g1 (fun e he => hA e (List.mem_cons_of_mem _ he)) hd k2
          (hstep h2 k1 (proper_right h1 k2 g3 hf) ((room_rel k2.w).mpr g4) (fun q hq => g1.hist q (by rw [← k2.hist]; exact hq)))
    | die t =>
      simp only [MT.lrun] at hd
      split at hd
      · cases hd
      · rename_i d r ho
        split at hd
        · rename_i hroom
          obtain ⟨_, _, _, _, _, _, _, _, s, _, _, hR, _⟩ := hr.reach.any.inv MT.kept_true
          have hi : Cache.initDB m.w.disk 0 0 ⟨0, 0⟩ = m.w.disk := by unfold Cache.initDB; rw [hR.si.rep.next]
          have ho' := ho
          rw [hi] at ho'
          have hc : ∀ i, ((Conc.CWorld.start d r).refs i).nrefs ≤ 0 := fun i => Nat.le_of_eq (open_counts (MT.si_empty hR.si.rep hR.si.ok hR.si.wf) ho' i)
          have hroom' := MT.roomB_iff hc hroom
          obtain ⟨b1, k1, k2⟩ := mount_right pad pad h1.w.disk zero_fits t ho
          exact ih (MT.ready_start (.remount hr.reach ho hroom') hc) (fun e he => hA e (List.mem_cons_of_mem _ he)) hd k2 (hdie h2 k1 ((room_rel k2.w).mpr hroom'))
        · cases hd

theorem lstart_keeps (pad : Ino → Nat) {Qe : Req → Backend → Prop} (hF : ∀ rq B, Qe rq B → FSB.BackendFits B) {R : MSys → Prop}
    (hmount : ∀ {b n}, mount pad pad Cache.B.emptyDB 0 0 ⟨0, 0⟩ n = .ok b → Room b.w → R b)
    (hstep : ∀ {b b' k}, R b → Step b k b' → Proper b k b' → Room b'.w → (∀ q ∈ b'.hist, Qe q.rq q.B) → R b')
    (hdie : ∀ {b b' n}, R b → mount pad pad b.w.disk 0 0 ⟨0, 0⟩ n = .ok b' → Room b'.w → R b') {n : Nat} {l : List MT.LEv} {past m cap} (hA : ∀ e ∈ l, e.Asks Qe)
    (h : MT.lstart n l = some (past, m, cap)) : ∃ b, MSRel b m ∧ R b := by
  unfold MT.lstart at h
  split at h
  · cases h
  · rename_i d r ho
    split at h
    · rename_i hroom
      have hc : ∀ i, ((Conc.CWorld.start d r).refs i).nrefs ≤ 0 := by
        obtain ⟨s, h1, h2, h3⟩ := Cache.root_rep 0 0 ⟨0, 0⟩
        exact fun i => Nat.le_of_eq (open_counts (MT.si_empty h1 h2 h3) ho i)
      have hroom' := MT.roomB_iff hc hroom
      obtain ⟨b, k1, k2⟩ := mount_right pad pad DRel.empty zero_fits n ho
      exact lrun_keeps pad hF hstep hdie (MT.ready_start (.mount ho hroom') hc) hA h k2 (hmount k1 ((room_rel k2.w).mpr hroom'))
    · cases h

/-- Two lives as in the examples of C107, on bytes. -/
theorem absRun_bytes (pad : Ino → Nat) {Q : Cache.B.DB → Req → Backend → Prop} {Qe : Req → Backend → Prop} (hQ : ∀ d rq B, Qe rq B → Q d rq B) (hF : ∀ rq B, Qe rq B → FSB.BackendFits B)
    {l1 l2 : List MT.LEv} (h1 : ∀ e ∈ l1, e.Asks Qe) (h2 : ∀ e ∈ l2, e.Asks (fun _ B => FSB.BackendFits B ∧ Offline B)) {m m' : MT.MSys}
    (h : MT.absRun l1 l2 = some (m, m')) (hm : m.hist = []) (hi : m.th.all (fun t => match t with | .idle => true | _ => false) = true) :
    ∃ b b', MSRel b m ∧ MSRel b' m' ∧ MReachD Q b ∧ Since (fun _ _ B => Offline B) b 0 b' := by
  unfold MT.absRun at h
  obtain ⟨⟨p0, y0, c0⟩, e1, h⟩ := Option.bind_eq_some_iff.mp h
  obtain ⟨⟨p1, y1, c1⟩, e2, h⟩ := Option.bind_eq_some_iff.mp h
  cases h
  simp only at e2
  have hA : ∀ e ∈ l1 ++ [MT.LEv.die 1], e.Asks Qe := by
    intro e he
    rcases List.mem_append.mp he with he | he
    · exact h1 e he
    · rw [List.mem_singleton.mp he]; trivial
  obtain ⟨b, k1, k2⟩ := lstart_keeps pad hF (R := MReachD Q) (fun a1 a2 => .mount zero_fits a1 a2)
    (fun a1 a2 a3 a4 a5 => .step a1 a2 a3 a4 (fun q hq => hQ _ _ _ (a5 q (by rw [hq]; simp)))) (fun a1 a2 a3 => .remount a1 zero_fits a2 a3) hA e1
  obtain ⟨-, g2⟩ := MT.lstart_life hA e1
  have g2' : MT.Ready (fun _ B => FSB.BackendFits B ∧ Offline B) c0 y0 := by
    refine ⟨g2.reach, g2.counts, fun j st hj => ?_, fun q hq => by rw [hm] at hq; cases hq⟩
    have := List.all_eq_true.mp hi st (List.mem_of_getElem? hj)
    cases st with
    | idle => trivial
    | recv => cases this
    | run => cases this
    | committed => cases this
    | answer => cases this
    | leaving => cases this
    | left => cases this
  have h0 : Since (fun _ _ B => Offline B) b 0 b := by
    have : Since (fun _ _ B => Offline B) b b.hist.length b := .refl
    rw [k1.hist, hm] at this
    exact this
  obtain ⟨b', k3, k4⟩ := lrun_keeps pad (fun _ _ h => h.1) (R := Since (fun _ _ B => Offline B) b 0)
    (fun a1 a2 a3 a4 a5 => .step a1 a2 a3 a4 (fun q hq => (a5 q (by rw [hq]; simp)).2)) (fun a1 a2 a3 => .crash a1 zero_fits a2 a3) g2' h2 e2 k1 h0
  exact ⟨b, b', k1, k3, k2, k4⟩

theorem offline_asks : FSB.BackendFits Tbl.offline.backend ∧ Offline Tbl.offline.backend := ⟨FSB.fitsT_iff (by decide +kernel), offline_table⟩

theorem path_rootB (d : Cache.B.DB) : Cache.B.path d 1 = .ok (.ok []) := rfl

/-- The full claim is false here too. -/
theorem C126_counterexample : ¬ C126_full := by
  intro hfull
  have hs := MT.absLost_says
  generalize hd : MT.absRun _ _ = o at hs
  obtain _ | ⟨m, m'⟩ := o
  · cases hs
  simp only [decide_eq_true_eq] at hs
  obtain ⟨e1, e2, e4⟩ := hs
  obtain ⟨y, y', f1, f2, g1, g2⟩ := absRun_bytes (fun _ => 0) (Q := Only SaysNo (fun b n => ¬ (b = [] ∧ n = [0x61])))
    (Qe := fun rq B => FSB.BackendFits B ∧ ∀ d, Only SaysNo (fun b n => ¬ (b = [] ∧ n = [0x61])) d rq B) (fun _ _ _ h => h.2 _) (fun _ _ h => h.1)
    (MT.asks_Asks ⟨FSB.fitsT_iff (by decide +kernel), fun d b n h hbn => by
      obtain ⟨rfl, rfl⟩ := hbn
      cases h with
      | @list _ _ _ names _ h h' =>
        have : tblLost.backend.opendir (if ([] : Bytes) = [] then [0x2f] else []) = .ok ([[0x61]], 0) := by decide
        rw [this] at h; cases h
        exact h' (by decide)⟩) (MT.asks_Asks offline_asks) hd e1 e2
  obtain ⟨⟨rq, B, v, rep⟩, hq⟩ : ∃ q, m'.hist = [q] := by
    cases hh : m'.hist with
    | nil => rw [hh] at e4; cases e4
    | cons q t => cases t with
      | nil => exact ⟨q, rfl⟩
      | cons => rw [hh] at e4; simp at e4
  rw [hq] at e4
  simp only [List.map_cons, List.map_nil, List.cons.injEq, Prod.mk.injEq, and_true] at e4
  exact hfull _ y y' 0 0 _ 1 [0x61] [] g1 g2 (by rw [f2.hist, hq]; rfl) ⟨Nat.zero_le _, fun _ => Nat.zero_le _⟩ e4.1 ⟨by decide, by decide, by decide⟩ (by decide) (path_rootB _) e4.2 ⟨rfl, rfl⟩

theorem absDemo_onlyB : ∀ d, MT.Tame MT.tblOne.backend ∧ Only SaysNo MT.absNo d (.opendir 1) MT.tblOne.backend := by
  refine fun d => ⟨MT.tblOne_tame, fun b n h => ?_⟩
  cases h with
  | list h0 h1 h2 =>
    rw [path_rootB] at h0; cases h0
    have : MT.tblOne.backend.opendir (if ([] : Bytes) = [] then [0x2f] else []) = .ok ([[0x61]], 0) := by decide
    rw [this] at h1; cases h1
    exact ⟨rfl, fun hn => h2 (by rw [hn]; decide)⟩

theorem MReachD.mono {Q Q' : Cache.B.DB → Req → Backend → Prop} (hQ : ∀ d rq B, Q d rq B → Q' d rq B) {m : MSys} (h : MReachD Q m) : MReachD Q' m := by
  induction h with
  | mount a1 a2 a3 => exact .mount a1 a2 a3
  | remount _ a1 a2 a3 ih => exact .remount ih a1 a2 a3
  | step _ a1 a2 a3 a4 ih => exact .step ih a1 a2 a3 (fun q hq => hQ _ _ _ (a4 q hq))

theorem tame_says {d : Cache.B.DB} {B : Backend} (h : MT.Tame B) {rq : Req} {b n : Bytes} (hd : Denies d B rq b n) : SaysNo d B rq b n := by
  cases hd with
  | lookup h0 h1 h2 =>
    rcases h.lstat _ _ h1 with rfl | rfl
    · exact .lookup h0 h1
    · exact absurd rfl h2
  | readlink h0 h1 h2 =>
    rcases h.readlink _ _ h1 with rfl | rfl
    · exact .readlink h0 h1
    · exact absurd rfl h2
  | @list i b n names e h0 h1 h2 =>
    obtain ⟨rfl, h3⟩ := h.list _ _ _ h1
    refine .list h0 h1 fun hn => ?_
    obtain ⟨k, hk⟩ := List.getElem?_of_mem hn
    obtain ⟨sr, hsr⟩ := h3 k n hk
    exact h2 k sr hk hsr

/-- The hypotheses of `C126_absent_partial`, `C126_lookup_partial` and `C126_strict_partial` can be met, with any padding. -/
example (pad : Ino → Nat) : ∃ m m' q, MReachD (fun d rq B => MT.Tame B ∧ Only SaysNo MT.absNo d rq B) m ∧ MReachD (Only Denies MT.absNo) m ∧ Since (fun _ _ B => Offline B) m 0 m' ∧
    m'.hist[0]? = some q ∧ q.after 0 0 ∧ q.rq = .lookup 1 [0x62] ∧ GoodName [0x62] ∧ Cache.B.path m.w.disk 1 = .ok (.ok []) ∧ q.rep = .err ENOENT ∧
    Cache.B.testFlag m.w.disk 1 SYNCED = .ok (.ok true) ∧ (∀ i, Cache.B.lookup m.w.disk 1 [0x62] ≠ .ok (.ok i)) ∧ ¬ MT.absNo [] [0x61] := by
  have hs := MT.absDemo_says
  generalize hd : MT.absRun _ _ = o at hs
  obtain _ | ⟨m, m'⟩ := o
  · cases hs
  simp only [decide_eq_true_eq] at hs
  obtain ⟨e1, e2, e3, e4, e5⟩ := hs
  obtain ⟨y, y', f1, f2, g1, g2⟩ := absRun_bytes pad (Q := fun d rq B => MT.Tame B ∧ Only SaysNo MT.absNo d rq B)
    (Qe := fun rq B => FSB.BackendFits B ∧ ∀ d, MT.Tame B ∧ Only SaysNo MT.absNo d rq B) (fun _ _ _ h => h.2 _) (fun _ _ h => h.1)
    (MT.asks_Asks ⟨FSB.fitsT_iff (by decide +kernel), absDemo_onlyB⟩) (MT.asks_Asks offline_asks) hd e1 e2
  obtain ⟨⟨rq, B, v, rep⟩, hq⟩ : ∃ q, m'.hist = [q] := by
    cases hh : m'.hist with
    | nil => rw [hh] at e5; cases e5
    | cons q t => cases t with
      | nil => exact ⟨q, rfl⟩
      | cons => rw [hh] at e5; simp at e5
  rw [hq] at e5
  simp only [List.map_cons, List.map_nil, List.cons.injEq, Prod.mk.injEq, and_true] at e5
  exact ⟨y, y', _, g1, g1.mono fun _ _ _ hB b n hd => hB.2 b n (tame_says hB.1 hd), g2, by rw [f2.hist, hq]; rfl, ⟨Nat.zero_le _, fun _ => Nat.zero_le _⟩, e5.1,
    ⟨by decide, by decide, by decide⟩, path_rootB _, e5.2, by rw [testFlag_rel f1.w.disk, e3], fun i => by rw [lookup_rel f1.w.disk, e4]; simp, fun h => h.2 rfl⟩

/-- The hypotheses of `C126_ls_partial` can be met: `.` and `a` are listed. -/
example (pad : Ino → Nat) : ∃ m m' l, MReachD (Only Denies MT.absNo) m ∧ Since (fun _ _ B => Offline B) m 0 m' ∧ Cache.B.path m.w.disk 1 = .ok (.ok []) ∧ MT.Ls m'.hist 0 1 0 l ∧
    l.map (·.name) = [[0x2e], [0x61]] := by
  have hs := MT.absDemo_lists
  generalize hd : MT.absRun _ _ = o at hs
  obtain _ | ⟨m, m'⟩ := o
  · cases hs
  simp only [Bool.and_eq_true, decide_eq_true_eq] at hs
  obtain ⟨⟨e1, e2⟩, e4⟩ := hs
  obtain ⟨y, y', f1, f2, g1, g2⟩ := absRun_bytes pad (Q := fun d rq B => MT.Tame B ∧ Only SaysNo MT.absNo d rq B)
    (Qe := fun rq B => FSB.BackendFits B ∧ ∀ d, MT.Tame B ∧ Only SaysNo MT.absNo d rq B) (fun _ _ _ h => h.2 _) (fun _ _ h => h.1)
    (MT.asks_Asks ⟨FSB.fitsT_iff (by decide +kernel), absDemo_onlyB⟩) (by
      intro e he
      rcases List.mem_append.mp he with he | he
      · exact MT.asks_Asks (rq := .readdir 1 1000 0) offline_asks e he
      · exact MT.asks_Asks (rq := .readdir 1 1000 2) offline_asks e he) hd e1 e2
  obtain ⟨q1, q2, x1, x2, n, k1, k2, k3, k4, k5, k6, k7, k8⟩ := MT.pagesB_ok e4
  refine ⟨y, y', [x1] ++ [x2] ++ [], g1.mono fun _ _ _ hB b n hd => hB.2 b n (tame_says hB.1 hd), g2, path_rootB _, ?_, by simp [k4, k5]⟩
  rw [f2.hist]
  refine .more (k := 0) (by rw [k1]; rfl) ⟨Nat.zero_le _, fun _ => Nat.zero_le _⟩ k2 k3 ?_
  rw [k6]
  exact .eof (k := 1) (by rw [k1]; rfl) ⟨Nat.zero_le _, fun _ => Nat.zero_le _⟩ k7 (by decide) k8

end Dragonstash.MTB
