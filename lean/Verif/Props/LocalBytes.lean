/-
  C93: a mounted local directory, with the database file as bytes.
-/
import Verif.Props.LocalList
import Verif.Props.FSBytesMulti
namespace Dragonstash.MTB
open Cache FS Conc ConcB
open MT (TState Done prog readOnly directReply)
open Local (HTree Host Has Gone Plain backend Whole ShortLinks Short HostWalk KernelWalk Way WalkRight ListsAll Since rootR treeA)

/-! ### Specification -/

/-- Reachable (as `MReach`), by requests with property `Q`, which may depend on the file as it is when the request ends. -/
inductive ReachD (Q : Cache.B.DB → Req → Backend → Prop) : MSys → Prop
  | mount {pad pad' uid gid now n m} : MountFits uid gid now → mount pad pad' Cache.B.emptyDB uid gid now n = .ok m → Room m.w → ReachD Q m
  | remount {m pad pad' uid gid now n m'} : ReachD Q m → MountFits uid gid now → MTB.mount pad pad' m.w.disk uid gid now n = .ok m' → Room m'.w → ReachD Q m'
  | step {m m' k} : ReachD Q m → Step m k m' → Proper m k m' → Room m'.w → (∀ q, m'.hist = m.hist ++ [q] → Q m.w.disk q.rq q.B) → ReachD Q m'

/-- As `Local.Asked`: names are not empty, links are read only of links; the host has the tree `T` or is not connected. -/
def Asked (root : Bytes) (T : HTree) (d : Cache.B.DB) (rq : Req) (B : Backend) : Prop :=
  rq.named ∧ FSB.onLink d rq ∧ ∃ H, B = backend root H ∧ (Has root H T ∨ Gone H)

/-- The file agrees with the tree on the host (as `Local.Agrees`, in terms of the reading functions on bytes). -/
structure Agrees (T : HTree) (d : Cache.B.DB) : Prop where
  there : ∀ {i cs}, i < W64 → Cache.B.path d i = .ok (.ok (pathStr cs)) → (∀ c ∈ cs, Plain c) → T cs ≠ none
  sync : ∀ {i cs}, i < W64 → Cache.B.path d i = .ok (.ok (pathStr cs)) → (∀ c ∈ cs, Plain c) → Cache.B.testFlag d i SYNCED = .ok (.ok true) →
    ∀ n, Plain n → n.length ≤ 503 → ((∃ j, Cache.B.lookup d i n = .ok (.ok j)) ↔ T (cs ++ [n]) ≠ none)

/-! ### Proofs -/

variable {root : Bytes} {T : HTree}

theorem ReachD.reach {Q : Cache.B.DB → Req → Backend → Prop} {b : MSys} (h : ReachD Q b) : MReach b := by
  induction h with
  | mount h1 h2 h3 => exact .mount h1 h2 h3
  | remount _ h1 h2 h3 ih => exact .remount ih h1 h2 h3
  | step _ h1 h2 h3 _ ih => exact .step ih h1 h2 h3

theorem ReachD.rel {b : MSys} (h : ReachD (Asked root T) b) : ∃ m, MT.MReachD (Local.Asked root T) m ∧ MSRel b m := by
  induction h with
  | mount hf hm hr =>
    obtain ⟨d, r, h1, h2⟩ := mount_left DRel.empty hf hm
    exact ⟨_, .mount h1 ((room_rel h2.w).mp hr), h2⟩
  | remount _ hf hm hr ih =>
    obtain ⟨m, h1, h2⟩ := ih
    obtain ⟨d, r, h3, h4⟩ := mount_left h2.w.disk hf hm
    exact ⟨_, .remount h1 h3 ((room_rel h4.w).mp hr), h4⟩
  | step _ hs hp hr hq ih =>
    obtain ⟨m, h1, h2⟩ := ih
    obtain ⟨m', h3, h4⟩ := step_left h2 hs hp.new
    refine ⟨m', .step h1 h3 (proper_left h2 h4 hp) ((room_rel h4.w).mp hr) (fun q e => ?_), h4⟩
    obtain ⟨g1, g2, g3⟩ := hq q (by rw [h4.hist, h2.hist]; exact e)
    exact ⟨g1, (onLink_rel h2.w.disk _).mp g2, g3⟩

/-- C93: the file agrees with the tree on the host, at every moment. -/
theorem C93_file (hw : Whole T) (ht : Local.Tree T) (hr : root ≠ []) (h0 : (0 : UInt8) ∉ root) {b : MSys} (h : ReachD (Asked root T) b) : Agrees T b.w.disk := by
  obtain ⟨m, h1, h2⟩ := h.rel
  obtain ⟨-, -, -, ds, -, -, -, hl, hM⟩ := Local.C90_mirror hw ht hr h0 h1
  have hag := hM.agrees _ (List.mem_of_getLast? hl)
  refine ⟨fun hi hp hcs => ?_, fun hi hp hcs hf n hn hlen => ?_⟩
  · rw [path_rel h2.w.disk] at hp; exact hag.there hi hp hcs
  · rw [path_rel h2.w.disk] at hp
    rw [testFlag_rel h2.w.disk] at hf
    rw [← hag.sync hi hp hcs (Except.ok.inj hf) n hn hlen]
    simp only [lookup_rel h2.w.disk]

/-- C93: paths lead to the same objects as on the host (C91), whatever bytes the file got in the history. -/
theorem C93_walk (hw : Whole T) (ht : Local.Tree T) (hsl : ShortLinks T) (hr : root ≠ []) (h0 : (0 : UInt8) ∉ root)
    {b : MSys} (h : ReachD (Asked root T) b) {follow : Bool} {l : List Bytes} (hl : Short l) {res : Except Errno Way} (hk : KernelWalk b.hist follow [] l res) :
    WalkRight root T follow b.hist l res := by
  obtain ⟨m, h1, h2⟩ := h.rel
  rw [h2.hist] at hk ⊢
  exact Local.C91_walk hw ht hsl hr h0 h1 hl hk

/-- C93: `ls` lists what is on the host (C92), whatever bytes the file got in the history. -/
theorem C93_ls (hw : Whole T) (ht : Local.Tree T) (hsl : ShortLinks T) (hr : root ≠ []) (h0 : (0 : UInt8) ∉ root) {b : MSys} (h : ReachD (Asked root T) b)
    {follow : Bool} {l : List Bytes} (hl : Short l) {w : Way} (hk : KernelWalk b.hist follow [] l (.ok w)) (hdir : w.isDir)
    {k0 : Nat} {q0 : Done} (hb : w.before k0) (hq0 : b.hist[k0]? = some q0) (hod : q0.rq = .opendir w.ino) (hH : ∀ H, q0.B = backend root H → ¬ Gone H)
    {ks : List Nat} {es : List DEnt} (hks : Since b.hist (k0 + 1) ks) (hes : MT.Listing b.hist w.ino 0 ks es) :
    q0.rep = .opened ∧ ∃ cs o ns, HostWalk T follow [] l (.ok cs) ∧ T cs = some o ∧ o.names = some ns ∧ (∀ n, n.length ≤ 503 → Plain n → ((∃ e ∈ es, e.name = n) ↔ n ∈ ns)) ∧ ListsAll T cs es := by
  obtain ⟨m, h1, h2⟩ := h.rel
  rw [h2.hist] at hk hq0 hks hes
  exact Local.C92_ls hw ht hsl hr h0 h1 hl hk hdir hb hq0 hod hH hks hes

/-! ### Examples -/

theorem treeA_fits {cs : List Bytes} {o : Local.Obj} (h : treeA cs = some o) : (fromBackend o.stat).Fits ∧ ∀ t, o.target = some t → t.length < W64 := by
  unfold treeA at h
  split at h <;> cases h
  all_goals
    constructor
    · unfold Attrs.Fits Timespec.Fits; decide +kernel
    · intro t ht; cases ht <;> decide

theorem hostB_fits (b : Bool) : FSB.BackendFits (Local.hostB b) := by
  constructor
  · intro k p sr h
    change Local.lstat rootR _ k p = _ at h
    unfold Local.lstat at h
    cases hp : Local.mapPath rootR p with
    | error e => rw [hp] at h; cases h
    | ok q =>
      rw [hp] at h
      simp only at h
      cases b with
      | false => cases h
      | true =>
        simp only [if_true, Local.treeHost] at h
        cases hr : Local.rest rootR (cstr q) with
        | none => rw [hr] at h; cases h
        | some cs =>
          rw [hr] at h
          simp only at h
          cases ht : treeA (cs.foldl Local.stepTo []) with
          | none => rw [ht] at h; cases h
          | some o => rw [ht] at h; cases h; exact (treeA_fits ht).1
  · intro p t h
    change (match Local.readlink rootR _ p with | .ok r => r | .error _ => _) = _ at h
    unfold Local.readlink at h
    cases hp : Local.mapPath rootR p with
    | error e => rw [hp] at h; cases h
    | ok q =>
      rw [hp] at h
      simp only at h
      cases b with
      | false => cases h
      | true =>
        simp only [if_true, Local.treeHost] at h
        cases hr : Local.rest rootR (cstr q) with
        | none => rw [hr] at h; cases h
        | some cs =>
          rw [hr] at h
          simp only at h
          cases ht : treeA (cs.foldl Local.stepTo []) with
          | none => rw [ht] at h; cases h
          | some o =>
            rw [ht] at h
            simp only at h
            cases htg : o.target with
            | none => rw [htg] at h; cases h
            | some t' =>
              rw [htg] at h; cases h
              have := (treeA_fits ht).2 t' htg
              rw [List.length_take]; omega

/-- Checked events on records are events on bytes. -/
theorem runW_bytes (pad : Ino → Nat) : ∀ {l : List Local.WEv} {m m' : MT.MSys} {cap cap' : Nat} {b : MSys}, Local.AtW cap m → Local.runW m cap l = some (m', cap') →
    ReachD (Asked rootR treeA) b → MSRel b m → ∃ b', ReachD (Asked rootR treeA) b' ∧ MSRel b' m' := by
  intro l
  induction l with
  | nil => intro m m' cap cap' b _ hd hb hr; cases hd; exact ⟨b, hb, hr⟩
  | cons a l ih =>
    intro m m' cap cap' b h hd hb hr
    -- one event
    have one : ∃ m1 cap1, Local.runW m cap [a] = some (m1, cap1) ∧ Local.runW m1 cap1 l = some (m', cap') := by
      cases a with
      | go k =>
        unfold Local.runW at hd
        cases h1 : MT.demoMT m cap [.go k] with
        | none => rw [h1] at hd; cases hd
        | some x =>
          obtain ⟨m1, cap1⟩ := x
          rw [h1] at hd
          simp only at hd
          by_cases hv : ((m1.hist.drop m.hist.length).all (fun q => Local.onLinkB m.w.disk q.rq)) = true
          case neg => rw [if_neg hv] at hd; cases hd
          rw [if_pos hv] at hd
          refine ⟨m1, cap1, ?_, hd⟩
          unfold Local.runW
          rw [h1]
          simp only
          rw [if_pos hv]; rfl
      | ask k c rq =>
        unfold Local.runW at hd
        cases hk : m.th[k]? with
        | none => rw [hk] at hd; cases hd
        | some st =>
          rw [hk] at hd
          cases st with
          | idle =>
            simp only at hd
            by_cases hv : (rq.inRangeB && FS.returnedB m.held rq && MT.roomB m.w cap && Local.namedB rq) = true
            case neg => rw [if_neg hv] at hd; cases hd
            rw [if_pos hv] at hd
            refine ⟨_, _, ?_, hd⟩
            unfold Local.runW
            rw [hk]
            simp only
            rw [if_pos hv]; rfl
          | _ => simp only at hd; cases hd
      | die =>
        unfold Local.runW at hd
        cases ho : openCleanDB (initDB m.w.disk 0 0 ⟨0, 0⟩) Refs.empty with
        | error e => rw [ho] at hd; cases hd
        | ok x =>
          obtain ⟨d, r⟩ := x
          rw [ho] at hd
          simp only at hd
          by_cases hroom : MT.roomB (Conc.CWorld.start d r) 0 = true
          case neg => rw [if_neg hroom] at hd; cases hd
          rw [if_pos hroom] at hd
          refine ⟨_, _, ?_, hd⟩
          unfold Local.runW
          rw [ho]
          simp only
          rw [if_pos hroom]; rfl
    obtain ⟨m1, cap1, e1, e2⟩ := one
    have at1 := h.run e1
    -- steps
    have go : ∀ {k : Nat}, MT.Step m k m1 → MT.Proper m k m1 → MT.Room m1.w → (∀ q, m1.hist = m.hist ++ [q] → Local.Asked rootR treeA m.w.disk q.rq q.B) →
        ∃ b', ReachD (Asked rootR treeA) b' ∧ MSRel b' m' := by
      intro k hs hp hroom hq
      have hf : ∀ rq B, m1.th[k]? = some (.recv rq B) → FSB.BackendFits B := by
        intro rq B hk
        obtain ⟨-, c, rfl⟩ := at1.ready.asks k _ hk
        exact hostB_fits c
      have hnew : NewFits m.th m1.th k := by
        intro hk rq B hrc
        cases hp with
        | issue g1 g2 g3 g4 => rw [g1] at hrc; cases hrc; exact ⟨g2, hf _ _ g1⟩
        | begin_ g1 _ => rw [hk] at g1; cases g1
        | other _ g2 => exact absurd hrc (g2 rq B)
      obtain ⟨b1, k1, k2⟩ := step_right pad hr hs hnew
      refine ih at1 e2 (.step hb k1 (proper_right hr k2 hp hf) ((room_rel k2.w).mpr hroom) (fun q e => ?_)) k2
      obtain ⟨g1, g2, g3⟩ := hq q (by rw [← k2.hist, ← hr.hist]; exact e)
      exact ⟨g1, (onLink_rel hr.w.disk _).mpr g2, g3⟩
    cases a with
    | go k =>
      unfold Local.runW at e1
      cases h1 : MT.demoMT m cap [.go k] with
      | none => rw [h1] at e1; cases e1
      | some x =>
        obtain ⟨m2, cap2⟩ := x
        rw [h1] at e1
        simp only at e1
        by_cases hv : ((m2.hist.drop m.hist.length).all (fun q => Local.onLinkB m.w.disk q.rq)) = true
        case neg => rw [if_neg hv] at e1; cases e1
        rw [if_pos hv] at e1
        cases e1
        obtain ⟨r1, k', g2, g3, g4⟩ := h.ready.event (a := .go k) trivial h1
        exact go g2 g3 g4 (fun q hq => (r1.hist q (by rw [hq]; simp)).asked (List.all_eq_true.mp hv q (by rw [hq]; simp)))
    | ask k c rq =>
      unfold Local.runW at e1
      cases hk : m.th[k]? with
      | none => rw [hk] at e1; cases e1
      | some st =>
        rw [hk] at e1
        cases st with
        | idle =>
          simp only at e1
          by_cases hv : (rq.inRangeB && FS.returnedB m.held rq && MT.roomB m.w cap && Local.namedB rq) = true
          case neg => rw [if_neg hv] at e1; cases e1
          rw [if_pos hv] at e1
          cases e1
          simp only [Bool.and_eq_true] at hv
          obtain ⟨⟨⟨h1, h2⟩, h4⟩, h5⟩ := hv
          have hlen : k < m.th.length := (List.getElem?_eq_some_iff.mp hk).1
          refine go (k := k) (.issue hk) (.issue (rq := rq) (B := Local.hostB c)
            (by simp only [MT.MSys.to]; rw [List.getElem?_set, if_pos rfl, if_pos hlen])
            (by cases rq <;> simp_all [Req.inRangeB, Req.inRange]; exact h1) (FS.returnedB_iff h2)
            (fun p names e hp => by have := Local.treeA_names (b := c) hp; omega)) (MT.roomB_iff h.ready.counts h4) (fun q hq => ?_)
          have := congrArg List.length (show m.hist = m.hist ++ [q] from hq)
          simp at this
        | _ => simp only at e1; cases e1
    | die =>
      unfold Local.runW at e1
      cases ho : openCleanDB (initDB m.w.disk 0 0 ⟨0, 0⟩) Refs.empty with
      | error e => rw [ho] at e1; cases e1
      | ok x =>
        obtain ⟨d, r⟩ := x
        rw [ho] at e1
        simp only at e1
        by_cases hroom : MT.roomB (Conc.CWorld.start d r) 0 = true
        case neg => rw [if_neg hroom] at e1; cases e1
        rw [if_pos hroom] at e1
        cases e1
        obtain ⟨-, -, -, -, -, d', r', -, -, -, g1, g2, -, -, -⟩ := MT.C85_crash h.ready.reach 0 0 ⟨0, 0⟩
        rw [ho] at g1; cases g1
        have hc : ∀ i, (r i).nrefs ≤ 0 := fun i => Nat.le_of_eq (g2 i)
        obtain ⟨b', k1, k2⟩ := mount_right pad pad hr.w.disk zero_fits 2 ho
        exact ih at1 e2 (.remount hb zero_fits k1 ((room_rel k2.w).mpr (MT.roomB_iff (cap := 0) hc hroom))) k2

theorem demoW_bytes (pad : Ino → Nat) {l : List Local.WEv} {P : MT.MSys → Prop} [∀ m, Decidable (P m)]
    (h : (match Local.demoW l with | some (m, _) => decide (P m) | none => false) = true) : ∃ b m, ReachD (Asked rootR treeA) b ∧ MSRel b m ∧ P m := by
  cases hd : Local.demoW l with
  | none => rw [hd] at h; cases h
  | some x =>
    obtain ⟨m, cap⟩ := x
    rw [hd] at h
    unfold Local.demoW at hd
    cases ho : openCleanDB (initDB emptyDB 0 0 ⟨0, 0⟩) Refs.empty with
    | error e => rw [ho] at hd; cases hd
    | ok x =>
      obtain ⟨d0, r0⟩ := x
      rw [ho] at hd
      simp only at hd
      by_cases hroom : MT.roomB (Conc.CWorld.start d0 r0) 0 = true
      case neg => rw [if_neg hroom] at hd; cases hd
      rw [if_pos hroom] at hd
      have hc0 : ∀ i, (r0 i).nrefs ≤ 0 := by
        obtain ⟨s, h1, h2, h3⟩ := root_rep 0 0 ⟨0, 0⟩
        exact fun i => Nat.le_of_eq (open_counts (MT.si_empty h1 h2 h3) ho i)
      have hR : MT.Room (Conc.CWorld.start d0 r0) := MT.roomB_iff (cap := 0) hc0 hroom
      obtain ⟨b, k1, k2⟩ := mount_right pad pad DRel.empty zero_fits 2 ho
      obtain ⟨b', g1, g2⟩ := runW_bytes pad (l := l) (m := MT.MSys.start d0 r0 2) (cap := 0) ⟨MT.ready_start (.mount ho hR) hc0, .mount ho hR⟩ hd
        (.mount zero_fits k1 ((room_rel k2.w).mpr hR)) k2
      exact ⟨b', m, g1, g2, of_decide_eq_true h⟩

/-- The hypotheses of `C93_file` can be met: by the events of `Local.eventsW`, with a crash, and the root directory synchronised. -/
example (pad : Ino → Nat) : ∃ b, ReachD (Asked rootR treeA) b ∧ b.hist.length = 6 ∧ Cache.B.testFlag b.w.disk 1 SYNCED = .ok (.ok true) ∧ Agrees treeA b.w.disk := by
  obtain ⟨b, m, h1, h2, h3, h4⟩ := demoW_bytes pad (l := Local.eventsW) (P := fun m => m.hist.length = 6 ∧ testFlag m.w.disk 1 SYNCED = .ok true) (by decide +kernel)
  exact ⟨b, h1, by rw [h2.hist]; exact h3, by rw [testFlag_rel h2.w.disk, h4], C93_file Local.treeA_whole Local.treeA_tree Local.rootR_ne Local.rootR_nul h1⟩

/-- There are histories on bytes with the requests of the example of `C92_ls`.
(These are the hypotheses of `C93_ls`, and of `C93_walk`.) -/
example (pad : Ino → Nat) : ∃ b, ReachD (Asked rootR treeA) b ∧ (MT.listingB b.hist 2 0 [2, 4, 5]).isSome = true ∧ b.hist.map (·.rq) =
    [.lookup 1 [0x64], .opendir 2, .readdir 2 60 0, .lookup 1 [0x61], .readdirplus 2 4096 2, .readdir 2 4096 5] := by
  obtain ⟨b, m, h1, h2, h3, h4⟩ := demoW_bytes pad (l := Local.eventsL2) (P := fun m => (MT.listingB m.hist 2 0 [2, 4, 5]).isSome = true ∧ m.hist.map (·.rq) =
    [.lookup 1 [0x64], .opendir 2, .readdir 2 60 0, .lookup 1 [0x61], .readdirplus 2 4096 2, .readdir 2 4096 5]) (by decide +kernel)
  exact ⟨b, h1, by rw [h2.hist]; exact h3, by rw [h2.hist]; exact h4⟩

end Dragonstash.MTB
