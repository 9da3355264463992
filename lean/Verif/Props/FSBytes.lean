/-
  C83: the filesystem on the bytes of the database file.
-/
import Verif.FS.Bytewise
import Verif.Props.CacheBytes
import Verif.Props.FSKeep
import Verif.Props.FSReply
namespace Dragonstash.FSB
open Cache FS

/-! ### C83 whole histories -/

/-- The process starts, or a request comes while the backend behaves like `B`. -/
inductive Ev where
  | start (uid gid : Nat) (now : Timespec)
  | req (B : Backend) (rq : Req)

def Ev.Fits : Ev → Prop
  | .start uid gid now => uid < 256 ^ 4 ∧ gid < 256 ^ 4 ∧ now.Fits
  | .req B rq => BackendFits B ∧ rq.inRange

/-- A history, on bytes; each event with the contents of the padding bytes written during it. The replies. -/
def run (y : Sys) : List (Ev × (Nat → Ino → Nat)) → M (Sys × List Reply)
  | [] => .ok (y, [])
  | (.start uid gid now, pads) :: l => do
    let y1 ← mount (pads 0) (pads 1) y.disk uid gid now
    run y1 l
  | (.req B rq, pads) :: l => do
    let (y1, r) ← serve pads B y rq
    let (y2, rs) ← run y1 l
    pure (y2, r :: rs)

/-- The same, in the model with records instead of bytes (`Verif.FS.Model`). -/
def runR (y : FS.Sys) : List Ev → M (FS.Sys × List Reply)
  | [] => .ok (y, [])
  | .start uid gid now :: l => do
    let y1 ← (do let (d, r) ← openCleanDB (initDB y.disk uid gid now) Refs.empty; pure (⟨d, r, fun _ => 0⟩ : FS.Sys))
    runR y1 l
  | .req B rq :: l => do
    let (y1, r) ← serveR B y rq
    let (y2, rs) ← runR y1 l
    pure (y2, r :: rs)

/-- No process yet, no database file. -/
def fresh : Sys := ⟨Cache.B.emptyDB, Refs.empty, fun _ => 0⟩
def freshR : FS.Sys := ⟨emptyDB, Refs.empty, fun _ => 0⟩

theorem run_rel (l : List (Ev × (Nat → Ino → Nat))) (hf : ∀ e ∈ l, e.1.Fits) : ∀ {b : Sys} {y : FS.Sys}, SRel b y →
    MRel (fun x z => SRel x.1 z.1 ∧ x.2 = z.2) (run b l) (runR y (l.map Prod.fst)) := by
  induction l with
  | nil => intro b y h; exact .ok ⟨h, rfl⟩
  | cons e l ih =>
    intro b y h
    have hl : ∀ e ∈ l, e.1.Fits := fun e he => hf e (List.mem_cons_of_mem _ he)
    obtain ⟨ev, pads⟩ := e
    have he : ev.Fits := hf _ (List.mem_cons_self ..)
    cases ev with
    | start uid gid now =>
      show MRel _ (do let y1 ← mount (pads 0) (pads 1) b.disk uid gid now; run y1 l) _
      exact (mount_rel (pads 0) (pads 1) h.disk he).bind fun _ _ h1 => ih hl h1
    | req B rq =>
      refine (serve_rel pads h he.1 he.2).bind ?_
      rintro ⟨b1, r⟩ ⟨y1, r'⟩ ⟨h1, h2⟩
      simp only at h1 h2
      subst h2
      refine (ih hl h1).bind ?_
      rintro ⟨b2, rs⟩ ⟨y2, rs'⟩ ⟨h3, h4⟩
      simp only at h3 h4
      subst h4
      exact .ok ⟨h3, rfl⟩

/-- **C83**: in every history of starts and requests the filesystem on the bytes of the database file gives the
same replies (and fails at the same point, if it does) as the filesystem of `Verif.FS.Model`, about which the
other properties are proved. -/
theorem C83_replies (l : List (Ev × (Nat → Ino → Nat))) (hf : ∀ e ∈ l, e.1.Fits) :
    (run fresh l).map Prod.snd = (runR freshR (l.map Prod.fst)).map Prod.snd := by
  have h := run_rel l hf (b := fresh) (y := freshR) ⟨DRel.empty, rfl, rfl⟩
  generalize run fresh l = x at h ⊢
  generalize runR freshR (l.map Prod.fst) = z at h ⊢
  cases h with
  | error e => rfl
  | @ok a c h => exact congrArg Except.ok h.2

/-- Uninitialised memory, which ends up in the padding of stored records, never influences a reply. -/
theorem C83_padding (l l' : List (Ev × (Nat → Ino → Nat))) (hf : ∀ e ∈ l, e.1.Fits) (h : l.map Prod.fst = l'.map Prod.fst) :
    (run fresh l).map Prod.snd = (run fresh l').map Prod.snd := by
  have hf' : ∀ e ∈ l', e.1.Fits := by
    intro e he
    have : e.1 ∈ l.map Prod.fst := by rw [h]; exact List.mem_map_of_mem he
    obtain ⟨e', h1, h2⟩ := List.mem_map.mp this
    rw [← h2]; exact hf e' h1
  rw [C83_replies l hf, C83_replies l' hf', h]

/-! ### C83 states -/

/-- Every state on bytes has a counterpart on records: all reading functions give the same results, the same
requests are valid, they get the same replies, and lead to such states again. So all properties which are
stated for `FS.Live` systems hold for the bytes. -/
theorem C83_transfer {b : Sys} (h : Live b) : ∃ y, FS.Live y ∧ SRel b y ∧ b.refs = y.refs ∧ b.held = y.held ∧
    (∀ i, Cache.B.path b.disk i = path y.disk i) ∧ (∀ p n, Cache.B.lookup b.disk p n = lookup y.disk p n) ∧ (∀ i, Cache.B.getattr b.disk i = .ok (getattr y.disk i)) ∧
    (∀ i, Cache.B.readlink b.disk i = .ok (readlink y.disk i)) ∧ (∀ i f, Cache.B.testFlag b.disk i f = .ok (testFlag y.disk i f)) ∧
    ∀ pads B rq, Valid b B rq → FS.Valid y B rq ∧ (∀ b' r, serve pads B b rq = .ok (b', r) → ∃ y', Answered y B rq r y' ∧ SRel b' y') ∧
      (∀ y' r, Answered y B rq r y' → ∃ b', serve pads B b rq = .ok (b', r) ∧ SRel b' y') := by
  obtain ⟨y, hy, hr⟩ := h.rel
  refine ⟨y, hy, hr, hr.refs, hr.held, fun i => path_rel hr.disk i, fun p n => lookup_rel hr.disk p n, fun i => getattr_rel hr.disk i, fun i => readlink_rel hr.disk i,
    fun i f => testFlag_rel hr.disk i f, fun pads B rq hv => ⟨hr.valid hv, ?_, ?_⟩⟩
  · intro b' r hs
    obtain ⟨⟨y', r'⟩, h1, h2, h3⟩ := MRel.ok_left (serve_rel pads hr hv.backend hv.inRange) hs
    simp only at h2 h3
    subst h3
    exact ⟨y', serveR_answered.mp h1, h2⟩
  · intro y' r ha
    obtain ⟨⟨b', r'⟩, h1, h2, h3⟩ := MRel.ok_right (serve_rel pads hr hv.backend hv.inRange) (serveR_answered.mpr ha)
    simp only at h2 h3
    subst h3
    exact ⟨b', h1, h2⟩

/-- The database file always has the layout of C66, while the filesystem runs. -/
theorem C83_layout {b : Sys} (h : Live b) : Layout b.disk := by
  obtain ⟨y, hy, hr⟩ := h.rel
  obtain ⟨s, h1, -⟩ := live_inv hy
  exact hr.disk.layout h1.rep h1.ok

/-- No request crashes the process or loops (apart from the known double reply of `readdir` on a directory
without a parent), whatever bytes the file got in the history; the reply is sent. -/
theorem C83_answered {b : Sys} (h : Live b) (pads : Nat → Ino → Nat) {B : Backend} {rq : Req} (hv : Valid b B rq)
    (hr : ∀ dir size off, rq = .readdir dir size off → ∃ p, Cache.B.parent b.disk dir = .ok (.ok p) ∧ p ≠ 0) :
    ∃ b' r, serve pads B b rq = .ok (b', r) ∧ Live b' := by
  obtain ⟨y, hy, hrel⟩ := h.rel
  obtain ⟨s, h1, -⟩ := live_inv hy
  obtain ⟨rep, y', s', h2, -⟩ := answered_of h1 hy (hrel.valid hv) (by
    intro dir size off e
    obtain ⟨p, h3, h4⟩ := hr dir size off e
    rw [parent_rel hrel.disk] at h3
    exact ⟨p, Except.ok.inj h3, h4⟩)
  obtain ⟨⟨b', r'⟩, g1, g2, g3⟩ := MRel.ok_right (serve_rel pads hrel hv.backend hv.inRange) (serveR_answered.mpr h2)
  exact ⟨b', r', g1, .serve h hv g1⟩

/-- What was seen online is served offline, on bytes: a lookup was answered while the backend was connected,
with the backend's attributes; then come any requests and restarts, during which the backend, whenever
connected, confirms these attributes; then a lookup while it is not connected gets the same reply. -/
theorem C83_offline {b b' b'' : Sys} (h : Live b) {B B' : Backend} {p : Ino} {n : Bytes} {cs : List Bytes} (hcs : ∀ c ∈ cs, Component c) (hn : n ≠ [])
    (hp : Cache.B.path b.disk p = .ok (.ok (pathStr cs))) {sr : BStat} (hB : B.lstat 0 (pathStr (cs ++ [n])) = .ok sr)
    {pads pads' : Nat → Ino → Nat} {st : OsStat} (hv : Valid b B (.lookup p n)) (ha : serve pads B b (.lookup p n) = .ok (b', .entry st))
    (hbt : Between (cs ++ [n]) (· = fromBackend sr) b' b'') (hB' : Offline B') (hv' : Valid b'' B' (.lookup p n)) :
    st = osStat st.ino (fromBackend sr) ∧ ∃ b3, serve pads' B' b'' (.lookup p n) = .ok (b3, .entry st) := by
  obtain ⟨y, hy, hr⟩ := h.rel
  obtain ⟨⟨y', r'⟩, h1, h2, h3⟩ := MRel.ok_left (serve_rel pads hr hv.backend hv.inRange) ha
  simp only at h2 h3
  subst h3
  have ha' := serveR_answered.mp h1
  obtain ⟨y'', k1, k2⟩ := hbt.rel h2
  rw [path_rel hr.disk] at hp
  obtain ⟨y3, k3⟩ := C36_offline hy hcs hn (hr.valid hv) hp hB ha' k1 hB' (k2.valid hv')
  obtain ⟨⟨b3, r'⟩, g1, g2, g3⟩ := MRel.ok_right (serve_rel pads' k2 hv'.backend hv'.inRange) (serveR_answered.mpr k3)
  simp only at g2 g3
  subst g3
  exact ⟨(C36_stored hy hcs (hr.valid hv) hp hB ha').1, b3, g1⟩

/-! ### Examples -/

/-- Decides that the answers of a table fit. -/
def fitsT (t : Tbl) : Bool :=
  t.stats.all (fun x => match x.2 with | .ok sr => fitsB (.op (.emplace 0 [] (fromBackend sr))) | .error _ => true) &&
  t.links.all (fun x => match x.2 with | .ok d => decide (d.length < W64) | .error _ => true)

theorem fitsT_iff {t : Tbl} (h : fitsT t = true) : BackendFits t.backend := by
  simp only [fitsT, Bool.and_eq_true, List.all_eq_true] at h
  refine ⟨fun k p sr hs => ?_, fun p d hs => ?_⟩
  · simp only [Tbl.backend] at hs
    cases hl : t.stats.lookup p with
    | none => rw [hl] at hs; cases hs
    | some x =>
      rw [hl] at hs
      simp only [Option.getD_some] at hs
      subst hs
      exact (fitsB_iff (h.1 _ (lookup_mem hl))).2
  · simp only [Tbl.backend] at hs
    cases hl : t.links.lookup p with
    | none => rw [hl] at hs; cases hs
    | some x =>
      rw [hl] at hs
      simp only [Option.getD_some] at hs
      subst hs
      have := h.2 _ (lookup_mem hl)
      simpa using this

theorem SRel.valid' {b : Sys} {y : FS.Sys} (h : SRel b y) {B : Backend} (hB : BackendFits B) {rq : Req} (hv : FS.Valid y B rq) : Valid b B rq := by
  obtain ⟨v1, v2, v3, v4, v5⟩ := hv
  refine ⟨v1, ?_, fun i => by rw [h.held]; exact v3 i, ?_, fun i => by rw [h.refs, h.disk.treei.size]; exact v5 i, hB⟩
  · cases rq with
    | lookup p n => intro x hx; rw [getattr_rel h.disk] at hx; exact v2 x (Except.ok.inj hx)
    | opendir i => intro x hx; rw [getattr_rel h.disk] at hx; exact v2 x (Except.ok.inj hx)
    | _ => trivial
  · intro v hn
    rw [h.disk.next] at hn
    cases hm : y.disk.next with
    | none => rw [hm] at hn; cases hn
    | some n =>
      rw [hm] at hn; cases hn
      rw [leDec_leEnc 8 n (lt64.mp (h.disk.small n hm))]
      exact v4 n hm

def fitsA : Act → Bool
  | .restart => true
  | .req t _ => fitsT t

theorem demoB {pad : Ino → Nat} : ∀ {l : List Act} {y y' : FS.Sys} {cap cap' : Nat} {out out' : List Reply} {b : Sys}, FS.Live y → (∀ i, (y.refs i).nrefs ≤ cap) →
    demoFS y cap out l = some (y', cap', out') → l.all fitsA = true → Live b → SRel b y → ∃ b', Live b' ∧ SRel b' y' := by
  intro l
  induction l with
  | nil => intro y y' cap cap' out out' b h hc hd hf hb hr; cases hd; exact ⟨b, hb, hr⟩
  | cons a l ih =>
    intro y y' cap cap' out out' b h hc hd hf hb hr
    rw [List.all_cons, Bool.and_eq_true] at hf
    have key : ∃ y1 cap1 out1, FS.Live y1 ∧ (∀ i, (y1.refs i).nrefs ≤ cap1) ∧ demoFS y1 cap1 out1 l = some (y', cap', out') ∧ demoFS y cap out [a] = some (y1, cap1, out1) := by
      cases a with
      | restart =>
        simp only [demoFS] at hd ⊢
        cases ho : openCleanDB (initDB y.disk 0 0 ⟨0, 0⟩) Refs.empty with
        | error e => rw [ho] at hd; cases hd
        | ok x =>
          rw [ho] at hd
          obtain ⟨k1, k2⟩ := demoFS_live (l := [.restart]) (out := []) h hc (by simp only [demoFS, ho]; rfl)
          exact ⟨_, _, _, k1, k2, hd, rfl⟩
      | req t rq =>
        by_cases hv : validB y cap t rq = true
        · cases hs : dispatch t.backend y.disk y.refs rq with
          | error e => simp only [demoFS, hv, if_true, hs] at hd; cases hd
          | ok st =>
            by_cases hft : st.fault.isNone = true
            · simp only [demoFS, hv, if_true, hs, hft] at hd ⊢
              obtain ⟨k1, k2⟩ := demoFS_live (l := [.req t rq]) (out := []) h hc (by simp only [demoFS, hv, if_true, hs, hft]; rfl)
              exact ⟨_, _, _, k1, k2, hd, rfl⟩
            · simp only [demoFS, hv, if_true, hs, hft] at hd; cases hd
        · simp only [demoFS, hv] at hd; cases hd
    obtain ⟨y1, cap1, out1, k1, k2, k3, k4⟩ := key
    have step : ∃ b1, Live b1 ∧ SRel b1 y1 := by
      cases a with
      | restart =>
        have hf0 : (0 : Nat) < 256 ^ 4 ∧ (0 : Nat) < 256 ^ 4 ∧ (⟨0, 0⟩ : Timespec).Fits := ⟨by decide, by decide, by decide, by decide⟩
        simp only [demoFS] at k4
        cases ho : openCleanDB (initDB y.disk 0 0 ⟨0, 0⟩) Refs.empty with
        | error e => rw [ho] at k4; cases k4
        | ok x =>
          rw [ho] at k4
          cases k4
          have hm := mount_rel pad pad hr.disk hf0
          rw [ho] at hm
          obtain ⟨b1, g1, g2⟩ := MRel.ok_right hm rfl
          exact ⟨b1, .remount hb hf0 g1, g2⟩
      | req t rq =>
        have hBf := fitsT_iff hf.1
        by_cases hv : validB y cap t rq = true
        · have hv' := validB_iff hc hv
          cases hs : dispatch t.backend y.disk y.refs rq with
          | error e => simp only [demoFS, hv, if_true, hs] at k4; cases k4
          | ok st =>
            by_cases hft : st.fault.isNone = true
            · simp only [demoFS, hv, if_true, hs, hft] at k4
              cases k4
              obtain ⟨st', rep, g1, g2⟩ := C41_sent h hv'
              rw [hs] at g1; cases g1
              have ha : Answered y t.backend rq rep (y.after rq st) := ⟨st, hs, by simpa using hft, g2, rfl⟩
              obtain ⟨⟨b1, r1⟩, e1, e2, -⟩ := MRel.ok_right (serve_rel (fun _ => pad) hr hBf hv'.1) (serveR_answered.mpr ha)
              exact ⟨b1, .serve hb (hr.valid' hBf hv') e1, e2⟩
            · simp only [demoFS, hv, if_true, hs, hft] at k4; cases k4
        · simp only [demoFS, hv] at k4; cases k4
    obtain ⟨b1, g1, g2⟩ := step
    exact ih k1 k2 k3 hf.2 g1 g2

/-- A state on bytes, given by a checked history on records. -/
theorem demoB_ex {pad : Ino → Nat} {l : List Act} {P : FS.Sys → Prop} [DecidablePred P] {t : Tbl} {rq : Req}
    (h : (match demoRun l with | some (y, cap, _) => l.all fitsA && fitsT t && validB y cap t rq && decide (P y) | none => false) = true) :
    ∃ b y, Live b ∧ SRel b y ∧ Valid b t.backend rq ∧ P y := by
  have hf0 : (0 : Nat) < 256 ^ 4 ∧ (0 : Nat) < 256 ^ 4 ∧ (⟨0, 0⟩ : Timespec).Fits := ⟨by decide, by decide, by decide, by decide⟩
  cases hd : demoRun l with
  | none => rw [hd] at h; cases h
  | some x =>
    obtain ⟨y, cap, out⟩ := x
    rw [hd] at h
    simp only [Bool.and_eq_true, decide_eq_true_eq] at h
    obtain ⟨⟨⟨h1, h2⟩, h3⟩, h4⟩ := h
    have hl := demoRun_live hd
    unfold demoRun at hd
    cases ho : openCleanDB (initDB emptyDB 0 0 ⟨0, 0⟩) Refs.empty with
    | error e => rw [ho] at hd; cases hd
    | ok x =>
      have hm := mount_rel pad pad DRel.empty hf0
      rw [ho] at hm
      obtain ⟨b0, g1, g2⟩ := MRel.ok_right hm rfl
      rw [ho] at hd
      have hl0 := demoRun_live (l := []) (by unfold demoRun; rw [ho]; rfl)
      obtain ⟨b, g3, g4⟩ := demoB (pad := pad) hl0.1 hl0.2 hd h1 (.mount hf0 g1) g2
      exact ⟨b, y, g3, g4, g4.valid' (fitsT_iff h2) (validB_iff hl.2 h3), h4⟩

/-- States with files, directories and links; a valid online lookup, whose directory has a path (`C83_offline`; also
`C83_transfer`, `C83_layout` and `C83_answered`). -/
example (pad : Ino → Nat) : ∃ b, Live b ∧ Valid b tblA.backend (.lookup 2 [0x62]) ∧ Cache.B.path b.disk 2 = .ok (.ok (pathStr [[0x61]])) := by
  obtain ⟨b, y, h1, h2, h3, h4⟩ := demoB_ex (pad := pad) (l := [.req tblA (.lookup 1 [0x61]), .req tblA (.opendir 1), .restart, .req tblA (.lookup 1 [0x61])]) (t := tblA) (rq := .lookup 2 [0x62])
    (P := fun y => path y.disk 2 = .ok (.ok (pathStr [[0x61]]))) (by decide +kernel)
  exact ⟨b, h1, h3, by rw [path_rel h2.disk]; exact h4⟩

/-- A history with the backend connected, a restart, and the same lookup without the backend; all padding is 7. -/
def demoHist : List (Ev × (Nat → Ino → Nat)) :=
  [.start 0 0 ⟨0, 0⟩, .req tblA.backend (.lookup 1 [0x61]), .req tblA.backend (.lookup 2 [0x62]), .start 0 0 ⟨0, 0⟩, .req Tbl.offline.backend (.lookup 2 [0x62])].map (fun e => (e, fun _ _ => 7))

example : (match run fresh demoHist with | .ok (_, l) => some l | .error _ => none) =
    some [.entry (osStat 2 (fromBackend bDir)), .entry (osStat 3 (fromBackend (bFile 5))), .entry (osStat 3 (fromBackend (bFile 5)))] := by decide +kernel

/-- The hypothesis of `C83_replies` and `C83_padding` (its replies are those above). -/
example : ∀ e ∈ demoHist, e.1.Fits := by
  have h1 : BackendFits tblA.backend := fitsT_iff (by decide +kernel)
  have h2 : BackendFits Tbl.offline.backend := fitsT_iff (by decide +kernel)
  have h3 : ∀ x : Nat, x < 1000 → x < W64 := fun x hx => Nat.lt_trans hx (by decide)
  intro e he
  simp only [demoHist, List.map_cons, List.map_nil, List.mem_cons, List.not_mem_nil, or_false] at he
  rcases he with rfl | rfl | rfl | rfl | rfl
  · exact ⟨by decide, by decide, by decide, by decide⟩
  · exact ⟨h1, h3 1 (by decide)⟩
  · exact ⟨h1, h3 2 (by decide)⟩
  · exact ⟨by decide, by decide, by decide, by decide⟩
  · exact ⟨h2, h3 2 (by decide)⟩

end Dragonstash.FSB
