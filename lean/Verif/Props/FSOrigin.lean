/-
  C60: attributes and link targets shown to the kernel come from the backend.
-/
import Verif.FS.Origin
import Verif.FS.Demo
namespace Dragonstash.FS
open Cache Codec
variable {y y' : Sys} {B : Backend} {S : Bytes → BStat → Prop} {T : Bytes → Bytes → Prop}

theorem shows_osStat (i : Ino) (sr : BStat) (n : Nat) : Shows (osStat i { fromBackend sr with size := n }) sr n := ⟨rfl, rfl, rfl, rfl, rfl, rfl, rfl, rfl, rfl, rfl⟩

theorem NodeFrom.from_ {cs : List Bytes} {a : Attrs} {t : Option Bytes} (h : NodeFrom S T cs a t) (i : Ino) : From S T (pathStr cs) (osStat i a) := by
  obtain ⟨⟨sr, h1, h2⟩, -⟩ := h
  refine ⟨sr, h1, ?_⟩
  rcases h2 with rfl | ⟨h2, t, h3, rfl⟩
  · exact .inl (shows_osStat i sr sr.size)
  · exact .inr ⟨h2, t, h3, shows_osStat i sr t.length⟩

/-- A lookup which is answered while the backend is connected shows exactly the attributes which the
backend reported for it. -/
theorem C60_online (hl : Live y) {p : Ino} {n b : Bytes} (hv : Valid y B (.lookup p n)) (hp : Cache.path y.disk p = .ok (.ok b)) {sr : BStat}
    (hB : B.lstat 0 (b ++ 0x2f :: n) = .ok sr) {st : OsStat} (ha : Answered y B (.lookup p n) (.entry st) y') : Shows st sr sr.size := by
  obtain ⟨s, k1, k2⟩ := live_inv hl
  obtain ⟨s', k3, k4⟩ := ha.abs k1 hl hv
  obtain ⟨cs, hcs, rfl⟩ := k1.rep.path_iff k1.ok hv.1 hp
  rw [pathStr_snoc'] at hB
  generalize y'.refs = r' at k4
  cases k4 with
  | lkPut h1 h2 h3 =>
    have := PathTo.unique k1.ok hcs h1; subst this
    rw [hB] at h2; cases h2
    exact shows_osStat _ sr sr.size
  | lkHit h1 h2 =>
    have := PathTo.unique k1.ok hcs h1; subst this
    rw [hB] at h2; cases h2

/-- Whatever the state of the backend, a lookup which finds something shows attributes which the
backend has at some time reported for this very path. -/
theorem C60_lookup (hl : LiveS S T y) {p : Ino} {n : Bytes} (hv : Valid y B (.lookup p n)) (hB : Said S T B) {st : OsStat}
    (ha : Answered y B (.lookup p n) (.entry st) y') : ∃ b, Cache.path y.disk p = .ok (.ok b) ∧ From S T (b ++ 0x2f :: n) st := by
  obtain ⟨s, k1, k2, ho⟩ := liveS_inv hl
  obtain ⟨s', k3, k4⟩ := ha.abs k1 hl.live hv
  generalize y'.refs = r' at k4
  cases k4 with
  | @lkPut _ _ cs sr i _ _ h1 h2 h3 =>
    refine ⟨_, k1.rep.path_found k1.ok h1, ?_⟩
    rw [pathStr_snoc']
    exact ⟨sr, hB.lstat _ _ _ h2, .inl (shows_osStat i sr sr.size)⟩
  | @lkHit _ _ cs i nd h1 h2 h3 h4 =>
    refine ⟨_, k1.rep.path_found k1.ok h1, ?_⟩
    rw [pathStr_snoc']
    have hi : i ≠ ROOT := OK.loc_ne_root k1.ok h3 h4
    obtain ⟨es, -, -, g3, g4⟩ := ho i nd h3 hi
    rw [g3 _ (.child ⟨nd, h3, h4⟩ h1)]
    exact g4.from_ i

/-- `getattr` shows attributes which the backend has at some time reported for the path of the inode,
or for the path which it had when it was last in the tree. (Not so for the root directory, which
exists also if the backend was never connected.) -/
theorem C60_getattr (hl : LiveS S T y) {i : Ino} (hi : i ≠ ROOT) (hv : Valid y B (.getattr i)) {st : OsStat}
    (ha : Answered y B (.getattr i) (.attr st) y') : st.ino = i ∧ ∃ p, From S T p st ∧ ∀ b, Cache.path y.disk i = .ok (.ok b) → p = b := by
  obtain ⟨s, k1, k2, ho⟩ := liveS_inv hl
  obtain ⟨s', k3, k4⟩ := ha.abs k1 hl.live hv
  generalize y'.refs = r' at k4
  cases k4 with
  | @gaHit _ nd h1 =>
    obtain ⟨es, -, -, g3, g4⟩ := ho i nd h1 hi
    refine ⟨rfl, pathStr es, g4.from_ i, fun b hb => ?_⟩
    obtain ⟨cs, hcs, rfl⟩ := k1.rep.path_iff k1.ok hv.1 hb
    rw [g3 cs hcs]

/-- A link target shown is one which the backend has at some time reported for the path of the inode
(up to the first NUL byte). -/
theorem C60_readlink (hl : LiveS S T y) {i : Ino} (hv : Valid y B (.readlink i)) (hB : Said S T B) {t : Bytes}
    (ha : Answered y B (.readlink i) (.readlink t) y') :
    ∃ b t', Cache.path y.disk i = .ok (.ok b) ∧ T (if b = [] then [0x2f] else b) t' ∧ t = t'.takeWhile (· != 0) := by
  obtain ⟨s, k1, k2, ho⟩ := liveS_inv hl
  obtain ⟨s', k3, k4⟩ := ha.abs k1 hl.live hv
  generalize y'.refs = r' at k4
  cases k4 with
  | @rlPut _ cs dest nd h1 h2 h3 h4 => exact ⟨_, dest, k1.rep.path_found k1.ok h1, hB.readlink _ _ h2, rfl⟩
  | @rlOther _ cs dest nd h1 h2 => exact ⟨_, dest, k1.rep.path_found k1.ok h1, hB.readlink _ _ h2, rfl⟩
  | @rlHit _ cs nd t h1 h2 h3 h4 =>
    refine ⟨_, t, k1.rep.path_found k1.ok h1, ?_, rfl⟩
    have hi : i ≠ ROOT := by
      rintro rfl
      have := k1.ok.target _ nd t h3 h4
      obtain ⟨x, h5, h6, -⟩ := k1.ok.root
      rw [h5] at h3; cases h3; rw [h6] at this; cases this
    obtain ⟨es, g1, -, g3, g4⟩ := ho i nd h3 hi
    have := g3 _ h1; subst this
    have := g4.2 t h4
    rw [if_neg]
    · exact this
    · intro hx
      cases cs with
      | nil => exact g1 rfl
      | cons c cs => simp [pathStr] at hx

theorem Stream.kid {s : Tree} {d : DB} {r : Refs} (h : SI s d r) {dir c : Ino} {l e b} (hd : dir < W64) (hs : Stream d dir c l e b) :
    ∀ x ∈ l, (x.2.1 = [0x2e] ∨ x.2.1 = [0x2e, 0x2e]) ∨ (x.1, x.2.1) ∈ kids d dir ∧ ∃ nd, s.nodes x.1 = some nd ∧ nd.attr = x.2.2 := by
  induction hs with
  | stop => intro x hx; cases hx
  | noattr => intro x hx; cases hx
  | @entry c i n j a l e b h1 h2 _ ih =>
    intro x hx
    rcases List.mem_cons.mp hx with rfl | hx
    · by_cases hc0 : c = 0
      · subst hc0; rw [readdir_dot] at h1; cases h1; exact .inl (.inl rfl)
      · cases hp : Cache.parent d dir with
        | error e => unfold Cache.readdir at h1; rw [if_neg hc0, hp] at h1; cases h1
        | ok p =>
          by_cases hc : c ≠ p ∧ c = dir
          · unfold Cache.readdir at h1; rw [if_neg hc0, hp] at h1; simp only [if_pos hc] at h1; cases h1; exact .inl (.inr rfl)
          · rcases readdir_step h hd hp hc0 hc with h3 | ⟨z, hz, h3⟩
            · rw [h1] at h3; cases h3
            · rw [h1] at h3; cases h3
              obtain ⟨nd, h4, -⟩ := kids_info h hd hz
              rw [getattr_some h h4] at h2; cases h2
              exact .inr ⟨hz, nd, h4, rfl⟩
    · exact ih x hx

theorem fitFrom_mem {hdr size : Nat} : ∀ {l : List DEnt} {used : Nat} {e : DEnt}, e ∈ fitFrom hdr size used l → e ∈ l := by
  intro l
  induction l with
  | nil => intro used e h; simp [fitFrom] at h
  | cons x l ih =>
    intro used e h
    unfold fitFrom at h
    split at h
    · rcases List.mem_cons.mp h with rfl | h
      · simp
      · exact List.mem_cons_of_mem _ (ih h)
    · cases h

/-- The entries of a directory which is in the tree, as listed by `readdir` or `readdirplus`, except `.`
and `..`, show attributes which the backend has at some time reported for the path of the entry. -/
theorem C60_listing (hl : LiveS S T y) {dir : Ino} {size off : Nat} {rq : Req} (hrq : rq = .readdir dir size off ∨ rq = .readdirplus dir size off)
    (hv : Valid y B rq) {b : Bytes} (hp : Cache.path y.disk dir = .ok (.ok b)) {l : List DEnt} {n : Nat} {rep : Reply} (hrep : rep = .buf l n ∨ rep = .bufPlus l n)
    (ha : Answered y B rq rep y') {e : DEnt} (he : e ∈ l) (hd1 : e.name ≠ [0x2e]) (hd2 : e.name ≠ [0x2e, 0x2e]) :
    From S T (b ++ 0x2f :: e.name) e.stat := by
  obtain ⟨s, k1, k2, ho⟩ := liveS_inv hl
  obtain ⟨s', k3, k4⟩ := ha.abs k1 hl.live hv
  have hd : dir < W64 := by rcases hrq with rfl | rfl <;> exact hv.1.1
  obtain ⟨cs, hcs, rfl⟩ := k1.rep.path_iff k1.ok hd hp
  have key : ∀ {L e0 b0}, Stream y.disk dir off L e0 b0 → e ∈ L.map Ent.dent → From S T (pathStr cs ++ 0x2f :: e.name) e.stat := by
    intro L e0 b0 hs hm
    obtain ⟨x, hx, rfl⟩ := List.mem_map.mp hm
    obtain ⟨i, m, a⟩ := x
    rcases hs.kid k1 hd _ hx with h | ⟨h, nd, h1, h2⟩
    · rcases h with rfl | rfl
      · exact absurd rfl hd1
      · exact absurd rfl hd2
    · obtain ⟨x', h3, h4⟩ := (k1.rep.mem_kids k1.ok hd).mp h
      simp only at h1 h2
      rw [h1] at h3; cases h3
      obtain ⟨es, -, -, g3, g4⟩ := ho i nd h1 (OK.loc_ne_root k1.ok h1 h4)
      have hname : cstr m = m := cstr_eq (k1.ok.loc i nd dir m h1 h4).2.2.2.1
      show From S T (pathStr cs ++ 0x2f :: cstr m) (osStat i a)
      rw [hname, pathStr_snoc', g3 _ (.child ⟨nd, h1, h4⟩ hcs), ← h2]
      exact g4.from_ i
  generalize y'.refs = r' at k4
  rcases hrq with rfl | rfl
  · generalize hy : rep = rep0 at k4
    cases k4 with
    | @rdEof _ _ _ L hs =>
      split at hy
      · subst hy; rcases hrep with h | h <;> cases h
      · subst hy; rcases hrep with h | h <;> cases h
        exact key hs (fitFrom_mem he)
    | @rdPart _ _ _ L _ _ hs =>
      subst hy; rcases hrep with h | h <;> cases h
      exact key hs (fitFrom_mem he)
  · generalize hy : rep = rep0 at k4
    cases k4 with
    | @plAll _ _ _ L _ _ hs _ _ _ =>
      split at hy
      · subst hy; rcases hrep with h | h <;> cases h
      · subst hy; rcases hrep with h | h <;> cases h
        exact key hs he
    | plZero => subst hy; rcases hrep with h | h <;> cases h; cases he
    | plPart hs =>
      subst hy; rcases hrep with h | h <;> cases h
      refine key hs ?_
      rw [List.map_append]; exact List.mem_append_left _ he

/-- What the tables of a history say. -/
def Act.said (S : Bytes → BStat → Prop) (T : Bytes → Bytes → Prop) : Act → Prop
  | .req t rq => rq.named ∧ Said S T t.backend
  | .restart => True

theorem demoFS_liveS : ∀ {l : List Act} {y y' : Sys} {cap cap' : Nat} {out out' : List Reply}, (∀ a ∈ l, a.said S T) → LiveS S T y →
    (∀ i, (y.refs i).nrefs ≤ cap) → demoFS y cap out l = some (y', cap', out') → LiveS S T y' := by
  intro l
  induction l with
  | nil => intro y y' cap cap' out out' _ h hc hd; cases hd; exact h
  | cons a l ih =>
    intro y y' cap cap' out out' hS h hc hd
    cases a with
    | restart =>
      simp only [demoFS] at hd
      split at hd
      · rename_i d r ho
        have hd' : demoFS y cap out [.restart] = some (⟨d, r, fun _ => 0⟩, 0, out) := by simp only [demoFS, ho]
        exact ih (fun a ha => hS a (by simp [ha])) (.remount h ho) (demoFS_live h.live hc hd').2 hd
      · cases hd
    | req t rq =>
      simp only [demoFS] at hd
      split at hd
      · rename_i hv
        split at hd
        · rename_i st hs
          split at hd
          · rename_i hf
            have hd' : demoFS y cap out [.req t rq] = some (y.after rq st, cap + y.disk.treei.size + 2, st.sent ++ out) := by
              simp only [demoFS, if_pos hv, hs, if_pos hf]
            obtain ⟨g1, g2⟩ := hS (.req t rq) (by simp)
            exact ih (fun a ha => hS a (by simp [ha])) (.serve h (validB_iff hc hv) g1 g2 hs (by simpa using hf)) (demoFS_live h.live hc hd').2 hd
          · cases hd
        · cases hd
      · cases hd

theorem demoRun_liveS {l y cap out} (hS : ∀ a ∈ l, a.said S T) (h : demoRun l = some (y, cap, out)) : LiveS S T y := by
  have h' := h
  unfold demoRun at h
  split at h
  · rename_i d r ho
    refine demoFS_liveS hS (.mount ho) (fun i => ?_) h
    have : demoRun [] = some (⟨d, r, fun _ => 0⟩, 0, []) := by simp only [demoRun, ho, demoFS]
    exact (demoRun_live this).2 i
  · cases h

theorem Tbl.said {t : Tbl} (hS : ∀ p sr, (p, .ok sr) ∈ t.stats → S p sr) (hT : ∀ p x, (p, .ok x) ∈ t.links → T p x)
    (hn : ∀ x ∈ t.dirs, ∀ names e, x.2 = .ok (names, e) → [] ∉ names) : Said S T t.backend := by
  refine ⟨fun k p sr h => ?_, fun p x h => ?_, fun p names e h => ?_⟩
  · simp only [Tbl.backend] at h
    cases hl : t.stats.lookup p with
    | none => rw [hl] at h; cases h
    | some z => rw [hl] at h; simp only [Option.getD_some] at h; subst h; exact hS p sr (lookup_mem hl)
  · simp only [Tbl.backend] at h
    cases hl : t.links.lookup p with
    | none => rw [hl] at h; cases h
    | some z => rw [hl] at h; simp only [Option.getD_some] at h; subst h; exact hT p x (lookup_mem hl)
  · simp only [Tbl.backend] at h
    cases hl : t.dirs.lookup p with
    | none => rw [hl] at h; cases h
    | some z => rw [hl] at h; simp only [Option.getD_some] at h; exact hn _ (lookup_mem hl) names e h

/-- What `tblA` says. -/
def saidA (p : Bytes) (sr : BStat) : Prop := (p, sr) ∈ [([0x2f, 0x61], bDir), ([0x2f, 0x61, 0x2f, 0x62], bFile 5), ([0x2f, 0x6c], bLink)]
def linkA (p x : Bytes) : Prop := p = [0x2f, 0x6c] ∧ x = [0x61]

theorem saidA_tblA : Said saidA linkA tblA.backend := by
  refine Tbl.said (fun p sr h => ?_) (fun p x h => ?_) (fun x h names e hx => ?_)
  · simp only [tblA, List.mem_cons, Prod.mk.injEq, Except.ok.injEq, List.not_mem_nil, or_false] at h
    rcases h with ⟨rfl, rfl⟩ | ⟨rfl, rfl⟩ | ⟨rfl, rfl⟩ <;> simp [saidA]
  · simp only [tblA, List.mem_cons, Prod.mk.injEq, Except.ok.injEq, List.not_mem_nil, or_false] at h
    exact h
  · simp only [tblA, List.mem_cons, List.not_mem_nil, or_false] at h
    rcases h with rfl | rfl <;> cases hx <;> simp

theorem said_offline : Said S T Tbl.offline.backend := Tbl.said (by intro p sr h; cases h) (by intro p sr h; cases h) (by intro x h; cases h)

/-- Online, the root directory, the directory `/a` and the link are read; then the file `/a/b` and the link
are asked for offline. -/
def actsA : List Act := [.req tblA (.opendir 1), .req tblA (.lookup 1 [0x61]), .req tblA (.opendir 2), .req tblA (.lookup 1 [0x6c]),
  .req tblA (.readlink 3), .restart]

theorem actsA_said : ∀ a ∈ actsA, a.said saidA linkA := by
  intro a ha
  simp only [actsA, List.mem_cons, List.not_mem_nil, or_false] at ha
  rcases ha with rfl | rfl | rfl | rfl | rfl | rfl
  · exact ⟨trivial, saidA_tblA⟩
  · exact ⟨by simp [Req.named], saidA_tblA⟩
  · exact ⟨trivial, saidA_tblA⟩
  · exact ⟨by simp [Req.named], saidA_tblA⟩
  · exact ⟨trivial, saidA_tblA⟩
  · trivial

/-- A request of a history which meets the hypotheses, with its reply. -/
def demoAsk (l : List Act) (t : Tbl) (rq : Req) : Option Reply :=
  match demoRun l with
  | some (y, cap, _) => if validB y cap t rq then match dispatch t.backend y.disk y.refs rq with
      | .ok st => if st.fault.isNone then match st.sent with | [r] => some r | _ => none else none
      | .error _ => none
    else none
  | none => none

theorem demoAsk_ok {l t rq rep} (hS : ∀ a ∈ l, a.said S T) (h : demoAsk l t rq = some rep) : ∃ y y', LiveS S T y ∧ Valid y t.backend rq ∧ Answered y t.backend rq rep y' := by
  unfold demoAsk at h
  split at h
  · rename_i y cap out hw
    split at h
    · rename_i hv
      split at h
      · rename_i st hs
        split at h
        · rename_i hf
          split at h
          · rename_i r hsent; cases h
            exact ⟨y, y.after rq st, demoRun_liveS hS hw, validB_iff (demoRun_live hw).2 hv, st, hs, by simpa using hf, hsent, rfl⟩
          · cases h
        · cases h
      · cases h
    · cases h
  · cases h

/-- These examples meet the hypotheses of `C60_lookup`, `C60_getattr`, `C60_readlink` and `C60_listing`. -/
example : ∃ y y', LiveS saidA linkA y ∧ Valid y Tbl.offline.backend (.lookup 2 [0x62]) ∧
    Answered y Tbl.offline.backend (.lookup 2 [0x62]) (.entry ⟨4, S_IFREG + 0o644, 1, 0, 0, 5, 4096, 0, ⟨0, 0⟩, ⟨0, 0⟩, ⟨0, 0⟩⟩) y' :=
  demoAsk_ok actsA_said (by decide +kernel)
example : ∃ y y', LiveS saidA linkA y ∧ Valid y Tbl.offline.backend (.readlink 3) ∧ Answered y Tbl.offline.backend (.readlink 3) (.readlink [0x61]) y' :=
  demoAsk_ok actsA_said (by decide +kernel)
/-- Here the size of the link is the length of its target. -/
example : ∃ y y', LiveS saidA linkA y ∧ Valid y Tbl.offline.backend (.getattr 3) ∧
    Answered y Tbl.offline.backend (.getattr 3) (.attr ⟨3, S_IFLNK + 0o777, 1, 0, 0, 1, 4096, 0, ⟨0, 0⟩, ⟨0, 0⟩, ⟨0, 0⟩⟩) y' :=
  demoAsk_ok actsA_said (by decide +kernel)
example : ∃ y y' rep, LiveS saidA linkA y ∧ Valid y Tbl.offline.backend (.readdirplus 2 4096 0) ∧ Answered y Tbl.offline.backend (.readdirplus 2 4096 0) rep y' ∧
    (match rep with | .bufPlus l _ => l.map (·.name) | _ => []) = [[0x2e], [0x2e, 0x2e], [0x62]] := by
  obtain ⟨rep, h⟩ : ∃ rep, demoAsk actsA Tbl.offline (.readdirplus 2 4096 0) = some rep ∧ (match rep with | .bufPlus l _ => l.map (·.name) | _ => []) = [[0x2e], [0x2e, 0x2e], [0x62]] := by
    cases hd : demoAsk actsA Tbl.offline (.readdirplus 2 4096 0) with
    | none => exact absurd hd (by decide +kernel)
    | some rep =>
      refine ⟨rep, rfl, ?_⟩
      have : (match demoAsk actsA Tbl.offline (.readdirplus 2 4096 0) with | some (.bufPlus l _) => l.map (·.name) | _ => []) = [[0x2e], [0x2e, 0x2e], [0x62]] := by decide +kernel
      rw [hd] at this
      cases rep <;> simpa using this
  obtain ⟨y, y', h1, h2, h3⟩ := demoAsk_ok actsA_said h.1
  exact ⟨y, y', rep, h1, h2, h3, h.2⟩

end Dragonstash.FS
