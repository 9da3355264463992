/-
  C87: a mounted local directory.
-/
import Verif.Backend.HostTree
import Verif.Props.FSOrigin
import Verif.Props.FSDir
import Verif.Props.InMemory
namespace Dragonstash.Local
open Cache FS

theorem filter_comps {cs : List Bytes} (h : ∀ c ∈ cs, Component c) : cs.filter (· ≠ []) = cs := by
  rw [List.filter_eq_self]
  intro c hc
  simpa using (h c hc).1

theorem getLast_pathStr {cs : List Bytes} (h : ∀ c ∈ cs, Component c) (hne : cs ≠ []) : (pathStr cs).tail.getLast? ≠ some 0x2f := by
  obtain ⟨ds, n, rfl⟩ : ∃ ds n, cs = ds ++ [n] := ⟨_, _, (List.dropLast_concat_getLast hne).symm⟩
  have hn := h n (by simp)
  rw [pathStr_snoc]
  intro hl
  have hlast : (pathStr ds ++ 0x2f :: n).getLast? = n.getLast? := by
    obtain ⟨x, n', rfl⟩ := List.exists_cons_of_ne_nil hn.1
    rw [List.getLast?_append, List.getLast?_cons_cons]
    simp [List.getLast?_cons]
  have : n.getLast? = some 0x2f := by
    rw [← hlast]
    cases hp : pathStr ds ++ 0x2f :: n with
    | nil => rw [hp] at hl; cases hl
    | cons a b =>
      rw [hp, List.tail_cons] at hl
      cases b with
      | nil => cases hl
      | cons c b => rw [List.getLast?_cons_cons]; exact hl
  exact hn.2 (List.mem_of_getLast? this)

/-- The path which the local backend gives to the host. -/
theorem written {root : Bytes} (hr : root ≠ []) (h0 : (0 : UInt8) ∉ root) {cs : List Bytes} (h : ∀ c ∈ cs, Component c ∧ (0 : UInt8) ∉ c) :
    ∃ p, mapPath root (backendPath (pathStr cs)) = .ok p ∧ cstr p = p ∧ Written root cs p := by
  obtain ⟨p, h1, -, h3⟩ := map_comps [] root (fun c hc => (h c hc).1)
  refine ⟨p, h1, cstr_id (h3 h0 (fun c hc => (h c hc).2)), ?_⟩
  have hcomp : ∀ c ∈ cs, Component c := fun c hc => (h c hc).1
  have happ : p = appendPath root (pathStr cs).tail := by
    cases cs with
    | nil =>
      have e : backendPath (pathStr []) = [0x2f] := rfl
      rw [e] at h1
      simp [mapPath] at h1
      exact h1.symm
    | cons c cs =>
      have e : pathStr (c :: cs) = 0x2f :: (c ++ pathStr cs) := rfl
      have hb : backendPath (pathStr (c :: cs)) = 0x2f :: (pathStr (c :: cs)).tail := by
        unfold backendPath; rw [if_neg (by rw [e]; simp), e]; rfl
      rw [hb] at h1
      unfold mapPath at h1
      simp only [ne_eq, not_true_eq_false, if_false] at h1
      by_cases hh : (pathStr (c :: cs)).tail.head? = some 0x2f
      · rw [if_pos hh] at h1; cases h1
      · rw [if_neg hh] at h1; cases h1; rfl
  have hin : (pieces (pathStr cs).tail).filter (· ≠ []) = cs := by
    cases cs with
    | nil => rfl
    | cons c cs => rw [pieces_path (by simp) hcomp, filter_comps hcomp]
  obtain ⟨a, r, rfl⟩ := List.exists_cons_of_ne_nil hr
  rw [happ]
  unfold appendPath
  rw [if_neg (by simp)]
  have hlast : ∀ pre : Bytes, (pre ++ 0x2f :: (pathStr cs).tail).getLast? = some 0x2f ↔ cs = [] := by
    intro pre
    constructor
    · intro hl
      by_cases hne : cs = []
      · exact hne
      · exfalso
        apply getLast_pathStr hcomp hne
        have hx : (pathStr cs).tail ≠ [] := by
          obtain ⟨c, ds, rfl⟩ := List.exists_cons_of_ne_nil hne
          have e : pathStr (c :: ds) = 0x2f :: (c ++ pathStr ds) := rfl
          rw [e, List.tail_cons]
          have := (hcomp c (by simp)).1
          simp [this]
        obtain ⟨x, t, ht⟩ := List.exists_cons_of_ne_nil hx
        rw [ht] at hl ⊢
        rw [List.getLast?_append, List.getLast?_cons_cons] at hl
        simpa [List.getLast?_cons] using hl
    · rintro rfl; simp [pathStr]
  by_cases hl : (a :: r).getLast? = some 0x2f
  · rw [if_pos hl]
    obtain ⟨r', hr'⟩ : ∃ r', a :: r = r' ++ [0x2f] := by
      rw [List.getLast?_eq_some_iff] at hl; exact hl
    refine ⟨?_, rfl, ?_⟩
    · rw [hr', List.append_assoc, List.singleton_append, pieces_slash, pieces_slash, List.filter_append, List.filter_append, hin]
      simp [pieces]
    · rw [hr', List.append_assoc, List.singleton_append]; exact hlast r'
  · rw [if_neg hl]
    refine ⟨?_, rfl, hlast _⟩
    rw [pieces_slash, List.filter_append, hin]

theorem plain_comps {cs : List Bytes} (h : ∀ c ∈ cs, Plain c) : ∀ c ∈ cs, Component c ∧ (0 : UInt8) ∉ c := fun c hc => ⟨(h c hc).1, (h c hc).2.2.2⟩

theorem plain_snoc {cs : List Bytes} (h : ∀ c ∈ cs, Plain c) {n : Bytes} (hn : Plain n) : ∀ c ∈ cs ++ [n], Plain c := by
  intro c hc
  rcases List.mem_append.mp hc with hc | hc
  · exact h c hc
  · rw [List.mem_singleton.mp hc]; exact hn

variable {root : Bytes} {H H' : Host} {T : HTree} {y y' y'' : Sys}

theorem back_lstat (hr : root ≠ []) (h0 : (0 : UInt8) ∉ root) {cs : List Bytes} (h : ∀ c ∈ cs, Component c ∧ (0 : UInt8) ∉ c) (k : Nat) :
    ∃ p, Written root cs p ∧ (backend root H).lstat k (backendPath (pathStr cs)) = H.lstat k p := by
  obtain ⟨p, h1, h2, h3⟩ := written hr h0 h
  refine ⟨p, h3, ?_⟩
  show lstat root H k _ = _
  unfold lstat; rw [h1]; simp only [h2]

theorem back_there (hT : Has root H T) (hr : root ≠ []) (h0 : (0 : UInt8) ∉ root) {cs : List Bytes} (h : ∀ c ∈ cs, Plain c) {o : Obj} (ho : T cs = some o) (k : Nat) :
    (backend root H).lstat k (backendPath (pathStr cs)) = .ok o.stat := by
  obtain ⟨p, h1, h2⟩ := back_lstat (H := H) hr h0 (plain_comps h) k
  rw [h2]; exact hT.there h h1 ho

theorem NotThere.conn {e : Errno} (h : NotThere e) : e ≠ ENOTCONN := by
  rcases h with rfl | rfl | rfl | rfl <;> decide

theorem back_absent (hT : Has root H T) (hr : root ≠ []) (h0 : (0 : UInt8) ∉ root) {cs : List Bytes} (h : ∀ c ∈ cs, Plain c) (ho : T cs = none) (k : Nat) :
    ∃ e, (backend root H).lstat k (backendPath (pathStr cs)) = .error e ∧ NotThere e := by
  obtain ⟨p, h1, h2⟩ := back_lstat (H := H) hr h0 (plain_comps h) k
  rw [h2]
  exact hT.absent (k := k) h h1 ho

theorem back_readlink (hT : Has root H T) (ht : Tree T) (hr : root ≠ []) (h0 : (0 : UInt8) ∉ root) {cs : List Bytes} (h : ∀ c ∈ cs, Plain c) {o : Obj} (ho : T cs = some o)
    {t : Bytes} (hl : o.target = some t) : (backend root H).readlink (backendPath (pathStr cs)) = .ok t := by
  obtain ⟨p, h1, h2, h3⟩ := written hr h0 (plain_comps h)
  show (match readlink root H _ with | .ok r => r | .error _ => _) = _
  unfold readlink
  rw [h1]; simp only [h2]
  rw [hT.there (k := 0) h h3 ho, hT.link h h3 ho hl]
  simp only
  rw [List.take_of_length_le]
  have := (ht.size ho hl).1
  omega

theorem back_opendir (hT : Has root H T) (hr : root ≠ []) (h0 : (0 : UInt8) ∉ root) {cs : List Bytes} (h : ∀ c ∈ cs, Plain c) {o : Obj} (ho : T cs = some o)
    {ns : List Bytes} (hn : o.names = some ns) :
    ∃ l, (backend root H).opendir (backendPath (pathStr cs)) = .ok (l, 0) ∧ (∀ m, m ∈ l ↔ m = [0x2e] ∨ m = [0x2e, 0x2e] ∨ m ∈ ns) ∧
      ∀ m ∈ l, Component m ∧ (0 : UInt8) ∉ m := by
  obtain ⟨p, h1, h2, h3⟩ := written hr h0 (plain_comps h)
  obtain ⟨l, g1, g2⟩ := hT.list h h3 ho hn
  refine ⟨l, ?_, g2, fun m hm => hT.names g1 hm⟩
  show opendir root H _ = _
  unfold opendir
  rw [h1]; simp only [h2]; rw [g1]

/-! ### While the host has the tree -/

/-- A lookup shows what is in the directory on the host: its attributes, or that there is nothing. -/
theorem C87_lookup (hT : Has root H T) (hr : root ≠ []) (h0 : (0 : UInt8) ∉ root) (hl : Live y) {p : Ino} {n : Bytes} {cs : List Bytes} (hcs : ∀ c ∈ cs, Plain c)
    (hn : Plain n) (hg : n.length ≤ 503) (hv : Valid y (backend root H) (.lookup p n)) (hp : Cache.path y.disk p = .ok (.ok (pathStr cs))) :
    (∀ o, T (cs ++ [n]) = some o → ∃ st y', Answered y (backend root H) (.lookup p n) (.entry st) y' ∧ Shows st o.stat o.stat.size) ∧
    (T (cs ++ [n]) = none → ∃ e y', Answered y (backend root H) (.lookup p n) (.err e) y' ∧ NotThere e ∧
      ∀ i, Cache.lookup y'.disk p n ≠ .ok (.ok i)) := by
  have hall := plain_snoc hcs hn
  have hgn : GoodName n := ⟨hg, hn.2.2.2, hn.1.2⟩
  constructor
  · intro o ho
    have hB := back_there hT hr h0 hall ho 0
    rw [backendPath_snoc] at hB
    obtain ⟨s, k1, k2⟩ := live_inv hl
    have hpt := path_comps k1 hv.1 (fun c hc => (hcs c hc).1) hp
    obtain ⟨rep, y', s', h1, h2, h3⟩ := answered_of k1 hl hv (by rintro _ _ _ h; cases h)
    have key : ∃ st, rep = .entry st := by
      generalize y'.refs = r' at h3
      cases h3 with
      | lkGone hc => exact absurd ⟨cs, hpt⟩ hc
      | lkBad hc hb hput => cases hput with | bad hbad => exact absurd hgn hbad
      | lkPut hc hb hput => exact ⟨_, rfl⟩
      | lkHit hc hb => exact ⟨_, rfl⟩
      | lkMiss hc hb => have := PathTo.unique k1.ok hc hpt; subst this; rw [hB] at hb; cases hb
      | lkErr hc hb => have := PathTo.unique k1.ok hc hpt; subst this; rw [hB] at hb; cases hb
      | lkErrMiss hc hb => have := PathTo.unique k1.ok hc hpt; subst this; rw [hB] at hb; cases hb
    obtain ⟨st, rfl⟩ := key
    exact ⟨st, y', h1, C60_online hl hv hp (by rw [pathStr_snoc']; exact hB) h1⟩
  · intro ho
    obtain ⟨e, hB, he⟩ := back_absent hT hr h0 hall ho 0
    rw [backendPath_snoc] at hB
    obtain ⟨y', h1, h2, -⟩ := C38_lookup hl hv hp (by rw [pathStr_snoc']; exact hB) he.conn
    exact ⟨e, y', h1, he, h2⟩

/-- A symbolic link shows its target. -/
theorem C87_readlink (hT : Has root H T) (ht : Tree T) (hr : root ≠ []) (h0 : (0 : UInt8) ∉ root) (hl : Live y) {i : Ino} {cs : List Bytes} (hcs : ∀ c ∈ cs, Plain c)
    (hv : Valid y (backend root H) (.readlink i)) (hp : Cache.path y.disk i = .ok (.ok (pathStr cs))) {o : Obj} (ho : T cs = some o) {t : Bytes} (htg : o.target = some t) :
    ∃ y', Answered y (backend root H) (.readlink i) (.readlink t) y' := by
  have hB := back_readlink hT ht hr h0 hcs ho htg
  obtain ⟨s, k1, k2⟩ := live_inv hl
  have hpt := path_comps k1 hv.1 (fun c hc => (hcs c hc).1) hp
  obtain ⟨rep, y', s', h1, h2, h3⟩ := answered_of k1 hl hv (by rintro _ _ _ h; cases h)
  have key : rep = .readlink (cstr t) := by
    generalize y'.refs = r' at h3
    cases h3 with
    | rlGone hc => exact absurd ⟨cs, hpt⟩ hc
    | rlPut hc hb => have := PathTo.unique k1.ok hc hpt; subst this; rw [hB] at hb; cases hb; rfl
    | rlOther hc hb => have := PathTo.unique k1.ok hc hpt; subst this; rw [hB] at hb; cases hb; rfl
    | rlHit hc hb => have := PathTo.unique k1.ok hc hpt; subst this; rw [hB] at hb; cases hb
    | rlMiss hc hb => have := PathTo.unique k1.ok hc hpt; subst this; rw [hB] at hb; cases hb
    | rlErr hc hb => have := PathTo.unique k1.ok hc hpt; subst this; rw [hB] at hb; cases hb
    | rlErrRoot hb => have := PathTo.root_nil k1.ok hpt; subst this; have := hB.symm.trans hb; cases this
  subst key
  rw [cstr_id (ht.size ho htg).2] at h1
  exact ⟨y', h1⟩


theorem seen_const {B : Backend} {base : Bytes} {names : List Bytes} {m : Bytes} {sr : BStat} (hm : m ∈ names)
    (h : ∀ k, B.lstat k (entryPath base m) = .ok sr) : Seen B base names m sr := by
  have last : ∃ k, names[k]? = some m ∧ ∀ k' : Nat, k < k' → names[k']? ≠ some m := by
    induction names with
    | nil => simp at hm
    | cons c l ih =>
      by_cases hml : m ∈ l
      · obtain ⟨k, h1, h2⟩ := ih hml
        refine ⟨k + 1, by simpa using h1, ?_⟩
        intro k' hk'
        obtain ⟨j, rfl⟩ : ∃ j, k' = j + 1 := ⟨k' - 1, by omega⟩
        rw [List.getElem?_cons_succ]
        exact h2 j (by omega)
      · have : m = c := by simpa [hml] using hm
        subst this
        refine ⟨0, rfl, ?_⟩
        intro k' hk' h
        obtain ⟨j, rfl⟩ : ∃ j, k' = j + 1 := ⟨k' - 1, by omega⟩
        rw [List.getElem?_cons_succ] at h
        exact hml (List.mem_of_getElem? h)
  obtain ⟨k, h1, h2⟩ := last
  exact ⟨k, h1, h k, fun k' _ hk hk' => absurd hk' (h2 k' hk)⟩

/-- The full property: opening a directory caches exactly what is in it on the host. -/
def C87_full : Prop :=
  ∀ (root : Bytes) (H : Host) (T : HTree) (y : Sys) (i : Ino) (cs : List Bytes) (o : Obj) (ns : List Bytes), Has root H T → Tree T → root ≠ [] → (0 : UInt8) ∉ root → Live y →
    (∀ c ∈ cs, Plain c) → Valid y (backend root H) (.opendir i) → Cache.path y.disk i = .ok (.ok (pathStr cs)) → T cs = some o → o.names = some ns →
    (∀ n ∈ ns, n.length ≤ 503) → ∃ y', Answered y (backend root H) (.opendir i) .opened y' ∧ testFlag y'.disk i SYNCED = .ok true ∧
      ∀ m, (∃ j, Cache.lookup y'.disk i m = .ok (.ok j)) ↔ T (cs ++ [m]) ≠ none

/-- Opening a directory caches what is in it on the host: the directory counts as synchronised; what the
host has in it is found, with its attributes; what the host does not have is not found. Two more names
are found, `.` and `..`: as objects of their own. -/
theorem C87_list_partial (hT : Has root H T) (ht : Tree T) (hr : root ≠ []) (h0 : (0 : UInt8) ∉ root) (hl : Live y) {i : Ino} {cs : List Bytes} (hcs : ∀ c ∈ cs, Plain c)
    (hv : Valid y (backend root H) (.opendir i)) (hp : Cache.path y.disk i = .ok (.ok (pathStr cs))) {o : Obj} (ho : T cs = some o) {ns : List Bytes} (hns : o.names = some ns)
    (hlen : ∀ n ∈ ns, n.length ≤ 503) :
    ∃ y', Answered y (backend root H) (.opendir i) .opened y' ∧ testFlag y'.disk i SYNCED = .ok true ∧ Cache.path y'.disk i = .ok (.ok (pathStr cs)) ∧
      (∀ m o', Plain m → T (cs ++ [m]) = some o' → ∃ j, Cache.lookup y'.disk i m = .ok (.ok j) ∧ Cache.getattr y'.disk j = .ok (j, fromBackend o'.stat)) ∧
      (∀ m j, Cache.lookup y'.disk i m = .ok (.ok j) → m ≠ [0x2e] → m ≠ [0x2e, 0x2e] → Plain m ∧ T (cs ++ [m]) ≠ none) ∧
      (∃ j, Cache.lookup y'.disk i [0x2e] = .ok (.ok j) ∧ j ≠ i ∧ Cache.getattr y'.disk j = .ok (j, fromBackend o.stat)) := by
  obtain ⟨l, g1, g2, g3⟩ := back_opendir hT hr h0 hcs ho hns
  obtain ⟨y', h1, h2, h3, h4⟩ := C39_entries hl hv hp g1
  have hcomp : ∀ c ∈ cs, Component c := fun c hc => (hcs c hc).1
  have hpath := InMem.opendir_path hl hcomp hv hp h1
  have hent : ∀ m, entryPath (backendPath (pathStr cs)) m = backendPath (pathStr (cs ++ [m])) := by
    intro m; rw [entryPath_eq (fun c h => (hcs c h).1.1), backendPath_snoc]
  have hgood : ∀ m ∈ ns, GoodName m := by
    intro m hm
    have := ((ht.child ho hns).mp hm).1
    exact ⟨hlen m hm, this.2.2.2, this.1.2⟩
  refine ⟨y', h1, h2, hpath, ?_, ?_, ?_⟩
  · intro m o' hm ho'
    have hmem : m ∈ ns := (ht.child ho hns).mpr ⟨hm, by rw [ho']; simp⟩
    obtain ⟨j, hj⟩ := h4 m o'.stat (hgood m hmem) (seen_const ((g2 m).mpr (.inr (.inr hmem))) (fun k => by
      rw [hent]; exact back_there hT hr h0 (plain_snoc hcs hm) ho' k))
    refine ⟨j, hj, ?_⟩
    obtain ⟨-, sr, ⟨k, -, e2, -⟩, e⟩ := h3 m j hj
    rw [hent, back_there hT hr h0 (plain_snoc hcs hm) ho' k] at e2
    cases e2; exact e
  · intro m j hj hd1 hd2
    obtain ⟨-, sr, ⟨k, e1, -, -⟩, -⟩ := h3 m j hj
    have hm := (g2 m).mp (List.mem_of_getElem? e1)
    rcases hm with rfl | rfl | hm
    · exact absurd rfl hd1
    · exact absurd rfl hd2
    · exact (ht.child ho hns).mp hm
  · have hdot : ∀ k, (backend root H).lstat k (entryPath (backendPath (pathStr cs)) [0x2e]) = .ok o.stat := by
      intro k
      rw [hent]
      obtain ⟨p, e1, e2⟩ := back_lstat (H := H) (cs := cs ++ [[0x2e]]) hr h0 (by
        intro c hc
        rcases List.mem_append.mp hc with hc | hc
        · exact ⟨(hcs c hc).1, (hcs c hc).2.2.2⟩
        · rw [List.mem_singleton.mp hc]; exact ⟨⟨by decide, by decide⟩, by decide⟩) k
      rw [e2]; exact hT.dot hcs e1 ho (by rw [hns]; simp)
    obtain ⟨j, hj⟩ := h4 [0x2e] o.stat (by decide) (seen_const ((g2 _).mpr (.inl rfl)) hdot)
    refine ⟨j, hj, ?_, ?_⟩
    · rintro rfl
      have hl' := h1.live hl hv
      obtain ⟨s, k1, -⟩ := live_inv hl'
      have hpt := path_comps k1 hv.1 hcomp hpath
      obtain ⟨nd, hnd, hloc⟩ := (k1.rep.lookup_iff k1.ok hv.1).mp hj
      have := PathTo.unique k1.ok (.child ⟨nd, hnd, hloc⟩ hpt) hpt
      have := congrArg List.length this
      simp at this
    · obtain ⟨-, sr, ⟨k, -, e2, -⟩, e⟩ := h3 _ j hj
      rw [hdot k] at e2; cases e2; exact e

/-! ### While the host is not connected -/

/-- A backend which is not connected. -/
def offB : Backend where
  lstat := fun _ _ => .error ENOTCONN
  readlink := fun _ => .error ENOTCONN
  opendir := fun _ => .error ENOTCONN

theorem offB_off : Offline offB := ⟨fun _ _ => rfl, fun _ => rfl, fun _ => rfl⟩

/-- The requests which use the backend are served as by a backend which is not connected. -/
theorem C87_gone {d : DB} {r : Refs} (hG : Gone H) {i : Ino} {cs : List Bytes} (hcs : ∀ c ∈ cs, Component c) (hp : Cache.path d i = .ok (.ok (pathStr cs))) {rq : Req}
    (hrq : (∃ n, Component n ∧ rq = .lookup i n) ∨ rq = .readlink i ∨ rq = .opendir i) : dispatch (backend root H) d r rq = dispatch offB d r rq := by
  rcases hrq with ⟨n, hn, rfl⟩ | rfl | rfl
  · obtain ⟨p, h1, -⟩ := map_comps [] root (cs := cs ++ [n]) (by
      intro c hc
      rcases List.mem_append.mp hc with hc | hc
      · exact hcs c hc
      · rw [List.mem_singleton.mp hc]; exact hn)
    rw [backendPath_snoc] at h1
    have key : (backend root H).lstat 0 (pathStr (cs ++ [n])) = offB.lstat 0 (pathStr (cs ++ [n])) := by
      show lstat root H 0 _ = _
      unfold lstat; rw [h1]; exact hG.lstat _ _
    unfold dispatch handle FS.lookup St.txn
    simp only
    rw [hp]
    simp only [bind_ok, pathStr_snoc', key]
  · obtain ⟨p, h1, -⟩ := map_comps [] root hcs
    have key : (backend root H).readlink (backendPath (pathStr cs)) = offB.readlink (backendPath (pathStr cs)) := by
      show (match readlink root H _ with | .ok r => r | .error _ => _) = _
      unfold readlink; rw [h1]; simp only [hG.lstat]; rfl
    unfold dispatch handle FS.readlink St.txn
    simp only
    rw [hp]
    simp only [bind_ok, key]
  · obtain ⟨p, h1, -⟩ := map_comps [] root hcs
    have key : (backend root H).opendir (backendPath (pathStr cs)) = offB.opendir (backendPath (pathStr cs)) := by
      show opendir root H _ = _
      unfold opendir; rw [h1]; simp only [hG.opendir]; rfl
    unfold dispatch handle FS.opendir St.txn
    simp only
    rw [hp]
    simp only [bind_ok, key]
    rfl

theorem gone_answered (hG : Gone H) {i : Ino} {cs : List Bytes} (hcs : ∀ c ∈ cs, Component c) (hp : Cache.path y.disk i = .ok (.ok (pathStr cs))) {rq : Req}
    (hrq : (∃ n, Component n ∧ rq = .lookup i n) ∨ rq = .readlink i ∨ rq = .opendir i) {rep : Reply} (h : Answered y offB rq rep y') : Answered y (backend root H) rq rep y' := by
  obtain ⟨st, h1, h2⟩ := h
  exact ⟨st, (C87_gone hG hcs hp hrq).trans h1, h2⟩

theorem valid_off {B : Backend} {rq : Req} (hv : Valid y B rq) : Valid y offB rq := by
  obtain ⟨h1, h2, h3, h4, h5⟩ := hv
  exact ⟨h1, h2, h3, fun n hn => ⟨(h4 n hn).1, fun p names e ho => by cases ho⟩, h5⟩

/-- What a lookup showed while the host had the tree, it shows when the host has lost it: after any
requests and restarts in between which keep the entry with these attributes. -/
theorem C87_offline (hT : Has root H T) (hr : root ≠ []) (h0 : (0 : UInt8) ∉ root) (hl : Live y) {p : Ino} {n : Bytes} {cs : List Bytes} (hcs : ∀ c ∈ cs, Plain c)
    (hn : Plain n) (hv : Valid y (backend root H) (.lookup p n)) (hp : Cache.path y.disk p = .ok (.ok (pathStr cs))) {o : Obj} (ho : T (cs ++ [n]) = some o)
    {st : OsStat} (ha : Answered y (backend root H) (.lookup p n) (.entry st) y') (hbt : Between (cs ++ [n]) (· = fromBackend o.stat) y' y'')
    (hG : Gone H') (hv' : Valid y'' (backend root H') (.lookup p n)) : ∃ y3, Answered y'' (backend root H') (.lookup p n) (.entry st) y3 := by
  have hB := back_there hT hr h0 (plain_snoc hcs hn) ho 0
  rw [backendPath_snoc] at hB
  have hcomp : ∀ c ∈ cs, Component c := fun c hc => (hcs c hc).1
  obtain ⟨h1, h2, h3, h4⟩ := C36_stored hl hcomp hv hp hB ha
  obtain ⟨k1, -⟩ := C36_kept (ha.live hl hv) hv.1 hcomp hn.1.1 (P := (· = fromBackend o.stat)) (by rintro a b rfl rfl; rfl) h2 h3 h4 rfl hbt
  obtain ⟨y3, h5⟩ := C36_offline hl hcomp hn.1.1 hv hp hB ha hbt offB_off (valid_off hv')
  exact ⟨y3, gone_answered hG hcomp k1 (.inl ⟨n, hn.1, rfl⟩) h5⟩

/-- After a directory was opened and then the host has lost the tree: lookups show exactly what was in
the directory. -/
theorem C87_list_offline (hT : Has root H T) (ht : Tree T) (hr : root ≠ []) (h0 : (0 : UInt8) ∉ root) (hl : Live y) {i : Ino} {cs : List Bytes} (hcs : ∀ c ∈ cs, Plain c)
    (hv : Valid y (backend root H) (.opendir i)) (hp : Cache.path y.disk i = .ok (.ok (pathStr cs))) {o : Obj} (ho : T cs = some o) {ns : List Bytes} (hns : o.names = some ns)
    (hlen : ∀ n ∈ ns, n.length ≤ 503) (ha : Answered y (backend root H) (.opendir i) .opened y') {m : Bytes} (hm : Plain m) (hml : m.length ≤ 503) (hG : Gone H')
    (hv' : Valid y' (backend root H') (.lookup i m)) :
    (∀ o', T (cs ++ [m]) = some o' → ∃ st y'', Answered y' (backend root H') (.lookup i m) (.entry st) y'' ∧ Shows st o'.stat o'.stat.size) ∧
    (T (cs ++ [m]) = none → ∃ y'', Answered y' (backend root H') (.lookup i m) (.err ENOENT) y'') := by
  obtain ⟨y1, h1, h2, h3, h4, h5, -⟩ := C87_list_partial hT ht hr h0 hl hcs hv hp ho hns hlen
  obtain ⟨-, rfl⟩ := ha.unique h1
  have hl' := ha.live hl hv
  have hcomp : ∀ c ∈ cs, Component c := fun c hc => (hcs c hc).1
  constructor
  · intro o' ho'
    obtain ⟨j, g1, g2⟩ := h4 m o' hm ho'
    obtain ⟨y'', g3⟩ := C37_found hl' offB_off (valid_off hv') h3 g1 g2
    exact ⟨_, y'', gone_answered hG hcomp h3 (.inl ⟨m, hm.1, rfl⟩) g3, shows_osStat j o'.stat o'.stat.size⟩
  · intro ho'
    have hno : ∀ j, Cache.lookup y'.disk i m ≠ .ok (.ok j) := fun j hj => (h5 m j hj hm.2.1 hm.2.2.1).2 ho'
    obtain ⟨s, k1, -⟩ := live_inv hl'
    have hmiss : Cache.lookup y'.disk i m = .ok (.error ENOENT) := by
      obtain ⟨cs', hcs', -⟩ := k1.rep.path_iff k1.ok hv'.1 h3
      obtain ⟨pn, hpn⟩ := conn_exists k1.ok ⟨cs', hcs'⟩
      exact k1.rep.lookup_missing k1.ok hv'.1 (Nat.ne_of_gt (k1.ok.bound i pn hpn).1) hml (fun j hat => hno j (k1.rep.lookup_found k1.ok hat))
    obtain ⟨y'', g⟩ := C37_absent hl' offB_off (valid_off hv') h3 hmiss
    rw [if_pos h2] at g
    exact ⟨y'', gone_answered hG hcomp h3 (.inl ⟨m, hm.1, rfl⟩) g⟩

/-- The target of a link which was read while the host had the tree is shown after the host lost it. -/
theorem C87_readlink_offline (hT : Has root H T) (ht : Tree T) (hr : root ≠ []) (h0 : (0 : UInt8) ∉ root) (hl : Live y) {i : Ino} {cs : List Bytes} (hcs : ∀ c ∈ cs, Plain c)
    (hv : Valid y (backend root H) (.readlink i)) (hp : Cache.path y.disk i = .ok (.ok (pathStr cs))) {o : Obj} (ho : T cs = some o) {t : Bytes} (htg : o.target = some t)
    {j : Ino} {a : Attrs} (hat : Cache.getattr y.disk i = .ok (j, a)) (hlnk : fmt a.mode = S_IFLNK) (ha : Answered y (backend root H) (.readlink i) (.readlink t) y')
    (hG : Gone H') (hv' : Valid y' (backend root H') (.readlink i)) : ∃ y'', Answered y' (backend root H') (.readlink i) (.readlink t) y'' := by
  have hB := back_readlink hT ht hr h0 hcs ho htg
  have hcomp : ∀ c ∈ cs, Component c := fun c hc => (hcs c hc).1
  have hl' := ha.live hl hv
  obtain ⟨s, k1, k2⟩ := live_inv hl
  have hpt := path_comps k1 hv.1 hcomp hp
  obtain ⟨s', k3, k4⟩ := ha.abs k1 hl hv
  have hc0 : cstr t = t := cstr_id (ht.size ho htg).2
  have key : s'.PathTo i cs ∧ ∃ nd, s'.nodes i = some nd ∧ nd.target = some t := by
    generalize y'.refs = r' at k4
    generalize hrep : Reply.readlink t = rep at k4
    cases k4 with
    | rlGone hc => cases hrep
    | @rlPut _ _ dest nd h1 h2 h3 h4 =>
      have := PathTo.unique k1.ok h1 hpt; subst this
      rw [hB] at h2; cases h2
      exact ⟨hpt.set h3 rfl, _, Tree.set_self, rfl⟩
    | @rlOther _ _ dest nd h1 h2 h3 h4 =>
      rw [getattr_some k1 h3] at hat; cases hat
      exact absurd hlnk h4
    | rlHit hc hb => have := PathTo.unique k1.ok hc hpt; subst this; rw [hB] at hb; cases hb
    | rlMiss hc hb => cases hrep
    | rlErr hc hb => cases hrep
    | rlErrRoot hb => cases hrep
  obtain ⟨g1, nd, g2, g3⟩ := key
  have hp' := k3.rep.path_found k3.ok g1
  have hread : Cache.readlink y'.disk i = .ok t := by
    rw [k3.rep.readlink k3.ok hv.1, g2]; simp only [g3]
  obtain ⟨y'', h⟩ := C37_readlink hl' offB_off (valid_off hv') hp' hread
  rw [hc0] at h
  exact ⟨y'', gone_answered hG hcomp hp' (.inr (.inl rfl)) h⟩

/-! ### A tree which does not change -/

/-- Histories in which the host always has the same tree at the root, or is not connected. -/
inductive Mirror (root : Bytes) (T : HTree) : Sys → Prop
  | mount {uid gid now d r} : openCleanDB (initDB emptyDB uid gid now) Refs.empty = .ok (d, r) → Mirror root T ⟨d, r, fun _ => 0⟩
  | remount {y uid gid now d r} : Mirror root T y → openCleanDB (initDB y.disk uid gid now) Refs.empty = .ok (d, r) → Mirror root T ⟨d, r, fun _ => 0⟩
  | serve {y H rq st} : Mirror root T y → Valid y (backend root H) rq → rq.named → Has root H T ∨ Gone H →
      dispatch (backend root H) y.disk y.refs rq = .ok st → st.fault = none → Mirror root T (y.after rq st)

/-- What such hosts report. -/
def SM (root : Bytes) (T : HTree) (b : Bytes) (sr : BStat) : Prop := ∃ H k, Has root H T ∧ (backend root H).lstat k b = .ok sr
def TM (root : Bytes) (T : HTree) (b : Bytes) (t : Bytes) : Prop := ∃ H, Has root H T ∧ (backend root H).readlink b = .ok t

theorem said_of (h : Has root H T ∨ Gone H) : Said (SM root T) (TM root T) (backend root H) := by
  rcases h with h | h
  · refine ⟨fun k p sr e => ⟨H, k, h, e⟩, fun p t e => ⟨H, h, e⟩, fun p names e ho hm => ?_⟩
    change opendir root H p = _ at ho
    unfold opendir at ho
    cases hp : mapPath root p with
    | error e => rw [hp] at ho; cases ho
    | ok q =>
      rw [hp] at ho
      simp only at ho
      cases hq : H.opendir (cstr q) with
      | error e => rw [hq] at ho; cases ho
      | ok l => rw [hq] at ho; cases ho; exact (h.names hq hm).1.1 rfl
  · have hl : ∀ k p sr, lstat root H k p ≠ .ok sr := by
      intro k p sr e
      unfold lstat at e
      cases hp : mapPath root p with
      | error e' => rw [hp] at e; cases e
      | ok q => rw [hp] at e; simp only [h.lstat] at e; cases e
    refine ⟨fun k p sr e => absurd e (hl k p sr), fun p t e => ?_, fun p names e ho => ?_⟩
    · exfalso
      change (match readlink root H p with | .ok r => r | .error _ => _) = _ at e
      unfold readlink at e
      cases hp : mapPath root p with
      | error e' => rw [hp] at e; cases e
      | ok q => rw [hp] at e; simp only [h.lstat] at e; cases e
    · exfalso
      change opendir root H p = _ at ho
      unfold opendir at ho
      cases hp : mapPath root p with
      | error e' => rw [hp] at ho; cases ho
      | ok q => rw [hp] at ho; simp only [h.opendir] at ho; cases ho

theorem Mirror.liveS (h : Mirror root T y) : LiveS (SM root T) (TM root T) y := by
  induction h with
  | mount h => exact .mount h
  | remount _ h ih => exact .remount ih h
  | serve _ h1 h2 h3 h4 h5 ih => exact .serve ih h1 h2 (said_of h3) h4 h5

theorem sm_eq (hr : root ≠ []) (h0 : (0 : UInt8) ∉ root) {cs : List Bytes} (hcs : ∀ c ∈ cs, Plain c) {sr : BStat} (h : SM root T (backendPath (pathStr cs)) sr) :
    ∃ o, T cs = some o ∧ o.stat = sr := by
  obtain ⟨H, k, h1, h2⟩ := h
  cases ho : T cs with
  | none =>
    obtain ⟨e, g, -⟩ := back_absent h1 hr h0 hcs ho k
    rw [g] at h2; cases h2
  | some o =>
    rw [back_there h1 hr h0 hcs ho k] at h2; cases h2
    exact ⟨o, rfl, rfl⟩

theorem tm_eq (ht : Tree T) (hr : root ≠ []) (h0 : (0 : UInt8) ∉ root) {cs : List Bytes} (hcs : ∀ c ∈ cs, Plain c) {t : Bytes} (h : TM root T (backendPath (pathStr cs)) t) :
    ∃ o, T cs = some o ∧ o.target = some t := by
  obtain ⟨H, h1, h2⟩ := h
  obtain ⟨p, g1, g2, g3⟩ := written hr h0 (plain_comps hcs)
  cases ho : T cs with
  | none =>
    exfalso
    change (match readlink root H _ with | .ok r => r | .error _ => _) = _ at h2
    unfold readlink at h2
    rw [g1] at h2; simp only [g2] at h2
    obtain ⟨e, he, -⟩ := h1.absent (k := 0) hcs g3 ho
    rw [he] at h2; cases h2
  | some o =>
    refine ⟨o, rfl, ?_⟩
    cases htg : o.target with
    | none =>
      exfalso
      change (match readlink root H _ with | .ok r => r | .error _ => _) = _ at h2
      unfold readlink at h2
      rw [g1] at h2; simp only [g2] at h2
      obtain ⟨e, he⟩ := h1.nolink hcs g3 ho htg
      rw [h1.there (k := 0) hcs g3 ho, he] at h2; cases h2
    | some t' => rw [back_readlink h1 ht hr h0 hcs ho htg] at h2; cases h2; rfl

theorem from_eq (ht : Tree T) (hr : root ≠ []) (h0 : (0 : UInt8) ∉ root) {cs : List Bytes} (hcs : ∀ c ∈ cs, Plain c) (hne : cs ≠ []) {st : OsStat}
    (h : From (SM root T) (TM root T) (pathStr cs) st) : ∃ o, T cs = some o ∧ Shows st o.stat o.stat.size := by
  have hb : backendPath (pathStr cs) = pathStr cs := by
    unfold backendPath; rw [if_neg]
    cases cs with
    | nil => exact absurd rfl hne
    | cons c cs => simp [pathStr]
  obtain ⟨sr, h1, h2⟩ := h
  rw [← hb] at h1 h2
  obtain ⟨o, ho, rfl⟩ := sm_eq hr h0 hcs h1
  refine ⟨o, ho, ?_⟩
  rcases h2 with h2 | ⟨-, t, h3, h4⟩
  · exact h2
  · obtain ⟨o', ho', htg⟩ := tm_eq ht hr h0 hcs h3
    rw [ho] at ho'; cases ho'
    rw [(ht.size ho htg).1] at h4; exact h4

/-- If the tree on the host never changes, everything shown about it is right, at all times, whether the
host is connected or not: lookups, -/
theorem C87_mirror_lookup (hm : Mirror root T y) (ht : Tree T) (hr : root ≠ []) (h0 : (0 : UInt8) ∉ root) (hH : Has root H T ∨ Gone H) {p : Ino} {n : Bytes}
    {cs : List Bytes} (hcs : ∀ c ∈ cs, Plain c) (hn : Plain n) (hv : Valid y (backend root H) (.lookup p n)) (hp : Cache.path y.disk p = .ok (.ok (pathStr cs))) {st : OsStat}
    (ha : Answered y (backend root H) (.lookup p n) (.entry st) y') : ∃ o, T (cs ++ [n]) = some o ∧ Shows st o.stat o.stat.size := by
  obtain ⟨b, h1, h2⟩ := C60_lookup hm.liveS hv (said_of hH) ha
  rw [hp] at h1; cases h1
  rw [pathStr_snoc'] at h2
  exact from_eq ht hr h0 (plain_snoc hcs hn) (by simp) h2

/-- attributes, -/
theorem C87_mirror_getattr (hm : Mirror root T y) (ht : Tree T) (hr : root ≠ []) (h0 : (0 : UInt8) ∉ root) {i : Ino}
    {cs : List Bytes} (hcs : ∀ c ∈ cs, Plain c) (hne : cs ≠ []) (hv : Valid y (backend root H) (.getattr i)) (hp : Cache.path y.disk i = .ok (.ok (pathStr cs))) {st : OsStat}
    (ha : Answered y (backend root H) (.getattr i) (.attr st) y') : st.ino = i ∧ ∃ o, T cs = some o ∧ Shows st o.stat o.stat.size := by
  have hi : i ≠ ROOT := by
    rintro rfl
    obtain ⟨s, k1, -⟩ := live_inv hm.liveS.live
    exact hne (PathTo.root_nil k1.ok (path_comps k1 hv.1 (fun c hc => (hcs c hc).1) hp))
  obtain ⟨h1, b, h2, h3⟩ := C60_getattr hm.liveS hi hv ha
  refine ⟨h1, ?_⟩
  rw [h3 _ hp] at h2
  exact from_eq ht hr h0 hcs hne h2

/-- link targets, -/
theorem C87_mirror_readlink (hm : Mirror root T y) (ht : Tree T) (hr : root ≠ []) (h0 : (0 : UInt8) ∉ root) (hH : Has root H T ∨ Gone H) {i : Ino}
    {cs : List Bytes} (hcs : ∀ c ∈ cs, Plain c) (hv : Valid y (backend root H) (.readlink i)) (hp : Cache.path y.disk i = .ok (.ok (pathStr cs))) {t : Bytes}
    (ha : Answered y (backend root H) (.readlink i) (.readlink t) y') : ∃ o, T cs = some o ∧ o.target = some t := by
  obtain ⟨b, t', h1, h2, h3⟩ := C60_readlink hm.liveS hv (said_of hH) ha
  rw [hp] at h1; cases h1
  obtain ⟨o, ho, htg⟩ := tm_eq ht hr h0 hcs (t := t') h2
  have : cstr t' = t' := cstr_id (ht.size ho htg).2
  exact ⟨o, ho, by rw [h3]; rw [htg]; exact congrArg some this.symm⟩

/-- and listings, up to `.` and `..`. -/
theorem C87_mirror_listing (hm : Mirror root T y) (ht : Tree T) (hr : root ≠ []) (h0 : (0 : UInt8) ∉ root) {dir : Ino} {size off : Nat} {rq : Req}
    (hrq : rq = .readdir dir size off ∨ rq = .readdirplus dir size off) {cs : List Bytes} (hcs : ∀ c ∈ cs, Plain c) (hv : Valid y (backend root H) rq)
    (hp : Cache.path y.disk dir = .ok (.ok (pathStr cs))) {l : List DEnt} {n : Nat} {rep : Reply} (hrep : rep = .buf l n ∨ rep = .bufPlus l n)
    (ha : Answered y (backend root H) rq rep y') {e : DEnt} (he : e ∈ l) (hpl : Plain e.name) : ∃ o, T (cs ++ [e.name]) = some o ∧ Shows e.stat o.stat o.stat.size := by
  have h := C60_listing hm.liveS hrq hv hp hrep ha he hpl.2.1 hpl.2.2.1
  rw [pathStr_snoc'] at h
  exact from_eq ht hr h0 (plain_snoc hcs hpl) (by simp) h


/-! ### There are such hosts -/

/-- The names after those of the root, if `p` begins with the root. -/
def rest (root p : Bytes) : Option (List Bytes) :=
  if (pieces root).filter (· ≠ []) <+: (pieces p).filter (· ≠ []) then some (((pieces p).filter (· ≠ [])).drop ((pieces root).filter (· ≠ [])).length) else none

theorem rest_written {cs : List Bytes} {p : Bytes} (h : Written root cs p) : rest root p = some cs := by
  unfold rest
  rw [h.1, if_pos (List.prefix_append _ _), List.drop_left]

/-- A host which has nothing but the tree `T` at `root`. -/
def treeHost (root : Bytes) (T : HTree) : Host where
  lstat := fun _ p => match rest root p with
    | none => .error ENOENT
    | some cs => match T (cs.foldl stepTo []) with | some o => .ok o.stat | none => .error ENOENT
  readlink := fun p => match rest root p with
    | none => .error ENOENT
    | some cs => match T (cs.foldl stepTo []) with
      | some o => (match o.target with | some t => .ok t | none => .error EINVAL)
      | none => .error ENOENT
  opendir := fun p => match rest root p with
    | none => .error ENOENT
    | some cs => match T (cs.foldl stepTo []) with
      | some o => (match o.names with | some ns => .ok ([0x2e] :: [0x2e, 0x2e] :: ns) | none => .error ENOTDIR)
      | none => .error ENOENT

/-- Every tree can be on a host. -/
theorem treeHost_has (root : Bytes) (ht : Tree T) : Has root (treeHost root T) T := by
  have pl : ∀ {cs : List Bytes}, (∀ c ∈ cs, Plain c) → cs.foldl stepTo [] = cs := fun h => by rw [foldl_plain h]; rfl
  constructor
  · intro k p cs o h1 h2 h3
    simp only [treeHost, rest_written h2, pl h1, h3]
  · intro k p cs h1 h2 h3
    exact ⟨ENOENT, by simp only [treeHost, rest_written h2, pl h1, h3], .inl rfl⟩
  · intro k p cs o h1 h2 h3 _
    have : (cs ++ [[0x2e]]).foldl stepTo [] = cs := by
      rw [List.foldl_append, pl h1]; rfl
    simp only [treeHost, rest_written h2, this, h3]
  · intro k p cs n o x h1 h2 h3 _ _ _
    have : (cs ++ [n] ++ [[0x2e, 0x2e]]).foldl stepTo [] = cs := by
      rw [List.foldl_append, pl h1]
      simp [stepTo]
    simp only [treeHost, rest_written h2, this, h3]
  · intro p cs o t h1 h2 h3 h4
    simp only [treeHost, rest_written h2, pl h1, h3, h4]
  · intro p cs o h1 h2 h3 h4
    exact ⟨EINVAL, by simp only [treeHost, rest_written h2, pl h1, h3, h4]⟩
  · intro p cs o ns h1 h2 h3 h4
    exact ⟨_, by simp only [treeHost, rest_written h2, pl h1, h3, h4]; rfl, by simp⟩
  · intro p l m h1 hm
    simp only [treeHost] at h1
    split at h1
    · cases h1
    · split at h1
      · rename_i o ho
        split at h1
        · rename_i ns hns
          cases h1
          rcases List.mem_cons.mp hm with rfl | hm
          · exact ⟨⟨by decide, by decide⟩, by decide⟩
          rcases List.mem_cons.mp hm with rfl | hm
          · exact ⟨⟨by decide, by decide⟩, by decide⟩
          · have := ((ht.child ho hns).mp hm).1
            exact ⟨this.1, this.2.2.2⟩
        · cases h1
      · cases h1

/-- A host which has lost everything. -/
def goneHost : Host := ⟨fun _ _ => .error ENOTCONN, fun _ => .error ENOTCONN, fun _ => .error ENOTCONN⟩

theorem goneHost_gone : Gone goneHost := ⟨fun _ _ => rfl, fun _ => rfl⟩

/-- A directory with a file `a` of 5 bytes, a link `l` to it, and a directory `d` with a file `b` of 7
bytes. -/
def treeA : HTree
  | [] => some ⟨bDir, none, some [[0x61], [0x6c], [0x64]]⟩
  | [[0x61]] => some ⟨bFile 5, none, none⟩
  | [[0x6c]] => some ⟨{ bLink with size := 1 }, some [0x61], none⟩
  | [[0x64]] => some ⟨bDir, none, some [[0x62]]⟩
  | [[0x64], [0x62]] => some ⟨bFile 7, none, none⟩
  | _ => none

theorem plainB {c : Bytes} (h : (c ≠ [] ∧ (0x2f : UInt8) ∉ c) ∧ c ≠ [0x2e] ∧ c ≠ [0x2e, 0x2e] ∧ (0 : UInt8) ∉ c) : Plain c := h

theorem treeA_tree : Tree treeA := by
  constructor
  · intro cs o ns n h1 h2
    unfold treeA at h1
    split at h1 <;> cases h1 <;> cases h2
    · constructor
      · intro hm
        simp only [List.mem_cons, List.not_mem_nil, or_false] at hm
        rcases hm with rfl | rfl | rfl <;> exact ⟨plainB (by decide), by simp [treeA]⟩
      · rintro ⟨-, h⟩
        rw [List.nil_append] at h
        unfold treeA at h
        split at h <;> simp_all
    · constructor
      · intro hm
        simp only [List.mem_cons, List.not_mem_nil, or_false] at hm
        subst hm; exact ⟨plainB (by decide), by simp [treeA]⟩
      · rintro ⟨-, h⟩
        unfold treeA at h
        split at h <;> simp_all
  · intro cs o t h1 h2
    unfold treeA at h1
    split at h1 <;> cases h1 <;> cases h2
    exact ⟨rfl, by decide⟩

/-- `/r` -/
def rootR : Bytes := [0x2f, 0x72]

theorem treeA_short {ds : List Bytes} {o : Obj} {ns : List Bytes} (h : treeA ds = some o) (hn : o.names = some ns) : ns.length ≤ 3 := by
  unfold treeA at h
  split at h <;> cases h <;> cases hn <;> decide

theorem treeA_names {p : Bytes} {names : List Bytes} {e : Errno} {b : Bool}
    (h : (backend rootR (if b then treeHost rootR treeA else goneHost)).opendir p = .ok (names, e)) : names.length ≤ 10 := by
  change opendir rootR _ p = _ at h
  unfold opendir at h
  cases hp : mapPath rootR p with
  | error e => rw [hp] at h; cases h
  | ok q =>
    rw [hp] at h
    simp only at h
    cases b with
    | false => cases h
    | true =>
      simp only [if_true, treeHost] at h
      cases hr : rest rootR (cstr q) with
      | none => rw [hr] at h; cases h
      | some cs =>
        rw [hr] at h
        simp only at h
        generalize cs.foldl stepTo [] = ds at h
        cases ht : treeA ds with
        | none => rw [ht] at h; cases h
        | some o =>
          rw [ht] at h
          simp only at h
          cases hn : o.names with
          | none => rw [hn] at h; cases h
          | some ns =>
            rw [hn] at h; cases h
            have := treeA_short ht hn
            simp only [List.length_cons]; omega

def namedB : Req → Bool
  | .lookup _ n => decide (n ≠ [])
  | _ => true

/-- Requests served one after the other, by a host which has the tree or has lost it. -/
def demoM (y : Sys) (cap : Nat) : List (Bool × Req) → Option (Sys × Nat)
  | [] => some (y, cap)
  | (b, rq) :: l =>
    if validB y cap InMem.tblTen rq && namedB rq then
      match dispatch (backend rootR (if b then treeHost rootR treeA else goneHost)) y.disk y.refs rq with
      | .ok st => if st.fault.isNone then demoM (y.after rq st) (cap + y.disk.treei.size + 2) l else none
      | .error _ => none
    else none

theorem valid_host {rq : Req} {y : Sys} (b : Bool) (hv : Valid y InMem.tblTen.backend rq) : Valid y (backend rootR (if b then treeHost rootR treeA else goneHost)) rq := by
  obtain ⟨h1, h2, h3, h4, h5⟩ := hv
  refine ⟨h1, h2, h3, fun n hn => ⟨(h4 n hn).1, fun p names e ho => ?_⟩, h5⟩
  have := (h4 n hn).2 [] (List.replicate 10 []) 0 rfl
  rw [List.length_replicate] at this
  have := treeA_names ho
  omega

theorem hostA (b : Bool) : Has rootR (if b then treeHost rootR treeA else goneHost) treeA ∨ Gone (if b then treeHost rootR treeA else goneHost) := by
  cases b
  · exact .inr goneHost_gone
  · exact .inl (treeHost_has rootR treeA_tree)

theorem demoM_mirror : ∀ {l : List (Bool × Req)} {y y' : Sys} {cap cap' : Nat}, Mirror rootR treeA y → (∀ i, (y.refs i).nrefs ≤ cap) →
    demoM y cap l = some (y', cap') → Mirror rootR treeA y' ∧ ∀ i, (y'.refs i).nrefs ≤ cap' := by
  intro l
  induction l with
  | nil => intro y y' cap cap' h hc hd; cases hd; exact ⟨h, hc⟩
  | cons a l ih =>
    intro y y' cap cap' h hc hd
    obtain ⟨b, rq⟩ := a
    simp only [demoM] at hd
    split at hd
    · rename_i hv
      rw [Bool.and_eq_true] at hv
      have hv1 := valid_host b (validB_iff hc hv.1)
      have hnm : rq.named := by
        have := hv.2
        cases rq <;> simp_all [Req.named, namedB]
      split at hd
      · rename_i st hs
        split at hd
        · rename_i hf
          have hf : st.fault = none := by simpa using hf
          refine ih (.serve h hv1 hnm (hostA b) hs hf) (fun i => ?_) hd
          obtain ⟨s, h1, h2⟩ := live_inv h.liveS.live
          rcases dispatch_served h1 h2 hv1 with ⟨s', d', r', rep, g1, g2, g3⟩ | ⟨dir, size, off, e, -, -, g1⟩
          · rw [g1] at hs; cases hs
            have := abs_counts_le g3 i
            have := hc i
            show (r' i).nrefs ≤ _
            omega
          · rw [g1] at hs; cases hs; cases hf
        · cases hd
      · cases hd
    · cases hd

/-- A mounted `/r` after some requests. -/
theorem demoM_ex {l : List (Bool × Req)} {b : Bool} {rq : Req} {P : Sys → Prop} [DecidablePred P]
    (h : (match openCleanDB (initDB emptyDB 0 0 ⟨0, 0⟩) Refs.empty with
      | .ok (d, r) => (match demoM ⟨d, r, fun _ => 0⟩ 0 l with
        | some (y, cap) => validB y cap InMem.tblTen rq && decide (P y)
        | none => false)
      | .error _ => false) = true) :
    ∃ y, Mirror rootR treeA y ∧ Valid y (backend rootR (if b then treeHost rootR treeA else goneHost)) rq ∧ P y := by
  split at h
  · rename_i d r ho
    split at h
    · rename_i y cap hd
      rw [Bool.and_eq_true] at h
      obtain ⟨h1, h2⟩ := demoM_mirror (.mount ho) (fun i => by
        obtain ⟨s, h1, h2, h3⟩ := root_rep 0 0 ⟨0, 0⟩
        have h0 : SI s (initDB emptyDB 0 0 ⟨0, 0⟩) Refs.empty := ⟨h1, h2, h3, fun i hi => (by cases hi), fun i hi => absurd hi (by simp [Refs.empty]), Refs.empty_ok⟩
        exact Nat.le_of_eq (open_counts h0 ho i)) hd
      exact ⟨y, h1, valid_host b (validB_iff h2 h.1), by simpa using h.2⟩
    · cases h
  · cases h

theorem rootR_ne : rootR ≠ [] := by decide
theorem rootR_nul : (0 : UInt8) ∉ rootR := by decide

/-- The full property is false: `.` is found as well, an object of its own. -/
theorem C87_counterexample : ¬ C87_full := by
  intro h
  obtain ⟨y, h1, h2, h3⟩ := demoM_ex (l := []) (b := true) (rq := .opendir 1) (P := fun y => Cache.path y.disk 1 = .ok (.ok (pathStr []))) (by decide +kernel)
  have hT := treeHost_has rootR treeA_tree
  obtain ⟨y', k1, -, k2⟩ := h rootR _ treeA y 1 [] _ _ hT treeA_tree rootR_ne rootR_nul h1.liveS.live (by intro c hc; cases hc) h2 h3 rfl rfl (by decide)
  obtain ⟨y2, g1, -, -, -, -, j, g2, -⟩ := C87_list_partial hT treeA_tree rootR_ne rootR_nul h1.liveS.live (cs := []) (by intro c hc; cases hc) h2 h3 rfl rfl (by decide)
  obtain ⟨-, rfl⟩ := k1.unique g1
  exact (k2 [0x2e]).mp ⟨j, g2⟩ rfl

/-- The hypotheses of `C87_lookup`, `C87_list_partial` can be met.
(With the host gone afterwards these are those of `C87_offline` and `C87_list_offline`.) -/
example : ∃ y, Live y ∧ Valid y (backend rootR (treeHost rootR treeA)) (.lookup 1 [0x61]) ∧ Cache.path y.disk 1 = .ok (.ok (pathStr [])) ∧
    Has rootR (treeHost rootR treeA) treeA ∧ treeA ([] ++ [[0x61]]) = some ⟨bFile 5, none, none⟩ := by
  obtain ⟨y, h1, h2, h3⟩ := demoM_ex (l := []) (b := true) (rq := .lookup 1 [0x61]) (P := fun y => Cache.path y.disk 1 = .ok (.ok (pathStr []))) (by decide +kernel)
  exact ⟨y, h1.liveS.live, h2, h3, treeHost_has rootR treeA_tree, rfl⟩

/-- Those of `C87_readlink`: inode 2 is the link.
(And of `C87_readlink_offline`.) -/
example : ∃ y, Live y ∧ Valid y (backend rootR (treeHost rootR treeA)) (.readlink 2) ∧ Cache.path y.disk 2 = .ok (.ok (pathStr [[0x6c]])) := by
  obtain ⟨y, h1, h2, h3⟩ := demoM_ex (l := [(true, .lookup 1 [0x6c])]) (b := true) (rq := .readlink 2) (P := fun y => Cache.path y.disk 2 = .ok (.ok (pathStr [[0x6c]]))) (by decide +kernel)
  exact ⟨y, h1.liveS.live, h2, h3⟩

/-- Those of `C87_mirror_…` after the directory `d` was opened and the host is lost: the file `d/b` is still found, and the target of the link is shown.
(`C87_mirror_lookup`, `C87_mirror_getattr`, `C87_mirror_readlink`, `C87_mirror_listing`; the requests to a host which is gone are those of `C87_gone`.) -/
example : ∃ y y', Mirror rootR treeA y ∧ Valid y (backend rootR goneHost) (.lookup 2 [0x62]) ∧ Cache.path y.disk 2 = .ok (.ok (pathStr [[0x64]])) ∧
    ∃ st, Answered y (backend rootR goneHost) (.lookup 2 [0x62]) (.entry st) y' ∧ st.size = 7 := by
  obtain ⟨y, h1, h2, h3, h4⟩ := demoM_ex (l := [(true, .lookup 1 [0x64]), (true, .opendir 2), (true, .lookup 1 [0x6c]), (true, .readlink 6), (false, .getattr 2)]) (b := false)
    (rq := .lookup 2 [0x62]) (P := fun y => Cache.path y.disk 2 = .ok (.ok (pathStr [[0x64]])) ∧
      (match dispatch (backend rootR goneHost) y.disk y.refs (.lookup 2 [0x62]) with
        | .ok st => st.fault.isNone && (match st.sent with | [.entry x] => x.size == 7 | _ => false)
        | .error _ => false) = true) (by decide +kernel)
  split at h4
  · rename_i st hs
    rw [Bool.and_eq_true] at h4
    obtain ⟨g1, g2⟩ := h4
    split at g2
    · rename_i x hx
      exact ⟨y, _, h1, h2, h3, x, ⟨st, hs, by simpa using g1, hx, rfl⟩, by simpa using g2⟩
    · cases g2
  · cases h4
example : ∃ y y', Mirror rootR treeA y ∧ Valid y (backend rootR goneHost) (.readlink 2) ∧ Cache.path y.disk 2 = .ok (.ok (pathStr [[0x6c]])) ∧
    Answered y (backend rootR goneHost) (.readlink 2) (.readlink [0x61]) y' := by
  obtain ⟨y, h1, h2, h3, h4⟩ := demoM_ex (l := [(true, .lookup 1 [0x6c]), (true, .readlink 2)]) (b := false)
    (rq := .readlink 2) (P := fun y => Cache.path y.disk 2 = .ok (.ok (pathStr [[0x6c]])) ∧
      (match dispatch (backend rootR goneHost) y.disk y.refs (.readlink 2) with
        | .ok st => st.fault.isNone && (match st.sent with | [.readlink x] => x == [0x61] | _ => false)
        | .error _ => false) = true) (by decide +kernel)
  split at h4
  · rename_i st hs
    rw [Bool.and_eq_true] at h4
    obtain ⟨g1, g2⟩ := h4
    split at g2
    · rename_i x hx
      have g2 : x = [0x61] := by simpa using g2
      subst g2
      exact ⟨y, _, h1, h2, h3, ⟨st, hs, by simpa using g1, hx, rfl⟩⟩
    · cases g2
  · cases h4

end Dragonstash.Local
