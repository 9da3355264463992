/-
  C92, for a mounted local directory: `ls` lists what is there.
-/
import Verif.Props.FSListMT
import Verif.Props.LocalWalk
namespace Dragonstash.Local
open Cache FS MT Conc

variable {root : Bytes} {H : Host} {T : HTree} {s : Cache.Tree} {d : DB} {ds : List DB} {hist : List Done}

/-! ### Specification -/

/-- A listing of the directory at `cs`: a plain name which the cache can store is listed if and only if it is there on the host, with its
attributes; no such name is listed twice. -/
structure ListsAll (T : HTree) (cs : List Bytes) (l : List DEnt) : Prop where
  iff : ∀ n, Plain n → n.length ≤ 503 → ((∃ e ∈ l, e.name = n) ↔ T (cs ++ [n]) ≠ none)
  attr : ∀ e ∈ l, Plain e.name → ∃ o, T (cs ++ [e.name]) = some o ∧ Shows e.stat o.stat o.stat.size
  once : ∀ n, Plain n → (l.map DEnt.name).count n ≤ 1

/-! ### Proof -/

theorem _root_.Dragonstash.MT.OneByOne.ver_le {d0 : DB} {r0 : Refs} {ds R H} (h : OneByOne d0 r0 ds R H) {k : Nat} {q : Done} (hk : H[k]? = some q) (hr : readOnly q.rq = true) : q.ver ≤ k := by
  induction h with
  | start => simp at hk
  | @ro ds r H q1 d d1 st h1 h2 h3 h4 h5 h6 h7 ih =>
    rw [List.getElem?_append] at hk
    split at hk
    · exact ih hk
    · rename_i hlt
      have hlen := h1.length
      have := (List.getElem?_eq_some_iff.mp h3).1
      have h0 : k - H.length = 0 := by
        have := (List.getElem?_eq_some_iff.mp hk).1
        simp at this; omega
      rw [h0] at hk
      simp at hk
      subst hk; omega
  | @rw ds r H q1 d st h1 h2 h3 h4 h5 h6 ih =>
    rw [List.getElem?_append] at hk
    split at hk
    · exact ih hk
    · have h0 : k - H.length = 0 := by
        have := (List.getElem?_eq_some_iff.mp hk).1
        simp at this; omega
      rw [h0] at hk
      simp at hk
      subst hk; rw [h2] at hr; cases hr

/-- The pages of a listing are read from databases not older than `v`. -/
def Since (hist : List Done) (v : Nat) (ks : List Nat) : Prop := ∀ k ∈ ks, ∀ q, hist[k]? = some q → v ≤ q.ver

theorem page_ro {q : Done} {dir : Ino} {size off : Nat} {l : List DEnt} (h : PageQ q dir size off l) : readOnly q.rq = true := by
  cases h with
  | rd h => rw [h]; rfl
  | plus h => rw [h]; rfl

theorem listing_ro {dir : Ino} {off : Nat} {ks : List Nat} {l : List DEnt} (h : Listing hist dir off ks l) : ∀ k ∈ ks, ∃ q, hist[k]? = some q ∧ readOnly q.rq = true := by
  induction h with
  | more h1 h2 _ ih =>
    intro k hk
    rcases List.mem_cons.mp hk with rfl | hk
    · exact ⟨_, h1, page_ro h2⟩
    · exact ih k hk
  | eof h1 _ h2 =>
    intro k hk
    rcases List.mem_singleton.mp hk with rfl
    exact ⟨_, h1, page_ro h2⟩
  | incomplete h1 h2 _ =>
    intro k hk
    rcases List.mem_singleton.mp hk with rfl
    exact ⟨_, h1, by rw [h2]; rfl⟩

/-- Each entry listed was on some page. -/
theorem listing_page {dir : Ino} {off : Nat} {ks : List Nat} {l : List DEnt} (h : Listing hist dir off ks l) :
    ∀ e ∈ l, ∃ k ∈ ks, ∃ q size off p, hist[k]? = some q ∧ PageQ q dir size off p ∧ e ∈ p := by
  induction h with
  | more h1 h2 _ ih =>
    intro e he
    rcases List.mem_append.mp he with he | he
    · exact ⟨_, by simp, _, _, _, _, h1, h2, he⟩
    · obtain ⟨k, g1, g2⟩ := ih e he
      exact ⟨k, by simp [g1], g2⟩
  | eof => intro e he; cases he
  | incomplete => intro e he; cases he

theorem parent_of (h : Rep s d) (ok : s.OK) {i p : Ino} {cs : List Bytes} {n : Bytes} (hi : i < W64) (hp : s.PathTo i (cs ++ [n])) (hq : s.PathTo p cs) : Cache.parent d i = .ok p := by
  obtain ⟨q, h1, nd, h2, h3⟩ := hp.snoc
  obtain rfl := PathTo.inj ok h1 hq
  have hir : i ≠ ROOT := by rintro rfl; exact absurd (PathTo.root_nil ok hp) (by simp)
  rw [h.parent ok hi, if_neg hir, h2]
  show Except.ok nd.par = _
  unfold Cache.Node.par
  rw [h3]

theorem ls_right (hw : Whole T) (ht : Local.Tree T) (hr : root ≠ []) (h0 : (0 : UInt8) ∉ root) (hM : Mirrors root T ds hist) (hP : PInv (Sound root T) ds hist)
    (htree : ∀ d ∈ ds, ∃ s, Rep s d ∧ s.OK ∧ s.WF ∧ Sound root T s) (hB : ∀ q ∈ hist, ∃ H, q.B = backend root H ∧ (Has root H T ∨ Gone H))
    (hver : ∀ {k : Nat} {q : Done}, hist[k]? = some q → readOnly q.rq = true → q.ver ≤ k)
    {v : Nat} {dir : Ino} {cs : List Bytes} {ks : List Nat} {l : List DEnt} (hv : ds[v]? = some d) (hd : dir < W64) (hp : Cache.path d dir = .ok (.ok (pathStr cs)))
    (hcs : ∀ c ∈ cs, Plain c) (hs : testFlag d dir SYNCED = .ok true) (hks : Since hist v ks) (hl : Listing hist dir 0 ks l) : ListsAll T cs l := by
  have tree : ∀ {k e}, ds[k]? = some e → ∃ s, Rep s e ∧ s.OK ∧ s.WF ∧ Sound root T s := fun h => htree _ (List.mem_of_getElem? h)
  have plainTo : ∀ {e : DB} {s : Cache.Tree} {i : Ino} {cs : List Bytes}, Rep s e → s.OK → s.WF → i < W64 → (∀ c ∈ cs, Plain c) → Cache.path e i = .ok (.ok (pathStr cs)) → s.PathTo i cs :=
    fun h1 h2 h3 hi hcs hp => path_comps (si_empty h1 h2 h3) hi (fun c hc => (hcs c hc).1) hp
  -- the databases which the pages saw
  have sees : ∀ {k}, k ∈ ks → ∃ q d, hist[k]? = some q ∧ readOnly q.rq = true ∧ v ≤ q.ver ∧ q.ver ≤ k ∧ ds[q.ver]? = some d ∧ seen ds k q = some d := by
    intro k hk
    obtain ⟨q, h1, h2⟩ := listing_ro hl k hk
    obtain ⟨d1, d2, h3, -, -⟩ := hP.saw k q h1
    have h4 := h3
    unfold seen at h4
    rw [h2, if_pos rfl] at h4
    exact ⟨q, d1, h1, h2, hks k hk q h1, hver h1 h2, h4, h3⟩
  obtain ⟨s0, a1, a2, a3, a4⟩ := tree hv
  have hpt := plainTo a1 a2 a3 hd hcs hp
  have hd0 : dir ≠ 0 := by
    rintro rfl
    obtain ⟨nd, hnd⟩ := conn_exists a2 ⟨_, hpt⟩
    exact absurd (a2.bound 0 nd hnd).1 (Nat.lt_irrefl 0)
  -- the parent stays the same
  obtain ⟨p, hp0, hpar⟩ : ∃ p, p ≠ 0 ∧ ∀ {k e}, v ≤ k → ds[k]? = some e → Cache.parent e dir = .ok p := by
    by_cases hne : cs = []
    · subst hne
      obtain rfl := PathTo.inj a2 hpt .root
      refine ⟨ROOT, by decide, fun {k e} hk he => ?_⟩
      obtain ⟨s1, b1, b2, b3, -⟩ := tree he
      rw [b1.parent b2 hd, if_pos rfl]
    · obtain ⟨cs0, n, rfl⟩ : ∃ cs0 n, cs = cs0 ++ [n] := ⟨_, _, (List.dropLast_concat_getLast hne).symm⟩
      obtain ⟨q, h1, -⟩ := hpt.snoc
      have hcs0 : ∀ c ∈ cs0, Plain c := fun c hc => hcs c (by simp [hc])
      obtain ⟨nd, hnd⟩ := conn_exists a2 ⟨_, h1⟩
      have hq : q < W64 := OK.lt a2 hnd
      refine ⟨q, Nat.pos_iff_ne_zero.mp (a2.bound q nd hnd).1, fun {k e} hk he => ?_⟩
      obtain ⟨s1, b1, b2, b3, -⟩ := tree he
      exact parent_of b1 b2 hd (plainTo b1 b2 b3 hd hcs (hM.stays hk hv he hd hcs hp)) (plainTo b1 b2 b3 hq hcs0 (hM.stays hk hv he hq hcs0 (a1.path_found a2 h1)))
  have hat : ∀ k ∈ ks, SeesAt ds hist k dir p := by
    intro k hk
    obtain ⟨q, e, h1, -, h2, -, h3, h4⟩ := sees hk
    exact ⟨q, e, h1, h4, hpar h2 h3⟩
  obtain ⟨es, g1, g2, g3, g4⟩ := listing_right hP (fun d hd => by obtain ⟨s, h1, h2, h3, -⟩ := htree d hd; exact ⟨s, h1, h2, h3⟩) hd hd0 hp0 hat hl
  -- entries stay
  have stay : ∀ {k e i m}, v ≤ k → ds[k]? = some e → Plain m → Cache.lookup d dir m = .ok (.ok i) → Cache.lookup e dir m = .ok (.ok i) := by
    intro k e i m hk he hm hlk
    have hkid := (a1.lookup_iff a2 hd).mp hlk
    obtain ⟨nd, hnd, hloc⟩ := hkid
    have hi : i < W64 := OK.lt a2 hnd
    obtain ⟨s1, b1, b2, b3, -⟩ := tree he
    have hc := plainTo b1 b2 b3 hi (plain_snoc hcs hm) (hM.stays hk hv he hi (plain_snoc hcs hm) (a1.path_found a2 (.child ⟨nd, hnd, hloc⟩ hpt)))
    obtain ⟨q, c1, c2⟩ := hc.snoc
    obtain rfl := PathTo.inj b2 c1 (plainTo b1 b2 b3 hd hcs (hM.stays hk hv he hd hcs hp))
    exact b1.lookup_found b2 c2
  -- what is listed is in the directory at the time
  have listed : ∀ {e : DEnt}, e ∈ l → Plain e.name → (e.stat.ino, e.name) ∈ es := by
    intro e he hpl
    have : (e.stat.ino, e.name) ∈ l.map (fun e => (e.stat.ino, e.name)) := List.mem_map.mpr ⟨e, he, rfl⟩
    rw [g1] at this
    rcases List.mem_append.mp this with h | h
    · exfalso
      rcases List.mem_cons.mp h with h | h
      · exact hpl.2.1 (congrArg Prod.snd h)
      · split at h
        · cases h
        · exact hpl.2.2.1 (congrArg Prod.snd (List.mem_singleton.mp h))
    · exact h
  have attr : ∀ e ∈ l, Plain e.name → ∃ o, T (cs ++ [e.name]) = some o ∧ Shows e.stat o.stat o.stat.size := by
    intro e he hpl
    obtain ⟨k, hk, q, size, off, pg, h1, h2, h3⟩ := listing_page hl e he
    obtain ⟨q', d1, h4, h5, h6, -, h7, h8⟩ := sees hk
    rw [h1] at h4; cases h4
    obtain ⟨d2, d3, c1, -, c2⟩ := hP.saw k q h1
    rw [h8] at c1; cases c1
    have c3 : Saw (Orig (SM root T) (TM root T)) d1 d3 q := by
      cases c2 with
      | wrote a => rw [h5] at a; cases a
      | read a b c d e f g h i j k l => exact .read a b c d e.orig f g h i j k l
    have hsaid : Said (SM root T) (TM root T) q.B := by
      obtain ⟨H, b1, b2⟩ := hB q (List.mem_of_getElem? h1)
      rw [b1]; exact said_of b2
    have hsh := saw_shown c3 hsaid
    have hpd : Cache.path d1 dir = .ok (.ok (pathStr cs)) := hM.stays h6 hv h7 hd hcs hp
    have hfrom : From (SM root T) (TM root T) (pathStr cs ++ 0x2f :: e.name) e.stat := by
      cases h2 with
      | rd x1 x2 => rw [x1, x2] at hsh; exact hsh _ hpd e h3 hpl.2.1 hpl.2.2.1
      | plus x1 x2 => rw [x1, x2] at hsh; exact hsh _ hpd e h3 hpl.2.1 hpl.2.2.1
    rw [pathStr_snoc'] at hfrom
    exact from_eq ht hr h0 (plain_snoc hcs hpl) (by simp) hfrom
  have hag := sound_agrees hw hr h0 a1 a2 a3 a4
  have inDir : ∀ n, Plain n → n.length ≤ 503 → T (cs ++ [n]) ≠ none → ∃ i, Cache.lookup d dir n = .ok (.ok i) ∧ (i, n) ∈ es := by
    intro n hn hlen hT
    obtain ⟨i, hi⟩ := (hag.sync hd hp hcs hs n hn hlen).mpr hT
    refine ⟨i, hi, g3 i n (fun k hk q d1 d2 h1 h2 h3 => ?_)⟩
    obtain ⟨q', d1', c1, c2, c3, c4, c5, c6⟩ := sees hk
    rw [h1] at c1; cases c1
    rw [h2] at c6; cases c6
    exact ⟨stay c3 c5 hn hi, stay (by omega) h3 hn hi⟩
  refine ⟨fun n hn hlen => ⟨?_, fun hT => ?_⟩, attr, fun n hn => ?_⟩
  · rintro ⟨e, he, rfl⟩
    obtain ⟨o, ho, -⟩ := attr e he hn
    rw [ho]; simp
  · obtain ⟨i, -, hi⟩ := inDir n hn hlen hT
    have : (i, n) ∈ l.map (fun e => (e.stat.ino, e.name)) := by rw [g1]; exact List.mem_append_right _ hi
    obtain ⟨e, he, hx⟩ := List.mem_map.mp this
    exact ⟨e, he, congrArg Prod.snd hx⟩
  · -- all with this name have the same inode
    by_cases hin : ∃ i, (i, n) ∈ es
    case neg =>
      have : List.count n (l.map DEnt.name) = 0 := by
        rw [List.count_eq_zero]
        intro hm
        obtain ⟨e, he, rfl⟩ := List.mem_map.mp hm
        exact hin ⟨_, listed he hn⟩
      omega
    obtain ⟨i, hi⟩ := hin
    have hlen : n.length ≤ 503 := by
      obtain ⟨k, hk, q, d1, h1, h2, h3⟩ := g4 _ hi
      obtain ⟨q', d1', c1, -, -, -, c5, c6⟩ := sees hk
      rw [h1] at c1; cases c1
      rw [h2] at c6; cases c6
      obtain ⟨s1, b1, b2, b3, -⟩ := tree c5
      obtain ⟨nd, e1, e2⟩ := (b1.lookup_iff b2 hd).mp h3
      exact (b2.loc i nd dir n e1 e2).2.2.1
    have hT : T (cs ++ [n]) ≠ none := by
      obtain ⟨e, he, hx⟩ := List.mem_map.mp (show (i, n) ∈ l.map (fun e => (e.stat.ino, e.name)) by rw [g1]; exact List.mem_append_right _ hi)
      have hxn : e.name = n := congrArg Prod.snd hx
      subst hxn
      obtain ⟨o, ho, -⟩ := attr e he hn
      rw [ho]; simp
    obtain ⟨j, hj, -⟩ := inDir n hn hlen hT
    have same : ∀ x ∈ es, x.2 = n → x.1 = j := by
      intro x hx hxn
      obtain ⟨k, hk, q, d1, h1, h2, h3⟩ := g4 x hx
      obtain ⟨q', d1', c1, -, c3, -, c5, c6⟩ := sees hk
      rw [h1] at c1; cases c1
      rw [h2] at c6; cases c6
      rw [hxn, stay c3 c5 hn hj] at h3
      exact (Except.ok.inj (Except.ok.inj h3)).symm
    have hmap : l.map DEnt.name = ((dir, [0x2e]) :: (if dir = 1 then [] else [(p, [0x2e, 0x2e])]) ++ es).map Prod.snd := by
      rw [← g1, List.map_map]; rfl
    rw [hmap, List.map_append, List.count_append]
    have h1 : List.count n (((dir, [0x2e]) :: (if dir = 1 then [] else [(p, [0x2e, 0x2e])])).map Prod.snd) = 0 := by
      rw [List.count_eq_zero]
      intro hm
      rw [List.map_cons] at hm
      rcases List.mem_cons.mp hm with h | h
      · exact hn.2.1 h
      · split at h
        · cases h
        · exact hn.2.2.1 (List.mem_singleton.mp h)
    have h2 : List.count n (es.map Prod.snd) ≤ List.count j (es.map Prod.fst) := by
      clear g1 g3 g4 hmap g2 hi listed inDir
      induction es with
      | nil => simp
      | cons x es ih =>
        have := ih (fun y hy => same y (by simp [hy]))
        rw [List.map_cons, List.map_cons, List.count_cons, List.count_cons]
        by_cases hxn : x.2 = n
        · have := same x (by simp) hxn
          simp only [hxn, this, beq_self_eq_true, if_true]; omega
        · rw [if_neg (by simpa using hxn)]; omega
    have h3 := List.nodup_iff_count.mp g2 j
    omega

/-- C92 for a mounted local directory whose tree on the host never changes: a listing of a directory which counted as synchronised
before the first page is complete and right, with any number of threads which serve other requests meanwhile,
whether the host is connected or not. -/
theorem C92_mirror (hw : Whole T) (ht : Local.Tree T) (hr : root ≠ []) (h0 : (0 : UInt8) ∉ root) {m : MSys} (h : MReachD (Asked root T) m) :
    ∃ d0 r0 threads ds R, Steps (MSys.start d0 r0 threads) m ∧ OneByOne d0 r0 ds R m.hist ∧ ds.getLast? = some m.w.disk ∧
      ∀ {v d dir cs ks l}, ds[v]? = some d → dir < W64 → Cache.path d dir = .ok (.ok (pathStr cs)) → (∀ c ∈ cs, Plain c) → testFlag d dir SYNCED = .ok true →
        Since m.hist v ks → Listing m.hist dir 0 ks l → ListsAll T cs l := by
  obtain ⟨d0, r0, n, ds, R, h1, h2, h3, h4, h5, h6, h7⟩ := mirror_inv hw ht hr h0 h
  exact ⟨d0, r0, n, ds, R, h1, h2, h3, fun hv hd hp hcs hs hks hl => ls_right hw ht hr h0 h4 h5 h6 h7 (fun hk hr => h2.ver_le hk hr) hv hd hp hcs hs hks hl⟩

/-- C92, `ls` on a path: the kernel resolves the path, opens the directory while the host is connected, and then lists it. It
lists what the directory has on the host, to which the path leads there. -/
theorem C92_ls (hw : Whole T) (ht : Local.Tree T) (hsl : ShortLinks T) (hr : root ≠ []) (h0 : (0 : UInt8) ∉ root) {m : MSys} (h : MReachD (Asked root T) m)
    {follow : Bool} {l : List Bytes} (hl : Short l) {w : Way} (hk : KernelWalk m.hist follow [] l (.ok w)) (hdir : w.isDir)
    {k0 : Nat} {q0 : Done} (hb : w.before k0) (hq0 : m.hist[k0]? = some q0) (hod : q0.rq = .opendir w.ino) (hH : ∀ H, q0.B = backend root H → ¬ Gone H)
    {ks : List Nat} {es : List DEnt} (hks : Since m.hist (k0 + 1) ks) (hes : Listing m.hist w.ino 0 ks es) :
    q0.rep = .opened ∧ ∃ cs o ns, HostWalk T follow [] l (.ok cs) ∧ T cs = some o ∧ o.names = some ns ∧ (∀ n, n.length ≤ 503 → Plain n → ((∃ e ∈ es, e.name = n) ↔ n ∈ ns)) ∧ ListsAll T cs es := by
  obtain ⟨d0, r0, n, ds, R, h1, h2, h3, h4, h5, h6, h7⟩ := mirror_inv hw ht hr h0 h
  obtain ⟨cs, g1, g2⟩ := walk_right hw h4 hk .top hl hsl
  obtain ⟨d, d', e1, e2, e3⟩ := h4.exact_ k0 q0 hq0
  unfold seen at e1
  rw [hod, if_neg (by simp [readOnly])] at e1
  rw [hod] at e3
  obtain ⟨hi, hp⟩ := g2.path h4 hb e1
  obtain ⟨f1, f2⟩ := e3 cs hp g2.plain
  have hs : testFlag d' w.ino SYNCED = .ok true := by
    rcases f2 with f2 | ⟨H, f2, f3⟩
    · exact f2
    · exact absurd f3 (hH H f2)
  have hp' := h4.stays (Nat.le_succ k0) e1 e2 hi g2.plain hp
  have hall := ls_right hw ht hr h0 h4 h5 h6 h7 (fun hk hr => h2.ver_le hk hr) e2 hi hp' g2.plain hs hks hes
  obtain ⟨o, ho, hod⟩ := g2.obj hw
  obtain ⟨ns, hns⟩ := hw.dir ho (hod.mp hdir)
  refine ⟨f1, cs, o, ns, g1, ho, hns, fun n hlen hn => ?_, hall⟩
  rw [hall.iff n hn hlen]
  exact ⟨fun h => (ht.child ho hns).mpr ⟨hn, h⟩, fun h => ((ht.child ho hns).mp h).2⟩

/-! ### Examples -/

/-- `l` is looked up; the first page of the root directory is read, which has it; then another thread looks up `a`, which
adds it to the cache; the second page has it. The next page says that the directory is not completely cached. -/
def eventsL1 : List WEv :=
  .ask 0 true (.lookup 1 [0x6c]) :: List.replicate 7 (.go 0) ++ .ask 0 true (.readdir 1 70 0) :: List.replicate 9 (.go 0) ++
  .ask 1 true (.lookup 1 [0x61]) :: List.replicate 7 (.go 1) ++ .ask 0 true (.readdir 1 200 2) :: List.replicate 7 (.go 0) ++ .ask 0 true (.readdir 1 200 3) :: List.replicate 6 (.go 0)

/-- The hypotheses of `C92_listing` can be met. -/
example : ∃ (m : MSys) (l : List DEnt), MReach m ∧ Listing m.hist 1 0 [1, 3, 4] l ∧ l.map (fun e => (e.stat.ino, e.name)) = [(1, [0x2e]), (2, [0x6c]), (3, [0x61])] ∧
    ∃ ds, (∀ k ∈ [1, 3, 4], SeesAt ds m.hist k 1 1) ∧ ListingRight ds m.hist 1 1 [1, 3, 4] l := by
  have key : ∃ m, MReachD (Asked rootR treeA) m ∧ ((listingB m.hist 1 0 [1, 3, 4]).map (fun l => l.map (fun e => (e.stat.ino, e.name)))) = some [(1, [0x2e]), (2, [0x6c]), (3, [0x61])] :=
    demoW_ex (l := eventsL1) (by decide +kernel)
  obtain ⟨m, h1, h2⟩ := key
  cases hl : listingB m.hist 1 0 [1, 3, 4] with
  | none => rw [hl] at h2; cases h2
  | some l =>
    rw [hl] at h2
    have hlist := listingB_ok hl
    obtain ⟨d0, r0, n, ds, R, -, g1, -, g2⟩ := C92_listing h1.reach
    have hs : ∀ k ∈ [1, 3, 4], SeesAt ds m.hist k 1 1 := by
      intro k hk
      obtain ⟨q, h3, h4⟩ := listing_ro hlist k hk
      obtain ⟨d, -, -, h5, -⟩ := g1.read q (List.mem_of_getElem? h3) h4
      exact ⟨q, d, h3, by unfold seen; rw [h4, if_pos rfl]; exact h5, rfl⟩
    exact ⟨m, l, h1.reach, hlist, Option.some.inj h2, ds, hs, g2 (by decide) (by decide) (by decide) hs hlist⟩

/-- `d` is looked up and opened while the host is connected. While its first page is read, another thread looks up `a`; then
the connection is lost, and the other pages are read. -/
def eventsL2 : List WEv :=
  .ask 0 true (.lookup 1 [0x64]) :: List.replicate 7 (.go 0) ++ .ask 0 true (.opendir 2) :: List.replicate 11 (.go 0) ++
  [.ask 0 true (.readdir 2 60 0), .go 0, .go 0, .ask 1 true (.lookup 1 [0x61]), .go 1, .go 1] ++ List.replicate 6 (.go 0) ++ List.replicate 5 (.go 1) ++
  .ask 1 false (.readdirplus 2 4096 2) :: List.replicate 14 (.go 1) ++ .ask 1 false (.readdir 2 4096 5) :: List.replicate 6 (.go 1)

theorem online_not {q : Done} (h : online q = true) : ∀ H, q.B = backend rootR H → ¬ Gone H := by
  intro H hB hG
  unfold online at h
  have h1 : (backend rootR H).lstat 0 [0x2f, 0x61] = .error ENOTCONN := by
    have := gone_lstat rootR_ne rootR_nul hG (cs := [[0x61]]) (fun c hc => by rw [List.mem_singleton.mp hc]; exact plainB (by decide)) 0
    exact this
  rw [hB, h1] at h; cases h

/-- The hypotheses of `C92_ls` can be met: `d` is listed, and it has `b` and no other plain name.
(These include the hypotheses of `C92_mirror`.) -/
example : ∃ (m : MSys) (w : Way) (es : List DEnt), MReachD (Asked rootR treeA) m ∧ KernelWalk m.hist true [] [[0x64]] (.ok w) ∧ Listing m.hist w.ino 0 [2, 4, 5] es ∧
    ListsAll treeA [[0x64]] es ∧ ∃ e ∈ es, e.name = [0x62] := by
  have key : ∃ m, MReachD (Asked rootR treeA) m ∧ m.hist.map (·.rq) = [.lookup 1 [0x64], .opendir 2, .readdir 2 60 0, .lookup 1 [0x61], .readdirplus 2 4096 2, .readdir 2 4096 5] ∧
      m.hist.map (fun q => match q.rep with | .entry st => (st.ino, fmt st.mode) | _ => (0, 0)) = [(2, S_IFDIR), (0, 0), (0, 0), (6, S_IFREG), (0, 0), (0, 0)] ∧
      m.hist.map (·.ver) = [0, 1, 2, 2, 4, 5] ∧ m.hist.map online = [true, true, true, true, false, false] ∧ (listingB m.hist 2 0 [2, 4, 5]).isSome = true := demoW_ex (l := eventsL2) (by decide +kernel)
  obtain ⟨m, h1, h2, h3, h4, h5, h6⟩ := key
  have hlen : m.hist.length = 6 := by have := congrArg List.length h2; simpa using this
  obtain ⟨es, hes⟩ := Option.isSome_iff_exists.mp h6
  have hL := listingB_ok hes
  have right := fun {w : Way} {q0 : Done} (hk : KernelWalk m.hist true [] [[0x64]] (.ok w)) => C92_ls (k0 := 1) (q0 := q0) (ks := [2, 4, 5]) (es := es) treeA_whole treeA_tree treeA_links rootR_ne rootR_nul h1
    (by intro n hn; revert n; decide) hk
  refine ⟨m, ?_⟩
  generalize m.hist = H at h2 h3 h4 h5 hL hlen right ⊢
  match H, hlen with
  | [q0, q1, q2, q3, q4, q5], _ =>
    simp only [List.map_cons, List.map_nil, List.cons.injEq, and_true] at h2 h3 h4 h5
    obtain ⟨a0, a1, a2, a3, a4, a5⟩ := h2
    obtain ⟨b0, -⟩ := h3
    obtain ⟨st, c1, c2, c3⟩ : ∃ st, q0.rep = .entry st ∧ st.ino = 2 ∧ fmt st.mode = S_IFDIR := by
      cases hr : q0.rep with
      | entry st => rw [hr] at b0; exact ⟨st, rfl, congrArg Prod.fst b0, congrArg Prod.snd b0⟩
      | _ => rw [hr] at b0; cases congrArg Prod.fst b0
    have hk : KernelWalk [q0, q1, q2, q3, q4, q5] true [] [[0x64]] (.ok [(0, st)]) :=
      .enter (k := 0) (plainB (by decide)) trivial trivial rfl a0 c1 (by rw [c3]; decide) .done
    have hL' : Listing [q0, q1, q2, q3, q4, q5] st.ino 0 [2, 4, 5] es := by rw [c2]; exact hL
    have hsince : Since [q0, q1, q2, q3, q4, q5] (1 + 1) [2, 4, 5] := by
      intro k hk q hq
      obtain ⟨-, -, v2, -, v4, v5⟩ := h4
      simp only [List.mem_cons, List.not_mem_nil, or_false] at hk
      rcases hk with rfl | rfl | rfl <;> cases hq <;> omega
    obtain ⟨-, cs, o, ns, g1, g2, g3, g4, g5⟩ := right hk c3 (show 0 < 1 by decide) rfl (by show q1.rq = .opendir st.ino; rw [c2]; exact a1) (online_not h5.2.1) hsince hL'
    have hh : HostWalk treeA true [] [[0x64]] (.ok [[0x64]]) :=
      .enter (plainB (by decide)) (o := ⟨bDir, none, some [[0x61], [0x6c], [0x64]]⟩) rfl (by decide +kernel) (o' := ⟨bDir, none, some [[0x62]]⟩) rfl (by decide +kernel) .done
    cases g1.det hh
    cases g2; cases g3
    exact ⟨_, es, h1, hk, hL', g5, (g4 [0x62] (by decide) (plainB (by decide))).mpr (by simp)⟩

end Dragonstash.Local
