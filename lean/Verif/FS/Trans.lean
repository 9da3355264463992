/-
  The requests as transitions of the abstract tree (`Abs`), and the proof that the handlers do
  exactly this; the invariant of live systems.
-/
import Verif.FS.Abs
import Verif.FS.Live
namespace Dragonstash.FS
open Cache Codec
variable {s s' : Tree} {d d' : DB} {r r' : Refs}

/-- Transitions by requests: reply, and tree and references afterwards. -/
inductive Abs (B : Backend) (d : DB) (s : Tree) (r : Refs) : Req → Reply → Tree → Refs → Prop
  | lkGone {p n} : ¬ s.Conn p → Abs B d s r (.lookup p n) (.err ENOENT) s r
  | lkBad {p n cs sr e s' r'} : s.PathTo p cs → B.lstat 0 (pathStr (cs ++ [n])) = .ok sr → Put p n (fromBackend sr) s r (.error e) s' r' →
      Abs B d s r (.lookup p n) (.err e) s' r'
  | lkPut {p n cs sr i s' r'} : s.PathTo p cs → B.lstat 0 (pathStr (cs ++ [n])) = .ok sr → Put p n (fromBackend sr) s r (.ok i) s' r' →
      Abs B d s r (.lookup p n) (.entry (osStat i (fromBackend sr))) s' (addRef r' i)
  | lkHit {p n cs i nd} : s.PathTo p cs → B.lstat 0 (pathStr (cs ++ [n])) = .error ENOTCONN → s.nodes i = some nd → nd.loc = some (p, n) →
      Abs B d s r (.lookup p n) (.entry (osStat i nd.attr)) s (addRef r i)
  | lkMiss {p n cs} : s.PathTo p cs → B.lstat 0 (pathStr (cs ++ [n])) = .error ENOTCONN → (∀ i, ¬ s.At p n i) →
      Abs B d s r (.lookup p n) (.err (if 503 < n.length then ENAMETOOLONG else if testFlag d p SYNCED = .ok true then ENOENT else EIO)) s r
  | lkErr {p n cs be i s' r'} : s.PathTo p cs → B.lstat 0 (pathStr (cs ++ [n])) = .error be → be ≠ ENOTCONN → s.At p n i → Removed s r i s' r' →
      Abs B d s r (.lookup p n) (.err be) s' r'
  | lkErrMiss {p n cs be} : s.PathTo p cs → B.lstat 0 (pathStr (cs ++ [n])) = .error be → be ≠ ENOTCONN → (∀ i, ¬ s.At p n i) →
      Abs B d s r (.lookup p n) (.err be) s r
  | forget {i n} : Abs B d s r (.forget i n) .none s (subRef r i n)
  | forgetMulti {l} : Abs B d s r (.forgetMulti l) .none s (l.foldl (fun r x => subRef r x.1 x.2) r)
  | gaHit {i nd} : s.nodes i = some nd → Abs B d s r (.getattr i) (.attr (osStat i nd.attr)) s r
  | gaMiss {i} : s.nodes i = none → Abs B d s r (.getattr i) (.err ENOENT) s r
  | rlGone {i} : ¬ s.Conn i → Abs B d s r (.readlink i) (.err ENOENT) s r
  | rlPut {i cs dest nd} : s.PathTo i cs → B.readlink (backendPath (pathStr cs)) = .ok dest → s.nodes i = some nd → fmt nd.attr.mode = S_IFLNK →
      Abs B d s r (.readlink i) (.readlink (cstr dest)) (s.set i { nd with attr := { nd.attr with size := dest.length }, target := some dest }) r
  | rlOther {i cs dest nd} : s.PathTo i cs → B.readlink (backendPath (pathStr cs)) = .ok dest → s.nodes i = some nd → fmt nd.attr.mode ≠ S_IFLNK →
      Abs B d s r (.readlink i) (.readlink (cstr dest)) s r
  | rlHit {i cs nd t} : s.PathTo i cs → B.readlink (backendPath (pathStr cs)) = .error ENOTCONN → s.nodes i = some nd → nd.target = some t →
      Abs B d s r (.readlink i) (.readlink (cstr t)) s r
  | rlMiss {i cs nd} : s.PathTo i cs → B.readlink (backendPath (pathStr cs)) = .error ENOTCONN → s.nodes i = some nd → nd.target = none →
      Abs B d s r (.readlink i) (.err EINVAL) s r
  | rlErr {i cs be s' r'} : s.PathTo i cs → B.readlink (backendPath (pathStr cs)) = .error be → be ≠ ENOTCONN → i ≠ ROOT → Removed s r i s' r' →
      Abs B d s r (.readlink i) (.err be) s' r'
  | rlErrRoot {be} : B.readlink [0x2f] = .error be → be ≠ ENOTCONN → Abs B d s r (.readlink ROOT) (.err be) s r
  | odGone {i} : ¬ s.Conn i → Abs B d s r (.opendir i) (.err ENOENT) s r
  | odOff {i cs} : s.PathTo i cs → B.opendir (backendPath (pathStr cs)) = .error ENOTCONN → Abs B d s r (.opendir i) .opened s r
  | odErr {i cs be} : s.PathTo i cs → B.opendir (backendPath (pathStr cs)) = .error be → be ≠ ENOTCONN → Abs B d s r (.opendir i) (.err be) s r
  | odSync {i cs names e s' r'} : s.PathTo i cs → B.opendir (backendPath (pathStr cs)) = .ok (names, e) →
      SyncTo B (backendPath (pathStr cs)) i names s r s' r' → Abs B d s r (.opendir i) .opened s' r'
  | rdEof {dir size off l} : Stream d dir off l 0 true →
      Abs B d s r (.readdir dir size off) (if 0 < size ∧ l = [] ∧ testFlag d dir SYNCED ≠ .ok true then .err EIO
        else .buf (fitFrom 24 size 0 (l.map Ent.dent)) (bufLen 24 (fitFrom 24 size 0 (l.map Ent.dent)))) s r
  | rdPart {dir size off l e} : ¬ Linked s dir → Stream d dir off l e false → (size = 0 ∨ fitFrom 24 size 0 (l.map Ent.dent) ≠ l.map Ent.dent) →
      Abs B d s r (.readdir dir size off) (.buf (fitFrom 24 size 0 (l.map Ent.dent)) (bufLen 24 (fitFrom 24 size 0 (l.map Ent.dent)))) s r
  | plAll {dir size off l e b} : Stream d dir off l e b → fitFrom 152 size 0 (l.map Ent.dent) = l.map Ent.dent →
      (∀ x ∈ l, EntName x.2.1) → l.length ≤ d.treei.size + 2 → 0 < size →
      Abs B d s r (.readdirplus dir size off) (if e ≠ 0 then .err e else .bufPlus (l.map Ent.dent) (bufLen 152 (l.map Ent.dent))) s (plusRefs r l)
  | plZero {dir off} : Abs B d s r (.readdirplus dir 0 off) (.bufPlus [] 0) s r
  | plPart {dir size off P x Q e b} : Stream d dir off (P ++ x :: Q) e b → fitFrom 152 size 0 ((P ++ x :: Q).map Ent.dent) = P.map Ent.dent →
      (∀ y ∈ P ++ x :: Q, EntName y.2.1) → (P ++ x :: Q).length ≤ d.treei.size + 2 → 0 < size →
      Abs B d s r (.readdirplus dir size off) (.bufPlus (P.map Ent.dent) (bufLen 152 (P.map Ent.dent))) s (plusRefs r (P ++ [x]))
  | releasedir {i} : Abs B d s r (.releasedir i) .none s r
  | other : Abs B d s r .other (.err ENOSYS) s r

/-- State after a request with one reply. -/
def done (d : DB) (r : Refs) (rep : Reply) : St := { disk := d, refs := r, sent := [rep] }

theorem reply_fresh (d : DB) (r : Refs) (rep : Reply) : ({ disk := d, refs := r } : St).reply rep = done d r rep := rfl

theorem done_finish (d : DB) (r : Refs) (rep : Reply) : (done d r rep).finish = done d r rep := rfl

/-- What is proved about each handler. -/
def Served (B : Backend) (d : DB) (s : Tree) (r : Refs) (rq : Req) (x : M St) : Prop :=
  ∃ s' d' r' rep, x = .ok (done d' r' rep) ∧ SI s' d' r' ∧ Abs B d s r rq rep s' r'

theorem CollectedTo.removed {t t' : Txn} {i} (h : CollectedTo (s.orphan i) t s' t') : Removed s t.refs i s' t'.refs :=
  ⟨h.rep.2, h.coll, h.refs⟩

theorem Removed.eff {i} (h : Removed s r i s' r') : Eff s r s' r' ∧ EffP s r s' r' := by
  have e2 : Eff (s.orphan i) r s' r' := .collect h.ok h.coll h.refs
  exact ⟨.trans (.orphan i) e2, .trans (.orphan i) (.orphan i) (.collect h.coll)⟩

theorem pathStr_snoc' (cs : List Bytes) (n : Bytes) : pathStr cs ++ (0x2f : UInt8) :: n = pathStr (cs ++ [n]) := (pathStr_snoc cs n).symm

theorem isDir_of (h : SI s d r) {p} (hb : p < W64) (hd : ∀ x, Cache.getattr d p = .ok x → fmt x.2.mode = S_IFDIR) {nd} (hi : s.nodes p = some nd) : s.IsDir p :=
  ⟨nd, hi, hd _ (getattr_some h hi)⟩

theorem lookup_served {B : Backend} (h : SI s d r) {p n} (hb : p < W64) (hd : ∀ x, Cache.getattr d p = .ok x → fmt x.2.mode = S_IFDIR)
    (hnext : s.next + 1 < W64) (hcnt : ∀ i, (r i).nrefs + 1 < W64) :
    Served B d s r (.lookup p n) (lookup B { disk := d, refs := r } p n) := by
  unfold lookup St.txn
  simp only
  by_cases hc : s.Conn p
  · obtain ⟨cs, hp⟩ := hc
    obtain ⟨pn, hpn⟩ := conn_exists h.ok ⟨cs, hp⟩
    have hdir := isDir_of h hb hd hpn
    have hp0 := (h.ok.bound p pn hpn).1
    rw [h.rep.path_found h.ok hp]
    simp only [bind_ok, pathStr_snoc']
    cases hl : B.lstat 0 (pathStr (cs ++ [n])) with
    | ok sr =>
      simp only
      obtain ⟨t1, res, s1, g1, g2, g3, g4, g5⟩ := emplace_put (t := { db := d, refs := r }) (s := s) ⟨h.rep, h.ok⟩ (n := n) (a := fromBackend sr) hdir hnext
      obtain ⟨e1, e2⟩ := g2.eff h.ok hdir hnext
      have h1 : SI s1 t1.db t1.refs := h.eff e1 e2 g3.1
      rw [g1]
      simp only [bind_ok]
      cases res with
      | error e =>
        cases g2 with
        | bad hn =>
          exact ⟨s, d, t1.refs, _, rfl, h, .lkBad hp hl (.bad hn)⟩
      | ok i =>
        simp only
        have hex : ∃ nd, s1.nodes i = some nd := by
          cases g2 with
          | same k1 k2 k3 => exact ⟨_, Tree.set_self⟩
          | @new s0 _ _ hn k1 k2 k3 k4 =>
            have hcn : (s0.add p n (fromBackend sr)).Conn s.next := by
              have ok0 : s0.OK := by rcases k1 with ⟨rfl, -⟩ | ⟨i, nd, rfl, -⟩; exact h.ok; exact OK.orphan h.ok i
              have hn0 : s0.next = s.next := by rcases k1 with ⟨rfl, -⟩ | ⟨i, nd, rfl, -⟩ <;> rfl
              have hcp : s0.Conn p := by
                rcases k1 with ⟨rfl, -⟩ | ⟨i, nd, rfl, k5, k6, -⟩
                · exact ⟨cs, hp⟩
                · exact Conn.orphan h.ok ⟨cs, hp⟩ ⟨nd, k5, k6⟩
              obtain ⟨ds, hds⟩ := Conn.add ok0 (p := p) (n := n) (a := fromBackend sr) hcp
              exact ⟨ds ++ [n], .child ((at_add ok0).mpr (.inr ⟨rfl, rfl, hn0.symm⟩)) hds⟩
            have ok2 : (s0.add p n (fromBackend sr)).OK := by
              rcases k1 with ⟨rfl, k⟩ | ⟨i, nd, rfl, k5, k6, -⟩
              · exact OK.addNode h.ok hp0 hb hn hnext k
              · exact OK.addNode (OK.orphan h.ok i) hp0 hb hn hnext (orphan_free h.ok ⟨nd, k5, k6⟩)
            obtain ⟨nd, hnd⟩ := conn_exists ok2 hcn
            obtain ⟨nd', k6, -⟩ := k3.fwd hnd (Conn.not_gone ok2 hcn)
            exact ⟨nd', k6⟩
        obtain ⟨nd, hnd⟩ := hex
        obtain ⟨t2, l1, l2, l3⟩ := lock_ok (t := t1) (i := i) (h1.not_doomed hnd) (by rw [e1.counts]; exact hcnt i)
        unfold lockAndReply
        rw [l1]
        refine ⟨s1, t2.db, t2.refs, _, rfl, ?_, ?_⟩
        · rw [l2, l3]; exact h1.addRef hnd (by rw [e1.counts]; exact hcnt i)
        · rw [l3]; exact .lkPut hp hl g2
    | error be =>
      simp only
      by_cases hbe : be = ENOTCONN
      · subst hbe
        rw [if_pos rfl]
        by_cases hex : ∃ i, s.At p n i
        · obtain ⟨i, nd, hi, hloc⟩ := hex
          rw [h.rep.lookup_found h.ok ⟨nd, hi, hloc⟩]
          simp only [bind_ok]
          rw [getattr_some h hi]
          simp only
          obtain ⟨t2, l1, l2, l3⟩ := lock_ok (t := { db := d, refs := r }) (i := i) (h.not_doomed hi) (hcnt i)
          unfold lockAndReply
          rw [l1]
          refine ⟨s, t2.db, t2.refs, _, rfl, ?_, ?_⟩
          · rw [l2, l3]; exact h.addRef hi (hcnt i)
          · rw [l3]; exact .lkHit hp hl hi hloc
        · have hno : ∀ i, ¬ s.At p n i := fun i hi => hex ⟨i, hi⟩
          have habs := Abs.lkMiss (B := B) (d := d) (r := r) hp hl hno
          by_cases hlen : 503 < n.length
          · rw [lookup_too_long hlen]
            simp only [bind_ok]
            rw [if_neg (by simp [ENAMETOOLONG, ENOENT])]
            rw [if_pos hlen] at habs
            exact ⟨s, d, r, _, rfl, h, habs⟩
          · rw [h.rep.lookup_missing h.ok hb (by omega) (by omega) hno]
            simp only [bind_ok]
            rw [if_neg hlen] at habs
            by_cases hf : testFlag d p SYNCED = .ok true
            · rw [if_neg (fun hh => hh.2 hf)]
              rw [if_pos hf] at habs
              exact ⟨s, d, r, _, rfl, h, habs⟩
            · rw [if_pos ⟨trivial, hf⟩]
              rw [if_neg hf] at habs
              exact ⟨s, d, r, _, rfl, h, habs⟩
      · rw [if_neg hbe]
        by_cases hex : ∃ i, s.At p n i
        · obtain ⟨i, hi⟩ := hex
          obtain ⟨s1, t1, g1, g2⟩ := unlinkName_spec (t := { db := d, refs := r }) (s := s) ⟨h.rep, h.ok⟩ hi
          rw [g1]
          simp only [bind_ok]
          have hr := CollectedTo.removed g2
          obtain ⟨e1, e2⟩ := hr.eff
          exact ⟨s1, t1.db, t1.refs, _, rfl, h.eff e1 e2 g2.rep.1, .lkErr hp hl hbe hi hr⟩
        · have hno : ∀ i, ¬ s.At p n i := fun i hi => hex ⟨i, hi⟩
          rw [unlinkName_missing (t := { db := d, refs := r }) (s := s) ⟨h.rep, h.ok⟩ hb hno]
          exact ⟨s, d, r, _, rfl, h, .lkErrMiss hp hl hbe hno⟩
  · rw [h.rep.path_missing h.ok h.wf hb hc]
    exact ⟨s, d, r, _, rfl, h, .lkGone hc⟩

theorem forget_served {B : Backend} (h : SI s d r) {i n} (hn : n ≤ (r i).nrefs) : Served B d s r (.forget i n) (forget { disk := d, refs := r } i n) := by
  obtain ⟨t', g1, g2, g3⟩ := release_ok (t := { db := d, refs := r }) (i := i) hn
  unfold forget St.txn
  simp only
  rw [g1]
  refine ⟨s, d, t'.refs, _, rfl, ?_, ?_⟩
  · rw [g3]; exact h.subRef i n
  · rw [g3]; exact .forget

theorem forgetLoop_spec : ∀ (l : List (Ino × Nat)) (t : Txn), (∀ i, ((l.filter (fun x => x.1 == i)).map Prod.snd).sum ≤ (t.refs i).nrefs) →
    ∃ t', forgetLoop l t = .ok t' ∧ t'.db = t.db ∧ t'.refs = l.foldl (fun r x => subRef r x.1 x.2) t.refs := by
  intro l
  induction l with
  | nil => intro t _; exact ⟨t, rfl, rfl, rfl⟩
  | cons x l ih =>
    intro t ht
    obtain ⟨i, n⟩ := x
    have hi := ht i
    simp only [List.filter_cons, BEq.rfl, if_true, List.map_cons, List.sum_cons] at hi
    obtain ⟨t1, g1, g2, g3⟩ := release_ok (t := t) (i := i) (n := n) (by omega)
    have : ∀ j, ((l.filter (fun x => x.1 == j)).map Prod.snd).sum ≤ (t1.refs j).nrefs := by
      intro j
      rw [g3, subRef_count]
      by_cases hj : j = i
      · subst hj; rw [if_pos rfl]; omega
      · rw [if_neg hj]
        have := ht j
        rw [List.filter_cons, if_neg (by simp; exact fun hh => hj hh.symm)] at this
        omega
    obtain ⟨t', k1, k2, k3⟩ := ih t1 this
    refine ⟨t', ?_, by rw [k2, g2], ?_⟩
    · unfold forgetLoop; rw [g1]; exact k1
    · rw [k3, g3]; rfl

theorem forgetMulti_served {B : Backend} (h : SI s d r) {l : List (Ino × Nat)} (hn : ∀ i, ((l.filter (fun x => x.1 == i)).map Prod.snd).sum ≤ (r i).nrefs) :
    Served B d s r (.forgetMulti l) (forgetMulti { disk := d, refs := r } l) := by
  obtain ⟨t', g1, g2, g3⟩ := forgetLoop_spec l { db := d, refs := r } hn
  unfold forgetMulti St.txn
  simp only
  rw [g1]
  refine ⟨s, d, t'.refs, _, rfl, ?_, ?_⟩
  · rw [g3]
    clear g3 g2 g1 hn
    induction l generalizing r with
    | nil => exact h
    | cons x l ih => exact ih (h.subRef x.1 x.2)
  · rw [g3]; exact .forgetMulti

theorem getattr_served {B : Backend} (h : SI s d r) {i} (hb : i < W64) : Served B d s r (.getattr i) (getattr { disk := d, refs := r } i) := by
  unfold getattr
  cases hi : s.nodes i with
  | none => rw [getattr_none h hb hi]; exact ⟨s, d, r, _, rfl, h, .gaMiss hi⟩
  | some nd => rw [getattr_some h hi]; exact ⟨s, d, r, _, rfl, h, .gaHit hi⟩

theorem readlink_served {B : Backend} (h : SI s d r) {i} (hb : i < W64) : Served B d s r (.readlink i) (readlink B { disk := d, refs := r } i) := by
  unfold readlink St.txn
  simp only
  by_cases hc : s.Conn i
  · obtain ⟨cs, hp⟩ := hc
    obtain ⟨nd, hi⟩ := conn_exists h.ok ⟨cs, hp⟩
    rw [h.rep.path_found h.ok hp]
    simp only [bind_ok]
    cases hl : B.readlink (backendPath (pathStr cs)) with
    | ok dest =>
      simp only
      by_cases hf : fmt nd.attr.mode = S_IFLNK
      · obtain ⟨t', g1, g2, g3, -⟩ := writelink_spec (t := { db := d, refs := r }) (s := s) ⟨h.rep, h.ok⟩ (dest := dest) hi hf
        rw [g1]
        refine ⟨s.set i { nd with attr := { nd.attr with size := dest.length }, target := some dest }, t'.db, t'.refs, _, rfl, ?_, ?_⟩
        rotate_left
        · rw [g3]; exact .rlPut hp hl hi hf
        · rw [g3]; exact h.eff (.set hi rfl rfl (fun _ _ => hf)) (.set hi rfl rfl) g2.1
      · rw [writelink_notlink (t := { db := d, refs := r }) (s := s) ⟨h.rep, h.ok⟩ hi hf]
        exact ⟨s, d, r, _, rfl, h, .rlOther hp hl hi hf⟩
    | error be =>
      simp only
      by_cases hbe : be = ENOTCONN
      · subst hbe
        rw [if_pos rfl, h.rep.readlink h.ok hb, hi]
        simp only
        cases ht : nd.target with
        | none => exact ⟨s, d, r, _, rfl, h, .rlMiss hp hl hi ht⟩
        | some t => exact ⟨s, d, r, _, rfl, h, .rlHit hp hl hi ht⟩
      · rw [if_neg hbe]
        by_cases hr : i = ROOT
        · subst hr
          have := PathTo.root_nil h.ok hp; subst this
          rw [unlinkIno_root (t := { db := d, refs := r }) (s := s) ⟨h.rep, h.ok⟩]
          exact ⟨s, d, r, _, rfl, h, .rlErrRoot hl hbe⟩
        · obtain ⟨s1, t1, g1, g2⟩ := unlinkIno_spec (t := { db := d, refs := r }) (s := s) ⟨h.rep, h.ok⟩ hr hi
          rw [g1]
          have hrm := CollectedTo.removed g2
          obtain ⟨e1, e2⟩ := hrm.eff
          exact ⟨s1, t1.db, t1.refs, _, rfl, h.eff e1 e2 g2.rep.1, .rlErr hp hl hbe hr hrm⟩
  · rw [h.rep.path_missing h.ok h.wf hb hc]
    exact ⟨s, d, r, _, rfl, h, .rlGone hc⟩

theorem opendir_served {B : Backend} (h : SI s d r) {i} (hb : i < W64) (hd : ∀ x, Cache.getattr d i = .ok x → fmt x.2.mode = S_IFDIR)
    (hroom : ∀ path names e, B.opendir path = .ok (names, e) → s.next + names.length < W64) :
    Served B d s r (.opendir i) (opendir B { disk := d, refs := r } i) := by
  unfold opendir St.txn
  simp only
  by_cases hc : s.Conn i
  · obtain ⟨cs, hp⟩ := hc
    obtain ⟨nd, hi⟩ := conn_exists h.ok ⟨cs, hp⟩
    rw [h.rep.path_found h.ok hp]
    simp only [bind_ok]
    cases hl : B.opendir (backendPath (pathStr cs)) with
    | ok x =>
      obtain ⟨names, e⟩ := x
      simp only
      obtain ⟨t', s', g1, g2, g3⟩ := sync_spec (B := B) (base := backendPath (pathStr cs)) (t := { db := d, refs := r }) (s := s) h (isDir_of h hb hd hi) ⟨cs, hp⟩ rfl
        (hroom _ names e hl)
      rw [g1]
      exact ⟨s', t'.db, t'.refs, _, rfl, g3, .odSync hp hl g2⟩
    | error be =>
      simp only
      by_cases hbe : be = ENOTCONN
      · subst hbe
        rw [if_pos rfl]
        exact ⟨s, d, r, _, rfl, h, .odOff hp hl⟩
      · rw [if_neg hbe]
        exact ⟨s, d, r, _, rfl, h, .odErr hp hl hbe⟩
  · rw [h.rep.path_missing h.ok h.wf hb hc]
    exact ⟨s, d, r, _, rfl, h, .odGone hc⟩

/-- The missing `return` in `readdir`. -/
def readdirFault (d : DB) (r : Refs) (e : Errno) : St := { disk := d, refs := r, sent := [.err e], fault := some (.thrown 94) }

theorem readdir_served {B : Backend} (h : SI s d r) {dir size off} (hb : dir < W64) :
    Served B d s r (.readdir dir size off) (readdir { disk := d, refs := r } dir size off) ∨
    (¬ Linked s dir ∧ ∃ e, readdir { disk := d, refs := r } dir size off = .ok (readdirFault d r e)) := by
  obtain ⟨l, e, b, g1, g2, g3, g4, g5, g6⟩ := stream_exists h (dir := dir) (c := off) hb
  cases b with
  | true =>
    have he := g5 rfl
    subst he
    left
    rw [readdir_page (st := { disk := d, refs := r }) ⟨rfl, rfl⟩ g1 g2]
    exact ⟨s, d, r, _, rfl, h, .rdEof g1⟩
  | false =>
    have hnl : ¬ Linked s dir := fun hh => by have := (g4 hh).2; cases this
    have he := g6 rfl
    by_cases hz : 0 < size
    · rcases readdirLoop_spec g1 (size := size) (d.treei.size + 4) [] 0 (by omega) hz with ⟨h1, h2⟩ | ⟨h1, x, h2⟩
      · right
        refine ⟨hnl, e, ?_⟩
        unfold readdir
        simp only
        rw [h2]
        simp only [bind_ok, ne_eq, he, not_false_eq_true, if_true]
        rw [if_neg (by simp)]
        rfl
      · left
        simp only [bufLen_nil] at h1
        refine ⟨s, d, r, _, ?_, h, .rdPart hnl g1 (.inr h1)⟩
        unfold readdir
        simp only
        rw [h2]
        simp only [bind_ok, List.nil_append, ne_eq, not_true, if_false, bufLen_nil]
        rw [if_neg (by simp), takeBytes_exact (by decide)]; rfl
    · left
      refine ⟨s, d, r, _, ?_, h, .rdPart hnl g1 (.inl (by omega))⟩
      have h0 : size = 0 := by omega
      subst h0
      unfold readdir
      simp only
      have hloop : readdirLoop d dir 0 (d.treei.size + 4) off [] 0 = .ok ⟨[], 0, 0, false⟩ := by
        rw [readdirLoop, if_neg (by simp)]; rfl
      rw [hloop]
      have hf : fitFrom 24 0 0 (l.map Ent.dent) = [] := by
        cases l with
        | nil => rfl
        | cons y t => simp [fitFrom]
      rw [hf]
      rfl

theorem readdirplus_served {B : Backend} (h : SI s d r) {dir size off} (hb : dir < W64) (hcnt : ∀ i, (r i).nrefs + d.treei.size + 4 < W64) :
    Served B d s r (.readdirplus dir size off) (readdirplus { disk := d, refs := r } dir size off) := by
  obtain ⟨l, e, b, g1, g2, g3, g4, g5, g6⟩ := stream_exists h (dir := dir) (c := off) hb
  have hdm : ∀ x ∈ l, (r x.1).doomed = false := by
    intro x hx; obtain ⟨-, nd, k, -⟩ := g3 x hx; exact h.not_doomed k
  have hc : ∀ i, (r i).nrefs + l.length < W64 := fun i => by have := hcnt i; omega
  rcases readdirplus_page (st := { disk := d, refs := r }) (dir := dir) (size := size) (off := off) ⟨rfl, rfl⟩ g1 g2 hdm hc with ⟨k0, k1, k2⟩ | ⟨rfl, k⟩ | ⟨k0, P, x, Q, k1, k2, k3⟩
  · rw [k2]
    refine ⟨s, d, plusRefs r l, _, rfl, si_plusRefs h (fun x hx => ?_) hc, .plAll g1 k1 (fun x hx => (g3 x hx).1) g2 k0⟩
    obtain ⟨-, nd, k, -⟩ := g3 x hx; exact ⟨nd, k⟩
  · rw [k]; exact ⟨s, d, r, _, rfl, h, .plZero⟩
  · rw [k3]
    subst k1
    refine ⟨s, d, plusRefs r (P ++ [x]), _, rfl, si_plusRefs h (fun y hy => ?_) (fun i => ?_), .plPart g1 k2 (fun y hy => (g3 y hy).1) g2 k0⟩
    · obtain ⟨-, nd, k, -⟩ := g3 y (by simp only [List.mem_append, List.mem_cons, List.not_mem_nil, or_false] at hy ⊢; rcases hy with hy | hy; exact .inl hy; exact .inr (.inl hy)); exact ⟨nd, k⟩
    · have := hc i; simp at this ⊢; omega

/-- Every request the kernel can send is served, by the transitions `Abs`, except that `readdir` on
an unlinked directory may end with an exception. -/
theorem dispatch_served {y : Sys} {B : Backend} {rq : Req} (h : SI s y.disk y.refs) (hh : ∀ i, y.held i ≤ (y.refs i).nrefs) (hv : Valid y B rq) :
    (∃ s' d' r' rep, dispatch B y.disk y.refs rq = .ok (done d' r' rep) ∧ SI s' d' r' ∧ Abs B y.disk s y.refs rq rep s' r') ∨
    (∃ dir size off e, rq = .readdir dir size off ∧ ¬ Linked s dir ∧ dispatch B y.disk y.refs rq = .ok (readdirFault y.disk y.refs e)) := by
  obtain ⟨hr, hd, hret, hroom1, hroom2⟩ := hv
  have fin : ∀ {x : M St}, Served B y.disk s y.refs rq x → (do let st ← x; pure st.finish) = x := by
    rintro x ⟨s', d', r', rep, rfl, -, -⟩; rfl
  have mk : ∀ {x : M St}, handle B { disk := y.disk, refs := y.refs } rq = x → Served B y.disk s y.refs rq x →
      ∃ s' d' r' rep, dispatch B y.disk y.refs rq = .ok (done d' r' rep) ∧ SI s' d' r' ∧ Abs B y.disk s y.refs rq rep s' r' := by
    rintro x hx hs
    obtain ⟨s', d', r', rep, rfl, h1, h2⟩ := hs
    refine ⟨s', d', r', rep, ?_, h1, h2⟩
    unfold dispatch; rw [hx]; rfl
  have hn := hroom1 _ h.rep.next
  cases rq with
  | lookup p n => exact .inl (mk rfl (lookup_served h hr hd hn.1 (fun i => by have := hroom2 i; omega)))
  | forget i n =>
    refine .inl (mk rfl (forget_served h ?_))
    have := hret i; simp [Req.returned] at this
    exact Nat.le_trans this (hh i)
  | getattr i => exact .inl (mk rfl (getattr_served h hr))
  | readlink i => exact .inl (mk rfl (readlink_served h hr))
  | opendir i => exact .inl (mk rfl (opendir_served h hr hd (fun path names e hp => by have := hn.2 path names e hp; omega)))
  | readdir dir size off =>
    rcases readdir_served (B := B) h (size := size) (off := off) hr.1 with h1 | ⟨h1, e, h2⟩
    · exact .inl (mk rfl h1)
    · refine .inr ⟨dir, size, off, e, rfl, h1, ?_⟩
      unfold dispatch; simp only [handle]; rw [h2]; rfl
  | releasedir i => exact .inl (mk rfl ⟨s, _, _, _, rfl, h, .releasedir⟩)
  | readdirplus dir size off => exact .inl (mk rfl (readdirplus_served h hr.1 hroom2))
  | forgetMulti l => exact .inl (mk rfl (forgetMulti_served h (fun i => Nat.le_trans (hret i) (hh i))))
  | other => exact .inl (mk rfl ⟨s, _, _, _, rfl, h, .other⟩)

end Dragonstash.FS
