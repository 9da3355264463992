/-
  C77, C78: what several threads answer.
-/
import Verif.MT.Saw
import Verif.MT.Demo
import Verif.Props.FSOrigin
import Verif.Props.FSReply
import Verif.Props.FSDir
import Verif.Props.FSKeep
namespace Dragonstash.MT
open Cache FS Conc
variable {S : Bytes → BStat → Prop} {T : Bytes → Bytes → Prop}

/-! ### C77 -/

/-- Specification: attributes and targets in the reply come from the backend. `S p sr` stands for "the
backend once reported attributes `sr` for the path `p`", `T p t` for "it once reported the link
target `t`"; `d` are the databases which the request saw. -/
def Shown (S : Bytes → BStat → Prop) (T : Bytes → Bytes → Prop) (d : DB) : Req → Reply → Prop
  | .lookup p n, .entry st => ∃ b, Cache.path d p = .ok (.ok b) ∧ From S T (b ++ 0x2f :: n) st
  | .getattr i, .attr st => i ≠ ROOT → st.ino = i ∧ ∃ p, From S T p st ∧ ∀ b, Cache.path d i = .ok (.ok b) → p = b
  | .readlink i, .readlink t => ∃ b t', Cache.path d i = .ok (.ok b) ∧ T (if b = [] then [0x2f] else b) t' ∧ t = t'.takeWhile (· != 0)
  | .readdir dir _ _, .buf l _ => ∀ b, Cache.path d dir = .ok (.ok b) → ∀ e ∈ l, e.name ≠ [0x2e] → e.name ≠ [0x2e, 0x2e] → From S T (b ++ 0x2f :: e.name) e.stat
  | .readdirplus dir _ _, .bufPlus l _ => ∀ b, Cache.path d dir = .ok (.ok b) → ∀ e ∈ l, e.name ≠ [0x2e] → e.name ≠ [0x2e, 0x2e] → From S T (b ++ 0x2f :: e.name) e.stat
  | _, _ => True

theorem kept_orig : Kept (fun _ rq B => rq.named ∧ Said S T B) (Orig S T) where
  root := fun h ok => fun i nd hi hr => absurd (root_only h ok hi) hr
  coll := fun h hc => h.collected hc
  abs := fun h hI hr hd _ hn hQ ho => abs_orig h hI hr hd hQ.1 hn hQ.2 ho

theorem si_empty {s : Tree} {d : DB} (h : Rep s d) (ok : s.OK) (wf : s.WF) : SI s d Refs.empty :=
  ⟨h, ok, wf, fun i hi => (by cases hi), fun i hi => absurd hi (by simp [Refs.empty]), Refs.empty_ok⟩

theorem orig_entries {s : Tree} {d : DB} (h : Rep s d) (ok : s.OK) (wf : s.WF) (ho : Orig S T s) {dir off : Ino} (hd : dir < W64) {l e0 b0} (hs : Stream d dir off l e0 b0)
    {b : Bytes} (hb : Cache.path d dir = .ok (.ok b)) {e : DEnt} (he : e ∈ l.map Ent.dent) (hd1 : e.name ≠ [0x2e]) (hd2 : e.name ≠ [0x2e, 0x2e]) :
    From S T (b ++ 0x2f :: e.name) e.stat := by
  obtain ⟨cs, hcs, rfl⟩ := h.path_iff ok hd hb
  obtain ⟨⟨i, m, a⟩, hx, rfl⟩ := List.mem_map.mp he
  rcases hs.kid (si_empty h ok wf) hd _ hx with hh | ⟨hh, nd, h1, h2⟩
  · rcases hh with rfl | rfl
    · exact absurd rfl hd1
    · exact absurd rfl hd2
  · obtain ⟨x', h3, h4⟩ := (h.mem_kids ok hd).mp hh
    simp only at h1 h2
    rw [h1] at h3; cases h3
    obtain ⟨es, -, -, g3, g4⟩ := ho i nd h1 (OK.loc_ne_root ok h1 h4)
    have hname : cstr m = m := cstr_eq (ok.loc i nd dir m h1 h4).2.2.2.1
    show From S T (pathStr cs ++ 0x2f :: cstr m) (osStat i a)
    rw [hname, pathStr_snoc', g3 _ (.child ⟨nd, h1, h4⟩ hcs), ← h2]
    exact g4.from_ i

theorem path_linked {s : Tree} {d : DB} (h : Rep s d) (ok : s.OK) {i : Ino} (hi : i < W64) {b : Bytes} (hb : Cache.path d i = .ok (.ok b)) : Linked s i := by
  obtain ⟨cs, hcs, -⟩ := h.path_iff ok hi hb
  cases hcs with
  | root => exact .inl rfl
  | child h => exact .inr ⟨_, _, h⟩

theorem saw_shown {d d' : DB} {q : Done} (h : Saw (Orig S T) d d' q) (hB : Said S T q.B) : Shown S T d q.rq q.rep := by
  obtain ⟨rq, B, v, rep⟩ := q
  simp only at hB ⊢
  cases h with
  | @wrote s r s' r' hr k1 ho hin hon hnx hnx2 k3 k4 =>
    simp only at hr hin hon k4
    cases k4 with
    | @lkPut _ _ cs sr i _ _ h1 h2 h3 =>
      refine ⟨_, k1.rep.path_found k1.ok h1, ?_⟩
      rw [pathStr_snoc']
      exact ⟨sr, hB.lstat _ _ _ h2, .inl (shows_osStat i sr sr.size)⟩
    | @lkHit _ _ cs i nd h1 h2 h3 h4 =>
      refine ⟨_, k1.rep.path_found k1.ok h1, ?_⟩
      rw [pathStr_snoc']
      have hi : i ≠ ROOT := OK.loc_ne_root k1.ok h3 h4
      obtain ⟨es, -, -, g3, g4⟩ := ho i nd h3 hi
      rw [g3 _ (.child ⟨nd, h3, h4⟩ h1)]
      exact g4.from_ i
    | @rlPut _ cs dest nd h1 h2 h3 h4 => exact ⟨_, dest, k1.rep.path_found k1.ok h1, hB.readlink _ _ h2, rfl⟩
    | @rlOther _ cs dest nd h1 h2 => exact ⟨_, dest, k1.rep.path_found k1.ok h1, hB.readlink _ _ h2, rfl⟩
    | @rlHit i cs nd t h1 h2 h3 h4 =>
      refine ⟨_, t, k1.rep.path_found k1.ok h1, ?_, rfl⟩
      have hi : i ≠ ROOT := by
        rintro rfl
        have := k1.ok.target _ nd t h3 h4
        obtain ⟨x, h5, h6, -⟩ := k1.ok.root
        rw [h5] at h3; cases h3; rw [h6] at this; cases this
      obtain ⟨es, g1, -, g3, g4⟩ := ho i nd h3 hi
      have := g3 _ h1; subst this
      have := g4.2 t h4
      rw [if_neg]
      · exact this
      · intro hx
        cases cs with
        | nil => exact g1 rfl
        | cons c cs => simp [pathStr] at hx
    | _ => first | trivial | cases hr
  | @read s r st s1 hr hrep ok wf ho hin hret hcnt hh hsent hf _ =>
    simp only at hr hin hh hsent
    cases rq with
    | lookup => cases hr
    | readlink => cases hr
    | opendir => cases hr
    | forget => cases rep <;> trivial
    | forgetMulti => cases rep <;> trivial
    | releasedir => cases rep <;> trivial
    | other => cases rep <;> trivial
    | getattr i =>
      cases rep with
      | attr a =>
        intro hi
        simp only [handle, FS.getattr] at hh
        rw [hrep.getattr ok hin] at hh
        cases hn : s.nodes i with
        | none => rw [hn] at hh; cases hh; cases hsent
        | some nd =>
          rw [hn] at hh
          cases hh; cases hsent
          obtain ⟨es, -, -, g3, g4⟩ := ho i nd hn hi
          refine ⟨rfl, pathStr es, g4.from_ i, fun b hb => ?_⟩
          obtain ⟨cs, hcs, rfl⟩ := hrep.path_iff ok hin hb
          rw [g3 cs hcs]
      | _ => trivial
    | readdir dir size off =>
      cases rep with
      | buf l n =>
        intro b hb e he hd1 hd2
        obtain ⟨L, e0, b0, hs, hl, -, hlk, -⟩ := stream_exists (si_empty hrep ok wf) (dir := dir) (c := off) hin.1
        obtain ⟨rfl, rfl⟩ := hlk (path_linked hrep ok hin.1 hb)
        refine orig_entries hrep ok wf ho hin.1 hs hb ?_ hd1 hd2
        simp only [handle] at hh
        rw [readdir_page (st := { disk := d, refs := r }) ⟨rfl, rfl⟩ hs hl] at hh
        cases hh
        simp only [reply_fresh, done, List.cons.injEq, and_true] at hsent
        split at hsent
        · cases hsent
        · cases hsent; exact fitFrom_mem he
      | _ => trivial
    | readdirplus dir size off =>
      cases rep with
      | bufPlus l n =>
        intro b hb e he hd1 hd2
        obtain ⟨L, e0, b0, hs, hl, -⟩ := stream_exists (si_empty hrep ok wf) (dir := dir) (c := off) hin.1
        have hlen : ∀ i, (r i).nrefs + L.length < W64 := fun i => by have := hcnt i; omega
        have sub : ∀ {x : DEnt} {A : List Ent}, (∀ y ∈ A, y ∈ lockable r L) → x ∈ A.map Ent.dent → x ∈ L.map Ent.dent := by
          intro x A hA hx
          obtain ⟨y, hy, rfl⟩ := List.mem_map.mp hx
          exact List.mem_map.mpr ⟨y, (lockable_mem (hA y hy)).1, rfl⟩
        refine orig_entries hrep ok wf ho hin.1 hs hb ?_ hd1 hd2
        simp only [handle] at hh
        rcases readdirplus_stale (r := r) hs hl hlen (size := size) with ⟨-, -, g⟩ | ⟨-, g⟩ | ⟨-, P, x, Q, g0, -, g⟩
        · rw [g] at hh; cases hh
          simp only [done, List.cons.injEq, and_true] at hsent
          split at hsent
          · cases hsent
          · cases hsent; exact sub (fun _ h => h) he
        · rw [g] at hh; cases hh; cases hsent; cases he
        · rw [g] at hh; cases hh; cases hsent
          exact sub (fun y hy => by rw [g0]; exact List.mem_append_left _ hy) he
      | _ => trivial

/-- C77: with several threads, whatever the interleaving, attributes and link targets which the replies
show come from the backend. `ds` are the databases after 0, 1, 2, ... requests have ended. -/
theorem C77_shown {m : MSys} (h : MReachQ (fun rq B => rq.named ∧ Said S T B) m) :
    ∃ d0 r0 threads ds R, Steps (MSys.start d0 r0 threads) m ∧ OneByOne d0 r0 ds R m.hist ∧ ds.getLast? = some m.w.disk ∧
      ∀ (k : Nat) (q : Done), m.hist[k]? = some q → ∃ d, seen ds k q = some d ∧ Shown S T d q.rq q.rep := by
  obtain ⟨d0, r0, n, L, H, vs, R, ds, s, hst, hM, -, hP⟩ := h.inv kept_orig
  refine ⟨d0, r0, n, ds, R, hst, hM.one, hM.last, fun k q hk => ?_⟩
  obtain ⟨d, d', h1, -, h2⟩ := hP.saw k q hk
  exact ⟨d, h1, saw_shown h2 (h.all q (List.mem_of_getElem? hk)).2⟩

/-! ### C78 -/

/-- The entry is one of the directory, with its attributes; or it is `.` or `..`. -/
def Listed (d : DB) (dir : Ino) (e : DEnt) : Prop :=
  e.name = [0x2e] ∨ e.name = [0x2e, 0x2e] ∨
  Cache.lookup d dir e.name = .ok (.ok e.stat.ino) ∧ ∃ a, Cache.getattr d e.stat.ino = .ok (e.stat.ino, a) ∧ e.stat = osStat e.stat.ino a

/-- Specification of the replies to requests which ask the backend: `B` is the backend as the request
found it, `d` the databases when the request ended, `d'` those after it. -/
def Right (B : Backend) (d d' : DB) : Req → Reply → Prop
  | .lookup p n, rep =>
    ((∃ e, Cache.path d p = .ok (.error e)) → rep = .err ENOENT) ∧
    ∀ b, Cache.path d p = .ok (.ok b) →
      -- connected, and the name exists: it is stored and shown
      (∀ sr, B.lstat 0 (b ++ 0x2f :: n) = .ok sr → if GoodName n
        then ∃ i, rep = .entry (osStat i (fromBackend sr)) ∧ Cache.path d' p = .ok (.ok b) ∧ Cache.lookup d' p n = .ok (.ok i) ∧ Cache.getattr d' i = .ok (i, fromBackend sr)
        else rep = .err (if 503 < n.length then ENAMETOOLONG else EINVAL)) ∧
      -- not connected: the cache is asked; absence is only claimed where the directory was listed
      (B.lstat 0 (b ++ 0x2f :: n) = .error ENOTCONN →
        (∀ i, Cache.lookup d p n = .ok (.ok i) → ∃ a, Cache.getattr d i = .ok (i, a) ∧ rep = .entry (osStat i a)) ∧
        ((∀ i, Cache.lookup d p n ≠ .ok (.ok i)) → rep = .err (if 503 < n.length then ENAMETOOLONG else if testFlag d p SYNCED = .ok true then ENOENT else EIO))) ∧
      -- any other error is passed on, and the name is forgotten
      (∀ e, B.lstat 0 (b ++ 0x2f :: n) = .error e → e ≠ ENOTCONN → rep = .err e ∧ ∀ i, Cache.lookup d' p n ≠ .ok (.ok i))
  | .readlink i, rep =>
    ((∃ e, Cache.path d i = .ok (.error e)) → rep = .err ENOENT) ∧
    ∀ b, Cache.path d i = .ok (.ok b) →
      (∀ t, B.readlink (backendPath b) = .ok t → rep = .readlink (t.takeWhile (· != 0)) ∧
        ∀ a, Cache.getattr d i = .ok (i, a) → fmt a.mode = S_IFLNK → Cache.readlink d' i = .ok t ∧ Cache.getattr d' i = .ok (i, { a with size := t.length })) ∧
      (B.readlink (backendPath b) = .error ENOTCONN →
        (∀ t, Cache.readlink d i = .ok t → rep = .readlink (t.takeWhile (· != 0))) ∧ ∀ e, Cache.readlink d i = .error e → rep = .err e) ∧
      (∀ e, B.readlink (backendPath b) = .error e → e ≠ ENOTCONN → rep = .err e ∧ (i ≠ ROOT → Cache.path d' i = .ok (.error ENOENT)))
  | .opendir i, rep =>
    ((∃ e, Cache.path d i = .ok (.error e)) → rep = .err ENOENT) ∧
    ∀ b, Cache.path d i = .ok (.ok b) →
      (∀ names e, B.opendir (backendPath b) = .ok (names, e) → rep = .opened ∧ testFlag d' i SYNCED = .ok true ∧
        (∀ n j, Cache.lookup d' i n = .ok (.ok j) → GoodName n ∧ ∃ sr, Seen B (backendPath b) names n sr ∧ Cache.getattr d' j = .ok (j, fromBackend sr)) ∧
        ∀ n sr, GoodName n → Seen B (backendPath b) names n sr → ∃ j, Cache.lookup d' i n = .ok (.ok j)) ∧
      (B.opendir (backendPath b) = .error ENOTCONN → rep = .opened) ∧
      (∀ e, B.opendir (backendPath b) = .error e → e ≠ ENOTCONN → rep = .err e)
  | .getattr i, rep => rep = match Cache.getattr d i with | .ok (_, a) => .attr (osStat i a) | .error e => .err e
  | .readdir dir _ _, rep => ∀ b, Cache.path d dir = .ok (.ok b) → (∃ l n, rep = .buf l n ∧ ∀ e ∈ l, Listed d dir e) ∨
      (rep = .err EIO ∧ testFlag d dir SYNCED ≠ .ok true)
  | .readdirplus dir _ _, rep => ∀ b, Cache.path d dir = .ok (.ok b) → ∃ l n, rep = .bufPlus l n ∧ ∀ e ∈ l, Listed d dir e
  | .forget _ _, rep | .forgetMulti _, rep | .releasedir _, rep => rep = .none
  | .other, rep => rep = .err ENOSYS

section
variable {B : Backend} {d d' : DB} {s s' : Tree} {r r' : Refs}

theorem no_path (h : SI s d r) {i : Ino} (hi : i < W64) {cs} (hcs : s.PathTo i cs) (P : Prop) : (∃ e, Cache.path d i = .ok (.error e)) → P := by
  rintro ⟨e, he⟩
  rw [h.rep.path_found h.ok hcs] at he; cases he

theorem path_eq (h : SI s d r) {i : Ino} {cs} (hcs : s.PathTo i cs) {b : Bytes} (hb : Cache.path d i = .ok (.ok b)) : b = pathStr cs := by
  rw [h.rep.path_found h.ok hcs] at hb; cases hb; rfl

theorem gone_right (h : SI s d r) {i : Ino} (hi : i < W64) (hc : ¬ s.Conn i) {P : Bytes → Prop} : ∀ b, Cache.path d i = .ok (.ok b) → P b := by
  intro b hb
  rw [h.rep.path_missing h.ok h.wf hi hc] at hb; cases hb

theorem At.good (ok : s.OK) {p n i} (h : s.At p n i) : GoodName n := by
  obtain ⟨nd, h1, h2⟩ := h
  have := ok.loc i nd p n h1 h2
  exact this.2.2

theorem abs_right {rq rep} (h : Abs B d s r rq rep s' r') (k1 : SI s d r) (k3 : SI s' d' r') (hr : rq.inRange) (hd : rq.onDir d) (hn : s.next + 1 < W64)
    (hro : readOnly rq = false) : Right B d d' rq rep := by
  have dir : ∀ {p cs}, p < W64 → s.PathTo p cs → (∀ x, Cache.getattr d p = .ok x → fmt x.2.mode = S_IFDIR) → s.IsDir p := by
    intro p cs hb hp hd
    obtain ⟨nd, hnd⟩ := conn_exists k1.ok ⟨cs, hp⟩
    exact isDir_of k1 hb hd hnd
  cases h with
  | lkGone hc => exact ⟨fun _ => rfl, gone_right k1 hr hc⟩
  | @lkBad p n cs sr e _ _ h1 h2 h3 =>
    refine ⟨no_path k1 hr h1 _, fun b hb => ?_⟩
    obtain rfl := path_eq k1 h1 hb
    rw [pathStr_snoc', h2]
    refine ⟨fun sr' _ => ?_, fun h => (by cases h), fun e h => (by cases h)⟩
    generalize hres : (Except.error e : Res Ino) = res at h3
    cases h3 with
    | bad hg => cases hres; rw [if_neg hg]
    | same => cases hres
    | new => cases hres
  | @lkPut p n cs sr i _ _ h1 h2 h3 =>
    refine ⟨no_path k1 hr h1 _, fun b hb => ?_⟩
    obtain rfl := path_eq k1 h1 hb
    rw [pathStr_snoc', h2]
    refine ⟨fun sr' h => ?_, fun h => (by cases h), fun e h => (by cases h)⟩
    cases h
    obtain ⟨g1, g2, nd, g3, g4⟩ := h3.found k1.ok h1 (dir hr h1 hd) hn
    rw [if_pos (At.good k3.ok g2)]
    exact ⟨i, rfl, k3.rep.path_found k3.ok g1, k3.rep.lookup_found k3.ok g2, by rw [← g4]; exact getattr_some k3 g3⟩
  | @lkHit p n cs i nd h1 h2 h3 h4 =>
    refine ⟨no_path k1 hr h1 _, fun b hb => ?_⟩
    obtain rfl := path_eq k1 h1 hb
    rw [pathStr_snoc', h2]
    refine ⟨fun sr' h => (by cases h), fun _ => ⟨fun j hj => ?_, fun hj => ?_⟩, fun e h he => (by cases h; exact absurd rfl he)⟩
    · rw [k1.rep.lookup_found k1.ok ⟨nd, h3, h4⟩] at hj; cases hj
      exact ⟨nd.attr, getattr_some k1 h3, rfl⟩
    · exact absurd (k1.rep.lookup_found k1.ok ⟨nd, h3, h4⟩) (hj i)
  | @lkMiss p n cs h1 h2 h3 =>
    refine ⟨no_path k1 hr h1 _, fun b hb => ?_⟩
    obtain rfl := path_eq k1 h1 hb
    rw [pathStr_snoc', h2]
    refine ⟨fun sr' h => (by cases h), fun _ => ⟨fun j hj => ?_, fun hj => rfl⟩, fun e h he => (by cases h; exact absurd rfl he)⟩
    exact absurd ((k1.rep.lookup_iff k1.ok hr).mp hj) (h3 j)
  | @lkErr p n cs be i _ _ h1 h2 h3 h4 h5 =>
    refine ⟨no_path k1 hr h1 _, fun b hb => ?_⟩
    obtain rfl := path_eq k1 h1 hb
    rw [pathStr_snoc', h2]
    refine ⟨fun sr' h => (by cases h), fun h => (by cases h; exact absurd rfl h3), fun e h he => ?_⟩
    cases h
    refine ⟨rfl, fun j hj => ?_⟩
    obtain ⟨g1, g2⟩ := at_orphan.mp ((at_collected h5.coll).mp ((k3.rep.lookup_iff k3.ok hr).mp hj)).1
    exact g2 (At.unique k1.ok g1 h4)
  | @lkErrMiss p n cs be h1 h2 h3 h4 =>
    refine ⟨no_path k1 hr h1 _, fun b hb => ?_⟩
    obtain rfl := path_eq k1 h1 hb
    rw [pathStr_snoc', h2]
    refine ⟨fun sr' h => (by cases h), fun h => (by cases h; exact absurd rfl h3), fun e h he => ?_⟩
    cases h
    exact ⟨rfl, fun j hj => h4 j ((k3.rep.lookup_iff k3.ok hr).mp hj)⟩
  | rlGone hc => exact ⟨fun _ => rfl, gone_right k1 hr hc⟩
  | @rlPut i cs dest nd h1 h2 h3 h4 =>
    refine ⟨no_path k1 hr h1 _, fun b hb => ?_⟩
    obtain rfl := path_eq k1 h1 hb
    rw [h2]
    refine ⟨fun t h => ?_, fun h => (by cases h), fun e h => (by cases h)⟩
    cases h
    refine ⟨rfl, fun a ha _ => ⟨?_, ?_⟩⟩
    · rw [k3.rep.readlink k3.ok hr, Tree.set_self]
    · rw [getattr_some k1 h3] at ha
      have := congrArg Prod.snd (Except.ok.inj ha)
      simp only at this
      rw [getattr_some k3 Tree.set_self, this]
  | @rlOther i cs dest nd h1 h2 h3 h4 =>
    refine ⟨no_path k1 hr h1 _, fun b hb => ?_⟩
    obtain rfl := path_eq k1 h1 hb
    rw [h2]
    refine ⟨fun t h => ?_, fun h => (by cases h), fun e h => (by cases h)⟩
    cases h
    refine ⟨rfl, fun a ha hm => ?_⟩
    rw [getattr_some k1 h3] at ha; cases ha
    exact absurd hm h4
  | @rlHit i cs nd t h1 h2 h3 h4 =>
    refine ⟨no_path k1 hr h1 _, fun b hb => ?_⟩
    obtain rfl := path_eq k1 h1 hb
    rw [h2]
    refine ⟨fun t h => (by cases h), fun _ => ?_, fun e h he => (by cases h; exact absurd rfl he)⟩
    rw [k1.rep.readlink k1.ok hr, h3]
    simp only [h4]
    exact ⟨fun t h => (by cases h; rfl), fun e h => (by cases h)⟩
  | @rlMiss i cs nd h1 h2 h3 h4 =>
    refine ⟨no_path k1 hr h1 _, fun b hb => ?_⟩
    obtain rfl := path_eq k1 h1 hb
    rw [h2]
    refine ⟨fun t h => (by cases h), fun _ => ?_, fun e h he => (by cases h; exact absurd rfl he)⟩
    rw [k1.rep.readlink k1.ok hr, h3]
    simp only [h4]
    exact ⟨fun t h => (by cases h), fun e h => (by cases h; rfl)⟩
  | @rlErr i cs be _ _ h1 h2 h3 h4 h5 =>
    refine ⟨no_path k1 hr h1 _, fun b hb => ?_⟩
    obtain rfl := path_eq k1 h1 hb
    rw [h2]
    refine ⟨fun t h => (by cases h), fun h => (by cases h; exact absurd rfl h3), fun e h he => ?_⟩
    cases h
    refine ⟨rfl, fun hi => ?_⟩
    apply k3.rep.path_missing k3.ok k3.wf hr
    rintro ⟨ds, h⟩
    cases h with
    | root => exact hi rfl
    | child ha => exact (at_orphan.mp ((at_collected h5.coll).mp ha).1).2 rfl
  | @rlErrRoot be h2 h3 =>
    refine ⟨no_path k1 hr .root _, fun b hb => ?_⟩
    obtain rfl := path_eq k1 .root hb
    have h2' : B.readlink (backendPath (pathStr [])) = .error be := h2
    rw [h2']
    exact ⟨fun t h => (by cases h), fun h => (by cases h; exact absurd rfl h3), fun e h he => (by cases h; exact ⟨rfl, fun hi => absurd rfl hi⟩)⟩
  | odGone hc => exact ⟨fun _ => rfl, gone_right k1 hr hc⟩
  | @odOff i cs h1 h2 =>
    refine ⟨no_path k1 hr h1 _, fun b hb => ?_⟩
    obtain rfl := path_eq k1 h1 hb
    rw [h2]
    exact ⟨fun _ _ h => (by cases h), fun _ => rfl, fun e h he => (by cases h; exact absurd rfl he)⟩
  | @odErr i cs be h1 h2 h3 =>
    refine ⟨no_path k1 hr h1 _, fun b hb => ?_⟩
    obtain rfl := path_eq k1 h1 hb
    rw [h2]
    exact ⟨fun _ _ h => (by cases h), fun h => (by cases h; exact absurd rfl h3), fun e h he => (by cases h; rfl)⟩
  | @odSync i cs names e _ _ h1 h2 h3 =>
    refine ⟨no_path k1 hr h1 _, fun b hb => ?_⟩
    obtain rfl := path_eq k1 h1 hb
    rw [h2]
    refine ⟨fun names' e' h => ?_, fun h => (by cases h), fun e h he => (by cases h)⟩
    cases h
    obtain ⟨g1, g2, ⟨nd, g3, g4⟩, -⟩ := h3.entries ⟨cs, h1⟩
    refine ⟨rfl, ?_, ?_, ?_⟩
    · rw [k3.rep.testFlag k3.ok hr, g3]; simp only [g4]
    · intro m j hj
      obtain ⟨x, k5, k4⟩ := (k3.rep.lookup_iff k3.ok hr).mp hj
      obtain ⟨k6, sr, k7, k8⟩ := g1 m j x k5 k4
      exact ⟨k6, sr, k7, by rw [getattr_some k3 k5, k8]⟩
    · intro m sr hm hsn
      obtain ⟨j, hj⟩ := g2 m sr hm hsn
      exact ⟨j, k3.rep.lookup_found k3.ok hj⟩
  | _ => first | trivial | cases hro

end

theorem stream_listed {s : Tree} {d : DB} (h : Rep s d) (ok : s.OK) (wf : s.WF) {dir off : Ino} (hd : dir < W64) {l e0 b0} (hs : Stream d dir off l e0 b0)
    {e : DEnt} (he : e ∈ l.map Ent.dent) : Listed d dir e := by
  obtain ⟨⟨i, m, a⟩, hx, rfl⟩ := List.mem_map.mp he
  rcases hs.kid (si_empty h ok wf) hd _ hx with hh | ⟨hh, nd, h1, h2⟩
  · rcases hh with rfl | rfl
    · exact .inl rfl
    · exact .inr (.inl rfl)
  · obtain ⟨x', h3, h4⟩ := (h.mem_kids ok hd).mp hh
    simp only at h1 h2
    rw [h1] at h3; cases h3
    have hname : cstr m = m := cstr_eq (ok.loc i nd dir m h1 h4).2.2.2.1
    refine .inr (.inr ⟨?_, a, ?_, rfl⟩)
    · show Cache.lookup d dir (cstr m) = .ok (.ok i)
      rw [hname]; exact h.lookup_found ok ⟨nd, h1, h4⟩
    · show Cache.getattr d i = .ok (i, a)
      rw [← h2]; exact getattr_some (si_empty h ok wf) h1

theorem saw_right {P : Tree → Prop} {d d' : DB} {q : Done} (h : Saw P d d' q) : Right q.B d d' q.rq q.rep := by
  obtain ⟨rq, B, v, rep⟩ := q
  cases h with
  | @wrote s r s' r' hr k1 ho hin hon hnx hnx2 k3 k4 => exact abs_right k4 k1 k3 hin hon hnx hr
  | @read s r st s1 hr hrep ok wf ho hin hret hcnt hh hsent hf _ =>
    simp only at hr hin hh hsent
    cases rq with
    | lookup => cases hr
    | readlink => cases hr
    | opendir => cases hr
    | getattr i =>
      show rep = _
      simp only [handle, FS.getattr] at hh
      rw [hrep.getattr ok hin] at hh ⊢
      cases hn : s.nodes i with
      | none => rw [hn] at hh; cases hh; cases hsent; rfl
      | some nd => rw [hn] at hh; cases hh; cases hsent; rfl
    | readdir dir size off =>
      intro b hb
      obtain ⟨L, e0, b0, hs, hl, -, hlk, -⟩ := stream_exists (si_empty hrep ok wf) (dir := dir) (c := off) hin.1
      obtain ⟨rfl, rfl⟩ := hlk (path_linked hrep ok hin.1 hb)
      simp only [handle] at hh
      rw [readdir_page (st := { disk := d, refs := r }) ⟨rfl, rfl⟩ hs hl] at hh
      cases hh
      simp only [reply_fresh, done, List.cons.injEq, and_true] at hsent
      split at hsent
      · rename_i hc; exact .inr ⟨hsent.symm, hc.2.2⟩
      · exact .inl ⟨_, _, hsent.symm, fun e he => stream_listed hrep ok wf hin.1 hs (fitFrom_mem he)⟩
    | readdirplus dir size off =>
      intro b hb
      obtain ⟨L, e0, b0, hs, hl, -, hlk, -⟩ := stream_exists (si_empty hrep ok wf) (dir := dir) (c := off) hin.1
      obtain ⟨rfl, rfl⟩ := hlk (path_linked hrep ok hin.1 hb)
      have hlen : ∀ i, (r i).nrefs + L.length < W64 := fun i => by have := hcnt i; omega
      have sub : ∀ {x : DEnt} {A : List Ent}, (∀ y ∈ A, y ∈ lockable r L) → x ∈ A.map Ent.dent → x ∈ L.map Ent.dent := by
        intro x A hA hx
        obtain ⟨y, hy, rfl⟩ := List.mem_map.mp hx
        exact List.mem_map.mpr ⟨y, (lockable_mem (hA y hy)).1, rfl⟩
      simp only [handle] at hh
      rcases readdirplus_stale (r := r) hs hl hlen (size := size) with ⟨-, -, g⟩ | ⟨-, g⟩ | ⟨-, P, x, Q, g0, -, g⟩
      · rw [g] at hh; cases hh
        simp only [done, ne_eq, not_true, if_false, List.cons.injEq, and_true] at hsent
        exact ⟨_, _, hsent.symm, fun e he => stream_listed hrep ok wf hin.1 hs (sub (fun _ h => h) he)⟩
      · rw [g] at hh; cases hh; cases hsent
        exact ⟨_, _, rfl, fun e he => by cases he⟩
      · rw [g] at hh; cases hh; cases hsent
        exact ⟨_, _, rfl, fun e he => stream_listed hrep ok wf hin.1 hs (sub (fun y hy => by rw [g0]; exact List.mem_append_left _ hy) he)⟩
    | forget i n =>
      show rep = .none
      have hn : n ≤ (r i).nrefs := by have := hret i; simpa [Req.returned] using this
      obtain ⟨t', h1, -, h2⟩ := release_ok (t := ⟨d, r, none, []⟩) hn
      have hx : handle B { disk := d, refs := r } (.forget i n) = .ok (done d t'.refs .none) := by
        show FS.forget _ _ _ = _
        unfold FS.forget
        have : ({ disk := d, refs := r } : St).txn = ⟨d, r, none, []⟩ := rfl
        rw [this, h1]; rfl
      rw [hx] at hh
      cases hh; cases hsent; rfl
    | forgetMulti l =>
      show rep = .none
      obtain ⟨t', h1, -, h2⟩ := forgetLoop_spec l ⟨d, r, none, []⟩ hret
      have hx : handle B { disk := d, refs := r } (.forgetMulti l) = .ok (done d t'.refs .none) := by
        show FS.forgetMulti _ _ = _
        unfold FS.forgetMulti
        have : ({ disk := d, refs := r } : St).txn = ⟨d, r, none, []⟩ := rfl
        rw [this, h1]; rfl
      rw [hx] at hh
      cases hh; cases hsent; rfl
    | releasedir i => cases hr
    | other => cases hr

theorem kept_true : Kept (fun _ _ _ => True) (fun _ => True) := ⟨fun _ _ => trivial, fun _ _ => trivial, fun _ _ _ _ _ _ _ _ => trivial⟩

theorem MReach.any {m : MSys} (h : MReach m) : MReachQ (fun _ _ => True) m := by
  induction h with
  | mount h1 h2 => exact .mount h1 h2
  | remount _ h1 h2 ih => exact .remount ih h1 h2
  | step _ h1 h2 h3 ih => exact .step ih h1 h2 h3 (fun _ _ => trivial)

/-- C78: with several threads, whatever the interleaving, requests are answered from the databases
which they saw and from the backend as specified. A request which may write (all but `getattr`
here) saw the databases as they were when it ended, after exactly the requests which ended
before it; `getattr` those when it began. -/
theorem C78_right {m : MSys} (h : MReach m) :
    ∃ d0 r0 threads ds R, Steps (MSys.start d0 r0 threads) m ∧ OneByOne d0 r0 ds R m.hist ∧ ds.getLast? = some m.w.disk ∧
      ∀ (k : Nat) (q : Done), m.hist[k]? = some q → ∃ d d', (if readOnly q.rq then ds[q.ver]? else ds[k]?) = some d ∧ ds[k + 1]? = some d' ∧
        Right q.B d d' q.rq q.rep := by
  obtain ⟨d0, r0, n, L, H, vs, R, ds, s, hst, hM, -, hP⟩ := h.any.inv kept_true
  refine ⟨d0, r0, n, ds, R, hst, hM.one, hM.last, fun k q hk => ?_⟩
  obtain ⟨d, d', h1, h2, h3⟩ := hP.saw k q hk
  exact ⟨d, d', h1, h2, saw_right h3⟩

/-! ### C79 -/

/-- Requests which may not write leave the databases. -/
theorem OneByOne.ro_same {d0 : DB} {r0 : Refs} {ds R H} (h : OneByOne d0 r0 ds R H) {k : Nat} {q : Done} (hk : H[k]? = some q) (hr : readOnly q.rq = true) :
    ds[k + 1]? = ds[k]? := by
  induction h with
  | start => simp at hk
  | @ro ds r H q' d d1 st h1 h2 h3 h4 h5 h6 h7 ih =>
    have hlen := h1.length
    by_cases hlt : k < H.length
    · rw [List.getElem?_append_left hlt] at hk
      rw [List.getElem?_append_left (by omega), List.getElem?_append_left (by omega)]; exact ih hk
    · have : k = H.length := by
        have := (List.getElem?_eq_some_iff.mp hk).1
        simp at this; omega
      subst this
      rw [List.getLast?_eq_getElem?, hlen, Nat.add_sub_cancel] at h4
      have e1 : (ds ++ [d1])[H.length + 1]? = some d1 := by rw [← hlen]; exact List.getElem?_concat_length
      have e2 : (ds ++ [d1])[H.length]? = some d1 := by rw [List.getElem?_append_left (by omega)]; exact h4
      rw [e1, e2]
  | @rw ds r H q' d st h1 h2 h3 h4 h5 h6 ih =>
    have hlen := h1.length
    by_cases hlt : k < H.length
    · rw [List.getElem?_append_left hlt] at hk
      rw [List.getElem?_append_left (by omega), List.getElem?_append_left (by omega)]; exact ih hk
    · have : k = H.length := by
        have := (List.getElem?_eq_some_iff.mp hk).1
        simp at this; omega
      subst this
      simp at hk; subst hk
      rw [hr] at h2; cases h2

theorem stay_chain {d0 : DB} {r0 : Refs} {ds R hist} (hone : OneByOne d0 r0 ds R hist) (hP : PInv (fun _ => True) ds hist) {fs : List Bytes} {A : List Bytes → Attrs → Prop}
    (ht : Typed A) (hne : ∀ c ∈ fs, c ≠ []) {k : Nat} {d : DB} (hk : ds[k]? = some d) {s : Tree} (hs : Rep s d) (ok : s.OK) (hh : Holds A fs s) :
    ∀ (k' : Nat) (d' : DB), k ≤ k' → ds[k']? = some d' →
      (∀ (j : Nat) (q : Done) (e : DB), k ≤ j → j < k' → hist[j]? = some q → ds[j]? = some e → Confirms q.B A fs ∧ q.rq.onLink e) →
      ∃ s', Rep s' d' ∧ s'.OK ∧ Stay A fs s s' := by
  intro k'
  induction k' with
  | zero =>
    intro d' hkk hd' _
    obtain rfl : k = 0 := by omega
    rw [hk] at hd'; cases hd'
    exact ⟨s, hs, ok, .refl hh⟩
  | succ k' ih =>
    intro d' hkk hd' hq
    by_cases he : k = k' + 1
    · subst he
      rw [hk] at hd'; cases hd'
      exact ⟨s, hs, ok, .refl hh⟩
    · have hlen := hone.length
      have hlt : k' + 1 < ds.length := (List.getElem?_eq_some_iff.mp hd').1
      obtain ⟨e, hde⟩ : ∃ e, ds[k']? = some e := ⟨_, List.getElem?_eq_getElem (by omega)⟩
      obtain ⟨q, hdq⟩ : ∃ q, hist[k']? = some q := ⟨_, List.getElem?_eq_getElem (by omega)⟩
      obtain ⟨s1, g1, g2, g3⟩ := ih e (by omega) hde (fun j q e h1 h2 => hq j q e h1 (by omega))
      cases hr : readOnly q.rq with
      | true =>
        have := hone.ro_same hdq hr
        rw [hd', hde] at this; cases this
        exact ⟨s1, g1, g2, g3⟩
      | false =>
        obtain ⟨e', d2, f1, f2, f3⟩ := hP.saw k' q hdq
        unfold seen at f1
        rw [hr, if_neg (by simp), hde] at f1; cases f1
        rw [hd'] at f2; cases f2
        obtain ⟨c1, c2⟩ := hq k' q e (by omega) (by omega) hdq hde
        cases f3 with
        | @wrote s2 r2 s3 r3 _ k1 _ hin hon hnx hnx2 k3 k4 =>
          obtain rfl := Rep.inj k1.rep k1.ok g1 g2
          exact ⟨s3, k3.rep, k3.ok, g3.trans (abs_stay k4 k1 k3.ok hin hon c2 hnx hnx2 c1 hne ht g3.2)⟩
        | read h1 => rw [hr] at h1; cases h1

/-- `Between` for several threads: all requests number `k`, ..., `k' - 1` keep the entry with path `fs` and attributes `P`. -/
def Keeps (hist : List Done) (ds : List DB) (fs : List Bytes) (P : Attrs → Prop) (k k' : Nat) : Prop :=
  ∀ (l : Nat) (q : Done) (e : DB), k ≤ l → l < k' → hist[l]? = some q → ds[l]? = some e → Confirms q.B (along fs P) fs ∧ q.rq.onLink e

section
variable {m : MSys} {d0 : DB} {r0 : Refs} {ds : List DB} {R R' : Refs} {s : Tree}

theorem kept_at (hone : OneByOne d0 r0 ds R' m.hist) (hP : PInv (fun _ => True) ds m.hist) (hR : RInv m R ds s)
    {p : Ino} {n : Bytes} {cs : List Bytes} {i j : Ino} {a : Attrs} {P : Attrs → Prop} {k k' : Nat} {d d' : DB} (hb : p < W64) (hcs : ∀ c ∈ cs, Component c) (hn : n ≠ [])
    (hPt : ∀ a b, P a → P b → fmt a.mode = fmt b.mode) (hkk : k ≤ k') (hk : ds[k]? = some d) (hk' : ds[k']? = some d')
    (hq : Keeps m.hist ds (cs ++ [n]) P k k')
    (hp : Cache.path d p = .ok (.ok (pathStr cs))) (hi : Cache.lookup d p n = .ok (.ok i)) (ha : Cache.getattr d i = .ok (j, a)) (hPa : P a) :
    Cache.path d' p = .ok (.ok (pathStr cs)) ∧ Cache.lookup d' p n = .ok (.ok i) ∧ ∃ a', Cache.getattr d' i = .ok (i, a') ∧ P a' := by
  obtain ⟨⟨s0, hold⟩, -⟩ := hR.old d (List.mem_of_getElem? hk)
  have k1 := si_empty hold.rep hold.ok hold.wf
  have hpt := path_comps k1 hb hcs hp
  obtain ⟨nd, hnd, hloc⟩ := (k1.rep.lookup_iff k1.ok hb).mp hi
  rw [getattr_some k1 hnd] at ha; cases ha
  have hit : s0.PathTo i (cs ++ [n]) := .child ⟨nd, hnd, hloc⟩ hpt
  have hne : ∀ c ∈ cs ++ [n], c ≠ [] := by
    intro c hc
    rcases List.mem_append.mp hc with hc | hc
    · exact (hcs c hc).1
    · rw [List.mem_singleton.mp hc]; exact hn
  obtain ⟨s', k3, ok', k4⟩ := stay_chain hone hP (typed_along hPt) hne hk hold.rep hold.ok (holds_along k1.ok k1.wf hit hnd hPa) k' d' hkk hk' hq
  obtain ⟨⟨s1, hold'⟩, -⟩ := hR.old d' (List.mem_of_getElem? hk')
  obtain rfl := Rep.inj k3 ok' hold'.rep hold'.ok
  have k3 := si_empty hold'.rep hold'.ok hold'.wf
  have hpt' := k4.1 cs p (List.prefix_append ..) hpt
  have hit' := k4.1 _ i (List.prefix_refl _) hit
  refine ⟨k3.rep.path_found k3.ok hpt', ?_, ?_⟩
  · obtain ⟨q, h1, h2⟩ := hit'.snoc
    have := PathTo.inj k3.ok h1 hpt'; subst this
    exact k3.rep.lookup_found k3.ok h2
  · obtain ⟨nd', hnd'⟩ := conn_exists k3.ok ⟨_, hit'⟩
    refine ⟨nd'.attr, getattr_some k3 hnd', ?_⟩
    have := k4.2.2 _ i nd' (List.prefix_refl _) hit' hnd'
    unfold along at this; rw [if_pos rfl] at this; exact this

end

/-- C79: with several threads, whatever the interleaving: an entry which the cache holds after `k` requests
have ended is still there, with the same inode number and with attributes in `P`, after `k'`
requests, if the backend confirms it (or is not connected) in all requests in between, and links are
only read where there are links. `P` is any property of the attributes which implies the type. -/
theorem C79_kept {m : MSys} (h : MReach m) : ∃ d0 r0 threads ds R, Steps (MSys.start d0 r0 threads) m ∧ OneByOne d0 r0 ds R m.hist ∧ ds.getLast? = some m.w.disk ∧
    ∀ {p : Ino} {n : Bytes} {cs : List Bytes} {i j : Ino} {a : Attrs} {P : Attrs → Prop} {k k' : Nat} {d d' : DB}, p < W64 → (∀ c ∈ cs, Component c) → n ≠ [] →
      (∀ a b, P a → P b → fmt a.mode = fmt b.mode) → k ≤ k' → ds[k]? = some d → ds[k']? = some d' → Keeps m.hist ds (cs ++ [n]) P k k' →
      Cache.path d p = .ok (.ok (pathStr cs)) → Cache.lookup d p n = .ok (.ok i) → Cache.getattr d i = .ok (j, a) → P a →
      Cache.path d' p = .ok (.ok (pathStr cs)) ∧ Cache.lookup d' p n = .ok (.ok i) ∧ ∃ a', Cache.getattr d' i = .ok (i, a') ∧ P a' := by
  obtain ⟨d0, r0, n, L, H, vs, R, ds, s, hst, hM, hR, hP⟩ := h.any.inv kept_true
  exact ⟨d0, r0, n, ds, R, hst, hM.one, hM.last, kept_at hM.one hP hR⟩

/-- C79: what was seen online is served offline, with several threads too: request `k` was a lookup which the
connected backend answered; the requests after it keep the entry with these attributes; then a lookup
of the same name, request `k'`, which is not connected is answered in the same way. -/
theorem C79_offline {m : MSys} (h : MReach m) : ∃ d0 r0 threads ds R, Steps (MSys.start d0 r0 threads) m ∧ OneByOne d0 r0 ds R m.hist ∧ ds.getLast? = some m.w.disk ∧
    ∀ {p : Ino} {n : Bytes} {cs : List Bytes} {k k' : Nat} {q q' : Done} {d : DB} {sr : BStat} {st : OsStat}, p < W64 → (∀ c ∈ cs, Component c) → n ≠ [] → k < k' →
      m.hist[k]? = some q → m.hist[k']? = some q' → q.rq = .lookup p n → q'.rq = .lookup p n → Offline q'.B →
      ds[k]? = some d → Cache.path d p = .ok (.ok (pathStr cs)) → q.B.lstat 0 (pathStr (cs ++ [n])) = .ok sr → q.rep = .entry st →
      Keeps m.hist ds (cs ++ [n]) (· = fromBackend sr) (k + 1) k' → q'.rep = .entry st := by
  obtain ⟨d0, r0, n, L, H, vs, R, ds, s, hst, hM, hR, hP⟩ := h.any.inv kept_true
  refine ⟨d0, r0, n, ds, R, hst, hM.one, hM.last, ?_⟩
  intro p n cs k k' q q' d sr st hb hcs hn hkk hk hk' hq hq' hoff hd hp hB hrep hkeep
  obtain ⟨e, e', h1, h2, h3⟩ := hP.saw k q hk
  obtain ⟨f, f', g1, g2, g3⟩ := hP.saw k' q' hk'
  have hw : seen ds k q = ds[k]? := by unfold seen; rw [hq]; rfl
  have hw' : seen ds k' q' = ds[k']? := by unfold seen; rw [hq']; rfl
  rw [hw, hd] at h1; cases h1
  rw [hw'] at g1
  have r1 := saw_right h3
  have r2 := saw_right g3
  rw [hq, hrep] at r1
  rw [hq'] at r2
  have e1 := (r1.2 _ hp).1 sr (by rw [pathStr_snoc']; exact hB)
  by_cases hg : GoodName n
  · rw [if_pos hg] at e1
    obtain ⟨i, a1, a2, a3, a4⟩ := e1
    obtain ⟨b1, b2, a, b3, rfl⟩ := kept_at hM.one hP hR hb hcs hn (P := (· = fromBackend sr)) (by rintro a b rfl rfl; rfl) hkk h2 g1 hkeep a2 a3 a4 rfl
    obtain ⟨x, c1, c2⟩ := ((r2.2 _ b1).2.1 (hoff.lstat _ _)).1 i b2
    rw [b3] at c1; cases c1
    rw [c2, a1]
  · rw [if_neg hg] at e1; cases e1

/-! ### Examples -/

section
variable {Q : Req → Backend → Prop}

def TState.Asks (Q : Req → Backend → Prop) : TState → Prop
  | .recv rq B => Q rq B
  | .run rq B _ _ => Q rq B
  | .leaving rq B _ _ => Q rq B
  | _ => True

theorem go_asks {m m' : MSys} {k : Nat} (h : m.go k = some m') (ht : ∀ (j : Nat) st, m.th[j]? = some st → st.Asks Q) (hq : ∀ q ∈ m.hist, Q q.rq q.B) :
    (∀ (j : Nat) st, m'.th[j]? = some st → st.Asks Q) ∧ ∀ q ∈ m'.hist, Q q.rq q.B := by
  have set : ∀ {x : TState}, x.Asks Q → ∀ (j : Nat) st, (m.th.set k x)[j]? = some st → st.Asks Q := by
    intro x hx j st hj
    rw [List.getElem?_set] at hj
    split at hj
    · split at hj
      · cases hj; exact hx
      · cases hj
    · exact ht j st hj
  have add : ∀ {q : Done}, Q q.rq q.B → ∀ p ∈ m.hist ++ [q], Q p.rq p.B := by
    intro q h1 p hp
    rw [List.mem_append, List.mem_singleton] at hp
    rcases hp with hp | rfl
    · exact hq p hp
    · exact h1
  cases MSys.go_step h with
  | issue hk => unfold MSys.go at h; rw [hk] at h; cases h
  | direct hk => exact ⟨set trivial, add (ht k _ hk)⟩
  | @begin_ rq B P w' out hk => have h1 : Q rq B := ht k _ hk; exact ⟨set h1, hq⟩
  | @call rq B v o c w' out hk => have h1 : Q rq B := ht k _ hk; exact ⟨set h1, hq⟩
  | commit hk => exact ⟨set trivial, add (ht k _ hk)⟩
  | unlock hk => exact ⟨set trivial, hq⟩
  | answer hk => exact ⟨set trivial, hq⟩
  | @reply rq B v r hk => have h1 : Q rq B := ht k _ hk; exact ⟨set h1, hq⟩
  | leave hk => exact ⟨set trivial, add (ht k _ hk)⟩
  | finish hk => exact ⟨set trivial, hq⟩

def Ev.Asks (Q : Req → Backend → Prop) : Ev → Prop
  | .issue _ t rq => Q rq t.backend
  | .go _ => True

theorem demoMT_reachQ : ∀ {l : List Ev} {m m' : MSys} {cap cap' : Nat}, (∀ a ∈ l, a.Asks Q) → MReachQ Q m → (∀ i, (m.w.refs i).nrefs ≤ cap) →
    (∀ (j : Nat) st, m.th[j]? = some st → st.Asks Q) → demoMT m cap l = some (m', cap') → MReachQ Q m' := by
  intro l
  induction l with
  | nil => intro m m' cap cap' _ h hc ht hd; cases hd; exact h
  | cons a l ih =>
    intro m m' cap cap' hS h hc ht hd
    have hS' : ∀ a ∈ l, a.Asks Q := fun a ha => hS a (List.mem_cons_of_mem _ ha)
    cases a with
    | issue k t rq =>
      simp only [demoMT] at hd
      split at hd
      · rename_i hk
        split at hd
        · rename_i hv
          simp only [Bool.and_eq_true, decide_eq_true_eq] at hv
          obtain ⟨⟨⟨h1, h2⟩, h3⟩, h4⟩ := hv
          have hs : Step m k { m.to k (.recv rq t.backend) with held := fun i => m.held i - rq.returned i } := .issue hk
          have hlen : k < m.th.length := (List.getElem?_eq_some_iff.mp hk).1
          refine ih hS' (h.step hs (.issue (rq := rq) (B := t.backend)
            (by simp only [MSys.to]; rw [List.getElem?_set, if_pos rfl, if_pos hlen])
            (by cases rq <;> simp_all [Req.inRangeB, Req.inRange]; exact h1) (returnedB_iff h2)
            (fun p names e hp => by have := Tbl.maxNames_ge hp; omega)) (roomB_iff hc h4) h.all) hc (fun j st hj => ?_) hd
          have hj' : (m.th.set k (.recv rq t.backend))[j]? = some st := hj
          rw [List.getElem?_set] at hj'
          by_cases e : k = j
          · subst e
            rw [if_pos rfl, if_pos hlen] at hj'
            cases hj'; exact hS (.issue k t rq) (by simp)
          · rw [if_neg e] at hj'; exact ht j st hj'
        · cases hd
      · cases hd
    | go k =>
      simp only [demoMT] at hd
      split at hd
      · cases hd
      · rename_i m1 hm
        split at hd
        · rename_i hv
          rw [Bool.and_eq_true] at hv
          obtain ⟨h1, h2⟩ := hv
          have hs := MSys.go_step hm
          have hc' : ∀ i, (m1.w.refs i).nrefs ≤ cap + 1 := fun i => by
            have := step_counts hs i; have := hc i; omega
          have hp : Proper m k m1 := by
            by_cases hr : ∃ rq B, m.th[k]? = some (.recv rq B)
            · obtain ⟨rq, B, hr⟩ := hr
              unfold MSys.goB at h1
              rw [hr] at h1
              simp only at h1
              exact .begin_ hr (by cases rq <;> first | trivial | exact onDirB_iff h1)
            · exact .other (fun rq B hh => hr ⟨rq, B, hh⟩) (go_notRecv hm)
          obtain ⟨g1, g2⟩ := go_asks hm ht h.all
          exact ih hS' (h.step hs hp (roomB_iff hc' h2) g2) hc' g1 hd
        · cases hd

theorem demoMT_exQ {n : Nat} {l : List Ev} (hS : ∀ a ∈ l, a.Asks Q) {P : MSys → Prop} [DecidablePred P]
    (h : (match demoMount n l with | some (m, _) => decide (P m) | none => false) = true) : ∃ m, MReachQ Q m ∧ P m := by
  split at h
  · rename_i m x hm
    refine ⟨m, ?_, by simpa using h⟩
    unfold demoMount at hm
    split at hm
    · rename_i d r ho
      split at hm
      · rename_i hr
        have hc : ∀ i, ((CWorld.start d r).refs i).nrefs ≤ 0 := by
          obtain ⟨s, h1, h2, h3⟩ := root_rep 0 0 ⟨0, 0⟩
          exact fun i => Nat.le_of_eq (open_counts (si_empty h1 h2 h3) ho i)
        refine demoMT_reachQ hS (.mount ho (roomB_iff hc hr)) hc (fun j st hj => ?_) hm
        have hj' : (List.replicate n TState.idle)[j]? = some st := hj
        rw [List.getElem?_replicate] at hj'
        split at hj'
        · cases hj'; trivial
        · cases hj'
      · cases hm
    · cases hm
  · cases h

end

/-- `a` is looked up and read while a `getattr` runs; then the backend is gone, and the file `b` in it is looked
up by one thread while another lists the directory. -/
def manyA : List Ev :=
  [.issue 0 tblA (.getattr 1), .go 0, .issue 1 tblA (.lookup 1 [0x61]), .go 1, .go 1, .go 1, .go 1, .go 1, .go 1, .go 1, .go 0, .go 0, .go 0, .go 0,
   .issue 1 tblA (.opendir 2)] ++ List.replicate 9 (.go 1) ++
  [.issue 0 Tbl.offline (.lookup 2 [0x62]), .go 0, .issue 1 Tbl.offline (.readdirplus 2 4096 0), .go 1, .go 1, .go 1] ++ List.replicate 7 (.go 0) ++ List.replicate 9 (.go 1)

/-- What the replies look like. -/
def brief (q : Done) : Nat × Nat × List Bytes := match q.rep with
  | .entry st => (q.ver, st.ino, [])
  | .attr st => (q.ver, st.ino, [])
  | .bufPlus l _ => (q.ver, 0, l.map (·.name))
  | _ => (q.ver, 0, [])

theorem manyA_asks : ∀ a ∈ manyA, a.Asks (fun rq B => rq.named ∧ Said saidA linkA B) := by
  intro a ha
  simp only [manyA, List.mem_append, List.mem_cons, List.not_mem_nil, or_false, List.mem_replicate] at ha
  rcases ha with (((((rfl | rfl | rfl | rfl | rfl | rfl | rfl | rfl | rfl | rfl | rfl | rfl | rfl | rfl | rfl) | ⟨-, rfl⟩) | (rfl | rfl | rfl | rfl | rfl | rfl)) | ⟨-, rfl⟩) | ⟨-, rfl⟩) <;>
    first
    | trivial
    | exact ⟨trivial, saidA_tblA⟩
    | exact ⟨trivial, said_offline⟩
    | exact ⟨by simp [Req.named], saidA_tblA⟩
    | exact ⟨by simp [Req.named], said_offline⟩

/-- The hypotheses of C77 and C78 can be met; the replies here: `a` is inode 2, the root, the directory is opened,
`b` is inode 3, and the listing.
(Theorems `C77_shown` and `C78_right`.) -/
example : ∃ m, MReachQ (fun rq B => rq.named ∧ Said saidA linkA B) m ∧
    m.hist.map brief = [(0, 2, []), (0, 1, []), (2, 0, []), (3, 3, []), (3, 0, [[46], [46, 46], [98]])] :=
  demoMT_exQ (n := 2) manyA_asks (by decide +kernel)

/-- The backend of the examples confirms its directory. -/
theorem tblA_confirms1 : Confirms tblA.backend (along [[0x61]] (· = fromBackend bDir)) [[0x61]] := by
  have pre : ∀ ds : List Bytes, ds <+: [[0x61]] → ds = [] ∨ ds = [[0x61]] := by
    rintro ds ⟨t, ht⟩
    match ds, ht with
    | [], _ => exact .inl rfl
    | [a], ht => cases ht; exact .inr rfl
    | a :: b :: l, ht => cases ht
  constructor
  · intro ds k hp hne
    left
    rcases pre ds hp with rfl | rfl
    · exact absurd rfl hne
    · exact ⟨bDir, by show tblA.backend.lstat 0 _ = _; decide +kernel, by unfold along; rw [if_pos rfl]⟩
  · intro ds m names e hp hB
    rcases pre _ hp with h | h
    · simp at h
    · have : ds = [] ∧ m = [0x61] := by
        have := List.append_inj' (s₁ := ds) (t₁ := [m]) (s₂ := []) (t₂ := [[0x61]]) h rfl
        exact ⟨this.1, by cases this.2; rfl⟩
      obtain ⟨rfl, rfl⟩ := this
      have h1 : tblA.backend.opendir (backendPath (pathStr [])) = .ok ([[0x61], [0x6c]], 0) := by decide +kernel
      rw [h1] at hB; cases hB
      exact ⟨0, bDir, rfl, by decide +kernel⟩
  · intro ds a hp ha hf
    exfalso
    unfold along at ha
    split at ha
    · rw [ha] at hf; revert hf; decide +kernel
    · rw [ha] at hf; revert hf; decide +kernel

/-- `a` is looked up; then two threads list it and the root, which the backend confirms; then it is
looked up offline, while `b` is looked up in it. -/
def manyB : List Ev :=
  .issue 0 tblA (.lookup 1 [0x61]) :: List.replicate 7 (.go 0) ++
  [.issue 0 tblA (.opendir 1), .go 0, .issue 1 tblA (.opendir 2)] ++ List.replicate 9 (.go 0) ++ List.replicate 9 (.go 1) ++
  [.issue 0 Tbl.offline (.lookup 1 [0x61]), .issue 1 Tbl.offline (.getattr 2), .go 1] ++ List.replicate 7 (.go 0) ++ List.replicate 4 (.go 1)

theorem manyB_asks : ∀ a ∈ manyB, a.Asks (fun rq B => Confirms B (along [[0x61]] (· = fromBackend bDir)) [[0x61]] ∧ ∀ i, rq ≠ .readlink i) := by
  have h1 := tblA_confirms1
  have h2 : Confirms Tbl.offline.backend (along [[0x61]] (· = fromBackend bDir)) [[0x61]] := Offline.confirms ⟨fun _ _ => rfl, fun _ => rfl, fun _ => rfl⟩ _ _
  intro a ha
  simp only [manyB, List.mem_append, List.mem_cons, List.not_mem_nil, or_false, List.mem_replicate] at ha
  rcases ha with ((((((rfl | ⟨-, rfl⟩) | (rfl | rfl | rfl)) | ⟨-, rfl⟩) | ⟨-, rfl⟩) | (rfl | rfl | rfl)) | ⟨-, rfl⟩) | ⟨-, rfl⟩ <;>
    first
    | trivial
    | exact ⟨h1, by simp⟩
    | exact ⟨h2, by simp⟩

/-- The hypotheses of C79 can be met.
(Theorems `C79_kept` and `C79_offline`.) -/
example : ∃ m, MReachQ (fun rq B => Confirms B (along [[0x61]] (· = fromBackend bDir)) [[0x61]] ∧ ∀ i, rq ≠ .readlink i) m ∧
    m.hist.map (·.rq) = [.lookup 1 [0x61], .opendir 1, .opendir 2, .lookup 1 [0x61], .getattr 2] ∧
    m.hist.map brief = [(0, 2, []), (1, 0, []), (2, 0, []), (3, 2, []), (3, 2, [])] :=
  demoMT_exQ (n := 2) manyB_asks (by decide +kernel)

end Dragonstash.MT
