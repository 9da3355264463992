/-
  C89: a mounted local directory, several threads, crashes.
-/
import Verif.Props.LocalFS
import Verif.Props.FSCrash
namespace Dragonstash.Local
open Cache FS MT Conc

variable {root : Bytes} {H : Host} {T : HTree}

/-! ### Specification -/

/-- What a reply shows is on the host. `d` are the databases which the request saw: they tell which path
its inode has. -/
def OnHost (T : HTree) (d : DB) : Req → Reply → Prop
  | .lookup p n, .entry st => ∀ cs, Cache.path d p = .ok (.ok (pathStr cs)) → (∀ c ∈ cs ++ [n], Plain c) → ∃ o, T (cs ++ [n]) = some o ∧ Shows st o.stat o.stat.size
  | .getattr i, .attr st => ∀ cs, Cache.path d i = .ok (.ok (pathStr cs)) → (∀ c ∈ cs, Plain c) → cs ≠ [] → i ≠ ROOT →
      st.ino = i ∧ ∃ o, T cs = some o ∧ Shows st o.stat o.stat.size
  | .readlink i, .readlink t => ∀ cs, Cache.path d i = .ok (.ok (pathStr cs)) → (∀ c ∈ cs, Plain c) → ∃ o, T cs = some o ∧ o.target = some t
  | .readdir dir _ _, .buf l _ => ∀ cs, Cache.path d dir = .ok (.ok (pathStr cs)) → ∀ e ∈ l, (∀ c ∈ cs ++ [e.name], Plain c) →
      ∃ o, T (cs ++ [e.name]) = some o ∧ Shows e.stat o.stat o.stat.size
  | .readdirplus dir _ _, .bufPlus l _ => ∀ cs, Cache.path d dir = .ok (.ok (pathStr cs)) → ∀ e ∈ l, (∀ c ∈ cs ++ [e.name], Plain c) →
      ∃ o, T (cs ++ [e.name]) = some o ∧ Shows e.stat o.stat o.stat.size
  | _, _ => True

/-- In the tree there is `o` at `fs`, below directories. -/
structure Stands (T : HTree) (fs : List Bytes) (o : Obj) : Prop where
  it : T fs = some o
  up : ∀ ds, ds <+: fs → ds ≠ fs → ∃ o' ns, T ds = some o' ∧ o'.names = some ns ∧ fmt o'.stat.mode = S_IFDIR
  link : fmt o.stat.mode = S_IFLNK → ∃ t, o.target = some t

/-- The host has some tree in which `o` is at `fs`, or is not connected. -/
def HostNow (root : Bytes) (fs : List Bytes) (o : Obj) (B : Backend) : Prop :=
  ∃ H, B = backend root H ∧ ((∃ T, Tree T ∧ Has root H T ∧ Stands T fs o) ∨ Gone H)

/-- What may happen while `o` stays at `fs` on the host, whatever else changes there: any number of threads
serve requests in any order, the host is connected or not, and the process dies at any moment and is
started again. -/
inductive Meanwhile (root : Bytes) (fs : List Bytes) (o : Obj) (m : MSys) : MSys → Prop
  | refl : Meanwhile root fs o m m
  | step {m1 m2 k} : Meanwhile root fs o m m1 → Step m1 k m2 → Proper m1 k m2 → Room m2.w →
      (∀ q, m2.hist = m1.hist ++ [q] → HostNow root fs o q.B ∧ q.rq.onLink m1.w.disk) → Meanwhile root fs o m m2
  | crash {m1 uid gid now d r n} : Meanwhile root fs o m m1 → openCleanDB (initDB m1.w.disk uid gid now) Refs.empty = .ok (d, r) →
      Room (CWorld.start d r) → Meanwhile root fs o m (MSys.start d r n)

/-! ### Mirror -/

theorem reachQ_mono {Q Q' : Req → Backend → Prop} (hQ : ∀ rq B, Q rq B → Q' rq B) {m : MSys} (h : MReachQ Q m) : MReachQ Q' m := by
  induction h with
  | mount h1 h2 => exact .mount h1 h2
  | remount _ h1 h2 ih => exact .remount ih h1 h2
  | step _ h1 h2 h3 h4 ih => exact .step ih h1 h2 h3 (fun q hq => hQ _ _ (h4 q hq))

/-- C89: if the tree on the host never changes, everything that is shown is right: with any number of
threads, after any crashes, whether the host is connected or not. -/
theorem C89_mirror (ht : Tree T) (hr : root ≠ []) (h0 : (0 : UInt8) ∉ root) {m : MSys}
    (h : MReachQ (fun rq B => rq.named ∧ ∃ H, B = backend root H ∧ (Has root H T ∨ Gone H)) m) :
    ∃ d0 r0 threads ds R, Steps (MSys.start d0 r0 threads) m ∧ OneByOne d0 r0 ds R m.hist ∧ ds.getLast? = some m.w.disk ∧
      ∀ (k : Nat) (q : Done), m.hist[k]? = some q → ∃ d, seen ds k q = some d ∧ OnHost T d q.rq q.rep := by
  obtain ⟨d0, r0, threads, ds, R, h1, h2, h3, h4⟩ := C77_shown (S := SM root T) (T := TM root T)
    (reachQ_mono (fun rq B hq => ⟨hq.1, by obtain ⟨-, H, rfl, hH⟩ := hq; exact said_of hH⟩) h)
  refine ⟨d0, r0, threads, ds, R, h1, h2, h3, fun k q hk => ?_⟩
  obtain ⟨d, g1, g2⟩ := h4 k q hk
  refine ⟨d, g1, ?_⟩
  generalize q.rq = rq, q.rep = rep at g2 ⊢
  cases rq with
  | lookup p n =>
    cases rep with
    | entry st =>
      intro cs hp hcs
      obtain ⟨b, e1, e2⟩ := g2
      rw [hp] at e1; cases e1
      rw [pathStr_snoc'] at e2
      exact from_eq ht hr h0 hcs (by simp) e2
    | _ => trivial
  | getattr i =>
    cases rep with
    | attr st =>
      intro cs hp hcs hne hi
      obtain ⟨e1, b, e2, e3⟩ := g2 hi
      rw [e3 _ hp] at e2
      exact ⟨e1, from_eq ht hr h0 hcs hne e2⟩
    | _ => trivial
  | readlink i =>
    cases rep with
    | readlink t =>
      intro cs hp hcs
      obtain ⟨b, t', e1, e2, e3⟩ := g2
      rw [hp] at e1; cases e1
      obtain ⟨o, ho, htg⟩ := tm_eq ht hr h0 hcs (t := t') e2
      have : cstr t' = t' := cstr_id (ht.size ho htg).2
      exact ⟨o, ho, by rw [e3]; rw [htg]; exact congrArg some this.symm⟩
    | _ => trivial
  | readdir dir size off =>
    cases rep with
    | buf l n =>
      intro cs hp e he hcs
      have hpl := hcs e.name (by simp)
      have := g2 _ hp e he hpl.2.1 hpl.2.2.1
      rw [pathStr_snoc'] at this
      exact from_eq ht hr h0 hcs (by simp) this
    | _ => trivial
  | readdirplus dir size off =>
    cases rep with
    | bufPlus l n =>
      intro cs hp e he hcs
      have hpl := hcs e.name (by simp)
      have := g2 _ hp e he hpl.2.1 hpl.2.2.1
      rw [pathStr_snoc'] at this
      exact from_eq ht hr h0 hcs (by simp) this
    | _ => trivial
  | _ => trivial

/-! ### What was seen stays -/

theorem backendPath_ne {cs : List Bytes} (h : cs ≠ []) : backendPath (pathStr cs) = pathStr cs := by
  unfold backendPath; rw [if_neg]
  cases cs with
  | nil => exact absurd rfl h
  | cons c cs => simp [pathStr]

theorem gone_lstat (hr : root ≠ []) (h0 : (0 : UInt8) ∉ root) (hG : Gone H) {cs : List Bytes} (hcs : ∀ c ∈ cs, Plain c) (k : Nat) :
    (backend root H).lstat k (backendPath (pathStr cs)) = .error ENOTCONN := by
  obtain ⟨p, h1, h2⟩ := back_lstat (H := H) hr h0 (plain_comps hcs) k
  rw [h2, hG.lstat]

theorem gone_readlink (hr : root ≠ []) (h0 : (0 : UInt8) ∉ root) (hG : Gone H) {cs : List Bytes} (hcs : ∀ c ∈ cs, Plain c) :
    (backend root H).readlink (backendPath (pathStr cs)) = .error ENOTCONN := by
  obtain ⟨p, h1, h2, h3⟩ := written hr h0 (plain_comps hcs)
  show (match readlink root H _ with | .ok r => r | .error _ => _) = _
  unfold readlink
  rw [h1]; simp only [hG.lstat]

theorem gone_opendir (hG : Gone H) {p : Bytes} {x : List Bytes × Errno} : (backend root H).opendir p ≠ .ok x := by
  intro ho
  change opendir root H p = _ at ho
  unfold opendir at ho
  cases hp : mapPath root p with
  | error e' => rw [hp] at ho; cases ho
  | ok q => rw [hp] at ho; simp only [hG.opendir] at ho; cases ho

theorem HostNow.confirms (hr : root ≠ []) (h0 : (0 : UInt8) ∉ root) {fs : List Bytes} {o : Obj} {B : Backend} (hfs : ∀ c ∈ fs, Plain c) (hne0 : fs ≠ []) (h : HostNow root fs o B) :
    Confirms B (along fs (· = fromBackend o.stat)) fs := by
  obtain ⟨H, rfl, h⟩ := h
  have sub : ∀ ds, ds <+: fs → ∀ c ∈ ds, Plain c := fun ds hd c hc => hfs c (hd.subset hc)
  rcases h with ⟨T, ht, hT, hS⟩ | hG
  · refine ⟨fun ds k hd hne => ?_, fun ds m names e hd ho => ?_, fun ds a hd ha hl => ?_⟩
    · left
      by_cases e : ds = fs
      · subst e
        refine ⟨o.stat, ?_, by unfold along; rw [if_pos rfl]⟩
        rw [← backendPath_ne hne]; exact back_there hT hr h0 hfs hS.it k
      · obtain ⟨o', ns, h1, -, h3⟩ := hS.up ds hd e
        refine ⟨o'.stat, ?_, by unfold along; rw [if_neg e]; exact h3⟩
        rw [← backendPath_ne hne]; exact back_there hT hr h0 (sub ds hd) h1 k
    · have hne : ds ≠ fs := by
        rintro rfl
        have := hd.length_le
        rw [List.length_append, List.length_singleton] at this; omega
      obtain ⟨o', ns, h1, h2, -⟩ := hS.up ds (List.IsPrefix.trans (List.prefix_append _ _) hd) hne
      obtain ⟨l, g1, g2, -⟩ := back_opendir hT hr h0 (sub ds (List.IsPrefix.trans (List.prefix_append _ _) hd)) h1 h2
      rw [ho] at g1; cases g1
      obtain ⟨o2, h3⟩ : ∃ o2, T (ds ++ [m]) = some o2 := by
        by_cases e : ds ++ [m] = fs
        · exact ⟨o, by rw [e]; exact hS.it⟩
        · obtain ⟨o2, -, h3, -⟩ := hS.up _ hd e; exact ⟨o2, h3⟩
      have hm : m ∈ names := (g2 m).mpr (.inr (.inr ((ht.child h1 h2).mpr ⟨sub _ hd m (by simp), by rw [h3]; simp⟩)))
      obtain ⟨k, hk⟩ := List.getElem?_of_mem hm
      refine ⟨k, o2.stat, hk, ?_⟩
      rw [← backendPath_ne (by simp)]; exact back_there hT hr h0 (sub _ hd) h3 k
    · unfold along at ha
      by_cases e : ds = fs
      · subst e
        rw [if_pos rfl] at ha
        subst ha
        obtain ⟨t, htg⟩ := hS.link hl
        left
        refine ⟨t, ?_, ?_⟩
        · rw [← backendPath_ne hne0]; exact back_readlink hT ht hr h0 hfs hS.it htg
        · unfold along; rw [if_pos rfl]
          show _ = fromBackend o.stat; rw [(ht.size hS.it htg).1]; rfl
      · rw [if_neg e] at ha
        rw [ha] at hl; cases hl
  · refine ⟨fun ds k hd hne => ?_, fun ds m names e hd ho => absurd ho (gone_opendir hG), fun ds a hd ha hl => ?_⟩
    · right; rw [← backendPath_ne hne]; exact gone_lstat hr h0 hG (sub ds hd) k
    · right
      have hne : ds ≠ [] := by
        rintro rfl
        unfold along at ha
        rw [if_neg (Ne.symm hne0)] at ha
        rw [ha] at hl; cases hl
      rw [← backendPath_ne hne]; exact gone_readlink hr h0 hG (sub ds hd)

theorem Meanwhile.later (hr : root ≠ []) (h0 : (0 : UInt8) ∉ root) {fs : List Bytes} {o : Obj} (hfs : ∀ c ∈ fs, Plain c) (hne : fs ≠ []) {m m' : MSys}
    (h : Meanwhile root fs o m m') : Later fs (· = fromBackend o.stat) m m' := by
  induction h with
  | refl => exact .refl
  | step _ h1 h2 h3 h4 ih => exact .step ih h1 h2 h3 (fun q hq => ⟨(h4 q hq).1.confirms hr h0 hfs hne, (h4 q hq).2⟩)
  | crash _ h1 h2 ih => exact .crash ih h1 h2

/-- C89: an object which was seen keeps its inode number and attributes in the cache as long as it stays
on the host, whatever else happens there, with any number of threads, crashes and lost connections. -/
theorem C89_kept (hr : root ≠ []) (h0 : (0 : UInt8) ∉ root) {m m' : MSys} (h : MReach m) {p i : Ino} {n : Bytes} {cs : List Bytes} {o : Obj} (hb : p < W64)
    (hcs : ∀ c ∈ cs ++ [n], Plain c) (hl : Meanwhile root (cs ++ [n]) o m m')
    (he : Cache.path m.w.disk p = .ok (.ok (pathStr cs)) ∧ Cache.lookup m.w.disk p n = .ok (.ok i) ∧ Cache.getattr m.w.disk i = .ok (i, fromBackend o.stat)) :
    Cache.path m'.w.disk p = .ok (.ok (pathStr cs)) ∧ Cache.lookup m'.w.disk p n = .ok (.ok i) ∧ Cache.getattr m'.w.disk i = .ok (i, fromBackend o.stat) := by
  obtain ⟨g1, g2, a, g3, rfl⟩ := C85_kept h hb (fun c hc => (hcs c (by simp [hc])).1) (hcs n (by simp)).1.1 (P := (· = fromBackend o.stat)) (by rintro a b rfl rfl; rfl)
    (hl.later hr h0 hcs (by simp)) ⟨he.1, he.2.1, _, he.2.2, rfl⟩
  exact ⟨g1, g2, g3⟩

/-- C89: a lookup found `o`. Then every later lookup of the same name is answered in the same way, with the same
inode number, as long as `o` stays there: by whatever thread, whether the host is connected or not, however
often the process died in between. -/
theorem C89_same (hr : root ≠ []) (h0 : (0 : UInt8) ∉ root) {m1 m2 m3 m4 : MSys} {k1 k3 : Nat} (h : MReach m1) (s1 : Step m1 k1 m2) (p1 : Proper m1 k1 m2) (r1 : Room m2.w)
    {p : Ino} {n : Bytes} {cs : List Bytes} {o : Obj} {q q' : Done} {st : OsStat} (hb : p < W64) (hcs : ∀ c ∈ cs ++ [n], Plain c)
    (hq : m2.hist = m1.hist ++ [q]) (hrq : q.rq = .lookup p n) (hpath : Cache.path m1.w.disk p = .ok (.ok (pathStr cs))) (hrep : q.rep = .entry st)
    (hon : ∃ H T, q.B = backend root H ∧ Has root H T ∧ T (cs ++ [n]) = some o)
    (hl : Meanwhile root (cs ++ [n]) o m2 m3)
    (s3 : Step m3 k3 m4) (p3 : Proper m3 k3 m4) (r3 : Room m4.w) (hq' : m4.hist = m3.hist ++ [q']) (hrq' : q'.rq = .lookup p n) (hnow : HostNow root (cs ++ [n]) o q'.B) :
    q'.rep = .entry st := by
  have a1 := step_right h s1 p1 r1 hq (by rw [hrq]; rfl)
  have h2 : MReach m2 := .step h s1 p1 r1
  have hl' := hl.later hr h0 hcs (by simp)
  have a2 := step_right (hl'.reach h2) s3 p3 r3 hq' (by rw [hrq']; rfl)
  rw [hrq, hrep] at a1
  rw [hrq'] at a2
  have hne : cs ++ [n] ≠ [] := by simp
  obtain ⟨H, T, hB, hT, ho⟩ := hon
  have hB1 : q.B.lstat 0 (pathStr cs ++ 0x2f :: n) = .ok o.stat := by
    rw [hB, pathStr_snoc', ← backendPath_ne hne]; exact back_there hT hr h0 hcs ho 0
  have e1 := (a1.2 _ hpath).1 o.stat hB1
  by_cases hg : GoodName n
  · rw [if_pos hg] at e1
    obtain ⟨i, b1, b2, b3, b4⟩ := e1
    have hmore : Meanwhile root (cs ++ [n]) o m2 m4 := .step hl s3 p3 r3 (fun q2 hq2 => by
      rw [hq'] at hq2
      obtain rfl : q' = q2 := by simpa using hq2
      exact ⟨hnow, by rw [hrq']; trivial⟩)
    obtain ⟨c1, c2, c3⟩ := C89_kept hr h0 h2 hb hcs hl ⟨b2, b3, b4⟩
    obtain ⟨-, d2, d3⟩ := C89_kept hr h0 h2 hb hcs hmore ⟨b2, b3, b4⟩
    obtain ⟨H', hB', hnow⟩ := hnow
    rcases hnow with ⟨T', ht', hT', hS'⟩ | hG
    · have hB2 : q'.B.lstat 0 (pathStr cs ++ 0x2f :: n) = .ok o.stat := by
        rw [hB', pathStr_snoc', ← backendPath_ne hne]; exact back_there hT' hr h0 hcs hS'.it 0
      have e2 := (a2.2 _ c1).1 o.stat hB2
      rw [if_pos hg] at e2
      obtain ⟨i', f1, f2, f3, f4⟩ := e2
      rw [d2] at f3; cases f3
      rw [f1, b1]
    · have hB2 : q'.B.lstat 0 (pathStr cs ++ 0x2f :: n) = .error ENOTCONN := by
        rw [hB', pathStr_snoc', ← backendPath_ne hne]; exact gone_lstat hr h0 hG hcs 0
      obtain ⟨x, f1, f2⟩ := ((a2.2 _ c1).2.1 hB2).1 i c2
      rw [c3] at f1; cases f1
      rw [f2, b1]
  · rw [if_neg hg] at e1; cases e1

/-! ### Example -/

/-- The host of the examples, connected or not. -/
def hostB (b : Bool) : Backend := backend rootR (if b then treeHost rootR treeA else goneHost)

/-- A request comes while the host is connected or not, or a thread makes a step. -/
inductive HEv
  | ask (k : Nat) (b : Bool) (rq : Req)
  | go (k : Nat)

def actMT (m : MSys) (cap : Nat) : List HEv → Option (MSys × Nat)
  | [] => some (m, cap)
  | .ask k b rq :: l => match m.th[k]? with
    | some .idle =>
      if rq.inRangeB && returnedB m.held rq && roomB m.w cap then
        actMT { m.to k (.recv rq (hostB b)) with held := fun i => m.held i - rq.returned i } cap l
      else none
    | _ => none
  | .go k :: l => match demoMT m cap [.go k] with
    | none => none
    | some (m', cap') => actMT m' cap' l

/-- The requests of the examples. -/
def QA (rq : Req) (B : Backend) : Prop := (rq.named ∧ ∀ i, rq ≠ .readlink i) ∧ ∃ b, B = hostB b

def HEv.ok : HEv → Prop
  | .ask _ _ rq => rq.named ∧ ∀ i, rq ≠ .readlink i
  | .go _ => True

theorem QA.now {rq : Req} {B : Backend} (h : QA rq B) : HostNow rootR [[0x61]] ⟨bFile 5, none, none⟩ B := by
  obtain ⟨-, b, rfl⟩ := h
  refine ⟨_, rfl, ?_⟩
  cases b with
  | false => exact .inr goneHost_gone
  | true =>
    refine .inl ⟨treeA, treeA_tree, treeHost_has rootR treeA_tree, rfl, ?_, fun h => absurd h (by decide +kernel)⟩
    intro ds hd hne
    match ds, hd with
    | [], _ => exact ⟨_, _, rfl, rfl, by decide +kernel⟩
    | [a], hd => exact absurd (by obtain ⟨t, ht⟩ := hd; simp only [List.singleton_append, List.cons.injEq] at ht; rw [ht.1]) hne
    | a :: b :: l, hd => have := hd.length_le; simp at this

theorem QA.at {rq : Req} {B : Backend} (h : QA rq B) : rq.named ∧ ∃ H, B = backend rootR H ∧ (Has rootR H treeA ∨ Gone H) := by
  obtain ⟨h, b, rfl⟩ := h
  exact ⟨h.1, _, rfl, hostA b⟩

/-- A state of the examples. -/
structure AtHost (cap : Nat) (m : MSys) : Prop where
  ready : Ready QA cap m
  reach : MReachQ QA m

theorem AtHost.run {m0 : MSys} : ∀ {l : List HEv} {m m' : MSys} {cap cap' : Nat}, AtHost cap m → (∀ a ∈ l, a.ok) → actMT m cap l = some (m', cap') →
    AtHost cap' m' ∧ (Meanwhile rootR [[0x61]] ⟨bFile 5, none, none⟩ m0 m → Meanwhile rootR [[0x61]] ⟨bFile 5, none, none⟩ m0 m') := by
  intro l
  induction l with
  | nil => intro m m' cap cap' h _ hd; cases hd; exact ⟨h, id⟩
  | cons a l ih =>
    intro m m' cap cap' h hS hd
    have more : ∀ {m1 : MSys} {cap1 k : Nat}, Ready QA cap1 m1 → Step m k m1 → Proper m k m1 → Room m1.w → actMT m1 cap1 l = some (m', cap') →
        AtHost cap' m' ∧ (Meanwhile rootR [[0x61]] ⟨bFile 5, none, none⟩ m0 m → Meanwhile rootR [[0x61]] ⟨bFile 5, none, none⟩ m0 m') := by
      intro m1 cap1 k r1 g2 g3 g4 h2
      obtain ⟨f1, f2⟩ := ih ⟨r1, .step h.reach g2 g3 g4 r1.hist⟩ (fun a ha => hS a (List.mem_cons_of_mem _ ha)) h2
      refine ⟨f1, fun hl => f2 (.step hl g2 g3 g4 (fun q hq => ?_))⟩
      have hQ := r1.hist q (by rw [hq]; simp)
      refine ⟨hQ.now, ?_⟩
      cases hrq : q.rq with
      | readlink i => exact absurd hrq (hQ.1.2 i)
      | _ => trivial
    cases a with
    | go k =>
      unfold actMT at hd
      cases h1 : demoMT m cap [.go k] with
      | none => rw [h1] at hd; cases hd
      | some x =>
        obtain ⟨m1, cap1⟩ := x
        rw [h1] at hd
        obtain ⟨r1, k', g2, g3, g4⟩ := h.ready.event (a := .go k) trivial h1
        exact more r1 g2 g3 g4 hd
    | ask k b rq =>
      unfold actMT at hd
      cases hk : m.th[k]? with
      | none => rw [hk] at hd; cases hd
      | some st =>
        rw [hk] at hd
        cases st with
        | idle =>
          simp only at hd
          by_cases hv : (rq.inRangeB && returnedB m.held rq && roomB m.w cap) = true
          case neg => rw [if_neg hv] at hd; cases hd
          rw [if_pos hv] at hd
          simp only [Bool.and_eq_true] at hv
          obtain ⟨⟨h1, h2⟩, h4⟩ := hv
          have hs : Step m k { m.to k (.recv rq (hostB b)) with held := fun i => m.held i - rq.returned i } := .issue hk
          have hlen : k < m.th.length := (List.getElem?_eq_some_iff.mp hk).1
          have hp : Proper m k { m.to k (.recv rq (hostB b)) with held := fun i => m.held i - rq.returned i } := .issue (rq := rq) (B := hostB b)
            (by simp only [MSys.to]; rw [List.getElem?_set, if_pos rfl, if_pos hlen])
            (by cases rq <;> simp_all [Req.inRangeB, Req.inRange]; exact h1) (returnedB_iff h2)
            (fun p names e hp => by have := treeA_names (b := b) hp; omega)
          have hR := roomB_iff h.ready.counts h4
          refine more (cap1 := cap) ⟨h.ready.reach.step hs hp hR, h.ready.counts, fun j st hj => ?_, h.ready.hist⟩ hs hp hR hd
          have hj' : (m.th.set k (.recv rq (hostB b)))[j]? = some st := hj
          rw [List.getElem?_set] at hj'
          by_cases e : k = j
          · subst e
            rw [if_pos rfl, if_pos hlen] at hj'
            cases hj'; exact ⟨hS (.ask k b rq) (by simp), b, rfl⟩
          · rw [if_neg e] at hj'; exact h.ready.asks j st hj'
        | _ => simp only at hd; cases hd

theorem AtHost.event {m m' : MSys} {cap cap' k : Nat} (h : AtHost cap m) (hd : demoMT m cap [.go k] = some (m', cap')) :
    AtHost cap' m' ∧ ∃ k, Step m k m' ∧ Proper m k m' ∧ Room m'.w := by
  obtain ⟨r1, k', g2, g3, g4⟩ := h.ready.event (a := .go k) trivial hd
  exact ⟨⟨r1, .step h.reach g2 g3 g4 r1.hist⟩, k', g2, g3, g4⟩

/-- `a` is looked up, just before the commit. -/
def host1 : List HEv := .ask 0 true (.lookup 1 [0x61]) :: List.replicate 4 (.go 0)

/-- The process dies while one thread lists the root directory and another has begun to read attributes,
with the connection lost. -/
def host2 : List HEv := [.ask 1 true (.opendir 1), .go 1, .go 1, .go 1, .go 0, .go 0, .ask 0 false (.getattr 2), .go 0]

/-- The new process looks up `a` offline, while another thread reads attributes; just before the commit. -/
def host3 : List HEv := [.ask 1 true (.getattr 2), .go 1, .ask 0 false (.lookup 1 [0x61])] ++ List.replicate 5 (.go 0)

def hostDemo : Option (MSys × MSys × MSys × MSys × MSys) :=
  match openCleanDB (initDB emptyDB 0 0 ⟨0, 0⟩) Refs.empty with
  | .error _ => none
  | .ok (d0, r0) =>
    if roomB (CWorld.start d0 r0) 0 then do
      let (m1, c1) ← actMT (MSys.start d0 r0 2) 0 host1
      let (m2, c2) ← demoMT m1 c1 [.go 0]
      let (m, _) ← actMT m2 c2 host2
      match openCleanDB (initDB m.w.disk 0 0 ⟨0, 0⟩) Refs.empty with
      | .error _ => none
      | .ok (d, r) =>
        if roomB (CWorld.start d r) 0 then do
          let (m3, c3) ← actMT (MSys.start d r 2) 0 host3
          let (m4, _) ← demoMT m3 c3 [.go 0]
          pure (m1, m2, m, m3, m4)
        else none
    else none

/-- Whether the host was connected. -/
def online (q : Done) : Bool := match q.B.lstat 0 [0x2f, 0x61] with | .ok _ => true | .error _ => false

theorem hostDemo_says : (match hostDemo with
    | some (m1, m2, m, m3, m4) => decide (Cache.path m1.w.disk 1 = .ok (.ok []) ∧ m1.hist.length = 0 ∧ m2.hist.map (·.rq) = [.lookup 1 [0x61]] ∧ (m2.hist.map (fun q => match q.rep with | .entry st => st.ino | _ => 0)) = [2] ∧
        m.busy = [true, true] ∧ m3.hist.length = 0 ∧ m4.hist.map (·.rq) = [.lookup 1 [0x61]] ∧ (m4.hist.map (fun q => match q.rep with | .entry st => st.ino | _ => 0)) = [2] ∧
        m2.hist.map online = [true] ∧ m4.hist.map online = [false])
    | none => false) = true := by decide +kernel

/-- The hypotheses of `C89_same` and `C89_mirror` can be met: `a` is looked up while the host is connected; the
process dies while two requests are under way; in the new process `a` is looked up with the connection lost. -/
theorem hostDemo_ex : ∃ m1 m2 m3 m4 k1 k3 q q' st, MReach m1 ∧ Step m1 k1 m2 ∧ Proper m1 k1 m2 ∧ Room m2.w ∧ m2.hist = m1.hist ++ [q] ∧ q.rq = .lookup 1 [0x61] ∧
    Cache.path m1.w.disk 1 = .ok (.ok (pathStr [])) ∧ q.rep = .entry st ∧
    (∃ H T, q.B = backend rootR H ∧ Has rootR H T ∧ T ([] ++ [[0x61]]) = some ⟨bFile 5, none, none⟩) ∧
    Meanwhile rootR ([] ++ [[0x61]]) ⟨bFile 5, none, none⟩ m2 m3 ∧ Step m3 k3 m4 ∧ Proper m3 k3 m4 ∧ Room m4.w ∧ m4.hist = m3.hist ++ [q'] ∧ q'.rq = .lookup 1 [0x61] ∧
    HostNow rootR ([] ++ [[0x61]]) ⟨bFile 5, none, none⟩ q'.B ∧ q'.B = backend rootR goneHost ∧ MReachQ QA m4 := by
  have hs := hostDemo_says
  generalize hd : hostDemo = o at hs
  obtain _ | ⟨m1, m2, m, m3, m4⟩ := o
  · cases hs
  simp only [decide_eq_true_eq] at hs
  obtain ⟨e1, e2, e3, e4, e5, e6, e7, e8, e9, e10⟩ := hs
  unfold hostDemo at hd
  cases ho0 : openCleanDB (initDB emptyDB 0 0 ⟨0, 0⟩) Refs.empty with
  | error e => rw [ho0] at hd; cases hd
  | ok x =>
  obtain ⟨d0, r0⟩ := x
  rw [ho0] at hd
  simp only at hd
  by_cases hroom0 : roomB (CWorld.start d0 r0) 0 = true
  case neg => rw [if_neg hroom0] at hd; cases hd
  rw [if_pos hroom0] at hd
  obtain ⟨⟨m1', c1⟩, d1, hd⟩ := Option.bind_eq_some_iff.mp hd
  obtain ⟨⟨m2', c2⟩, d2, hd⟩ := Option.bind_eq_some_iff.mp hd
  obtain ⟨⟨m', c⟩, d3, hd⟩ := Option.bind_eq_some_iff.mp hd
  simp only at hd
  cases ho : openCleanDB (initDB m'.w.disk 0 0 ⟨0, 0⟩) Refs.empty with
  | error e => rw [ho] at hd; cases hd
  | ok x =>
  obtain ⟨d, r⟩ := x
  rw [ho] at hd
  simp only at hd
  by_cases hroom : roomB (CWorld.start d r) 0 = true
  case neg => rw [if_neg hroom] at hd; cases hd
  rw [if_pos hroom] at hd
  obtain ⟨⟨m3', c3⟩, d4, hd⟩ := Option.bind_eq_some_iff.mp hd
  obtain ⟨⟨m4', c4⟩, d5, hd⟩ := Option.bind_eq_some_iff.mp hd
  cases hd
  simp only at e6 e7 e8 e10 d5
  have ok1 : ∀ a ∈ host1, a.ok := by
    intro a ha
    simp only [host1, List.mem_cons, List.mem_replicate] at ha
    rcases ha with rfl | ⟨-, rfl⟩
    · exact ⟨(List.cons_ne_nil _ _ : ([0x61] : Bytes) ≠ []), by simp⟩
    · trivial
  have ok2 : ∀ a ∈ host2, a.ok := by
    intro a ha
    simp only [host2, List.mem_cons, List.not_mem_nil, or_false] at ha
    rcases ha with rfl | rfl | rfl | rfl | rfl | rfl | rfl | rfl <;> first | trivial | exact ⟨trivial, by simp⟩
  have ok3 : ∀ a ∈ host3, a.ok := by
    intro a ha
    simp only [host3, List.mem_append, List.mem_cons, List.not_mem_nil, or_false, List.mem_replicate] at ha
    rcases ha with (rfl | rfl | rfl) | ⟨-, rfl⟩ <;> first | trivial | exact ⟨trivial, by simp⟩ | exact ⟨(List.cons_ne_nil _ _ : ([0x61] : Bytes) ≠ []), by simp⟩
  -- the first process
  have hc0 : ∀ i, (r0 i).nrefs ≤ 0 := by
    obtain ⟨s, h1, h2, h3⟩ := root_rep 0 0 ⟨0, 0⟩
    exact fun i => Nat.le_of_eq (open_counts (si_empty h1 h2 h3) ho0 i)
  have hR0 : Room (CWorld.start d0 r0) := roomB_iff (cap := 0) hc0 hroom0
  have r1 := (AtHost.run (m0 := m1) ⟨ready_start (.mount ho0 hR0) hc0, .mount ho0 hR0⟩ ok1 d1).1
  obtain ⟨r2, k1, s1, p1, q1⟩ := r1.event d2
  obtain ⟨r3, l3⟩ := r2.run (m0 := m2) ok2 d3
  -- it dies
  obtain ⟨-, -, -, -, -, d', r', -, -, -, g1, g2, -, -, -⟩ := C85_crash r3.ready.reach 0 0 ⟨0, 0⟩
  rw [ho] at g1; cases g1
  have hc : ∀ i, (r i).nrefs ≤ 0 := fun i => Nat.le_of_eq (g2 i)
  have hR : Room (CWorld.start d r) := roomB_iff (cap := 0) hc hroom
  have l4 : Meanwhile rootR [[0x61]] ⟨bFile 5, none, none⟩ m2 (MSys.start d r 2) := .crash (l3 .refl) ho hR
  -- the second process
  obtain ⟨r5, l5⟩ := AtHost.run (m0 := m2) ⟨ready_start (.remount r3.ready.reach ho hR) hc, .remount r3.reach ho hR⟩ ok3 d4
  obtain ⟨r6, k3, s3, p3, q3⟩ := r5.event d5
  obtain ⟨q, hq⟩ := event_hist s1 (by have := congrArg List.length e3; simp at this; omega)
  obtain ⟨q', hq'⟩ := event_hist s3 (by have := congrArg List.length e7; simp at this; omega)
  have n1 := List.eq_nil_of_length_eq_zero e2
  have n2 := List.eq_nil_of_length_eq_zero e6
  rw [hq, n1] at e3 e4 e9
  rw [hq', n2] at e7 e8 e10
  have b1 := r2.ready.hist q (by rw [hq]; simp)
  have b2 := r6.ready.hist q' (by rw [hq']; simp)
  have e9 : online q = true := by simpa using e9
  have e10 : online q' = false := by simpa using e10
  have hst : ∃ st, q.rep = .entry st := by
    have e4 : (match q.rep with | .entry st => st.ino | _ => 0) = 2 := by simpa using e4
    cases hr : q.rep with
    | entry st => exact ⟨st, rfl⟩
    | _ => rw [hr] at e4; simp at e4
  obtain ⟨st, hst⟩ := hst
  have on1 : q.B = backend rootR (treeHost rootR treeA) := by
    obtain ⟨-, b, hb⟩ := b1
    unfold online at e9; rw [hb] at e9
    cases b with
    | true => exact hb
    | false => exact absurd e9 (by decide +kernel)
  have on2 : q'.B = backend rootR goneHost := by
    obtain ⟨-, b, hb⟩ := b2
    unfold online at e10; rw [hb] at e10
    cases b with
    | false => exact hb
    | true => exact absurd e10 (by decide +kernel)
  exact ⟨m1, m2, m3', m4', k1, k3, q, q', st, r1.ready.reach, s1, p1, q1, hq, by simpa using e3, e1, hst, ⟨_, treeA, on1, treeHost_has rootR treeA_tree, rfl⟩,
    l5 l4, s3, p3, q3, hq', by simpa using e7, b2.now, on2, r6.reach⟩

/-- `C89_same` applies to it.
(Its steps between the two lookups are those of `C89_kept`.) -/
example : ∃ q' : Done, ∃ st, q'.B = backend rootR goneHost ∧ q'.rq = .lookup 1 [0x61] ∧ q'.rep = .entry st := by
  obtain ⟨m1, m2, m3, m4, k1, k3, q, q', st, a1, a2, a3, a4, a5, a6, a7, a8, a9, a10, a11, a12, a13, a14, a15, a16, a17, -⟩ := hostDemo_ex
  exact ⟨q', st, a17, a15, C89_same rootR_ne rootR_nul a1 a2 a3 a4 (by decide) (cs := []) (fun c hc => by cases hc with | head => exact plainB (by decide) | tail _ h => cases h) a5 a6 a7 a8 a9 a10 a11 a12 a13 a14 a15 a16⟩

/-- `C89_mirror` applies to it. -/
example : ∃ m : MSys, m.hist ≠ [] ∧ MReachQ (fun rq B => rq.named ∧ ∃ H, B = backend rootR H ∧ (Has rootR H treeA ∨ Gone H)) m := by
  obtain ⟨m1, m2, m3, m4, k1, k3, q, q', st, -, -, -, -, -, -, -, -, -, -, -, -, -, a14, -, -, -, a18⟩ := hostDemo_ex
  exact ⟨m4, by rw [a14]; simp, reachQ_mono (fun rq B h => h.at) a18⟩

end Dragonstash.Local
