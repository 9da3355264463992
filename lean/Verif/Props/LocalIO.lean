/-
  C74: listings of the local backend; C75: the files of the local backend.
-/
import Verif.Backend.LocalIO
import Verif.Props.FSDir
namespace Dragonstash.Local
open Cache FS

theorem drain_eq : ∀ (s : Stream) (f : Nat), s.rest.length < f → s.drain f = (s.rest.map (fun x => ⟨x.1, modeOfType x.2.1, x.2.2, false⟩), 0) := by
  intro s
  obtain ⟨l, e⟩ := s
  induction l with
  | nil => intro f hf; cases f with
    | zero => simp at hf
    | succ f => rfl
  | cons x l ih =>
    intro f hf
    cases f with
    | zero => simp at hf
    | succ f =>
      obtain ⟨n, t, i⟩ := x
      have := ih f (by simp at hf; simpa using hf)
      simp only [Stream.drain, Stream.readdir, this, List.map_cons]

/-- C74 in full: reading a directory of the local backend gives the names which the host lists, in
order, and then the end (0) if the host came to the end, the host's error if it failed. -/
def C74_full : Prop :=
  ∀ (s : Stream) (f : Nat), s.rest.length < f → (∀ e, s.err = some e → e ≠ 0) →
    (s.drain f).1.map DirEnt.name = s.rest.map Prod.fst ∧ (s.drain f).2 = s.err.getD 0

/-- It is false: errors of the host look like the end of the directory (local.cpp 126-128). -/
theorem C74_counterexample : ¬ C74_full := by
  intro h
  exact absurd (h ⟨[], some EIO⟩ 1 (by decide) (by intro e he; cases he; decide)).2 (by decide)

/-- C74, what holds: the names, in order, with the types and inode numbers which the host gives; if
the host does not fail it is the whole directory, and the end. (Missing: the error, if it fails.) -/
theorem C74_listing_partial (s : Stream) (f : Nat) (hf : s.rest.length < f) :
    (s.drain f).1.map DirEnt.name = s.rest.map Prod.fst ∧ (s.err = none → (s.drain f).2 = s.err.getD 0) ∧
    ∀ (k : Nat) (d : DirEnt), (s.drain f).1[k]? = some d → ∃ t, s.rest[k]? = some (d.name, t, d.ino) ∧ d.complete = false ∧
      (t = 4 → d.mode = S_IFDIR) ∧ (t = 8 → d.mode = S_IFREG) ∧ (t = 10 → d.mode = S_IFLNK) ∧
      (t = 1 → d.mode = 0o010000) ∧ (t = 2 → d.mode = 0o020000) ∧ (t = 6 → d.mode = 0o060000) ∧ (t = 12 → d.mode = 0o140000) ∧ (t = 0 → d.mode = 0) := by
  rw [drain_eq s f hf]
  refine ⟨by simp [List.map_map, Function.comp_def], fun h => by rw [h]; rfl, ?_⟩
  intro k d hd
  rw [List.getElem?_map] at hd
  cases hk : s.rest[k]? with
  | none => rw [hk] at hd; cases hd
  | some x =>
    rw [hk] at hd
    cases hd
    obtain ⟨n, t, i⟩ := x
    refine ⟨t, rfl, rfl, ?_, ?_, ?_, ?_, ?_, ?_, ?_, ?_⟩ <;> intro h <;> (subst h; rfl)

/-- The host with these streams: what `Local.backend` sees of it. -/
def Host.ofStreams (lstat : Nat → Bytes → Res BStat) (readlink : Bytes → Res Bytes) (dirs : Bytes → Res Stream) : Host where
  lstat := lstat
  readlink := readlink
  opendir := fun p => match dirs p with | .error e => .error e | .ok s => .ok (s.rest.map Prod.fst)

/-- The backend as `Filesystem` uses it reads these streams to the end. -/
theorem C74_backend (root : Bytes) (lstat : Nat → Bytes → Res BStat) (readlink : Bytes → Res Bytes) (dirs : Bytes → Res Stream) {path p : Bytes} {s : Stream}
    (hp : mapPath root path = .ok p) (hs : dirs (cstr p) = .ok s) {f : Nat} (hf : s.rest.length < f) :
    (backend root (Host.ofStreams lstat readlink dirs)).opendir path = .ok ((s.drain f).1.map DirEnt.name, (s.drain f).2) := by
  show opendir root (Host.ofStreams lstat readlink dirs) path = _
  unfold opendir
  rw [hp]
  simp only [Host.ofStreams, hs]
  rw [drain_eq s f hf]
  simp [List.map_map, Function.comp_def]

/-- The host's `/r` has `a` (a directory) and `l`; with `fail`, reading it fails behind `a`. -/
def hostF (fail : Bool) : Host := Host.ofStreams
  (fun _ p => if p = [0x2f, 0x72, 0x2f, 0x61] then .ok bDir else if p = [0x2f, 0x72, 0x2f, 0x6c] then .ok (bFile 5) else .error ENOENT)
  (fun _ => .error ENOENT)
  (fun p => if p = [0x2f, 0x72, 0x2f] then .ok (if fail then ⟨[([0x61], 4, 1)], some EIO⟩ else ⟨[([0x61], 4, 1), ([0x6c], 8, 2)], none⟩) else .error ENOENT)

/-- The root of the backend with `a` and `l`, for the first listing. -/
def tblR : Tbl where
  stats := [([0x2f, 0x61], .ok bDir), ([0x2f, 0x6c], .ok (bFile 5))]
  dirs := [([0x2f], .ok ([[0x61], [0x6c]], 0))]

/-- C74: what comes of it: the filesystem was listed completely; listing it again while the host's
`readdir` fails takes `l` out of the cache, and the directory still counts as complete. -/
theorem C74_lost_counterexample : ∃ y st, Live y ∧ Valid y (backend [0x2f, 0x72] (hostF true)) (.opendir 1) ∧ Cache.lookup y.disk 1 [0x6c] = .ok (.ok 3) ∧
    dispatch (backend [0x2f, 0x72] (hostF true)) y.disk y.refs (.opendir 1) = .ok st ∧ st.sent = [.opened] ∧
    testFlag st.disk 1 SYNCED = .ok true ∧ Cache.lookup st.disk 1 [0x6c] = .ok (.error ENOENT) := by
  have key : (match demoRun [.req tblR (.opendir 1)] with
    | some (y, cap, _) => validB y cap { dirs := [([], .ok (List.replicate 2 [], 0))] } (.opendir 1) && decide (Cache.lookup y.disk 1 [0x6c] = .ok (.ok 3)) && decide (
      (match dispatch (backend [0x2f, 0x72] (hostF true)) y.disk y.refs (.opendir 1) with
        | .ok st => decide (st.sent = [.opened] ∧ testFlag st.disk 1 SYNCED = .ok true ∧ Cache.lookup st.disk 1 [0x6c] = .ok (.error ENOENT))
        | .error _ => false) = true)
    | none => false) = true := by decide +kernel
  split at key
  case h_2 => cases key
  rename_i y cap out hrun
  obtain ⟨hl, hcap⟩ := demoRun_live hrun
  simp only [Bool.and_eq_true, decide_eq_true_eq] at key
  obtain ⟨⟨k1, k2⟩, k3⟩ := key
  obtain ⟨v1, v2, v3, v4, v5⟩ := validB_iff hcap k1
  have hv : Valid y (backend [0x2f, 0x72] (hostF true)) (.opendir 1) := by
    refine ⟨v1, v2, v3, fun n hn => ⟨(v4 n hn).1, fun p names e ho => ?_⟩, v5⟩
    have := (v4 n hn).2 [] (List.replicate 2 []) 0 rfl
    rw [List.length_replicate] at this
    have : names.length ≤ 2 := by
      have ho : Local.opendir [0x2f, 0x72] (hostF true) p = .ok (names, e) := ho
      unfold Local.opendir at ho
      cases hm : mapPath [0x2f, 0x72] p with
      | error e => rw [hm] at ho; cases ho
      | ok q =>
        rw [hm] at ho
        simp only [hostF, Host.ofStreams] at ho
        by_cases hq : cstr q = [0x2f, 0x72, 0x2f]
        · simp only [if_pos hq] at ho; cases ho; decide
        · simp only [if_neg hq] at ho; cases ho
    omega
  split at k3
  · rename_i st hst
    simp only [decide_eq_true_eq] at k3
    exact ⟨y, st, hl, hv, k2, hst, k3⟩
  · cases k3

/-- A stream of two entries.
(As in `C74_listing_partial` and `C74_backend`.) -/
example : (⟨[([0x61], 4, 1), ([0x6c], 8, 2)], none⟩ : Stream).drain 3 = ([⟨[0x61], S_IFDIR, 1, false⟩, ⟨[0x6c], S_IFREG, 2, false⟩], 0) := by decide

/-! ### C75 -/

/-- C75 in full: every system call which a file handle makes is on the descriptor it was given, and it
makes none after the file has been closed. -/
def C75_full : Prop :=
  ∀ (fd : Int) (l : List (FileOp × Int × Errno)), 0 ≤ fd → (∀ s ∈ fileCalls fd l, s.fd = fd) ∧
    ∀ l1 l2 e ans, l = l1 ++ (.close, ans, e) :: l2 → 0 ≤ ans → fileCalls fd l = fileCalls fd (l1 ++ [(.close, ans, e)])

/-- It is false: after `close` the handle works on descriptor 0, the standard input (local.cpp 106). -/
theorem C75_counterexample : ¬ C75_full := by
  intro h
  exact absurd ((h 5 [(.close, 0, 0), (.pwrite 3 0, 3, 0)] (by decide)).1 (.pwrite 0 3 0) (by decide)) (by decide)

/-- The system call which an operation stands for, on descriptor `fd`. -/
def wanted (fd : Int) : FileOp → Sys
  | .fstat => .fstat fd
  | .pread count offset => .pread fd count offset
  | .pwrite count offset => .pwrite fd count offset
  | .fsync => .fsync fd
  | .close => .close fd

/-- C75, what holds: until a `close` succeeds, every call is made on the descriptor of the handle, in
order, with the arguments given. -/
theorem C75_descriptor_partial (fd : Int) (l : List (FileOp × Int × Errno)) (hl : ∀ x ∈ l, x.1 = .close → x.2.1 < 0) :
    fileCalls fd l = l.map (fun x => wanted fd x.1) ∧ ∀ s ∈ fileCalls fd l, s.fd = fd := by
  have hw : ∀ op : FileOp, op.sys fd = wanted fd op := by intro op; cases op <;> rfl
  have h1 : fileCalls fd l = l.map (fun x => wanted fd x.1) := by
    induction l with
    | nil => rfl
    | cons x l ih =>
      obtain ⟨op, ans, e⟩ := x
      have h0 := hl _ (List.mem_cons_self ..)
      have ih := ih (fun x hx => hl x (List.mem_cons_of_mem _ hx))
      simp only [fileCalls, FileOp.run, List.map_cons, hw]
      by_cases hn : ans < 0
      · simp only [if_pos hn, ih]
      · have : op ≠ .close := fun h => hn (h0 h)
        simp only [if_neg hn, if_neg this, ih]
  refine ⟨h1, ?_⟩
  rw [h1]
  intro s hs
  obtain ⟨x, -, rfl⟩ := List.mem_map.mp hs
  cases x.1 <;> rfl

/-- C75: the host's answer is passed on: its result if it is not negative, its error number otherwise. -/
theorem C75_answer (fd ans : Int) (e : Errno) (op : FileOp) :
    (ans < 0 → (op.run fd ans e).2.2 = .error e) ∧ (∀ n : Nat, ans = n → (op.run fd ans e).2.2 = .ok n) := by
  refine ⟨fun h => ?_, fun n h => ?_⟩
  · simp [FileOp.run, h]
  · subst h; simp [FileOp.run, show ¬ ((n : Int) < 0) by omega]

/-- A handle with a failing close in between.
(The hypothesis of `C75_descriptor_partial`; `C75_answer` has none.) -/
example : (∀ s ∈ fileCalls 5 [(.pread 10 0, 10, 0), (.close, -1, EIO), (.fstat, 0, 0)], s.fd = 5) := (C75_descriptor_partial 5 _ (by decide)).2

end Dragonstash.Local
