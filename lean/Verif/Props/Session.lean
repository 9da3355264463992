/-
  C72: callbacks which are not implemented are answered with ENOSYS and change nothing.
-/
import Verif.Fuse.Session
import Verif.FS.Demo
namespace Dragonstash.Fuse
open FS Cache

/-- The callbacks which the filesystem supports: looking up, forgetting, attributes, symbolic links,
directories. -/
def Supported : Cb → Prop
  | .lookup _ _ | .forget _ _ | .forgetMulti _ _ | .getattr _ _ | .readlink _ | .opendir _ _ | .readdir _ _ _ _ | .readdirplus _ _ _ _ | .releasedir _ _ => True
  | _ => False

instance : DecidablePred Supported := fun c => by cases c <;> unfold Supported <;> infer_instance

/-- C72: every other callback, with whatever arguments, in whatever state: exactly one answer, ENOSYS;
the database and the reference table stay as they are, and the backend is not asked (any backend
gives the same). -/
theorem C72_unsupported {c : Cb} (h : ¬ Supported c) (B : Backend) (d : DB) (r : Refs) :
    callback B d r c = .ok { disk := d, refs := r, sent := [.err ENOSYS], fault := none } := by
  cases c <;> first | exact absurd trivial h | rfl

/-- C72: creating, writing, renaming and removing files or directories, links, attributes of all
kinds, and locks are among them: the mounted filesystem is read-only. -/
theorem C72_read_only (B : Backend) (d : DB) (r : Refs) (c : Cb)
    (hc : (∃ i a n f, c = .setattr i a n f) ∨ (∃ p n m v, c = .mknod p n m v) ∨ (∃ p n m, c = .mkdir p n m) ∨ (∃ p n, c = .unlink p n) ∨ (∃ p n, c = .rmdir p n) ∨
      (∃ l p n, c = .symlink l p n) ∨ (∃ p n q m f, c = .rename p n q m f) ∨ (∃ i p n, c = .link i p n) ∨ (∃ i b s o f, c = .write i b s o f) ∨
      (∃ i b o f, c = .writeBuf i b o f) ∨ (∃ i n v s f, c = .setxattr i n v s f) ∨ (∃ i n, c = .removexattr i n) ∨ (∃ p n m f, c = .create p n m f) ∨
      (∃ i f l s, c = .setlk i f l s) ∨ (∃ i m o l f, c = .fallocate i m o l f) ∨ (∃ i o f j q g l m, c = .copyFileRange i o f j q g l m)) :
    callback B d r c = .ok { disk := d, refs := r, sent := [.err ENOSYS], fault := none } := by
  apply C72_unsupported
  rcases hc with ⟨_, _, _, _, rfl⟩ | ⟨_, _, _, _, rfl⟩ | ⟨_, _, _, rfl⟩ | ⟨_, _, rfl⟩ | ⟨_, _, rfl⟩ | ⟨_, _, _, rfl⟩ | ⟨_, _, _, _, _, rfl⟩ | ⟨_, _, _, rfl⟩ | ⟨_, _, _, _, _, rfl⟩ |
    ⟨_, _, _, _, rfl⟩ | ⟨_, _, _, _, _, rfl⟩ | ⟨_, _, rfl⟩ | ⟨_, _, _, _, rfl⟩ | ⟨_, _, _, _, rfl⟩ | ⟨_, _, _, _, _, rfl⟩ | ⟨_, _, _, _, _, _, _, _, rfl⟩ <;> exact id

theorem cstr_append {n : Bytes} (hn : (0 : UInt8) ∉ n) (m : Bytes) : cstr (n ++ 0 :: m) = n := by
  induction n with
  | nil => rfl
  | cons c n ih =>
    rw [List.mem_cons] at hn
    have h1 : c ≠ 0 := fun h => hn (.inl h.symm)
    show (if c = 0 then [] else c :: cstr (n ++ 0 :: m)) = _
    rw [if_neg h1, ih (fun h => hn (.inr h))]

/-- C72: the supported callbacks are served as the request they stand for: the inode, the name (a C
string in memory), the size and the offset are those which libfuse passed; of `forget_multi` exactly
`count` elements count. -/
theorem C72_supported (B : Backend) (d : DB) (r : Refs) (i fi size off nlookup : Nat) (n mem : Bytes) (hn : (0 : UInt8) ∉ n) (l rest : List (Ino × Nat)) :
    callback B d r (.lookup i (n ++ 0 :: mem)) = dispatch B d r (.lookup i n) ∧
    callback B d r (.forget i nlookup) = dispatch B d r (.forget i nlookup) ∧
    callback B d r (.forgetMulti l.length (l ++ rest)) = dispatch B d r (.forgetMulti l) ∧
    callback B d r (.getattr i fi) = dispatch B d r (.getattr i) ∧
    callback B d r (.readlink i) = dispatch B d r (.readlink i) ∧
    callback B d r (.opendir i fi) = dispatch B d r (.opendir i) ∧
    callback B d r (.readdir i size off fi) = dispatch B d r (.readdir i size off) ∧
    callback B d r (.readdirplus i size off fi) = dispatch B d r (.readdirplus i size off) ∧
    callback B d r (.releasedir i fi) = dispatch B d r (.releasedir i) := by
  refine ⟨?_, rfl, ?_, rfl, rfl, rfl, rfl, rfl, rfl⟩
  · show dispatch B d r (.lookup i (cstr _)) = _
    rw [cstr_append hn]
  · show dispatch B d r (.forgetMulti ((l ++ rest).take l.length)) = _
    rw [List.take_left]

/-- The turns with a supported callback, with the answers they got. -/
def supportedOnly : List Turn → List (List Reply) → List (List Reply)
  | t :: l, a :: as => if Supported t.cb then a :: supportedOnly l as else supportedOnly l as
  | _, _ => []

/-- C72: attempts to do what is not supported do not disturb a session: any number of them, anywhere
in it, leave the answers to all other requests and the state at the end as they would be without. -/
theorem C72_history {l : List Turn} {s s' : DB × Refs} {as : List (List Reply)} (h : run l s = .ok (s', as)) :
    run (l.filter (fun t => decide (Supported t.cb))) s = .ok (s', supportedOnly l as) ∧
    as.length = l.length ∧ ∀ (k : Nat) (t : Turn) (a : List Reply), l[k]? = some t → as[k]? = some a → ¬ Supported t.cb → a = [.err ENOSYS] := by
  induction l generalizing s as with
  | nil =>
    cases h
    exact ⟨rfl, rfl, fun k t a hk => by simp at hk⟩
  | cons t l ih =>
    unfold run at h
    by_cases hs : Supported t.cb
    · rw [List.filter_cons_of_pos (by simpa using hs)]
      unfold run
      cases h1 : callback t.backend s.1 s.2 t.cb with
      | error f => rw [h1] at h; cases h
      | ok st =>
        rw [h1] at h
        simp only [bind_ok] at h ⊢
        cases h2 : st.fault with
        | some f => rw [h2] at h; cases h
        | none =>
          rw [h2] at h
          simp only at h ⊢
          cases h3 : run l (st.disk, st.refs) with
          | error f => rw [h3] at h; cases h
          | ok x =>
            obtain ⟨s1, a1⟩ := x
            rw [h3] at h
            cases h
            obtain ⟨g1, g2, g3⟩ := ih h3
            rw [g1]
            refine ⟨?_, by simp [g2], ?_⟩
            · simp only [supportedOnly, if_pos hs]; rfl
            · intro k t' a hk ha hn
              cases k with
              | zero => simp at hk; subst hk; exact absurd hs hn
              | succ k => exact g3 k t' a (by simpa using hk) (by simpa using ha) hn
    · rw [List.filter_cons_of_neg (by simpa using hs)]
      rw [C72_unsupported hs] at h
      simp only [bind_ok] at h
      cases h3 : run l (s.1, s.2) with
      | error f => rw [h3] at h; cases h
      | ok x =>
        obtain ⟨s1, a1⟩ := x
        rw [h3] at h
        cases h
        obtain ⟨g1, g2, g3⟩ := ih h3
        refine ⟨?_, by simp [g2], ?_⟩
        · simp only [supportedOnly, if_neg hs]; exact g1
        · intro k t' a hk ha hn
          cases k with
          | zero => simp at ha; exact ha.symm
          | succ k => exact g3 k t' a (by simpa using hk) (by simpa using ha) hn

/-- A session: an attempt to make a directory, `getattr` of the root, an attempt to write. -/
def demoTurns : List Turn := [⟨tblA.backend, .mkdir 1 [0x61, 0] 0o755⟩, ⟨tblA.backend, .getattr 1 0⟩, ⟨tblA.backend, .write 1 [0x61] 1 0 0⟩]

/-- A history as in `C72_history`, with callbacks of `C72_unsupported` (and so `C72_read_only`) and `C72_supported`. -/
example : ∃ s' as, run demoTurns (initDB emptyDB 0 0 ⟨0, 0⟩, Refs.empty) = .ok (s', as) ∧ as.length = 3 ∧ as[0]? = some [.err ENOSYS] ∧
    (∃ st, as[1]? = some [.attr st] ∧ st.ino = 1) ∧ as[2]? = some [.err ENOSYS] := by
  have h : (match run demoTurns (initDB emptyDB 0 0 ⟨0, 0⟩, Refs.empty) with
    | .ok x => match x.2 with
      | [[.err a], [.attr st], [.err b]] => decide (a = ENOSYS ∧ st.ino = 1 ∧ b = ENOSYS)
      | _ => false
    | .error _ => false) = true := by decide +kernel
  cases hx : run demoTurns (initDB emptyDB 0 0 ⟨0, 0⟩, Refs.empty) with
  | error f => rw [hx] at h; cases h
  | ok x =>
    rw [hx] at h
    obtain ⟨s', as⟩ := x
    simp only at h
    split at h
    · rename_i a st b
      obtain ⟨h1, h2, h3⟩ := of_decide_eq_true h
      rw [h1, h3]
      exact ⟨s', _, rfl, rfl, rfl, ⟨st, rfl, h2⟩, rfl⟩
    · cases h
/-- A name in memory. -/
example : cstr [0x61, 0x62, 0, 0x63] = [0x61, 0x62] := cstr_append (n := [0x61, 0x62]) (by decide) [0x63]

end Dragonstash.Fuse
