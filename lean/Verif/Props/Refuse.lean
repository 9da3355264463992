/-
  C105: a database which refuses to be written.
-/
import Verif.Cache.RefuseRun
import Verif.Props.CacheTxn
namespace Dragonstash.Cache
open Codec

/-! ### Locking and releasing a set of inodes inside a transaction -/

theorem refs_ext {r r' : Refs} (h1 : ∀ i, (r i).nrefs = (r' i).nrefs) (h2 : ∀ i, (r i).doomed = true ↔ (r' i).doomed = true) : r = r' := by
  funext i
  have a := h1 i
  have b := h2 i
  cases hx : r i with
  | mk n d =>
    cases hy : r' i with
    | mk n' d' =>
      rw [hx, hy] at a b
      simp only at a b
      subst a
      have : d = d' := by cases d <;> cases d' <;> simp_all
      subst this; rfl

/-- Worlds are closed under locking and releasing in the innermost transaction. -/
def Closed (R : World → Prop) : Prop := ∀ w o w' out, R w → (∃ i, o = .lock i) ∨ (∃ i n, o = .release i n) → Allowed w (.op o) →
  w.step (.op o) = .ok (w', out) → R w'

/-- The reference table with the inodes of a list locked once. -/
def heldRefs (r : Refs) (K : List Ino) : Refs := fun i => if i ∈ K then { r i with nrefs := (r i).nrefs + 1 } else r i

theorem hold_step {w : World} {f : Frame} {rest : List Frame} {i : Ino} (hst : w.stack = f :: rest) (hd : (w.refs i).doomed = false)
    (hn : (w.refs i).nrefs + 1 < W64) :
    w.step (.op (.lock i)) = .ok ({ w with refs := w.refs.set i { w.refs i with nrefs := (w.refs i).nrefs + 1 }, stack := { f with hooks := f.hooks ++ [.unlock i] } :: rest }, .unit (.ok ())) := by
  have hu : u64 ((w.refs i).nrefs + 1) = (w.refs i).nrefs + 1 := Nat.mod_eq_of_lt hn
  have hl : lock (f.txn w.refs) i = ({ f.txn w.refs with refs := w.refs.set i { w.refs i with nrefs := (w.refs i).nrefs + 1 }, hooks := f.hooks ++ [.unlock i] }, .ok ()) := by
    unfold lock Refs.incref
    show (match (if (w.refs i).doomed then _ else _ : Refs × Res Nat) with | (_, .error e) => _ | (r, .ok _) => _) = _
    rw [if_neg (by rw [hd]; simp)]
    show (_, _) = (_, _)
    rw [show u64 (((f.txn w.refs).refs i).nrefs + 1) = (w.refs i).nrefs + 1 from hu]
    rfl
  simp only [World.step, hst]
  rw [if_neg (by simp [Op.isRO])]
  simp only [doOp, hl, bind_ok, pure_eq_ok]
  rfl

theorem hold_all {R : World → Prop} (hR : Closed R) : ∀ (K : List Ino) {w : World} {f : Frame} {rest : List Frame}, R w → w.stack = f :: rest → K.Nodup →
    (∀ i ∈ K, i < W64 ∧ (w.refs i).doomed = false ∧ (w.refs i).nrefs = 0) →
    R { w with refs := heldRefs w.refs K, stack := { f with hooks := f.hooks ++ K.map .unlock } :: rest }
  | [], w, f, rest, h, hst, _, _ => by
    have e : ({ w with refs := heldRefs w.refs [], stack := { f with hooks := f.hooks ++ ([] : List Ino).map .unlock } :: rest } : World) = w := by
      have h1 : heldRefs w.refs [] = w.refs := by funext i; simp [heldRefs]
      rw [h1, List.map_nil, List.append_nil, ← hst]
    rw [e]; exact h
  | i :: K, w, f, rest, h, hst, hnd, hK => by
    obtain ⟨hi1, hi2, hi3⟩ := hK i (by simp)
    have hlt : (w.refs i).nrefs + 1 < W64 := by rw [hi3]; decide
    have hs := hold_step hst hi2 hlt
    have h1 := hR w (.lock i) _ _ h (.inl ⟨i, rfl⟩) ⟨hi1, fun g r hg => by simpa using hlt⟩ hs
    obtain ⟨hni, hnd'⟩ := List.nodup_cons.mp hnd
    have hset : ∀ j, j ≠ i → (w.refs.set i { w.refs i with nrefs := (w.refs i).nrefs + 1 }) j = w.refs j := by
      intro j hj; unfold Refs.set; rw [if_neg hj]
    have h2 := hold_all hR K h1 rfl hnd' (fun j hj => by
      have hji : j ≠ i := by rintro rfl; exact hni hj
      simp only [hset j hji]
      exact hK j (by simp [hj]))
    have e1 : heldRefs (w.refs.set i { w.refs i with nrefs := (w.refs i).nrefs + 1 }) K = heldRefs w.refs (i :: K) := by
      funext j
      unfold heldRefs
      by_cases hj : j ∈ K
      · have hji : j ≠ i := by rintro rfl; exact hni hj
        rw [if_pos hj, if_pos (by simp [hj]), hset j hji]
      · rw [if_neg hj]
        by_cases hji : j = i
        · subst hji; rw [if_pos (by simp)]; unfold Refs.set; rw [if_pos rfl]
        · rw [if_neg (by simp [hj, hji]), hset j hji]
    simp only at h2
    rw [e1, List.append_assoc] at h2
    exact h2

/-- The reference table with the inodes of a list released. -/
def freedRefs (r : Refs) (K : List Ino) : Refs := fun i => if i ∈ K then { r i with nrefs := (r i).nrefs - 1 } else r i

theorem free_step {w : World} {f : Frame} {rest : List Frame} {i : Ino} (hst : w.stack = f :: rest) (hn : (w.refs i).nrefs = 1) :
    w.step (.op (.release i 1)) = .ok ({ w with refs := w.refs.set i { w.refs i with nrefs := (w.refs i).nrefs - 1 }, stack := { f with hooks := f.hooks ++ [.relock i 1] } :: rest }, .unit (.ok ())) := by
  have hl : release (f.txn w.refs) i 1 = .ok ({ f.txn w.refs with refs := w.refs.set i { w.refs i with nrefs := (w.refs i).nrefs - 1 }, hooks := f.hooks ++ [.relock i 1] }, .ok ()) := by
    have hdec : (f.txn w.refs).refs.decref i 1 = .ok (w.refs.set i { w.refs i with nrefs := (w.refs i).nrefs - 1 }, .ok ((w.refs i).nrefs - 1)) := by
      unfold Refs.decref
      rw [if_neg (by decide), if_neg (by show ¬ (w.refs i).nrefs < 1; omega)]
      rfl
    unfold release
    rw [if_neg (by decide), hdec]
    rfl
  simp only [World.step, hst]
  rw [if_neg (by simp [Op.isRO])]
  simp only [doOp, hl, bind_ok, pure_eq_ok]
  rfl

theorem free_all {R : World → Prop} (hR : Closed R) : ∀ (K : List Ino) {w : World} {f : Frame} {rest : List Frame}, R w → w.stack = f :: rest → K.Nodup →
    (∀ i ∈ K, i < W64 ∧ (w.refs i).nrefs = 1) →
    R { w with refs := freedRefs w.refs K, stack := { f with hooks := f.hooks ++ K.map (fun i => .relock i 1) } :: rest }
  | [], w, f, rest, h, hst, _, _ => by
    have e : ({ w with refs := freedRefs w.refs [], stack := { f with hooks := f.hooks ++ ([] : List Ino).map (fun i => .relock i 1) } :: rest } : World) = w := by
      have h1 : freedRefs w.refs [] = w.refs := by funext i; simp [freedRefs]
      rw [h1, List.map_nil, List.append_nil, ← hst]
    rw [e]; exact h
  | i :: K, w, f, rest, h, hst, hnd, hK => by
    obtain ⟨hi1, hi3⟩ := hK i (by simp)
    have hs := free_step hst hi3
    have h1 := hR w (.release i 1) _ _ h (.inr ⟨i, 1, rfl⟩) ⟨⟨hi1, by decide⟩, fun g r hg => trivial⟩ hs
    obtain ⟨hni, hnd'⟩ := List.nodup_cons.mp hnd
    have hset : ∀ j, j ≠ i → (w.refs.set i { w.refs i with nrefs := (w.refs i).nrefs - 1 }) j = w.refs j := by
      intro j hj; unfold Refs.set; rw [if_neg hj]
    have h2 := free_all hR K h1 rfl hnd' (fun j hj => by
      have hji : j ≠ i := by rintro rfl; exact hni hj
      simp only [hset j hji]
      exact hK j (by simp [hj]))
    have e1 : freedRefs (w.refs.set i { w.refs i with nrefs := (w.refs i).nrefs - 1 }) K = freedRefs w.refs (i :: K) := by
      funext j
      unfold freedRefs
      by_cases hj : j ∈ K
      · have hji : j ≠ i := by rintro rfl; exact hni hj
        rw [if_pos hj, if_pos (by simp [hj]), hset j hji]
      · rw [if_neg hj]
        by_cases hji : j = i
        · subst hji; rw [if_pos (by simp)]; unfold Refs.set; rw [if_pos rfl]
        · rw [if_neg (by simp [hj, hji]), hset j hji]
    simp only at h2
    rw [e1, List.append_assoc] at h2
    exact h2

theorem undoAll_append (a b : List Undo) : ∀ r : Refs, undoAll r (a ++ b) = (undoAll r a >>= fun r' => undoAll r' b) := by
  induction a with
  | nil => intro r; rfl
  | cons u a ih =>
    intro r
    simp only [List.cons_append, undoAll]
    cases undo r u with
    | error e => rfl
    | ok r1 => simp only [bind_ok]; exact ih r1

/-- Holding and freeing a set of inodes which nobody holds cancels out. -/
theorem fwd_hold : ∀ (K : List Ino) {c : Ino → Nat}, K.Nodup → (∀ i ∈ K, c i = 0) →
    Fwd c (K.map .unlock) (fun i => if i ∈ K then 1 else c i)
  | [], c, _, _ => by simpa using Fwd.nil
  | i :: K, c, hnd, hc => by
    obtain ⟨hni, hnd'⟩ := List.nodup_cons.mp hnd
    have h1 : Fwd c [.unlock i] (fun j => if j = i then c i + 1 else c j) := by
      have := Fwd.lock (i := i) (Fwd.nil (c := c)) (by rw [hc i (by simp)]; decide)
      simpa using this
    have h2 := fwd_hold K (c := fun j => if j = i then c i + 1 else c j) hnd' (fun j hj => by
      have hji : j ≠ i := by rintro rfl; exact hni hj
      simp only [if_neg hji]; exact hc j (by simp [hj]))
    have h3 := h1.trans h2
    have e : (fun j => if j ∈ K then 1 else if j = i then c i + 1 else c j) = (fun j => if j ∈ i :: K then 1 else c j) := by
      funext j
      by_cases hj : j ∈ K
      · rw [if_pos hj, if_pos (by simp [hj])]
      · rw [if_neg hj]
        by_cases hji : j = i
        · subst hji; rw [if_pos rfl, if_pos (by simp), hc j (by simp)]
        · rw [if_neg hji, if_neg (by simp [hj, hji])]
    rw [e] at h3
    exact h3

theorem fwd_free : ∀ (K : List Ino) {c : Ino → Nat}, K.Nodup → (∀ i ∈ K, c i = 1) →
    Fwd c (K.map (fun i => .relock i 1)) (fun i => if i ∈ K then 0 else c i)
  | [], c, _, _ => by simpa using Fwd.nil
  | i :: K, c, hnd, hc => by
    obtain ⟨hni, hnd'⟩ := List.nodup_cons.mp hnd
    have hci := hc i (by simp)
    have h1 : Fwd c [.relock i 1] (fun j => if j = i then c i - 1 else c j) := by
      have := Fwd.release (i := i) (n := 1) (Fwd.nil (c := c)) (by decide) (by omega) (by rw [hci]; decide)
      simpa using this
    have h2 := fwd_free K (c := fun j => if j = i then c i - 1 else c j) hnd' (fun j hj => by
      have hji : j ≠ i := by rintro rfl; exact hni hj
      simp only [if_neg hji]; exact hc j (by simp [hj]))
    have h3 := h1.trans h2
    have e : (fun j => if j ∈ K then 0 else if j = i then c i - 1 else c j) = (fun j => if j ∈ i :: K then 0 else c j) := by
      funext j
      by_cases hj : j ∈ K
      · rw [if_pos hj, if_pos (by simp [hj])]
      · rw [if_neg hj]
        by_cases hji : j = i
        · subst hji; rw [if_pos rfl, if_pos (by simp), hci]
        · rw [if_neg hji, if_neg (by simp [hj, hji])]
    rw [e] at h3
    exact h3

theorem gone_mono {s : Tree} {L L' : Ino → Prop} (h : ∀ i, L i → L' i) {i : Ino} (hg : Gone s L' i) : Gone s L i := by
  induction hg with
  | orphan h1 h2 h3 h4 => exact .orphan h1 h2 h3 (fun hl => h4 (h _ hl))
  | child h1 h2 _ h4 h5 ih => exact .child h1 h2 ih h4 (fun hl => h5 (h _ hl))

/-- The hooks of a transaction do not matter to calls other than `lock` and `release`. -/
theorem doOp_hooks_irrel {t t' : Txn} {o : Op} {out : Out} (h : doOp t o = .ok (t', out)) (ho : o.isRO = false) (hs : List Undo) :
    doOp { t with hooks := hs } o = .ok ({ t' with hooks := hs }, out) := by
  have hclean : ∀ {t t' : Txn} {v : Res Unit}, clean t = .ok (t', v) → clean { t with hooks := hs } = .ok ({ t' with hooks := hs }, v) := by
    intro t t' v h
    unfold clean at h ⊢
    cases hc : cleanOrphans t.db t.refs with
    | error e => rw [hc] at h; cases h
    | ok q => rw [hc] at h; cases h; simp only [hc]; rfl
  have hnew : ∀ {t t' : Txn} {d : DB} {p n a} {v : Res Ino}, emplaceNew t d p n a = .ok (t', v) → emplaceNew { t with hooks := hs } d p n a = .ok ({ t' with hooks := hs }, v) := by
    intro t t' d p n a v h
    unfold emplaceNew at h ⊢
    cases ha : allocNext d with
    | error e => rw [ha] at h; cases h
    | ok q =>
      obtain ⟨d1, i⟩ := q
      rw [ha] at h
      simp only [bind_ok] at h ⊢
      cases hc : cleanOrphans { d1 with
        inodes := d1.inodes.put (key8 i) (mkInode a p), treen := d1.treen.put (keyN p n) (mkEnt i n), treei := d1.treei.put (key16 p i) (mkEnt i n) } t.refs with
      | error e => rw [hc] at h; cases h
      | ok q => rw [hc] at h; cases h; rfl
  have hunl : ∀ {t t' : Txn} {i} {v : Res Unit}, unlinkIno t i = .ok (t', v) → unlinkIno { t with hooks := hs } i = .ok ({ t' with hooks := hs }, v) := by
    intro t t' i v h
    unfold unlinkIno at h ⊢
    cases hm : makeOrphan t.db i with
    | mk d1 res =>
      rw [hm] at h
      simp only [hm]
      cases res with
      | error e => cases h; rfl
      | ok u => cases u; exact hclean h
  have lift : ∀ {β : Type} {m m' : M (Txn × β)} {g : β → Out}, (∀ t1 v, m = .ok (t1, v) → m' = .ok ({ t1 with hooks := hs }, v)) →
      (do let (t', r) ← m; pure (t', g r)) = (.ok (t', out) : M (Txn × Out)) → (do let (t', r) ← m'; pure (t', g r)) = (.ok ({ t' with hooks := hs }, out) : M (Txn × Out)) := by
    intro β m m' g hm he
    cases hx : m with
    | error e => rw [hx] at he; cases he
    | ok q =>
      obtain ⟨t1, v⟩ := q
      rw [hm t1 v hx]
      rw [hx] at he; cases he; rfl
  cases o with
  | emplace p n a =>
    refine lift ?_ h
    intro t1 v he
    unfold emplace at he ⊢
    cases hc : checkName n true with
    | error e => rw [hc] at he; cases he; rfl
    | ok u =>
      cases u
      rw [hc] at he
      simp only at he ⊢
      cases hf : t.db.treen.find (keyN p n) with
      | none => rw [hf] at he; exact hnew he
      | some e =>
        rw [hf] at he
        simp only at he ⊢
        cases hi : t.db.inodes.find (key8 e.ino) with
        | none => rw [hi] at he; cases he
        | some old =>
          rw [hi] at he
          simp only at he ⊢
          by_cases hm : fmt old.attr.mode = fmt a.mode
          · rw [if_pos hm] at he ⊢; cases he; rfl
          · rw [if_neg hm] at he ⊢; exact hnew he
  | unlinkIno i => exact lift (fun t1 v he => hunl he) h
  | unlinkName p n =>
    refine lift ?_ h
    intro t1 v he
    unfold unlinkName at he ⊢
    simp only
    cases hf : t.db.treen.find (keyN p n) with
    | none => rw [hf] at he; cases he; rfl
    | some e => rw [hf] at he; exact hunl he
  | clean => exact lift (fun t1 v he => hclean he) h
  | writelink i dest =>
    simp only [doOp] at h ⊢
    cases h
    unfold writelink
    simp only
    cases t.db.inodes.find (key8 i) with
    | none => rfl
    | some n =>
      simp only
      by_cases hm : fmt n.attr.mode ≠ S_IFLNK
      · rw [if_pos hm, if_pos hm]
      · rw [if_neg hm, if_neg hm]
  | updateFlags i a b =>
    simp only [doOp] at h ⊢
    cases h
    unfold updateFlags
    simp only
    cases t.db.inodes.find (key8 i) <;> rfl
  | startRewrite dir =>
    refine lift ?_ h
    intro t1 v he
    unfold startRewrite at he ⊢
    simp only
    cases hr : t.rewrite with
    | some l => rw [hr] at he; cases he; simp only [hr]
    | none =>
      rw [hr] at he
      simp only at he ⊢
      cases hl : t.db.treei.lower (key8 dir) with
      | nil => rw [hl] at he; cases he; simp only [hr]
      | cons e l =>
        rw [hl] at he
        simp only at he ⊢
        cases hc : collectKids dir (e :: l) [] with
        | error x => rw [hc] at he; cases he
        | ok q => rw [hc] at he; cases he; rfl
  | finishRewrite =>
    simp only [doOp] at h ⊢
    cases h
    unfold finishRewrite
    cases t with
    | mk d r rw hk => cases rw <;> rfl
  | _ => cases ho

/-! ### A refused call is like one which was not refused -/

theorem refused_writes {t : Txn} {o : Op} {n : Nat} {r' : Refs} (h : doOpX t n o = .ok (.refused r')) : o.isRO = false := by
  have triv : (∀ n, doOpX t n o = (do let (t', out) ← doOp t o; pure (.done t' out))) → o.isRO = false := by
    intro he
    rw [he] at h
    cases hd : doOp t o with
    | error e => rw [hd] at h; cases h
    | ok v => rw [hd] at h; cases h
  cases o with
  | lookup p n => exact triv (fun _ => rfl)
  | getattr i => exact triv (fun _ => rfl)
  | readlink i => exact triv (fun _ => rfl)
  | readdir dir prev => exact triv (fun _ => rfl)
  | path i => exact triv (fun _ => rfl)
  | name i => exact triv (fun _ => rfl)
  | parent i => exact triv (fun _ => rfl)
  | testFlag i f => exact triv (fun _ => rfl)
  | lock i => exact triv (fun _ => rfl)
  | release i n => exact triv (fun _ => rfl)
  | _ => rfl

theorem step_refused {w w' : World} {o : Op} {n : Nat} {ab : Bool} (hs : w.stepX (.refused o n ab) = .ok w') :
    ∃ f r refs, w.stack = f :: r ∧ f.ro = false ∧ o.isRO = false ∧ doOpX (f.txn w.refs) n o = .ok (.refused refs) ∧
      ((ab = false ∧ w' = { w with refs := refs, stack := r }) ∨
       (ab = true ∧ ∃ r2, undoAll refs f.hooks.reverse = .ok r2 ∧ w' = { w with refs := r2, stack := r })) := by
  simp only [World.stepX] at hs
  cases hst : w.stack with
  | nil => rw [hst] at hs; cases hs
  | cons f r =>
    rw [hst] at hs
    simp only at hs
    by_cases hro : (f.ro && !o.isRO) = true
    · rw [if_pos hro] at hs; cases hs
    · rw [if_neg hro] at hs
      cases hx : doOpX (f.txn w.refs) n o with
      | error e => rw [hx] at hs; cases hs
      | ok v =>
        rw [hx] at hs
        cases v with
        | done t out => cases hs
        | refused refs =>
          have hisro := refused_writes hx
          refine ⟨f, r, refs, rfl, ?_, hisro, hx, ?_⟩
          · rw [hisro] at hro; simpa using hro
          · cases ab with
            | false => left; cases hs; exact ⟨rfl, rfl⟩
            | true =>
              right
              simp only [bind_ok, if_true] at hs
              cases hu : undoAll refs f.hooks.reverse with
              | error e => rw [hu] at hs; cases hs
              | ok r2 => rw [hu] at hs; cases hs; exact ⟨rfl, r2, rfl, rfl⟩

/-- Refused calls lead nowhere where other calls would not lead. -/
theorem refused_reach {R : World → Prop} (hI : ∀ w, R w → Reach w) (hR : Closed R)
    (hfin : ∀ w c w' out, R w → (c = .drop ∨ c = .abort) → w.step c = .ok (w', out) → R w')
    {w w' : World} {o : Op} {n : Nat} {ab : Bool} (h : R w) (ha : Allowed w (.op o))
    (hop : ∀ w1 w2 out, R w1 → (∀ f r, w.stack = f :: r → ∃ hs, w1.stack = { f with hooks := hs } :: r) → Allowed w1 (.op o) →
      w1.step (.op o) = .ok (w2, out) → R w2)
    (hs : w.stepX (.refused o n ab) = .ok w') : R w' := by
  obtain ⟨f, rest, refs, hst, hro, hw, hx, hend⟩ := step_refused hs
  -- the end of the transaction, from a state which differs in the contents of the transaction only
  have final : ∀ (w1 : World) (g : Frame) (H : List Undo), R w1 → w1.disk = w.disk → w1.phase = w.phase → w1.refs = refs → w1.stack = g :: rest →
      g.hooks = f.hooks ++ H → undoAll refs H.reverse = .ok refs → R w' := by
    intro w1 g H h1 e1 e2 e3 e4 e5 e6
    rcases hend with ⟨-, rfl⟩ | ⟨-, r2, hu, rfl⟩
    · have : ({ w with refs := refs, stack := rest } : World) = { w1 with stack := rest } := by
        cases w1; cases w; simp only at e1 e2 e3; subst e1 e2 e3; rfl
      rw [this]
      refine hfin w1 .drop _ (.unit (.ok ())) h1 (.inl rfl) ?_
      simp only [World.step, e4]
    · have : ({ w with refs := r2, stack := rest } : World) = { w1 with refs := r2, stack := rest } := by
        cases w1; cases w; simp only at e1 e2 e3; subst e1 e2; rfl
      rw [this]
      refine hfin w1 .abort _ (.unit (.ok ())) h1 (.inr rfl) ?_
      simp only [World.step, e4, e5, e3, List.reverse_append, undoAll_append, e6, bind_ok, hu, pure_eq_ok]
  obtain ⟨hgood, -⟩ := (hI w h).inv.frames f (by rw [hst]; simp)
  obtain ⟨s, hrep, ok⟩ := hgood
  have hrefs := (hI w h).refsOK
  have hint := doOpX_refused (t := f.txn w.refs) ⟨hrep, ok⟩ ha.1 (by
    rintro p m a rfl
    have := ha.2 f rest hst
    exact ⟨this.1, this.2 _ hrep.next⟩) hx
  rcases hint with hsame | ⟨s1, ok1, ⟨D, hD1, hD2, hD3⟩, hgo⟩
  · exact final w f [] h rfl rfl hsame.symm hst (by simp) rfl
  · -- the inodes which are not to be removed are held
    have hDr : ∀ i, (refs i).nrefs = (w.refs i).nrefs ∧ ((refs i).doomed = true ↔ (w.refs i).doomed = true ∨ D i) := hD1
    have hD0 : ∀ i, D i → (w.refs i).nrefs = 0 := hD2
    obtain ⟨K, hnd, hK⟩ : ∃ K : List Ino, K.Nodup ∧ ∀ i, i ∈ K ↔ i < s1.next ∧ Gone s1 (locked w.refs) i ∧ ¬ D i ∧ (w.refs i).doomed = false := by
      classical
      refine ⟨(List.range s1.next).filter (fun i => decide (Gone s1 (locked w.refs) i ∧ ¬ D i ∧ (w.refs i).doomed = false)), ?_, fun i => ?_⟩
      · exact (List.nodup_range).filter _
      · rw [List.mem_filter, List.mem_range, decide_eq_true_iff]
    have hK0 : ∀ i ∈ K, (w.refs i).nrefs = 0 := by
      intro i hi
      have := ((hK i).mp hi).2.1.not_locked
      unfold locked at this; omega
    have hKlt : ∀ i ∈ K, i < W64 := fun i hi => Nat.lt_trans ((hK i).mp hi).1 ok1.next_lt
    have hKd : ∀ i ∈ K, (w.refs i).doomed = false := fun i hi => ((hK i).mp hi).2.2.2
    have h1 := hold_all hR K h hst hnd (fun i hi => ⟨hKlt i hi, hKd i hi, hK0 i hi⟩)
    obtain ⟨s', t', out, he, hc⟩ := hgo (heldRefs w.refs K)
    -- the call, not refused
    have hstep : World.step { w with refs := heldRefs w.refs K, stack := { f with hooks := f.hooks ++ K.map .unlock } :: rest } (.op o) =
        .ok ({ w with refs := t'.refs, stack := ⟨t'.db, t'.rewrite, f.hooks ++ K.map .unlock, f.ro⟩ :: rest }, out) := by
      have hk := doOp_hooks_irrel he hw (f.hooks ++ K.map .unlock)
      simp only [World.step]
      rw [if_neg (by rw [hro]; simp)]
      have : Frame.txn { f with hooks := f.hooks ++ K.map .unlock } (heldRefs w.refs K) = { f.txn w.refs with refs := heldRefs w.refs K, hooks := f.hooks ++ K.map .unlock } := rfl
      rw [this, hk]
      rfl
    have h2 := hop _ _ _ h1 (fun f' r' hf' => by rw [hst] at hf'; cases hf'; exact ⟨_, rfl⟩) (by
      refine ⟨ha.1, fun g r hg => ?_⟩
      cases hg
      have := ha.2 f rest hst
      cases o <;> first | trivial | exact this | cases hw) hstep
    have hheld : ∀ i, locked (heldRefs w.refs K) i ↔ locked w.refs i ∨ i ∈ K := by
      intro i
      unfold locked heldRefs
      by_cases hi : i ∈ K
      · rw [if_pos hi]; simp [hi]
      · rw [if_neg hi]; simp [hi]
    have hcr : ∀ i, (t'.refs i).nrefs = (heldRefs w.refs K i).nrefs ∧ ((t'.refs i).doomed = true ↔ (heldRefs w.refs K i).doomed = true ∨ Gone s1 (locked (heldRefs w.refs K)) i) := hc.refs
    have hone : ∀ i ∈ K, (t'.refs i).nrefs = 1 := by
      intro i hi
      rw [(hcr i).1]; unfold heldRefs; rw [if_pos hi]
      show (w.refs i).nrefs + 1 = 1
      rw [hK0 i hi]
    have h3 := free_all hR K h2 rfl hnd (fun i hi => ⟨hKlt i hi, hone i hi⟩)
    simp only at h3
    have hrefs' : freedRefs t'.refs K = refs := by
      refine refs_ext (fun i => ?_) (fun i => ?_)
      · rw [(hDr i).1]
        unfold freedRefs
        by_cases hi : i ∈ K
        · rw [if_pos hi]
          show (t'.refs i).nrefs - 1 = _
          rw [hone i hi, hK0 i hi]
        · rw [if_neg hi, (hcr i).1]; unfold heldRefs; rw [if_neg hi]
      · have hdm : (freedRefs t'.refs K i).doomed = (t'.refs i).doomed := by
          unfold freedRefs; by_cases hi : i ∈ K
          · rw [if_pos hi]
          · rw [if_neg hi]
        have hdh : (heldRefs w.refs K i).doomed = (w.refs i).doomed := by
          unfold heldRefs; by_cases hi : i ∈ K
          · rw [if_pos hi]
          · rw [if_neg hi]
        rw [hdm, (hcr i).2, hdh, (hDr i).2]
        constructor
        · rintro (hq | hq)
          · exact .inl hq
          · have hnk : i ∉ K := fun hi => hq.not_locked ((hheld i).mpr (.inr hi))
            have hg : Gone s1 (locked w.refs) i := gone_mono (fun j hj => (hheld j).mpr (.inl hj)) hq
            by_cases hd : (w.refs i).doomed = true
            · exact .inl hd
            · right
              by_cases hDi : D i
              · exact hDi
              · refine absurd ((hK i).mpr ⟨?_, hg, hDi, by simpa using hd⟩) hnk
                obtain ⟨nd, hnd⟩ := hg.exists_
                exact (ok1.bound i nd hnd).2
        · rintro (hq | hq)
          · exact .inl hq
          · refine .inr (hD3 _ (fun j hj hl => ?_) i hq)
            rcases (hheld j).mp hl with hl | hl
            · have := hD0 j hj; unfold locked at hl; omega
            · exact ((hK j).mp hl).2.2.1 hj
    refine final _ _ (K.map .unlock ++ K.map (fun i => .relock i 1)) h3 rfl rfl hrefs' rfl (by simp) ?_
    -- holding and freeing cancel
    have c0 : ∀ i ∈ K, (fun i => (refs i).nrefs) i = 0 := fun i hi => by show (refs i).nrefs = 0; rw [(hDr i).1]; exact hK0 i hi
    have f1 := fwd_hold K hnd c0
    have f2 := fwd_free K (c := fun i => if i ∈ K then 1 else (refs i).nrefs) hnd (fun i hi => by rw [if_pos hi])
    have f3 := f1.trans f2
    have hend' : ∀ i, (refs i).nrefs = (fun i => if i ∈ K then 0 else if i ∈ K then 1 else (refs i).nrefs) i := by
      intro i
      simp only
      by_cases hi : i ∈ K
      · rw [if_pos hi]; exact c0 i hi
      · rw [if_neg hi, if_neg hi]
    obtain ⟨g1, g2⟩ := f3.undo hend'
    obtain ⟨r3, hr3⟩ := g2 (fun i m hm => by
      rw [List.mem_append] at hm
      rcases hm with hm | hm
      · obtain ⟨j, -, hj⟩ := List.mem_map.mp hm; cases hj
      · obtain ⟨j, hj, hj'⟩ := List.mem_map.mp hm
        cases hj'
        cases hq : (refs i).doomed with
        | false => rfl
        | true =>
          rcases (hDr i).2.mp hq with hq | hq
          · rw [hKd i hj] at hq; cases hq
          · exact absurd hq ((hK i).mp hj).2.2.1)
    obtain ⟨g3, g4⟩ := g1 r3 hr3
    rw [hr3]
    have : r3 = refs := refs_ext g3 (fun i => by rw [g4 i])
    rw [this]

/-! ### The property -/

theorem step_call {w w' : World} {c : Call} (h : w.stepX (.call c) = .ok w') : ∃ out, w.step c = .ok (w', out) := by
  simp only [World.stepX] at h
  cases hs : w.step c with
  | error e => rw [hs] at h; cases h
  | ok v => obtain ⟨w1, out⟩ := v; rw [hs] at h; cases h; exact ⟨out, rfl⟩

theorem step_commitRefused {w w' : World} (h : w.stepX .commitRefused = .ok w') : w.step .drop = .ok (w', .unit (.ok ())) := by
  simp only [World.stepX] at h
  cases hst : w.stack with
  | nil => rw [hst] at h; cases h
  | cons f r =>
    rw [hst] at h
    simp only at h
    by_cases hro : f.ro = true
    · rw [if_pos hro] at h; cases h
    · rw [if_neg hro] at h; cases h
      simp only [World.step, hst]

theorem step_openRefused {w w' : World} (h : w.stepX .openRefused = .ok w') : w.step .crash = .ok (w', .unit (.ok ())) := by
  simp only [World.stepX] at h
  by_cases hp : w.phase = .up
  · rw [if_pos hp] at h; cases h
  · rw [if_neg hp] at h; cases h; rfl

/-- C105: whatever LMDB refuses, and however the callers go on, the cache is in a state to which calls lead which are
not refused. So all that is proved of reachable caches (C18 to C35) holds for these as well. -/
theorem C105_reach {w : World} (h : ReachX w) : Reach w := by
  induction h with
  | init => exact .init
  | @step w c w' _ ha hs ih =>
    cases c with
    | call c =>
      obtain ⟨out, h1⟩ := step_call hs
      exact .step ih ha h1
    | refused o n ab =>
      exact refused_reach (fun _ h => h) (fun w o w' out h _ h2 h3 => .step h h2 h3)
        (fun w c w' out h hc h3 => .step h (by rcases hc with rfl | rfl <;> trivial) h3) ih ha
        (fun w1 w2 out h1 _ h3 h4 => .step h1 h3 h4) hs
    | commitRefused => exact .step (c := .drop) ih trivial (step_commitRefused hs)
    | openRefused => exact .step (c := .crash) ih trivial (step_openRefused hs)

/-- The same for caches in which entries are made in directories only. -/
theorem C105_reachP {w : World} (h : ReachPX w) : ReachP w := by
  induction h with
  | init => exact .init
  | @step w c w' _ ha hp hs ih =>
    cases c with
    | call c =>
      obtain ⟨out, h1⟩ := step_call hs
      exact .step ih ha hp h1
    | refused o n ab =>
      refine refused_reach (fun _ h => h.reach) ?_ ?_ ih ha ?_ hs
      · intro w o w' out h ho h2 h3
        exact .step h h2 (by rcases ho with ⟨i, rfl⟩ | ⟨i, n, rfl⟩ <;> trivial) h3
      · intro w c w' out h hc h3
        exact .step h (by rcases hc with rfl | rfl <;> trivial) (by rcases hc with rfl | rfl <;> trivial) h3
      · intro w1 w2 out h1 hst h3 h4
        refine .step h1 h3 ?_ h4
        cases o with
        | emplace p m a =>
          intro g r hg
          obtain ⟨f0, r0, refs, hf0, -⟩ := step_refused hs
          obtain ⟨hs', hw1⟩ := hst f0 r0 hf0
          rw [hw1] at hg
          cases hg
          exact hp f0 _ hf0
        | _ => trivial
    | commitRefused => exact .step (c := .drop) ih trivial trivial (step_commitRefused hs)
    | openRefused => exact .step (c := .crash) ih trivial trivial (step_openRefused hs)

/-- C105: a call is refused or does exactly what it does otherwise, depending on the number of writes which LMDB accepts. -/
theorem C105_accepted {w w' : World} {o : Op} {out : Out} (hs : w.step (.op o) = .ok (w', out)) :
    ∃ f r k, w.stack = f :: r ∧
      (∀ n, k ≤ n → ∃ t, doOpX (f.txn w.refs) n o = .ok (.done t out) ∧ w' = { w with refs := t.refs, stack := ⟨t.db, t.rewrite, t.hooks, f.ro⟩ :: r }) ∧
      (∀ n, n < k → ∃ w1, w.stepX (.refused o n false) = .ok w1) := by
  obtain ⟨f, r, t, hst, hro, hd, rfl⟩ := step_op hs
  obtain ⟨k, h1, h2⟩ := doOpX_ends hd
  refine ⟨f, r, k, hst, fun n hn => ⟨t, h1 n hn, rfl⟩, fun n hn => ?_⟩
  obtain ⟨refs, hr⟩ := h2 n hn
  refine ⟨{ w with refs := refs, stack := r }, ?_⟩
  simp only [World.stepX, hst]
  rw [if_neg (by rw [hro]; simp), hr]
  rfl

/-- C105 in full: a refused call, after which the transaction is given up, leaves nothing behind but what the transaction did before.
It does not hold, see the counterexample. -/
def RefusedLeavesNoTrace : Prop :=
  ∀ w w' o n, Reach w → Allowed w (.op o) → w.stepX (.refused o n false) = .ok w' →
    w'.disk = w.disk ∧ w'.locks = w.locks ∧ ∀ i, w'.stale i ↔ w.stale i

/-- C105: what a refused call leaves behind: the file and the transactions outside are untouched, nobody's locks change, and
the only inodes which cannot be locked any more are ones which nobody holds and which would not exist any more, had the call not been refused. -/
theorem C105_call_partial {w w' : World} {o : Op} {n : Nat} (h : ReachX w) (ha : Allowed w (.op o)) (hs : w.stepX (.refused o n false) = .ok w') :
    w'.disk = w.disk ∧ w'.phase = w.phase ∧ (∃ f, w.stack = f :: w'.stack) ∧ w'.locks = w.locks ∧ (∀ i, w.stale i → w'.stale i) ∧
    ∀ i, w'.stale i → w.stale i ∨ (w.locks i = 0 ∧ ∃ w2 out, w.step (.op o) = .ok (w2, out) ∧ getattr w2.db i = .error ENOENT) := by
  have hr := C105_reach h
  obtain ⟨f, rest, refs, hst, hro, hw, hx, hend⟩ := step_refused hs
  rcases hend with ⟨-, rfl⟩ | ⟨hq, -⟩
  · obtain ⟨hgood, -⟩ := hr.inv.frames f (by rw [hst]; simp)
    obtain ⟨s, hrep, ok⟩ := hgood
    have hint := doOpX_refused (t := f.txn w.refs) ⟨hrep, ok⟩ ha.1 (by
      rintro p m a rfl
      have := ha.2 f rest hst
      exact ⟨this.1, this.2 _ hrep.next⟩) hx
    rcases hint with hsame | ⟨s1, ok1, ⟨D, hD1, hD2, hD3⟩, hgo⟩
    · subst hsame
      refine ⟨rfl, rfl, ⟨f, hst⟩, rfl, fun i hi => ?_, fun i hi => .inl ?_⟩
      · rw [stale_iff] at hi ⊢; exact hi
      · rw [stale_iff] at hi ⊢; exact hi
    · have hDr : ∀ i, (refs i).nrefs = (w.refs i).nrefs ∧ ((refs i).doomed = true ↔ (w.refs i).doomed = true ∨ D i) := hD1
      refine ⟨rfl, rfl, ⟨f, hst⟩, funext fun i => (hDr i).1, fun i hi => ?_, fun i hi => ?_⟩
      · rw [stale_iff] at hi ⊢; exact (hDr i).2.mpr (.inl hi)
      · rw [stale_iff] at hi ⊢
        rcases (hDr i).2.mp hi with hi | hi
        · exact .inl hi
        · right
          refine ⟨hD2 i hi, ?_⟩
          obtain ⟨s', t', out, he, hc⟩ := hgo w.refs
          have hg := hD3 (locked w.refs) (fun j hj hl => by
            have hz : (w.refs j).nrefs = 0 := hD2 j hj
            unfold locked at hl; omega) i hi
          refine ⟨{ w with refs := t'.refs, stack := ⟨t'.db, t'.rewrite, t'.hooks, f.ro⟩ :: rest }, out, ?_, ?_⟩
          · simp only [World.step, hst]
            rw [if_neg (by rw [hro]; simp)]
            have : doOp (f.txn w.refs) o = .ok (t', out) := he
            rw [this]; rfl
          · obtain ⟨nd, hnd⟩ := hg.exists_
            have hb := OK.lt ok1 hnd
            show getattr t'.db i = _
            rw [hc.rep.1.getattr hc.rep.2 hb, hc.coll.gone i hg]
  · cases hq

/-- C105: a transaction which is aborted after a refused call: contents and locks are as they were at its beginning. -/
theorem C105_abort_partial {w0 w1 w2 w3 : World} {c : Call} {o1 : Out} {o : Op} {n : Nat} (h : ReachX w0) (hc : Begins c) (hs : w0.step c = .ok (w1, o1))
    (hb : Body w1 w2) (ho : Allowed w2 (.op o)) (ha : w2.stepX (.refused o n true) = .ok w3) :
    w3.stack = w0.stack ∧ w3.disk = w0.disk ∧ w3.db = w0.db ∧ w3.phase = w0.phase ∧ w3.locks = w0.locks ∧ ∀ i, w0.stale i → w3.stale i := by
  have hr := C105_reach h
  have hr1 : Reach w1 := .step hr (begin_allowed hc) hs
  have hr2 := hb.reach hr1
  obtain ⟨f, e1, e2, e3, e4, e5, -⟩ := begin_stack hc hs
  obtain ⟨f', hs', g1, g2, g3, g4, g5, g6, g7, g8, -⟩ := hb.spec hr1 e1
  obtain ⟨f'', rest, refs, hst, hro, hw, hx, hend⟩ := step_refused ha
  rw [g1] at hst; cases hst
  rcases hend with ⟨hq, -⟩ | ⟨-, r2, hu, rfl⟩
  · cases hq
  · rw [g5, e2, List.nil_append] at hu
    -- what the refused call did to the reference table
    have hcut : (∀ i, (refs i).nrefs = w2.locks i) ∧ ∀ i, (w2.refs i).doomed = true → (refs i).doomed = true := by
      have hdrop : w2.stepX (.refused o n false) = .ok { w2 with refs := refs, stack := w0.stack } := by
        simp only [World.stepX, g1]
        rw [if_neg (by rw [hro]; simp), hx]
        rfl
      obtain ⟨hgood, -⟩ := hr2.inv.frames f' (by rw [g1]; simp)
      obtain ⟨s, hrep, ok⟩ := hgood
      have hint := doOpX_refused (t := f'.txn w2.refs) ⟨hrep, ok⟩ ho.1 (by
        rintro p m a rfl
        have := ho.2 f' _ g1
        exact ⟨this.1, this.2 _ hrep.next⟩) hx
      rcases hint with hsame | ⟨s1, ok1, ⟨D, hD1, hD2, hD3⟩, hgo⟩
      · subst hsame; exact ⟨fun _ => rfl, fun _ h => h⟩
      · exact ⟨fun i => (hD1 i).1, fun i hi => (hD1 i).2.mpr (.inl hi)⟩
    obtain ⟨hu1, hu2⟩ := (g6.undo (r := refs) hcut.1).1 _ hu
    refine ⟨rfl, g2.trans e4, ?_, g3.trans e5, ?_, ?_⟩
    · show World.db _ = World.db _
      unfold World.db; simp only; rw [g2, e4]
    · funext i
      show (r2 i).nrefs = _
      rw [hu1 i]; unfold World.locks; rw [e3]
    · intro i hi
      rw [stale_iff] at hi ⊢
      show (r2 i).doomed = true
      rw [hu2 i]
      exact hcut.2 i (g7 i (by rw [e3]; exact hi))

/-! ### Examples -/

/-- Decides `AllowedX`. -/
def allowedXB (w : World) : CallX → Bool
  | .call c => allowedB w c
  | .refused o _ _ => allowedB w (.op o)
  | _ => true

/-- Runs events, provided that they are allowed. -/
def demoX (w : World) : List CallX → Option World
  | [] => some w
  | c :: cs =>
    if allowedXB w c then
      match w.stepX c with
      | .ok w' => demoX w' cs
      | .error _ => none
    else none

theorem demoX_reach {cs : List CallX} : ∀ {w w' : World}, ReachX w → demoX w cs = some w' → ReachX w' := by
  induction cs with
  | nil => intro w w' h hd; cases hd; exact h
  | cons c cs ih =>
    intro w w' h hd
    unfold demoX at hd
    split at hd
    · rename_i hc
      split at hd
      · rename_i w1 hs
        refine ih (.step h ?_ hs) hd
        cases c with
        | call c => exact allowedB_iff hc
        | refused o n ab => exact allowedB_iff (c := .op o) hc
        | commitRefused => trivial
        | openRefused => trivial
      · cases hd
    · cases hd

theorem demoX_ex {cs : List CallX} {P : World → Prop} [DecidablePred P]
    (h : (match demoX World.init cs with | some w => decide (P w) | none => false) = true) : ∃ w, ReachX w ∧ P w := by
  split at h
  · rename_i w hw; exact ⟨w, demoX_reach .init hw, by simpa using h⟩
  · cases h

/-- A world given by a checked sequence of calls, and a refused call. -/
theorem refuse_ex {cs : List Call} {o : Op} {n : Nat} {P : World → World → Prop} [∀ w w', Decidable (P w w')]
    (h : (match demo World.init cs with
      | some w => allowedB w (.op o) && (match w.stepX (.refused o n false) with | .ok w' => decide (P w w') | .error _ => false)
      | none => false) = true) : ∃ w w', Reach w ∧ Allowed w (.op o) ∧ w.stepX (.refused o n false) = .ok w' ∧ P w w' := by
  split at h
  · rename_i w hw
    rw [Bool.and_eq_true] at h
    obtain ⟨h1, h2⟩ := h
    split at h2
    · rename_i w' hs
      exact ⟨w, w', demo_reach .init hw, allowedB_iff h1, hs, of_decide_eq_true h2⟩
    · cases h2
  · cases h

/-- A file which nobody holds is unlinked in a transaction; the last write of this is refused. -/
def unlinkCut : List Call := opened ++ [.beginRW, .op (.emplace 1 "a".toUTF8.toList (fileA 1)), .commit, .beginRW]

/-- C105 in full does not hold: the file is still there afterwards, nobody has removed it, but it cannot be locked any more. -/
theorem C105_counterexample : ¬ RefusedLeavesNoTrace := by
  intro hall
  obtain ⟨w, w', h1, h2, h3, h4, h5, h6⟩ := refuse_ex (cs := unlinkCut) (o := .unlinkIno 2) (n := 4)
    (P := fun w w' => (w.refs 2).doomed = false ∧ (w'.refs 2).doomed = true ∧
      (w'.run [.beginRW, .op (.getattr 2), .op (.lock 2)]).map Prod.snd = .ok [.unit (.ok ()), .attr (.ok (2, fileA 1)), .unit (.error ESTALE)])
    (by decide +kernel)
  have := (hall w w' _ _ h1 h2 h3).2.2 2
  rw [stale_iff, stale_iff] at this
  rw [this.mp h5] at h4; cases h4

/-- `C105_reach` applies to the story: a directory with two files, one of them held, and a third file which is moved into the way of a link;
writes are refused in the middle of the removal of the directory, in an `emplace`, and the commit is refused; then the cache is opened
again, which is refused once. -/
example : ∃ w, ReachX w ∧ ((w.refs 2).doomed = true ∧ (w.refs 3).doomed = true ∧ (w.refs 4).doomed = false ∧ w.locks 4 = 1 ∧
    (w.run [.beginRW, .op (.lookup 1 "d".toUTF8.toList), .op (.lookup 2 "x".toUTF8.toList), .op (.release 4 1), .commit]).map Prod.snd
      = .ok [.unit (.ok ()), .ino (.ok 2), .ino (.ok 3), .unit (.ok ()), .unit (.ok ())]) :=
  demoX_ex (cs := [.openRefused] ++ opened.map .call ++ [.call .beginRW, .call (.op (.emplace 1 "d".toUTF8.toList dirA)), .call (.op (.emplace 2 "x".toUTF8.toList (fileA 1))),
    .call (.op (.emplace 2 "y".toUTF8.toList (fileA 1))), .call (.op (.lock 4)), .call .commit, .call .beginRW, .refused (.unlinkIno 2) 15 true,
    .call .beginRW, .refused (.emplace 1 "d".toUTF8.toList linkA) 3 false, .call .beginRW, .call (.op (.updateFlags 1 [0] [])), .commitRefused])
    (by decide +kernel)

/-- The hypotheses of `C105_abort_partial`: a transaction locks one file and releases another one, then the removal of a third one is
refused. -/
example : ∃ w0 w1 w2 o, Reach w0 ∧ w0.step .beginRW = .ok (w1, o) ∧ Body w1 w2 ∧
    ((w2.stepX (.refused (.unlinkIno 4) 5 true)).map (fun w3 => (w3.locks 2, w3.locks 3, (w3.refs 4).doomed)) = .ok (0, 1, true) ∧ w2.locks 2 = 1 ∧ w2.locks 3 = 0) :=
  body_ex (cs := opened ++ [.beginRW, .op (.emplace 1 "a".toUTF8.toList (fileA 1)), .op (.emplace 1 "b".toUTF8.toList (fileA 1)),
      .op (.emplace 1 "c".toUTF8.toList (fileA 1)), .op (.lock 3), .commit]) (ops := [.lock 2, .release 3 1])
    (P := fun _ w2 => (w2.stepX (.refused (.unlinkIno 4) 5 true)).map (fun w3 => (w3.locks 2, w3.locks 3, (w3.refs 4).doomed)) = .ok (0, 1, true) ∧ w2.locks 2 = 1 ∧ w2.locks 3 = 0)
    (by decide +kernel)

end Dragonstash.Cache
