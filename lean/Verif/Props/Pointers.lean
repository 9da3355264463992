/-
  C110: what the cache has read from its database is used while it is valid.
-/
import Verif.Cache.PointersSim
import Verif.Cache.Demo
namespace Dragonstash.Cache.Ptrs
open Codec

/-- The outcome of an operation with pointers is that of the operation without. -/
def SameT {α : Type} (x : M (PT × α)) (y : M (Txn × α)) : Prop := match y with
  | .ok (t, a) => ∃ g, x = .ok (ofTxn t g, a)
  | .error e => x = .error e

theorem SameT.lift {α β : Type} {x : M (PT × α)} {y : M (Txn × α)} (h : SameT x y) (f : α → β) :
    SameT (do let (t, r) ← x; pure (t, f r)) (do let (t, r) ← y; pure (t, f r)) := by
  unfold SameT at h
  cases y with
  | error e => rw [show x = .error e from h]; rfl
  | ok v => obtain ⟨t, a⟩ := v; obtain ⟨g, hg⟩ := h; rw [hg]; exact ⟨g, rfl⟩

theorem emplaceNew_eq {L : Lib} (hL : L.Suffices) (t : Txn) (s : PS) (h : KeysOK s.db) (p : Ino) (n : Bytes) (a : Attrs) :
    SameT (do let (s, r, i) ← emplaceNew L s t.refs p n a; pure (({ s := s, refs := r, rewrite := t.rewrite, hooks := t.hooks } : PT), (Except.ok i : Res Ino)))
      (Cache.emplaceNew t s.db p n a) := by
  unfold emplaceNew Cache.emplaceNew allocNext Cache.allocNext
  cases hn : s.db.next with
  | none => rfl
  | some i =>
    simp only [follow_page, bind_ok, pure_eq_ok]
    have hk : KeysOK (put treei (put treen (put inodes ⟨{ s.db with next := some (u64 (i + 1)) }, s.gen + 1⟩ (key8 i) (mkInode a p)) (keyN p n) (mkEnt i n)) (key16 p i) (mkEnt i n)).db := by
      constructor
      · intro k v hk
        have hk' : (s.db.treei.put (key16 p i) (mkEnt i n)).find k = some v := hk
        rw [Tab.find_put] at hk'
        split at hk'
        · rename_i hh; rw [← hh]; simp
        · exact h.treei k v hk'
      · exact h.orphans
    have hc := cleanOrphans_eq hL _ t.refs hk
    revert hc
    show Same _ (Cache.cleanOrphans { s.db with next := some (u64 (i + 1)), inodes := s.db.inodes.put (key8 i) (mkInode a p), treen := s.db.treen.put (keyN p n) (mkEnt i n), treei := s.db.treei.put (key16 p i) (mkEnt i n) } t.refs) → _
    cases Cache.cleanOrphans { s.db with next := some (u64 (i + 1)), inodes := s.db.inodes.put (key8 i) (mkInode a p), treen := s.db.treen.put (keyN p n) (mkEnt i n), treei := s.db.treei.put (key16 p i) (mkEnt i n) } t.refs with
    | error e => intro hc; rw [show cleanOrphans L _ _ = .error e from hc]; rfl
    | ok v =>
      obtain ⟨d', r'⟩ := v
      rintro ⟨g, hg⟩
      rw [hg]
      exact ⟨g, rfl⟩

theorem emplace_eq {L : Lib} (hL : L.Suffices) (t : Txn) (g : Nat) (h : KeysOK t.db) (p : Ino) (n : Bytes) (a : Attrs) :
    SameT (emplace L (ofTxn t g) p n a) (Cache.emplace t p n a) := by
  unfold emplace Cache.emplace
  cases checkName n true with
  | error e => exact ⟨g, rfl⟩
  | ok u =>
    simp only
    cases hf : t.db.treen.find (keyN p n) with
    | none =>
      rw [find_none (f := treen) (s := (ofTxn t g).s) hf]
      exact emplaceNew_eq hL t ⟨t.db, g⟩ h p n a
    | some e =>
      have h2 : (find L treen (ofTxn t g).s (keyN p n) true).val = some ⟨e, .page (ofTxn t g).s.gen⟩ := by rw [find_some (f := treen) (s := (ofTxn t g).s) hf]
      have h3 : (find L treen (ofTxn t g).s (keyN p n) true).rc = true := by rw [find_some (f := treen) (s := (ofTxn t g).s) hf]
      simp only [h3, h2, Bool.not_true, Bool.false_eq_true, if_false, follow_page, bind_ok]
      cases hi : t.db.inodes.find (key8 e.ino) with
      | none => rw [find_none (f := inodes) (s := (ofTxn t g).s) hi]; rfl
      | some old =>
        have k2 : (find L inodes (ofTxn t g).s (key8 e.ino) false).val = some ⟨old, .page (ofTxn t g).s.gen⟩ := by rw [find_some (f := inodes) (s := (ofTxn t g).s) hi]
        have k3 : (find L inodes (ofTxn t g).s (key8 e.ino) false).rc = true := by rw [find_some (f := inodes) (s := (ofTxn t g).s) hi]
        have k4 := putAt_ok hL (line := 929) (f := inodes) (s := (ofTxn t g).s) (b := false) (w := mkInode a p) hi
        simp only [k3, k2, follow_page, bind_ok, chk_true, k4]
        by_cases hm : fmt old.attr.mode = fmt a.mode
        · rw [if_pos hm, if_pos hm]; exact ⟨g + 1, rfl⟩
        · rw [if_neg hm, if_neg hm]
          obtain ⟨g', hg'⟩ := makeOrphan_eq hL (ofTxn t g).s e.ino
          rw [hg']
          exact emplaceNew_eq hL t ⟨_, g'⟩ (keysOK_makeOrphan h _) p n a

theorem clean_eq {L : Lib} (hL : L.Suffices) (t : Txn) (g : Nat) (h : KeysOK t.db) : SameT (clean L (ofTxn t g)) (Cache.clean t) := by
  unfold clean Cache.clean
  have hc := cleanOrphans_eq hL (ofTxn t g).s t.refs h
  revert hc
  show Same _ (Cache.cleanOrphans t.db t.refs) → _
  cases Cache.cleanOrphans t.db t.refs with
  | error e => intro hc; rw [show cleanOrphans L (ofTxn t g).s (ofTxn t g).refs = .error e from hc]; rfl
  | ok v =>
    obtain ⟨d', r'⟩ := v
    rintro ⟨g', hg'⟩
    rw [show cleanOrphans L (ofTxn t g).s (ofTxn t g).refs = .ok (⟨d', g'⟩, r') from hg']
    exact ⟨g', rfl⟩

theorem makeOrphan_error {d : DB} {i : Ino} {e : Nat} (h : (Cache.makeOrphan d i).2 = .error e) : (Cache.makeOrphan d i).1 = d := by
  unfold Cache.makeOrphan at h ⊢
  cases hp : Cache.parent d i with
  | error e => rfl
  | ok p =>
    rw [hp] at h
    simp only at h ⊢
    by_cases h0 : p = INVALID
    · rw [if_pos h0]
    · rw [if_neg h0] at h ⊢
      cases hf : d.treei.find (key16 p i) with
      | none => rfl
      | some x => rw [hf] at h; cases h

theorem unlinkIno_eq {L : Lib} (hL : L.Suffices) (t : Txn) (g : Nat) (h : KeysOK t.db) (i : Ino) :
    SameT (unlinkIno L (ofTxn t g) i) (Cache.unlinkIno t i) := by
  unfold unlinkIno Cache.unlinkIno
  obtain ⟨g', hg'⟩ := makeOrphan_eq hL (ofTxn t g).s i
  rw [hg']
  have hk := keysOK_makeOrphan h i
  have he : ∀ e, (Cache.makeOrphan t.db i).2 = .error e → (Cache.makeOrphan t.db i).1 = t.db := fun e => makeOrphan_error
  revert hk he
  show KeysOK (Cache.makeOrphan t.db i).1 → _ → SameT (do let (s, res) ← (Except.ok (⟨(Cache.makeOrphan t.db i).1, g'⟩, (Cache.makeOrphan t.db i).2) : M (PS × Res Unit)); _) _
  cases Cache.makeOrphan t.db i with
  | mk d res =>
    intro hk he
    cases res with
    | error e => refine ⟨g', ?_⟩; have := he e rfl; simp only at this; subst this; rfl
    | ok u => exact clean_eq hL { t with db := d } g' hk

theorem unlinkName_eq {L : Lib} (hL : L.Suffices) (t : Txn) (g : Nat) (h : KeysOK t.db) (p : Ino) (n : Bytes) :
    SameT (unlinkName L (ofTxn t g) p n) (Cache.unlinkName t p n) := by
  unfold unlinkName Cache.unlinkName
  cases hf : t.db.treen.find (keyN p n) with
  | none => rw [find_none (f := treen) (s := (ofTxn t g).s) hf]; exact ⟨g, rfl⟩
  | some e =>
    have h2 : (find L treen (ofTxn t g).s (keyN p n) true).val = some ⟨e, .page (ofTxn t g).s.gen⟩ := by rw [find_some (f := treen) (s := (ofTxn t g).s) hf]
    have h3 : (find L treen (ofTxn t g).s (keyN p n) true).rc = true := by rw [find_some (f := treen) (s := (ofTxn t g).s) hf]
    simp only [h3, h2, Bool.not_true, Bool.false_eq_true, if_false, follow_page, bind_ok]
    exact unlinkIno_eq hL t g h e.ino

theorem writelink_eq {L : Lib} (hL : L.Suffices) (t : Txn) (g : Nat) (i : Ino) (dest : Bytes) :
    SameT (writelink L (ofTxn t g) i dest) (.ok (Cache.writelink t i dest)) := by
  unfold writelink Cache.writelink
  cases hf : t.db.inodes.find (key8 i) with
  | none => rw [find_none (f := inodes) (s := (ofTxn t g).s) hf]; exact ⟨g, rfl⟩
  | some n =>
    have k2 : (find L inodes (ofTxn t g).s (key8 i) false).val = some ⟨n, .page (ofTxn t g).s.gen⟩ := by rw [find_some (f := inodes) (s := (ofTxn t g).s) hf]
    have k3 : (find L inodes (ofTxn t g).s (key8 i) false).rc = true := by rw [find_some (f := inodes) (s := (ofTxn t g).s) hf]
    have k4 := putAt_ok hL (line := 1112) (f := inodes) (s := (ofTxn t g).s) (b := false) (w := { n with attr := { n.attr with size := dest.length } }) hf
    simp only [k3, k2, Bool.not_true, Bool.false_eq_true, if_false, follow_page, bind_ok, k4]
    by_cases hm : fmt n.attr.mode ≠ S_IFLNK
    · rw [if_pos hm, if_pos hm]; exact ⟨g, rfl⟩
    · rw [if_neg hm, if_neg hm]; exact ⟨g + 2, rfl⟩

theorem updateFlags_eq (L : Lib) (t : Txn) (g : Nat) (i : Ino) (a b : List Flag) :
    SameT (updateFlags L (ofTxn t g) i a b) (.ok (Cache.updateFlags t i a b)) := by
  unfold updateFlags Cache.updateFlags
  cases hf : t.db.inodes.find (key8 i) with
  | none => rw [find_none (f := inodes) (s := (ofTxn t g).s) hf]; exact ⟨g, rfl⟩
  | some n =>
    have k2 : (find L inodes (ofTxn t g).s (key8 i) true).val = some ⟨n, .page (ofTxn t g).s.gen⟩ := by rw [find_some (f := inodes) (s := (ofTxn t g).s) hf]
    have k3 : (find L inodes (ofTxn t g).s (key8 i) true).rc = true := by rw [find_some (f := inodes) (s := (ofTxn t g).s) hf]
    have k4 := putAt_named (L := L) (line := 1141) (f := inodes) (s := (ofTxn t g).s) (w := { n with flags := b.foldl (fun x f => setFlag x f false) (a.foldl (fun x f => setFlag x f true) n.flags) }) hf
    simp only [k3, k2, Bool.not_true, Bool.false_eq_true, if_false, follow_page, bind_ok, k4]
    exact ⟨g + 1, rfl⟩

theorem collectKids_eq (s : PS) (dir : Ino) : ∀ (l pre : List (Bytes × DirEnt)) (f : Nat) (acc : List Ino), s.db.treei.entries = pre ++ l → l.length < f → l ≠ [] →
    collectKids s dir f (foundIn s l.head?) acc = Cache.collectKids dir l acc
  | _, _, 0, _, _, h, _ => absurd h (Nat.not_lt_zero _)
  | [], _, f + 1, _, _, _, h => absurd rfl h
  | e :: t, pre, f + 1, acc, he, hf, _ => by
    have hn : next treei s (foundIn s (e :: t).head?) = foundIn s t.head? := next_eq treei s he
    have ih := fun acc => collectKids_eq s dir t (pre ++ [e]) f acc (by rw [he]; simp) (by simp at hf; omega)
    unfold collectKids Cache.collectKids
    show (do let k ← follow 1169 s (some ⟨e.1, .page s.gen⟩); _) = _
    rw [follow_page]
    simp only [bind_ok]
    by_cases h16 : e.1.length = 16
    · rw [chk_of (decide_eq_true h16), bind_ok, bind_ok, hn]
      by_cases hd : leDec (e.1.take 8) = dir
      · rw [if_pos hd, if_pos hd]
        cases t with
        | nil => rfl
        | cons e' t' => rw [if_neg (by simp [foundIn, foundAt])]; exact ih _ (by simp)
      · rw [if_neg hd, if_neg hd]
    · simp [chk, h16]

theorem startRewrite_eq (t : Txn) (g : Nat) (dir : Ino) : SameT (startRewrite (ofTxn t g) dir) (Cache.startRewrite t dir) := by
  unfold startRewrite Cache.startRewrite
  show SameT (match t.rewrite with | some _ => _ | none => _) _
  cases hr : t.rewrite with
  | some l => simp only; exact ⟨g, rfl⟩
  | none =>
    simp only
    rw [lower_eq]
    simp only [show treei.get (ofTxn t g).s.db = t.db.treei from rfl]
    obtain ⟨pre, hpre⟩ := List.dropWhile_suffix (fun e : Bytes × DirEnt => blt e.1 (key8 dir)) (l := t.db.treei.entries)
    replace hpre : pre ++ t.db.treei.lower (key8 dir) = t.db.treei.entries := hpre
    have hlen := (Tab.lower_sublist t.db.treei (key8 dir)).length_le
    revert hpre hlen
    cases t.db.treei.lower (key8 dir) with
    | nil => intro _ _; exact ⟨g, rfl⟩
    | cons e l =>
      intro hpre hlen
      have hk := collectKids_eq (ofTxn t g).s dir (e :: l) pre (t.db.treei.size + 1) [] hpre.symm (Nat.lt_succ_of_le hlen) (by simp)
      rw [if_neg (by simp [foundIn, foundAt])]
      show SameT (do let l ← collectKids (ofTxn t g).s dir (t.db.treei.size + 1) (foundIn (ofTxn t g).s (e :: l).head?) []; _) _
      rw [hk]
      show SameT _ (do let s ← Cache.collectKids dir (e :: l) []; pure ({ t with rewrite := some s }, (Except.ok () : Res Unit)))
      cases Cache.collectKids dir (e :: l) [] with
      | error x => rfl
      | ok v => exact ⟨g, rfl⟩

theorem orphanAll_eq {L : Lib} (hL : L.Suffices) : ∀ (l : List Ino) (s : PS), ∃ g, orphanAll L l s = .ok ⟨l.foldl (fun d i => (Cache.makeOrphan d i).1) s.db, g⟩
  | [], s => ⟨s.gen, rfl⟩
  | i :: l, s => by
    obtain ⟨g, hg⟩ := makeOrphan_eq hL s i
    obtain ⟨g', hg'⟩ := orphanAll_eq hL l ⟨(Cache.makeOrphan s.db i).1, g⟩
    refine ⟨g', ?_⟩
    unfold orphanAll
    rw [hg]
    exact hg'

theorem finishRewrite_eq {L : Lib} (hL : L.Suffices) (t : Txn) (g : Nat) : SameT (finishRewrite L (ofTxn t g)) (.ok (Cache.finishRewrite t)) := by
  unfold finishRewrite Cache.finishRewrite
  show SameT (match t.rewrite with | none => _ | some l => _) _
  cases t.rewrite with
  | none => exact ⟨g, rfl⟩
  | some l =>
    obtain ⟨g', hg'⟩ := orphanAll_eq hL l (ofTxn t g).s
    simp only
    rw [hg']
    exact ⟨g', rfl⟩

/-- On databases whose keys have the right size. -/
theorem doOp_eq {L : Lib} (hL : L.Suffices) (t : Txn) (g : Nat) (h : KeysOK t.db) (o : Op) : SameT (doOp L (ofTxn t g) o) (Cache.doOp t o) := by
  have ro : ∀ {β : Type} (x y : M β) (f : β → Out), x = y → SameT (do let r ← x; pure (ofTxn t g, f r)) (do let r ← y; pure (t, f r)) := by
    rintro β x y f rfl
    cases x with
    | error e => rfl
    | ok v => exact ⟨g, rfl⟩
  cases o with
  | lookup p n => exact ro _ _ Out.ino (lookup_eq (ofTxn t g).s p n)
  | getattr i => exact ro _ (.ok _) Out.attr (getattr_eq (ofTxn t g).s i)
  | readlink i => exact ro _ (.ok _) Out.bytes (readlink_eq (ofTxn t g).s i)
  | readdir dir prev => exact ro _ _ Out.ent (readdir_eq (ofTxn t g).s dir prev)
  | path i => exact ro _ _ Out.bytes (path_eq L (ofTxn t g).s i)
  | name i => exact ro _ (.ok _) Out.bytes (name_eq L (ofTxn t g).s i)
  | parent i => exact ro _ (.ok _) Out.ino (parent_eq (ofTxn t g).s i)
  | testFlag i f => exact ro _ (.ok _) Out.bool (testFlag_eq L (ofTxn t g).s i f)
  | lock i => exact ⟨g, rfl⟩
  | release i n =>
    show SameT (do let (t', r) ← release (ofTxn t g).txn i n; pure (ofTxn t' g, Out.unit r)) (do let (t', r) ← release t i n; pure (t', Out.unit r))
    rw [show (ofTxn t g).txn = t from rfl]
    cases release t i n with
    | error e => rfl
    | ok v => exact ⟨g, rfl⟩
  | emplace p n a => exact (emplace_eq hL t g h p n a).lift Out.ino
  | unlinkIno i => exact (unlinkIno_eq hL t g h i).lift Out.unit
  | unlinkName p n => exact (unlinkName_eq hL t g h p n).lift Out.unit
  | clean => exact (clean_eq hL t g h).lift Out.unit
  | writelink i dest => exact (writelink_eq hL t g i dest).lift Out.unit
  | updateFlags i a b => exact (updateFlags_eq L t g i a b).lift Out.unit
  | startRewrite dir => exact (startRewrite_eq t g dir).lift Out.unit
  | finishRewrite => exact (finishRewrite_eq hL t g).lift Out.unit

/-! ### Nothing undefined happens in the functions without pointers -/

/-- No undefined behaviour. -/
def Defined {α : Type} (x : M α) : Prop := ∀ l, x ≠ .error (.ub l)

theorem Defined.ok {α : Type} (a : α) : Defined (.ok a : M α) := fun _ h => by cases h
theorem Defined.chk (l : Nat) (b : Bool) : Defined (chk l b) := by
  intro l' h; cases b <;> cases h
theorem Defined.bind {α β : Type} {x : M α} {f : α → M β} (hx : Defined x) (hf : ∀ a, Defined (f a)) : Defined (x >>= f) := by
  cases x with
  | error e => exact fun l h => hx l (by cases h; rfl)
  | ok a => exact hf a
theorem Defined.ite {α : Type} {c : Prop} [Decidable c] {x y : M α} (hx : Defined x) (hy : Defined y) : Defined (if c then x else y) := by
  by_cases h : c
  · rw [if_pos h]; exact hx
  · rw [if_neg h]; exact hy
theorem Defined.diverge {α : Type} (l : Nat) : Defined (.error (.diverge l) : M α) := fun _ h => by cases h
theorem Defined.thrown {α : Type} (l : Nat) : Defined (.error (.thrown l) : M α) := fun _ h => by cases h
theorem Defined.assertFail {α : Type} (l : Nat) : Defined (.error (.assertFail l) : M α) := fun _ h => by cases h

theorem lookupScan_def (p : Ino) (n : Bytes) : ∀ l, Defined (lookupScan p n l)
  | [] => .ok _
  | _ :: t => .bind (.chk _ _) fun _ => .ite (lookupScan_def p n t) (.ite (.ok _) (.ite (.ok _) (lookupScan_def p n t)))

theorem lookup_def (d : DB) (p : Ino) (n : Bytes) : Defined (Cache.lookup d p n) := by
  unfold Cache.lookup
  cases checkName n false with
  | error e => exact .ok _
  | ok u => exact .ite (.ok _) (lookupScan_def p n _)

theorem readdir_def (d : DB) (dir prev : Ino) : Defined (Cache.readdir d dir prev) := by
  unfold Cache.readdir
  refine .ite (.ok _) ?_
  cases Cache.parent d dir with
  | error e => exact .ok _
  | ok p =>
    refine .ite (.ok _) ?_
    unfold readdirAt
    cases d.treei.lower (key16 dir (if prev = p then 0 else prev)) with
    | nil => exact .ok _
    | cons e t =>
      refine .bind (.chk _ _) fun _ => .ite (.ok _) (.ite ?_ (.ok _))
      cases t with
      | nil => exact .ok _
      | cons e' t' => exact .bind (.chk _ _) fun _ => .ite (.ok _) (.ok _)

theorem pathLoop_def (d : DB) : ∀ f i buf, Defined (Cache.pathLoop d f i buf)
  | 0, _, _ => .diverge _
  | f + 1, i, buf => by
    unfold Cache.pathLoop
    cases Cache.parent d i with
    | error e => exact .ok _
    | ok p =>
      simp only
      cases Cache.name2 d p i with
      | error e => exact .ok _
      | ok n => exact .ite (.ok _) (pathLoop_def d f _ _)

theorem orphanKids_def : ∀ f d i, Defined (Cache.orphanKids f d i)
  | 0, _, _ => .diverge _
  | f + 1, d, i => by
    unfold Cache.orphanKids
    cases d.treei.lower (key8 i) with
    | nil => exact .ok _
    | cons e t => exact .ite (.ok _) (orphanKids_def f _ i)

theorem removeOne_def (d : DB) (i : Ino) : Defined (Cache.removeOne d i) := by
  unfold Cache.removeOne
  cases d.inodes.find (key8 i) with
  | none => exact .ok _
  | some n => exact .bind (.ite (.ok _) (.ite (orphanKids_def _ _ _) (.ok _))) fun _ => .ok _

theorem cleanLoop_def : ∀ f d r, Defined (Cache.cleanLoop f d r)
  | 0, _, _ => .diverge _
  | f + 1, d, r => by
    unfold Cache.cleanLoop
    cases firstFree d.orphans.entries r with
    | none => exact .ok _
    | some y => exact .bind (removeOne_def d y.1) fun _ => cleanLoop_def f _ _

theorem clean_def (t : Txn) : Defined (Cache.clean t) := .bind (cleanLoop_def _ _ _) fun _ => .ok _

theorem emplaceNew_def (t : Txn) (d : DB) (p : Ino) (n : Bytes) (a : Attrs) : Defined (Cache.emplaceNew t d p n a) := by
  unfold Cache.emplaceNew
  refine .bind ?_ fun _ => .bind (cleanLoop_def _ _ _) fun _ => .ok _
  unfold Cache.allocNext
  cases d.next with
  | none => exact .thrown _
  | some i => exact .ok _

theorem unlinkIno_def (t : Txn) (i : Ino) : Defined (Cache.unlinkIno t i) := by
  unfold Cache.unlinkIno
  cases Cache.makeOrphan t.db i with
  | mk d res => cases res with
    | error e => exact .ok _
    | ok u => exact clean_def _

theorem collectKids_def (dir : Ino) : ∀ l acc, Defined (Cache.collectKids dir l acc)
  | [], _ => .ok _
  | _ :: t, _ => .bind (.chk _ _) fun _ => .ite (collectKids_def dir t _) (.ok _)

theorem doOp_def (t : Txn) (o : Op) : Defined (Cache.doOp t o) := by
  cases o with
  | lookup p n => exact .bind (lookup_def _ _ _) fun _ => .ok _
  | readdir dir prev => exact .bind (readdir_def _ _ _) fun _ => .ok _
  | path i => exact .bind (.ite (.ok _) (pathLoop_def _ _ _ _)) fun _ => .ok _
  | release i n =>
    refine .bind ?_ fun _ => .ok _
    unfold release
    refine .ite (.ok _) (.bind (.ite (.ok _) (.ite (.thrown _) (.ok _))) fun x => ?_)
    cases x with
    | mk r res => cases res with
      | error e => exact .assertFail _
      | ok u => exact .ok _
  | emplace p n a =>
    refine .bind ?_ fun _ => .ok _
    unfold Cache.emplace
    cases checkName n true with
    | error e => exact .ok _
    | ok u =>
      simp only
      cases t.db.treen.find (keyN p n) with
      | none => exact emplaceNew_def _ _ _ _ _
      | some e =>
        simp only
        cases t.db.inodes.find (key8 e.ino) with
        | none => exact .assertFail _
        | some old => exact .ite (.ok _) (emplaceNew_def _ _ _ _ _)
  | unlinkIno i => exact .bind (unlinkIno_def _ _) fun _ => .ok _
  | unlinkName p n =>
    refine .bind ?_ fun _ => .ok _
    unfold Cache.unlinkName
    cases t.db.treen.find (keyN p n) with
    | none => exact .ok _
    | some e => exact unlinkIno_def _ _
  | clean => exact .bind (clean_def _) fun _ => .ok _
  | startRewrite dir =>
    refine .bind ?_ fun _ => .ok _
    unfold Cache.startRewrite
    cases t.rewrite with
    | some l => exact .ok _
    | none =>
      simp only
      cases t.db.treei.lower (key8 dir) with
      | nil => exact .ok _
      | cons e l => exact .bind (collectKids_def _ _ _) fun _ => .ok _
  | _ => exact .ok _

/-! ### C110 -/

/-- C110. Whatever has been done with the cache before, in this transaction or in others, and whatever is called next: the call does
what it does without regard to pointers (`Cache.doOp`), and it ends like it. -/
theorem C110_same {L : Lib} (hL : L.Suffices) {w : World} {f : Frame} {rest : List Frame} (h : Reach w) (hst : w.stack = f :: rest) (o : Op) (g : Nat) :
    SameT (doOp L (ofTxn (f.txn w.refs) g) o) (Cache.doOp (f.txn w.refs) o) := by
  obtain ⟨⟨s, hs, -⟩, -⟩ := h.inv.frames f (by rw [hst]; exact List.mem_cons_self ..)
  exact doOp_eq hL _ g (keysOK_of hs) o

/-- C110. It never follows an address which is null, or which points to what may have been overwritten since, or to an object which no
longer exists; it does not delete or write through a cursor which is at no entry; and it does not read behind the end of a key. -/
theorem C110_valid {L : Lib} (hL : L.Suffices) {w : World} {f : Frame} {rest : List Frame} (h : Reach w) (hst : w.stack = f :: rest) (o : Op) (g line : Nat) :
    doOp L (ofTxn (f.txn w.refs) g) o ≠ .error (.ub line) := by
  have hs := C110_same hL h hst o g
  have hd := doOp_def (f.txn w.refs) o
  revert hs hd
  cases Cache.doOp (f.txn w.refs) o with
  | error e => intro hs hd; rw [show doOp L (ofTxn (f.txn w.refs) g) o = .error e from hs]; exact fun h => hd line (by cases h; rfl)
  | ok v => obtain ⟨t, a⟩ := v; rintro ⟨g', hg'⟩ -; rw [hg']; exact fun h => by cases h

/-- C110 for the constructor, which cleans up the database it opens. -/
theorem C110_open {L : Lib} (hL : L.Suffices) {w : World} (h : Reach w) (hp : w.phase = .inited) (g line : Nat) :
    openClean L ⟨w.disk, g⟩ w.refs ≠ .error (.ub line) ∧ Same (openClean L ⟨w.disk, g⟩ w.refs) (openCleanDB w.disk w.refs) := by
  have hk : KeysOK w.disk := by
    rcases h.inv.disk with ⟨-, h'⟩ | ⟨s, hs, -⟩
    · rw [hp] at h'; cases h'
    · exact keysOK_of hs
  have hsame : Same (openClean L ⟨w.disk, g⟩ w.refs) (openCleanDB w.disk w.refs) := by
    unfold openClean openCleanDB
    have h1 := cleanOrphans_eq hL ⟨w.disk, g⟩ w.refs hk
    revert h1
    cases hc : Cache.cleanOrphans w.disk w.refs with
    | error e => intro h1; rw [show cleanOrphans L ⟨w.disk, g⟩ w.refs = .error e from h1]; rfl
    | ok v =>
      obtain ⟨d', r'⟩ := v
      rintro ⟨g', hg'⟩
      rw [hg']
      exact cleanOrphans_eq hL ⟨d', g'⟩ r' (cleanLoop_keys _ _ _ _ _ hc hk)
  refine ⟨?_, hsame⟩
  have hd : Defined (openCleanDB w.disk w.refs) := .bind (cleanLoop_def _ _ _) fun _ => cleanLoop_def _ _ _
  revert hsame hd
  cases openCleanDB w.disk w.refs with
  | error e => intro hs hd; rw [show openClean L ⟨w.disk, g⟩ w.refs = .error e from hs]; exact fun h => hd line (by cases h; rfl)
  | ok v => obtain ⟨t, a⟩ := v; rintro ⟨g', hg'⟩ -; rw [hg']; exact fun h => by cases h

/-- The line in which a call on the innermost transaction does something undefined. -/
def undefinedAt (L : Lib) (w : World) (o : Op) : Option Nat := match w.stack with
  | [] => none
  | f :: _ => match doOp L (ofTxn (f.txn w.refs) 0) o with
    | .error (.ub l) => some l
    | _ => none

theorem undefinedAt_some {L : Lib} {w : World} {o : Op} {l : Nat} (h : undefinedAt L w o = some l) :
    ∃ f rest, w.stack = f :: rest ∧ doOp L (ofTxn (f.txn w.refs) 0) o = .error (.ub l) := by
  unfold undefinedAt at h
  cases hst : w.stack with
  | nil => rw [hst] at h; cases h
  | cons f rest =>
    rw [hst] at h
    simp only at h
    refine ⟨f, rest, rfl, ?_⟩
    cases hd : doOp L (ofTxn (f.txn w.refs) 0) o with
    | ok v => rw [hd] at h; cases h
    | error e =>
      rw [hd] at h
      cases e with
      | ub l' => cases h; rfl
      | _ => cases h

def na : Bytes := "a".toUTF8.toList

/-- A directory with a file, a symbolic link and a directory with an entry in it, in a transaction which is still open. -/
def pointersDemo : List Call := opened ++ [.beginRW, .op (.emplace 1 na (fileA 1)), .op (.emplace 1 "l".toUTF8.toList linkA),
  .op (.emplace 1 "d".toUTF8.toList dirA), .op (.emplace 4 na (fileA 2)), .op (.emplace 4 "b".toUTF8.toList (fileA 3))]

/-- C110. What the program requires of lmdb-safe is exactly this: that `find` returns the key from the database, or that `put` of a
cursor does not look at the key. (The library is not part of the repository.) Otherwise, the key passed to `put` is read from an object
which was destroyed with the statement before: when the attributes of an entry are refreshed (929), when an inode is
unlinked (884), when the target of a link is stored (1112). -/
theorem C110_exact (L : Lib) : L.Suffices ↔ ∀ (w : World) (f : Frame) (rest : List Frame) (o : Op) (g line : Nat), Reach w → w.stack = f :: rest →
    doOp L (ofTxn (f.txn w.refs) g) o ≠ .error (.ub line) := by
  constructor
  · intro hL w f rest o g line h hst
    exact C110_valid hL h hst o g line
  · intro h
    cases L with
    | mk a b =>
      cases a with
      | true => exact .inl rfl
      | false =>
        cases b with
        | true => exact .inr rfl
        | false =>
          exfalso
          have hd : ∃ w, Reach w ∧ undefinedAt ⟨false, false⟩ w (.emplace 1 na (fileA 9)) = some 929 := demo_ex (cs := pointersDemo) (by decide +kernel)
          obtain ⟨w, hw, hu⟩ := hd
          obtain ⟨f, rest, hst, he⟩ := undefinedAt_some hu
          exact h w f rest _ 0 929 hw hst he

/-- The three places. -/
example : ∃ w, Reach w ∧ undefinedAt ⟨false, false⟩ w (.emplace 1 na (fileA 9)) = some 929 ∧ undefinedAt ⟨false, false⟩ w (.unlinkIno 2) = some 884 ∧
    undefinedAt ⟨false, false⟩ w (.writelink 3 na) = some 1112 ∧ undefinedAt ⟨false, false⟩ w (.updateFlags 2 [SYNCED] []) = none :=
  demo_ex (cs := pointersDemo) (by decide +kernel)

/-- What a call returns, and how many writes it makes. -/
def outcome (L : Lib) (w : World) (o : Op) : Option (Nat × Out) := match w.stack with
  | [] => none
  | f :: _ => match doOp L (ofTxn (f.txn w.refs) 0) o with
    | .ok (t, out) => some (t.s.gen, out)
    | .error _ => none

/-- With either property of the library: a directory with two entries is replaced by a file (its entries are unlinked one by
one, while the cursors of the outer loops are open), refreshed, unlinked. -/
example : ∃ w, Reach w ∧ outcome ⟨true, false⟩ w (.emplace 1 "d".toUTF8.toList (fileA 9)) = some (22, .ino (.ok 7)) ∧
    outcome ⟨false, true⟩ w (.emplace 1 "d".toUTF8.toList (fileA 9)) = some (22, .ino (.ok 7)) ∧
    outcome ⟨true, false⟩ w (.unlinkIno 4) = some (18, .unit (.ok ())) ∧
    outcome ⟨true, false⟩ w (.emplace 1 na (fileA 9)) = some (1, .ino (.ok 2)) ∧ outcome ⟨true, true⟩ w (.writelink 3 na) = some (2, .unit (.ok ())) ∧
    outcome ⟨true, true⟩ w (.readdir 4 1) = some (0, .ent (.ok (5, na))) :=
  demo_ex (cs := pointersDemo) (by decide +kernel)

/-- The hypotheses of `C110_open`: a cache is opened again after a crash, with an inode in it which was unlinked while in use. -/
example : ∃ w, Reach w ∧ w.phase = .inited ∧ w.disk.orphans.size = 1 ∧
    (openClean ⟨true, false⟩ ⟨w.disk, 0⟩ w.refs).map (fun x => (x.1.db.orphans.size, x.1.gen)) = .ok (0, 2) :=
  demo_ex (cs := opened ++ [.beginRW, .op (.emplace 1 na (fileA 1)), .op (.lock 2), .op (.unlinkIno 2), .commit, .crash, .openInit 0 0 ⟨0, 0⟩]) (by decide +kernel)

end Dragonstash.Cache.Ptrs
