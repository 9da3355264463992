/-
  C66: the database file, byte by byte.
  C67: reading a damaged database.
-/
import Verif.Cache.Bytewise
import Verif.Cache.Demo
namespace Dragonstash.Cache
open Codec

/-! ### Specification of the file format -/

/-- `k` bytes at offset `o`. -/
def slice (v : Bytes) (o k : Nat) : Bytes := (v.drop o).take k

/-- Eight zero bytes. -/
def zero8 : Bytes := [0, 0, 0, 0, 0, 0, 0, 0]

/-- The layout of the database file: which keys and values there are, in bytes (the comment in
cache.cpp 35-51, inode.hpp 124-141, direntry.hpp 37-42). All numbers are little-endian. -/
structure Layout (d : B.DB) : Prop where
  /-- The next inode number has eight bytes. -/
  next : ∀ v, d.next = some v → v.length = 8
  /-- Inode records are under the number of the inode; a record has 96 bytes, version 1 in byte 0, zero in
  the reserved bytes 1 and 4-7; its number is below the next one to be given out and not 0. -/
  inode : ∀ k v, d.inodes.find k = some v → k.length = 8 ∧ v.length = 96 ∧ slice v 0 2 = [1, 0] ∧ slice v 4 4 = [0, 0, 0, 0] ∧
    k ≠ zero8 ∧ ∃ n, d.next = some n ∧ leDec k < leDec n
  /-- Entry by inode number: the key is directory and inode, the value is version 1, seven zero bytes, the
  inode and the name. The same value is under directory and name in the other index, and bytes 8-15 of
  the record of the inode are the directory. -/
  byIno : ∀ k v, d.treei.find k = some v → k.length = 16 ∧ ∃ name : Bytes, GoodName name ∧
    v = [1, 0, 0, 0, 0, 0, 0, 0] ++ slice k 8 8 ++ name ∧ d.treen.find (slice k 0 8 ++ name) = some v ∧
    ∃ r, d.inodes.find (slice k 8 8) = some r ∧ slice r 8 8 = slice k 0 8
  /-- Entry by name: the key is directory and name, the value as above. -/
  byName : ∀ k v, d.treen.find k = some v → 8 ≤ k.length ∧ ∃ ino : Bytes, ino.length = 8 ∧
    v = [1, 0, 0, 0, 0, 0, 0, 0] ++ ino ++ k.drop 8 ∧ d.treei.find (slice k 0 8 ++ ino) = some v
  /-- An inode record with a directory in bytes 8-15 has an entry there; the others are the root and the
  orphans. -/
  linked : ∀ k r, d.inodes.find k = some r →
    if slice r 8 8 = zero8 then k = [1, 0, 0, 0, 0, 0, 0, 0] ∨ ∃ v, d.orphans.find k = some v
    else ∃ v, d.treei.find (slice r 8 8 ++ k) = some v
  /-- Orphans are inodes without directory; the value is one zero byte. -/
  orphan : ∀ k v, d.orphans.find k = some v → v = [0] ∧ ∃ r, d.inodes.find k = some r ∧ slice r 8 8 = zero8
  /-- Link targets belong to inodes with the format bits of a symbolic link in bytes 88-91. -/
  link : ∀ k t, d.links.find k = some t → ∃ r, d.inodes.find k = some r ∧ fieldAt r 88 4 &&& 0o170000 = 0o120000

/-! ### Reachable worlds on bytes -/

/-- What callers have to respect (as `Allowed`, on bytes), and arguments fit into the C++ types. -/
def B.Allowed (w : B.World) (c : Call) : Prop := c.Fits ∧ match c with
  | .op o => o.inRange ∧ ∀ f r, w.stack = f :: r → match o with
    | .emplace p _ _ => p ≠ 0 ∧ ∀ v, f.db.next = some v → leDec v + 1 < W64
    | .lock i => (w.refs i).nrefs + 1 < W64
    | _ => True
  | _ => True

/-- Worlds reached from an empty database file by allowed calls; padding bytes are arbitrary in every
call. A crash may come at any time. -/
inductive B.Reach : B.World → Prop
  | init : B.Reach B.World.init
  | step {w c pad w' o} : B.Reach w → B.Allowed w c → w.step pad c = .ok (w', o) → B.Reach w'

theorem WRel.allowed {b : B.World} {w : World} (h : WRel b w) {c : Call} (ha : B.Allowed b c) : Allowed w c := by
  obtain ⟨-, ha⟩ := ha
  cases c with
  | op o =>
    refine ⟨ha.1, ?_⟩
    intro f r hs
    obtain ⟨bp, bd, br, bs⟩ := b
    obtain ⟨wp, wd, wr, ws⟩ := w
    obtain ⟨h1, h2, h3, h4⟩ := h
    simp only at h1 h2 h3 h4 hs ha
    subst h3 hs
    cases h4 with
    | @cons g _ l m hfg hl =>
      have := ha.2 g l rfl
      cases o with
      | emplace p n a =>
        refine ⟨this.1, ?_⟩
        intro n hn
        have h2 := this.2 (leEnc 8 n) (by rw [hfg.db.next, hn]; rfl)
        rwa [leDec_leEnc 8 n (lt64.mp (hfg.db.small n hn))] at h2
      | lock i => exact this
      | _ => trivial
  | _ => trivial

theorem B.Reach.rel {b : B.World} (h : B.Reach b) : ∃ w : Cache.World, Cache.Reach w ∧ WRel b w := by
  induction h with
  | init => exact ⟨_, .init, WRel.init⟩
  | @step b c pad b' o hb ha hs ih =>
    obtain ⟨w, hw, hr⟩ := ih
    have := step_rel pad hr c ha.1
    rw [hs] at this
    generalize hx : w.step c = x at this
    cases this with
    | @ok _ y hy => exact ⟨y.1, .step hw (hr.allowed ha) (o := y.2) hx, hy.1⟩

/-! ### The layout -/

theorem enc_parent (pad : Nat) (n : Inode) : slice (encInode 0 0 pad n) 8 8 = leEnc 8 n.parent := by
  unfold slice encInode
  have e : ∀ X : Bytes, leEnc 1 1 ++ (leEnc 1 0 ++ (leEnc 2 n.flags ++ (leEnc 4 0 ++ X))) =
      (leEnc 1 1 ++ leEnc 1 0 ++ leEnc 2 n.flags ++ leEnc 4 0) ++ X := by intro X; simp
  rw [e, List.drop_left' (by simp), List.take_left' (by simp)]

theorem enc_mode (pad : Nat) {n : Inode} (h : n.Fits) : fieldAt (encInode 0 0 pad n) 88 4 = n.attr.mode := by
  unfold encInode
  have e : ∀ X : Bytes, leEnc 1 1 ++ (leEnc 1 0 ++ (leEnc 2 n.flags ++ (leEnc 4 0 ++ (leEnc 8 n.parent ++
    (leEnc 8 n.attr.size ++ (leEnc 8 n.attr.nblocks ++ (leEnc 4 n.attr.uid ++ (leEnc 4 n.attr.gid ++
      (encTs n.attr.atime ++ (encTs n.attr.mtime ++ (encTs n.attr.ctime ++ X))))))))))) =
      (leEnc 1 1 ++ leEnc 1 0 ++ leEnc 2 n.flags ++ leEnc 4 0 ++ leEnc 8 n.parent ++ leEnc 8 n.attr.size ++ leEnc 8 n.attr.nblocks ++
        leEnc 4 n.attr.uid ++ leEnc 4 n.attr.gid ++ encTs n.attr.atime ++ encTs n.attr.mtime ++ encTs n.attr.ctime) ++ X := by
    intro X; simp
  rw [e]
  exact fieldAt_at (by simp [encTs]) h.2.2.2.2.2.2.2.2.2

theorem enc_ent (i : Ino) (n : Bytes) : encDirEnt 0 (mkEnt i n) = [1, 0, 0, 0, 0, 0, 0, 0] ++ key8 i ++ n := by
  simp [encDirEnt, mkEnt, key8, leEnc]

theorem zero8_eq : zero8 = leEnc 8 0 := by decide

theorem key8_zero {i : Ino} (hi : i < W64) : key8 i = zero8 ↔ i = 0 := by
  rw [zero8_eq]; exact key8_inj hi (by decide)

theorem Tab.Rel.left {V W : Type} {R : Bytes → V → W → Prop} {x : Tab V} {y : Tab W} (h : Tab.Rel R x y) {k : Bytes} {v : V}
    (hf : x.find k = some v) : ∃ w, y.find k = some w ∧ R k v w := by
  rcases h.find k with ⟨e1, -⟩ | ⟨v', w, e1, e2, hr⟩
  · rw [e1] at hf; cases hf
  · rw [e1] at hf; cases hf; exact ⟨w, e2, hr⟩

theorem Tab.Rel.right {V W : Type} {R : Bytes → V → W → Prop} {x : Tab V} {y : Tab W} (h : Tab.Rel R x y) {k : Bytes} {w : W}
    (hf : y.find k = some w) : ∃ v, x.find k = some v ∧ R k v w := by
  rcases h.find k with ⟨-, e1⟩ | ⟨v', w', e1, e2, hr⟩
  · rw [e1] at hf; cases hf
  · rw [e2] at hf; cases hf; exact ⟨v', e1, hr⟩

theorem slice_key16 (p i : Ino) : slice (key16 p i) 0 8 = key8 p ∧ slice (key16 p i) 8 8 = key8 i := by
  refine ⟨by unfold slice; rw [List.drop_zero, key16_take], ?_⟩
  unfold slice; rw [key16_drop, List.take_of_length_le (by simp)]

theorem DRel.layout {b : B.DB} {d : DB} (h : DRel b d) {s : Tree} (hr : Rep s d) (ok : s.OK) : Layout b := by
  have bnd : ∀ {i nd}, s.nodes i = some nd → i < W64 := fun hi => by
    have := ok.bound _ _ hi; have := ok.next_lt; omega
  have hnext : b.next = some (leEnc 8 s.next) := by rw [h.next, hr.next]; rfl
  -- the record of a node
  have rcd : ∀ {i nd}, s.nodes i = some nd → ∃ r, b.inodes.find (key8 i) = some r ∧ slice r 8 8 = leEnc 8 nd.par ∧
      fieldAt r 88 4 = nd.attr.mode := by
    intro i nd hi
    obtain ⟨r, h1, ⟨⟨pad, h2⟩, h3, -⟩⟩ := Tab.Rel.right h.inodes ((hr.inodes (key8 i) (recOf nd)).mpr ⟨i, nd, rfl, hi, rfl⟩)
    refine ⟨r, h1, ?_, ?_⟩
    · rw [h2]; exact enc_parent pad _
    · rw [h2]; exact enc_mode pad h3
  have entI : ∀ {i nd p n}, s.nodes i = some nd → nd.loc = some (p, n) →
      b.treei.find (key16 p i) = some ([1, 0, 0, 0, 0, 0, 0, 0] ++ key8 i ++ n) := by
    intro i nd p n hi hl
    obtain ⟨r, h1, -, h2, -⟩ := Tab.Rel.right h.treei ((hr.treei _ _).mpr ⟨i, nd, p, n, rfl, hi, hl, rfl⟩)
    rw [h1, h2, enc_ent]
  have entN : ∀ {i nd p n}, s.nodes i = some nd → nd.loc = some (p, n) →
      b.treen.find (keyN p n) = some ([1, 0, 0, 0, 0, 0, 0, 0] ++ key8 i ++ n) := by
    intro i nd p n hi hl
    obtain ⟨r, h1, -, h2, -⟩ := Tab.Rel.right h.treen ((hr.treen _ _).mpr ⟨i, nd, p, n, rfl, hi, hl, rfl⟩)
    rw [h1, h2, enc_ent]
  refine ⟨?_, ?_, ?_, ?_, ?_, ?_, ?_⟩
  · intro v hv
    rw [hnext] at hv; cases hv; simp
  · intro k v hv
    obtain ⟨n, h1, ⟨⟨pad, h2⟩, h3, -⟩⟩ := Tab.Rel.left h.inodes hv
    obtain ⟨i, nd, rfl, hi, -⟩ := (hr.inodes _ _).mp h1
    refine ⟨by simp, ?_, ?_, ?_, ?_, _, hnext, ?_⟩
    · rw [h2]; simp [encInode, encTs]
    · rw [h2]; simp [slice, encInode, leEnc]
    · rw [h2]; simp [slice, encInode, leEnc]
    · rw [Ne, key8_zero (bnd hi)]; have := (ok.bound _ _ hi).1; omega
    · rw [leDec_key8 (bnd hi), leDec_leEnc 8 _ (lt64.mp ok.next_lt)]; exact (ok.bound _ _ hi).2
  · intro k v hv
    obtain ⟨n, h1, h0, h2, -⟩ := Tab.Rel.left h.treei hv
    obtain ⟨i, nd, p, m, rfl, hi, hl, rfl⟩ := (hr.treei _ _).mp h1
    obtain ⟨e1, e2⟩ := slice_key16 p i
    obtain ⟨r, hr1, hr2, -⟩ := rcd hi
    refine ⟨h0, m, (ok.loc _ _ _ _ hi hl).2.2, ?_, ?_, r, ?_, ?_⟩
    · rw [h2, enc_ent, e2]
    · rw [e1, h2, enc_ent]; exact entN hi hl
    · rw [e2]; exact hr1
    · rw [e1, hr2]; simp [Node.par, hl, key8]
  · intro k v hv
    obtain ⟨n, h1, h0, h2, -⟩ := Tab.Rel.left h.treen hv
    obtain ⟨i, nd, p, m, rfl, hi, hl, rfl⟩ := (hr.treen _ _).mp h1
    refine ⟨h0, key8 i, by simp, ?_, ?_⟩
    · rw [h2, enc_ent, keyN_drop]
    · unfold slice; rw [List.drop_zero, keyN_take, h2, enc_ent]; exact entI hi hl
  · intro k r hk
    obtain ⟨n, h1, ⟨⟨pad, h2⟩, h3, -⟩⟩ := Tab.Rel.left h.inodes hk
    obtain ⟨i, nd, rfl, hi, rfl⟩ := (hr.inodes _ _).mp h1
    rw [h2, enc_parent]
    cases hl : nd.loc with
    | none =>
      rw [if_pos (by simp [recOf, Node.par, hl, zero8_eq])]
      by_cases hroot : i = ROOT
      · left; rw [hroot]; decide
      · right
        obtain ⟨v, hv, -⟩ := Tab.Rel.right h.orphans ((hr.orphans (key8 i) ()).mpr ⟨i, nd, rfl, hi, hl, hroot⟩)
        exact ⟨v, hv⟩
    | some l =>
      obtain ⟨p, m⟩ := l
      have hp := ok.loc _ _ _ _ hi hl
      rw [if_neg]
      · have := entI hi hl
        unfold key16 at this
        have e : (recOf nd).parent = p := by simp [recOf, Node.par, hl]
        rw [e]
        exact ⟨_, this⟩
      · have : (recOf nd).parent = p := by simp [recOf, Node.par, hl]
        rw [this]
        intro hz
        have := (key8_zero hp.2.1).mp hz
        omega
  · intro k v hv
    obtain ⟨n, h1, h0, h2⟩ := Tab.Rel.left h.orphans hv
    obtain ⟨i, nd, rfl, hi, hl, -⟩ := (hr.orphans _ _).mp h1
    obtain ⟨r, hr1, hr2, -⟩ := rcd hi
    refine ⟨h2, r, hr1, ?_⟩
    rw [hr2]; simp [Node.par, hl, zero8_eq]
  · intro k t ht
    rw [h.links] at ht
    obtain ⟨i, nd, rfl, hi, hl⟩ := (hr.links _ _).mp ht
    obtain ⟨r, hr1, -, hr2⟩ := rcd hi
    refine ⟨r, hr1, ?_⟩
    rw [hr2]; exact ok.target _ _ _ hi hl

/-- The empty file has the layout. -/
theorem Layout.empty : Layout B.emptyDB := by
  refine ⟨?_, ?_, ?_, ?_, ?_, ?_, ?_⟩ <;> intros <;> (rename_i h; cases h)

/-- C66. At any time — after every call, commit, abort or crash, whatever the padding bytes — the
database file and the view of every open transaction have the layout of the format. -/
theorem C66_layout {b : B.World} (h : B.Reach b) : Layout b.disk ∧ ∀ f ∈ b.stack, Layout f.db := by
  obtain ⟨w, hw, hr⟩ := h.rel
  have inv := hw.inv
  constructor
  · rcases inv.disk with ⟨e, -⟩ | ⟨s, hs, ok⟩
    · have hd := hr.disk
      rw [e] at hd
      have t {V : Type} {R : Bytes → Bytes → V → Prop} {x : Tab Bytes} (hx : Tab.Rel R x Tab.empty) (k : Bytes) : x.find k = none := by
        rcases hx.find k with ⟨e1, -⟩ | ⟨v', w', -, e2, -⟩
        · exact e1
        · cases e2
      have t1 := t hd.inodes
      have t2 := t hd.treei
      have t3 := t hd.treen
      have t4 := t hd.orphans
      have t5 : ∀ k, b.disk.links.find k = none := by intro k; rw [hd.links]; rfl
      have t6 : b.disk.next = none := hd.next
      refine ⟨?_, ?_, ?_, ?_, ?_, ?_, ?_⟩ <;> intros <;> simp_all
    · exact hr.disk.layout hs ok
  · intro f hf
    have : ∀ {l : List B.Frame} {m : List Frame}, List.Forall₂ FRel l m → f ∈ l → ∃ g ∈ m, FRel f g := by
      intro l m hlm
      induction hlm with
      | nil => intro h; cases h
      | @cons x y l m hxy _ ih =>
        intro h
        rcases List.mem_cons.mp h with rfl | h
        · exact ⟨y, List.mem_cons_self .., hxy⟩
        · obtain ⟨g, hg, hfg⟩ := ih h
          exact ⟨g, List.mem_cons_of_mem _ hg, hfg⟩
    obtain ⟨g, hg, hfg⟩ := this hr.stack hf
    obtain ⟨⟨s, hs, ok⟩, -⟩ := inv.frames g hg
    exact hfg.db.layout hs ok

/-- C66. The results of a history do not depend on the padding, and are those of the records: the cache
on bytes answers every call of every history as the cache on records does, and meets a fault exactly if
that does, the same one. In particular no branch for records which do not parse is ever taken. -/
theorem C66_records (cs : List (Call × (Ino → Nat))) (hc : ∀ c ∈ cs, c.1.Fits) :
    (∀ w outs, World.init.run (cs.map (·.1)) = .ok (w, outs) → ∃ b, B.World.init.run cs = .ok (b, outs)) ∧
    (∀ e, World.init.run (cs.map (·.1)) = .error e → B.World.init.run cs = .error e) ∧
    (∀ b outs, B.World.init.run cs = .ok (b, outs) → ∃ w, World.init.run (cs.map (·.1)) = .ok (w, outs)) := by
  have := run_rel WRel.init cs hc
  generalize World.init.run (cs.map (·.1)) = x at this
  generalize B.World.init.run cs = y at this
  cases this with
  | @ok a c h =>
    refine ⟨?_, ?_, ?_⟩
    · intro w outs hw; cases hw; exact ⟨a.1, by have := h.2; simp only at this; rw [← this]⟩
    · intro e he; cases he
    · intro b outs hb; cases hb; exact ⟨c.1, by have := h.2; simp only at this; rw [this]⟩
  | error e =>
    refine ⟨?_, ?_, ?_⟩
    · intro w outs hw; cases hw
    · intro e' he; cases he; rfl
    · intro b outs hb; cases hb

/-- C66. In every reachable world on bytes, a call gives the same result as on a reachable world on
records; every theorem about those (C14-C34, C36) is thereby one about the bytes. -/
theorem C66_transfer {b : B.World} (h : B.Reach b) : ∃ w, Reach w ∧ ∀ c pad, B.Allowed b c →
    (∀ e, b.step pad c = .error e ↔ w.step c = .error e) ∧
    (∀ out, (∃ b', b.step pad c = .ok (b', out)) ↔ ∃ w', w.step c = .ok (w', out)) := by
  obtain ⟨w, hw, hr⟩ := h.rel
  refine ⟨w, hw, ?_⟩
  intro c pad ha
  have := step_rel pad hr c ha.1
  generalize b.step pad c = x at this
  generalize w.step c = y at this
  cases this with
  | @ok a c h =>
    obtain ⟨a1, a2⟩ := a
    obtain ⟨c1, c2⟩ := c
    obtain ⟨h1, rfl⟩ := h
    refine ⟨fun e => ⟨fun h => (by cases h), fun h => (by cases h)⟩, fun out => ⟨?_, ?_⟩⟩
    · rintro ⟨b', hb⟩; cases hb; exact ⟨c1, rfl⟩
    · rintro ⟨b', hb⟩; cases hb; exact ⟨a1, rfl⟩
  | error e =>
    exact ⟨fun e' => ⟨fun h => (by cases h; rfl), fun h => (by cases h; rfl)⟩, fun out => ⟨fun ⟨_, h⟩ => (by cases h), fun ⟨_, h⟩ => (by cases h)⟩⟩

/-- Decides `Call.Fits`, for examples. -/
def fitsB : Call → Bool
  | .op (.emplace p _ a) => decide (p < W64) && (decide (a.size < 256 ^ 8) && decide (a.nblocks < 256 ^ 8) && decide (a.uid < 256 ^ 4) &&
      decide (a.gid < 256 ^ 4) && decide (a.mode < 256 ^ 4) && [a.atime, a.mtime, a.ctime].all (fun t => decide (t.sec < 256 ^ 8 ∧ t.nsec < 256 ^ 8)))
  | .op (.writelink _ d) => decide (d.length < W64)
  | .openInit uid gid now => decide (uid < 256 ^ 4 ∧ gid < 256 ^ 4 ∧ now.sec < 256 ^ 8 ∧ now.nsec < 256 ^ 8)
  | _ => true

theorem fitsB_iff {c : Call} (h : fitsB c = true) : c.Fits := by
  cases c with
  | openInit uid gid now => simp only [fitsB, decide_eq_true_eq] at h; exact h
  | op o =>
    cases o with
    | emplace p n a =>
      simp only [fitsB, Bool.and_eq_true, decide_eq_true_eq, List.all_cons, List.all_nil, Bool.and_true] at h
      exact ⟨h.1, h.2.1.1.1.1.1, h.2.1.1.1.1.2, h.2.1.1.1.2, h.2.1.1.2, h.2.2.1, h.2.2.2.1, h.2.2.2.2, h.2.1.2⟩
    | writelink i d => simp only [fitsB, decide_eq_true_eq] at h; exact h
    | _ => trivial
  | _ => trivial

/-- Decides `B.Allowed`, for examples. -/
def B.allowedB (w : B.World) (c : Call) : Bool := fitsB c && match c with
  | .op o => o.inRangeB && match w.stack with
    | [] => true
    | f :: _ => match o with
      | .emplace p _ _ => p != 0 && (match f.db.next with | none => true | some v => decide (leDec v + 1 < W64))
      | .lock i => decide ((w.refs i).nrefs + 1 < W64)
      | _ => true
  | _ => true

theorem B.allowedB_iff {w : B.World} {c : Call} (h : B.allowedB w c = true) : B.Allowed w c := by
  simp only [B.allowedB, Bool.and_eq_true] at h
  refine ⟨fitsB_iff h.1, ?_⟩
  cases c with
  | op o =>
    simp only [Bool.and_eq_true] at h
    refine ⟨Op.inRangeB_iff h.2.1, ?_⟩
    intro f r hs
    rw [hs] at h
    cases o <;> simp_all
    obtain ⟨-, -, -, h3⟩ := h
    intro n hn; rw [hn] at h3; simpa using h3
  | _ => trivial

/-- Runs calls, provided that all are allowed. -/
def B.demo (w : B.World) : List (Call × (Ino → Nat)) → Option B.World
  | [] => some w
  | c :: cs => if B.allowedB w c.1 then
      match w.step c.2 c.1 with
      | .ok (w', _) => B.demo w' cs
      | .error _ => none
    else none

theorem B.demo_reach {cs : List (Call × (Ino → Nat))} : ∀ {w w' : B.World}, B.Reach w → B.demo w cs = some w' → B.Reach w' := by
  induction cs with
  | nil => intro w w' h hd; cases hd; exact h
  | cons c cs ih =>
    intro w w' h hd
    unfold B.demo at hd
    split at hd
    · rename_i hc
      split at hd
      · rename_i w1 o hs
        exact ih (.step h (B.allowedB_iff hc) hs) hd
      · cases hd
    · cases hd

theorem B.demo_ex {cs : List (Call × (Ino → Nat))} {P : B.World → Prop} [DecidablePred P]
    (h : (match B.demo B.World.init cs with | some w => decide (P w) | none => false) = true) : ∃ w, B.Reach w ∧ P w := by
  split at h
  · rename_i w hw; exact ⟨w, B.demo_reach .init hw, by simpa using h⟩
  · cases h

/-- A history for the examples: a link and an orphan are there, padding bytes vary, and the process dies in
the middle of a transaction. -/
def bytesDemo : List (Call × (Ino → Nat)) :=
  [(.openInit 1000 100 ⟨5, 6⟩, fun _ => 77), (.openClean, fun _ => 0), (.beginRW, fun _ => 0),
    (.op (.emplace 1 [0x61] linkA), fun i => i * 3), (.op (.writelink 2 [0x78, 0x79]), fun _ => 4000000000),
    (.op (.emplace 1 [0x62] (fileA 300)), fun i => i), (.op (.lock 3), fun _ => 0), (.op (.unlinkIno 3), fun _ => 9),
    (.op (.updateFlags 1 [0] []), fun _ => 8), (.commit, fun _ => 0), (.beginRW, fun _ => 0), (.op (.unlinkIno 2), fun _ => 0),
    (.crash, fun _ => 0)]

/-- The hypotheses of `C66_layout` and `C66_transfer` can be met: this is the file after the history above. -/
example : ∃ w, B.Reach w ∧ (w.phase = .down ∧ w.disk.next = some [4, 0, 0, 0, 0, 0, 0, 0] ∧
    w.disk.treei.entries = [([1, 0, 0, 0, 0, 0, 0, 0, 2, 0, 0, 0, 0, 0, 0, 0], [1, 0, 0, 0, 0, 0, 0, 0, 2, 0, 0, 0, 0, 0, 0, 0, 0x61])] ∧
    w.disk.treen.entries = [([1, 0, 0, 0, 0, 0, 0, 0, 0x61], [1, 0, 0, 0, 0, 0, 0, 0, 2, 0, 0, 0, 0, 0, 0, 0, 0x61])] ∧
    w.disk.orphans.entries = [([3, 0, 0, 0, 0, 0, 0, 0], [0])] ∧
    w.disk.links.entries = [([2, 0, 0, 0, 0, 0, 0, 0], [0x78, 0x79])] ∧
    (w.disk.inodes.entries.map (fun e => (e.1.take 1, slice e.2 0 32))) =
      [([1], [1, 0, 1, 0, 0, 0, 0, 0, 0, 0, 0, 0, 0, 0, 0, 0, 0, 0, 0, 0, 0, 0, 0, 0, 0, 0, 0, 0, 0, 0, 0, 0]),
       ([2], [1, 0, 0, 0, 0, 0, 0, 0, 1, 0, 0, 0, 0, 0, 0, 0, 2, 0, 0, 0, 0, 0, 0, 0, 0, 0, 0, 0, 0, 0, 0, 0]),
       ([3], [1, 0, 0, 0, 0, 0, 0, 0, 0, 0, 0, 0, 0, 0, 0, 0, 44, 1, 0, 0, 0, 0, 0, 0, 0, 0, 0, 0, 0, 0, 0, 0])]) :=
  B.demo_ex (cs := bytesDemo) (by decide +kernel)

/-- The hypothesis of `C66_records`. -/
example : ∀ c ∈ bytesDemo, c.1.Fits := by
  intro c hc
  exact fitsB_iff ((List.all_eq_true.mp (show bytesDemo.all (fun c => fitsB c.1) = true by decide +kernel)) c hc)

/-! ### C67: damaged databases -/

/-- A record which `Inode::parse` accepts: version 1, at least 96 bytes. -/
def GoodRecord (v : Bytes) : Prop := v.head? = some 1 ∧ 96 ≤ v.length
/-- A record which `DirEntry::parse` accepts: version 1, at least 16 bytes. -/
def GoodEntry (v : Bytes) : Prop := v.head? = some 1 ∧ 16 ≤ v.length

/-- C67. Whatever bytes the database contains, reading the attributes, a flag or the parent of an inode
never reads outside a record and never fails an assertion; a record which is not well-formed is answered
with EINVAL. -/
theorem C67_inode (d : B.DB) (i : Ino) (f : Flag) :
    (d.inodes.find (key8 i) = none → B.getattr d i = .ok (.error ENOENT) ∧ B.testFlag d i f = .ok (.error ENOENT)) ∧
    (∀ v, d.inodes.find (key8 i) = some v → ¬ GoodRecord v → B.getattr d i = .ok (.error EINVAL) ∧
      B.testFlag d i f = .ok (.error EINVAL) ∧ (i ≠ ROOT → B.parent d i = .ok (.error EINVAL))) ∧
    (∀ v, d.inodes.find (key8 i) = some v → GoodRecord v → ∃ n, parseInode v = .ok (.ok n) ∧
      B.getattr d i = .ok (.ok (i, n.attr)) ∧ B.testFlag d i f = .ok (.ok (hasFlag n.flags f)) ∧
      (i ≠ ROOT → B.parent d i = .ok (.ok n.parent))) := by
  refine ⟨?_, ?_, ?_⟩
  · intro h; unfold B.getattr B.testFlag; rw [h]; exact ⟨rfl, rfl⟩
  · intro v h hg
    have hp := (C35_inode_total v).2 hg
    unfold B.getattr B.testFlag B.parent
    rw [h]
    simp only [hp, bind_ok, pure_eq_ok, true_and]
    intro hi; rw [if_neg hi]
  · intro v h hg
    obtain ⟨n, hp⟩ := (C35_inode_total v).1 hg
    refine ⟨n, hp, ?_⟩
    unfold B.getattr B.testFlag B.parent
    rw [h]
    simp only [hp, bind_ok, pure_eq_ok, true_and]
    intro hi; rw [if_neg hi]

theorem parent_total (d : B.DB) (i : Ino) : ∃ r, B.parent d i = .ok r := by
  by_cases hi : i = ROOT
  · exact ⟨_, by unfold B.parent; rw [if_pos hi]⟩
  cases h : d.inodes.find (key8 i) with
  | none => exact ⟨_, by unfold B.parent; rw [if_neg hi, h]⟩
  | some v =>
    by_cases hg : GoodRecord v
    · obtain ⟨n, -, -, -, h4⟩ := (C67_inode d i 0).2.2 v h hg
      exact ⟨_, h4 hi⟩
    · exact ⟨_, ((C67_inode d i 0).2.1 v h hg).2.2 hi⟩

theorem parseEnt_total (v : Bytes) : (∃ e, parseDirEnt v = .ok (.ok e)) ∨ parseDirEnt v = .ok (.error EINVAL) := by
  by_cases hg : v.head? = some 1 ∧ 16 ≤ v.length
  · obtain ⟨e, he, -⟩ := (C35_direntry_total v).1 hg
    exact .inl ⟨e, he⟩
  · exact .inr ((C35_direntry_total v).2 hg)

theorem readdirEnt_total (i : Ino) (v : Bytes) : ∃ r, B.readdirEnt i v = .ok r := by
  unfold B.readdirEnt
  rcases parseEnt_total v with ⟨e, he⟩ | he
  · rw [he]; exact ⟨_, rfl⟩
  · rw [he]; exact ⟨_, rfl⟩

/-- C67. Whatever the values in the database are, as long as the keys of the inode-keyed tree have 16
bytes, `name`, `readlink` and `readdir` give a result or an error code. -/
theorem C67_entries (d : B.DB) (hk : ∀ e ∈ d.treei.entries, e.1.length = 16) (i prev : Ino) :
    (∃ r, B.name d i = .ok r) ∧ (∃ r, B.readlink d i = .ok r) ∧ ∃ r, B.readdir d i prev = .ok r := by
  have n2 : ∀ p, ∃ r, B.name2 d p i = .ok r := by
    intro p
    unfold B.name2
    by_cases hc : i = ROOT ∨ p = INVALID
    · rw [if_pos hc]; exact ⟨_, rfl⟩
    rw [if_neg hc]
    cases d.treei.find (key16 p i) with
    | none => exact ⟨_, rfl⟩
    | some v =>
      rcases parseEnt_total v with ⟨e, he⟩ | he
      · simp only [he, bind_ok]; exact ⟨_, rfl⟩
      · simp only [he, bind_ok]; exact ⟨_, rfl⟩
  refine ⟨?_, ?_, ?_⟩
  · unfold B.name
    by_cases hi : i = ROOT
    · rw [if_pos hi]; exact ⟨_, rfl⟩
    obtain ⟨r, hr⟩ := parent_total d i
    rw [if_neg hi, hr, bind_ok]
    cases r with
    | error e => exact ⟨_, rfl⟩
    | ok p =>
      by_cases hp : p = INVALID
      · simp only [if_pos hp]; exact ⟨_, rfl⟩
      · simp only [if_neg hp]; exact n2 p
  · unfold B.readlink
    cases d.links.find (key8 i) with
    | some t => exact ⟨_, rfl⟩
    | none =>
      cases d.inodes.find (key8 i) with
      | none => exact ⟨_, rfl⟩
      | some v => exact ⟨_, rfl⟩
  · unfold B.readdir
    by_cases hp : prev = 0
    · rw [if_pos hp]; exact ⟨_, rfl⟩
    obtain ⟨r, hr⟩ := parent_total d i
    rw [if_neg hp, hr, bind_ok]
    cases r with
    | error e => exact ⟨_, rfl⟩
    | ok p =>
      simp only
      by_cases hc : prev ≠ p ∧ prev = i
      · rw [if_pos hc]; exact ⟨_, rfl⟩
      rw [if_neg hc]
      have hl : ∀ e ∈ d.treei.lower (key16 i (if prev = p then 0 else prev)), e.1.length = 16 :=
        fun e he => hk e ((Tab.mem_lower_iff _ _ _).mp he).1
      generalize d.treei.lower (key16 i (if prev = p then 0 else prev)) = l at hl
      unfold B.readdirAt
      cases l with
      | nil => exact ⟨_, rfl⟩
      | cons e t =>
        simp only
        rw [chk_of (decide_eq_true (hl e (List.mem_cons_self ..))), bind_ok]
        by_cases h1 : leDec (e.1.take 8) ≠ i
        · rw [if_pos h1]; exact ⟨_, rfl⟩
        rw [if_neg h1]
        by_cases h2 : prev ≠ 0 ∧ leDec (e.1.drop 8) = prev
        · rw [if_pos h2]
          cases t with
          | nil => exact ⟨_, rfl⟩
          | cons e' t =>
            simp only
            rw [chk_of (decide_eq_true (hl e' (List.mem_cons_of_mem _ (List.mem_cons_self ..)))), bind_ok]
            by_cases h3 : leDec (e'.1.take 8) ≠ i
            · rw [if_pos h3]; exact ⟨_, rfl⟩
            · rw [if_neg h3]; exact readdirEnt_total _ _
        · rw [if_neg h2]; exact readdirEnt_total _ _

/-- A database as after opening, with the given record at inode 2 and the given entry `a` in the root. -/
def damaged (r e : Bytes) : B.DB :=
  { B.initDB (fun _ => 0) B.emptyDB 0 0 ⟨0, 0⟩ with
    inodes := (B.initDB (fun _ => 0) B.emptyDB 0 0 ⟨0, 0⟩).inodes.put (key8 2) r
    treei := Tab.empty.put (key16 1 2) e
    treen := Tab.empty.put (keyN 1 [0x61]) e }

/-- C67, full statement: whatever bytes the values in the database are, no reading operation fails an
assertion, throws or runs into undefined behaviour. -/
def C67_full : Prop := ∀ (d : B.DB), (∀ e ∈ d.treei.entries, e.1.length = 16) → (∀ e ∈ d.treen.entries, 8 ≤ e.1.length) →
  ∀ (p i prev : Ino) (n : Bytes), (∃ r, B.getattr d i = .ok r) ∧ (∃ r, B.name d i = .ok r) ∧ (∃ r, B.readlink d i = .ok r) ∧
    (∃ r, B.readdir d i prev = .ok r) ∧ ∃ r, B.lookup d p n = .ok r

/-- C67 fails for `lookup`: one directory entry with an unknown version makes it fail an assertion
(cache.cpp 519), also for other names and in preceding directories. -/
theorem C67_counterexample : ¬ C67_full := by
  intro h
  have h := (h (damaged (B.ser (fun _ => 0) 2 (mkInode (fileA 1) 1)) [2, 0, 0, 0, 0, 0, 0, 0, 2, 0, 0, 0, 0, 0, 0, 0, 0x61])
    (by decide +kernel) (by decide +kernel) 1 1 0 [0x62]).2.2.2.2
  obtain ⟨r, hr⟩ := h
  have : B.lookup (damaged (B.ser (fun _ => 0) 2 (mkInode (fileA 1) 1)) [2, 0, 0, 0, 0, 0, 0, 0, 2, 0, 0, 0, 0, 0, 0, 0, 0x61]) 1 [0x62]
      = .error (.assertFail 519) := by decide +kernel
  rw [this] at hr; cases hr

/-- C67, the part which holds: all reading operations except `lookup`, `path` (which may not end if damaged
parent fields form a cycle), whatever the values. -/
theorem C67_partial (d : B.DB) (hk : ∀ e ∈ d.treei.entries, e.1.length = 16) (i prev : Ino) (f : Flag) :
    (∃ r, B.getattr d i = .ok r) ∧ (∃ r, B.testFlag d i f = .ok r) ∧ (∃ r, B.parent d i = .ok r) ∧
    (∃ r, B.name d i = .ok r) ∧ (∃ r, B.readlink d i = .ok r) ∧ ∃ r, B.readdir d i prev = .ok r := by
  obtain ⟨h1, h2, h3⟩ := C67_entries d hk i prev
  have hc := C67_inode d i f
  refine ⟨?_, ?_, parent_total d i, h1, h2, h3⟩
  · cases h : d.inodes.find (key8 i) with
    | none => exact ⟨_, (hc.1 h).1⟩
    | some v =>
      by_cases hg : GoodRecord v
      · obtain ⟨n, -, h2, -, -⟩ := hc.2.2 v h hg; exact ⟨_, h2⟩
      · exact ⟨_, (hc.2.1 v h hg).1⟩
  · cases h : d.inodes.find (key8 i) with
    | none => exact ⟨_, (hc.1 h).2⟩
    | some v =>
      by_cases hg : GoodRecord v
      · obtain ⟨n, -, -, h2, -⟩ := hc.2.2 v h hg; exact ⟨_, h2⟩
      · exact ⟨_, (hc.2.1 v h hg).2.1⟩

/-- Concrete damaged databases, as in `C67_inode`, `C67_entries` and `C67_partial`: a truncated inode record, an entry of unknown
version. -/
example : B.getattr (damaged [1, 0, 0] []) 2 = .ok (.error EINVAL) ∧ ¬ GoodRecord [1, 0, 0] ∧
    (∀ e ∈ (damaged [1, 0, 0] []).treei.entries, e.1.length = 16) ∧ B.readdir (damaged [1, 0, 0] []) 1 1 = .ok (.error EIO) := by
  refine ⟨by decide +kernel, ?_, by decide +kernel, by decide +kernel⟩
  rintro ⟨-, h⟩; simp at h

end Dragonstash.Cache
