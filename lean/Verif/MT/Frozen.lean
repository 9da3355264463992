/-
  While the backend is not connected, what can be reached from the root does not change, and the
  replies to requests about it are determined by it.
-/
import Verif.MT.Since
import Verif.Cache.Cursor
import Verif.Props.FSMulti
namespace Dragonstash.MT
open Cache FS Conc
variable {s s' s0 : Tree} {d d' : DB}

/-- Two trees have the same inodes at the same places, as far as they can be reached from the root. -/
structure Agree (s s' : Tree) : Prop where
  nodes : ∀ i, s.Conn i → s'.nodes i = s.nodes i
  conn : ∀ i, s'.Conn i → s.Conn i

theorem Agree.refl (s : Tree) : Agree s s := ⟨fun _ _ => rfl, fun _ h => h⟩

theorem Agree.path (h : Agree s s') {i cs} (hp : s.PathTo i cs) : s'.PathTo i cs := by
  induction hp with
  | root => exact .root
  | child hat hp ih =>
    obtain ⟨nd, h1, h2⟩ := id hat
    exact .child ⟨nd, by rw [h.nodes _ ⟨_, .child hat hp⟩]; exact h1, h2⟩ ih

theorem Agree.symm (h : Agree s s') : Agree s' s :=
  ⟨fun i hi => (h.nodes i (h.conn i hi)).symm, fun i ⟨_, hi⟩ => ⟨_, h.path hi⟩⟩

theorem Agree.trans {s'' : Tree} (h : Agree s s') (h' : Agree s' s'') : Agree s s'' :=
  ⟨fun i hi => by rw [h'.nodes i (h.symm.conn i hi), h.nodes i hi], fun i hi => h.conn i (h'.conn i hi)⟩

theorem Agree.at_ (h : Agree s s') {p n i} (hp : s.Conn p) (ha : s.At p n i) : s'.At p n i := by
  obtain ⟨cs, hp⟩ := hp
  obtain ⟨nd, h1, h2⟩ := id ha
  exact ⟨nd, by rw [h.nodes i ⟨_, .child ha hp⟩]; exact h1, h2⟩

theorem Agree.coll (ok : s.OK) {L : Ino → Prop} (h : Collected s L s') : Agree s s' := by
  have hp : ∀ i cs, s.PathTo i cs → s'.nodes i = s.nodes i := by
    intro i cs hp
    refine h.keep i (fun hg => Conn.not_gone ok ⟨_, hp⟩ hg) ?_
    rintro nd p n h1 h2 ⟨hg, -⟩
    cases hp with
    | root => exact OK.loc_ne_root ok h1 h2 rfl
    | child hat hp =>
      obtain ⟨x, k1, k2⟩ := hat
      rw [h1] at k1; cases k1; rw [h2] at k2; cases k2
      exact Conn.not_gone ok ⟨_, hp⟩ hg
  refine ⟨fun i ⟨cs, hi⟩ => hp i cs hi, ?_⟩
  rintro i ⟨cs, hi⟩
  refine ⟨cs, ?_⟩
  induction hi with
  | root => exact .root
  | child hat _ ih =>
    obtain ⟨nd, h1, h2⟩ := hat
    obtain ⟨-, x, k1, -, -, -, k2⟩ := h.back h1
    refine .child ⟨x, k1, ?_⟩ ih
    rcases k2 with k2 | k2
    · rw [← k2]; exact h2
    · rw [h2] at k2; cases k2

/-- Requests about which the backend says that it is not connected. -/
def Off : DB → Req → Backend → Prop := fun _ _ B => Offline B

/-- Offline, no request changes the tree. -/
theorem abs_off {B : Backend} (hB : Offline B) {r r' : Refs} {rq rep} (h : Abs B d s r rq rep s' r') : s' = s := by
  have e1 := hB.lstat
  have e2 := hB.readlink
  have e3 := hB.opendir
  cases h with
  | lkBad _ g _ => rw [e1] at g; cases g
  | lkPut _ g _ => rw [e1] at g; cases g
  | lkErr _ g g' => rw [e1] at g; cases g; exact absurd rfl g'
  | rlPut _ g => rw [e2] at g; cases g
  | rlErr _ g g' => rw [e2] at g; cases g; exact absurd rfl g'
  | odSync _ g => rw [e3] at g; cases g
  | _ => rfl

/-- What is reached from the root is kept offline. -/
theorem holds_off (s0 : Tree) : Holds Off (fun s => Agree s0 s) :=
  ⟨fun h ok hc => h.trans (.coll ok hc), fun h _ _ _ _ _ hB hP => by rw [abs_off hB h]; exact hP⟩

/-! ### Agreeing trees give the same answers -/

theorem Agree.at_iff (h : Agree s s') {p n i} (hp : s.Conn p) : s'.At p n i ↔ s.At p n i :=
  ⟨fun ha => h.symm.at_ (h.symm.conn p hp) ha, fun ha => h.at_ hp ha⟩

theorem agree_path {r r' : Refs} (h : Agree s s') (k : SI s d r) (k' : SI s' d' r') {i} (hi : s.Conn i) : Cache.path d' i = Cache.path d i := by
  obtain ⟨cs, hp⟩ := hi
  rw [k.rep.path_found k.ok hp, k'.rep.path_found k'.ok (h.path hp)]

theorem agree_lookup {r r' : Refs} (h : Agree s s') (k : SI s d r) (k' : SI s' d' r') {p} (hp : s.Conn p) (n : Bytes) : Cache.lookup d' p n = Cache.lookup d p n := by
  obtain ⟨nd, hnd⟩ := conn_exists k.ok hp
  have hb := OK.lt k.ok hnd
  have h0 := (k.ok.bound p nd hnd).1
  by_cases hn : 503 < n.length
  · rw [lookup_too_long hn, lookup_too_long hn]
  · by_cases hx : ∃ i, s.At p n i
    · obtain ⟨i, hx⟩ := hx
      rw [k.rep.lookup_found k.ok hx, k'.rep.lookup_found k'.ok ((h.at_iff hp).mpr hx)]
    · rw [k.rep.lookup_missing k.ok hb (by omega) (by omega) (fun i hi => hx ⟨i, hi⟩),
        k'.rep.lookup_missing k'.ok hb (by omega) (by omega) (fun i hi => hx ⟨i, (h.at_iff hp).mp hi⟩)]

theorem agree_getattr {r r' : Refs} (h : Agree s s') (k : SI s d r) (k' : SI s' d' r') {i} (hi : s.Conn i) : Cache.getattr d' i = Cache.getattr d i := by
  obtain ⟨nd, hnd⟩ := conn_exists k.ok hi
  have hb := OK.lt k.ok hnd
  rw [k.rep.getattr k.ok hb, k'.rep.getattr k'.ok hb, h.nodes i hi]

theorem agree_readlink {r r' : Refs} (h : Agree s s') (k : SI s d r) (k' : SI s' d' r') {i} (hi : s.Conn i) : Cache.readlink d' i = Cache.readlink d i := by
  obtain ⟨nd, hnd⟩ := conn_exists k.ok hi
  have hb := OK.lt k.ok hnd
  rw [k.rep.readlink k.ok hb, k'.rep.readlink k'.ok hb, h.nodes i hi]

theorem agree_flag {r r' : Refs} (h : Agree s s') (k : SI s d r) (k' : SI s' d' r') {i} (hi : s.Conn i) (f) : testFlag d' i f = testFlag d i f := by
  obtain ⟨nd, hnd⟩ := conn_exists k.ok hi
  have hb := OK.lt k.ok hnd
  rw [k.rep.testFlag k.ok hb, k'.rep.testFlag k'.ok hb, h.nodes i hi]

theorem agree_readdir {r r' : Refs} (h : Agree s s') (k : SI s d r) (k' : SI s' d' r') {i} (hi : s.Conn i) {c : Ino} (hc : c < W64) :
    Cache.readdir d' i c = Cache.readdir d i c := by
  obtain ⟨nd, hnd⟩ := conn_exists k.ok hi
  have hb := OK.lt k.ok hnd
  have hnd' : s'.nodes i = some nd := by rw [h.nodes i hi]; exact hnd
  obtain ⟨p, hp, -, hk, -, -⟩ := parent_facts k hnd
  obtain ⟨p', hp', -, hk', -, -⟩ := parent_facts k' hnd'
  have hpp : p' = p := by
    have e := k.rep.parent k.ok hb
    have e' := k'.rep.parent k'.ok hb
    rw [h.nodes i hi, ← e, hp, hp'] at e'
    cases e'; rfl
  subst hpp
  by_cases h0 : c = 0
  · subst h0; rw [readdir_dot, readdir_dot]
  by_cases h1 : c ≠ p' ∧ c = i
  · unfold Cache.readdir
    rw [if_neg h0, if_neg h0, hp, hp']
    simp only
    rw [if_pos h1, if_pos h1]
  have hpk : ∀ n, ¬ s.At i n p' := fun n hn => hk n ((k.rep.mem_kids k.ok hb).mpr hn)
  have hpk' : ∀ n, ¬ s'.At i n p' := fun n hn => hk' n ((k'.rep.mem_kids k'.ok hb).mpr hn)
  rcases k.rep.readdir_cursor k.ok hb hp h0 hc h1 hpk with ⟨g1, g2⟩ | ⟨n, j, g1, g2, g3, g4⟩ <;>
    rcases k'.rep.readdir_cursor k'.ok hb hp' h0 hc h1 hpk' with ⟨f1, f2⟩ | ⟨m, j', f1, f2, f3, f4⟩
  · rw [g1, f1]
  · exact absurd f3 (g2 m j' ((h.at_iff hi).mp f2))
  · exact absurd g3 (f2 n j ((h.at_iff hi).mpr g2))
  · have hjj : j' = j := by
      rcases g4 m j' ((h.at_iff hi).mp f2) f3 with e | e
      · exact e
      · rcases f4 n j ((h.at_iff hi).mpr g2) g3 with e' | e'
        · exact e'.symm
        · exact absurd (e.trans e') (Before.irrefl _)
    subst hjj
    obtain ⟨x, x1, x2⟩ := g2
    obtain ⟨y, y1, y2⟩ := (h.at_iff hi).mp f2
    rw [x1] at y1; cases y1; rw [x2] at y2; cases y2
    rw [g1, f1]

/-- What `readdir` gives can be reached, or is `..`. -/
theorem readdir_conn {r : Refs} (k : SI s d r) {dir c i : Ino} {n : Bytes} (hd : s.Conn dir) (hc : c < W64) (h : Cache.readdir d dir c = .ok (.ok (i, n))) : s.Conn i := by
  obtain ⟨nd, hnd⟩ := conn_exists k.ok hd
  have hb := OK.lt k.ok hnd
  obtain ⟨p, hp, -, hk, -, hr, hnr⟩ := parent_facts k hnd
  by_cases h0 : c = 0
  · subst h0; rw [readdir_dot] at h; cases h; exact hd
  by_cases h1 : c ≠ p ∧ c = dir
  · unfold Cache.readdir at h
    rw [if_neg h0, hp] at h
    simp only at h
    rw [if_pos h1] at h
    cases h
    by_cases hroot : dir = ROOT
    · rw [hr hroot]; exact ⟨[], .root⟩
    · obtain ⟨-, hpar⟩ := hnr hroot
      obtain ⟨cs, hd⟩ := hd
      cases hd with
      | root => exact absurd rfl hroot
      | child hat hp =>
        obtain ⟨x, k1, k2⟩ := hat
        rw [hnd] at k1; cases k1
        rw [hpar]; unfold Node.par; rw [k2]; exact ⟨_, hp⟩
  rcases k.rep.readdir_cursor k.ok hb hp h0 hc h1 (fun n hn => hk n ((k.rep.mem_kids k.ok hb).mpr hn)) with ⟨g1, -⟩ | ⟨m, j, g1, g2, -⟩
  · rw [g1] at h; cases h
  · rw [g1] at h; cases h
    obtain ⟨cs, hd⟩ := hd
    exact ⟨_, .child g2 hd⟩

theorem agree_stream {r r' : Refs} (h : Agree s s') (k : SI s d r) (k' : SI s' d' r') {dir c l e b} (hi : s.Conn dir) (hc : c < W64) (hs : Stream d dir c l e b) :
    Stream d' dir c l e b ∧ ∀ x ∈ l, s.Conn x.1 := by
  induction hs with
  | stop h1 => exact ⟨.stop (by rw [agree_readdir h k k' hi hc]; exact h1), by simp⟩
  | noattr h1 h2 =>
    have hj := readdir_conn k hi hc h1
    exact ⟨.noattr (by rw [agree_readdir h k k' hi hc]; exact h1) (by rw [agree_getattr h k k' hj]; exact h2), by simp⟩
  | @entry c i n j a l e b h1 h2 _ ih =>
    have hj := readdir_conn k hi hc h1
    obtain ⟨x, hx⟩ := conn_exists k.ok hj
    obtain ⟨g1, g2⟩ := ih (OK.lt k.ok hx)
    refine ⟨.entry (by rw [agree_readdir h k k' hi hc]; exact h1) (by rw [agree_getattr h k k' hj]; exact h2) g1, ?_⟩
    intro y hy
    rcases List.mem_cons.mp hy with rfl | hy
    · exact hj
    · exact g2 y hy

end Dragonstash.MT
