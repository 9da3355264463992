/-
  C129: listings stay right while other requests are served (C92), on the stored bytes.
-/
import Verif.Props.LocalBytes
import Verif.Props.LinkFitBytes
namespace Dragonstash.MTB
open Cache FS Conc ConcB
open MT (readOnly)

/-! ### Specification -/

/-- The database file which request number `k` saw, if the files after 0, 1, 2, ... requests were `bs` (as `MT.seen`): requests which only read see that of their version. -/
def seen (bs : List Cache.B.DB) (k : Nat) (q : MT.Done) : Option Cache.B.DB := if readOnly q.rq then bs[q.ver]? else bs[k]?

/-- Request number `k` saw the directory `dir` in the directory `p`. -/
def SeesAt (bs : List Cache.B.DB) (hist : List MT.Done) (k : Nat) (dir p : Ino) : Prop :=
  ∃ q x, hist[k]? = some q ∧ seen bs k q = some x ∧ Cache.B.parent x dir = .ok (.ok p)

/-- The listing `l` of `dir`, which is in `p`, made of the replies to the requests with the numbers `ks` (as `MT.ListingRight`): `.` and `..`, then no inode twice,
all that was in the directory in all files which these requests saw and left behind, and only what was there in one of them. -/
def ListingRight (bs : List Cache.B.DB) (hist : List MT.Done) (dir p : Ino) (ks : List Nat) (l : List DEnt) : Prop :=
  ∃ es, l.map (fun e => (e.stat.ino, e.name)) = (dir, [0x2e]) :: (if dir = 1 then [] else [(p, [0x2e, 0x2e])]) ++ es ∧ (es.map Prod.fst).Nodup ∧
    (∀ i m, (∀ k ∈ ks, ∀ q x x', hist[k]? = some q → seen bs k q = some x → bs[k + 1]? = some x' →
      Cache.B.lookup x dir m = .ok (.ok i) ∧ Cache.B.lookup x' dir m = .ok (.ok i)) → (i, m) ∈ es) ∧
    ∀ y ∈ es, ∃ k ∈ ks, ∃ q x, hist[k]? = some q ∧ seen bs k q = some x ∧ Cache.B.lookup x dir y.2 = .ok (.ok y.1)

/-! ### Theorems -/

theorem forall2_left {α β : Type} {R : α → β → Prop} {l : List α} {m : List β} (h : List.Forall₂ R l m) : ∀ {k : Nat} {x : α}, l[k]? = some x → ∃ y, m[k]? = some y ∧ R x y := by
  induction h with
  | nil => intro k x hx; cases hx
  | @cons a b l m hab _ ih =>
    intro k x hx
    cases k with
    | zero => cases hx; exact ⟨b, rfl, hab⟩
    | succ k => exact ih hx

theorem seen_left {bs : List Cache.B.DB} {ds : List DB} (h : List.Forall₂ DRel bs ds) {k : Nat} {q : MT.Done} {x : Cache.B.DB} (hx : seen bs k q = some x) :
    ∃ d, MT.seen ds k q = some d ∧ DRel x d := by
  unfold seen at hx
  unfold MT.seen
  split at hx
  · rw [if_pos (by assumption)]; exact forall2_left h hx
  · rw [if_neg (by assumption)]; exact forall2_left h hx

theorem seen_right {bs : List Cache.B.DB} {ds : List DB} (h : List.Forall₂ DRel bs ds) {k : Nat} {q : MT.Done} {d : DB} (hd : MT.seen ds k q = some d) :
    ∃ x, seen bs k q = some x ∧ DRel x d := by
  unfold MT.seen at hd
  unfold seen
  split at hd
  · rw [if_pos (by assumption)]; exact forall2_get h hd
  · rw [if_neg (by assumption)]; exact forall2_get h hd

theorem seesAt_rel {bs : List Cache.B.DB} {ds : List DB} (h : List.Forall₂ DRel bs ds) {hist : List MT.Done} {k : Nat} {dir p : Ino} (hs : SeesAt bs hist k dir p) :
    MT.SeesAt ds hist k dir p := by
  obtain ⟨q, x, h1, h2, h3⟩ := hs
  obtain ⟨d, h4, h5⟩ := seen_left h h2
  exact ⟨q, d, h1, h4, by rw [parent_rel h5] at h3; exact Except.ok.inj h3⟩

theorem listingRight_rel {bs : List Cache.B.DB} {ds : List DB} (h : List.Forall₂ DRel bs ds) {hist : List MT.Done} {dir p : Ino} {ks : List Nat} {l : List DEnt}
    (hl : MT.ListingRight ds hist dir p ks l) : ListingRight bs hist dir p ks l := by
  obtain ⟨es, h1, h2, h3, h4⟩ := hl
  refine ⟨es, h1, h2, fun i m hall => h3 i m fun k hk q d d' hq hd hd' => ?_, fun y hy => ?_⟩
  · obtain ⟨x, g1, g2⟩ := seen_right h hd
    obtain ⟨x', g3, g4⟩ := forall2_get h hd'
    obtain ⟨f1, f2⟩ := hall k hk q x x' hq g1 g3
    exact ⟨by rw [← lookup_rel g2]; exact f1, by rw [← lookup_rel g4]; exact f2⟩
  · obtain ⟨k, hk, q, d, hq, hd, hlk⟩ := h4 y hy
    obtain ⟨x, g1, g2⟩ := seen_right h hd
    exact ⟨k, hk, q, x, hq, g1, by rw [lookup_rel g2]; exact hlk⟩

theorem OneByOne.ver {pads : Nat → Ino → Nat} {d0 : Cache.B.DB} {r0 : Refs} {bs r H} (h : OneByOne pads d0 r0 bs r H) : ∀ q ∈ H, readOnly q.rq = true → ∃ x, bs[q.ver]? = some x := by
  have more : ∀ {bs : List Cache.B.DB} {e : Cache.B.DB} {v : Nat}, (∃ x, bs[v]? = some x) → ∃ x, (bs ++ [e])[v]? = some x := by
    rintro bs e v ⟨x, h⟩
    exact ⟨x, by rw [List.getElem?_append_left (List.getElem?_eq_some_iff.mp h).1]; exact h⟩
  induction h with
  | start => intro q hq; cases hq
  | ro _ _ h2 _ _ ih =>
    intro q hq hr
    rcases List.mem_append.mp hq with hq | hq
    · exact more (ih q hq hr)
    · rw [List.mem_singleton.mp hq]; exact more ⟨_, h2⟩
  | rw _ h1 _ _ ih =>
    intro q hq hr
    rcases List.mem_append.mp hq with hq | hq
    · exact more (ih q hq hr)
    · rw [List.mem_singleton.mp hq, h1] at hr; cases hr

/-- What is known of a history on bytes: the records which it stands for. -/
theorem MReach.full {b : MSys} (h : MReach b) : ∃ b0 d0 r0 n m L H vs R ds s, DRel b0 d0 ∧ Steps (.start b0 r0 n) b ∧ MSRel b m ∧ MT.MInv d0 r0 m L H vs R ds ∧ MT.RInv m R ds s ∧
    MT.PInv (fun _ => True) ds m.hist := by
  have start : ∀ {x : Cache.B.DB} {d d' : DB} {r' : Refs} {s : Tree} {n : Nat} {b : MSys}, Rep s d → s.OK → s.WF → openCleanDB d Refs.empty = .ok (d', r') → MT.Room (Conc.CWorld.start d' r') →
      b = .start x r' n → MSRel b (.start d' r' n) →
      ∃ b0 d0 r0 n m L H vs R ds s, DRel b0 d0 ∧ Steps (.start b0 r0 n) b ∧ MSRel b m ∧ MT.MInv d0 r0 m L H vs R ds ∧ MT.RInv m R ds s ∧ MT.PInv (fun _ => True) ds m.hist := by
    intro x d d' r' s n b h1 h2 h3 ho hroom hb hr
    obtain ⟨s1, s2, h4, h5, h6, -⟩ := open_SI' h1 h2 h3 ho
    obtain ⟨L, H, vs, R, ds, hM⟩ := MT.minv_start d' r' n
    have hone := hM.one
    obtain ⟨rfl, rfl⟩ := MT.OneByOne.det .start hone
    subst hb
    refine ⟨x, d', _, n, _, L, H, vs, _, _, s2, hr.w.disk, .refl, hr, hM, MT.rinv_start h4 hroom, ⟨fun d hd => ?_, fun k q hk => ?_⟩⟩
    · rw [List.mem_singleton.mp hd]
      exact ⟨s2, h4.rep, h4.ok, trivial⟩
    · simp [MT.MSys.start] at hk
  induction h with
  | @mount pad pad' uid gid now n m hf hm hr =>
    obtain ⟨d, r, h1, h2⟩ := mount_left DRel.empty hf hm
    unfold MTB.mount at hm
    obtain ⟨⟨b1, r1⟩, -, h4⟩ := Codec.bind_eq_ok hm
    cases h4
    obtain rfl : r1 = r := h2.w.refs
    obtain ⟨s, g1, g2, g3⟩ := root_rep uid gid now
    exact start g1 g2 g3 h1 ((room_rel h2.w).mp hr) rfl h2
  | @remount m0 pad pad' uid gid now n m' h0 hf hm hr ih =>
    obtain ⟨_, _, _, _, m, _, _, _, _, _, s, _, _, hR0, hM, hR, _⟩ := ih
    obtain ⟨d, r, h1, h2⟩ := mount_left hR0.w.disk hf hm
    unfold MTB.mount at hm
    obtain ⟨⟨b1, r1⟩, -, h4⟩ := Codec.bind_eq_ok hm
    cases h4
    obtain rfl : r1 = r := h2.w.refs
    have hi : initDB m.w.disk uid gid now = m.w.disk := by
      unfold initDB; rw [hR.si.rep.next]
    rw [hi] at h1
    exact start hR.si.rep hR.si.ok hR.si.wf h1 ((room_rel h2.w).mp hr) rfl h2
  | step _ hs hp hr ih =>
    obtain ⟨b0, d0, r0, n, m, L, H, vs, R, ds, s, h0, hst, h3, hM, hR, hP⟩ := ih
    obtain ⟨m', k1, k2⟩ := step_left h3 hs hp.new
    obtain ⟨L', H', vs', R', ds', hM', hRR⟩ := hM.step k1
    obtain ⟨s', hR'⟩ := hR.step hM hM' hRR k1 (proper_left h3 k2 hp) ((room_rel k2.w).mp hr)
    exact ⟨b0, d0, r0, n, m', L', H', vs', R', ds', s', h0, .step hst hs, k2, hM', hR', hP.step MT.kept_true hM hR hM' k1 (fun _ _ => trivial)⟩

/-- **C129.** Several threads serve requests on the bytes of the file; the requests have the effects and the replies of one which serves them one after the other, and with the
files `bs` which it has after each of them, this holds: a directory which is read in pages by any of the requests, as long as it stays where it is, is listed right. -/
theorem C129_listing {b : MSys} (h : MReach b) (pads : Nat → Ino → Nat) : ∃ b0 r0 threads bs R x, Steps (.start b0 r0 threads) b ∧ OneByOne pads b0 r0 bs R b.hist ∧ bs.getLast? = some x ∧ SameReads x b.w.disk ∧
    ∀ {dir p : Ino} {ks : List Nat} {l : List DEnt}, dir < W64 → dir ≠ 0 → p ≠ 0 → (∀ k ∈ ks, SeesAt bs b.hist k dir p) → MT.Listing b.hist dir 0 ks l → ListingRight bs b.hist dir p ks l := by
  obtain ⟨b0, d0, r0, n, m, L, H, vs, R, ds, s, h0, hst, h3, hM, hR, hP⟩ := h.full
  obtain ⟨bs, g4, g5⟩ := one_bytes pads hM.one h0 h3.ended
  obtain ⟨x, g6, g7⟩ := forall2_last g5 hM.last
  refine ⟨b0, r0, n, bs, R, x, hst, by rw [h3.hist]; exact g4, g6, same_of g7 h3.w.disk, fun hd hd0 hp0 hks hl => ?_⟩
  rw [h3.hist] at hks hl ⊢
  refine listingRight_rel g5 (MT.listing_right hP (fun d hd => ?_) hd hd0 hp0 (fun k hk => seesAt_rel g5 (hks k hk)) hl)
  obtain ⟨⟨s2, hold⟩, -⟩ := hR.old d hd
  exact ⟨s2, hold.rep, hold.ok, hold.wf⟩

/-! ### Example -/

/-- The hypotheses of `C129_listing` can be met, with any padding: a page is read while another thread adds what the next page lists. -/
example (pad : Ino → Nat) (pads : Nat → Ino → Nat) : ∃ (b : MSys) (l : List DEnt), MReach b ∧ MT.Listing b.hist 1 0 [1, 3, 4] l ∧
    l.map (fun e => (e.stat.ino, e.name)) = [(1, [0x2e]), (2, [0x6c]), (3, [0x61])] ∧ ∃ bs, (∀ k ∈ [1, 3, 4], SeesAt bs b.hist k 1 1) ∧ ListingRight bs b.hist 1 1 [1, 3, 4] l := by
  obtain ⟨b, m, h1, h2, h3⟩ := demoW_bytes pad (l := Local.eventsL1) (P := fun m => (MT.listingB m.hist 1 0 [1, 3, 4]).map (fun l => l.map (fun e => (e.stat.ino, e.name))) =
    some [(1, [0x2e]), (2, [0x6c]), (3, [0x61])]) (by decide +kernel)
  rw [← h2.hist] at h3
  cases hl : MT.listingB b.hist 1 0 [1, 3, 4] with
  | none => rw [hl] at h3; cases h3
  | some l =>
    rw [hl] at h3
    have hlist := MT.listingB_ok hl
    have hb : MReach b := h1.reach
    obtain ⟨c0, s0, _, bs, R', x, -, g1, -, -, g2⟩ := C129_listing hb pads
    have hs : ∀ k ∈ [1, 3, 4], SeesAt bs b.hist k 1 1 := by
      intro k hk
      obtain ⟨q, h3, h4⟩ := Local.listing_ro hlist k hk
      obtain ⟨x, h5⟩ := g1.ver q (List.mem_of_getElem? h3) h4
      exact ⟨q, x, h3, by unfold seen; rw [h4, if_pos rfl]; exact h5, rfl⟩
    exact ⟨b, l, hb, hlist, Option.some.inj h3, bs, hs, g2 (by decide) (by decide) (by decide) hs hlist⟩

end Dragonstash.MTB
