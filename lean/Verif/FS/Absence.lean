/-
  What is absent from a synchronised directory of the cache was denied by the backend: invariant.
-/
import Verif.FS.Origin
import Verif.Props.FSDir
namespace Dragonstash.FS
open Cache Codec

/-- While a request was handled, the backend `B` said something because of which the name `n` in the directory with the path `b` is given up: an error for its
path (other than that there is no connection) when asked for attributes or a link target, or a listing of the directory in the course of which it has not told attributes for
this name. `d` are the databases which the request saw: they tell which paths its inodes have. -/
inductive Denies (d : DB) (B : Backend) : Req → Bytes → Bytes → Prop
  | lookup {p b n e} : Cache.path d p = .ok (.ok b) → B.lstat 0 (b ++ 0x2f :: n) = .error e → e ≠ ENOTCONN → Denies d B (.lookup p n) b n
  | readlink {i b n e} : Cache.path d i = .ok (.ok (b ++ 0x2f :: n)) → B.readlink (b ++ 0x2f :: n) = .error e → e ≠ ENOTCONN → Denies d B (.readlink i) b n
  | list {i b n names e} : Cache.path d i = .ok (.ok b) → B.opendir (if b = [] then [0x2f] else b) = .ok (names, e) →
      (∀ (k : Nat) sr, names[k]? = some n → B.lstat k (entryPath (backendPath b) n) ≠ .ok sr) → Denies d B (.opendir i) b n

variable {s s' s'' : Tree} {d d' : DB} {r r' : Refs} {N : Bytes → Bytes → Prop} {B : Backend}

/-- What is not in a synchronised directory has been denied. -/
def Honest (N : Bytes → Bytes → Prop) (s : Tree) : Prop :=
  ∀ p nd cs n, s.PathTo p cs → s.nodes p = some nd → hasFlag nd.flags SYNCED = true → GoodName n → (∀ i, ¬ s.At p n i) → N (pathStr cs) n

/-- If what happens adds no synchronised directory and removes no entry from those which stay. -/
theorem Honest.via (h : Honest N s) (hp : ∀ p nd' cs, s'.PathTo p cs → s'.nodes p = some nd' → hasFlag nd'.flags SYNCED = true →
      s.PathTo p cs ∧ (∃ nd, s.nodes p = some nd ∧ hasFlag nd.flags SYNCED = true) ∧ ∀ n i, s.At p n i → (∃ j, s'.At p n j) ∨ N (pathStr cs) n) : Honest N s' := by
  intro p nd' cs n h1 h2 h3 h4 h5
  obtain ⟨g1, ⟨nd, g2, g3⟩, g4⟩ := hp p nd' cs h1 h2 h3
  by_cases hx : ∃ i, s.At p n i
  · obtain ⟨i, hx⟩ := hx
    rcases g4 n i hx with ⟨j, k⟩ | k
    · exact absurd k (h5 j)
    · exact k
  · exact h p nd cs n g1 g2 g3 h4 (fun i hi => hx ⟨i, hi⟩)

theorem PathTo.of_at (hat : ∀ p n i, s'.At p n i → s.At p n i) {i cs} (hp : s'.PathTo i cs) : s.PathTo i cs := by
  induction hp with
  | root => exact .root
  | child h1 _ ih => exact .child (hat _ _ _ h1) ih

theorem Honest.collected {L : Ino → Prop} (h : Honest N s) (hc : Collected s L s') : Honest N s' := by
  refine h.via fun p nd' cs h1 h2 h3 => ⟨PathTo.of_at (fun q m j hj => ((at_collected hc).mp hj).1) h1, ?_, fun n i hi => .inl ⟨i, ?_⟩⟩
  · obtain ⟨-, nd, g1, -, g2, -⟩ := hc.back h2
    exact ⟨nd, g1, by rw [← g2]; exact h3⟩
  · exact (at_collected hc).mpr ⟨hi, fun hg => (hc.back h2).1 hg.1⟩

theorem Honest.set (h : Honest N s) {i nd nd'} (hi : s.nodes i = some nd) (hl : nd'.loc = nd.loc) (hf : hasFlag nd'.flags SYNCED = true → hasFlag nd.flags SYNCED = true) : Honest N (s.set i nd') := by
  refine h.via fun p x cs h1 h2 h3 => ⟨PathTo.of_at (fun q m j hj => (at_set hi hl).mp hj) h1, ?_, fun n j hj => .inl ⟨j, (at_set hi hl).mpr hj⟩⟩
  by_cases hp : p = i
  · subst hp; rw [Tree.set_self] at h2; cases h2; exact ⟨nd, hi, hf h3⟩
  · rw [Tree.set_ne hp] at h2; exact ⟨x, h2, h3⟩

theorem orphan_back {i j : Ino} {nd' : Node} (hj : (s.orphan i).nodes j = some nd') : ∃ nd, s.nodes j = some nd ∧ nd'.flags = nd.flags := by
  by_cases hji : j = i
  · subst hji
    cases hn : s.nodes j with
    | none => rw [orphan_none hn] at hj; cases hj
    | some x => rw [Tree.orphan_self hn] at hj; cases hj; exact ⟨x, rfl, rfl⟩
  · rw [Tree.orphan_ne hji] at hj; exact ⟨nd', hj, rfl⟩

/-- An entry is removed which was denied. -/
theorem Honest.orphan (h : Honest N s) (ok : s.OK) {i cs : _} {n : Bytes} (hp : s.PathTo i (cs ++ [n])) (hN : N (pathStr cs) n) : Honest N (s.orphan i) := by
  refine h.via fun p nd' es h1 h2 h3 => ?_
  have hb : s.PathTo p es := PathTo.of_at (fun q m j hj => (at_orphan.mp hj).1) h1
  obtain ⟨nd, g1, g2⟩ := orphan_back h2
  refine ⟨hb, ⟨nd, g1, by rw [← g2]; exact h3⟩, fun m j hj => ?_⟩
  by_cases hji : j = i
  · subst hji
    have := PathTo.unique ok (.child hj hb) hp
    obtain ⟨rfl, e⟩ := List.append_inj' this rfl
    cases e
    exact .inr hN
  · exact .inl ⟨j, at_orphan.mpr ⟨hj, hji⟩⟩

theorem add_back (ok : s.OK) (wf : s.WF) {p n a} : ∀ {j ds}, (s.add p n a).PathTo j ds → j ≠ s.next → s.PathTo j ds := by
  intro j ds hp
  induction hp with
  | root => intro _; exact .root
  | @child q m j es h1 _ ih =>
    intro hj
    rcases (at_add ok).mp h1 with h2 | ⟨-, -, h2⟩
    · refine .child h2 (ih ?_)
      rintro rfl
      obtain ⟨x, h3, h4⟩ := h2
      obtain ⟨-, y, h5, -⟩ := wf j x _ m h3 h4
      rw [OK.fresh ok] at h5; cases h5
    · exact absurd h2 hj

theorem Honest.put {p n a res} (h : Put p n a s r res s' r') (hh : Honest N s) (ok : s.OK) (wf : s.WF) : Honest N s' := by
  cases h with
  | bad => exact hh
  | @same i nd h1 h2 h3 => exact hh.set h1 rfl (fun hf => by rw [hasFlag_zero] at hf; cases hf)
  | @new s1 _ _ hn' h1 h2 h3 h4 =>
    refine Honest.collected ?_ h3
    have ok1 : s1.OK := by
      rcases h1 with ⟨rfl, -⟩ | ⟨i, nd, rfl, -⟩
      · exact ok
      · exact OK.orphan ok i
    have wf1 : s1.WF := by
      rcases h1 with ⟨rfl, -⟩ | ⟨i, nd, rfl, -⟩
      · exact wf
      · exact OK.wf_orphan wf i
    have at1 : ∀ q m j, s1.At q m j → s.At q m j := by
      rcases h1 with ⟨rfl, -⟩ | ⟨i, nd, rfl, -⟩
      · exact fun _ _ _ h => h
      · exact fun q m j hj => (at_orphan.mp hj).1
    have back : ∀ j nd', s1.nodes j = some nd' → ∃ nd, s.nodes j = some nd ∧ nd'.flags = nd.flags := by
      rcases h1 with ⟨rfl, -⟩ | ⟨i, nd, rfl, -⟩
      · exact fun j nd' hj => ⟨nd', hj, rfl⟩
      · exact fun j nd' hj => orphan_back hj
    have fwd : ∀ q m j, s.At q m j → ∃ j', (s1.add p n a).At q m j' := by
      rcases h1 with ⟨rfl, -⟩ | ⟨i, nd, rfl, k1, k2, -⟩
      · exact fun q m j hj => ⟨j, (at_add ok).mpr (.inl hj)⟩
      · intro q m j hj
        by_cases hji : j = i
        · subst hji
          obtain ⟨x, e1, e2⟩ := hj
          rw [k1] at e1; cases e1; rw [k2] at e2; cases e2
          exact ⟨_, (at_add ok1).mpr (.inr ⟨rfl, rfl, rfl⟩)⟩
        · exact ⟨j, (at_add ok1).mpr (.inl (at_orphan.mpr ⟨hj, hji⟩))⟩
    refine hh.via fun q nd' cs g1 g2 g3 => ?_
    have hq : q ≠ s1.next := by
      rintro rfl
      rw [Tree.add_self] at g2; cases g2
      simp only [hasFlag_zero] at g3; cases g3
    rw [Tree.add_ne hq] at g2
    obtain ⟨nd, k1, k2⟩ := back q nd' g2
    exact ⟨PathTo.of_at at1 (add_back ok1 wf1 g1 hq), ⟨nd, k1, by rw [← k2]; exact g3⟩, fun m j hj => .inl (fwd q m j hj)⟩

theorem Honest.puts {base : Bytes} {i k names cs} (h : Puts B base i k names s r s' r') (hh : Honest N s) (ok : s.OK)
    (wf : s.WF) (hd : s.IsDir i) (hlen : s.next + names.length < W64) (hp : s.PathTo i cs) : Honest N s' ∧ s'.PathTo i cs := by
  induction h with
  | nil => exact ⟨hh, hp⟩
  | skip _ _ ih => exact ih hh ok wf hd (by simp at hlen; omega) hp
  | @put k n l s r s1 r1 s' r' sr res h1 h2 h3 ih =>
    simp only [List.length_cons] at hlen
    have e := h2.eff ok hd (by omega)
    have hp1 := Put.path h2 ok hd (by omega) hp
    exact ih (hh.put h2 ok wf) (e.1.ok ok) (e.2.wf ok wf) (eff_dir e.1 ok ⟨cs, hp1⟩ hd) (by have := h2.next; omega) hp1

theorem Honest.sync {base : Bytes} {i names cs} (h : SyncTo B base i names s r s' r') (hh : Honest N s) (ok : s.OK) (wf : s.WF) (hd : s.IsDir i)
    (hlen : s.next + names.length < W64) (hp : s.PathTo i cs)
    (hN : ∀ n, (∀ k sr, names[k]? = some n → B.lstat k (entryPath base n) ≠ .ok sr) → N (pathStr cs) n) : Honest N s' := by
  have hent := SyncTo.entries h ⟨cs, hp⟩
  cases h with
  | @mk s1 _ nd rw h1 h2 h3 h4 h5 h6 =>
    obtain ⟨g1, g2⟩ := hh.puts h1 ok wf hd hlen hp
    obtain ⟨l, f1, -, -⟩ := h2.rewr
    have hset : ∀ {q m j}, (s1.set i { nd with flags := newFlags nd.flags [SYNCED] [] }).At q m j ↔ s1.At q m j := at_set h3 rfl
    intro p x es n k1 k2 k3 k4 k5
    have kp : s1.PathTo p es := PathTo.of_at (fun q m j hj => hset.mp (orphans_At.mp hj).1) k1
    by_cases hpi : p = i
    · subst hpi
      rw [PathTo.unique h4 kp g2]
      refine hN n fun k sr hk hl => ?_
      by_cases hl' : ∃ sr', Seen B base names n sr'
      · obtain ⟨sr', hl'⟩ := hl'
        obtain ⟨j, hj⟩ := hent.2.1 n sr' k4 hl'
        exact k5 j hj
      · -- the last position with a successful answer
        have : ∀ m, ∃ k sr, names[k]? = some n ∧ B.lstat k (entryPath base n) = .ok sr ∧ m ≤ k := by
          intro m
          induction m with
          | zero => exact ⟨k, sr, hk, hl, Nat.zero_le _⟩
          | succ m ih =>
            obtain ⟨k, sr, e1, e2, e3⟩ := ih
            by_cases hmore : ∃ k' sr', k < k' ∧ names[k']? = some n ∧ B.lstat k' (entryPath base n) = .ok sr'
            · obtain ⟨k', sr', e4, e5, e6⟩ := hmore
              exact ⟨k', sr', e5, e6, by omega⟩
            · exact absurd ⟨sr, k, e1, e2, fun k' sr' hk' e4 e5 => hmore ⟨k', sr', hk', e4, e5⟩⟩ hl'
        obtain ⟨k, sr, e1, -, e3⟩ := this names.length
        have := (List.getElem?_eq_some_iff.mp e1).1
        omega
    · have k2' : ∃ z, s1.nodes p = some z ∧ hasFlag z.flags SYNCED = true := by
        obtain ⟨z, e1, e2, -⟩ := orphans_flags k2
        rw [Tree.set_ne hpi] at e1
        exact ⟨z, e1, by rw [e2]; exact k3⟩
      obtain ⟨z, e1, e2⟩ := k2'
      refine g1 p z es n kp e1 e2 k4 fun j hj => k5 j (orphans_At.mpr ⟨hset.mpr hj, fun hm => ?_⟩)
      unfold marks at hm
      cases rw with
      | none => cases hm
      | some L => exact hpi ((f1.own L j rfl hm).2 p n hj)

theorem abs_honest {rq rep} (h : Abs B d s r rq rep s' r') (hI : SI s d r) (hr : rq.inRange) (hd : rq.onDir d)
    (hn2 : ∀ p names e, B.opendir p = .ok (names, e) → s.next + names.length + 1 < W64) (hB : ∀ b n, Denies d B rq b n → N b n) (ho : Honest N s) : Honest N s' := by
  have dir : ∀ {p cs}, p < W64 → s.PathTo p cs → (∀ x, Cache.getattr d p = .ok x → fmt x.2.mode = S_IFDIR) → s.IsDir p := by
    intro p cs hb hp hd
    obtain ⟨nd, hnd⟩ := conn_exists hI.ok ⟨cs, hp⟩
    exact isDir_of hI hb hd hnd
  cases h with
  | lkBad h1 h2 h3 => exact ho.put h3 hI.ok hI.wf
  | lkPut h1 h2 h3 => exact ho.put h3 hI.ok hI.wf
  | @lkErr p n cs be i _ _ h1 h2 h3 h4 h5 =>
    exact (ho.orphan hI.ok (.child h4 h1) (hB _ _ (.lookup (hI.rep.path_found hI.ok h1) (by rw [pathStr_snoc']; exact h2) h3))).collected h5.coll
  | @rlErr i cs be _ _ h1 h2 h3 h4 h5 =>
    refine Honest.collected ?_ h5.coll
    cases h1 with
    | root => exact absurd rfl h4
    | @child p n _ cs hat hp =>
      refine ho.orphan hI.ok (.child hat hp) (hB _ _ (.readlink (by rw [pathStr_snoc']; exact hI.rep.path_found hI.ok (.child hat hp)) ?_ h3))
      rw [pathStr_snoc']
      rw [backendPath_ne (by simp)] at h2
      exact h2
  | @rlPut i cs dest nd h1 h2 h3 h4 => exact ho.set h3 rfl (fun h => h)
  | odSync h1 h2 h3 => exact ho.sync h3 hI.ok hI.wf (dir hr h1 hd) (by have := hn2 _ _ _ h2; omega) h1 (fun n hk => hB _ _ (.list (hI.rep.path_found hI.ok h1) h2 hk))
  | _ => exact ho

end Dragonstash.FS
