import Verif.Spec.AllOrNothing
import Verif.Props.Complete
import Verif.Props.Calls
import Verif.Props.Refused
import Verif.Proof.Touched
import Verif.Proof.SameNodes
/-!
# C94: removals are all or nothing
-/

namespace MerkleBit
open Trie
variable {N : Nat} {σ V : Type} {cfg : Config N σ V} {C : DbContract cfg.db} {H : List (HIn N)} {L1 L2 : Ledger N V}
  {P : List (Item N)} {s s' s'' : σ} {r : Arr N} {M : Contents N V} {shows : Bool}

/-- However a removal ends, it adds nothing, and changes nothing that is not below its root. -/
theorem ends_within (hp : C.pending s = View.empty N) (hrun : RemoveEnds cfg r s s') :
    ∃ X, Within C (C.view s) X s' := by
  rcases hrun with hrun | ⟨e, hrun⟩ | ⟨e, n, n', hrun⟩
  · have := remove_within (C := C) (cfg := cfg) hp r
    rw [hrun] at this
    exact ⟨_, this⟩
  · have := remove_within (C := C) (cfg := cfg) hp r
    rw [hrun] at this
    exact ⟨_, this⟩
  · have := remove_within (C := C.crash) (cfg := cfg.crash) (s := (s, n)) hp r
    rw [hrun] at this
    exact ⟨_, ⟨this.out, this.sub⟩⟩

/-- What is stored in two states in which nothing was destroyed is read alike. -/
theorem reads_same_of_both (hc : Sane cfg) {U : HIn N → Prop} (hU : CollisionFree cfg.hasher U)
    (h0 : Honest cfg.hasher U (C.view s)) (hc0 : Closed (C.view s)) (h1 : Honest cfg.hasher U (C.view s'))
    (hc1 : Closed (C.view s')) (hs : C.alive s) (hs' : C.alive s') {x : Arr N} (hx0 : C.view s x ≠ none) (hx : C.view s' x ≠ none) :
    ReadsSame cfg s s' x := by
  obtain ⟨n, hn⟩ := Option.ne_none_iff_exists'.1 hx
  obtain ⟨m, hm⟩ := Option.ne_none_iff_exists'.1 hx0
  have hvar : m.variant = n.variant := (h0 x m hm).2.unique hU (h1 x n hn).2
  rcases (h1 x n hn).2 with ⟨k, b, rfl, hd, -⟩ | ⟨T, hT, rfl, -, hi⟩
  · have hd' := hd
    rw [← hvar] at hd'
    exact ⟨fun k => by simp [getOne, getOneLoop, alive_get hs, alive_get hs', hn, hm, hd, hd'],
      fun keys => by
        by_cases hk : keys.isEmpty
        · simp [get, hk]
        · simp [get, hk, alive_get hs, alive_get hs', hn, hm, traversalFuel, getLoop, hd, hd'],
      fun k => generateInclusionProof_congr rfl (by
        simp [inclusionProof, proofLoop, alive_get hs, alive_get hs', hn, hm, hd, hd'])⟩
  · have hst := stored_of_closed hU h0 hc0 hT hi hx0
    have hst' := stored_of_closed hU h1 hc1 hT hi hx
    exact ⟨fun k => by
        rw [(getOne_stored (C := C) hc.pos hT hst k).alive hs, (getOne_stored (C := C) hc.pos hT hst' k).alive hs'],
      fun ks => by
        rw [(get_stored (C := C) hc.pos hc.pp hT hst ks).alive hs, (get_stored (C := C) hc.pos hc.pp hT hst' ks).alive hs'],
      fun k => generateInclusionProof_congr rfl (by
        rw [(proof_stored (C := C) hc.pos hT hst k).alive hs, (proof_stored (C := C) hc.pos hT hst' k).alive hs'])⟩

/-- What is stored after a removal is read as before. -/
theorem reads_same_of_stored (hc : Sane cfg) {U : HIn N → Prop} (hU : CollisionFree cfg.hasher U) (h0 : Sound C U s)
    (h1 : Sound C U s') (hsub : ∀ y, C.view s' y ≠ none → C.view s y ≠ none) (hv : C.view s'' = C.view s')
    (hs : C.alive s) (hs'' : C.alive s'') {x : Arr N} (hx : C.view s'' x ≠ none) : ReadsSame cfg s s'' x := by
  have hx' : C.view s' x ≠ none := by rw [← hv]; exact hx
  have hview : Honest cfg.hasher U (C.view s'') := by rw [hv]; exact h1.view
  have hclosed : Closed (C.view s'') := by rw [hv]; exact h1.closed
  exact reads_same_of_both hc hU h0.view h0.closed hview hclosed hs hs'' (hsub x hx') hx

theorem ends_sound (hc : Sane cfg) (hsh : WritesShow C shows) (h : Keeps cfg C shows H (L1 ++ (r, M) :: L2) P s)
    (hrun : RemoveEnds cfg r s s') (hcf : CollisionFree cfg.hasher (Among H)) : Sound C (Among H) s' := by
  rcases hrun with hrun | hrun
  · exact keeps_sound hc hsh (h.remove hrun) hcf (fun _ h => h)
  · exact stopped_sound hc hsh h hrun hcf (fun _ h => h)

theorem ends_sub (hp : C.pending s = View.empty N) (hrun : RemoveEnds cfg r s s') (y : Arr N) (hy : C.view s' y ≠ none) :
    C.view s y ≠ none := by
  obtain ⟨X, hw⟩ := ends_within hp hrun
  obtain ⟨n, hn⟩ := Option.ne_none_iff_exists'.1 hy
  obtain ⟨m, hm, -⟩ := hw.sub y n (.inl hn)
  rw [hm]; simp

/-- C94: however the removal of a live version ends, whatever bytes `x` are given as a root: either all reads under `x` are as
before, or nothing is found under `x`. -/
theorem C94_remove_all_or_nothing (hc : Sane cfg) (hroom : cfg.Room) (hsh : WritesShow C shows)
    (h : Keeps cfg C shows H (L1 ++ (r, M) :: L2) P s) (hrun : RemoveEnds cfg r s s') (hv : C.view s'' = C.view s')
    (hs : C.alive s) (hs'' : C.alive s'') (hcf : CollisionFree cfg.hasher (Among H)) (x : Arr N) :
    ReadsSame cfg s s'' x ∨ Tells cfg s'' x (Contents.empty (V := V)) := by
  by_cases hx : C.view s'' x = none
  · exact .inr (nothing_reads hroom hs'' hx)
  · have hp := (keeps_acct hc.pos hc.pp hc.codec hsh h (Among H) hcf (fun _ h => h)).2.2.2
    exact .inl (reads_same_of_stored hc hcf (keeps_sound hc hsh h hcf (fun _ h => h)) (ends_sound hc hsh h hrun hcf)
      (ends_sub hp hrun) hv hs hs'' hx)

/-- C94: in particular the version that is removed is there in full or not at all. -/
theorem C94_removed_version_all_or_nothing (hc : Sane cfg) (hroom : cfg.Room) (hsh : WritesShow C shows)
    (h : Keeps cfg C shows H (L1 ++ (r, M) :: L2) P s) (hrun : RemoveEnds cfg r s s') (hv : C.view s'' = C.view s')
    (hs'' : C.alive s'') (hcf : CollisionFree cfg.hasher (Among H)) (hd : HeightBelow M cfg.depth) :
    Tells cfg s'' r M ∨ Tells cfg s'' r (Contents.empty (V := V)) := by
  by_cases hx : C.view s'' r = none
  · exact .inr (nothing_reads hroom hs'' hx)
  · left
    obtain ⟨hL, -, -, hp⟩ := keeps_acct hc.pos hc.pp hc.codec hsh h (Among H) hcf (fun _ h => h)
    obtain ⟨T, hwf, rfl, hT, hrep⟩ := hL (r, M) (by simp)
    have hso := ends_sound hc hsh h hrun hcf
    refine version_reads hc hroom hs'' hd ⟨T, hwf, rfl, ?_, hrep⟩
    rw [hv] at hx ⊢
    exact stored_of_closed hcf hso.view hso.closed hwf.norm hT hx

/-- The live roots that stay are stored, however the removal ends. -/
theorem ends_live (hc : Sane cfg) (hsh : WritesShow C shows) (h : Keeps cfg C shows H (L1 ++ (r, M) :: L2) P s)
    (hrun : RemoveEnds cfg r s s') (hcf : CollisionFree cfg.hasher (Among H)) {e : Arr N × Contents N V}
    (he : e ∈ L1 ++ L2) : C.view s' e.1 ≠ none := by
  have key : ∀ {ex : Prop} {v : View N},
      Acct cfg.hasher (Among H) ex v ((L1 ++ L2).map Prod.fst ++ P.map (Item.loc cfg.hasher)) → v e.1 ≠ none := by
    intro ex v ha
    obtain ⟨n, hn⟩ := ha.present (x := e.1) (.root (List.mem_append_left _ (List.mem_map_of_mem he)))
    rw [hn]; simp
  rcases hrun with hrun | hrun
  · exact key (keeps_acct hc.pos hc.pp hc.codec hsh (h.remove hrun) (Among H) hcf (fun _ h => h)).2.2.1
  · exact key (stopped_halfway hc hsh h hrun hcf (fun _ h => h))

/-- C94: and the other live versions are read as before. -/
theorem C94_other_versions_stay (hc : Sane cfg) (hsh : WritesShow C shows)
    (h : Keeps cfg C shows H (L1 ++ (r, M) :: L2) P s) (hrun : RemoveEnds cfg r s s') (hv : C.view s'' = C.view s')
    (hs : C.alive s) (hs'' : C.alive s'') (hcf : CollisionFree cfg.hasher (Among H)) {e : Arr N × Contents N V}
    (he : e ∈ L1 ++ L2) : ReadsSame cfg s s'' e.1 := by
  have hp := (keeps_acct hc.pos hc.pp hc.codec hsh h (Among H) hcf (fun _ h => h)).2.2.2
  exact reads_same_of_stored hc hcf (keeps_sound hc hsh h hcf (fun _ h => h)) (ends_sound hc hsh h hrun hcf)
    (ends_sub hp hrun) hv hs hs'' (by rw [hv]; exact ends_live hc hsh h hrun hcf he)

/-- C94: for the root that is removed this needs nothing about what is stored: whatever the database holds and whatever bytes
`r` are, either no read under any root changes, or nothing is found under `r`. -/
theorem C94_any_removal_all_or_nothing (hroom : cfg.Room) (hp : C.pending s = View.empty N) (hrun : RemoveEnds cfg r s s')
    (hv : C.view s'' = C.view s') (hs : C.alive s) (hs'' : C.alive s'') :
    (∀ x, ReadsSame cfg s s'' x) ∨ Tells cfg s'' r (Contents.empty (V := V)) := by
  rcases ends_first hp hrun with h | h
  · exact .inr (nothing_reads hroom hs'' (by rw [hv]; exact h))
  · exact .inl fun x => readsSame_of_sameNodes hs hs'' (by rw [hv]; exact h) x

/-! ## Concrete cases -/

namespace Toy

/-- The removal of the first version dies at its third write: whatever bytes are given as a root. -/
example (x : Arr 2) := C94_remove_all_or_nothing sane room hash_writesShow keeps2 (.inr cut_run) rfl (alive _) (alive _)
  free2 x

/-- Of the first version nothing is left for readers, although some of its pairs were there; the second is read as before. -/
example : Tells Toy.cfg cut r1 (Contents.empty (V := List UInt8)) ∧ getOne Toy.cfg s2 r1 (key 1) = .ok (some [10]) ∧
    ReadsSame Toy.cfg s2 cut r2 := by
  refine ⟨?_, by decide +kernel, C94_other_versions_stay sane hash_writesShow keeps2 (.inr cut_run) rfl (alive _) (alive _)
    free2 (e := (r2, M2)) (by simp)⟩
  rcases C94_removed_version_all_or_nothing sane room hash_writesShow keeps2 (.inr cut_run) rfl (alive _) free2 (deep _) with h | h
  · exfalso
    have := h.one (key 1)
    revert this
    decide +kernel
  · exact h

/-- If the process dies before the first write, all is there. -/
example : Tells Toy.cfg (remove Toy.cfg.crash r1 (s2, 0)).2.1 r1 M1 := by
  have hrun : RemoveStops Toy.cfg r1 s2 (remove Toy.cfg.crash r1 (s2, 0)).2.1 :=
    .inr ⟨.exception "crash", 0, (remove Toy.cfg.crash r1 (s2, 0)).2.2, outcome (by decide +kernel)⟩
  rcases C94_removed_version_all_or_nothing sane room hash_writesShow keeps2 (.inr hrun) rfl (alive _) free2 (deep _) with h | h
  · exact h
  · exfalso
    have := h.one (key 1)
    revert this
    decide +kernel

/-- After removals that may have destroyed what other versions share (`d3` of C19), a removal of any bytes. -/
example (r x : Arr 2) (s' : HashDB 2) (hrun : RemoveEnds Toy.cfg r d3.2 s') :
    ReadsSame Toy.cfg d3.2 s' x ∨ Tells Toy.cfg s' r (Contents.empty (V := List UInt8)) :=
  (C94_any_removal_all_or_nothing (C := Toy.C) room rfl hrun rfl (alive _) (alive _)).imp_left (fun h => h x)

/-- Both cases happen in `s2`: the leaf of one pair is shared by the two versions and stays, the other goes. -/
example : getOne Toy.cfg (remove Toy.cfg (loc Toy.cfg.hasher (.leaf (key 1) [10])) s2).2
      (loc Toy.cfg.hasher (.leaf (key 1) [10])) (key 1) = .ok (some [10]) ∧
    getOne Toy.cfg s2 (loc Toy.cfg.hasher (.leaf (key 2) [20])) (key 2) = .ok (some [20]) ∧
    getOne Toy.cfg (remove Toy.cfg (loc Toy.cfg.hasher (.leaf (key 2) [20])) s2).2
      (loc Toy.cfg.hasher (.leaf (key 2) [20])) (key 2) = .ok none := by decide +kernel

end Toy

/-- What an interrupted removal leaves cannot be removed by calling `remove` again: the root is gone first, the second call
succeeds and changes nothing, and no live version is left although nodes are. -/
theorem C94_interrupted_remove_leaks : ∃ (H : List (HIn 2)) (s s' : HashDB 2) (r x : Arr 2) (M : Contents 2 (List UInt8)),
    Keeps Toy.cfg Toy.C true H ([] ++ (r, M) :: []) [] s ∧ CollisionFree Toy.cfg.hasher (Among H) ∧
    RemoveStops Toy.cfg r s s' ∧ remove Toy.cfg r s' = (.ok (), s') ∧ Toy.C.view s' x ≠ none := by
  refine ⟨Toy.H1, Toy.s1, (remove Toy.cfg.crash Toy.r1 (Toy.s1, 1)).2.1, Toy.r1,
    (HIn.data (Toy.key 1) [10]).hash Toy.cfg.hasher, Toy.M1, C87_nothing_left_if_new Toy.sane Toy.use1, Toy.free1,
    .inr ⟨.exception "crash", 1, (remove Toy.cfg.crash Toy.r1 (Toy.s1, 1)).2.2, outcome (by decide +kernel)⟩, ?_, ?_⟩
  · exact C22_remove_unknown_hashdb Toy.cfg rfl _ _ (by decide +kernel)
  · decide +kernel

/-- That nothing is queued is needed: with `RocksDB`, what two refused inserts queued arrives with a removal that succeeds, and
brings back the root and one of the two pairs that the removal deleted.  Half a version can be read. -/
theorem C94_refused_inserts_differ : ∃ (r : Arr 2),
    let b1 := insert Toy.rocks none [Toy.key 1, Toy.key 2] [[10], [20]] (RocksDB.open 2)
    let b2 := insert Toy.rocks (some r) [Toy.key 0x8000, Toy.key 0x8000] [[1], [2]] b1.2
    let b3 := insert Toy.rocks none [Toy.key 1, Toy.key 0x8000, Toy.key 0x8000] [[10], [1], [2]] b2.2
    let b4 := remove Toy.rocks r b3.2
    b1.1 = .ok r ∧ b2.1.toOption = none ∧ b3.1.toOption = none ∧ b4.1 = .ok () ∧
    getOne Toy.rocks b3.2 r (Toy.key 1) = .ok (some [10]) ∧ getOne Toy.rocks b3.2 r (Toy.key 2) = .ok (some [20]) ∧
    getOne Toy.rocks b4.2 r (Toy.key 1) = .ok (some [10]) ∧ getOne Toy.rocks b4.2 r (Toy.key 2) = .ok none :=
  ⟨Toy.key 59708, by decide +kernel⟩

end MerkleBit
