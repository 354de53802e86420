import Verif.Proof.Batches
/-! # Only batches that open what they have to leave a proper tree -/

namespace MerkleBit
variable {N : Nat} {σ V : Type} {cfg : Config N σ V} {C : DbContract cfg.db} {U : HIn N → Prop}
open Trie

/-- In a proper tree, the keys that belong in a subtree are in it. -/
theorem Sub.mem_of_belongs {u : Trie N} {k : Arr N} : ∀ {t : Trie N}, t.WF → u.Sub t → k ∈ t.keys →
    u.split ≤ firstDiff k u.key → k ∈ u.keys
  | .leaf k' v, _, hu, hk, _ => by
    unfold Trie.Sub at hu
    rw [hu]; exact hk
  | .node l r, hwf, hu, hk, hb => by
    rcases hu with rfl | hu | hu
    · exact hk
    · rw [keys_node, List.mem_append] at hk
      rcases hk with hk | hk
      · exact Sub.mem_of_belongs hwf.1 hu hk hb
      · exact absurd hb (Nat.not_le.2 (far_sub hwf.1 hu (far_left hwf (hwf.bit_right hk))))
    · rw [keys_node, List.mem_append] at hk
      rcases hk with hk | hk
      · have hag := hwf.agree k (by rw [keys_node]; exact List.mem_append_left _ hk)
        exact absurd hb (Nat.not_le.2 (far_sub hwf.2.1 hu (far_right hwf hag (hwf.bit_left hk))))
      · exact Sub.mem_of_belongs hwf.2.1 hu hk hb

/-- If the tree assembled from a batch is proper, the batch has opened what it had to. -/
theorem assembled_opened (hN : 0 < N) {pp : PartitionPoint N} (hpp : pp.Lawful) {ks : List (Arr N)}
    {f : Arr N → List UInt8} {P : Trie N} (hP : P.WF) {ts : List (Trie N)} {T : Trie N}
    (hp : ts.Perm (blocksOf pp (sortKeys ks) f (some P))) (hasm : Assembled ts T) (hwf : T.WF)
    {k : Arr N} (hk : k ∈ ks) : Opened pp k P (sortKeys ks) := by
  have hmem : ∀ k, k ∈ sortKeys ks ↔ k ∈ ks := fun k => (sortKeys_perm ks).mem_iff
  refine (trav_far_iff hN hpp ((hmem k).2 hk) hP (sortKeys_sorted ks)
    (List.ne_nil_of_mem ((hmem k).2 hk))).1 fun u hu => ?_
  by_contra hc
  have hent : T.entries.Perm ((leaves (sortKeys ks) f ++
      trav pp (sortKeys ks) P (sortKeys ks)).flatMap entries) := by
    rw [hasm.entries]
    exact hp.flatMap_right _
  rw [List.flatMap_append] at hent
  have hkeys := hent.map Prod.fst
  rw [List.map_append] at hkeys
  have hk1 : k ∈ ((leaves (sortKeys ks) f).flatMap entries).map Prod.fst := by
    simp only [leaves, List.mem_map, List.mem_flatMap]
    exact ⟨(k, f k), ⟨_, ⟨k, (hmem k).2 hk, rfl⟩, by simp [entries]⟩, rfl⟩
  have hkT : k ∈ T.keys := hkeys.mem_iff.2 (List.mem_append_left _ hk1)
  have huT : u.Sub T := hasm.sub u (hp.mem_iff.2 (by
    simp only [blocksOf]; exact List.mem_append_right _ hu))
  have hku := Sub.mem_of_belongs hwf huT hkT (by omega)
  have hk2 : k ∈ ((trav pp (sortKeys ks) P (sortKeys ks)).flatMap entries).map Prod.fst := by
    obtain ⟨e, he, rfl⟩ := List.mem_map.1 hku
    exact List.mem_map_of_mem (List.mem_flatMap.2 ⟨u, hu, he⟩)
  have hnd : T.keys.Nodup := hwf.sorted.imp Arr.ne_of_lt
  have := (hkeys.nodup_iff).1 hnd
  exact (List.nodup_append.1 this).2.2 k hk1 k hk2 rfl

/-- An accepted insert on top of a version: if it leaves a proper tree, it was handled. -/
theorem insert_opened (hN : 0 < N) (hpp : cfg.pp.Lawful) (hU : CollisionFree cfg.hasher U)
    {s0 : σ} {r0 : Arr N} {M : Contents N V} {keys : List (Arr N)} {values : List V}
    (hin : ∀ i ∈ hashedBy cfg (some r0) keys values s0, U i) (hsound : Sound C U s0)
    (hv : IsVersion cfg (C.view s0) r0 M) :
    Ends C (fun _ => True) (insert cfg (some r0) keys values) s0
      (fun r _ => ∃ T : Trie N, r = T.loc cfg.hasher ∧ (∀ i ∈ T.inputs cfg.hasher, U i) ∧
        (T.WF → Handled cfg M keys)) (Inv C.toG U (C.view s0)) := by
  have start := hsound.inv
  by_cases hlen : keys.length = values.length
  swap
  · unfold insert Ends
    rw [if_pos hlen]
    exact ⟨.inl ⟨trivial, id⟩, start⟩
  by_cases hne : keys = []
  · unfold insert Ends
    rw [if_neg (by simpa using hlen), if_pos (by simp [hne])]
    exact ⟨.inl ⟨trivial, id⟩, start⟩
  obtain ⟨P, hPwf, rfl, hPst, hPM⟩ := hv
  have hPU := (hPst.honest hU hsound.view).2
  refine ends_of_guard (C := C) hin (triple_conseq (insert_blocks (cfg := gcfg U cfg)
    (C := C.guard U) (v0 := C.view s0) (Ex := fun _ => True)
    (f := encOf cfg keys values) (prev := some P) hN hpp hU (guardDb_guards U cfg.db) hlen hne
    ?_ ?_ ?_ (fun _ => trivial)) (fun _ h => h) ?_ (fun _ h => h.plain)) start.guard
  · intro k hk
    rcases encodedOf_cases cfg hlen hk with ⟨h1, _⟩ | ⟨v, hv, e, h1, h2⟩
    · exact .inl h1
    · exact .inr ⟨e, h2, trivial⟩
  · intro k hk hok
    rcases encodedOf_cases cfg hlen hk with ⟨_, h⟩ | ⟨v, _, e, _, h⟩
    · exact hin _ (mem_hashedBy h _ (by simp [Trie.inputs]))
    · exact absurd (hok.symm.trans h) (by simp)
  · rintro T ⟨⟩
    exact ⟨hPwf.norm, .inl hPst, hPU, .inr trivial⟩
  · rintro r s ⟨hall, ts, T, hp, hasm, rfl, hi, hst, -⟩
    refine ⟨T, rfl, (hst.honest hU hi.plain.view).2, fun hwf k hk P' hP' hM' => ?_⟩
    rw [Represents.unique hP' hPwf hM' hPM]
    exact assembled_opened hN hpp hPwf hp hasm hwf hk

end MerkleBit
