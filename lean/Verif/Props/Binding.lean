import Verif.Proof.Inclusion
import Verif.Props.ToyHistory
/-!
# C75: any root commits to the pairs at its places

`verify_inclusion_proof` takes no database.  Here the root is any byte string, chosen by whoever presents the
proofs.  The place a proof speaks of is the list of its sides, from the root down.
-/

namespace MerkleBit
variable {N : Nat} {V : Type}

/-- The sides of a proof from the root down, without those of its first two entries (the data node and the
leaf), which are ignored. -/
def place (p : List (Arr N × Bool)) : List Bool := ((p.drop 2).map (·.2)).reverse

theorem fold_binds {H : Hasher N} {U : HIn N → Prop} (hU : CollisionFree H U) {k k' d d' : Arr N}
    (hk : U (.leaf k d)) (hk' : U (.leaf k' d')) : ∀ (q q' : List (Arr N × Bool)),
      (∀ i ∈ foldInputs H ((HIn.leaf k d).hash H) q, U i) →
      (∀ i ∈ foldInputs H ((HIn.leaf k' d').hash H) q', U i) →
      (q.map (·.2)).reverse <+: (q'.map (·.2)).reverse →
      foldProof H N ((HIn.leaf k d).hash H) q = foldProof H N ((HIn.leaf k' d').hash H) q' →
      k = k' ∧ d = d' ∧ q = q' := by
  intro q
  induction q using List.reverseRecOn with
  | nil =>
    intro q' _ h' _ h
    cases q' using List.reverseRecOn with
    | nil =>
      have := hU _ _ hk hk' h
      simp only [HIn.leaf.injEq] at this
      exact ⟨this.1, this.2, rfl⟩
    | append_singleton q' e =>
      exfalso
      rw [foldInputs_append] at h'
      rw [foldProof_append] at h
      obtain ⟨x, b⟩ := e
      cases b with
      | true =>
        have := hU _ _ hk (h' _ (List.mem_append_right _ (List.mem_cons_self))) h
        cases this
      | false =>
        have := hU _ _ hk (h' _ (List.mem_append_right _ (List.mem_cons_self))) h
        cases this
  | append_singleton q e ih =>
    intro q' hq h' hpre h
    cases q' using List.reverseRecOn with
    | nil => simp at hpre
    | append_singleton q' e' =>
      obtain ⟨x, b⟩ := e
      obtain ⟨x', b'⟩ := e'
      simp only [List.map_append, List.map_cons, List.map_nil, List.reverse_append, List.reverse_cons,
        List.reverse_nil, List.nil_append, List.cons_append, List.cons_prefix_cons] at hpre
      obtain ⟨rfl, hpre⟩ := hpre
      rw [foldInputs_append] at hq h'
      rw [foldProof_append, foldProof_append] at h
      have hq1 := fun i hi => hq i (List.mem_append_left _ hi)
      have hq1' := fun i hi => h' i (List.mem_append_left _ hi)
      cases b with
      | true =>
        have := hU _ _ (hq _ (List.mem_append_right _ (List.mem_cons_self)))
          (h' _ (List.mem_append_right _ (List.mem_cons_self))) h
        simp only [HIn.branch.injEq] at this
        obtain ⟨h1, rfl⟩ := this
        obtain ⟨a, b, rfl⟩ := ih q' hq1 hq1' hpre h1
        exact ⟨a, b, rfl⟩
      | false =>
        have := hU _ _ (hq _ (List.mem_append_right _ (List.mem_cons_self)))
          (h' _ (List.mem_append_right _ (List.mem_cons_self))) h
        simp only [HIn.branch.injEq] at this
        obtain ⟨rfl, h1⟩ := this
        obtain ⟨a, b, rfl⟩ := ih q' hq1 hq1' hpre h1
        exact ⟨a, b, rfl⟩

/-- C75: whatever the root is, if two proofs are accepted for it, and the place of the one is the place of the
other or above it, then they are proofs of the same pair and the same list, up to the two flags that are
ignored; unless the hasher has a collision among what the two verifications hash. -/
theorem C75_places_bind {H : Hasher N} {encode : V → Res (List UInt8)} {decode : List UInt8 → Res V}
    (hcodec : ∀ v b, encode v = .ok b → decode b = .ok v)
    {r k k' : Arr N} {v v' : V} {p p' : List (Arr N × Bool)}
    (hp : verifyInclusionProof H encode r k v p = .ok ())
    (hp' : verifyInclusionProof H encode r k' v' p' = .ok ()) (hpre : place p <+: place p')
    (hcf : ∀ b b', encode v = .ok b → encode v' = .ok b' →
      CollisionFree H (Among (verifyInputs H k b p ++ verifyInputs H k' b' p'))) :
    k = k' ∧ v = v' ∧ p.map (·.1) = p'.map (·.1) ∧ p.drop 2 = p'.drop 2 := by
  obtain ⟨b, f0, f1, q, hb, rfl, h⟩ := (verify_iff _ _ _ _ _ _).1 hp
  obtain ⟨b', f0', f1', q', hb', rfl, h'⟩ := (verify_iff _ _ _ _ _ _).1 hp'
  have hU := hcf b b' hb hb'
  have m1 : ∀ i ∈ verifyInputs H k b ((Trie.dataLoc H k b, f0) :: ((Trie.leaf k b).loc H, f1) :: q),
      Among (verifyInputs H k b ((Trie.dataLoc H k b, f0) :: ((Trie.leaf k b).loc H, f1) :: q) ++
        verifyInputs H k' b' ((Trie.dataLoc H k' b', f0') :: ((Trie.leaf k' b').loc H, f1') :: q')) i :=
    fun i hi => List.mem_append_left _ hi
  have m2 : ∀ i ∈ verifyInputs H k' b' ((Trie.dataLoc H k' b', f0') :: ((Trie.leaf k' b').loc H, f1') :: q'),
      Among (verifyInputs H k b ((Trie.dataLoc H k b, f0) :: ((Trie.leaf k b).loc H, f1) :: q) ++
        verifyInputs H k' b' ((Trie.dataLoc H k' b', f0') :: ((Trie.leaf k' b').loc H, f1') :: q')) i :=
    fun i hi => List.mem_append_right _ hi
  obtain ⟨rfl, hd, rfl⟩ := fold_binds hU (m1 _ (by simp [verifyInputs])) (m2 _ (by simp [verifyInputs])) q q'
    (fun i hi => m1 i (by simp only [verifyInputs, List.mem_cons]; exact .inr (.inr hi)))
    (fun i hi => m2 i (by simp only [verifyInputs, List.mem_cons]; exact .inr (.inr hi))) hpre
    (h.trans h'.symm)
  have := hU _ _ (m1 (.data k b) (by simp [verifyInputs])) (m2 (.data k b') (by simp [verifyInputs])) hd
  simp only [HIn.data.injEq, true_and] at this
  subst this
  have := hcodec v b hb
  rw [hcodec v' b hb'] at this
  cases this
  simp

/-- The limit of C75: `verify_inclusion_proof` does not compare the sides with the bits of the key, so one who
makes up a root can have two values of one key accepted under it, for every key, every two values and every
hash function.  (`C16_proofs_sound_partial` rules this out for the roots of versions.) -/
theorem C75_made_up_roots (H : Hasher N) (encode : V → Res (List UInt8)) (k : Arr N) {v w : V}
    (hv : ∃ b, encode v = .ok b) (hw : ∃ b, encode w = .ok b) : ∃ r p q,
      verifyInclusionProof H encode r k v p = .ok () ∧ verifyInclusionProof H encode r k w q = .ok () := by
  obtain ⟨b, hb⟩ := hv
  obtain ⟨c, hc⟩ := hw
  let x := (Trie.leaf k b).loc H
  let y := (Trie.leaf k c).loc H
  refine ⟨(HIn.branch x y).hash H, [(Trie.dataLoc H k b, false), (x, false), (y, true)],
    [(Trie.dataLoc H k c, false), (y, false), (x, false)], ?_, ?_⟩
  · exact (verify_iff _ _ _ _ _ _).2 ⟨b, _, _, _, hb, rfl, rfl⟩
  · exact (verify_iff _ _ _ _ _ _).2 ⟨c, _, _, _, hc, rfl, rfl⟩

/-! ## A concrete case -/

namespace Toy

/-- The two proofs of `C75_made_up_roots` for a key and two values. -/
def twoProofs : Arr 2 × List (Arr 2 × Bool) × List (Arr 2 × Bool) :=
  let x := (Trie.leaf (key 1) [7]).loc hasher
  let y := (Trie.leaf (key 1) [8]).loc hasher
  ((HIn.branch x y).hash hasher, [(Trie.dataLoc hasher (key 1) [7], false), (x, false), (y, true)],
    [(Trie.dataLoc hasher (key 1) [8], false), (y, false), (x, false)])

/-- Both are accepted; their places differ. -/
example : verifyInclusionProof hasher (V := List UInt8) .ok twoProofs.1 (key 1) [7] twoProofs.2.1 = .ok () ∧
    verifyInclusionProof hasher (V := List UInt8) .ok twoProofs.1 (key 1) [8] twoProofs.2.2 = .ok () ∧
    place twoProofs.2.1 = [true] ∧ place twoProofs.2.2 = [false] := by decide +kernel

/-- The hypotheses of C75 are met: no other pair can be shown at the place of the first. -/
example {k' : Arr 2} {v' : List UInt8} {p' : List (Arr 2 × Bool)}
    (hp' : verifyInclusionProof hasher .ok twoProofs.1 k' v' p' = .ok ()) (hplace : place p' = [true])
    (hcf : CollisionFree hasher
      (Among (verifyInputs hasher (key 1) [7] twoProofs.2.1 ++ verifyInputs hasher k' v' p'))) :
    v' = [7] :=
  (C75_places_bind (decode := .ok) (k := key 1) (v := [7]) (p := twoProofs.2.1) (fun _ _ h => by cases h; rfl) (by decide +kernel) hp'
    (by rw [hplace]; exact List.prefix_refl _) (fun b b' hb hb' => by cases hb; cases hb'; exact hcf)).2.1.symm

/-- There is no collision among what the two verifications hash. -/
example : CollisionFree hasher (Among (verifyInputs hasher (key 1) [7] twoProofs.2.1 ++
    verifyInputs hasher (key 1) [8] twoProofs.2.2)) := collisionFree_of_check (by decide +kernel)

end Toy
end MerkleBit
