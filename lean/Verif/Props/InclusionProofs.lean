import Verif.Proof.Inclusion
import Verif.Props.ToyHistory
/-!
# C15-C18: inclusion proofs
-/

namespace MerkleBit
variable {N : Nat} {σ V : Type} {cfg : Config N σ V} {C : DbContract cfg.db}
  {H : List (HIn N)} {R : List (Arr N)} {L : Ledger N V} {s : σ}

/-- C15: for every stored pair a proof is generated, and it verifies. -/
theorem C15_generated_proofs_verify_partial (hc : Sane cfg) (hroom : cfg.Room)
    (h : Inserts cfg C H R L s) (hs : C.alive s)
    (hcf : CollisionFree cfg.hasher (Among H)) {r : Arr N} {M : Contents N V} (hr : (r, M) ∈ L)
    (hd : HeightBelow M cfg.depth) {k : Arr N} {v : V} (hk : M k = some v) :
    ∃ p, generateInclusionProof cfg s r k = .ok p ∧
      verifyInclusionProof cfg.hasher cfg.encode r k v p = .ok () := by
  obtain ⟨p, h1, h2⟩ := version_proof (C := C) hc.pos hd (h.version hc hcf hr) hk
  exact ⟨p, (generateInclusionProof_room hroom).trans (h1.alive hs), h2⟩

/-- C15, in a database in which calls may fail: a proof that is generated verifies. -/
theorem C15_generated_proofs_verify_faulty_partial (hc : Sane cfg) (h : Inserts cfg C H R L s)
    (hcf : CollisionFree cfg.hasher (Among H)) {r : Arr N} {M : Contents N V} (hr : (r, M) ∈ L)
    (hd : HeightBelow M cfg.depth) {k : Arr N} {v : V} (hk : M k = some v) {p : List (Arr N × Bool)}
    (hp : generateInclusionProof cfg s r k = .ok p) :
    verifyInclusionProof cfg.hasher cfg.encode r k v p = .ok () := by
  replace hp := generateInclusionProof_ok hp
  obtain ⟨q, h1, h2⟩ := version_proof (C := C) hc.pos hd (h.version hc hcf hr) hk
  rcases h1 with h1 | ⟨-, e, h1⟩
  · rw [hp] at h1; cases h1; exact h2
  · rw [hp] at h1; cases h1

/-- A proof for the updated key in the second version. -/
example : ∃ p, generateInclusionProof Toy.cfg Toy.s2 Toy.r2 (Toy.key 2) = .ok p ∧
    verifyInclusionProof Toy.cfg.hasher Toy.cfg.encode Toy.r2 (Toy.key 2) [21] p = .ok () :=
  C15_generated_proofs_verify_partial Toy.sane Toy.room Toy.hist2 (Toy.alive _) Toy.free2 (M := Toy.M2)
    List.mem_cons_self (Toy.deep _) (by decide)

/-- C16: whatever list of hashes an adversary presents, if it is accepted for a version then the
pair is stored in that version, unless the hasher has a collision among what the history and the
verification hashed. -/
theorem C16_proofs_sound_partial (hc : Sane cfg) (h : Inserts cfg C H R L s) {r : Arr N}
    {M : Contents N V} (hr : (r, M) ∈ L) {k : Arr N} {v : V} {p : List (Arr N × Bool)}
    (hcf : ∀ b, cfg.encode v = .ok b →
      CollisionFree cfg.hasher (Among (verifyInputs cfg.hasher k b p ++ H)))
    (hp : verifyInclusionProof cfg.hasher cfg.encode r k v p = .ok ()) : M k = some v := by
  obtain ⟨b, -, -, -, hb, -⟩ := (verify_iff _ _ _ _ _ _).1 hp
  have hcf := hcf b hb
  have hcf0 := hcf.mono (U := Among H) (fun i hi => List.mem_append_right _ hi)
  obtain ⟨T, hwf, rfl, hst, hM⟩ := h.version hc hcf0 hr
  have hT := (hst.honest hcf0 (h.sound hc hcf0).view).2
  obtain ⟨b', -, -, hb', hmem, -⟩ := version_verify (cfg := cfg) hcf hwf
    (fun i hi => List.mem_append_right _ (hT i hi)) (by
      intro b' hb' i hi
      rw [hb] at hb'
      cases hb'
      exact List.mem_append_left _ hi) hp
  obtain ⟨v', h1, h2, -⟩ := hM.decode hwf hc.codec hmem
  rw [hc.codec v b' hb'] at h2
  cases h2
  exact h1

/-- The hypotheses are met by the proof of the updated key, and by a proof with a flipped flag
(which is rejected). -/
example : (∀ b, Toy.cfg.encode [21] = .ok b → CollisionFree Toy.cfg.hasher
      (Among (verifyInputs Toy.cfg.hasher (Toy.key 2) b
        ((generateInclusionProof Toy.cfg Toy.s2 Toy.r2 (Toy.key 2)).toOption.getD []) ++ Toy.H2))) ∧
    verifyInclusionProof Toy.cfg.hasher Toy.cfg.encode Toy.r2 (Toy.key 2) [20]
      ((generateInclusionProof Toy.cfg Toy.s2 Toy.r2 (Toy.key 2)).toOption.getD []) ≠ .ok () := by
  refine ⟨?_, by decide +kernel⟩
  intro b hb
  cases hb
  exact collisionFree_of_check (by decide +kernel)

/-- C17: no proof is generated for a key that is not stored. -/
theorem C17_no_proof_for_absent_key (hc : Sane cfg) (hroom : cfg.Room) (h : Inserts cfg C H R L s)
    (hcf : CollisionFree cfg.hasher (Among H)) {r : Arr N} {M : Contents N V} (hr : (r, M) ∈ L)
    {k : Arr N} (hk : M k = none) :
    ∃ msg, generateInclusionProof cfg s r k = .error (.exception msg) := by
  rw [generateInclusionProof_room hroom]
  exact version_no_proof hc.pos (h.version hc hcf hr) hk

/-- The new key of the second version has no proof in the first. -/
example : ∃ msg, generateInclusionProof Toy.cfg Toy.s2 Toy.r1 (Toy.key 5) = .error (.exception msg) :=
  C17_no_proof_for_absent_key Toy.sane Toy.room Toy.hist2 Toy.free2 (M := Toy.M1) (by simp) (by decide)

/-- C18: two accepted proofs for the same root and key are the same list, up to the flags of the
first two entries, which `verify_inclusion_proof` ignores; and they are for the same value. -/
theorem C18_proofs_unique_partial (hc : Sane cfg) (h : Inserts cfg C H R L s) {r : Arr N}
    {M : Contents N V} (hr : (r, M) ∈ L) {k : Arr N} {v w : V} {p q : List (Arr N × Bool)}
    (hcfp : ∀ b, cfg.encode v = .ok b →
      CollisionFree cfg.hasher (Among (verifyInputs cfg.hasher k b p ++ H)))
    (hcfq : ∀ b, cfg.encode w = .ok b →
      CollisionFree cfg.hasher (Among (verifyInputs cfg.hasher k b q ++ H)))
    (hp : verifyInclusionProof cfg.hasher cfg.encode r k v p = .ok ())
    (hq : verifyInclusionProof cfg.hasher cfg.encode r k w q = .ok ()) :
    v = w ∧ p.map (·.1) = q.map (·.1) ∧ p.drop 2 = q.drop 2 := by
  have hv := C16_proofs_sound_partial hc h hr hcfp hp
  have hw := C16_proofs_sound_partial hc h hr hcfq hq
  rw [hv] at hw
  cases hw
  obtain ⟨b, -, -, -, hb, -⟩ := (verify_iff _ _ _ _ _ _).1 hp
  have hcf0 := (hcfp b hb).mono (U := Among H) (fun i hi => List.mem_append_right _ hi)
  obtain ⟨T, hwf, rfl, hst, hM⟩ := h.version hc hcf0 hr
  have hT := (hst.honest hcf0 (h.sound hc hcf0).view).2
  have key : ∀ {p : List (Arr N × Bool)}, (∀ b, cfg.encode v = .ok b →
      CollisionFree cfg.hasher (Among (verifyInputs cfg.hasher k b p ++ H))) →
      verifyInclusionProof cfg.hasher cfg.encode (T.loc cfg.hasher) k v p = .ok () →
      ∃ f0 f1, p = (Trie.dataLoc cfg.hasher k b, f0) :: ((Trie.leaf k b).loc cfg.hasher, f1) ::
        T.path cfg.hasher k := by
    intro p hcfp hp
    obtain ⟨b', f0, f1, hb', -, rfl⟩ := version_verify (cfg := cfg) (hcfp b hb) hwf
      (fun i hi => List.mem_append_right _ (hT i hi)) (by
        intro b' hb' i hi
        rw [hb] at hb'
        cases hb'
        exact List.mem_append_left _ hi) hp
    rw [hb] at hb'
    cases hb'
    exact ⟨f0, f1, rfl⟩
  obtain ⟨f0, f1, rfl⟩ := key hcfp hp
  obtain ⟨g0, g1, rfl⟩ := key hcfq hq
  simp

/-- A corollary: of the proofs accepted for a stored pair, the generated one is the only one (up to
the two flags): an altered, truncated, extended or reordered proof is rejected. -/
theorem C18_only_generated_proof_partial (hc : Sane cfg) (h : Inserts cfg C H R L s) (hs : C.alive s)
    {r : Arr N} {M : Contents N V} (hr : (r, M) ∈ L) (hd : HeightBelow M cfg.depth) {k : Arr N} {v : V} (hk : M k = some v)
    {p q : List (Arr N × Bool)} (hgen : generateInclusionProof cfg s r k = .ok p)
    (hcfp : ∀ b, cfg.encode v = .ok b →
      CollisionFree cfg.hasher (Among (verifyInputs cfg.hasher k b p ++ H)))
    (hcfq : ∀ b, cfg.encode v = .ok b →
      CollisionFree cfg.hasher (Among (verifyInputs cfg.hasher k b q ++ H)))
    (hcf : CollisionFree cfg.hasher (Among H))
    (hne : p.map (·.1) ≠ q.map (·.1) ∨ p.drop 2 ≠ q.drop 2) :
    ∃ e, verifyInclusionProof cfg.hasher cfg.encode r k v q = .error e := by
  have h2 := C15_generated_proofs_verify_faulty_partial hc h hcf hr hd hk hgen
  cases hv : verifyInclusionProof cfg.hasher cfg.encode r k v q with
  | error e => exact ⟨e, rfl⟩
  | ok u =>
    obtain ⟨-, h3, h4⟩ := C18_proofs_unique_partial hc h hr hcfp hcfq h2 hv
    rcases hne with hne | hne
    · exact absurd h3 hne
    · exact absurd h4 hne

/-- A truncated proof of the concrete history is rejected. -/
example : ∃ e, verifyInclusionProof Toy.cfg.hasher Toy.cfg.encode Toy.r2 (Toy.key 2) [21]
    (((generateInclusionProof Toy.cfg Toy.s2 Toy.r2 (Toy.key 2)).toOption.getD []).dropLast) =
      .error e := by
  obtain ⟨p, hp, -⟩ := C15_generated_proofs_verify_partial Toy.sane Toy.room Toy.hist2 (Toy.alive _) Toy.free2
    (M := Toy.M2) List.mem_cons_self (Toy.deep _) (k := Toy.key 2) (v := [21]) (by decide)
  have hp' : p = (generateInclusionProof Toy.cfg Toy.s2 Toy.r2 (Toy.key 2)).toOption.getD [] := by
    rw [hp]; rfl
  refine C18_only_generated_proof_partial Toy.sane Toy.hist2 (Toy.alive _) (M := Toy.M2)
    List.mem_cons_self (Toy.deep _) (by decide) hp ?_ ?_ Toy.free2 ?_
  · rw [hp']; intro b hb; cases hb; exact collisionFree_of_check (by decide +kernel)
  · intro b hb; cases hb; exact collisionFree_of_check (by decide +kernel)
  · rw [hp']; left; decide +kernel

end MerkleBit
