import Verif.Spec.Inclusion
import Verif.Proof.ReadVersion
/-! # Inclusion proofs -/

namespace MerkleBit
variable {N : Nat} {σ V α : Type}

open Trie

theorem foldProof_append (H : Hasher N) (n : Nat) : ∀ (p q : List (Arr N × Bool)) (x : Arr N),
    foldProof H n x (p ++ q) = foldProof H n (foldProof H n x p) q
  | [], _, _ => rfl
  | (h, true) :: p, q, x => by
    simp only [List.cons_append, foldProof]; exact foldProof_append H n p q _
  | (h, false) :: p, q, x => by
    simp only [List.cons_append, foldProof]; exact foldProof_append H n p q _

theorem foldInputs_append (H : Hasher N) : ∀ (p q : List (Arr N × Bool)) (x : Arr N),
    foldInputs H x (p ++ q) = foldInputs H x p ++ foldInputs H (foldProof H N x p) q
  | [], _, _ => rfl
  | (h, true) :: p, q, x => by
    simp only [List.cons_append, foldProof, foldInputs]; rw [foldInputs_append H p q _]; rfl
  | (h, false) :: p, q, x => by
    simp only [List.cons_append, foldProof, foldInputs]; rw [foldInputs_append H p q _]; rfl

/-- The path of a key hashes to the root. -/
theorem foldProof_path (H : Hasher N) {k : Arr N} : ∀ {t : Trie N}, t.WF → ∀ {v : List UInt8},
    (k, v) ∈ t.entries → foldProof H N ((Trie.leaf k v).loc H) (t.path H k) = t.loc H
  | .leaf k' v', _, v, h => by
    simp only [entries, List.mem_singleton, Prod.mk.injEq] at h
    obtain ⟨rfl, rfl⟩ := h
    rfl
  | .node l r, hwf, v, h => by
    unfold path
    simp only [entries, List.mem_append] at h
    rcases h with h | h
    · have hb := hwf.bit_left (List.mem_map_of_mem (f := Prod.fst) h)
      simp only [split] at hb
      rw [hb]
      simp only [Bool.false_eq_true, if_false]
      rw [foldProof_append, foldProof_path H hwf.1 h]
      rfl
    · have hb := hwf.bit_right (List.mem_map_of_mem (f := Prod.fst) h)
      simp only [split] at hb
      rw [hb]
      simp only [if_true]
      rw [foldProof_append, foldProof_path H hwf.2.1 h]
      rfl

/-- What hashes to the root is the path of a stored key. -/
theorem path_unique {H : Hasher N} {U : HIn N → Prop} (hU : CollisionFree H U) {k : Arr N}
    {v : List UInt8} (hk : ∀ i ∈ (Trie.leaf k v).inputs H, U i) :
    ∀ (p : List (Arr N × Bool)) {t : Trie N}, t.WF → (∀ i ∈ t.inputs H, U i) →
      (∀ i ∈ foldInputs H ((Trie.leaf k v).loc H) p, U i) →
      foldProof H N ((Trie.leaf k v).loc H) p = t.loc H →
      (k, v) ∈ t.entries ∧ p = t.path H k := by
  intro p
  induction p using List.reverseRecOn with
  | nil =>
    intro t _ ht _ h
    have := eq_of_loc hU hk ht h
    subst this
    simp [entries, path]
  | append_singleton p e ih =>
    intro t hwf ht hp h
    rw [foldInputs_append] at hp
    rw [foldProof_append] at h
    obtain ⟨x, b⟩ := e
    generalize hc : foldProof H N ((Trie.leaf k v).loc H) p = c at hp h
    have hp1 : ∀ i ∈ foldInputs H ((Trie.leaf k v).loc H) p, U i :=
      fun i hi => hp i (List.mem_append_left _ hi)
    cases b with
    | true =>
      have hin : U (.branch c x) := hp _ (List.mem_append_right _ (by simp [foldInputs]))
      have := hU _ _ hin (ht _ (rootIn_mem H t)) (h.trans (loc_eq H t))
      cases t with
      | leaf k' v' => simp [rootIn] at this
      | node l r =>
        simp only [rootIn, HIn.branch.injEq] at this
        obtain ⟨rfl, rfl⟩ := this
        obtain ⟨h1, h2⟩ := ih hwf.1 (fun i hi => ht i (by simp [inputs, hi])) hp1 hc
        refine ⟨by simp [entries, h1], ?_⟩
        have hb := hwf.bit_left (List.mem_map_of_mem (f := Prod.fst) h1)
        simp only [split] at hb
        unfold path
        rw [hb, h2]
        simp
    | false =>
      have hin : U (.branch x c) := hp _ (List.mem_append_right _ (by simp [foldInputs]))
      have := hU _ _ hin (ht _ (rootIn_mem H t)) (h.trans (loc_eq H t))
      cases t with
      | leaf k' v' => simp [rootIn] at this
      | node l r =>
        simp only [rootIn, HIn.branch.injEq] at this
        obtain ⟨rfl, rfl⟩ := this
        obtain ⟨h1, h2⟩ := ih hwf.2.1 (fun i hi => ht i (by simp [inputs, hi])) hp1 hc
        refine ⟨by simp [entries, h1], ?_⟩
        have hb := hwf.bit_right (List.mem_map_of_mem (f := Prod.fst) h1)
        simp only [split] at hb
        unfold path
        rw [hb, h2]
        simp

/-- When `verify_inclusion_proof` accepts. -/
theorem verify_iff (H : Hasher N) (encode : V → Res (List UInt8)) (root k : Arr N) (v : V)
    (proof : List (Arr N × Bool)) :
    verifyInclusionProof H encode root k v proof = .ok () ↔
      ∃ b f0 f1 rest, encode v = .ok b ∧
        proof = (dataLoc H k b, f0) :: ((Trie.leaf k b).loc H, f1) :: rest ∧
        foldProof H N ((Trie.leaf k b).loc H) rest = root := by
  unfold verifyInclusionProof
  match proof with
  | [] => simp
  | [_] => simp
  | p0 :: p1 :: rest =>
    dsimp only
    cases he : encode v with
    | error e => simp
    | ok b =>
      simp only [root.len]
      have hd : H.hash3 N tagD k.bytes b = dataLoc H k b := rfl
      have hl : H.hash3 N tagL k.bytes (dataLoc H k b).bytes = (Trie.leaf k b).loc H := rfl
      rw [hd, hl]
      constructor
      · intro h
        split at h
        · cases h
        · next h0 =>
          split at h
          · cases h
          · next h1 =>
            split at h
            · cases h
            · next h2 =>
              simp only [ne_eq, Decidable.not_not] at h0 h1 h2
              exact ⟨b, p0.2, p1.2, rest, rfl, by rw [h0, h1], h2.symm⟩
      · rintro ⟨b', f0, f1, rest', hb, hp, hr⟩
        cases hb
        cases hp
        rw [if_neg (by simp), if_neg (by simp), if_neg (by simp [hr])]

section
variable {cfg : Config N σ V} {C : DbContract cfg.db}

/-- `generate_inclusion_proof` of a stored key. -/
theorem readProof_wf {k : Arr N} {v : List UInt8} : ∀ (t : Trie N) (d : Nat), t.WF →
    d + t.height < cfg.depth → (k, v) ∈ t.entries →
    readProof cfg k t d = .ok ((dataLoc cfg.hasher k v, false) ::
      ((Trie.leaf k v).loc cfg.hasher, false) :: t.path cfg.hasher k)
  | .leaf k' v', d, _, hd, he => by
    simp only [entries, List.mem_singleton, Prod.mk.injEq] at he
    obtain ⟨rfl, rfl⟩ := he
    simp only [height] at hd
    unfold readProof
    rw [if_neg (by omega), if_neg (by simp), if_neg (by omega)]
    rfl
  | .node l r, d, hwf, hd, he => by
    have hag := hwf.agree k (List.mem_map_of_mem (f := Prod.fst) he)
    simp only [split, key] at hag
    simp only [height] at hd
    unfold readProof path
    rw [if_neg (by omega), if_neg (by omega)]
    simp only [entries, List.mem_append] at he
    rcases he with he | he
    · have hb := hwf.bit_left (List.mem_map_of_mem (f := Prod.fst) he)
      simp only [split] at hb
      rw [hb]
      simp only [Bool.false_eq_true, if_false]
      rw [readProof_wf l (d + 1) hwf.1 (by omega) he]
      rfl
    · have hb := hwf.bit_right (List.mem_map_of_mem (f := Prod.fst) he)
      simp only [split] at hb
      rw [hb]
      simp only [if_true]
      rw [readProof_wf r (d + 1) hwf.2.1 (by omega) he]
      rfl

/-- `generate_inclusion_proof` of a key that is not stored. -/
theorem readProof_absent {k : Arr N} : ∀ (t : Trie N) (d : Nat), k ∉ t.keys →
    ∃ msg, readProof cfg k t d = .error (.exception msg)
  | .leaf k' v', d, h => by
    unfold readProof
    have : k' ≠ k := by rintro rfl; exact h (by simp [keys, entries])
    split
    · exact ⟨_, rfl⟩
    · first | exact ⟨_, rfl⟩ | (rw [if_pos this]; exact ⟨_, rfl⟩)
  | .node l r, d, h => by
    rw [keys_node, List.mem_append, not_or] at h
    unfold readProof
    split
    · exact ⟨_, rfl⟩
    · split
      · exact ⟨_, rfl⟩
      · split
        · obtain ⟨msg, hm⟩ := readProof_absent r (d + 1) h.2
          rw [hm]; exact ⟨_, rfl⟩
        · obtain ⟨msg, hm⟩ := readProof_absent l (d + 1) h.1
          rw [hm]; exact ⟨_, rfl⟩

/-- Generated proofs verify. -/
theorem version_proof (hN : 0 < N) {s : σ}
    {r : Arr N} {M : Contents N V} (hdepth : HeightBelow M cfg.depth)
    (hv : IsVersion cfg (C.view s) r M) {k : Arr N} {v : V}
    (hk : M k = some v) :
    ∃ p, Outcome C s (inclusionProof cfg s r k) (.ok p) ∧
      verifyInclusionProof cfg.hasher cfg.encode r k v p = .ok () := by
  obtain ⟨T, hwf, rfl, hst, hM⟩ := hv
  obtain ⟨b, hb, henc⟩ := hM.entry hwf hk
  have := proof_stored (C := C) hN hwf.norm hst k
  rw [readProof_wf T 0 hwf (by have := hdepth.height hwf hM; omega) hb] at this
  exact ⟨_, this, (verify_iff _ _ _ _ _ _).2
    ⟨b, false, false, _, henc, rfl, foldProof_path _ hwf hb⟩⟩

/-- No proof for an absent key. -/
theorem version_no_proof (hN : 0 < N) {s : σ} {r : Arr N} {M : Contents N V}
    (hv : IsVersion cfg (C.view s) r M) {k : Arr N} (hk : M k = none) :
    ∃ msg, inclusionProof cfg s r k = .error (.exception msg) := by
  obtain ⟨T, hwf, rfl, hst, hM⟩ := hv
  obtain ⟨msg, hm⟩ := readProof_absent (cfg := cfg) T 0 (k := k) (by
    rw [hM.mem]; simp [hk])
  rcases proof_stored (C := C) hN hwf.norm hst k with h | ⟨_, msg, h⟩
  · exact ⟨msg, by rw [h, hm]⟩
  · exact ⟨msg, h⟩

/-- Accepted proofs are sound and unique. -/
theorem version_verify {U : HIn N → Prop} (hU : CollisionFree cfg.hasher U) {T : Trie N}
    (hwf : T.WF) (hT : ∀ i ∈ T.inputs cfg.hasher, U i) {k : Arr N} {v : V}
    {proof : List (Arr N × Bool)}
    (hin : ∀ b, cfg.encode v = .ok b → ∀ i ∈ verifyInputs cfg.hasher k b proof, U i)
    (h : verifyInclusionProof cfg.hasher cfg.encode (T.loc cfg.hasher) k v proof = .ok ()) :
    ∃ b f0 f1, cfg.encode v = .ok b ∧ (k, b) ∈ T.entries ∧
      proof = (dataLoc cfg.hasher k b, f0) :: ((Trie.leaf k b).loc cfg.hasher, f1) ::
        T.path cfg.hasher k := by
  obtain ⟨b, f0, f1, rest, h1, rfl, h3⟩ := (verify_iff _ _ _ _ _ _).1 h
  have hin := hin b h1
  simp only [verifyInputs, List.drop_succ_cons, List.drop_zero] at hin
  obtain ⟨h4, h5⟩ := path_unique hU (k := k) (v := b)
    (by intro i hi; simp only [inputs, List.mem_cons, List.not_mem_nil, or_false] at hi
        rcases hi with rfl | rfl
        · exact hin _ (by simp)
        · exact hin _ (by simp))
    rest hwf hT (fun i hi => hin i (by simp [hi])) h3
  exact ⟨b, f0, f1, h1, h4, by rw [h5]⟩

end
end MerkleBit
