import Verif.Proof.Sparse
import Verif.Props.Exact
import Verif.Props.FollowNew
import Verif.Props.Remove
/-!
# C89: roots and proofs are those of the sparse Merkle tree of the pairs

The sparse Merkle tree (`Spec/Sparse.lean`) is computed from a list of pairs alone.
-/

namespace MerkleBit
section
variable {N : Nat} {σ V : Type} {cfg : Config N σ V} {C : DbContract cfg.db}
  {H : List (HIn N)} {R : List (Arr N)} {L : Ledger N V} {s : σ}

theorem version_sparse_root {v : View N} {r : Arr N} {M : Contents N V} (h : IsVersion cfg v r M)
    {pairs : List (Arr N × List UInt8)} (hp : Lists cfg.encode M pairs) : sparseRoot cfg.hasher pairs = some r := by
  obtain ⟨T, hwf, rfl, -, hM⟩ := h
  exact sparseHash_trie cfg.hasher (8 * N) hwf (Nat.le_refl _) (by omega) (hp.perm hwf hM)

theorem version_sparse_proof (hc : Sane cfg) (hroom : cfg.Room) {r : Arr N} {M : Contents N V}
    (h : IsVersion cfg (C.view s) r M) (hs : C.alive s) (hd : HeightBelow M cfg.depth)
    {pairs : List (Arr N × List UInt8)} (hp : Lists cfg.encode M pairs) {k : Arr N} {b : List UInt8} (hk : (k, b) ∈ pairs) :
    generateInclusionProof cfg s r k =
      .ok (((HIn.data k b).hash cfg.hasher, false) :: (pairHash cfg.hasher k b, false) ::
        sparsePath cfg.hasher k (8 * N) pairs) := by
  obtain ⟨v, hv, -⟩ := (hp.2 k b).1 hk
  obtain ⟨p, h1, -⟩ := version_proof (C := C) hc.pos hd h hv
  have h1 := (generateInclusionProof_room hroom).trans (h1.alive hs)
  obtain ⟨T, hwf, rfl, hst, hM⟩ := h
  have hperm := hp.perm hwf hM
  have hb := hperm.subset hk
  rw [h1, (proof_shape hc hd hwf hst hM hb h1).2,
    sparsePath_trie cfg.hasher (8 * N) hwf (Nat.le_refl _) (by omega) (List.mem_map_of_mem (f := Prod.fst) hb) hperm]
  rfl

/-- C89: the root of a version is the root of the sparse Merkle tree of its pairs, in whatever order they are listed, and
however the version came about. -/
theorem C89_root_is_sparse_root (hc : Sane cfg) (h : Inserts cfg C H R L s) (hcf : CollisionFree cfg.hasher (Among H))
    {r : Arr N} {M : Contents N V} (hr : (r, M) ∈ L) {pairs : List (Arr N × List UInt8)}
    (hp : Lists cfg.encode M pairs) : sparseRoot cfg.hasher pairs = some r :=
  version_sparse_root (h.version hc hcf hr) hp

/-- C89: the proof of a pair has the hash of the pair, that of its leaf, and the hashes beside the way to its key in the
sparse Merkle tree. -/
theorem C89_proof_is_sparse_path (hc : Sane cfg) (hroom : cfg.Room) (h : Inserts cfg C H R L s) (hs : C.alive s)
    (hcf : CollisionFree cfg.hasher (Among H))
    {r : Arr N} {M : Contents N V} (hr : (r, M) ∈ L) (hd : HeightBelow M cfg.depth)
    {pairs : List (Arr N × List UInt8)} (hp : Lists cfg.encode M pairs) {k : Arr N} {b : List UInt8} (hk : (k, b) ∈ pairs) :
    generateInclusionProof cfg s r k =
      .ok (((HIn.data k b).hash cfg.hasher, false) :: (pairHash cfg.hasher k b, false) ::
        sparsePath cfg.hasher k (8 * N) pairs) :=
  version_sparse_proof hc hroom (h.version hc hcf hr) hs hd hp hk

/-- C89: the same where versions are removed, for those that are live. -/
theorem C89_live_root (hc : Sane cfg) {strict : Prop} (h : Uses cfg C strict H L s) (hcf : CollisionFree cfg.hasher (Among H))
    {r : Arr N} {M : Contents N V} (hr : (r, M) ∈ L) {pairs : List (Arr N × List UInt8)}
    (hp : Lists cfg.encode M pairs) : sparseRoot cfg.hasher pairs = some r :=
  version_sparse_root (uses_versions hc.pos hc.pp hc.codec h hcf _ hr) hp

/-- C89: and their proofs. -/
theorem C89_live_proof (hc : Sane cfg) (hroom : cfg.Room) {strict : Prop} (h : Uses cfg C strict H L s) (hs : C.alive s)
    (hcf : CollisionFree cfg.hasher (Among H))
    {r : Arr N} {M : Contents N V} (hr : (r, M) ∈ L) (hd : HeightBelow M cfg.depth)
    {pairs : List (Arr N × List UInt8)} (hp : Lists cfg.encode M pairs) {k : Arr N} {b : List UInt8} (hk : (k, b) ∈ pairs) :
    generateInclusionProof cfg s r k =
      .ok (((HIn.data k b).hash cfg.hasher, false) :: (pairHash cfg.hasher k b, false) ::
        sparsePath cfg.hasher k (8 * N) pairs) :=
  version_sparse_proof hc hroom (uses_versions hc.pos hc.pp hc.codec h hcf _ hr) hs hd hp hk

/-- The list of no pairs. -/
theorem lists_empty (encode : V → Res (List UInt8)) : Lists encode (Contents.empty : Contents N V) [] :=
  ⟨List.nodup_nil, fun k b => by simp [Contents.empty]⟩

/-- The list of a version after a batch. -/
theorem Lists.put {encode : V → Res (List UInt8)} {M : Contents N V} {pairs : List (Arr N × List UInt8)}
    (hp : Lists encode M pairs) {keys : List (Arr N)} {values : List V} (hlen : keys.length = values.length)
    (hnd : keys.Nodup) {encs : List (List UInt8)} (henc : values.map encode = encs.map .ok) :
    Lists encode (M.assign keys values) (putPairs pairs (keys.zip encs)) := by
  have hlen' : keys.length = encs.length := by
    have := congrArg List.length henc
    simp only [List.length_map] at this
    omega
  have hfst : (keys.zip encs).map Prod.fst = keys := List.map_fst_zip (by omega)
  have hmem : ∀ k b, (k, b) ∈ keys.zip encs ↔ ∃ v, (k, v) ∈ keys.zip values ∧ encode v = .ok b := by
    intro k b
    have e : (keys.zip encs).map (fun e => (e.1, (Except.ok e.2 : Res (List UInt8)))) =
        (keys.zip values).map (fun e => (e.1, encode e.2)) := by
      have h1 := List.zip_map_right (f := (Except.ok : List UInt8 → Res (List UInt8))) (l₁ := keys) (l₂ := encs)
      have h2 := List.zip_map_right (f := encode) (l₁ := keys) (l₂ := values)
      rw [henc, h1] at h2
      exact h2
    constructor
    · intro hm
      have : (k, (Except.ok b : Res (List UInt8))) ∈ (keys.zip values).map (fun e => (e.1, encode e.2)) := by
        rw [← e]; exact List.mem_map.2 ⟨(k, b), hm, rfl⟩
      obtain ⟨⟨k', v⟩, h1, h2⟩ := List.mem_map.1 this
      obtain ⟨h3, h4⟩ := Prod.mk.inj h2
      exact ⟨v, h3 ▸ h1, h4⟩
    · rintro ⟨v, hm, hv⟩
      have : (k, (Except.ok b : Res (List UInt8))) ∈
          (keys.zip encs).map (fun e => (e.1, (Except.ok e.2 : Res (List UInt8)))) := by
        rw [e]; exact List.mem_map.2 ⟨(k, v), hm, by rw [hv]⟩
      obtain ⟨⟨k', b'⟩, h1, h2⟩ := List.mem_map.1 this
      cases h2
      exact h1
  unfold putPairs
  rw [hfst]
  constructor
  · refine List.Nodup.append (hp.1.filter _) (List.Nodup.of_map Prod.fst (by rw [hfst]; exact hnd)) ?_
    intro e h1 h2
    have h1 := (List.mem_filter.1 h1).2
    have h2 := List.mem_map_of_mem (f := Prod.fst) h2
    rw [hfst] at h2
    simp at h1
    exact h1 h2
  · intro k b
    rw [List.mem_append, List.mem_filter, hp.2, hmem]
    by_cases hk : k ∈ keys
    · simp only [hk, not_true_eq_false, decide_false, Bool.false_eq_true, and_false, false_or]
      constructor
      · rintro ⟨v, h1, h2⟩
        exact ⟨v, assign_mem M hlen hnd h1, h2⟩
      · rintro ⟨v, h1, h2⟩
        obtain ⟨v', h3⟩ : ∃ v', (k, v') ∈ keys.zip values := by
          have : k ∈ (keys.zip values).map Prod.fst := by rw [List.map_fst_zip (by omega)]; exact hk
          obtain ⟨⟨_, v'⟩, h3, rfl⟩ := List.mem_map.1 this
          exact ⟨v', h3⟩
        rw [assign_mem M hlen hnd h3] at h1
        cases h1
        exact ⟨v, h3, h2⟩
    · rw [assign_not_mem M values hk]
      simp only [hk, not_false_eq_true, decide_true, and_true]
      constructor
      · rintro (h | ⟨v, h1, -⟩)
        · exact h
        · exact absurd (List.of_mem_zip h1).1 hk
      · exact .inl

/-- C89: a batch of distinct keys gives the root of the sparse Merkle tree with the pairs of the batch put in, if and only
if it opens every place where one of its keys belongs.  Other batches fail or give another root. -/
theorem C89_insert_exact (hc : Sane cfg) (h : Inserts cfg C H R L s) (hs : C.alive s)
    {prev : Option (Arr N)} {M : Contents N V} (hprev : L.Prev prev M)
    {keys : List (Arr N)} {values : List V} (hlen : keys.length = values.length) (hne : keys ≠ [])
    (hnd : keys.Nodup) {encs : List (List UInt8)} (henc : values.map cfg.encode = encs.map .ok)
    (hd : HeightBelow (M.assign keys values) (cfg.depth + 1))
    (hcf : CollisionFree cfg.hasher
      (Among (hashedBy cfg prev keys values s ++ H ++ (hashedByEach cfg prev (keys.zip values) s ++ H))))
    {pairs : List (Arr N × List UInt8)} (hp : Lists cfg.encode M pairs) :
    (∃ r s', insert cfg prev keys values s = (.ok r, s') ∧
      sparseRoot cfg.hasher (putPairs pairs (keys.zip encs)) = some r) ↔ Handled cfg M keys := by
  have henc' : ∀ v ∈ values, ∃ b, cfg.encode v = .ok b := by
    intro v hv
    have : cfg.encode v ∈ encs.map .ok := by rw [← henc]; exact List.mem_map_of_mem hv
    obtain ⟨b, -, hb⟩ := List.mem_map.1 this
    exact ⟨b, hb.symm⟩
  have hcf2 := hcf.mono (U := Among (hashedByEach cfg prev (keys.zip values) s ++ H))
    (fun i hi => List.mem_append_right _ hi)
  obtain ⟨last, s2, R', L', hrun2, -, h2, hl⟩ := Inserts.each hc h hs hprev
    (by rw [foldl_assign_eq M hlen hnd (List.Perm.refl _)]; exact hd)
    (fun e he => henc' e.2 (List.of_mem_zip he).2) hcf2
  rw [foldl_assign_eq M hlen hnd (List.Perm.refl _)] at hl
  obtain ⟨r, s3, hrun3, hiff⟩ := C11_batching_exact hc h hs hprev hlen hne hnd henc' hd (List.Perm.refl _) hcf
  rw [hrun2] at hrun3
  cases hrun3
  have hroot := C89_root_is_sparse_root hc h2 hcf2 hl (hp.put hlen hnd henc)
  rw [← hiff]
  constructor
  · rintro ⟨r', s', h1, h2⟩
    rw [hroot] at h2
    cases h2
    exact ⟨s', h1⟩
  · rintro ⟨s', h1⟩
    exact ⟨r, s', h1, hroot⟩

/-- C89: a batch inserted without a previous root gives the root of the sparse Merkle tree of its pairs. -/
theorem C89_fresh_root (hc : Sane cfg) (h : Inserts cfg C H R L s) (hs : C.alive s)
    {keys : List (Arr N)} {values : List V} (hlen : keys.length = values.length) (hne : keys ≠ [])
    (hnd : keys.Nodup) {encs : List (List UInt8)} (henc : values.map cfg.encode = encs.map .ok)
    (hcf : CollisionFree cfg.hasher (Among (hashedBy cfg none keys values s ++ H))) :
    ∃ r s', insert cfg none keys values s = (.ok r, s') ∧ sparseRoot cfg.hasher (keys.zip encs) = some r := by
  have henc' : ∀ v ∈ values, ∃ b, cfg.encode v = .ok b := by
    intro v hv
    have : cfg.encode v ∈ encs.map .ok := by rw [← henc]; exact List.mem_map_of_mem hv
    obtain ⟨b, -, hb⟩ := List.mem_map.1 this
    exact ⟨b, hb.symm⟩
  obtain ⟨r, s', hrun, -, h'⟩ := h.insert_ok hc hs hcf (prev := none) rfl (heightBelow_empty _) (handled_empty _)
    hlen hne hnd henc'
  exact ⟨r, s', hrun, C89_root_is_sparse_root hc h' hcf List.mem_cons_self ((lists_empty _).put hlen hnd henc)⟩

end

/-! ## Concrete lists -/

namespace Toy

/-- The pairs of the second version. -/
def sparse2 : List (Arr 2 × List UInt8) := putPairs (ks1.zip vs1) (ks2.zip vs2)

theorem lists1 : Lists cfg.encode M1 (ks1.zip vs1) := (lists_empty cfg.encode).put (encs := vs1) rfl (by decide) rfl
theorem lists2 : Lists cfg.encode M2 sparse2 := lists1.put (encs := vs2) rfl (by decide) rfl

/-- There are four of them. -/
example : sparse2.map Prod.fst = [key 1, key 0x8000, key 5, key 2] := by decide +kernel

/-- The second version, and the same pairs in another order. -/
example : sparseRoot cfg.hasher sparse2 = some r2 := C89_root_is_sparse_root sane hist2 free2 List.mem_cons_self lists2
example : sparseRoot cfg.hasher sparse2.reverse = some r2 :=
  C89_root_is_sparse_root sane hist2 free2 List.mem_cons_self
    ⟨List.nodup_reverse.2 lists2.1, fun k b => by rw [List.mem_reverse]; exact lists2.2 k b⟩

/-- The proof of 1 has three siblings. -/
example : generateInclusionProof cfg s2 r2 (key 1) =
      .ok (((HIn.data (key 1) [10]).hash cfg.hasher, false) :: (pairHash cfg.hasher (key 1) [10], false) ::
        sparsePath cfg.hasher (key 1) (8 * 2) sparse2) ∧
    (sparsePath cfg.hasher (key 1) (8 * 2) sparse2).length = 3 :=
  ⟨C89_proof_is_sparse_path sane room hist2 (alive _) free2 List.mem_cons_self (deep _) lists2 (by decide +kernel),
    by decide +kernel⟩

/-- The second version after the first is removed. -/
example : sparseRoot cfg.hasher sparse2 = some r2 := C89_live_root sane use3 free2 List.mem_cons_self lists2
example : generateInclusionProof cfg t2 r2 (key 1) =
      .ok (((HIn.data (key 1) [10]).hash cfg.hasher, false) :: (pairHash cfg.hasher (key 1) [10], false) ::
        sparsePath cfg.hasher (key 1) (8 * 2) sparse2) :=
  C89_live_proof sane room use3 (alive _) free2 List.mem_cons_self (deep _) lists2 (by decide +kernel)

/-- Four new pairs at once. -/
example : ∃ r s', insert cfg none ([0, 0x80, 0xC0, 0x100].map key) [[3], [1], [4], [5]] db0 = (.ok r, s') ∧
    sparseRoot cfg.hasher (([0, 0x80, 0xC0, 0x100].map key).zip [[3], [1], [4], [5]]) = some r :=
  C89_fresh_root sane hist0 (alive _) rfl (by decide) (by decide) rfl (collisionFree_of_check (by decide +kernel))

/-- A batch whose root is not that of the sparse Merkle tree, and one whose root is. -/
example : ¬ ∃ r s', insert cfg (some (key 35239)) ([0x40, 0x80, 0xC0, 0x100].map key) [[5], [6], [7], [8]]
      (ins none [0x80, 0xC0] [1, 2] db0).2 = (.ok r, s') ∧
    sparseRoot cfg.hasher (putPairs (([0x80, 0xC0].map key).zip [[1], [2]])
      (([0x40, 0x80, 0xC0, 0x100].map key).zip [[5], [6], [7], [8]])) = some r := by
  intro h
  have := (C89_insert_exact sane two_hist (alive _) (M := twoM) (List.mem_singleton.2 rfl) (encs := [[5], [6], [7], [8]])
    rfl (by decide) (by decide) rfl (deep _).succ (collisionFree_of_check (by decide +kernel))
    (pairs := ([0x80, 0xC0].map key).zip [[1], [2]])
    ((lists_empty cfg.encode).put (encs := [[1], [2]]) rfl (by decide) rfl)).1 h
  exact four_misses (this _ (by decide))
example : ∃ r s', insert cfg (some r2) [key 7] [[70]] s2 = (.ok r, s') ∧
    sparseRoot cfg.hasher (putPairs sparse2 [(key 7, [70])]) = some r :=
  (C89_insert_exact sane hist2 (alive _) (M := M2) List.mem_cons_self (encs := [[70]]) rfl (by decide) (by decide) rfl
    (deep _).succ (collisionFree_of_check (by decide +kernel)) lists2).2 (handled_single sane _)

end Toy
end MerkleBit
