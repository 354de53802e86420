import Verif.Proof.Parts
import Verif.Props.InclusionProofs
/-!
# C84: the hashes of a proof are roots

The entries of a proof after the first are the roots of the parts of the version, as seen from the key: the pair
of the key, then the pairs that differ from it at the last bit, and so on up to the first.
-/

namespace MerkleBit
section
variable {N : Nat} {σ V : Type} {cfg : Config N σ V} {C : DbContract cfg.db}
  {H : List (HIn N)} {R : List (Arr N)} {L : Ledger N V} {s : σ}

/-- The bits of C84 exist. -/
theorem part_bits (hc : Sane cfg) (h : Inserts cfg C H R L s) (hcf : CollisionFree cfg.hasher (Among H))
    {r : Arr N} {M : Contents N V} (hr : (r, M) ∈ L) {k : Arr N} (hk : M k ≠ none) :
    ∃ bits, PartBits M k bits := by
  obtain ⟨T, hwf, -, -, hM⟩ := h.version hc hcf hr
  exact ⟨_, parts_bits hwf hM (hM.mem.2 hk)⟩

/-- A hash of a proof as a version. -/
theorem proof_entry (hc : Sane cfg) (h : Inserts cfg C H R L s) (hcf : CollisionFree cfg.hasher (Among H))
    {r : Arr N} {M : Contents N V} (hr : (r, M) ∈ L) (hd : HeightBelow M cfg.depth) {k : Arr N} {v : V}
    (hk : M k = some v) {p : List (Arr N × Bool)} (hp : generateInclusionProof cfg s r k = .ok p)
    {bits : List Nat} (hb : PartBits M k bits) :
    p.length = bits.length + 1 ∧
    ∀ i b, bits[i]? = some b → ∃ u : Trie N, u.WF ∧ Stored cfg.hasher (C.view s) u ∧
      Represents cfg u (M.part k b) ∧ p[i + 1]? = some (u.loc cfg.hasher, decide (b < 8 * N) && !k.bit b) := by
  obtain ⟨T, hwf, rfl, hst, hM, hkT, hpT⟩ := proof_parts (C := C) hc (h.version hc hcf hr) hd hk
    (generateInclusionProof_ok hp)
  have hbits : bits = (T.parts k).map Prod.fst :=
    eq_of_falling hb.sorted (parts_bits hwf hM hkT).sorted (fun x => by rw [hb.mem, (parts_bits hwf hM hkT).mem])
  subst hbits
  have hne : p ≠ [] := by
    rintro rfl
    have : (T.parts k) = [] := by simpa using hpT.symm
    have hmem := (hb.mem (8 * N)).2 ⟨k, by rw [hk]; simp, firstDiff_self k⟩
    rw [this] at hmem
    simp at hmem
  obtain ⟨p0, ps, rfl⟩ := List.exists_cons_of_ne_nil hne
  simp only [List.tail_cons] at hpT
  subst hpT
  refine ⟨by simp, fun i b hi => ?_⟩
  rw [List.getElem?_map] at hi
  obtain ⟨e, he, rfl⟩ := Option.map_eq_some_iff.1 hi
  have hmem := List.mem_of_getElem? he
  refine ⟨e.2, (parts_sub e hmem).wf hwf, hst.sub (parts_sub e hmem), parts_represent hwf hM hkT hmem, ?_⟩
  rw [List.getElem?_cons_succ, List.getElem?_map, he]
  rfl

theorem part_keeps {M : Contents N V} {k : Arr N} {b : Nat} : ∀ k', M.part k b k' ≠ none → M k' ≠ none := by
  intro k' h
  unfold Contents.part at h
  split at h
  · exact h
  · exact absurd rfl h

/-- C84: let `bits` be the bits at which the keys of the version differ from `k` for the first time, the last one
first.  The proof has one entry for each of them, after its first entry.  Under the hash of the entry of `b`, `get_one` finds
exactly the pairs that differ from `k` at bit `b` for the first time.  (The entry of `8 N` is that of `k` itself.)
The flag tells on which side they are. -/
theorem C84_hashes_are_roots (hc : Sane cfg) (h : Inserts cfg C H R L s) (hs : C.alive s)
    (hcf : CollisionFree cfg.hasher (Among H)) {r : Arr N} {M : Contents N V} (hr : (r, M) ∈ L)
    (hd : HeightBelow M cfg.depth) {k : Arr N} {v : V} (hk : M k = some v) {p : List (Arr N × Bool)}
    (hp : generateInclusionProof cfg s r k = .ok p) {bits : List Nat} (hb : PartBits M k bits) :
    p.length = bits.length + 1 ∧
    ∀ i b, bits[i]? = some b → ∃ x, p[i + 1]? = some (x, decide (b < 8 * N) && !k.bit b) ∧
      ∀ k', getOne cfg s x k' = .ok (if firstDiff k k' = b then M k' else none) := by
  obtain ⟨h1, h2⟩ := proof_entry hc h hcf hr hd hk hp hb
  refine ⟨h1, fun i b hi => ?_⟩
  obtain ⟨u, hwf, hst, hu, he⟩ := h2 i b hi
  refine ⟨_, he, fun k' => ?_⟩
  exact (version_getOne (C := C) hc.pos hc.codec (hd.subset part_keeps) ⟨u, hwf, rfl, hst, hu⟩ k').alive hs

/-- C84: the hash of an entry is the root that an insert of these pairs into an empty tree returns. -/
theorem C84_canonical (hc : Sane cfg) (h : Inserts cfg C H R L s) (hs : C.alive s)
    {r : Arr N} {M : Contents N V} (hr : (r, M) ∈ L)
    (hd : HeightBelow M cfg.depth) {k : Arr N} {v : V} (hk : M k = some v) {p : List (Arr N × Bool)}
    (hp : generateInclusionProof cfg s r k = .ok p) {bits : List Nat} (hb : PartBits M k bits)
    {i b : Nat} (hi : bits[i]? = some b) {x : Arr N} {side : Bool} (hx : p[i + 1]? = some (x, side))
    {keys : List (Arr N)} {values : List V} (hlen : keys.length = values.length) (hnd : keys.Nodup)
    (hpairs : ∀ k' v', (k', v') ∈ keys.zip values ↔ firstDiff k k' = b ∧ M k' = some v')
    (hcf : CollisionFree cfg.hasher (Among (hashedBy cfg none keys values s ++ H))) :
    ∃ s', insert cfg none keys values s = (.ok x, s') := by
  have hcf0 : CollisionFree cfg.hasher (Among H) := hcf.mono (fun i hi => List.mem_append_right _ hi)
  obtain ⟨u, hwf, hst, hu, he⟩ := (proof_entry hc h hcf0 hr hd hk hp hb).2 i b hi
  rw [hx] at he
  cases he
  have hpart : Contents.empty.assign keys values = M.part k b := by
    funext k'
    by_cases hm : k' ∈ keys
    · obtain ⟨j, hj, rfl⟩ := List.mem_iff_getElem.1 hm
      have hz : (keys[j], values[j]'(by omega)) ∈ keys.zip values := by
        rw [List.mem_iff_getElem]
        exact ⟨j, by simp; omega, by simp⟩
      rw [assign_mem _ hlen hnd hz]
      obtain ⟨e1, e2⟩ := (hpairs _ _).1 hz
      rw [Contents.part, if_pos e1, e2]
    · rw [assign_not_mem _ _ hm]
      unfold Contents.part Contents.empty
      split
      · rename_i hf
        cases hM : M k' with
        | none => rfl
        | some v' =>
          exact absurd (List.of_mem_zip ((hpairs k' v').2 ⟨hf, hM⟩)).1 hm
      · rfl
  have hne : keys ≠ [] := by
    rintro rfl
    obtain ⟨k', h1, h2⟩ := (hb.mem b).1 (List.mem_of_getElem? hi)
    obtain ⟨v', hv'⟩ := Option.ne_none_iff_exists'.1 h1
    have := (hpairs k' v').2 ⟨h2, hv'⟩
    simp at this
  have henc : ∀ v ∈ values, ∃ b, cfg.encode v = .ok b := by
    intro w hw
    obtain ⟨j, hj, rfl⟩ := List.mem_iff_getElem.1 hw
    have hz : (keys[j]'(by omega), values[j]) ∈ keys.zip values := by
      rw [List.mem_iff_getElem]
      exact ⟨j, by simp; omega, by simp⟩
    obtain ⟨e1, e2⟩ := (hpairs _ _).1 hz
    have := hu (keys[j]'(by omega))
    rw [Contents.part, if_pos e1, e2] at this
    obtain ⟨b, hb, -⟩ := this
    exact ⟨b, hb⟩
  obtain ⟨r', s', hrun, -, h'⟩ := h.insert_ok hc hs hcf (prev := none) (M := Contents.empty) rfl
    ((hd.subset (M' := Contents.empty) (fun _ h => absurd rfl h)).succ) (handled_empty keys) hlen hne hnd henc
  obtain ⟨T', hwf', hl', -, hM'⟩ := h'.version hc hcf List.mem_cons_self
  rw [hpart] at hM'
  have := Represents.unique hwf' hwf hM' hu
  subst this
  rw [hl']
  exact ⟨s', hrun⟩

/-- C84: an insert on top of the hash of an entry starts from these pairs. -/
theorem C84_insert_on_part (hc : Sane cfg) (h : Inserts cfg C H R L s) (hs : C.alive s)
    {r : Arr N} {M : Contents N V} (hr : (r, M) ∈ L)
    {k : Arr N} {v : V} (hk : M k = some v) {p : List (Arr N × Bool)}
    (hp : generateInclusionProof cfg s r k = .ok p) {bits : List Nat} (hb : PartBits M k bits)
    {i b : Nat} (hi : bits[i]? = some b) {x : Arr N} {side : Bool} (hx : p[i + 1]? = some (x, side))
    {keys : List (Arr N)} {values : List V} (hh : Handled cfg (M.part k b) keys)
    (hlen : keys.length = values.length) (hne : keys ≠ []) (hnd : keys.Nodup)
    (henc : ∀ v ∈ values, ∃ b, cfg.encode v = .ok b) (hd : 8 * N < cfg.depth)
    (hcf : CollisionFree cfg.hasher (Among (hashedBy cfg (some x) keys values s ++ H))) :
    ∃ r' s', insert cfg (some x) keys values s = (.ok r', s') ∧ C.alive s' ∧
      (∀ k' v', (k', v') ∈ keys.zip values → getOne cfg s' r' k' = .ok (some v')) ∧
      ∀ k', k' ∉ keys → getOne cfg s' r' k' = .ok (if firstDiff k k' = b then M k' else none) := by
  have hcf0 : CollisionFree cfg.hasher (Among H) := hcf.mono (fun i hi => List.mem_append_right _ hi)
  obtain ⟨u, hwf, hst, hu, he⟩ := (proof_entry hc h hcf0 hr (heightBelow_of_bits M hd) hk hp hb).2 i b hi
  rw [hx] at he
  cases he
  have hso := h.sound hc hcf0
  obtain ⟨r', s', hrun, hal, -, hv⟩ := good_insert_version (C := C) hc hcf
    ⟨hso.view.mono (fun i hi => List.mem_append_right _ hi), hso.pending.mono (fun i hi => List.mem_append_right _ hi)⟩
    hs (prevTrie_some hwf (fun i hi => List.mem_append_right _ ((hst.honest hcf0 hso.view).2 i hi)) hu)
    (heightBelow_of_bits _ (by omega)) (fun _ => hh) (fun T hT => by cases hT; exact hst) hlen hne hnd henc
    (fun i hi => List.mem_append_left _ hi)
  refine ⟨r', s', hrun, hal, fun k' v' hz => ?_, fun k' hk' => ?_⟩
  · rw [(version_getOne (C := C) hc.pos hc.codec (heightBelow_of_bits _ hd) hv k').alive hal,
      assign_mem _ hlen hnd hz]
  · rw [(version_getOne (C := C) hc.pos hc.codec (heightBelow_of_bits _ hd) hv k').alive hal,
      assign_not_mem _ _ hk']
    rfl

/-- C84: proofs tell where versions are the same.  If a hash is in a proof of `k` and in a proof of `k'`, perhaps under
another root, the two parts have the same pairs.  (Two databases may be involved.) -/
theorem C84_equal_hashes {σ' : Type} {cfg' : Config N σ' V}
    {C' : DbContract cfg'.db} {H' : List (HIn N)} {R' : List (Arr N)} {L' : Ledger N V} {s' : σ'}
    (hc : Sane cfg) (hc' : Sane cfg') (hhash : cfg'.hasher = cfg.hasher) (henc : cfg'.encode = cfg.encode)
    (h : Inserts cfg C H R L s) (h' : Inserts cfg' C' H' R' L' s')
    (hcf : CollisionFree cfg.hasher (Among (H ++ H')))
    {r r' : Arr N} {M M' : Contents N V} (hr : (r, M) ∈ L) (hr' : (r', M') ∈ L')
    (hd : HeightBelow M cfg.depth) (hd' : HeightBelow M' cfg'.depth) {k k' : Arr N} {v v' : V}
    (hk : M k = some v) (hk' : M' k' = some v') {p p' : List (Arr N × Bool)}
    (hp : generateInclusionProof cfg s r k = .ok p) (hp' : generateInclusionProof cfg' s' r' k' = .ok p')
    {bits bits' : List Nat} (hb : PartBits M k bits) (hb' : PartBits M' k' bits')
    {i b : Nat} (hi : bits[i]? = some b) {x : Arr N} {side : Bool} (hx : p[i + 1]? = some (x, side))
    {i' b' : Nat} (hi' : bits'[i']? = some b') {side' : Bool} (hx' : p'[i' + 1]? = some (x, side')) :
    M.part k b = M'.part k' b' := by
  have hcf1 : CollisionFree cfg.hasher (Among H) := hcf.mono (fun _ h => List.mem_append_left _ h)
  have hcf2 : CollisionFree cfg'.hasher (Among H') := by
    rw [hhash]; exact hcf.mono (fun _ h => List.mem_append_right _ h)
  obtain ⟨u, hwf, hst, hu, he⟩ := (proof_entry hc h hcf1 hr hd hk hp hb).2 i b hi
  obtain ⟨u', hwf', hst', hu', he'⟩ := (proof_entry hc' h' hcf2 hr' hd' hk' hp' hb').2 i' b' hi'
  rw [hx] at he
  rw [hx'] at he'
  simp only [Option.some.injEq, Prod.mk.injEq] at he he'
  have i1 := (hst.honest hcf1 (h.sound hc hcf1).view).2
  have i2 := (hst'.honest hcf2 (h'.sound hc' hcf2).view).2
  rw [hhash] at i2 he'
  have : u = u' := Trie.eq_of_loc hcf (fun i hi => List.mem_append_left _ (i1 i hi))
    (fun i hi => List.mem_append_right _ (i2 i hi)) (he.1.symm.trans he'.1)
  subst this
  exact Represents.map_eq hc.codec henc hwf hu hu'

end

/-! ## A concrete proof -/

namespace Toy

theorem keys2 {k : Arr 2} (h : M2 k ≠ none) : k = key 1 ∨ k = key 2 ∨ k = key 5 ∨ k = key 0x8000 := by
  by_cases h2 : k ∈ ks2
  · simp only [ks2, List.mem_cons, List.not_mem_nil, or_false] at h2
    rcases h2 with h2 | h2 <;> simp [h2]
  · by_cases h1 : k ∈ ks1
    · simp only [ks1, List.mem_cons, List.not_mem_nil, or_false] at h1
      rcases h1 with h1 | h1 | h1 <;> simp [h1]
    · rw [M2, assign_not_mem _ _ h2, M1, assign_not_mem _ _ h1] at h
      exact absurd rfl h

/-- Seen from the key 1, the keys of the second version differ at the bits 14, 13 and 0. -/
theorem bits2 : PartBits M2 (key 1) [16, 14, 13, 0] := by
  refine ⟨by decide, fun b => ?_⟩
  constructor
  · intro hb
    simp only [List.mem_cons, List.not_mem_nil, or_false] at hb
    rcases hb with rfl | rfl | rfl | rfl
    · exact ⟨key 1, by decide +kernel, by decide +kernel⟩
    · exact ⟨key 2, by decide +kernel, by decide +kernel⟩
    · exact ⟨key 5, by decide +kernel, by decide +kernel⟩
    · exact ⟨key 0x8000, by decide +kernel, by decide +kernel⟩
  · rintro ⟨k', h1, rfl⟩
    rcases keys2 h1 with rfl | rfl | rfl | rfl <;> decide +kernel

/-- The proof of the key 1. -/
def proof2 : List (Arr 2 × Bool) := ((generateInclusionProof cfg s2 r2 (key 1)).toOption).getD []

theorem proof2_eq : generateInclusionProof cfg s2 r2 (key 1) = .ok proof2 := by decide +kernel

/-- The hypotheses of `C84_hashes_are_roots` are met: the third hash is the root of the pair of the key 2. -/
example : ∃ x, proof2[2]? = some (x, true) ∧ getOne cfg s2 x (key 2) = .ok (some [21]) ∧
    getOne cfg s2 x (key 5) = .ok none := by
  obtain ⟨x, h1, h2⟩ := (C84_hashes_are_roots sane hist2 (alive _) free2 (r := r2) (M := M2) List.mem_cons_self
    (deep _) (k := key 1) (v := [10]) (by decide +kernel) proof2_eq bits2).2 1 14 rfl
  refine ⟨x, ?_, ?_, ?_⟩
  · rw [h1]; rfl
  · rw [h2]; decide +kernel
  · rw [h2]; decide +kernel

/-- The hypotheses of `C84_canonical` are met. -/
example : ∃ x s', proof2[4]?.map Prod.fst = some x ∧ insert cfg none [key 0x8000] [[30]] s2 = (.ok x, s') := by
  have hx : proof2[4]? = some ((proof2[4]?.getD (key 0, false)).1, (proof2[4]?.getD (key 0, false)).2) := by
    decide +kernel
  obtain ⟨s', h⟩ := C84_canonical sane hist2 (alive _) (r := r2) (M := M2) List.mem_cons_self
    (deep _) (k := key 1) (v := [10]) (by decide +kernel) proof2_eq bits2 (i := 3) (b := 0) rfl hx
    (keys := [key 0x8000]) (values := [[30]]) rfl (by decide)
    (by
      intro k' v'
      simp only [List.zip_cons_cons, List.zip_nil_right, List.mem_singleton, Prod.mk.injEq]
      constructor
      · rintro ⟨rfl, rfl⟩
        exact ⟨by decide +kernel, by decide +kernel⟩
      · rintro ⟨h1, h2⟩
        rcases keys2 (by rw [h2]; simp) with rfl | rfl | rfl | rfl
        · exact absurd h1 (by decide +kernel)
        · exact absurd h1 (by decide +kernel)
        · exact absurd h1 (by decide +kernel)
        · have : M2 (key 0x8000) = some [30] := by decide +kernel
          rw [this] at h2
          cases h2
          exact ⟨rfl, rfl⟩)
    (collisionFree_of_check (by decide +kernel))
  exact ⟨_, s', by rw [hx]; rfl, h⟩

/-- The hypotheses of `C84_insert_on_part` are met: a key is added to the part of the key 5. -/
example : ∃ x r' s', proof2[3]?.map Prod.fst = some x ∧ insert cfg (some x) [key 6] [[60]] s2 = (.ok r', s') ∧
    getOne cfg s' r' (key 6) = .ok (some [60]) ∧ getOne cfg s' r' (key 5) = .ok (some [50]) ∧
    getOne cfg s' r' (key 1) = .ok none := by
  have hx : proof2[3]? = some ((proof2[3]?.getD (key 0, false)).1, (proof2[3]?.getD (key 0, false)).2) := by
    decide +kernel
  obtain ⟨r', s', h1, -, h2, h3⟩ := C84_insert_on_part sane hist2 (alive _) (r := r2) (M := M2) List.mem_cons_self
    (k := key 1) (v := [10]) (by decide +kernel) proof2_eq bits2 (i := 2) (b := 13) rfl hx
    (keys := [key 6]) (values := [[60]]) (handled_single sane _) rfl (by decide) (by decide) (fun v _ => ⟨v, rfl⟩)
    (by decide) (collisionFree_of_check (by decide +kernel))
  refine ⟨_, r', s', by rw [hx]; rfl, h1, h2 _ _ (List.mem_singleton.2 rfl), ?_, ?_⟩
  · rw [h3 _ (by decide)]; decide +kernel
  · rw [h3 _ (by decide)]; decide +kernel

/-- The proof of the same key under the first root. -/
def proof1 : List (Arr 2 × Bool) := ((generateInclusionProof cfg s2 r1 (key 1)).toOption).getD []

theorem keys1 {k : Arr 2} (h : M1 k ≠ none) : k = key 1 ∨ k = key 2 ∨ k = key 0x8000 := by
  by_cases h1 : k ∈ ks1
  · simp only [ks1, List.mem_cons, List.not_mem_nil, or_false] at h1
    rcases h1 with h1 | h1 | h1 <;> simp [h1]
  · rw [M1, assign_not_mem _ _ h1] at h
    exact absurd rfl h

theorem bits1 : PartBits M1 (key 1) [16, 14, 0] := by
  refine ⟨by decide, fun b => ?_⟩
  constructor
  · intro hb
    simp only [List.mem_cons, List.not_mem_nil, or_false] at hb
    rcases hb with rfl | rfl | rfl
    · exact ⟨key 1, by decide +kernel, by decide +kernel⟩
    · exact ⟨key 2, by decide +kernel, by decide +kernel⟩
    · exact ⟨key 0x8000, by decide +kernel, by decide +kernel⟩
  · rintro ⟨k', h1, rfl⟩
    rcases keys1 h1 with rfl | rfl | rfl <;> decide +kernel

/-- The hypotheses of `C84_equal_hashes` are met: the update left the keys above 0x8000 alone. -/
example : M1.part (key 1) 0 = M2.part (key 1) 0 := by
  have hx : proof1[3]? = some ((proof2[4]?.getD (key 0, false)).1, (proof2[4]?.getD (key 0, false)).2) := by
    decide +kernel
  have hx' : proof2[4]? = some ((proof2[4]?.getD (key 0, false)).1, (proof2[4]?.getD (key 0, false)).2) := by
    decide +kernel
  exact C84_equal_hashes sane sane rfl rfl hist2 hist2 (free2.mono (by simp [Among])) (r := r1) (M := M1)
    (r' := r2) (M' := M2) (by simp) (by simp) (deep _) (deep _) (k := key 1) (k' := key 1) (v := [10]) (v' := [10])
    (by decide +kernel) (by decide +kernel) (p := proof1) (p' := proof2) (by decide +kernel) proof2_eq bits1 bits2
    (i := 2) (i' := 3) rfl hx rfl hx'

end Toy
end MerkleBit
