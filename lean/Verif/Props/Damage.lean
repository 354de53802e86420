import Verif.Proof.Repair
import Verif.Proof.Termination
import Verif.Props.Storage
/-!
# C58-C63: databases in which data was lost

`Calls` are histories of inserts and removes with any arguments and any outcome, process deaths
included; `Events` are the same histories with a ledger of what the returned roots stand for.  In such
histories nodes of a version may be missing: an interrupted insert leaves half a version, and `remove`
may delete nodes that other versions still need.
-/

namespace MerkleBit
variable {N : Nat} {σ V : Type} {cfg : Config N σ V} {C : DbContract cfg.db}
  {H : List (HIn N)} {L : Ledger N V} {s s' : σ}

/-! ## The damaged database of the examples -/

/-- The history of `C19_false` before the remove, as a history of events. -/
theorem Toy.devents3 : Events Toy.cfg Toy.C Toy.DH
    [(Toy.key 24207, Toy.D3), (Toy.key 24207, Toy.D2), (Toy.key 59708, Toy.D1)] Toy.d3.2 :=
  .good (.good (.good (.start rfl rfl) (prev := none) rfl (handled_empty _)
      (outcome (by decide +kernel))) (prev := some (Toy.key 59708)) (by simp [Ledger.Prev, Toy.D1])
      (handled_single sane _) (outcome (by decide +kernel)))
    (prev := some (Toy.key 24207)) (by simp [Ledger.Prev, Toy.D2, Toy.D1]) (handled_single sane _)
    (outcome (by decide +kernel))

/-- The history of `C19_false`: the root 24207 has lost key 2. -/
theorem Toy.devents : Events Toy.cfg Toy.C Toy.DH
    [(Toy.key 24207, Toy.D3), (Toy.key 24207, Toy.D2), (Toy.key 59708, Toy.D1)] Toy.d4.2 :=
  .remove Toy.devents3 (r := Toy.key 59708) (res := .ok ()) (outcome (by decide +kernel))

/-! ## C58 -/

/-- C58: whatever was done to two databases with the same hash function and value codec, a root that
reads a value for a key in both reads the same value in both, and a proof that can be generated in both
is the same in both.  (One database at two times is a special case.) -/
theorem C58_no_root_reads_two_values {σ' : Type} {cfg' : Config N σ' V} {C' : DbContract cfg'.db}
    {H' : List (HIn N)} {s' : σ'} (hc : Sane cfg) (hc' : Sane cfg')
    (hhash : cfg'.hasher = cfg.hasher) (hdec : cfg'.decode = cfg.decode)
    (h : Calls cfg C H s) (h' : Calls cfg' C' H' s')
    (hcf : CollisionFree cfg.hasher (Among (H ++ H'))) (r k : Arr N) :
    (∀ v v', getOne cfg s r k = .ok (some v) → getOne cfg' s' r k = .ok (some v') → v' = v) ∧
    (∀ p p', generateInclusionProof cfg s r k = .ok p →
      generateInclusionProof cfg' s' r k = .ok p' → p' = p) := by
  have sub1 : ∀ i, Among H i → Among (H ++ H') i := fun _ h => List.mem_append_left _ h
  have sub2 : ∀ i, Among H' i → Among (H ++ H') i := fun _ h => List.mem_append_right _ h
  have hcf' : CollisionFree cfg'.hasher (Among (H ++ H')) := by rw [hhash]; exact hcf
  have hv := ((calls_inPlace hc.pos hc.pp h (hcf.mono sub1)).mono sub1).1
  have hv' := ((calls_inPlace hc'.pos hc'.pp h' (hcf'.mono sub2)).mono sub2).1
  constructor
  · intro v v' h1 h2
    obtain ⟨T, hn, rfl, hi⟩ := tree_of_getOne hv h1
    have e1 := (getOne_remains hc.pos hn (hv.remains hcf hn hi) h1).2
    rw [← hhash] at h2 hi
    exact readOne_unique hdec T 0 e1 (getOne_remains hc.pos hn (hv'.remains hcf' hn hi) h2).2
  · intro p p' h1 h2
    have h1 := generateInclusionProof_ok h1
    have h2 := generateInclusionProof_ok h2
    obtain ⟨T, hn, rfl, hi⟩ := tree_of_proof hv h1
    have e1 := (proof_remains hc.pos hn (hv.remains hcf hn hi) h1).2
    rw [← hhash] at h2 hi
    exact readProof_unique hhash T 0 e1 (proof_remains hc.pos hn (hv'.remains hcf' hn hi) h2).2

/-- The damaged database and the one before the damage: the root reads key 2 only before, and key 1 in
both. -/
example : getOne Toy.cfg Toy.d3.2 (Toy.key 24207) (Toy.key 2) = .ok (some [20]) ∧
    getOne Toy.cfg Toy.d4.2 (Toy.key 24207) (Toy.key 2) = .ok none ∧
    getOne Toy.cfg Toy.d3.2 (Toy.key 24207) (Toy.key 0x8000) = .ok (some [30]) ∧
    ∀ v, getOne Toy.cfg Toy.d4.2 (Toy.key 24207) (Toy.key 0x8000) = .ok (some v) → v = [30] := by
  have h1 : getOne Toy.cfg Toy.d3.2 (Toy.key 24207) (Toy.key 0x8000) = .ok (some [30]) := by
    decide +kernel
  refine ⟨by decide +kernel, by decide +kernel, h1, fun v hv => ?_⟩
  have h3 : Events Toy.cfg Toy.C Toy.DH _ Toy.d3.2 := Toy.devents3
  exact (C58_no_root_reads_two_values Toy.sane Toy.sane rfl rfl h3.calls Toy.devents.calls
    (Toy.dfree.mono fun i hi => by simpa [Among] using hi) _ _).1 _ _ h1 hv

/-! ## C59 -/

/-- C59, for the roots of batches that open what they have to (`Handled`): in whatever state the database is, and
whatever of a version was lost, what is read under its root is what belongs to the version or nothing.
`get_one` returns the value of the key or `None`; `get` returns exactly the requested keys, each with
its value or `None`; a proof that is generated verifies for the value of the key.
Missing for the full C59: roots of straddling batches (their contents are not what was inserted,
`C02_false`; see `C58` for what holds for them). -/
theorem C59_lost_data_is_not_wrong_data_partial (hc : Sane cfg) (h : Events cfg C H L s)
    (hcf : CollisionFree cfg.hasher (Among H)) {r : Arr N} {M : Contents N V} (hr : (r, M) ∈ L) :
    (∀ k o, getOne cfg s r k = .ok o → o = M k ∨ o = none) ∧
    (∀ keys m, get cfg s r keys = .ok m → (∀ k, (m.get? k).isSome ↔ k ∈ keys) ∧
      ∀ k o, m.get? k = some o → o = M k ∨ o = none) ∧
    (∀ k p, generateInclusionProof cfg s r k = .ok p → ∃ v, M k = some v ∧
      verifyInclusionProof cfg.hasher cfg.encode r k v p = .ok ()) := by
  obtain ⟨T, hT, -⟩ := events_remnant hc.pos hc.pp h hcf hr
  refine ⟨fun k o ho => ?_, fun keys m hm => ?_, fun k p hp => ?_⟩
  · cases o with
    | none => exact .inr rfl
    | some v =>
      left
      obtain ⟨hwf, rfl, hst, hM⟩ := hT
      obtain ⟨b, h1, h2⟩ := readOne_some T 0 (getOne_remains hc.pos hwf.norm hst ho).2
      obtain ⟨v', h3, h4, -⟩ := hM.decode hwf hc.codec h1
      rw [h2] at h4
      cases h4
      exact h3.symm
  · have h1 := remnant_get (C := C) hc.pos hc.pp hc.codec hT keys
    rw [hm] at h1
    refine ⟨fun k => ?_, fun k o ho => ?_⟩
    · by_cases hk : k ∈ keys
      · rcases h1.2 k hk with h2 | h2 <;> simp [h2, hk]
      · simp [h1.1 k hk, hk]
    · by_cases hk : k ∈ keys
      · rcases h1.2 k hk with h2 | h2 <;> rw [ho] at h2 <;> cases h2 <;> simp
      · rw [h1.1 k hk] at ho; cases ho
  · have hp := generateInclusionProof_ok hp
    cases hk : M k with
    | none =>
      obtain ⟨msg, h1⟩ := remnant_no_proof (C := C) hc.pos hT hk
      rw [hp] at h1; cases h1
    | some v =>
      obtain ⟨hwf, rfl, hst, hM⟩ := hT
      obtain ⟨b, hb, henc⟩ := hM.entry hwf hk
      have h1 := readProof_wf (cfg := { cfg with depth := 8 * N + 1 }) T 0 hwf
        (by have := hwf.height_le; simp only; omega) hb
      rw [← readProof_unique (cfg := cfg) (cfg' := { cfg with depth := 8 * N + 1 }) rfl T 0
        (proof_remains (C := C) hc.pos hwf.norm hst hp).2 h1]
      exact ⟨v, rfl, (verify_iff _ _ _ _ _ _).2 ⟨b, false, false, _, henc, rfl, foldProof_path _ hwf hb⟩⟩

/-- C59, for the same roots: a database that serves all calls answers every `get_one`, and a value that
is still readable is also still provable.  (`get` may fail with "Corrupt merkle tree" when the data of
a leaf is gone.)  Missing: as above. -/
theorem C59_readable_is_provable_partial (hc : Sane cfg) (hroom : cfg.Room) (h : Events cfg C H L s)
    (hcf : CollisionFree cfg.hasher (Among H)) (hs : C.alive s) {r : Arr N} {M : Contents N V}
    (hr : (r, M) ∈ L) (hd : HeightBelow M cfg.depth) (k : Arr N) :
    (∃ o, getOne cfg s r k = .ok o) ∧
    ((∃ v, getOne cfg s r k = .ok (some v)) ↔ ∃ p, generateInclusionProof cfg s r k = .ok p) ∧
    ((∀ b, NoFuel (cfg.decode b)) → ∀ keys, (∃ m, get cfg s r keys = .ok m) ∨
      get cfg s r keys =
        .error (.exception "Corrupt merkle tree: Failed to get leaf node from DB")) := by
  obtain ⟨T, hT, -⟩ := events_remnant hc.pos hc.pp h hcf hr
  refine ⟨?_, ?_, fun hdec keys => ?_⟩
  · rcases remnant_getOne (C := C) hc.pos hc.codec hd hT k with ⟨-, h1⟩ | ⟨-, h1⟩ <;>
      exact ⟨_, h1.alive hs⟩
  · rw [generateInclusionProof_room hroom]
    cases hk : M k with
    | none =>
      obtain ⟨msg, h2⟩ := remnant_no_proof (C := C) hc.pos hT hk
      constructor
      · rintro ⟨v, hv⟩
        rcases remnant_getOne (C := C) hc.pos hc.codec hd hT k with ⟨-, h1⟩ | ⟨-, h1⟩ <;>
          (have h1 := h1.alive hs; rw [hv] at h1; simp [hk] at h1)
      · rintro ⟨p, hp⟩
        rw [hp] at h2; cases h2
    | some v =>
      rcases remnant_getOne (C := C) hc.pos hc.codec hd hT k with ⟨hp, h1⟩ | ⟨hp, h1⟩ <;>
        rcases remnant_proof (C := C) hc.pos hd hT hk with ⟨hp', q, h2, -⟩ | ⟨hp', msg, h2⟩
      · exact ⟨fun _ => ⟨_, h2.alive hs⟩, fun _ => ⟨v, (h1.alive hs).trans (by rw [hk])⟩⟩
      · exact absurd hp hp'
      · exact absurd hp' hp
      · rw [h1.alive hs, h2]
        constructor
        · rintro ⟨v, hv⟩; cases hv
        · rintro ⟨v, hv⟩; cases hv
  · have h1 := remnant_get (C := C) hc.pos hc.pp hc.codec hT keys
    cases hg : get cfg s r keys with
    | ok m => exact .inl ⟨m, rfl⟩
    | error e =>
      rw [hg] at h1
      rcases h1 with rfl | rfl | ⟨-, h1⟩ | ⟨h1, -⟩
      · exact absurd hg (noFuel_get C hdec s r keys)
      · exact .inr rfl
      · exact absurd hd.succ h1
      · exact absurd hs h1

/-- C59, for the same roots: whatever list of hashes is presented, if it is accepted for a root then the
value belongs to the version, whatever of the version is still stored.  Missing: as above. -/
theorem C59_proofs_sound_partial (hc : Sane cfg) (h : Events cfg C H L s) {r : Arr N}
    {M : Contents N V} (hr : (r, M) ∈ L) {k : Arr N} {v : V} {p : List (Arr N × Bool)}
    (hcf : ∀ b, cfg.encode v = .ok b →
      CollisionFree cfg.hasher (Among (verifyInputs cfg.hasher k b p ++ H)))
    (hp : verifyInclusionProof cfg.hasher cfg.encode r k v p = .ok ()) : M k = some v := by
  obtain ⟨b, -, -, -, hb, -⟩ := (verify_iff _ _ _ _ _ _).1 hp
  have hcf := hcf b hb
  have hcf0 := hcf.mono (U := Among H) (fun i hi => List.mem_append_right _ hi)
  obtain ⟨T, ⟨hwf, rfl, -, hM⟩, hT⟩ := events_remnant hc.pos hc.pp h hcf0 hr
  obtain ⟨b', -, -, hb', hmem, -⟩ := version_verify (cfg := cfg) hcf hwf
    (fun i hi => List.mem_append_right _ (hT i hi)) (by
      intro b' hb' i hi
      rw [hb] at hb'
      cases hb'
      exact List.mem_append_left _ hi) hp
  obtain ⟨v', h1, h2, -⟩ := hM.decode hwf hc.codec hmem
  rw [hb] at hb'
  cases hb'
  rw [hc.codec v b hb] at h2
  cases h2
  exact h1

/-- In the damaged database: key 2 reads `None` and has no proof, key 0x8000 reads its value and has
one. -/
example : getOne Toy.cfg Toy.d4.2 (Toy.key 24207) (Toy.key 2) = .ok none ∧
    Toy.D2 (Toy.key 2) = some [20] ∧
    (¬ ∃ p, generateInclusionProof Toy.cfg Toy.d4.2 (Toy.key 24207) (Toy.key 2) = .ok p) ∧
    ∃ p, generateInclusionProof Toy.cfg Toy.d4.2 (Toy.key 24207) (Toy.key 0x8000) = .ok p ∧
      verifyInclusionProof Toy.cfg.hasher Toy.cfg.encode (Toy.key 24207) (Toy.key 0x8000) [30] p =
        .ok () := by
  have h1 : getOne Toy.cfg Toy.d4.2 (Toy.key 24207) (Toy.key 2) = .ok none := by decide +kernel
  have h2 : getOne Toy.cfg Toy.d4.2 (Toy.key 24207) (Toy.key 0x8000) = .ok (some [30]) := by
    decide +kernel
  have hr : (Toy.key 24207, Toy.D2) ∈
    [(Toy.key 24207, Toy.D3), (Toy.key 24207, Toy.D2), (Toy.key 59708, Toy.D1)] := by simp
  refine ⟨h1, by decide +kernel, ?_, ?_⟩
  · rw [← (C59_readable_is_provable_partial Toy.sane Toy.room Toy.devents Toy.dfree (Toy.alive _) hr
      (Toy.deep _) _).2.1, h1]
    rintro ⟨v, hv⟩; cases hv
  · obtain ⟨p, hp⟩ := (C59_readable_is_provable_partial Toy.sane Toy.room Toy.devents Toy.dfree (Toy.alive _)
      hr (Toy.deep _) _).2.1.1 ⟨_, h2⟩
    obtain ⟨v, hv, hver⟩ := (C59_lost_data_is_not_wrong_data_partial Toy.sane Toy.devents Toy.dfree
      hr).2.2 _ _ hp
    have : Toy.D2 (Toy.key 0x8000) = some [30] := by decide +kernel
    rw [this] at hv
    cases hv
    exact ⟨p, hp, hver⟩

/-! ## C60 -/

/-- C60: in whatever state the database is, inserting distinct keys on top of nothing succeeds, and
under the returned root they read their values, can be proved, and nothing else reads anything. -/
theorem C60_fresh_insert_always_works (hc : Sane cfg) (hroom : cfg.Room) (h : Calls cfg C H s) (hs : C.alive s)
    {keys : List (Arr N)} {values : List V}
    (hcf : CollisionFree cfg.hasher (Among (hashedBy cfg none keys values s ++ H)))
    (hlen : keys.length = values.length) (hne : keys ≠ []) (hnd : keys.Nodup)
    (henc : ∀ v ∈ values, ∃ b, cfg.encode v = .ok b)
    (hd : HeightBelow (Contents.empty.assign keys values) cfg.depth) :
    ∃ r s', insert cfg none keys values s = (.ok r, s') ∧ C.alive s' ∧
      C.pending s' = View.empty N ∧
      (∀ k v, (k, v) ∈ keys.zip values → getOne cfg s' r k = .ok (some v) ∧
        ∃ p, generateInclusionProof cfg s' r k = .ok p ∧
          verifyInclusionProof cfg.hasher cfg.encode r k v p = .ok ()) ∧
      (∀ k, k ∉ keys → getOne cfg s' r k = .ok none) := by
  have hsub : ∀ i, Among H i → Among (hashedBy cfg none keys values s ++ H) i :=
    fun i hi => List.mem_append_right _ hi
  have hi := (calls_inPlace (C := C) hc.pos hc.pp h (hcf.mono hsub)).mono hsub
  obtain ⟨r, s', hrun, hs', hp, hv⟩ := good_insert_version hc hcf hi hs (C := C) prevTrie_none
    (heightBelow_empty _) (by simp) (by simp) hlen hne hnd henc (fun i hi => List.mem_append_left _ hi)
  refine ⟨r, s', hrun, hs', hp, fun k v hk => ?_, fun k hk => ?_⟩
  · have hM := assign_mem (Contents.empty (N := N) (V := V)) hlen hnd hk
    obtain ⟨p, h1, h2⟩ := version_proof (C := C) hc.pos hd hv hM
    refine ⟨?_, p, (generateInclusionProof_room hroom).trans (h1.alive hs'), h2⟩
    rw [(version_getOne (C := C) hc.pos hc.codec hd hv k).alive hs', hM]
  · rw [(version_getOne (C := C) hc.pos hc.codec hd hv k).alive hs',
      assign_not_mem _ _ hk]
    rfl

/-- C63, for the roots of batches that open what they have to: whatever of a version was lost, inserting its
contents on top of nothing returns its root, under which everything reads its value again.
Missing for the full C63: roots of straddling batches. -/
theorem C63_reinsert_repairs_partial (hc : Sane cfg) (h : Events cfg C H L s) (hs : C.alive s)
    {keys : List (Arr N)} {values : List V}
    (hcf : CollisionFree cfg.hasher (Among (hashedBy cfg none keys values s ++ H)))
    (hlen : keys.length = values.length) (hne : keys ≠ []) (hnd : keys.Nodup)
    (henc : ∀ v ∈ values, ∃ b, cfg.encode v = .ok b)
    {r : Arr N} {M : Contents N V} (hr : (r, M) ∈ L) (hd : HeightBelow M cfg.depth)
    (hM : M = Contents.empty.assign keys values) :
    ∃ s', insert cfg none keys values s = (.ok r, s') ∧ C.alive s' ∧
      ∀ k, getOne cfg s' r k = .ok (M k) := by
  have hsub : ∀ i, Among H i → Among (hashedBy cfg none keys values s ++ H) i :=
    fun i hi => List.mem_append_right _ hi
  have hi := (calls_inPlace (C := C) hc.pos hc.pp h.calls (hcf.mono hsub)).mono hsub
  obtain ⟨r', s', hrun, hs', hp, hv⟩ := good_insert_version hc hcf hi hs (C := C) prevTrie_none
    (heightBelow_empty _) (by simp) (by simp) hlen hne hnd henc (fun i hi => List.mem_append_left _ hi)
  rw [← hM] at hv
  obtain ⟨T, h1, h2, -, h4⟩ := events_records hc.pos hc.pp h (hcf.mono hsub) _ hr
  have hrr : r' = r := by
    obtain ⟨T', h1', h2', -, h4'⟩ := hv
    rw [← show T.loc cfg.hasher = r from h2, ← h2', Represents.unique h1' h1 h4' h4]
  subst hrr
  exact ⟨s', hrun, hs', fun k => (version_getOne (C := C) hc.pos hc.codec hd hv k).alive hs'⟩

/-- The damaged version is repaired. -/
example : ∃ s', insert Toy.cfg none [Toy.key 0x8000, Toy.key 1, Toy.key 2] [[30], [10], [20]]
      Toy.d4.2 = (.ok (Toy.key 24207), s') ∧
    getOne Toy.cfg Toy.d4.2 (Toy.key 24207) (Toy.key 2) = .ok none ∧
    getOne Toy.cfg s' (Toy.key 24207) (Toy.key 2) = .ok (some [20]) := by
  have hM : Toy.D2 = Contents.empty.assign [Toy.key 0x8000, Toy.key 1, Toy.key 2]
      [[30], [10], [20]] := by
    funext k
    by_cases h1 : k ∈ [0x8000, 1, 2].map Toy.key
    · simp only [List.map_cons, List.map_nil, List.mem_cons, List.not_mem_nil, or_false] at h1
      rcases h1 with rfl | rfl | rfl <;> decide +kernel
    · simp only [List.map_cons, List.map_nil, List.mem_cons, List.not_mem_nil, not_or, or_false,
        eq_comm (a := k)] at h1
      simp [Toy.D2, Toy.D1, Contents.assign, Contents.empty, h1]
  obtain ⟨s', h1, -, h2⟩ := C63_reinsert_repairs_partial Toy.sane Toy.devents (Toy.alive _)
    (collisionFree_of_check (by decide +kernel)) rfl (by decide) (by decide) (fun v _ => ⟨v, rfl⟩)
    (r := Toy.key 24207) (by simp) (Toy.deep _) hM
  refine ⟨s', h1, by decide +kernel, ?_⟩
  rw [h2]; decide +kernel

/-! ## C61 -/

/-- C61: no insert, whatever its arguments and its outcome, takes anything away: in whatever state the
database is, what was readable under any root is still readable, and what was provable still provable. -/
theorem C61_inserts_take_nothing_away (hc : Sane cfg) (h : Calls cfg C H s)
    {prev : Option (Arr N)} {keys : List (Arr N)} {values : List V} {res : Res (Arr N)} {s' : σ}
    (hcf : CollisionFree cfg.hasher (Among (hashedBy cfg prev keys values s ++ H)))
    (hrun : insert cfg prev keys values s = (res, s')) (hs' : C.alive s') (r k : Arr N) :
    (∀ v, getOne cfg s r k = .ok (some v) → getOne cfg s' r k = .ok (some v)) ∧
    (∀ p, generateInclusionProof cfg s r k = .ok p → generateInclusionProof cfg s' r k = .ok p) := by
  have hsub : ∀ i, Among H i → Among (hashedBy cfg prev keys values s ++ H) i :=
    fun i hi => List.mem_append_right _ hi
  have hi := (calls_inPlace (C := C) hc.pos hc.pp h (hcf.mono hsub)).mono hsub
  have := insert_placed (C := C) hc.pos hc.pp hcf prev keys values (s := s)
    (fun i hi => List.mem_append_left _ hi) ⟨hi.1, hi.2, View.Ext.refl _⟩
  unfold Ends at this
  rw [hrun] at this
  have hp : Placed C.toG (Among (hashedBy cfg prev keys values s ++ H)) (C.view s) s' := by
    cases res with
    | ok a => exact this.2
    | error e => exact this.2
  have hg := reads_grow hc hcf hi.1 hp.view hp.ext hs' r k
  exact ⟨hg.1, fun p hp => generateInclusionProof_mono hp (hg.2 p)⟩

/-- C61, for an insert during which the process dies. -/
theorem C61_interrupted_inserts_take_nothing_away (hc : Sane cfg) (h : Calls cfg C H s)
    {prev : Option (Arr N)} {keys : List (Arr N)} {values : List V} {e : Err} {s' : σ} {n n' : Nat}
    (hcf : CollisionFree cfg.hasher (Among (hashedBy cfg.crash prev keys values (s, n) ++ H)))
    (hrun : insert cfg.crash prev keys values (s, n) = (.error e, (s', n'))) (hs' : C.alive s')
    (r k : Arr N) :
    (∀ v, getOne cfg s r k = .ok (some v) → getOne cfg s' r k = .ok (some v)) ∧
    (∀ p, generateInclusionProof cfg s r k = .ok p → generateInclusionProof cfg s' r k = .ok p) := by
  have hsub : ∀ i, Among H i → Among (hashedBy cfg.crash prev keys values (s, n) ++ H) i :=
    fun i hi => List.mem_append_right _ hi
  have hi := (calls_inPlace (C := C) hc.pos hc.pp h (hcf.mono hsub)).mono hsub
  have := insert_placed (cfg := cfg.crash) (C := C.crash) hc.pos hc.pp hcf prev keys values
    (s := (s, n)) (v0 := C.view s)
    (fun i hi => List.mem_append_left _ hi) ⟨hi.1, hi.2, View.Ext.refl _⟩
  unfold Ends at this
  rw [hrun] at this
  have hg := reads_grow hc hcf hi.1 this.2.view this.2.ext hs' r k
  exact ⟨hg.1, fun p hp => generateInclusionProof_mono hp (hg.2 p)⟩

/-- In the damaged database, an insert on top of the root that lost key 2 fails; the value of key 0x8000
survives it. -/
example : (insert Toy.cfg (some (Toy.key 24207)) [Toy.key 3] [[40]] Toy.d4.2).1 =
      .error (.exception "Failed to find node in database.") ∧
    getOne Toy.cfg (insert Toy.cfg (some (Toy.key 24207)) [Toy.key 3] [[40]] Toy.d4.2).2
      (Toy.key 24207) (Toy.key 0x8000) = .ok (some [30]) := by
  have h2 : getOne Toy.cfg Toy.d4.2 (Toy.key 24207) (Toy.key 0x8000) = .ok (some [30]) := by
    decide +kernel
  exact ⟨by decide +kernel, (C61_inserts_take_nothing_away Toy.sane Toy.devents.calls
    (collisionFree_of_check (by decide +kernel)) (Prod.eta _).symm (Toy.alive _) _ _).1 _ h2⟩

/-! ## C62 -/

/-- C62, for batches that open what they have to: whatever was done to the database, if every key of a
version still reads its value under the root, then the root can be extended, and the new root reads the
batch and, for the other keys, what the old root reads.
Missing for the full C62: straddling batches, for which it is false (`C02_false`). -/
theorem C62_readable_roots_extend_partial (hc : Sane cfg) (h : Events cfg C H L s) (hs : C.alive s)
    {r : Arr N} {M : Contents N V} (hr : (r, M) ∈ L)
    (hread : ∀ k v, M k = some v → getOne cfg s r k = .ok (some v))
    {keys : List (Arr N)} {values : List V} (hns : Handled cfg M keys)
    (hcf : CollisionFree cfg.hasher (Among (hashedBy cfg (some r) keys values s ++ H)))
    (hlen : keys.length = values.length) (hne : keys ≠ []) (hnd : keys.Nodup)
    (henc : ∀ v ∈ values, ∃ b, cfg.encode v = .ok b)
    (hd : HeightBelow (M.assign keys values) cfg.depth) :
    ∃ r' s', insert cfg (some r) keys values s = (.ok r', s') ∧ C.alive s' ∧
      (∀ k v, (k, v) ∈ keys.zip values → getOne cfg s' r' k = .ok (some v)) ∧
      (∀ k, k ∉ keys → getOne cfg s' r' k = .ok (M k)) ∧
      ∀ k, getOne cfg s' r k = .ok (M k) := by
  have hsub : ∀ i, Among H i → Among (hashedBy cfg (some r) keys values s ++ H) i :=
    fun i hi => List.mem_append_right _ hi
  have hi := (calls_inPlace (C := C) hc.pos hc.pp h.calls (hcf.mono hsub)).mono hsub
  obtain ⟨T, ⟨h1, h2, h3, h4⟩, h5⟩ := events_remnant hc.pos hc.pp h (hcf.mono hsub) hr
  have hst : Stored cfg.hasher (C.view s) T := by
    refine stored_of_paths h1 fun k hk => ?_
    obtain ⟨v, hv⟩ := Option.ne_none_iff_exists'.1 (h4.mem.1 hk)
    exact (getOne_remains hc.pos h1.norm h3 (h2 ▸ hread k v hv)).1
  subst h2
  have hd0 : HeightBelow M cfg.depth := hd.subset (assign_keeps M keys values)
  obtain ⟨r', s', hrun, hs', hp, hv⟩ := good_insert_version hc hcf hi hs (C := C)
    (prevTrie_some h1 (fun i hi => hsub i (h5 i hi)) h4) hd0.succ
    (fun _ => hns)
    (by rintro T' ⟨⟩; exact hst) hlen hne hnd henc (fun i hi => List.mem_append_left _ hi)
  have hv0 : IsVersion cfg (C.view s') (T.loc cfg.hasher) M := by
    have := insert_placed (C := C) hc.pos hc.pp hcf (some (T.loc cfg.hasher)) keys values (s := s)
      (fun i hi => List.mem_append_left _ hi) ⟨hi.1, hi.2, View.Ext.refl _⟩
    unfold Ends at this
    rw [hrun] at this
    exact ⟨T, h1, rfl, hst.mono this.2.ext, h4⟩
  have hr' := fun k => (version_getOne (C := C) hc.pos hc.codec hd hv k).alive hs'
  refine ⟨r', s', hrun, hs', fun k v hk => ?_, fun k hk => ?_,
    fun k => (version_getOne (C := C) hc.pos hc.codec hd0 hv0 k).alive hs'⟩
  · rw [hr', assign_mem _ hlen hnd hk]
  · rw [hr', assign_not_mem _ _ hk]

/-- Before the damage, the root is extended. -/
example : ∃ r' s', insert Toy.cfg (some (Toy.key 24207)) [Toy.key 7] [[70]] Toy.d3.2 = (.ok r', s') ∧
    getOne Toy.cfg s' r' (Toy.key 7) = .ok (some [70]) ∧
    getOne Toy.cfg s' r' (Toy.key 2) = .ok (some [20]) := by
  have hread : ∀ k v, Toy.D2 k = some v →
      getOne Toy.cfg Toy.d3.2 (Toy.key 24207) k = .ok (some v) := by
    intro k v hv
    by_cases h1 : k ∈ [0x8000, 1, 2].map Toy.key
    · simp only [List.map_cons, List.map_nil, List.mem_cons, List.not_mem_nil, or_false] at h1
      rcases h1 with rfl | rfl | rfl
      · have : Toy.D2 (Toy.key 0x8000) = some [30] := by decide +kernel
        rw [this] at hv; cases hv; decide +kernel
      · have : Toy.D2 (Toy.key 1) = some [10] := by decide +kernel
        rw [this] at hv; cases hv; decide +kernel
      · have : Toy.D2 (Toy.key 2) = some [20] := by decide +kernel
        rw [this] at hv; cases hv; decide +kernel
    · exfalso
      simp only [List.map_cons, List.map_nil, List.mem_cons, List.not_mem_nil, not_or, or_false,
        eq_comm (a := k)] at h1
      simp [Toy.D2, Toy.D1, Contents.assign, Contents.empty, h1] at hv
  obtain ⟨r', s', h1, -, h2, h3, -⟩ := C62_readable_roots_extend_partial Toy.sane Toy.devents3
    (Toy.alive _) (r := Toy.key 24207) (by simp) hread (keys := [Toy.key 7]) (values := [[70]])
    (handled_single Toy.sane _) (collisionFree_of_check (by decide +kernel)) rfl (by decide) (by decide)
    (fun v _ => ⟨v, rfl⟩) (Toy.deep _)
  refine ⟨r', s', h1, h2 _ _ (by simp), ?_⟩
  rw [h3 _ (by decide)]; decide +kernel

/-! ## C04 and C05 in such histories -/

/-- C04, with removes, failures and process deaths in the history: versions with the same contents have
the same root, in one database or in two, whatever of them is still stored.
Missing: straddling batches (`C04_false`). -/
theorem C04_root_history_independent_events_partial {σ' : Type} {cfg' : Config N σ' V}
    {C' : DbContract cfg'.db} {H' : List (HIn N)} {L' : Ledger N V} {s' : σ'}
    (hc : Sane cfg) (hc' : Sane cfg') (hhash : cfg'.hasher = cfg.hasher)
    (henc : cfg'.encode = cfg.encode)
    (h : Events cfg C H L s) (hcf : CollisionFree cfg.hasher (Among H))
    (h' : Events cfg' C' H' L' s') (hcf' : CollisionFree cfg'.hasher (Among H'))
    {r r' : Arr N} {M : Contents N V} (hr : (r, M) ∈ L) (hr' : (r', M) ∈ L') : r = r' := by
  obtain ⟨T, hT, rfl, -, hM⟩ := events_records hc.pos hc.pp h hcf _ hr
  obtain ⟨T', hT', rfl, -, hM'⟩ := events_records hc'.pos hc'.pp h' hcf' _ hr'
  have : T = T' := by
    refine Represents.unique (cfg := cfg) hT hT' hM ?_
    intro k
    have := hM' k
    unfold Encodes at this ⊢
    rw [henc] at this
    exact this
  rw [this, hhash]

/-- C05, with removes, failures and process deaths in the history: equal roots stand for equal contents,
in one database or in two.  Missing: straddling batches. -/
theorem C05_root_binds_contents_events_partial {σ' : Type} {cfg' : Config N σ' V}
    {C' : DbContract cfg'.db} {H' : List (HIn N)} {L' : Ledger N V} {s' : σ'}
    (hc : Sane cfg) (hc' : Sane cfg') (hhash : cfg'.hasher = cfg.hasher)
    (hdec : cfg'.decode = cfg.decode)
    (h : Events cfg C H L s) (h' : Events cfg' C' H' L' s')
    (hcf : CollisionFree cfg.hasher (Among (H ++ H')))
    {r : Arr N} {M M' : Contents N V} (hr : (r, M) ∈ L) (hr' : (r, M') ∈ L') : M = M' := by
  have sub1 : ∀ i, Among H i → Among (H ++ H') i := fun _ h => List.mem_append_left _ h
  have sub2 : ∀ i, Among H' i → Among (H ++ H') i := fun _ h => List.mem_append_right _ h
  have hcf' : CollisionFree cfg'.hasher (Among (H ++ H')) := by rw [hhash]; exact hcf
  obtain ⟨T, hT, h2, hi, hM⟩ := events_records hc.pos hc.pp h (hcf.mono sub1) _ hr
  obtain ⟨T', hT', h2', hi', hM'⟩ := events_records hc'.pos hc'.pp h' (hcf'.mono sub2) _ hr'
  rw [hhash] at h2' hi'
  have : T = T' := Trie.eq_of_loc hcf (fun i h => sub1 i (hi i h)) (fun i h => sub2 i (hi' i h))
    (h2.trans h2'.symm)
  subst this
  funext k
  have e1 := readContents hc.codec hT hM k
  have e2 := readContents hc'.codec hT hM' k
  rw [hdec] at e2
  exact e1.symm.trans e2

/-- The two entries of the damaged root. -/
example : Toy.D3 = Toy.D2 :=
  C05_root_binds_contents_events_partial Toy.sane Toy.sane rfl rfl Toy.devents Toy.devents
    (Toy.dfree.mono fun i hi => by simpa [Among] using hi) (r := Toy.key 24207) (by simp) (by simp)

end MerkleBit
