import Verif.Proof.Trace
import Verif.Props.Damage
import Verif.Props.Lineage
/-!
# C67-C69, and C59 for all returned roots

What holds for all roots, those of straddling batches included, whatever happened to the database.
`Calls` are histories of inserts and removes with any arguments and any outcome, process deaths included;
`Traces` are the same histories with a log of all pairs given to inserts and with the lineages of the
returned roots.
-/

namespace MerkleBit
variable {N : Nat} {σ V : Type} {cfg : Config N σ V} {C : DbContract cfg.db}
  {H : List (HIn N)} {P : List (Arr N × V)} {L : Lineages N V} {s s' : σ}

/-! ## The history of the examples -/

namespace Toy
/-- History E: the version of the second call has lost the keys 1 and 2. -/
def e1s : HashDB 2 := (ins none [1, 2] [1, 2] db0).2
/-- The state after the second call of history E. -/
def e2s : HashDB 2 := (ins (some (key 54938)) [0x4000, 0x8000] [3, 4] e1s).2
/-- The state after the third call of history E, which inserts a stored pair again. -/
def e3s : HashDB 2 := (ins (some (key 21835)) [1] [1] e2s).2
/-- The state after the fourth call of history E, which removes the first root. -/
def e4s : HashDB 2 := (remove Toy.cfg (key 54938) e3s).2
/-- What history E hashed. -/
def eH : List (HIn 2) := hin (some (key 21835)) [1] [1] e2s ++
  (hin (some (key 54938)) [0x4000, 0x8000] [3, 4] e1s ++ (hin none [1, 2] [1, 2] db0 ++ []))
/-- The pairs inserted in history E. -/
def eP : List (Arr 2 × List UInt8) := lin [1] [1] (lin [0x4000, 0x8000] [3, 4] (lin [1, 2] [1, 2] []))
/-- The lineage of the second root of history E. -/
def eℓ : Lineage 2 (List UInt8) := lin [0x4000, 0x8000] [3, 4] (lin [1, 2] [1, 2] [])
/-- The roots of history E. -/
def eL : Lineages 2 (List UInt8) :=
  [(key 21835, lin [1] [1] eℓ), (key 21835, eℓ), (key 54938, lin [1, 2] [1, 2] [])]

theorem traces_ext {H : List (HIn 2)} {P : List (Arr 2 × List UInt8)}
    {L : Lineages 2 (List UInt8)} {s : HashDB 2} (h : Traces Toy.cfg Toy.C H P L s)
    (prev : Option (Arr 2)) (ℓ : Lineage 2 (List UInt8)) (ks : List Nat) (vs : List UInt8) (r : Arr 2)
    (hp : L.Prev prev ℓ) (hr : (ins prev ks vs s).1 = .ok r) :
    Traces Toy.cfg Toy.C (hin prev ks vs s ++ H) (lin ks vs P) ((r, lin ks vs ℓ) :: L)
      (ins prev ks vs s).2 :=
  .extendAt (d := 17) h hp (Prod.ext hr rfl)

theorem eTrace : Traces Toy.cfg Toy.C eH eP eL e4s :=
  .remove (r := key 54938) (res := .ok ())
    (traces_ext (traces_ext (traces_ext (.start rfl rfl) none [] _ _ (key 54938) rfl
        (by decide +kernel)) (some (key 54938)) _ _ _ (key 21835) List.mem_cons_self (by decide +kernel))
      (some (key 21835)) _ _ _ (key 21835) List.mem_cons_self (by decide +kernel))
    (Prod.ext (show (remove Toy.cfg (key 54938) e3s).1 = _ by decide +kernel) rfl)
theorem eFree : CollisionFree Toy.cfg.hasher (Among eH) := collisionFree_of_check (by decide +kernel)
end Toy

/-! ## C67 -/

/-- C67: in whatever state the database is, whatever was given as previous root and whatever batch: if
the insert is accepted, the keys were distinct, nothing is left in the queue, and every pair of the batch
is read under the returned root and can be proved there (with a depth limit for reading above `8 N`, and
for proving one for which there is room). -/
theorem C67_accepted_insert_reads_back (hc : Sane cfg) (hd : 8 * N < cfg.depth)
    (h : Calls cfg C H s) {d : Nat} {prev : Option (Arr N)} {keys : List (Arr N)} {values : List V}
    {r : Arr N}
    (hcf : CollisionFree cfg.hasher (Among (hashedBy (cfg.withDepth d) prev keys values s ++ H)))
    (hrun : insert (cfg.withDepth d) prev keys values s = (.ok r, s')) (hs' : C.alive s') :
    keys.length = values.length ∧ keys.Nodup ∧ C.pending s' = View.empty N ∧
    ∀ k v, (k, v) ∈ keys.zip values → getOne cfg s' r k = .ok (some v) ∧
      (cfg.Room → ∃ p, generateInclusionProof cfg s' r k = .ok p ∧
        verifyInclusionProof cfg.hasher cfg.encode r k v p = .ok ()) := by
  have hsub : ∀ i, Among H i → Among (hashedBy (cfg.withDepth d) prev keys values s ++ H) i :=
    fun i hi => List.mem_append_right _ hi
  have hi := (calls_inPlace (C := C) hc.pos hc.pp h (hcf.mono hsub)).mono hsub
  have := insert_built (cfg := cfg.withDepth d) (C := C) (v0 := C.view s) hc.pos hc.pp hcf prev keys
    values (fun i hi => List.mem_append_left _ hi) ⟨hi.1, hi.2, View.Ext.refl _⟩
  unfold Ends at this
  rw [hrun] at this
  obtain ⟨-, hpl, hpend, hlen, hall, pt, ts, T, rfl, hpt, hp, hasm, rfl, hn, hin, hpaths⟩ := this
  obtain ⟨P, L', htr⟩ := (Calls.insertAt h hrun).data
  have hP : From cfg P T := htr.from hin
  have hst : Remains cfg.hasher (C.view s') T := Honest.remains hcf hpl.view hn hin
  obtain ⟨hnd, -, -, hbatch⟩ := assembled_pairs (cfg := cfg.withDepth d) hlen hall hp hasm
  refine ⟨hlen, hnd, hpend, fun k v hkv => ?_⟩
  obtain ⟨b, hb, n, hn8, hpath⟩ := hbatch _ hkv
  have hread : getOne cfg s' (T.loc cfg.hasher) k = .ok (some v) := by
    rw [(getOne_of_path (C := C) hc.pos hn hst (hpaths k (List.of_mem_zip hkv).1)).alive hs',
      readOne_path hpath 0 (by omega)]
    unfold readOne
    rw [if_neg (by omega), if_neg (by simp), if_neg (by omega), hc.codec v b hb]
  obtain ⟨p, h1, h2⟩ := proof_of_getOne (C := C) hc.pos hc.codec hn hst hP hread
  exact ⟨hread, fun hroom => ⟨p, (generateInclusionProof_room hroom).trans (h2.alive hs'), h1⟩⟩

/-- In history E the root 21835 has lost the keys 1 and 2.  An insert on top of it is accepted, and reads
back. -/
example : getOne Toy.cfg Toy.e4s (Toy.key 21835) (Toy.key 1) = .ok none ∧
    ∃ s', insert Toy.cfg (some (Toy.key 21835)) [Toy.key 0x8000] [[5]] Toy.e4s =
        (.ok (Toy.key 21836), s') ∧
      getOne Toy.cfg s' (Toy.key 21836) (Toy.key 0x8000) = .ok (some [5]) := by
  have hrun : insert Toy.cfg (some (Toy.key 21835)) [Toy.key 0x8000] [[5]] Toy.e4s =
      (.ok (Toy.key 21836), _) := Prod.ext (show (Toy.ins (some (Toy.key 21835)) [0x8000] [5]
        Toy.e4s).1 = _ by decide +kernel) rfl
  exact ⟨by decide +kernel, _, hrun, ((C67_accepted_insert_reads_back Toy.sane (by decide)
    Toy.eTrace.calls (d := 17) (collisionFree_of_check (by decide +kernel)) hrun (Toy.alive _)).2.2.2
      _ _ (by simp)).1⟩

/-! ## C68 -/

/-- C68: whatever was done to the database, and whatever is given as a root: values that are read were
given to an insert together with their keys, and proofs are generated only for such pairs. -/
theorem C68_nothing_read_that_was_not_inserted (hc : Sane cfg) (h : Traces cfg C H P L s)
    (hcf : CollisionFree cfg.hasher (Among H)) (r : Arr N) :
    (∀ k v, getOne cfg s r k = .ok (some v) → (k, v) ∈ P) ∧
    (∀ keys m, get cfg s r keys = .ok m → (∀ k, (m.get? k).isSome ↔ k ∈ keys) ∧
      ∀ k v, m.get? k = some (some v) → (k, v) ∈ P) ∧
    (∀ k p, generateInclusionProof cfg s r k = .ok p → ∃ v, (k, v) ∈ P ∧
      verifyInclusionProof cfg.hasher cfg.encode r k v p = .ok ()) := by
  have hv := (calls_inPlace (C := C) hc.pos hc.pp h.calls hcf).1
  refine ⟨fun k v hk => ?_, fun keys m hm => ?_, fun k p hp => ?_⟩
  · obtain ⟨T, hn, rfl, hi⟩ := tree_of_getOne hv hk
    exact getOne_from hc.pos hc.codec hn (hv.remains hcf hn hi) (h.from hi) hk
  · rcases tree_of_get hv hm with ⟨T, hn, rfl, hi⟩ | hm'
    · exact get_from hc.pos hc.pp hc.codec hn (hv.remains hcf hn hi) (h.from hi) hm
    · refine ⟨fun k => ?_, fun k v hk => ?_⟩
      · rw [hm']; split <;> simp [*]
      · rw [hm'] at hk; split at hk <;> simp at hk
  · have hp := generateInclusionProof_ok hp
    obtain ⟨T, hn, rfl, hi⟩ := tree_of_proof hv hp
    obtain ⟨v, h1, h2, -⟩ := proof_from hc.pos hc.codec hn (hv.remains hcf hn hi) (h.from hi) hp
    exact ⟨v, h1, h2⟩

/-- In history E: what is still read under the damaged root, and any root whatsoever. -/
example : getOne Toy.cfg Toy.e4s (Toy.key 21835) (Toy.key 0x4000) = .ok (some [3]) ∧
    (Toy.key 0x4000, [3]) ∈ Toy.eP ∧
    ∀ r v, getOne Toy.cfg Toy.e4s r (Toy.key 5) ≠ .ok (some v) := by
  have h1 : getOne Toy.cfg Toy.e4s (Toy.key 21835) (Toy.key 0x4000) = .ok (some [3]) := by
    decide +kernel
  refine ⟨h1, (C68_nothing_read_that_was_not_inserted Toy.sane Toy.eTrace Toy.eFree _).1 _ _ h1,
    fun r v hv => ?_⟩
  have := (C68_nothing_read_that_was_not_inserted Toy.sane Toy.eTrace Toy.eFree r).1 _ _ hv
  have hk : Toy.key 5 ∉ Toy.eP.map (·.1) := by decide +kernel
  exact hk (List.mem_map_of_mem (f := (·.1)) this)

/-! ## C69 -/

/-- C69: whatever was done to the database, and whatever is given as a root: `get_one` reads a value for a
key if and only if a proof can be generated for it, and the proof verifies for that value. -/
theorem C69_readable_iff_provable (hc : Sane cfg) (hroom : cfg.Room) (h : Calls cfg C H s)
    (hcf : CollisionFree cfg.hasher (Among H)) (hs : C.alive s) (r k : Arr N) :
    (∀ v, getOne cfg s r k = .ok (some v) → ∃ p, generateInclusionProof cfg s r k = .ok p ∧
      verifyInclusionProof cfg.hasher cfg.encode r k v p = .ok ()) ∧
    (∀ p, generateInclusionProof cfg s r k = .ok p → ∃ v, getOne cfg s r k = .ok (some v) ∧
      verifyInclusionProof cfg.hasher cfg.encode r k v p = .ok ()) := by
  have hv := (calls_inPlace (C := C) hc.pos hc.pp h hcf).1
  obtain ⟨P, L, htr⟩ := h.data
  refine ⟨fun v hk => ?_, fun p hp => ?_⟩
  · obtain ⟨T, hn, rfl, hi⟩ := tree_of_getOne hv hk
    obtain ⟨p, h1, h2⟩ := proof_of_getOne (C := C) hc.pos hc.codec hn (hv.remains hcf hn hi)
      (htr.from hi) hk
    exact ⟨p, (generateInclusionProof_room hroom).trans (h2.alive hs), h1⟩
  · have hp := generateInclusionProof_ok hp
    obtain ⟨T, hn, rfl, hi⟩ := tree_of_proof hv hp
    obtain ⟨v, -, h1, h2⟩ := proof_from hc.pos hc.codec hn (hv.remains hcf hn hi) (htr.from hi) hp
    exact ⟨v, h2.alive hs, h1⟩

/-- In history E: key 0x4000 can be proved under the damaged root, key 1 cannot. -/
example : (∃ p, generateInclusionProof Toy.cfg Toy.e4s (Toy.key 21835) (Toy.key 0x4000) = .ok p ∧
      verifyInclusionProof Toy.cfg.hasher Toy.cfg.encode (Toy.key 21835) (Toy.key 0x4000) [3] p =
        .ok ()) ∧
    ∀ p, generateInclusionProof Toy.cfg Toy.e4s (Toy.key 21835) (Toy.key 1) ≠ .ok p := by
  refine ⟨(C69_readable_iff_provable Toy.sane Toy.room Toy.eTrace.calls Toy.eFree (Toy.alive _) _ _).1 _
    (by decide +kernel), fun p hp => ?_⟩
  obtain ⟨v, h1, -⟩ := (C69_readable_iff_provable Toy.sane Toy.room Toy.eTrace.calls Toy.eFree (Toy.alive _)
    (Toy.key 21835) (Toy.key 1)).2 _ hp
  have h2 : getOne Toy.cfg Toy.e4s (Toy.key 21835) (Toy.key 1) = .ok none := by decide +kernel
  rw [h1] at h2
  cases h2

/-! ## C59 for all returned roots -/

/-- C59 for all returned roots: whatever was lost, values that are read or proved under a root were
inserted for that key on the way to that root. -/
theorem C59_values_were_inserted (hc : Sane cfg) (h : Traces cfg C H P L s)
    (hcf : CollisionFree cfg.hasher (Among H)) {r : Arr N} {ℓ : Lineage N V} (hr : (r, ℓ) ∈ L) :
    (∀ k v, getOne cfg s r k = .ok (some v) → (k, v) ∈ ℓ) ∧
    (∀ keys m, get cfg s r keys = .ok m → (∀ k, (m.get? k).isSome ↔ k ∈ keys) ∧
      ∀ k v, m.get? k = some (some v) → (k, v) ∈ ℓ) ∧
    (∀ k p, generateInclusionProof cfg s r k = .ok p → ∃ v, (k, v) ∈ ℓ ∧
      verifyInclusionProof cfg.hasher cfg.encode r k v p = .ok ()) := by
  have hv := (calls_inPlace (C := C) hc.pos hc.pp h.calls hcf).1
  obtain ⟨T, rfl, hn, hi, hF, -⟩ := traces_recorded hc.pos hc.pp h hcf _ hr
  have hst := hv.remains hcf hn hi
  refine ⟨fun k v hk => getOne_from hc.pos hc.codec hn hst hF hk,
    fun keys m hm => get_from hc.pos hc.pp hc.codec hn hst hF hm, fun k p hp => ?_⟩
  obtain ⟨v, h1, h2, -⟩ := proof_from hc.pos hc.codec hn hst hF (generateInclusionProof_ok hp)
  exact ⟨v, h1, h2⟩

/-- C59 for all returned roots: whatever is accepted by `verify_inclusion_proof` for a root was inserted
on the way to it, whatever was lost since. -/
theorem C59_accepted_were_inserted (hc : Sane cfg) (h : Traces cfg C H P L s) {r : Arr N}
    {ℓ : Lineage N V} (hr : (r, ℓ) ∈ L) {k : Arr N} {v : V} {p : List (Arr N × Bool)}
    (hcf : ∀ b, cfg.encode v = .ok b →
      CollisionFree cfg.hasher (Among (verifyInputs cfg.hasher k b p ++ H)))
    (hp : verifyInclusionProof cfg.hasher cfg.encode r k v p = .ok ()) : (k, v) ∈ ℓ := by
  obtain ⟨b, f0, f1, rest, hb, rfl, h3⟩ := (verify_iff _ _ _ _ _ _).1 hp
  have hcf := hcf b hb
  have hcf0 := hcf.mono (U := Among H) (fun i hi => List.mem_append_right _ hi)
  obtain ⟨T, rfl, hn, hTU, hT, -⟩ := traces_recorded hc.pos hc.pp h hcf0 _ hr
  have hin : ∀ i ∈ verifyInputs cfg.hasher k b ((Trie.dataLoc cfg.hasher k b, f0) ::
      ((Trie.leaf k b).loc cfg.hasher, f1) :: rest),
      Among (verifyInputs cfg.hasher k b ((Trie.dataLoc cfg.hasher k b, f0) ::
      ((Trie.leaf k b).loc cfg.hasher, f1) :: rest) ++ H) i := fun i hi => List.mem_append_left _ hi
  simp only [verifyInputs, List.drop_succ_cons, List.drop_zero] at hin hcf
  have hmem := fold_mem hcf (k := k) (v := b)
    (by intro i hi; simp only [Trie.inputs, List.mem_cons, List.not_mem_nil, or_false] at hi
        rcases hi with rfl | rfl
        · exact hin _ (by simp)
        · exact hin _ (by simp))
    rest (t := T) (fun i hi => List.mem_append_right _ (hTU i hi)) (fun i hi => hin i (by simp [hi])) h3
  obtain ⟨y, h5, h6⟩ := hT _ hmem
  have h7 := hc.codec y b h6
  rw [hc.codec v b hb] at h7
  cases h7
  exact h5

/-- The damaged root of history E, and a root of a straddling batch. -/
example : (Toy.key 0x4000, [3]) ∈ Toy.eℓ ∧
    ∀ v, getOne Toy.cfg Toy.b3s (Toy.key 53289) (Toy.key 168) = .ok (some v) →
      (Toy.key 168, v) ∈ Toy.lin [152] [3] Toy.bℓ2 := by
  obtain ⟨P, hb⟩ := Toy.bHist.traces
  exact ⟨(C59_values_were_inserted Toy.sane Toy.eTrace Toy.eFree (r := Toy.key 21835)
      (by simp [Toy.eL])).1 _ _ (by decide +kernel),
    (C59_values_were_inserted Toy.sane hb Toy.bFree List.mem_cons_self).1 _⟩

/-- A proof made before the damage is still accepted after it. -/
example : ∃ p, verifyInclusionProof Toy.cfg.hasher Toy.cfg.encode (Toy.key 21835) (Toy.key 1) [1] p =
      .ok () ∧ (Toy.key 1, [1]) ∈ Toy.eℓ := by
  have hp : verifyInclusionProof Toy.cfg.hasher Toy.cfg.encode (Toy.key 21835) (Toy.key 1) [1]
      ((generateInclusionProof Toy.cfg Toy.e3s (Toy.key 21835) (Toy.key 1)).toOption.getD []) =
        .ok () := by decide +kernel
  refine ⟨_, hp, C59_accepted_were_inserted Toy.sane Toy.eTrace (r := Toy.key 21835)
    (by simp [Toy.eL]) (fun b hb => ?_) hp⟩
  cases hb
  exact collisionFree_of_check (by decide +kernel)

/-- C59 is false of a root of a straddling batch, even when nothing was lost: `get_one` returns a value
that is not the last one inserted for the key. -/
theorem C59_false : ∃ (H : List (HIn 2)) (P : List (Arr 2 × List UInt8))
    (L : Lineages 2 (List UInt8)) (s : HashDB 2) (r : Arr 2) (ℓ : Lineage 2 (List UInt8)) (k : Arr 2),
    Sane Toy.cfg ∧ Traces Toy.cfg Toy.C H P L s ∧ CollisionFree Toy.cfg.hasher (Among H) ∧
    (r, ℓ) ∈ L ∧ ℓ.contents k = some [2] ∧ getOne Toy.cfg s r k = .ok (some [1]) := by
  obtain ⟨P, hb⟩ := Toy.bHist.traces
  exact ⟨_, P, _, _, _, _, Toy.key 168, Toy.sane, hb, Toy.bFree, List.mem_cons_self, by decide +kernel,
    by decide +kernel⟩

/-- C62 is false of a straddling batch: all keys of the version are read, the insert is accepted, and
under the new root the value of a key that was not in the batch is gone. -/
theorem C62_false : ∃ (H : List (HIn 2)) (P : List (Arr 2 × List UInt8))
    (L : Lineages 2 (List UInt8)) (s s' : HashDB 2) (r r' : Arr 2) (ℓ : Lineage 2 (List UInt8))
    (keys : List (Arr 2)) (values : List (List UInt8)) (k : Arr 2),
    Sane Toy.cfg ∧ Traces Toy.cfg Toy.C H P L s ∧ (r, ℓ) ∈ L ∧
    CollisionFree Toy.cfg.hasher (Among (hashedBy Toy.cfg (some r) keys values s ++ H)) ∧
    (∀ e ∈ ℓ, getOne Toy.cfg s r e.1 = .ok (some e.2)) ∧
    insert Toy.cfg (some r) keys values s = (.ok r', s') ∧
    k ∉ keys ∧ getOne Toy.cfg s r k = .ok (some [3]) ∧ getOne Toy.cfg s' r' k = .ok none :=
  ⟨_, _, _, Toy.a1s, Toy.a2s, Toy.key 35337, Toy.key 26110, _, _, _, Toy.key 356, Toy.sane,
    Toy.traces_ext (.start rfl rfl) none [] [300, 332, 356] [1, 2, 3] (Toy.key 35337) rfl
      (by decide +kernel), List.mem_cons_self,
    (show CollisionFree Toy.cfg.hasher (Among Toy.aH) from Toy.aFree), by decide +kernel,
    Prod.ext (show (Toy.ins (some (Toy.key 35337)) [16, 372, 396] [4, 5, 6] Toy.a1s).1 = _ by
      decide +kernel) rfl, by decide +kernel, by decide +kernel, by decide +kernel⟩

/-- C63 is false of a root of a straddling batch: inserting what it is meant to have gives another root,
and a key it has lost stays lost. -/
theorem C63_false : ∃ (H : List (HIn 2)) (P : List (Arr 2 × List UInt8))
    (L : Lineages 2 (List UInt8)) (s s' : HashDB 2) (r r' : Arr 2) (ℓ : Lineage 2 (List UInt8))
    (keys : List (Arr 2)) (values : List (List UInt8)) (k : Arr 2),
    Sane Toy.cfg ∧ Traces Toy.cfg Toy.C H P L s ∧ (r, ℓ) ∈ L ∧
    CollisionFree Toy.cfg.hasher (Among (hashedBy Toy.cfg none keys values s ++ H)) ∧
    keys.Nodup ∧ (∀ e ∈ ℓ, e ∈ keys.zip values) ∧ (∀ e ∈ keys.zip values, e ∈ ℓ) ∧
    insert Toy.cfg none keys values s = (.ok r', s') ∧ r' ≠ r ∧
    ℓ.contents k = some [3] ∧ getOne Toy.cfg s' r k = .ok none := by
  obtain ⟨P, ha⟩ := Toy.aHist.traces
  exact ⟨_, P, _, Toy.a2s, _, Toy.key 26110, Toy.key 9361, Toy.aℓ,
    [16, 300, 332, 356, 372, 396].map Toy.key, [4, 1, 2, 3, 5, 6].map (fun v => [v]), Toy.key 356,
    Toy.sane, ha, List.mem_cons_self, collisionFree_of_check (by decide +kernel), by decide +kernel,
    by decide +kernel, by decide +kernel,
    Prod.ext (show (Toy.ins none [16, 300, 332, 356, 372, 396] [4, 1, 2, 3, 5, 6] Toy.a2s).1 = _ by
      decide +kernel) rfl, by decide +kernel, by decide +kernel, by decide +kernel⟩

end MerkleBit
