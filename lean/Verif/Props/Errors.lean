import Verif.Proof.Live
import Verif.Proof.Calls
import Verif.Props.Versions
/-!
# C23-C26: depth limits, termination, and which errors a caller has to expect
-/

namespace MerkleBit
variable {N : Nat} {σ V : Type} {cfg : Config N σ V} {C : DbContract cfg.db}
  {H : List (HIn N)} {R : List (Arr N)} {L : Ledger N V} {s : σ}

/-! ## C23 -/

/-- A version of the ledger has a tree of height at most `8 N`. -/
theorem C23_height_partial {r : Arr N} {M : Contents N V} (hN : 0 < N) (hpp : cfg.pp.Lawful)
    (h : Inserts cfg C H R L s) (hcf : CollisionFree cfg.hasher (Among H)) (hr : (r, M) ∈ L) :
    ∃ T : Trie N, T.WF ∧ T.loc cfg.hasher = r ∧ Represents cfg T M ∧ T.height ≤ 8 * N := by
  obtain ⟨T, h1, h2, -, h4⟩ := (inserts_inv hN hpp h hcf).2.1 _ hr
  exact ⟨T, h1, h2, h4, by have := h1.height_le; omega⟩

/-- C23, reads: with a depth limit of at least `8 N + 1`, reads of a version succeed, and the only
error of the proof generation is that the key is absent. -/
theorem C23_reads_within_limit_partial (hc : Sane cfg) (hroom : cfg.Room) (hd : 8 * N < cfg.depth)
    (h : Inserts cfg C H R L s) (hs : C.alive s)
    (hcf : CollisionFree cfg.hasher (Among H)) {r : Arr N} {M : Contents N V} (hr : (r, M) ∈ L) :
    (∀ ks, ∃ m, get cfg s r ks = .ok m) ∧ (∀ k, ∃ v, getOne cfg s r k = .ok v) ∧
      (∀ k, (∃ p, generateInclusionProof cfg s r k = .ok p) ∨
        generateInclusionProof cfg s r k = .error (.exception "Key not found in tree")) := by
  refine ⟨fun ks => ?_, fun k => ⟨_, h.getOne hc hs hcf hr (heightBelow_of_bits M hd) k⟩, fun k => ?_⟩
  · obtain ⟨m, h1, -⟩ := h.get hc hs hcf hr (heightBelow_of_bits M hd).succ ks
    exact ⟨m, h1⟩
  · obtain ⟨T, hwf, rfl, hst, -⟩ := h.version hc hcf hr
    rw [generateInclusionProof_room hroom, (proof_stored (C := C) hc.pos hwf.norm hst k).alive hs]
    cases hp : readProof cfg k T 0 with
    | ok p => exact .inl ⟨p, rfl⟩
    | error e =>
      rcases readProof_err T 0 e hp with ⟨-, h1⟩ | rfl
      · have := hwf.height_le
        omega
      · exact .inr rfl

/-- No insert on top of nothing, or of a version whose tree is at most as high as the limit, fails with
a depth error. -/
theorem C24_insert_up_to_limit (hN : 0 < N) (hpp : cfg.pp.Lawful)
    (h : Inserts cfg C H R L s) (hs : C.alive s)
    {prev : Option (Arr N)} {M : Contents N V} {keys : List (Arr N)} {values : List V}
    (hcf : CollisionFree cfg.hasher (Among (hashedBy cfg prev keys values s ++ H)))
    (hprev : L.Prev prev M) (henc : ∀ v ∈ values, ∃ b, cfg.encode v = .ok b)
    (hh : prev ≠ none → HeightBelow M (cfg.depth + 1)) :
    (insert cfg prev keys values s).1 ≠ .error (.exception "Depth of merkle tree exceeded") := by
  have hsub : ∀ i, Among H i → Among (hashedBy cfg prev keys values s ++ H) i :=
    fun i hi => List.mem_append_right _ hi
  obtain ⟨hso, hL, -⟩ := inserts_inv hN hpp h (hcf.mono hsub)
  obtain ⟨pt, rfl, hpt, -⟩ := (hprev.prevIs hL).trie
  have := insert_live (C := C) hN hpp hcf (s0 := s) (keys := keys) (values := values) (pt := pt)
    (fun i hi => List.mem_append_left _ hi) (hso.inv.mono hsub).sound
    (fun T hT => (hpt T hT).2.1)
  unfold Ends at this
  rcases hrun : insert cfg (pt.map (·.loc cfg.hasher)) keys values s with ⟨res, s'⟩
  rw [hrun] at this
  intro hres
  rw [hrun] at hres
  simp only at hres
  subst hres
  rcases this.1 with ⟨h1, -⟩ | ⟨h1, -⟩
  · rcases h1 with ⟨h1, -⟩ | ⟨h1, -⟩ | h1 | ⟨v, hv, h1⟩ | ⟨-, T, hT, hd⟩
    · simp at h1
    · simp at h1
    · simp at h1
    · obtain ⟨b, hb⟩ := henc v hv
      rw [hb] at h1; cases h1
    · have := (hh (by simp [hT])).height (hpt T hT).1 (hpt T hT).2.2
      omega
  · exact h1 hs

/-- C23, inserts: with a depth limit of at least `8 N + 1`, no insert on top of a version (or of
nothing) fails with a depth error, whatever its arguments. -/
theorem C23_inserts_within_limit_partial (hc : Sane cfg) (hd : 8 * N < cfg.depth)
    (h : Inserts cfg C H R L s) (hs : C.alive s)
    {prev : Option (Arr N)} {M : Contents N V} {keys : List (Arr N)} {values : List V}
    (hcf : CollisionFree cfg.hasher (Among (hashedBy cfg prev keys values s ++ H)))
    (hprev : L.Prev prev M) (henc : ∀ v ∈ values, ∃ b, cfg.encode v = .ok b) :
    (insert cfg prev keys values s).1 ≠ .error (.exception "Depth of merkle tree exceeded") :=
  C24_insert_up_to_limit hc.pos hc.pp h hs hcf hprev henc
    fun _ => (heightBelow_of_bits M hd).succ

/-- The hypotheses are met by the concrete history, and by a call that is refused for another
reason. -/
example : (∀ k, ∃ v, getOne Toy.cfg Toy.s2 Toy.r2 k = .ok v) ∧
    (insert Toy.cfg (some Toy.r2) [Toy.key 7, Toy.key 7] [[1], [2]] Toy.s2).1 ≠
      .error (.exception "Depth of merkle tree exceeded") :=
  ⟨(C23_reads_within_limit_partial Toy.sane Toy.room (by decide) Toy.hist2 (Toy.alive _) Toy.free2 (M := Toy.M2) (by simp)).2.1,
    C23_inserts_within_limit_partial Toy.sane (by decide) Toy.hist2 (Toy.alive _) (M := Toy.M2) Toy.free3
      (by simp [Ledger.Prev]) (fun v _ => ⟨v, rfl⟩)⟩

/-! ## C24 -/

/-- C24, where the calls agree that the limit is respected: on a version whose tree is lower than the
limit, reads and proofs succeed and inserts give no depth error.  Missing for the full C24: trees
exactly as high as the limit, for which it is false (`C24_limit_not_uniform`). -/
theorem C24_below_limit_partial (hN : 0 < N) (hpp : cfg.pp.Lawful) (hrt : RoundTrip cfg)
    (hroom : cfg.Room)
    (h : Inserts cfg C H R L s) (hs : C.alive s) (hcf : CollisionFree cfg.hasher (Among H))
    {r : Arr N} {M : Contents N V} (hr : (r, M) ∈ L)
    (hh : HeightBelow M cfg.depth) :
    (∀ ks, ∃ m, get cfg s r ks = .ok m) ∧ (∀ k, getOne cfg s r k = .ok (M k)) ∧
      (∀ k, (∃ p, generateInclusionProof cfg s r k = .ok p) ∨
        generateInclusionProof cfg s r k = .error (.exception "Key not found in tree")) := by
  obtain ⟨T, hwf, rfl, hst, hM⟩ := (inserts_inv hN hpp h hcf).2.1 _ hr
  dsimp only at hM
  have hlow := hh.height hwf hM
  have hdec : ∀ e ∈ T.entries, ∃ x, cfg.decode e.2 = .ok x := by
    intro e he
    obtain ⟨v, -, h2, -⟩ := hM.decode hwf hrt (k := e.1) (b := e.2) he
    exact ⟨v, h2⟩
  refine ⟨fun ks => ?_, fun k => ?_, fun k => ?_⟩
  · rw [(get_stored (C := C) hN hpp hwf.norm hst ks).alive hs]
    unfold readBatch
    split
    · exact ⟨_, rfl⟩
    · exact readMany_total _ _ _ _ _ hdec (by omega)
  · have := (getOne_stored (C := C) hN hwf.norm hst k).alive hs
    rw [readOne_wf k T 0 hwf (by omega)] at this
    rw [this]
    have h1 := hM k
    cases hl : T.lookup k with
    | none =>
      rw [hl] at h1
      cases hMk : M k with
      | none => rfl
      | some v => rw [hMk] at h1; obtain ⟨b, _, h2⟩ := h1; cases h2
    | some b =>
      obtain ⟨v, h1, h2, _⟩ := hM.decode hwf hrt ((Trie.lookup_eq_some_iff hwf).1 hl)
      simp [h2, h1]
  · rw [generateInclusionProof_room hroom, (proof_stored (C := C) hN hwf.norm hst k).alive hs]
    cases hp : readProof cfg k T 0 with
    | ok p => exact .inl ⟨p, rfl⟩
    | error e =>
      rcases readProof_err T 0 e hp with ⟨-, h1⟩ | rfl
      · omega
      · exact .inr rfl

/-- C24, where the calls agree that the limit is exceeded: a version whose tree is higher than the
limit has a key that neither `get` nor `get_one` reads and for which no proof can be generated. -/
theorem C24_above_limit (hN : 0 < N) (hpp : cfg.pp.Lawful) (hroom : cfg.Room)
    (h : Inserts cfg C H R L s) (hs : C.alive s) (hcf : CollisionFree cfg.hasher (Among H))
    {r : Arr N} {M : Contents N V} (hr : (r, M) ∈ L)
    (hh : ¬ HeightBelow M (cfg.depth + 1)) :
    ∃ k, M k ≠ none ∧
      get cfg s r [k] = .error (.exception "Depth of merkle tree exceeded") ∧
      getOne cfg s r k = .error (.exception "Depth limit exceeded") ∧
      generateInclusionProof cfg s r k = .error (.exception "Depth limit exceeded") := by
  obtain ⟨T, hwf, rfl, hst, hM⟩ := (inserts_inv hN hpp h hcf).2.1 _ hr
  dsimp only at hM
  rw [heightBelow_iff hwf hM] at hh
  obtain ⟨k, hk, hd⟩ := deepest (cfg := cfg) hN hpp T hwf
  obtain ⟨h1, h2⟩ := hd 0
  refine ⟨k, hM.mem.1 hk, ?_, ?_, ?_⟩
  · rw [(get_stored (C := C) hN hpp hwf.norm hst [k]).alive hs]
    exact h2 (by omega) _ _
  · rw [(getOne_stored (C := C) hN hwf.norm hst k).alive hs]
    exact (h1 (by omega)).1
  · rw [generateInclusionProof_room hroom, (proof_stored (C := C) hN hwf.norm hst k).alive hs]
    exact (h1 (by omega)).2

/-- C24 fails for every version whose tree is exactly as high as the limit: `get` returns all of it,
while `get_one` and the proof generation refuse some of its keys. -/
theorem C24_limit_not_uniform (hN : 0 < N) (hpp : cfg.pp.Lawful) (hrt : RoundTrip cfg)
    (hroom : cfg.Room)
    (h : Inserts cfg C H R L s) (hs : C.alive s) (hcf : CollisionFree cfg.hasher (Among H))
    {r : Arr N} {M : Contents N V} (hr : (r, M) ∈ L)
    (hh : HeightBelow M (cfg.depth + 1)) (hh' : ¬ HeightBelow M cfg.depth) :
    (∀ ks, ∃ m, get cfg s r ks = .ok m) ∧ ∃ k, M k ≠ none ∧
      getOne cfg s r k = .error (.exception "Depth limit exceeded") ∧
      generateInclusionProof cfg s r k = .error (.exception "Depth limit exceeded") := by
  obtain ⟨T, hwf, rfl, hst, hM⟩ := (inserts_inv hN hpp h hcf).2.1 _ hr
  dsimp only at hM
  rw [heightBelow_iff hwf hM] at hh hh'
  have hdec : ∀ e ∈ T.entries, ∃ x, cfg.decode e.2 = .ok x := by
    intro e he
    obtain ⟨v, -, h2, -⟩ := hM.decode hwf hrt (k := e.1) (b := e.2) he
    exact ⟨v, h2⟩
  refine ⟨fun ks => ?_, ?_⟩
  · rw [(get_stored (C := C) hN hpp hwf.norm hst ks).alive hs]
    unfold readBatch
    split
    · exact ⟨_, rfl⟩
    · exact readMany_total _ _ _ _ _ hdec (by omega)
  · obtain ⟨k, hk, hd⟩ := deepest (cfg := cfg) hN hpp T hwf
    obtain ⟨h1, -⟩ := hd 0
    refine ⟨k, hM.mem.1 hk, ?_, ?_⟩
    · rw [(getOne_stored (C := C) hN hwf.norm hst k).alive hs]
      exact (h1 (by omega)).1
    · rw [generateInclusionProof_room hroom, (proof_stored (C := C) hN hwf.norm hst k).alive hs]
      exact (h1 (by omega)).2

namespace Toy

/-- The toy tree with a smaller depth limit. -/
def lowCfg (d : Nat) : Config 2 (HashDB 2) (List UInt8) := { Toy.cfg with depth := d }
/-- Its contract. -/
abbrev lowC (d : Nat) : DbContract (lowCfg d).db := hashContract 2

/-- The tree of the first version. -/
def T1 : Trie 2 := .node (.node (.leaf (key 1) [10]) (.leaf (key 2) [20])) (.leaf (key 0x8000) [30])

theorem T1_wf : T1.WF := by
  simp only [T1, Trie.WF]
  decide +kernel

theorem T1_repr (d : Nat) : Represents (lowCfg d) T1 M1 := by
  intro k
  by_cases h1 : key 1 = k
  · subst h1; exact ⟨[10], rfl, by decide +kernel⟩
  by_cases h2 : key 2 = k
  · subst h2; exact ⟨[20], rfl, by decide +kernel⟩
  by_cases h3 : key 0x8000 = k
  · subst h3; exact ⟨[30], rfl, by decide +kernel⟩
  have : M1 k = none := by
    simp [M1, ks1, vs1, Contents.assign, Contents.empty, h1, h2, h3]
  rw [this]
  simp [Encodes, T1, Trie.lookup, Trie.entries, h1, h2, h3]

theorem lowRun1 (d : Nat) : insert (lowCfg d) none ks1 vs1 db0 = (.ok r1, s1) := run1
theorem lowHist1 (d : Nat) : Inserts (lowCfg d) (lowC d) H1 [r1] [(r1, M1)] s1 :=
  .good (.start rfl rfl) (prev := none) rfl (handled_empty _) (lowRun1 d)
theorem lowRoom {d : Nat} (h : d ≤ 100) : (lowCfg d).Room := by
  unfold Config.Room lowCfg isizeMax
  dsimp only
  omega

theorem lowHeight {d : Nat} : HeightBelow M1 d ↔ 2 < d := by
  rw [heightBelow_iff T1_wf (T1_repr d), show T1.height = 2 by decide +kernel]

end Toy

/-- The first version of the concrete history is two branches high: below a limit of 3, at a limit of
2, above a limit of 1. -/
example : (∀ k, getOne (Toy.lowCfg 3) Toy.s1 Toy.r1 k = .ok (Toy.M1 k)) ∧
    (∃ k, getOne (Toy.lowCfg 2) Toy.s1 Toy.r1 k = .error (.exception "Depth limit exceeded")) ∧
    (∃ k, get (Toy.lowCfg 1) Toy.s1 Toy.r1 [k] =
      .error (.exception "Depth of merkle tree exceeded")) := by
  refine ⟨?_, ?_, ?_⟩
  · exact (C24_below_limit_partial (cfg := Toy.lowCfg 3) (by decide) Toy.sane.pp Toy.sane.codec (Toy.lowRoom (by decide)) (Toy.lowHist1 3)
      trivial Toy.free1 (M := Toy.M1) (by simp)
      (Toy.lowHeight.2 (by decide))).2.1
  · obtain ⟨-, k, -, h, -⟩ := C24_limit_not_uniform (cfg := Toy.lowCfg 2) (r := Toy.r1) (by decide) Toy.sane.pp Toy.sane.codec
      (Toy.lowRoom (by decide)) (Toy.lowHist1 2) trivial Toy.free1 (M := Toy.M1) (by simp)
      (Toy.lowHeight.2 (by decide)) (Toy.lowHeight.not.2 (by decide))
    exact ⟨k, h⟩
  · obtain ⟨k, -, h, -⟩ := C24_above_limit (cfg := Toy.lowCfg 1) (r := Toy.r1) (by decide) Toy.sane.pp
      (Toy.lowRoom (by decide)) (Toy.lowHist1 1) trivial Toy.free1 (M := Toy.M1) (by simp)
      (Toy.lowHeight.not.2 (by decide))
    exact ⟨k, h⟩

/-- C24 is false: with a limit of 2, `get` reads the key 0x0001 of the first version and `get_one`
refuses it. -/
theorem C24_false : ∃ (cfg : Config 2 (HashDB 2) (List UInt8)) (C : DbContract cfg.db)
    (H : List (HIn 2)) (R : List (Arr 2)) (L : Ledger 2 (List UInt8)) (s : HashDB 2) (r : Arr 2)
    (M : Contents 2 (List UInt8)) (k : Arr 2),
    Inserts cfg C H R L s ∧ CollisionFree cfg.hasher (Among H) ∧ (r, M) ∈ L ∧
    (get cfg s r [k]).map (fun m => m.get? k) = .ok (some (some [10])) ∧
    getOne cfg s r k = .error (.exception "Depth limit exceeded") :=
  ⟨Toy.lowCfg 2, Toy.lowC 2, _, _, _, _, Toy.r1, Toy.M1, Toy.key 1, Toy.lowHist1 2, Toy.free1,
    by simp, by decide +kernel, by decide +kernel⟩

/-! ## C25 -/

/-- C25: on every database state, whatever it holds (dangling or cyclic references, nodes under wrong
locations, ...), every call terminates: the loops of the model, whose iterations are bounded by
explicit numbers, never run into their bounds. -/
theorem C25_every_call_terminates (C : DbContract cfg.db)
    (henc : ∀ v, cfg.encode v ≠ .error .outOfFuel) (hdec : ∀ b, cfg.decode b ≠ .error .outOfFuel)
    (s : σ) :
    (∀ r ks, get cfg s r ks ≠ .error .outOfFuel) ∧
    (∀ r k, getOne cfg s r k ≠ .error .outOfFuel) ∧
    (∀ r k, generateInclusionProof cfg s r k ≠ .error .outOfFuel) ∧
    (∀ prev ks vs, (insert cfg prev ks vs s).1 ≠ .error .outOfFuel) ∧
    (∀ prev k v, (insertOne cfg prev k v s).1 ≠ .error .outOfFuel) ∧
    (∀ r, (remove cfg r s).1 ≠ .error .outOfFuel) :=
  ⟨noFuel_get C hdec s, noFuel_getOne C hdec s, noFuel_generate C s,
    fun prev ks vs => nf_insert C henc prev ks vs s, fun prev k v => nf_insertOne C henc prev k v s,
    fun r => nf_remove C r s⟩

namespace Toy

/-- A corrupt database: a branch at 0x0007 that points at itself. -/
def cyclic : HashDB 2 := ⟨AMap.empty.insert (key 7) ⟨1, .branch ⟨2, key 7, key 7, 0, key 1⟩⟩⟩

end Toy

/-- A cycle is cut off by the depth limit, and by the reference counts in `remove`. -/
example : (get Toy.cfg Toy.cyclic (Toy.key 7) [Toy.key 1]).map (fun _ => ()) =
      .error (.exception "Depth of merkle tree exceeded") ∧
    getOne Toy.cfg Toy.cyclic (Toy.key 7) (Toy.key 1) =
      .error (.exception "Depth limit exceeded") ∧
    (insert Toy.cfg (some (Toy.key 7)) [Toy.key 1] [[1]] Toy.cyclic).1 =
      .error (.exception "Depth of merkle tree exceeded") ∧
    ∀ r, (remove Toy.cfg r Toy.cyclic).1 ≠ .error .outOfFuel :=
  ⟨by decide +kernel, by decide +kernel, by decide +kernel,
    (C25_every_call_terminates Toy.C (fun _ => by simp [Toy.cfg]) (fun _ => by simp [Toy.cfg])
      Toy.cyclic).2.2.2.2.2⟩

/-! ## C26 -/

/-- C26, inserts: on a reachable database whose calls work, an insert on top of any root that was ever
returned (or of nothing), with any arguments, either succeeds or fails for a reason the caller is
responsible for: unequal lengths, no keys, duplicate keys, a value that does not encode, or the depth
limit.  In particular it neither panics nor reports a corrupt tree. -/
theorem C26_insert_errors (hc : Sane cfg) (h : Inserts cfg C H R L s) (hs : C.alive s)
    {prev : Option (Arr N)} {keys : List (Arr N)} {values : List V}
    (hcf : CollisionFree cfg.hasher (Among (hashedBy cfg prev keys values s ++ H)))
    (hprev : ∀ r, prev = some r → r ∈ R) {e : Err}
    (he : (insert cfg prev keys values s).1 = .error e) : InsertErr cfg keys values True e := by
  have hsub : ∀ i, Among H i → Among (hashedBy cfg prev keys values s ++ H) i :=
    fun i hi => List.mem_append_right _ hi
  obtain ⟨hso, -, hR⟩ := inserts_inv hc.pos hc.pp h (hcf.mono hsub)
  obtain ⟨pt, rfl, hpt⟩ : ∃ pt : Option (Trie N), prev = pt.map (·.loc cfg.hasher) ∧
      ∀ T, pt = some T → Stored cfg.hasher (C.view s) T := by
    cases prev with
    | none => exact ⟨none, rfl, by simp⟩
    | some r =>
      obtain ⟨T, rfl, -, hst⟩ := hR r (hprev r rfl)
      exact ⟨some T, rfl, by rintro _ ⟨⟩; exact hst⟩
  have := insert_live (C := C) hc.pos hc.pp hcf (s0 := s) (keys := keys) (values := values) (pt := pt)
    (fun i hi => List.mem_append_left _ hi) (hso.inv.mono hsub).sound hpt
  unfold Ends at this
  rcases hrun : insert cfg (pt.map (·.loc cfg.hasher)) keys values s with ⟨res, s'⟩
  rw [hrun] at this he
  simp only at he
  subst he
  rcases this.1 with ⟨h1, -⟩ | ⟨h1, -⟩
  · rcases h1 with h1 | h1 | h1 | h1 | ⟨h1, -⟩
    · exact .inl h1
    · exact .inr (.inl h1)
    · exact .inr (.inr (.inl h1))
    · exact .inr (.inr (.inr (.inl h1)))
    · exact .inr (.inr (.inr (.inr ⟨h1, trivial⟩)))
  · exact absurd hs h1

/-- C26, reads: on a reachable database whose calls work, reads under any root that was ever returned
fail only on the depth limit, and the proof generation also when the key is not found.
Missing for the full C26: proofs under depth limits without room for the reservations, which panic
(`C70_no_room_no_proofs`). -/
theorem C26_read_errors_partial (hc : Sane cfg) (h : Inserts cfg C H R L s) (hs : C.alive s)
    (hcf : CollisionFree cfg.hasher (Among H)) {r : Arr N} (hr : r ∈ R) {e : Err} :
    (∀ ks, get cfg s r ks = .error e → e = .exception "Depth of merkle tree exceeded") ∧
    (∀ k, getOne cfg s r k = .error e → e = .exception "Depth limit exceeded") ∧
    (cfg.Room → ∀ k, generateInclusionProof cfg s r k = .error e →
      e = .exception "Depth limit exceeded" ∨ e = .exception "Key not found in tree") := by
  obtain ⟨hso, -, hR⟩ := inserts_inv hc.pos hc.pp h hcf
  obtain ⟨T, rfl, hn, hst⟩ := hR r hr
  have hT := (hst.honest hcf hso.view).2
  refine ⟨fun ks => ?_, fun k => ?_, fun hroom k => ?_⟩
  · rw [(get_stored (C := C) hc.pos hc.pp hn hst ks).alive hs]
    unfold readBatch
    split
    · intro h; cases h
    · intro he
      rcases readMany_err _ _ _ _ _ _ he with ⟨h1, -⟩ | ⟨p, hp, h1⟩
      · exact h1
      · obtain ⟨v, h2, -⟩ := h.decodes hc.codec hT hp
        rw [h2] at h1; cases h1
  · rw [(getOne_stored (C := C) hc.pos hn hst k).alive hs]
    intro he
    rcases readOne_err _ _ _ he with ⟨h1, -⟩ | ⟨p, hp, -, h1⟩
    · exact h1
    · obtain ⟨v, h2, -⟩ := h.decodes hc.codec hT hp
      rw [h2] at h1; cases h1
  · rw [generateInclusionProof_room hroom, (proof_stored (C := C) hc.pos hn hst k).alive hs]
    intro he
    rcases readProof_err _ _ _ he with ⟨h1, -⟩ | h1
    · exact .inl h1
    · exact .inr h1

/-- C26, `remove`: it succeeds on every database state whose calls work, for every root. -/
theorem C26_remove_succeeds (hs : C.alive s) (r : Arr N) :
    ∃ s', remove cfg r s = (.ok (), s') ∧ C.alive s' := remove_alive hs r

/-- C26, verification: for all arguments it succeeds, or reports an invalid or short proof, or that
the value does not encode. -/
theorem C26_verify_errors (root k : Arr N) (v : V) (p : List (Arr N × Bool)) {e : Err}
    (he : verifyInclusionProof cfg.hasher cfg.encode root k v p = .error e) :
    e = .exception "Proof is invalid" ∨ e = .exception "Proof is too short to be valid" ∨
      cfg.encode v = .error e := by
  unfold verifyInclusionProof at he
  split at he
  · dsimp only at he
    split at he
    · rename_i h; cases he; exact .inr (.inr h)
    · split at he
      · cases he; exact .inl rfl
      · split at he
        · cases he; exact .inl rfl
        · split at he
          · cases he; exact .inl rfl
          · cases he
  · cases he; exact .inr (.inl rfl)

/-- The refused third call of the concrete history, and reads under both of its roots. -/
example : InsertErr Toy.cfg [Toy.key 7, Toy.key 7] [[1], [2]] True
      (.exception "Attempted to insert item with duplicate keys") ∧
    (∀ k e, generateInclusionProof Toy.cfg Toy.s3 Toy.r1 k = .error e →
      e = .exception "Depth limit exceeded" ∨ e = .exception "Key not found in tree") :=
  ⟨C26_insert_errors Toy.sane Toy.hist2 (Toy.alive _) (prev := some Toy.r2) Toy.free3
      (by simp) (by rw [Toy.run3]),
    fun k _ => (C26_read_errors_partial Toy.sane Toy.hist3 (Toy.alive _) Toy.free3 (by simp)).2.2 Toy.room k⟩

end MerkleBit
