import Verif.Props.ToyHistory
/-!
# C01-C09: what a version reads

Throughout, `Inserts cfg C H R L s` says that `s` is a database state reached by inserts, that `H`
is everything hashed on the way, `R` are the roots returned, and `L` the ledger: the roots whose
contents are known from the calls alone (see `Spec/History.lean`).
-/

namespace MerkleBit
variable {N : Nat} {σ V : Type} {cfg : Config N σ V} {C : DbContract cfg.db}
  {H : List (HIn N)} {R : List (Arr N)} {L : Ledger N V} {s : σ}

/-! ## C01 -/

/-- C01: `insert` without a previous root succeeds on distinct keys; every inserted key reads back its
value (with `get_one`, and with one `get` of all keys), and every other key reads nothing. -/
theorem C01_insert_empty_reads_back (hc : Sane cfg) (h : Inserts cfg C H R L s) (hs : C.alive s)
    {keys : List (Arr N)} {values : List V}
    (hcf : CollisionFree cfg.hasher (Among (hashedBy cfg none keys values s ++ H)))
    (hlen : keys.length = values.length) (hne : keys ≠ []) (hnd : keys.Nodup)
    (henc : ∀ v ∈ values, ∃ b, cfg.encode v = .ok b)
    (hd : HeightBelow (Contents.empty.assign keys values) cfg.depth) :
    ∃ r s', insert cfg none keys values s = (.ok r, s') ∧ C.alive s' ∧
      (∀ k v, (k, v) ∈ keys.zip values → getOne cfg s' r k = .ok (some v)) ∧
      (∀ k, k ∉ keys → getOne cfg s' r k = .ok none) ∧
      ∃ m, get cfg s' r keys = .ok m ∧ ∀ k v, (k, v) ∈ keys.zip values → m.get? k = some (some v) := by
  obtain ⟨r, s', h1, h2, h3⟩ := h.insert_ok hc hs (M := Contents.empty) hcf rfl
    (heightBelow_empty _) (handled_empty _) hlen hne hnd henc
  refine ⟨r, s', h1, h2, ?_, ?_, ?_⟩
  · intro k v hk
    rw [h3.getOne hc h2 hcf (List.mem_cons_self) hd k, assign_mem _ hlen hnd hk]
  · intro k hk
    rw [h3.getOne hc h2 hcf (List.mem_cons_self) hd k, assign_not_mem _ _ hk]
    rfl
  · obtain ⟨m, h4, -, h5⟩ := h3.get_all hc h2 hcf (List.mem_cons_self) hd.succ
      (handled_stored hc (fun k hk => assign_ne_none _ hlen hk))
    refine ⟨m, h4, ?_⟩
    intro k v hk
    rw [h5 k (List.of_mem_zip hk).1, assign_mem _ hlen hnd hk]

/-- The hypotheses of C01 are met, also on a database that already holds other versions. -/
example : ∃ r s', insert Toy.cfg none [Toy.key 9, Toy.key 4] [[1], [2]] Toy.s2 = (.ok r, s') ∧
    getOne Toy.cfg s' r (Toy.key 4) = .ok (some [2]) ∧ getOne Toy.cfg s' r (Toy.key 1) = .ok none := by
  obtain ⟨r, s', h1, -, h2, h3, -⟩ := C01_insert_empty_reads_back Toy.sane Toy.hist2 (Toy.alive _)
    (keys := [Toy.key 9, Toy.key 4]) (values := [[1], [2]])
    (collisionFree_of_check (by decide +kernel)) rfl (by decide) (by decide) (fun v _ => ⟨v, rfl⟩)
    (Toy.deep _)
  exact ⟨r, s', h1, h2 _ _ (by simp), h3 _ (by decide)⟩

/-! ## C02 -/

/-- C02, for batches that open every place where one of their keys belongs: `insert` on top of a version
succeeds, the keys of the batch read their new values, and all other keys read what they read before.
Missing for the full C02: the other batches (`Spec/Opened.lean`), for which it is false (`C02_false`);
they never give the root of the new contents (`C02_insert_exact`). -/
theorem C02_insert_overrides_partial (hc : Sane cfg) (h : Inserts cfg C H R L s) (hs : C.alive s)
    {r0 : Arr N} {M : Contents N V} {keys : List (Arr N)} {values : List V}
    (hcf : CollisionFree cfg.hasher (Among (hashedBy cfg (some r0) keys values s ++ H)))
    (hr : (r0, M) ∈ L) (hns : Handled cfg M keys)
    (hlen : keys.length = values.length) (hne : keys ≠ []) (hnd : keys.Nodup)
    (henc : ∀ v ∈ values, ∃ b, cfg.encode v = .ok b)
    (hd : HeightBelow (M.assign keys values) cfg.depth) :
    ∃ r s', insert cfg (some r0) keys values s = (.ok r, s') ∧ C.alive s' ∧
      (∀ k v, (k, v) ∈ keys.zip values → getOne cfg s' r k = .ok (some v)) ∧
      (∀ k, k ∉ keys → getOne cfg s' r k = getOne cfg s r0 k) := by
  have hcf0 : CollisionFree cfg.hasher (Among H) :=
    hcf.mono (fun i hi => List.mem_append_right _ hi)
  have hd0 : HeightBelow M cfg.depth := hd.subset (assign_keeps M keys values)
  obtain ⟨r, s', h1, h2, h3⟩ := h.insert_ok hc hs hcf (prev := some r0) hr hd0.succ hns hlen hne
    hnd henc
  refine ⟨r, s', h1, h2, ?_, ?_⟩
  · intro k v hk
    rw [h3.getOne hc h2 hcf (List.mem_cons_self) hd k, assign_mem _ hlen hnd hk]
  · intro k hk
    rw [h3.getOne hc h2 hcf (List.mem_cons_self) hd k, assign_not_mem _ _ hk,
      h.getOne hc hs hcf0 hr hd0 k]

/-- C02 for batches in which at most one key is new (in particular for a single pair, and for pure
updates): no proviso. -/
theorem C02_insert_overrides_one_new (hc : Sane cfg) (h : Inserts cfg C H R L s) (hs : C.alive s)
    {r0 : Arr N} {M : Contents N V} {keys : List (Arr N)} {values : List V}
    (hcf : CollisionFree cfg.hasher (Among (hashedBy cfg (some r0) keys values s ++ H)))
    (hr : (r0, M) ∈ L) (hnew : ∀ k ∈ keys, ∀ k' ∈ keys, M k = none → M k' = none → k' = k)
    (hlen : keys.length = values.length) (hne : keys ≠ []) (hnd : keys.Nodup)
    (henc : ∀ v ∈ values, ∃ b, cfg.encode v = .ok b)
    (hd : HeightBelow (M.assign keys values) cfg.depth) :
    ∃ r s', insert cfg (some r0) keys values s = (.ok r, s') ∧ C.alive s' ∧
      (∀ k v, (k, v) ∈ keys.zip values → getOne cfg s' r k = .ok (some v)) ∧
      (∀ k, k ∉ keys → getOne cfg s' r k = getOne cfg s r0 k) :=
  C02_insert_overrides_partial hc h hs hcf hr (handled_of_new hc hnew) hlen hne hnd henc hd

/-- C02 with a proviso on the keys alone (`Clear`, Spec/History.lean). -/
theorem C02_insert_overrides_clear (hc : Sane cfg) (h : Inserts cfg C H R L s) (hs : C.alive s)
    {r0 : Arr N} {M : Contents N V} {keys : List (Arr N)} {values : List V}
    (hcf : CollisionFree cfg.hasher (Among (hashedBy cfg (some r0) keys values s ++ H)))
    (hr : (r0, M) ∈ L) (hclear : Clear M keys)
    (hlen : keys.length = values.length) (hne : keys ≠ []) (hnd : keys.Nodup)
    (henc : ∀ v ∈ values, ∃ b, cfg.encode v = .ok b)
    (hd : HeightBelow (M.assign keys values) cfg.depth) :
    ∃ r s', insert cfg (some r0) keys values s = (.ok r, s') ∧ C.alive s' ∧
      (∀ k v, (k, v) ∈ keys.zip values → getOne cfg s' r k = .ok (some v)) ∧
      (∀ k, k ∉ keys → getOne cfg s' r k = getOne cfg s r0 k) :=
  C02_insert_overrides_partial hc h hs hcf hr (handled_of_clear hc hclear) hlen hne hnd henc hd

/-- C02 for batches of which every new key shares its first byte with at most one stored key. -/
theorem C02_insert_overrides_spread (hc : Sane cfg) (h : Inserts cfg C H R L s) (hs : C.alive s)
    {r0 : Arr N} {M : Contents N V} {keys : List (Arr N)} {values : List V}
    (hcf : CollisionFree cfg.hasher (Among (hashedBy cfg (some r0) keys values s ++ H)))
    (hr : (r0, M) ∈ L) (hspread : Spread M keys)
    (hlen : keys.length = values.length) (hne : keys ≠ []) (hnd : keys.Nodup)
    (henc : ∀ v ∈ values, ∃ b, cfg.encode v = .ok b)
    (hd : HeightBelow (M.assign keys values) cfg.depth) :
    ∃ r s', insert cfg (some r0) keys values s = (.ok r, s') ∧ C.alive s' ∧
      (∀ k v, (k, v) ∈ keys.zip values → getOne cfg s' r k = .ok (some v)) ∧
      (∀ k, k ∉ keys → getOne cfg s' r k = getOne cfg s r0 k) :=
  C02_insert_overrides_clear hc h hs hcf hr (clear_of_spread hspread) hlen hne hnd henc hd

/-- C02 for one-byte keys: no proviso. -/
theorem C02_insert_overrides_byte {cfg : Config 1 σ V} {C : DbContract cfg.db} {H : List (HIn 1)}
    {R : List (Arr 1)} {L : Ledger 1 V} (hc : Sane cfg) (h : Inserts cfg C H R L s) (hs : C.alive s)
    {r0 : Arr 1} {M : Contents 1 V} {keys : List (Arr 1)} {values : List V}
    (hcf : CollisionFree cfg.hasher (Among (hashedBy cfg (some r0) keys values s ++ H)))
    (hr : (r0, M) ∈ L)
    (hlen : keys.length = values.length) (hne : keys ≠ []) (hnd : keys.Nodup)
    (henc : ∀ v ∈ values, ∃ b, cfg.encode v = .ok b)
    (hd : HeightBelow (M.assign keys values) cfg.depth) :
    ∃ r s', insert cfg (some r0) keys values s = (.ok r, s') ∧ C.alive s' ∧
      (∀ k v, (k, v) ∈ keys.zip values → getOne cfg s' r k = .ok (some v)) ∧
      (∀ k, k ∉ keys → getOne cfg s' r k = getOne cfg s r0 k) :=
  C02_insert_overrides_partial hc h hs hcf hr (handled_byte hc) hlen hne hnd henc hd

example : ∃ r s', insert Toy.cfg (some Toy.r1) Toy.ks2 Toy.vs2 Toy.s1 = (.ok r, s') ∧
    getOne Toy.cfg s' r (Toy.key 2) = .ok (some [21]) ∧
    getOne Toy.cfg s' r (Toy.key 1) = .ok (some [10]) ∧
    getOne Toy.cfg s' r (Toy.key 3) = .ok none := by
  obtain ⟨r, s', h1, h2, h3, h4⟩ := C02_insert_overrides_partial Toy.sane Toy.hist1 (Toy.alive _)
    (keys := Toy.ks2) (values := Toy.vs2) Toy.free2 (List.mem_singleton.2 rfl)
    (Toy.noStraddle2.handled Toy.sane) rfl
    (by decide) (by decide) (fun v _ => ⟨v, rfl⟩) (Toy.deep _)
  refine ⟨r, s', h1, h3 _ _ (by decide), ?_, ?_⟩
  · rw [h4 _ (by decide)]; decide +kernel
  · rw [h4 _ (by decide)]; decide +kernel

/-- Three new keys at once, and one that is stored. -/
def Toy.wide : List (Arr 2) := [0x4000, 0x8100, 0x8000, 0xC000].map Toy.key

theorem Toy.wide_spread : Spread Toy.M1 Toy.wide := by
  have hs : ∀ a, Toy.M1 a ≠ none → a ∈ Toy.ks1 := fun a ha => by
    by_contra hc
    exact ha (assign_not_mem _ _ hc)
  have : ∀ k ∈ Toy.wide, Toy.M1 k = none → ∀ a ∈ Toy.ks1, ∀ c ∈ Toy.ks1, 8 ≤ firstDiff k a →
      8 ≤ firstDiff k c → a = c := by decide +kernel
  exact fun k hk hn a c ha hc => this k hk hn a (hs a ha) c (hs c hc)

example : ∃ r s', insert Toy.cfg (some Toy.r1) Toy.wide [[1], [2], [3], [4]] Toy.s1 = (.ok r, s') ∧
    getOne Toy.cfg s' r (Toy.key 0x8100) = .ok (some [2]) ∧
    getOne Toy.cfg s' r (Toy.key 1) = .ok (some [10]) := by
  obtain ⟨r, s', h1, h2, h3, h4⟩ := C02_insert_overrides_spread Toy.sane Toy.hist1 (Toy.alive _)
    (keys := Toy.wide) (values := [[1], [2], [3], [4]]) (collisionFree_of_check (by decide +kernel))
    (List.mem_singleton.2 rfl) Toy.wide_spread rfl
    (by decide) (by decide) (fun v _ => ⟨v, rfl⟩) (Toy.deep _)
  refine ⟨r, s', h1, h3 _ _ (by decide), ?_⟩
  rw [h4 _ (by decide)]; decide +kernel

/-- The history of the counterexample: keys 0x0080, 0x0090, 0x00A0, 0x00C0 with values 1 to 4, then
0x0040, 0x0090, 0x00C0, 0x0100 with values 5 to 8 on top. -/
def Toy.lossBefore : Res (Arr 2) × HashDB 2 := Toy.ins none [0x80, 0x90, 0xA0, 0xC0] [1, 2, 3, 4] Toy.db0
@[inherit_doc Toy.lossBefore]
def Toy.lossAfter : Res (Arr 2) × HashDB 2 :=
  Toy.ins (some (Toy.key 31137)) [0x40, 0x90, 0xC0, 0x100] [5, 6, 7, 8] Toy.lossBefore.2


theorem Toy.lossHist : Inserts Toy.cfg Toy.C
    (hashedBy Toy.cfg none ([0x80, 0x90, 0xA0, 0xC0].map Toy.key) [[1], [2], [3], [4]] Toy.db0 ++ [])
    [Toy.key 31137] [(Toy.key 31137, Contents.empty.assign
      ([0x80, 0x90, 0xA0, 0xC0].map Toy.key) [[1], [2], [3], [4]])] Toy.lossBefore.2 :=
  .good Toy.hist0 (prev := none) rfl (handled_empty _) (outcome (by decide +kernel))

/-- C02 is false: a batch of distinct keys on top of a version, accepted, after which a key outside
the batch has lost its value.  (No hash collision is involved.) -/
theorem C02_false : ∃ (H : List (HIn 2)) (L : Ledger 2 (List UInt8)) (R : List (Arr 2))
    (s s' : HashDB 2) (r0 r : Arr 2) (M : Contents 2 (List UInt8)) (keys : List (Arr 2))
    (values : List (List UInt8)) (k : Arr 2),
    Sane Toy.cfg ∧ Inserts Toy.cfg Toy.C H R L s ∧ (r0, M) ∈ L ∧
    CollisionFree Toy.cfg.hasher (Among (hashedBy Toy.cfg (some r0) keys values s ++ H)) ∧
    keys.length = values.length ∧ keys.Nodup ∧
    insert Toy.cfg (some r0) keys values s = (.ok r, s') ∧
    k ∉ keys ∧ getOne Toy.cfg s r0 k = .ok (some [3]) ∧ getOne Toy.cfg s' r k = .ok none := by
  refine ⟨_, _, _, Toy.lossBefore.2, Toy.lossAfter.2, Toy.key 31137, Toy.key 29102, _,
    [0x40, 0x90, 0xC0, 0x100].map Toy.key, [[5], [6], [7], [8]], Toy.key 0xA0,
    Toy.sane, Toy.lossHist, List.mem_singleton.2 rfl, ?_, rfl, by decide,
    outcome (by decide +kernel), by decide, by decide +kernel, by decide +kernel⟩
  exact collisionFree_of_check (by decide +kernel)

/-- C02 is false in another way: a batch of distinct keys on top of a version that is refused
because of "duplicate keys". -/
theorem C02_false_refused : ∃ (H : List (HIn 2)) (L : Ledger 2 (List UInt8)) (R : List (Arr 2))
    (s s' : HashDB 2) (r0 : Arr 2) (M : Contents 2 (List UInt8)) (keys : List (Arr 2))
    (values : List (List UInt8)),
    Sane Toy.cfg ∧ Inserts Toy.cfg Toy.C H R L s ∧ (r0, M) ∈ L ∧
    CollisionFree Toy.cfg.hasher (Among (hashedBy Toy.cfg (some r0) keys values s ++ H)) ∧
    keys.length = values.length ∧ keys ≠ [] ∧ keys.Nodup ∧
    insert Toy.cfg (some r0) keys values s =
      (.error (.exception "Attempted to insert item with duplicate keys"), s') := by
  refine ⟨_, _, _, (Toy.ins none [0x80, 0xC0] [1, 2] Toy.db0).2, _, Toy.key 35239, _,
    [0x40, 0x80, 0xC0, 0x100].map Toy.key, [[5], [6], [7], [8]],
    Toy.sane, .good Toy.hist0 (prev := none) rfl (handled_empty _)
      (keys := [0x80, 0xC0].map Toy.key) (values := [[1], [2]])
      (r := Toy.key 35239) (outcome (by decide +kernel)), List.mem_singleton.2 rfl, ?_, rfl, by decide,
    by decide, outcome (by decide +kernel)⟩
  exact collisionFree_of_check (by decide +kernel)

/-! ## C03 -/

/-- C03: no insert, whatever its arguments and its outcome, changes what any root returned earlier
reads: `get_one`, `get` and `generate_inclusion_proof` answer as before. -/
theorem C03_old_versions_survive (hc : Sane cfg) (h : Inserts cfg C H R L s)
    {prev : Option (Arr N)} {keys : List (Arr N)} {values : List V} {res : Res (Arr N)} {s' : σ}
    (hcf : CollisionFree cfg.hasher (Among (hashedBy cfg prev keys values s ++ H)))
    (hrun : insert cfg prev keys values s = (res, s'))
    (hs : C.alive s) (hs' : C.alive s') {r : Arr N} (hr : r ∈ R) :
    (∀ k, getOne cfg s' r k = getOne cfg s r k) ∧
    (∀ ks, get cfg s' r ks = get cfg s r ks) ∧
    (∀ k, generateInclusionProof cfg s' r k = generateInclusionProof cfg s r k) := by
  have hcf0 : CollisionFree cfg.hasher (Among H) :=
    hcf.mono (fun i hi => List.mem_append_right _ hi)
  have hsub : ∀ i, Among H i → Among (hashedBy cfg prev keys values s ++ H) i :=
    fun i hi => List.mem_append_right _ hi
  obtain ⟨T, rfl, hn, hst⟩ := h.tree hc hcf0 hr
  have hext : (C.view s).Ext (C.view s') := by
    have := insert_any (C := C) hc.pos hc.pp hcf prev keys values (s := s)
      (fun i hi => List.mem_append_left _ hi) ((h.sound hc hcf0).inv.mono hsub)
    unfold Ends at this
    rw [hrun] at this
    cases res with
    | ok r => exact this.2.2.2.ext
    | error e => exact this.2.ext
  have hst' := hst.mono hext
  refine ⟨fun k => ?_, fun ks => ?_, fun k => ?_⟩
  · rw [(getOne_stored (C := C) hc.pos hn hst k).alive hs,
      (getOne_stored (C := C) hc.pos hn hst' k).alive hs']
  · rw [(get_stored (C := C) hc.pos hc.pp hn hst ks).alive hs,
      (get_stored (C := C) hc.pos hc.pp hn hst' ks).alive hs']
  · apply generateInclusionProof_congr rfl
    rw [(proof_stored (C := C) hc.pos hn hst k).alive hs,
      (proof_stored (C := C) hc.pos hn hst' k).alive hs']

/-- C03, over a whole history: a version of the ledger reads its contents in every later state,
whatever calls were made in between. -/
theorem C03_versions_keep_contents (hc : Sane cfg) (h : Inserts cfg C H R L s) (hs : C.alive s)
    (hcf : CollisionFree cfg.hasher (Among H)) {r : Arr N} {M : Contents N V} (hr : (r, M) ∈ L)
    (hd : HeightBelow M cfg.depth) (k : Arr N) : getOne cfg s r k = .ok (M k) := h.getOne hc hs hcf hr hd k

/-- A refused call (duplicate keys) leaves both versions alone. -/
example : getOne Toy.cfg Toy.s3 Toy.r1 (Toy.key 2) = .ok (some [20]) ∧
    getOne Toy.cfg Toy.s3 Toy.r2 (Toy.key 2) = .ok (some [21]) := by
  have h := fun {r} (hr : r ∈ [Toy.r2, Toy.r1]) => (C03_old_versions_survive Toy.sane Toy.hist2
    Toy.free3 Toy.run3 (Toy.alive _) (Toy.alive _) hr).1 (Toy.key 2)
  rw [h (by simp), h (by simp)]
  decide +kernel

/-! ## C04, C05 -/

/-- C04: versions with the same contents have the same root, whatever calls led to them, also in
different databases.
This covers every version of the ledger, that is, versions not built by a batch that fails to open what it has to; for
those C04 is false (`C04_false`). -/
theorem C04_root_history_independent_partial {σ' : Type} {cfg' : Config N σ' V}
    {C' : DbContract cfg'.db} {H' : List (HIn N)} {R' : List (Arr N)} {L' : Ledger N V} {s' : σ'}
    (hc : Sane cfg) (hc' : Sane cfg') (hhash : cfg'.hasher = cfg.hasher)
    (henc : cfg'.encode = cfg.encode)
    (h : Inserts cfg C H R L s) (hcf : CollisionFree cfg.hasher (Among H))
    (h' : Inserts cfg' C' H' R' L' s') (hcf' : CollisionFree cfg'.hasher (Among H'))
    {r r' : Arr N} {M : Contents N V} (hr : (r, M) ∈ L) (hr' : (r', M) ∈ L') : r = r' := by
  obtain ⟨T, hT, rfl, -, hM⟩ := h.version hc hcf hr
  obtain ⟨T', hT', rfl, -, hM'⟩ := h'.version hc' hcf' hr'
  have : T = T' := by
    refine Represents.unique (cfg := cfg) hT hT' hM ?_
    intro k
    have := hM' k
    unfold Encodes at this ⊢
    rw [henc] at this
    exact this
  rw [this, hhash]

/-- The second version of the concrete history has the root of a fresh tree with its contents,
inserted in one go. -/
example : ∃ s', insert Toy.cfg none [Toy.key 5, Toy.key 1, Toy.key 0x8000, Toy.key 2]
    [[50], [10], [30], [21]] Toy.db0 = (.ok Toy.r2, s') := by
  have hrun : insert Toy.cfg none [Toy.key 5, Toy.key 1, Toy.key 0x8000, Toy.key 2]
    [[50], [10], [30], [21]] Toy.db0 = (.ok (Toy.key 56010), (insert Toy.cfg none
      [Toy.key 5, Toy.key 1, Toy.key 0x8000, Toy.key 2] [[50], [10], [30], [21]] Toy.db0).2) :=
    outcome (by decide +kernel)
  refine ⟨_, hrun.trans (congrArg (fun r => (Except.ok r, _)) (Eq.symm ?_))⟩
  refine C04_root_history_independent_partial Toy.sane Toy.sane rfl rfl Toy.hist2 Toy.free2
    (.good Toy.hist0 (prev := none) rfl (handled_empty _) hrun)
    (collisionFree_of_check (by decide +kernel)) (M := Toy.M2) List.mem_cons_self ?_
  have : Toy.M2 = Contents.empty.assign [Toy.key 5, Toy.key 1, Toy.key 0x8000, Toy.key 2]
    [[50], [10], [30], [21]] := by
    funext k
    simp only [Toy.M2, Toy.M1, Contents.assign, Contents.empty, Toy.ks1, Toy.ks2, Toy.vs1, Toy.vs2,
      List.zip_cons_cons, List.zip_nil_right, List.find?_cons, List.find?_nil]
    by_cases h5 : Toy.key 5 = k
    · simp [h5]
    · by_cases h1 : Toy.key 1 = k
      · subst h1; decide
      · by_cases h8 : Toy.key 0x8000 = k
        · subst h8; decide
        · by_cases h2 : Toy.key 2 = k
          · subst h2; decide
          · simp [h5, h1, h8, h2]
  rw [this]
  exact List.mem_cons_self

/-- C04 is false for straddling batches: the same six assignments, in two batches and in one, both
accepted, end in different roots. -/
theorem C04_false : ∃ (H : List (HIn 2)) (L : Ledger 2 (List UInt8)) (R : List (Arr 2))
    (s s1 s2 : HashDB 2) (r0 r1 r2 : Arr 2) (M : Contents 2 (List UInt8)) (ks ks' : List (Arr 2))
    (vs vs' : List (List UInt8)),
    Sane Toy.cfg ∧ Inserts Toy.cfg Toy.C H R L s ∧ (r0, M) ∈ L ∧
    CollisionFree Toy.cfg.hasher (Among (hashedBy Toy.cfg (some r0) ks vs s ++ H)) ∧
    CollisionFree Toy.cfg.hasher (Among (hashedBy Toy.cfg none ks' vs' Toy.db0)) ∧
    ks.Nodup ∧ ks'.Nodup ∧ M.assign ks vs = Contents.empty.assign ks' vs' ∧
    insert Toy.cfg (some r0) ks vs s = (.ok r1, s1) ∧
    insert Toy.cfg none ks' vs' Toy.db0 = (.ok r2, s2) ∧ r1 ≠ r2 := by
  refine ⟨_, _, _, Toy.lossBefore.2, Toy.lossAfter.2, _, Toy.key 31137, Toy.key 29102, Toy.key 7914, _,
    [0x40, 0x90, 0xC0, 0x100].map Toy.key, [0x40, 0x90, 0xC0, 0x100, 0x80, 0xA0].map Toy.key,
    [[5], [6], [7], [8]], [[5], [6], [7], [8], [1], [3]],
    Toy.sane, Toy.lossHist, List.mem_singleton.2 rfl, ?_, ?_, by decide, by decide, ?_,
    outcome (by decide +kernel), outcome (by decide +kernel), by decide⟩
  · exact collisionFree_of_check (by decide +kernel)
  · exact collisionFree_of_check (by decide +kernel)
  · funext k
    by_cases h1 : k ∈ [0x40, 0x80, 0x90, 0xA0, 0xC0, 0x100].map Toy.key
    · revert k; decide +kernel
    · simp only [List.map_cons, List.map_nil, List.mem_cons, List.not_mem_nil, not_or, or_false,
        eq_comm (a := k)] at h1
      simp [Contents.assign, Contents.empty, h1]

/-- C05: equal roots have equal contents, also across databases, as long as the hasher has no
collision among everything hashed. -/
theorem C05_root_binds_contents {σ' : Type} {cfg' : Config N σ' V}
    {C' : DbContract cfg'.db} {H' : List (HIn N)} {R' : List (Arr N)} {L' : Ledger N V} {s' : σ'}
    (hc : Sane cfg) (hc' : Sane cfg') (hhash : cfg'.hasher = cfg.hasher)
    (henc : cfg'.encode = cfg.encode)
    (h : Inserts cfg C H R L s) (h' : Inserts cfg' C' H' R' L' s')
    (hcf : CollisionFree cfg.hasher (Among (H ++ H')))
    {r : Arr N} {M M' : Contents N V} (hr : (r, M) ∈ L) (hr' : (r, M') ∈ L') : M = M' := by
  have hcf1 : CollisionFree cfg.hasher (Among H) := hcf.mono (fun _ h => List.mem_append_left _ h)
  have hcf2 : CollisionFree cfg'.hasher (Among H') := by
    rw [hhash]; exact hcf.mono (fun _ h => List.mem_append_right _ h)
  obtain ⟨T, hT, hl, hst, hM⟩ := h.version hc hcf1 hr
  obtain ⟨T', hT', hl', hst', hM'⟩ := h'.version hc' hcf2 hr'
  have i1 := (hst.honest hcf1 (h.sound hc hcf1).view).2
  have i2 := (hst'.honest hcf2 (h'.sound hc' hcf2).view).2
  rw [hhash] at i2 hl'
  have : T = T' := Trie.eq_of_loc hcf (fun i hi => List.mem_append_left _ (i1 i hi))
    (fun i hi => List.mem_append_right _ (i2 i hi)) (hl.trans hl'.symm)
  subst this
  funext k
  have e1 := hM k
  have e2 := hM' k
  have hb : T.lookup k = none → M k = none ∧ M' k = none := by
    intro hk
    rw [hk] at e1 e2
    refine ⟨?_, ?_⟩
    · cases hMk : M k with
      | none => rfl
      | some v => rw [hMk] at e1; obtain ⟨b, _, hb⟩ := e1; cases hb
    · cases hMk : M' k with
      | none => rfl
      | some v => rw [hMk] at e2; obtain ⟨b, _, hb⟩ := e2; cases hb
  cases hk : T.lookup k with
  | none => rw [(hb hk).1, (hb hk).2]
  | some b =>
    rw [Trie.lookup_eq_some_iff hT] at hk
    obtain ⟨v, h1, h2, -⟩ := hM.decode hT hc.codec hk
    obtain ⟨v', h3, -, h4⟩ := hM'.decode hT hc'.codec hk
    rw [henc] at h4
    have h5 := hc.codec v' b h4
    rw [h2] at h5
    cases h5
    rw [h1, h3]

/-- The two versions of the concrete history have different contents, hence different roots. -/
example : Toy.r1 ≠ Toy.r2 := by
  intro h
  have := C05_root_binds_contents Toy.sane Toy.sane rfl rfl Toy.hist2 Toy.hist1
    (collisionFree_of_check (by decide +kernel)) (r := Toy.r1) (M := Toy.M2) (M' := Toy.M1)
    (by rw [h]; exact List.mem_cons_self) List.mem_cons_self
  have : Toy.M2 (Toy.key 2) = Toy.M1 (Toy.key 2) := by rw [this]
  exact absurd this (by decide)

/-! ## C06, C07 -/

/-- C06: `get` returns exactly the requested keys, and every value it reports is the stored one. -/
theorem C06_get_sound_partial (hc : Sane cfg) (h : Inserts cfg C H R L s) (hs : C.alive s)
    (hcf : CollisionFree cfg.hasher (Among H)) {r : Arr N} {M : Contents N V} (hr : (r, M) ∈ L)
    (hd : HeightBelow M (cfg.depth + 1)) (keys : List (Arr N)) : ∃ m, get cfg s r keys = .ok m ∧
      (∀ k, (m.get? k).isSome ↔ k ∈ keys) ∧ ∀ k v, m.get? k = some (some v) → M k = some v := by
  obtain ⟨m, h1, h2, h3, -⟩ := h.get hc hs hcf hr hd keys
  refine ⟨m, h1, ?_, ?_⟩
  · intro k
    by_cases hk : k ∈ keys
    · rcases h3 k hk with h | h <;> simp [h, hk]
    · simp [h2 k hk, hk]
  · intro k v hm
    by_cases hk : k ∈ keys
    · rcases h3 k hk with h | h
      · rw [h] at hm; exact Option.some.inj hm
      · rw [h] at hm; cases hm
    · rw [h2 k hk] at hm; cases hm

/-- C07, exactly: a requested key that is stored is found if and only if the request opens its place
(`Finds`); the other answers are right. -/
theorem C07_get_exact (hc : Sane cfg) (h : Inserts cfg C H R L s) (hs : C.alive s)
    (hcf : CollisionFree cfg.hasher (Among H)) {r : Arr N} {M : Contents N V} (hr : (r, M) ∈ L)
    (hd : HeightBelow M (cfg.depth + 1)) (keys : List (Arr N)) :
    ∃ m, get cfg s r keys = .ok m ∧ (∀ k, k ∉ keys → m.get? k = none) ∧
      ∀ k ∈ keys, (Finds cfg M keys k → m.get? k = some (M k)) ∧
        (¬ Finds cfg M keys k → m.get? k = some none) := by
  obtain ⟨m, h1, h2, h3, h4⟩ := h.get hc hs hcf hr hd keys
  refine ⟨m, h1, h2, fun k hk => ⟨fun hf => (h4 k hk).2 (.inr hf), fun hf => ?_⟩⟩
  rcases h3 k hk with h5 | h5
  · rcases (h4 k hk).1 h5 with h6 | h6
    · rw [h5, h6]
    · exact absurd h6 hf
  · exact h5

/-- C07, for requests that open every place where one of their keys belongs: every stored key that is
requested is found.  Missing for the full C07: the other requests, for which it is false
(`C07_false`). -/
theorem C07_get_complete_partial (hc : Sane cfg) (h : Inserts cfg C H R L s) (hs : C.alive s)
    (hcf : CollisionFree cfg.hasher (Among H)) {r : Arr N} {M : Contents N V} (hr : (r, M) ∈ L)
    (hd : HeightBelow M (cfg.depth + 1)) {keys : List (Arr N)} (hns : Handled cfg M keys) :
    ∃ m, get cfg s r keys = .ok m ∧ ∀ k ∈ keys, m.get? k = some (M k) := by
  obtain ⟨m, h1, -, h4⟩ := h.get_all hc hs hcf hr hd hns
  exact ⟨m, h1, h4⟩

/-- C07 for requests in which at most one key is not stored: no proviso. -/
theorem C07_get_complete_one_absent (hc : Sane cfg) (h : Inserts cfg C H R L s) (hs : C.alive s)
    (hcf : CollisionFree cfg.hasher (Among H)) {r : Arr N} {M : Contents N V} (hr : (r, M) ∈ L)
    (hd : HeightBelow M (cfg.depth + 1)) {keys : List (Arr N)}
    (hnew : ∀ k ∈ keys, ∀ k' ∈ keys, M k = none → M k' = none → k' = k) :
    ∃ m, get cfg s r keys = .ok m ∧ ∀ k ∈ keys, m.get? k = some (M k) :=
  C07_get_complete_partial hc h hs hcf hr hd (handled_of_new hc hnew)

/-- C07 with a proviso on the keys alone. -/
theorem C07_get_complete_clear (hc : Sane cfg) (h : Inserts cfg C H R L s) (hs : C.alive s)
    (hcf : CollisionFree cfg.hasher (Among H)) {r : Arr N} {M : Contents N V} (hr : (r, M) ∈ L)
    (hd : HeightBelow M (cfg.depth + 1)) {keys : List (Arr N)} (hclear : Clear M keys) :
    ∃ m, get cfg s r keys = .ok m ∧ ∀ k ∈ keys, m.get? k = some (M k) :=
  C07_get_complete_partial hc h hs hcf hr hd (handled_of_clear hc hclear)

/-- C07 for requests of which every absent key shares its first byte with at most one stored key. -/
theorem C07_get_complete_spread (hc : Sane cfg) (h : Inserts cfg C H R L s) (hs : C.alive s)
    (hcf : CollisionFree cfg.hasher (Among H)) {r : Arr N} {M : Contents N V} (hr : (r, M) ∈ L)
    (hd : HeightBelow M (cfg.depth + 1)) {keys : List (Arr N)} (hspread : Spread M keys) :
    ∃ m, get cfg s r keys = .ok m ∧ ∀ k ∈ keys, m.get? k = some (M k) :=
  C07_get_complete_clear hc h hs hcf hr hd (clear_of_spread hspread)

/-- C07 for one-byte keys: no proviso. -/
theorem C07_get_complete_byte {cfg : Config 1 σ V} {C : DbContract cfg.db} {H : List (HIn 1)}
    {R : List (Arr 1)} {L : Ledger 1 V} (hc : Sane cfg) (h : Inserts cfg C H R L s) (hs : C.alive s)
    (hcf : CollisionFree cfg.hasher (Among H)) {r : Arr 1} {M : Contents 1 V} (hr : (r, M) ∈ L)
    (hd : HeightBelow M (cfg.depth + 1)) (keys : List (Arr 1)) :
    ∃ m, get cfg s r keys = .ok m ∧ ∀ k ∈ keys, m.get? k = some (M k) :=
  C07_get_complete_partial hc h hs hcf hr hd (handled_byte hc)

/-- A request for stored, repeated and absent keys on the second version. -/
example : ∃ m, get Toy.cfg Toy.s2 Toy.r2 [Toy.key 3, Toy.key 2, Toy.key 2, Toy.key 5] = .ok m ∧
    m.get? (Toy.key 2) = some (some [21]) ∧ m.get? (Toy.key 3) = some none ∧
    m.get? (Toy.key 1) = none := by
  obtain ⟨m, h1, h2⟩ := C07_get_complete_one_absent Toy.sane Toy.hist2 (Toy.alive _) Toy.free2
    (M := Toy.M2) List.mem_cons_self (Toy.deep _).succ (keys := [Toy.key 3, Toy.key 2, Toy.key 2, Toy.key 5]) (by
      intro k hk k' hk' e1 e2
      have hd : ∀ k ∈ [Toy.key 3, Toy.key 2, Toy.key 2, Toy.key 5], Toy.M2 k = none →
        k = Toy.key 3 := by decide +kernel
      rw [hd k hk e1, hd k' hk' e2])
  obtain ⟨m', h1', h3, -⟩ := C06_get_sound_partial Toy.sane Toy.hist2 (Toy.alive _) Toy.free2
    (M := Toy.M2) List.mem_cons_self (Toy.deep _).succ [Toy.key 3, Toy.key 2, Toy.key 2, Toy.key 5]
  rw [h1] at h1'
  cases h1'
  refine ⟨m, h1, by rw [h2 _ (by simp)]; decide, by rw [h2 _ (by simp)]; decide, ?_⟩
  have := (h3 (Toy.key 1)).not.2 (by decide)
  simpa using this

/-- C07 is false: under a root that stores 0x0080, a request for 0x0040, 0x0080, 0x00C0 and 0x0100
reports 0x0080 as absent. -/
theorem C07_false : ∃ (H : List (HIn 2)) (R : List (Arr 2)) (L : Ledger 2 (List UInt8))
    (s : HashDB 2) (r : Arr 2) (M : Contents 2 (List UInt8)) (keys : List (Arr 2)) (k : Arr 2),
    Sane Toy.cfg ∧ Inserts Toy.cfg Toy.C H R L s ∧ CollisionFree Toy.cfg.hasher (Among H) ∧
    (r, M) ∈ L ∧ k ∈ keys ∧ M k = some [1] ∧
    (get Toy.cfg s r keys).map (fun m => m.get? k) = .ok (some none) := by
  have hrun : insert Toy.cfg none ([0x80, 0xC0].map Toy.key) [[1], [2]] Toy.db0 =
      (.ok (Toy.key 35239), (Toy.ins none [0x80, 0xC0] [1, 2] Toy.db0).2) :=
    outcome (by decide +kernel)
  exact ⟨_, _, _, _, Toy.key 35239, _, [0x40, 0x80, 0xC0, 0x100].map Toy.key, Toy.key 0x80,
    Toy.sane, .good Toy.hist0 (prev := none) rfl (handled_empty _) hrun,
    collisionFree_of_check (by decide +kernel), List.mem_singleton.2 rfl, by decide, by decide,
    by decide +kernel⟩

/-! ## C08, C09 -/

/-- C08: `get_one` answers exactly the contents of the version. -/
theorem C08_get_one_exact_partial (hc : Sane cfg) (h : Inserts cfg C H R L s) (hs : C.alive s)
    (hcf : CollisionFree cfg.hasher (Among H)) {r : Arr N} {M : Contents N V} (hr : (r, M) ∈ L)
    (hd : HeightBelow M cfg.depth) (k : Arr N) : getOne cfg s r k = .ok (M k) := h.getOne hc hs hcf hr hd k

/-- Present and absent keys in both versions of the concrete history. -/
example : getOne Toy.cfg Toy.s2 Toy.r1 (Toy.key 5) = .ok none ∧
    getOne Toy.cfg Toy.s2 Toy.r2 (Toy.key 5) = .ok (some [50]) := by
  rw [C08_get_one_exact_partial Toy.sane Toy.hist2 (Toy.alive _) Toy.free2 (M := Toy.M1) (by simp) (Toy.deep _),
    C08_get_one_exact_partial Toy.sane Toy.hist2 (Toy.alive _) Toy.free2 (M := Toy.M2) (by simp) (Toy.deep _)]
  decide

/-- C09: a single-key `get` and `get_one` agree. -/
theorem C09_get_agrees_get_one_partial (hc : Sane cfg) (h : Inserts cfg C H R L s) (hs : C.alive s)
    (hcf : CollisionFree cfg.hasher (Among H)) {r : Arr N} {M : Contents N V} (hr : (r, M) ∈ L)
    (hd : HeightBelow M cfg.depth) (k : Arr N) : ∃ m, get cfg s r [k] = .ok m ∧ getOne cfg s r k = .ok (M k) ∧
      m.get? k = some (M k) := by
  obtain ⟨m, h1, h2⟩ := C07_get_complete_partial hc h hs hcf hr hd.succ (keys := [k])
    (handled_single hc k)
  exact ⟨m, h1, h.getOne hc hs hcf hr hd k, h2 k (List.mem_singleton.2 rfl)⟩

/-- C09 for whole requests: whatever `get` reports for a key, `get_one` reports too. -/
theorem C09_get_values_agree_partial (hc : Sane cfg) (h : Inserts cfg C H R L s) (hs : C.alive s)
    (hcf : CollisionFree cfg.hasher (Among H)) {r : Arr N} {M : Contents N V} (hr : (r, M) ∈ L)
    (hd : HeightBelow M cfg.depth) (keys : List (Arr N)) : ∃ m, get cfg s r keys = .ok m ∧
      ∀ k v, m.get? k = some (some v) → getOne cfg s r k = .ok (some v) := by
  obtain ⟨m, h1, -, h2⟩ := C06_get_sound_partial hc h hs hcf hr hd.succ keys
  exact ⟨m, h1, fun k v hm => by rw [h.getOne hc hs hcf hr hd k, h2 k v hm]⟩

/-- Both reads of the concrete history. -/
example : ∃ m, get Toy.cfg Toy.s2 Toy.r2 [Toy.key 5] = .ok m ∧
    getOne Toy.cfg Toy.s2 Toy.r2 (Toy.key 5) = .ok (some [50]) ∧
    m.get? (Toy.key 5) = some (some [50]) :=
  C09_get_agrees_get_one_partial Toy.sane Toy.hist2 (Toy.alive _) Toy.free2 (M := Toy.M2)
    List.mem_cons_self (Toy.deep _) (Toy.key 5)

end MerkleBit
