import Verif.Proof.Calls
import Verif.Props.Versions
/-!
# C10-C14, C22, C34, C41, C42: single calls
-/

namespace MerkleBit
variable {N : Nat} {σ V : Type} {cfg : Config N σ V} {C : DbContract cfg.db}
  {H : List (HIn N)} {R : List (Arr N)} {L : Ledger N V} {s : σ}

/-! ## C10 -/

/-- C10: `insert_one(r, k, v)` is `insert(r, [k], [v])`: same result and same effect on every
database, sound or not. -/
theorem C10_insert_one_is_insert (cfg : Config N σ V) (prev : Option (Arr N)) (k : Arr N) (v : V)
    (s : σ) : insertOne cfg prev k v s = insert cfg prev [k] [v] s := by
  rw [insert_single]

/-- Both update 0x0002 on top of the first version. -/
example : (insertOne Toy.cfg (some Toy.r1) (Toy.key 2) [21] Toy.s1).1 = .ok (Toy.key 24735) ∧
    (insert Toy.cfg (some Toy.r1) [Toy.key 2] [[21]] Toy.s1).1 = .ok (Toy.key 24735) := by
  rw [C10_insert_one_is_insert]
  decide +kernel

/-! ## C11 -/

/-- C11: inserting the pairs of a batch one at a time, in any order, and inserting the batch at
once, on top of a version (or of nothing), both succeed and end in the same root; the batch must
open what it has to (see C02). -/
theorem C11_batching_irrelevant_partial (hc : Sane cfg) (h : Inserts cfg C H R L s)
    (hs : C.alive s) {prev : Option (Arr N)} {M : Contents N V} (hprev : L.Prev prev M)
    {keys : List (Arr N)} {values : List V} (hlen : keys.length = values.length) (hne : keys ≠ [])
    (hnd : keys.Nodup) (henc : ∀ v ∈ values, ∃ b, cfg.encode v = .ok b)
    (hns : Handled cfg M keys) {pairs : List (Arr N × V)}
    (hd : HeightBelow (M.assign keys values) (cfg.depth + 1))
    (hperm : pairs.Perm (keys.zip values))
    (hcf1 : CollisionFree cfg.hasher (Among (hashedBy cfg prev keys values s ++ H)))
    (hcf2 : CollisionFree cfg.hasher (Among (hashedByEach cfg prev pairs s ++ H))) :
    ∃ r s1 s2, insert cfg prev keys values s = (.ok r, s1) ∧
      insertEach cfg prev pairs s = (.ok (some r), s2) := by
  obtain ⟨r, s1, hrun, -, h1⟩ := h.insert_ok hc hs hcf1 hprev
    (hd.subset (assign_keeps M keys values)) hns hlen hne hnd henc
  obtain ⟨last, s2, R', L', hrun2, -, h2, hl⟩ := Inserts.each hc h hs hprev
    (by rw [foldl_assign_eq M hlen hnd hperm]; exact hd) (by
    intro e he
    exact henc e.2 (List.of_mem_zip (hperm.mem_iff.1 he)).2) hcf2
  rw [foldl_assign_eq M hlen hnd hperm] at hl
  cases last with
  | none =>
    exfalso
    obtain ⟨k, hk⟩ := List.exists_mem_of_ne_nil _ hne
    have : M.assign keys values k = none := by rw [show M.assign keys values = _ from hl]; rfl
    exact assign_ne_none M hlen hk this
  | some r2 =>
    have : r = r2 := C04_root_history_independent_partial hc hc rfl rfl h1 hcf1 h2 hcf2
      List.mem_cons_self hl
    subst this
    exact ⟨r, s1, s2, hrun, hrun2⟩

/-- C11 on top of nothing: no proviso. -/
theorem C11_batching_irrelevant_fresh (hc : Sane cfg) (h : Inserts cfg C H R L s)
    (hs : C.alive s) {keys : List (Arr N)} {values : List V} (hlen : keys.length = values.length)
    (hne : keys ≠ []) (hnd : keys.Nodup) (henc : ∀ v ∈ values, ∃ b, cfg.encode v = .ok b)
    (hd : HeightBelow (Contents.empty.assign keys values) (cfg.depth + 1))
    {pairs : List (Arr N × V)} (hperm : pairs.Perm (keys.zip values))
    (hcf1 : CollisionFree cfg.hasher (Among (hashedBy cfg none keys values s ++ H)))
    (hcf2 : CollisionFree cfg.hasher (Among (hashedByEach cfg none pairs s ++ H))) :
    ∃ r s1 s2, insert cfg none keys values s = (.ok r, s1) ∧
      insertEach cfg none pairs s = (.ok (some r), s2) :=
  C11_batching_irrelevant_partial hc h hs (prev := none) (M := Contents.empty) rfl hlen hne hnd henc
    (handled_empty keys) hd hperm hcf1 hcf2

/-- The update of the concrete history, in two steps, in the other order. -/
example : ∃ r s1 s2, insert Toy.cfg (some Toy.r1) Toy.ks2 Toy.vs2 Toy.s1 = (.ok r, s1) ∧
    insertEach Toy.cfg (some Toy.r1) [(Toy.key 2, [21]), (Toy.key 5, [50])] Toy.s1 =
      (.ok (some r), s2) :=
  C11_batching_irrelevant_partial Toy.sane Toy.hist1 (Toy.alive _) (M := Toy.M1) (prev := some Toy.r1)
    (by simp [Ledger.Prev]) rfl (by decide) (by decide) (fun v _ => ⟨v, rfl⟩) (Toy.noStraddle2.handled Toy.sane)
    (Toy.deep _).succ (List.Perm.swap _ _ _) Toy.free2 (collisionFree_of_check (by decide +kernel))

/-- C11 is false for straddling batches: one at a time all is well, at once the batch is refused. -/
theorem C11_false : ∃ (H : List (HIn 2)) (R : List (Arr 2)) (L : Ledger 2 (List UInt8))
    (s s1 s2 : HashDB 2) (r0 r : Arr 2) (M : Contents 2 (List UInt8)) (keys : List (Arr 2))
    (values : List (List UInt8)) (e : Err),
    Sane Toy.cfg ∧ Inserts Toy.cfg Toy.C H R L s ∧ (r0, M) ∈ L ∧ keys.Nodup ∧
    CollisionFree Toy.cfg.hasher (Among (hashedByEach Toy.cfg (some r0) (keys.zip values) s ++ H)) ∧
    insert Toy.cfg (some r0) keys values s = (.error e, s1) ∧
    insertEach Toy.cfg (some r0) (keys.zip values) s = (.ok (some r), s2) := by
  have hrun : insert Toy.cfg none ([0x80, 0xC0].map Toy.key) [[1], [2]] Toy.db0 =
      (.ok (Toy.key 35239), (Toy.ins none [0x80, 0xC0] [1, 2] Toy.db0).2) :=
    outcome (by decide +kernel)
  exact ⟨_, _, _, _, _, _, Toy.key 35239, Toy.key 12704, _,
    [0x40, 0x80, 0xC0, 0x100].map Toy.key, [[5], [6], [7], [8]],
    .exception "Attempted to insert item with duplicate keys",
    Toy.sane, .good Toy.hist0 (prev := none) rfl (handled_empty _) hrun, List.mem_singleton.2 rfl,
    by decide, collisionFree_of_check (by decide +kernel), outcome (by decide +kernel),
    outcome (by decide +kernel)⟩

/-! ## C12 -/

/-- C12: keys and values of different lengths, or no keys: an error, and the database state is
untouched. -/
theorem C12_bad_arguments (cfg : Config N σ V) (prev : Option (Arr N)) (keys : List (Arr N))
    (values : List V) (h : keys.length ≠ values.length ∨ keys = []) (s : σ) :
    ∃ msg, insert cfg prev keys values s = (.error (.exception msg), s) := by
  unfold insert
  split
  · exact ⟨_, rfl⟩
  · next hl =>
    rcases h with h | rfl
    · exact absurd h hl
    · exact ⟨_, rfl⟩

example : [Toy.key 1].length ≠ ([[1], [2]] : List (List UInt8)).length ∨ [Toy.key 1] = [] := by decide

/-! ## C13 -/

/-- C13: a batch with a repeated key is never accepted, on any database. -/
theorem C13_duplicates_rejected (hN : 0 < N) (cfg : Config N σ V) (prev : Option (Arr N))
    (keys : List (Arr N)) (values : List V) (h : ¬ keys.Nodup) (s : σ) :
    ∃ e, (insert cfg prev keys values s).1 = .error e :=
  error_of_not_ok (fun _ _ => insert_dup hN cfg h)

/-- C13: and what roots returned earlier read is unchanged. -/
theorem C13_duplicates_harmless (hc : Sane cfg) (h : Inserts cfg C H R L s)
    {prev : Option (Arr N)} {keys : List (Arr N)} {values : List V} (hdup : ¬ keys.Nodup)
    (hcf : CollisionFree cfg.hasher (Among (hashedBy cfg prev keys values s ++ H)))
    (hs : C.alive s) (hs' : C.alive (insert cfg prev keys values s).2) :
    ∃ e s', insert cfg prev keys values s = (.error e, s') ∧
      ∀ r ∈ R, ∀ k, getOne cfg s' r k = getOne cfg s r k := by
  obtain ⟨e, he⟩ := C13_duplicates_rejected hc.pos cfg prev keys values hdup s
  exact ⟨e, _, Prod.ext he rfl, fun r hr => (C03_old_versions_survive hc h hcf rfl hs hs' hr).1⟩

/-- The third call of the concrete history. -/
example : ¬ [Toy.key 7, Toy.key 7].Nodup ∧ CollisionFree Toy.cfg.hasher (Among Toy.H3) :=
  ⟨by decide, Toy.free3⟩

/-! ## C14 -/

/-- C14: a previous root that is not in the database is rejected, unless it is the location of
a leaf that the call itself writes.
Missing for the full C14: that case, in which it is false (`C14_false`). -/
theorem C14_unknown_root_rejected_partial (C : DbContract cfg.db) (keys : List (Arr N))
    (values : List V) {r : Arr N} (hr : C.view s r = none)
    (hleaf : ∀ e ∈ encodedPairs cfg keys values, (Trie.leaf e.1 e.2).loc cfg.hasher ≠ r) :
    ∃ e, (insert cfg (some r) keys values s).1 = .error e :=
  error_of_not_ok (fun _ _ => insert_unknown C (by rw [hr]; intro n h; cases h) hleaf)

/-- C14: and what roots returned earlier read is unchanged. -/
theorem C14_unknown_root_harmless_partial (hc : Sane cfg) (h : Inserts cfg C H R L s)
    {keys : List (Arr N)} {values : List V} {r : Arr N} (hr : C.view s r = none)
    (hleaf : ∀ e ∈ encodedPairs cfg keys values, (Trie.leaf e.1 e.2).loc cfg.hasher ≠ r)
    (hcf : CollisionFree cfg.hasher (Among (hashedBy cfg (some r) keys values s ++ H)))
    (hs : C.alive s) (hs' : C.alive (insert cfg (some r) keys values s).2) :
    ∃ e s', insert cfg (some r) keys values s = (.error e, s') ∧
      ∀ r ∈ R, ∀ k, getOne cfg s' r k = getOne cfg s r k := by
  obtain ⟨e, he⟩ := C14_unknown_root_rejected_partial C keys values hr hleaf
  exact ⟨e, _, Prod.ext he rfl, fun r hr => (C03_old_versions_survive hc h hcf rfl hs hs' hr).1⟩

/-- A root that was never returned, in the concrete history. -/
example : Toy.C.view Toy.s2 (Toy.key 99) = none ∧
    (∀ e ∈ encodedPairs Toy.cfg Toy.ks2 Toy.vs2, (Trie.leaf e.1 e.2).loc Toy.cfg.hasher ≠ Toy.key 99) ∧
    CollisionFree Toy.cfg.hasher
      (Among (hashedBy Toy.cfg (some (Toy.key 99)) Toy.ks2 Toy.vs2 Toy.s2 ++ Toy.H2)) :=
  ⟨by decide +kernel, by decide +kernel, collisionFree_of_check (by decide +kernel)⟩

/-- C14 is false for the in-memory database: on an empty database, a call whose previous root is
the location of the leaf it is about to write succeeds. -/
theorem C14_false : ∃ (r r' : Arr 2) (s' : HashDB 2) (k : Arr 2) (v : List UInt8),
    Toy.C.view Toy.db0 r = none ∧ insert Toy.cfg (some r) [k] [v] Toy.db0 = (.ok r', s') :=
  ⟨Toy.key 24929, Toy.key 24929, _, Toy.key 1, [10], rfl, outcome (by decide +kernel)⟩

/-! ## C22 -/

/-- C22: removing a root that is not in the database succeeds; all it does is confirm writes that
were still queued, if any. -/
theorem C22_remove_unknown (C : DbContract cfg.db) {r : Arr N} (hs : C.alive s)
    (hr : C.view s r = none) : ∃ s', remove cfg r s = (.ok (), s') ∧ C.alive s' ∧
      C.view s' = C.settled s ∧ C.pending s' = View.empty N := by
  have hfuel : removeFuel N = 2 * 256 ^ N + 1 := rfl
  have hloop : removeLoop cfg (removeFuel N) [r] s = (.ok (), s) := by
    rw [hfuel, removeLoop]
    simp only [M.bind_eq]
    unfold M.bind dbGet M.read
    cases hg : cfg.db.getNode s r with
    | error e => exact absurd hs (C.getNode_err hg).1
    | ok o =>
      have := C.getNode_ok hg
      rw [hr] at this
      subst this
      simp only [hg]
      simp [removeLoop, M.pure]
  unfold remove
  simp only [M.bind_eq]
  unfold M.bind
  rw [hloop]
  dsimp only
  rcases hb : cfg.db.batchWrite s with ⟨res, s'⟩
  cases res with
  | error e => exact absurd hs (C.batchWrite_err hb).1
  | ok u =>
    have := C.batchWrite_ok hb
    exact ⟨s', rfl, this.1 hs, this.2⟩

/-- C22 when nothing is queued, as after every successful insert: nothing changes. -/
theorem C22_remove_unknown_noop (C : DbContract cfg.db) {r : Arr N} (hs : C.alive s)
    (hr : C.view s r = none) (hp : C.pending s = View.empty N) :
    ∃ s', remove cfg r s = (.ok (), s') ∧ C.view s' = C.view s ∧ C.pending s' = View.empty N := by
  obtain ⟨s', h1, -, h2, h3⟩ := C22_remove_unknown C hs hr
  refine ⟨s', h1, ?_, h3⟩
  rw [h2]
  unfold DbContract.settled
  rw [hp]
  funext x
  simp [View.overlay, View.empty]

/-- C22 for the in-memory database: the state is literally the same. -/
theorem C22_remove_unknown_hashdb {V : Type} (cfg : Config N (HashDB N) V)
    (hdb : cfg.db = hashDatabase N) (r : Arr N) (s : HashDB N) (hr : s.map.get? r = none) :
    remove cfg r s = (.ok (), s) := by
  have hfuel : removeFuel N = 2 * 256 ^ N + 1 := rfl
  unfold remove
  rw [hfuel, removeLoop]
  simp only [M.bind_eq]
  unfold M.bind dbGet M.read
  rw [hdb]
  simp [hashDatabase, hr, removeLoop, M.pure]

example : Toy.C.view Toy.s2 (Toy.key 99) = none ∧ Toy.C.alive Toy.s2 ∧
    Toy.s2.map.get? (Toy.key 99) = none := ⟨by decide +kernel, trivial, by decide +kernel⟩

/-! ## C34 -/

/-- C34: permuting the pairs of a batch of distinct keys changes neither the result of `insert` nor
its effect, on any database. -/
theorem C34_insert_order_irrelevant (cfg : Config N σ V) (prev : Option (Arr N))
    {keys keys' : List (Arr N)} {values values' : List V} (hlen : keys.length = values.length)
    (hlen' : keys'.length = values'.length) (hnd : keys.Nodup)
    (hperm : (keys.zip values).Perm (keys'.zip values')) (s : σ) :
    insert cfg prev keys values s = insert cfg prev keys' values' s := by
  have hk : keys.Perm keys' := by
    have := hperm.map (·.1)
    rwa [zip_keys hlen, zip_keys hlen'] at this
  have hl : keys.length = keys'.length := hk.length_eq
  have hvm : ∀ k, (valueMap keys values).get? k = (valueMap keys' values').get? k := by
    intro k
    rw [valueMap_nodup hlen hnd, valueMap_nodup hlen' (hk.nodup_iff.1 hnd)]
    cases hf : (keys.zip values).find? (fun e => e.1 = k) with
    | none =>
      rw [List.find?_eq_none] at hf
      cases hf' : (keys'.zip values').find? (fun e => e.1 = k) with
      | none => rfl
      | some e =>
        exact absurd (List.find?_some hf') (hf e (hperm.mem_iff.2 (List.mem_of_find?_eq_some hf')))
    | some e =>
      have he := List.find?_some hf
      simp only [decide_eq_true_eq] at he
      have hm := List.mem_of_find?_eq_some hf
      cases hf' : (keys'.zip values').find? (fun e => e.1 = k) with
      | none =>
        rw [List.find?_eq_none] at hf'
        exact absurd (by simpa using he) (hf' e (hperm.mem_iff.1 hm))
      | some e' =>
        have he' := List.find?_some hf'
        simp only [decide_eq_true_eq] at he'
        have hm' := hperm.mem_iff.2 (List.mem_of_find?_eq_some hf')
        have hnd' : ((keys.zip values).map (·.1)).Nodup := by rw [zip_keys hlen]; exact hnd
        have := List.inj_on_of_nodup_map hnd' hm hm' (he.trans he'.symm)
        rw [this]
  have hemp : keys.isEmpty = keys'.isEmpty := by
    rw [Bool.eq_iff_iff, List.isEmpty_iff_length_eq_zero, List.isEmpty_iff_length_eq_zero, hl]
  have hemp' : values.isEmpty = values'.isEmpty := by
    rw [Bool.eq_iff_iff, List.isEmpty_iff_length_eq_zero, List.isEmpty_iff_length_eq_zero,
      ← hlen, ← hlen', hl]
  have hle : (keys.length ≠ values.length) = (keys'.length ≠ values'.length) := by
    simp [hlen, hlen']
  unfold insert
  simp only [hemp, hemp', sortKeys_perm_eq hk, insertLeaves_congr cfg hvm, hle]

/-- C34: permuting the keys given to `get` gives the same answers (or the same error), on any
database. -/
theorem C34_get_order_irrelevant (cfg : Config N σ V) (s : σ) (r : Arr N)
    {keys keys' : List (Arr N)} (hperm : keys.Perm keys') :
    (∃ m m', get cfg s r keys = .ok m ∧ get cfg s r keys' = .ok m' ∧ ∀ k, m.get? k = m'.get? k) ∨
    (∃ e, get cfg s r keys = .error e ∧ get cfg s r keys' = .error e) := by
  have hemp : keys.isEmpty = keys'.isEmpty := by
    rw [Bool.eq_iff_iff, List.isEmpty_iff_length_eq_zero, List.isEmpty_iff_length_eq_zero,
      hperm.length_eq]
  have hm : ∀ k, (generateLeafMap (ν := V) keys).get? k = (generateLeafMap keys').get? k := by
    intro k
    rw [generateLeafMap_get, generateLeafMap_get]
    simp only [hperm.mem_iff]
  unfold get
  rw [hemp, sortKeys_perm_eq hperm, hperm.length_eq]
  split
  · exact .inl ⟨_, _, rfl, rfl, fun _ => rfl⟩
  · dsimp only
    split
    · exact .inr ⟨_, rfl, rfl⟩
    · exact .inl ⟨_, _, rfl, rfl, hm⟩
    · exact getLoop_congr cfg s _ _ _ _ _ hm

example : ([Toy.key 5, Toy.key 2].zip [[50], [21]] : List (Arr 2 × List UInt8)).Perm
    ([Toy.key 2, Toy.key 5].zip [[21], [50]]) ∧ [Toy.key 5, Toy.key 2].Nodup :=
  ⟨List.Perm.swap _ _ _, by decide⟩

/-! ## C41 -/

/-- C41: inserting pairs that are stored already, with the same values, returns the same root. -/
theorem C41_reinsert_same_root_partial (hc : Sane cfg) (h : Inserts cfg C H R L s) (hs : C.alive s)
    {r : Arr N} {M : Contents N V} (hr : (r, M) ∈ L)
    (hd : HeightBelow M (cfg.depth + 1)) {keys : List (Arr N)} {values : List V}
    (hlen : keys.length = values.length) (hne : keys ≠ []) (hnd : keys.Nodup)
    (hst : ∀ e ∈ keys.zip values, M e.1 = some e.2)
    (hcf : CollisionFree cfg.hasher (Among (hashedBy cfg (some r) keys values s ++ H))) :
    ∃ s', insert cfg (some r) keys values s = (.ok r, s') := by
  have hcf0 := hcf.mono (U := Among H) (fun i hi => List.mem_append_right _ hi)
  have hkeys : ∀ k ∈ keys, M k ≠ none := by
    intro k hk
    rw [← zip_keys hlen] at hk
    obtain ⟨e, he, rfl⟩ := List.mem_map.1 hk
    rw [hst e he]; simp
  obtain ⟨T, -, -, -, hM⟩ := h.version hc hcf0 hr
  have henc : ∀ v ∈ values, ∃ b, cfg.encode v = .ok b := by
    intro v hv
    have hz : (keys.zip values).map (·.2) = values := List.map_snd_zip (by omega)
    rw [← hz] at hv
    obtain ⟨e, he, rfl⟩ := List.mem_map.1 hv
    have := hM e.1
    rw [hst e he] at this
    exact ⟨_, this.choose_spec.1⟩
  obtain ⟨r', s', hrun, -, h'⟩ := h.insert_ok hc hs hcf (M := M) hr hd (handled_stored hc hkeys) hlen
    hne hnd henc
  have hM' : M.assign keys values = M := by
    funext k
    by_cases hk : k ∈ keys
    · rw [← zip_keys hlen] at hk
      obtain ⟨e, he, rfl⟩ := List.mem_map.1 hk
      rw [assign_mem M hlen hnd he, hst e he]
    · rw [assign_not_mem M values hk]
  rw [hM'] at h'
  have := C04_root_history_independent_partial hc hc rfl rfl h' hcf h' hcf (M := M)
    List.mem_cons_self (List.mem_cons_of_mem _ hr)
  exact ⟨s', by rw [hrun, this]⟩

/-- Two pairs of the second version. -/
example : ∃ s', insert Toy.cfg (some Toy.r2) [Toy.key 2, Toy.key 1] [[21], [10]] Toy.s2 =
    (.ok Toy.r2, s') :=
  C41_reinsert_same_root_partial Toy.sane Toy.hist2 (Toy.alive _) (M := Toy.M2) List.mem_cons_self
    (Toy.deep _).succ rfl    (by decide) (by decide) (by decide) (collisionFree_of_check (by decide +kernel))

/-! ## C42 -/

/-- C42: when `decode` inverts `encode`, what is read back is the inserted value, for every type of
values. -/
theorem C42_typed_values_round_trip (hc : Sane cfg) (h : Inserts cfg C H R L s) (hs : C.alive s)
    {keys : List (Arr N)} {values : List V} (hlen : keys.length = values.length) (hne : keys ≠ [])
    (hnd : keys.Nodup)
    (hd : HeightBelow (Contents.empty.assign keys values) cfg.depth) (henc : ∀ v ∈ values, ∃ b, cfg.encode v = .ok b)
    (hcf : CollisionFree cfg.hasher (Among (hashedBy cfg none keys values s ++ H))) :
    ∃ r s', insert cfg none keys values s = (.ok r, s') ∧
      ∀ e ∈ keys.zip values, getOne cfg s' r e.1 = .ok (some e.2) := by
  obtain ⟨r, s', hrun, hs', h'⟩ := h.insert_ok hc hs hcf (prev := none) (M := Contents.empty) rfl
    (heightBelow_empty _) (handled_empty keys) hlen hne hnd henc
  refine ⟨r, s', hrun, ?_⟩
  intro e he
  rw [h'.getOne hc hs' hcf List.mem_cons_self hd, assign_mem _ hlen hnd he]

/-- C42: a batch with a value that does not encode is refused, on any database. -/
theorem C42_unencodable_rejected (hN : 0 < N) (cfg : Config N σ V) (prev : Option (Arr N))
    (keys : List (Arr N)) (values : List V) {v : V} (hv : v ∈ values) {e : Err}
    (he : cfg.encode v = .error e) (s : σ) : ∃ e', (insert cfg prev keys values s).1 = .error e' :=
  error_of_not_ok (fun _ _ => insert_unencodable hN cfg hv he)

/-- C42: and what roots returned earlier read is unchanged. -/
theorem C42_unencodable_harmless (hc : Sane cfg) (h : Inserts cfg C H R L s)
    {prev : Option (Arr N)} {keys : List (Arr N)} {values : List V} {v : V} (hv : v ∈ values)
    {e : Err} (he : cfg.encode v = .error e)
    (hcf : CollisionFree cfg.hasher (Among (hashedBy cfg prev keys values s ++ H)))
    (hs : C.alive s) (hs' : C.alive (insert cfg prev keys values s).2) :
    ∃ e s', insert cfg prev keys values s = (.error e, s') ∧
      ∀ r ∈ R, ∀ k, getOne cfg s' r k = getOne cfg s r k := by
  obtain ⟨e, he⟩ := C42_unencodable_rejected hc.pos cfg prev keys values hv he s
  exact ⟨e, _, Prod.ext he rfl, fun r hr => (C03_old_versions_survive hc h hcf rfl hs hs' hr).1⟩

/-- A tree of small numbers, where 200 and above do not encode. -/
def Toy.natCfg : Config 2 (HashDB 2) Nat :=
  ⟨hashDatabase 2, Toy.hasher,
    fun n => if n < 200 then .ok [UInt8.ofNat n, 7] else .error (.exception "too large"),
    fun b => match b with
      | [x, 7] => .ok x.toNat
      | _ => .error (.exception "bad value"),
    Toy.pp 2, 17⟩

theorem Toy.natSane : Sane Toy.natCfg := by
  refine ⟨by decide, Toy.pp_lawful 2, ?_⟩
  intro v b h
  simp only [Toy.natCfg] at h ⊢
  split at h
  · cases h
    simp only [UInt8.toNat_ofNat']
    rw [Nat.mod_eq_of_lt (by omega)]
  · cases h

/-- Three numbers read back; a batch with 300 is refused. -/
example : (∃ r s', insert Toy.natCfg none [Toy.key 1, Toy.key 2, Toy.key 3] [10, 20, 30] Toy.db0 =
      (.ok r, s') ∧ getOne Toy.natCfg s' r (Toy.key 2) = .ok (some 20)) ∧
    ∃ e, (insert Toy.natCfg none [Toy.key 1, Toy.key 2] [10, 300] Toy.db0).1 = .error e := by
  refine ⟨?_, C42_unencodable_rejected (by decide) Toy.natCfg none _ _ (v := 300) (by simp) rfl _⟩
  obtain ⟨r, s', h1, h2⟩ := C42_typed_values_round_trip (C := hashContract 2) Toy.natSane
    (.start rfl rfl) trivial (s := Toy.db0) (keys := [Toy.key 1, Toy.key 2, Toy.key 3])
    (values := [10, 20, 30]) rfl (by decide) (by decide) (heightBelow_of_bits _ (by decide))
    (fun v hv => by
      simp only [List.mem_cons, List.not_mem_nil, or_false] at hv
      rcases hv with rfl | rfl | rfl <;> exact ⟨_, rfl⟩)
    (collisionFree_of_check (by decide +kernel))
  exact ⟨r, s', h1, h2 (Toy.key 2, 20) (by simp)⟩

end MerkleBit
