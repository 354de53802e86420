import Verif.Proof.Lineage
import Verif.Props.Versions
/-!
# C02, C05, C06, C08, C09, C15-C18, C23 for all returned roots

The versions of `Props/Versions.lean` come from batches that open what they have to (`Handled`).  Here are all roots that
were returned for inserts on top of known roots, with the pairs inserted on the way (`Spec/Lineage.lean`):
what still holds for them, and what does not.
-/

namespace MerkleBit
variable {N : Nat} {σ V : Type} {cfg : Config N σ V} {C : DbContract cfg.db}
  {H : List (HIn N)} {L : Lineages N V} {s : σ}

theorem Roots.holds (hc : Sane cfg) (h : Roots cfg C H L s) (hcf : CollisionFree cfg.hasher (Among H))
    {r : Arr N} {ℓ : Lineage N V} (hr : (r, ℓ) ∈ L) : Holds cfg (C.view s) r ℓ :=
  (roots_inv hc.pos hc.pp h hcf).2 _ hr

theorem Roots.sound (hc : Sane cfg) (h : Roots cfg C H L s)
    (hcf : CollisionFree cfg.hasher (Among H)) : Sound C (Among H) s :=
  (roots_inv hc.pos hc.pp h hcf).1

/-! ## The keys of the batch -/

/-- C02 for all roots, the half about the batch: after an accepted insert on top of any known root (or of
nothing), straddled branches or not, every key of the batch reads its new value. -/
theorem C02_batch_reads_back (hc : Sane cfg) (hd : 8 * N < cfg.depth)
    (h : Roots cfg C H L s) {prev : Option (Arr N)}
    {ℓ : Lineage N V} (hprev : L.Prev prev ℓ) {keys : List (Arr N)} {values : List V} {r : Arr N}
    {s' : σ} (hcf : CollisionFree cfg.hasher (Among (hashedBy cfg prev keys values s ++ H)))
    (hrun : insert cfg prev keys values s = (.ok r, s')) (hs : C.alive s') :
    keys.Nodup ∧ ∀ k v, (k, v) ∈ keys.zip values → getOne cfg s' r k = .ok (some v) := by
  have hsub : ∀ i, Among H i → Among (hashedBy cfg prev keys values s ++ H) i :=
    fun i hi => List.mem_append_right _ hi
  have hcf0 := hcf.mono hsub
  have := insert_holds (C := C) hc.pos hc.pp hcf (s0 := s) (ℓ := ℓ) (keys := keys) (values := values)
    (fun i hi => List.mem_append_left _ hi) ((h.sound hc hcf0).inv.mono hsub).sound (by
      cases prev with
      | none => exact hprev
      | some r => exact h.holds hc hcf0 hprev)
  unfold Ends at this
  rw [hrun] at this
  obtain ⟨-, hnd, -, ⟨T, rfl, hn, hst, hpath⟩, -⟩ := this
  refine ⟨hnd, fun k v hkv => ?_⟩
  obtain ⟨b, hb, n, hn8, hp⟩ := hpath _ hkv
  rw [(getOne_stored (C := C) hc.pos hn hst k).alive hs, readOne_path hp 0 (by omega)]
  unfold readOne
  rw [if_neg (by omega), if_neg (by simp), if_neg (by omega), hc.codec v b hb]

/-! ## Values come from the lineage -/

/-- C06 for all roots: `get` returns exactly the requested keys, and every value it reports for a key was
inserted for that key on the way to the root. -/
theorem C06_values_were_inserted (hc : Sane cfg) (h : Roots cfg C H L s) (hs : C.alive s)
    (hcf : CollisionFree cfg.hasher (Among H)) {r : Arr N} {ℓ : Lineage N V} (hr : (r, ℓ) ∈ L)
    {keys : List (Arr N)} {m : AMap (Arr N) (Option V)} (hm : get cfg s r keys = .ok m) :
    (∀ k, (m.get? k).isSome ↔ k ∈ keys) ∧ ∀ k v, m.get? k = some (some v) → (k, v) ∈ ℓ := by
  obtain ⟨T, rfl, hn, hst, hT, -⟩ := h.holds hc hcf hr
  rw [(get_stored (C := C) hc.pos hc.pp hn hst keys).alive hs] at hm
  unfold readBatch at hm
  split at hm
  · next hk =>
    simp only [List.isEmpty_iff] at hk
    subst hk
    cases hm
    simp [AMap.get?, AMap.empty]
  · have hok := readMany_ok (cfg := cfg) _ _ _ _ _ _ hm
    have hmem : ∀ k, k ∈ sortKeys keys ↔ k ∈ keys := fun k => (sortKeys_perm keys).mem_iff
    constructor
    · intro k
      rcases hok k with ⟨v, x, -, h2, -, h4⟩ | ⟨-, h⟩
      · simp [h4, ← hmem, h2]
      · rw [h, generateLeafMap_get]
        by_cases hk : k ∈ keys <;> simp [hk]
    · intro k v hkv
      rcases hok k with ⟨b, x, h1, -, h3, h4⟩ | ⟨-, h⟩
      · rw [h4] at hkv
        cases hkv
        obtain ⟨y, h5, h6⟩ := hT _ (visit_mem T _ _ h1)
        have := hc.codec y b h6
        rw [h3] at this
        cases this
        exact h5
      · rw [h, generateLeafMap_get] at hkv
        split at hkv <;> simp at hkv

/-- C08 for all roots: a value read by `get_one` was inserted for that key on the way to the root, and a
key never inserted on the way is not found (unless the search passes the depth limit). -/
theorem C08_values_were_inserted (hc : Sane cfg) (h : Roots cfg C H L s) (hs : C.alive s)
    (hcf : CollisionFree cfg.hasher (Among H)) {r : Arr N} {ℓ : Lineage N V} (hr : (r, ℓ) ∈ L)
    (k : Arr N) : (∀ v, getOne cfg s r k = .ok (some v) → (k, v) ∈ ℓ) ∧
      ((∀ v, (k, v) ∉ ℓ) → getOne cfg s r k = .ok none ∨
        getOne cfg s r k = .error (.exception "Depth limit exceeded")) := by
  obtain ⟨T, rfl, hn, hst, hT, -⟩ := h.holds hc hcf hr
  rw [(getOne_stored (C := C) hc.pos hn hst k).alive hs]
  refine ⟨fun v hv => ?_, fun hk => ?_⟩
  · obtain ⟨b, h1, h2⟩ := readOne_some T 0 hv
    obtain ⟨y, h3, h4⟩ := hT _ h1
    have := hc.codec y b h4
    rw [h2] at this
    cases this
    exact h3
  · apply readOne_absent
    intro hkT
    obtain ⟨e, he, rfl⟩ := List.mem_map.1 hkT
    obtain ⟨y, h3, -⟩ := hT _ he
    exact hk y h3

/-- C09 for all roots: a `get` of one key answers what `get_one` answers. -/
theorem C09_get_agrees_all_roots (hc : Sane cfg) (h : Roots cfg C H L s) (hs : C.alive s)
    (hcf : CollisionFree cfg.hasher (Among H)) {r : Arr N} {ℓ : Lineage N V} (hr : (r, ℓ) ∈ L)
    {k : Arr N} {o : Option V} (ho : getOne cfg s r k = .ok o) :
    ∃ m, get cfg s r [k] = .ok m ∧ m.get? k = some o := by
  obtain ⟨T, rfl, hn, hst, hT, -⟩ := h.holds hc hcf hr
  rw [(getOne_stored (C := C) hc.pos hn hst k).alive hs] at ho
  rw [(get_stored (C := C) hc.pos hc.pp hn hst [k]).alive hs]
  exact readMany_single hc.pos hc.pp T 0 hn
    (fun e he => by obtain ⟨x, _, hx⟩ := hT e he; exact ⟨x, hc.codec x _ hx⟩) ho _
    (by rw [generateLeafMap_get]; simp)

/-! ## Roots bind what is read -/

/-- C05 for all roots: one root in two databases (or in one database at two times) reads the same, whatever
ways led to it. -/
theorem C05_equal_roots_read_equal {σ' : Type} {cfg' : Config N σ' V} {C' : DbContract cfg'.db}
    {H' : List (HIn N)} {L' : Lineages N V} {s' : σ'} (hc : Sane cfg) (hc' : Sane cfg')
    (hhash : cfg'.hasher = cfg.hasher) (hdec : cfg'.decode = cfg.decode)
    (hdepth : cfg'.depth = cfg.depth)
    (h : Roots cfg C H L s) (h' : Roots cfg' C' H' L' s') (hs : C.alive s) (hs' : C'.alive s')
    (hcf : CollisionFree cfg.hasher (Among (H ++ H')))
    {r : Arr N} {ℓ ℓ' : Lineage N V} (hr : (r, ℓ) ∈ L) (hr' : (r, ℓ') ∈ L') :
    (∀ k, getOne cfg' s' r k = getOne cfg s r k) ∧
    (∀ k, generateInclusionProof cfg' s' r k = generateInclusionProof cfg s r k) ∧
    (cfg'.pp = cfg.pp → ∀ keys, get cfg' s' r keys = get cfg s r keys) ∧
    ∀ k, (∃ v, (k, v) ∈ ℓ) ↔ ∃ v, (k, v) ∈ ℓ' := by
  have hcf1 : CollisionFree cfg.hasher (Among H) := hcf.mono (fun _ h => List.mem_append_left _ h)
  have hcf2 : CollisionFree cfg'.hasher (Among H') := by
    rw [hhash]; exact hcf.mono (fun _ h => List.mem_append_right _ h)
  obtain ⟨T, hl, hn, hst, he, hk⟩ := h.holds hc hcf1 hr
  obtain ⟨T', hl', hn', hst', he', hk'⟩ := h'.holds hc' hcf2 hr'
  have i1 := (hst.honest hcf1 (h.sound hc hcf1).view).2
  have i2 := (hst'.honest hcf2 (h'.sound hc' hcf2).view).2
  have hl2 := hl'
  rw [hhash] at i2 hl'
  have : T = T' := Trie.eq_of_loc hcf (fun i hi => List.mem_append_left _ (i1 i hi))
    (fun i hi => List.mem_append_right _ (i2 i hi)) (hl.trans hl'.symm)
  subst this
  refine ⟨fun k => ?_, fun k => ?_, fun hpp keys => ?_, fun k => ?_⟩
  · have e1 := (getOne_stored (C := C) hc.pos hn hst k).alive hs
    have e2 := (getOne_stored (C := C') hc'.pos hn hst' k).alive hs'
    rw [hl] at e1
    rw [hl2] at e2
    rw [e1, e2]
    have : ∀ (t : Trie N) d, readOne cfg' k t d = readOne cfg k t d := by
      intro t
      induction t with
      | leaf k' v => intro d; simp only [readOne, hdec, hdepth]
      | node l r ihl ihr => intro d; simp only [readOne, hdepth, ihl, ihr]
    exact this T 0
  · apply generateInclusionProof_congr hdepth
    have e1 := (proof_stored (C := C) hc.pos hn hst k).alive hs
    have e2 := (proof_stored (C := C') hc'.pos hn hst' k).alive hs'
    rw [hl] at e1
    rw [hl2] at e2
    rw [e1, e2]
    have : ∀ (t : Trie N) d, readProof cfg' k t d = readProof cfg k t d := by
      intro t
      induction t with
      | leaf k' v => intro d; simp only [readProof, hhash, hdepth]
      | node l r ihl ihr => intro d; simp only [readProof, hhash, hdepth, ihl, ihr]
    exact this T 0
  · have e1 := (get_stored (C := C) hc.pos hc.pp hn hst keys).alive hs
    have e2 := (get_stored (C := C') hc'.pos hc'.pp hn hst' keys).alive hs'
    rw [hl] at e1
    rw [hl2] at e2
    rw [e1, e2]
    have : ∀ ks0 (t : Trie N) ks d m, readMany cfg' ks0 t ks d m = readMany cfg ks0 t ks d m := by
      intro ks0 t
      induction t with
      | leaf k' v => intro ks d m; simp only [readMany, hdec, hdepth]
      | node l r ihl ihr => intro ks d m; simp only [readMany, hpp, hdepth, ihl, ihr]
    unfold readBatch
    rw [this]
  · constructor
    · rintro ⟨v, hv⟩
      obtain ⟨e, h1, rfl⟩ := List.mem_map.1 (hk.1 _ hv)
      obtain ⟨x, hx, -⟩ := he' _ h1
      exact ⟨x, hx⟩
    · rintro ⟨v, hv⟩
      obtain ⟨e, h1, rfl⟩ := List.mem_map.1 (hk'.1 _ hv)
      obtain ⟨x, hx, -⟩ := he _ h1
      exact ⟨x, hx⟩

/-! ## Inclusion proofs -/

/-- C15 for all roots: whatever `get_one` reads has a proof, which verifies; and a proof that is generated
verifies for a value inserted for that key on the way, the one `get_one` reads. -/
theorem C15_readable_is_provable (hc : Sane cfg) (hroom : cfg.Room) (h : Roots cfg C H L s) (hs : C.alive s)
    (hcf : CollisionFree cfg.hasher (Among H)) {r : Arr N} {ℓ : Lineage N V} (hr : (r, ℓ) ∈ L)
    (k : Arr N) :
    (∀ v, getOne cfg s r k = .ok (some v) → ∃ p, generateInclusionProof cfg s r k = .ok p ∧
      verifyInclusionProof cfg.hasher cfg.encode r k v p = .ok ()) ∧
    (∀ p, generateInclusionProof cfg s r k = .ok p → ∃ v, (k, v) ∈ ℓ ∧
      getOne cfg s r k = .ok (some v) ∧
      verifyInclusionProof cfg.hasher cfg.encode r k v p = .ok ()) := by
  obtain ⟨T, rfl, hn, hst, hT, -⟩ := h.holds hc hcf hr
  rw [generateInclusionProof_room hroom, (getOne_stored (C := C) hc.pos hn hst k).alive hs,
    (proof_stored (C := C) hc.pos hn hst k).alive hs]
  refine ⟨fun v hv => ?_, fun p hp => ?_⟩
  · obtain ⟨b, rest, h1, h2, h3, h4⟩ := readProof_of_readOne T 0 hv
    obtain ⟨y, -, h5⟩ := hT _ h1
    have := hc.codec y b h5
    rw [h2] at this
    cases this
    exact ⟨_, h3, (verify_iff _ _ _ _ _ _).2 ⟨b, false, false, _, h5, rfl, h4⟩⟩
  · obtain ⟨b, rest, h1, rfl, h3, h4⟩ := readProof_ok T 0 hp
    obtain ⟨y, h5, h6⟩ := hT _ h1
    have hy := hc.codec y b h6
    refine ⟨y, h5, ?_, (verify_iff _ _ _ _ _ _).2 ⟨b, false, false, _, h6, rfl, h3⟩⟩
    rcases h4 with ⟨v, h7, h8⟩ | ⟨e, h7⟩
    · rw [hy] at h7
      cases h7
      exact h8
    · rw [hy] at h7; cases h7

/-- C16 for all roots: whatever is accepted for a root was inserted on the way to it, unless the hasher has
a collision among what the history and the verification hashed. -/
theorem C16_accepted_were_inserted (hc : Sane cfg) (h : Roots cfg C H L s) {r : Arr N}
    {ℓ : Lineage N V} (hr : (r, ℓ) ∈ L) {k : Arr N} {v : V} {p : List (Arr N × Bool)}
    (hcf : ∀ b, cfg.encode v = .ok b →
      CollisionFree cfg.hasher (Among (verifyInputs cfg.hasher k b p ++ H)))
    (hp : verifyInclusionProof cfg.hasher cfg.encode r k v p = .ok ()) : (k, v) ∈ ℓ := by
  obtain ⟨b, f0, f1, rest, hb, rfl, h3⟩ := (verify_iff _ _ _ _ _ _).1 hp
  have hcf := hcf b hb
  have hcf0 := hcf.mono (U := Among H) (fun i hi => List.mem_append_right _ hi)
  obtain ⟨T, rfl, hn, hst, hT, -⟩ := h.holds hc hcf0 hr
  have hTU := (hst.honest hcf0 (h.sound hc hcf0).view).2
  have hin : ∀ i ∈ verifyInputs cfg.hasher k b ((Trie.dataLoc cfg.hasher k b, f0) ::
      ((Trie.leaf k b).loc cfg.hasher, f1) :: rest),
      Among (verifyInputs cfg.hasher k b ((Trie.dataLoc cfg.hasher k b, f0) ::
      ((Trie.leaf k b).loc cfg.hasher, f1) :: rest) ++ H) i := fun i hi => List.mem_append_left _ hi
  simp only [verifyInputs, List.drop_succ_cons, List.drop_zero] at hin hcf
  have hmem := fold_mem hcf (k := k) (v := b)
    (by intro i hi; simp only [Trie.inputs, List.mem_cons, List.not_mem_nil, or_false] at hi
        rcases hi with rfl | rfl
        · exact hin _ (by simp)
        · exact hin _ (by simp))
    rest (t := T) (fun i hi => List.mem_append_right _ (hTU i hi)) (fun i hi => hin i (by simp [hi])) h3
  obtain ⟨y, h5, h6⟩ := hT _ hmem
  have := hc.codec y b h6
  rw [hc.codec v b hb] at this
  cases this
  exact h5

/-- C17 for all roots: no proof is generated for a key that was not inserted on the way. -/
theorem C17_no_proof_for_uninserted_key (hc : Sane cfg) (hroom : cfg.Room) (h : Roots cfg C H L s)
    (hcf : CollisionFree cfg.hasher (Among H)) {r : Arr N} {ℓ : Lineage N V} (hr : (r, ℓ) ∈ L)
    {k : Arr N} (hk : ∀ v, (k, v) ∉ ℓ) :
    ∃ msg, generateInclusionProof cfg s r k = .error (.exception msg) := by
  rw [generateInclusionProof_room hroom]
  obtain ⟨T, rfl, hn, hst, hT, -⟩ := h.holds hc hcf hr
  obtain ⟨msg, hm⟩ := readProof_absent (cfg := cfg) T 0 (k := k) (by
    intro hkT
    obtain ⟨e, he, rfl⟩ := List.mem_map.1 hkT
    obtain ⟨y, h3, -⟩ := hT _ he
    exact hk y h3)
  rcases proof_stored (C := C) hc.pos hn hst k with h | ⟨_, msg, h⟩
  · exact ⟨msg, by rw [h, hm]⟩
  · exact ⟨msg, h⟩

/-! ## What does not hold for roots of straddling batches

Concrete histories over the in-memory database.  No hash collision is involved. -/

namespace Toy

/-- The lineage of one more batch with one-byte values. -/
def lin (ks : List Nat) (vs : List UInt8) (ℓ : Lineage 2 (List UInt8)) : Lineage 2 (List UInt8) :=
  (ks.map key).zip (vs.map (fun v => [v])) ++ ℓ

/-- What a batch hashes. -/
def hin (prev : Option (Arr 2)) (ks : List Nat) (vs : List UInt8) (s : HashDB 2) : List (HIn 2) :=
  hashedBy Toy.cfg prev (ks.map key) (vs.map (fun v => [v])) s

theorem roots0 : Roots Toy.cfg Toy.C [] [] db0 := .start rfl rfl

theorem roots_ext {H : List (HIn 2)} {L : Lineages 2 (List UInt8)} {s : HashDB 2}
    (h : Roots Toy.cfg Toy.C H L s) (prev : Option (Arr 2)) (ℓ : Lineage 2 (List UInt8))
    (ks : List Nat) (vs : List UInt8) (r : Arr 2) (hp : L.Prev prev ℓ)
    (hr : (ins prev ks vs s).1 = .ok r) :
    Roots Toy.cfg Toy.C (hin prev ks vs s ++ H) ((r, lin ks vs ℓ) :: L) (ins prev ks vs s).2 :=
  .extend h hp (Prod.ext hr rfl)

/-- History A: a key loses its value. -/
def a1s : HashDB 2 := (ins none [300, 332, 356] [1, 2, 3] db0).2
/-- The state after the second call of history A. -/
def a2s : HashDB 2 := (ins (some (key 35337)) [16, 372, 396] [4, 5, 6] a1s).2
/-- What history A hashed. -/
def aH : List (HIn 2) := hin (some (key 35337)) [16, 372, 396] [4, 5, 6] a1s ++
  (hin none [300, 332, 356] [1, 2, 3] db0 ++ [])
/-- The lineage of the last root of history A. -/
def aℓ : Lineage 2 (List UInt8) := lin [16, 372, 396] [4, 5, 6] (lin [300, 332, 356] [1, 2, 3] [])
/-- The roots of history A. -/
def aL : Lineages 2 (List UInt8) :=
  [(key 26110, aℓ), (key 35337, lin [300, 332, 356] [1, 2, 3] [])]
theorem aHist : Roots Toy.cfg Toy.C aH aL a2s :=
  roots_ext (roots_ext roots0 none [] _ _ (key 35337) rfl (by decide +kernel)) (some (key 35337)) _ _ _
    (key 26110) List.mem_cons_self (by decide +kernel)
theorem aFree : CollisionFree Toy.cfg.hasher (Among aH) := collisionFree_of_check (by decide +kernel)

/-- History B: an old value comes back. -/
def b1s : HashDB 2 := (ins none [152, 168, 248] [1, 1, 1] db0).2
/-- The state after the second call of history B. -/
def b2s : HashDB 2 := (ins (some (key 56472)) [112, 160, 168, 248, 464] [2, 2, 2, 2, 2] b1s).2
/-- The state after the third call of history B. -/
def b3s : HashDB 2 := (ins (some (key 20819)) [152] [3] b2s).2
/-- What the first two calls of history B hashed. -/
def bH2 : List (HIn 2) := hin (some (key 56472)) [112, 160, 168, 248, 464] [2, 2, 2, 2, 2] b1s ++
  (hin none [152, 168, 248] [1, 1, 1] db0 ++ [])
/-- What history B hashed. -/
def bH : List (HIn 2) := hin (some (key 20819)) [152] [3] b2s ++ bH2
/-- The lineage of the second root of history B. -/
def bℓ2 : Lineage 2 (List UInt8) :=
  lin [112, 160, 168, 248, 464] [2, 2, 2, 2, 2] (lin [152, 168, 248] [1, 1, 1] [])
/-- The roots of the first two calls of history B. -/
def bL2 : Lineages 2 (List UInt8) :=
  [(key 20819, bℓ2), (key 56472, lin [152, 168, 248] [1, 1, 1] [])]
/-- The roots of history B. -/
def bL : Lineages 2 (List UInt8) := (key 53289, lin [152] [3] bℓ2) :: bL2
theorem bHist2 : Roots Toy.cfg Toy.C bH2 bL2 b2s :=
  roots_ext (roots_ext roots0 none [] _ _ (key 56472) rfl (by decide +kernel)) (some (key 56472)) _ _ _
    (key 20819) List.mem_cons_self (by decide +kernel)
theorem bHist : Roots Toy.cfg Toy.C bH bL b3s :=
  roots_ext bHist2 (some (key 20819)) _ _ _ (key 53289) List.mem_cons_self (by decide +kernel)
theorem bFree : CollisionFree Toy.cfg.hasher (Among bH) := collisionFree_of_check (by decide +kernel)

/-- History C: a tree that holds a key twice, with its old and its new value. -/
def c1s : HashDB 2 := (ins none [0, 48, 56] [1, 1, 1] db0).2
/-- The state after the second call of history C, `v` being the new value of the key 56. -/
def c2s (v : UInt8) : HashDB 2 := (ins (some (key 23221)) [8, 56, 88, 296, 496] [2, v, 2, 2, 2] c1s).2
/-- What history C hashed. -/
def cH (v : UInt8) : List (HIn 2) := hin (some (key 23221)) [8, 56, 88, 296, 496] [2, v, 2, 2, 2] c1s ++
  (hin none [0, 48, 56] [1, 1, 1] db0 ++ [])
/-- The lineage of the last root of history C. -/
def cℓ (v : UInt8) : Lineage 2 (List UInt8) :=
  lin [8, 56, 88, 296, 496] [2, v, 2, 2, 2] (lin [0, 48, 56] [1, 1, 1] [])
theorem cHist (v : UInt8) (r : Arr 2)
    (hr : (ins (some (key 23221)) [8, 56, 88, 296, 496] [2, v, 2, 2, 2] c1s).1 = .ok r) :
    Roots Toy.cfg Toy.C (cH v) [(r, cℓ v), (key 23221, lin [0, 48, 56] [1, 1, 1] [])] (c2s v) :=
  roots_ext (roots_ext roots0 none [] _ _ (key 23221) rfl (by decide +kernel)) (some (key 23221)) _ _ _
    r List.mem_cons_self hr

/-- History D: a tree with a path of 17 branches over 16-bit keys. -/
def dks : List Nat := [0, 48, 49, 50, 52, 56, 512, 1024, 2048, 4096, 8192, 16384, 32768]
/-- The state after the first call of history D. -/
def d1s : HashDB 2 := (ins none dks (dks.map fun _ => 1) db0).2
/-- The state after the second call of history D. -/
def d2s : HashDB 2 := (ins (some (key 47349)) [32, 56, 64, 128, 256] [2, 2, 2, 2, 2] d1s).2
/-- What history D hashed. -/
def dH : List (HIn 2) := hin (some (key 47349)) [32, 56, 64, 128, 256] [2, 2, 2, 2, 2] d1s ++
  (hin none dks (dks.map fun _ => 1) db0 ++ [])
/-- The lineage of the last root of history D. -/
def dℓ : Lineage 2 (List UInt8) :=
  lin [32, 56, 64, 128, 256] [2, 2, 2, 2, 2] (lin dks (dks.map fun _ => 1) [])
/-- The roots of history D. -/
def dL : Lineages 2 (List UInt8) :=
  [(key 52768, dℓ), (key 47349, lin dks (dks.map fun _ => 1) [])]
theorem dHist : Roots Toy.cfg Toy.C dH dL d2s :=
  roots_ext (roots_ext roots0 none [] _ _ (key 47349) rfl (by decide +kernel)) (some (key 47349)) _ _ _
    (key 52768) List.mem_cons_self (by decide +kernel)
theorem dFree : CollisionFree Toy.cfg.hasher (Among dH) := collisionFree_of_check (by decide +kernel)

end Toy

/-- C06 is false of a root of a straddling batch: `get` reports a value that was overwritten (and that
the previous root does not read any more). -/
theorem C06_false : ∃ (H : List (HIn 2)) (L : Lineages 2 (List UInt8)) (s : HashDB 2) (r : Arr 2)
    (ℓ : Lineage 2 (List UInt8)) (k : Arr 2) (m : AMap (Arr 2) (Option (List UInt8))),
    Sane Toy.cfg ∧ Roots Toy.cfg Toy.C H L s ∧ CollisionFree Toy.cfg.hasher (Among H) ∧ (r, ℓ) ∈ L ∧
    get Toy.cfg s r [k] = .ok m ∧ m.get? k = some (some [1]) ∧ ℓ.contents k = some [2] := by
  obtain ⟨m, h1, h2⟩ := C09_get_agrees_all_roots Toy.sane Toy.bHist trivial Toy.bFree
    (r := Toy.key 53289) List.mem_cons_self (k := Toy.key 168) (o := some [1]) (by decide +kernel)
  exact ⟨_, _, _, _, _, Toy.key 168, m, Toy.sane, Toy.bHist, Toy.bFree, List.mem_cons_self, h1, h2,
    by decide +kernel⟩

/-- C08 is false of roots of straddling batches: `get_one` finds no value for a stored key, or a value
that was overwritten. -/
theorem C08_false : (∃ (H : List (HIn 2)) (L : Lineages 2 (List UInt8)) (s : HashDB 2) (r : Arr 2)
    (ℓ : Lineage 2 (List UInt8)) (k : Arr 2),
    Sane Toy.cfg ∧ Roots Toy.cfg Toy.C H L s ∧ CollisionFree Toy.cfg.hasher (Among H) ∧ (r, ℓ) ∈ L ∧
    ℓ.contents k = some [3] ∧ getOne Toy.cfg s r k = .ok none) ∧
    ∃ (H : List (HIn 2)) (L : Lineages 2 (List UInt8)) (s : HashDB 2) (r : Arr 2)
    (ℓ : Lineage 2 (List UInt8)) (k : Arr 2),
    Sane Toy.cfg ∧ Roots Toy.cfg Toy.C H L s ∧ CollisionFree Toy.cfg.hasher (Among H) ∧ (r, ℓ) ∈ L ∧
    ℓ.contents k = some [2] ∧ getOne Toy.cfg s r k = .ok (some [1]) :=
  ⟨⟨_, _, _, _, _, Toy.key 356, Toy.sane, Toy.aHist, Toy.aFree, List.mem_cons_self, by decide +kernel,
      by decide +kernel⟩,
    ⟨_, _, _, _, _, Toy.key 168, Toy.sane, Toy.bHist, Toy.bFree, List.mem_cons_self, by decide +kernel,
      by decide +kernel⟩⟩

/-- C09 is false of a root of a straddling batch: `get` finds the value, `get_one` fails. -/
theorem C09_false : ∃ (H : List (HIn 2)) (L : Lineages 2 (List UInt8)) (s : HashDB 2) (r : Arr 2)
    (ℓ : Lineage 2 (List UInt8)) (k : Arr 2),
    Sane Toy.cfg ∧ Roots Toy.cfg Toy.C H L s ∧ CollisionFree Toy.cfg.hasher (Among H) ∧ (r, ℓ) ∈ L ∧
    (get Toy.cfg s r [k]).map (·.get? k) = .ok (some (some [1])) ∧
    getOne Toy.cfg s r k = .error (.exception "Depth limit exceeded") :=
  ⟨_, _, _, _, _, Toy.key 48, Toy.sane, Toy.dHist, Toy.dFree, List.mem_cons_self, by decide +kernel,
    by decide +kernel⟩

/-- C15 is false of a root of a straddling batch: no proof for a stored key. -/
theorem C15_false : ∃ (H : List (HIn 2)) (L : Lineages 2 (List UInt8)) (s : HashDB 2) (r : Arr 2)
    (ℓ : Lineage 2 (List UInt8)) (k : Arr 2),
    Sane Toy.cfg ∧ Roots Toy.cfg Toy.C H L s ∧ CollisionFree Toy.cfg.hasher (Among H) ∧ (r, ℓ) ∈ L ∧
    ℓ.contents k = some [3] ∧
    generateInclusionProof Toy.cfg s r k = .error (.exception "Key not found in tree") :=
  ⟨_, _, _, _, _, Toy.key 356, Toy.sane, Toy.aHist, Toy.aFree, List.mem_cons_self, by decide +kernel,
    by decide +kernel⟩

/-- C16 is false of a root of a straddling batch: a proof of an overwritten value is accepted, though
`get_one` reads the new value. -/
theorem C16_false : ∃ (H : List (HIn 2)) (L : Lineages 2 (List UInt8)) (s : HashDB 2) (r : Arr 2)
    (ℓ : Lineage 2 (List UInt8)) (k : Arr 2) (p : List (Arr 2 × Bool)),
    Sane Toy.cfg ∧ Roots Toy.cfg Toy.C H L s ∧ (r, ℓ) ∈ L ∧
    CollisionFree Toy.cfg.hasher (Among (verifyInputs Toy.cfg.hasher k [1] p ++ H)) ∧
    verifyInclusionProof Toy.cfg.hasher Toy.cfg.encode r k [1] p = .ok () ∧
    ℓ.contents k = some [2] ∧ getOne Toy.cfg s r k = .ok (some [2]) :=
  ⟨_, _, _, Toy.key 15028, _, Toy.key 56, [(Toy.key 12444, false), (Toy.key 2373, false),
      (Toy.key 61606, false), (Toy.key 2374, true), (Toy.key 35949, false), (Toy.key 27526, true),
      (Toy.key 41522, true)],
    Toy.sane, Toy.cHist 2 _ (by decide +kernel), List.mem_cons_self,
    collisionFree_of_check (by decide +kernel), by decide +kernel, by decide +kernel, by decide +kernel⟩

/-- C18 is false of a root of a straddling batch: two proofs of different lengths are accepted for one
stored pair. -/
theorem C18_false : ∃ (H : List (HIn 2)) (L : Lineages 2 (List UInt8)) (s : HashDB 2) (r : Arr 2)
    (ℓ : Lineage 2 (List UInt8)) (k : Arr 2) (p q : List (Arr 2 × Bool)),
    Sane Toy.cfg ∧ Roots Toy.cfg Toy.C H L s ∧ (r, ℓ) ∈ L ∧
    CollisionFree Toy.cfg.hasher (Among (verifyInputs Toy.cfg.hasher k [1] p ++
      (verifyInputs Toy.cfg.hasher k [1] q ++ H))) ∧
    ℓ.contents k = some [1] ∧ p.length ≠ q.length ∧
    verifyInclusionProof Toy.cfg.hasher Toy.cfg.encode r k [1] p = .ok () ∧
    verifyInclusionProof Toy.cfg.hasher Toy.cfg.encode r k [1] q = .ok () :=
  ⟨_, _, _, Toy.key 62793, _, Toy.key 56, [(Toy.key 12444, false), (Toy.key 2373, false),
      (Toy.key 61606, false), (Toy.key 2373, true), (Toy.key 35949, false), (Toy.key 27526, true),
      (Toy.key 41522, true)],
    [(Toy.key 12444, false), (Toy.key 2373, false), (Toy.key 17488, false), (Toy.key 35949, false),
      (Toy.key 27526, true), (Toy.key 41522, true)],
    Toy.sane, Toy.cHist 1 _ (by decide +kernel), List.mem_cons_self,
    collisionFree_of_check (by decide +kernel), by decide +kernel, by decide, by decide +kernel,
    by decide +kernel⟩

/-- C23 is false of a root of a straddling batch: a key that is stored, whose leaf is below 17 branches,
though keys have 16 bits; reading it passes the depth limit `8 N + 1`. -/
theorem C23_false : ∃ (H : List (HIn 2)) (L : Lineages 2 (List UInt8)) (s : HashDB 2) (r : Arr 2)
    (ℓ : Lineage 2 (List UInt8)) (k : Arr 2),
    Sane Toy.cfg ∧ Toy.cfg.depth = 8 * 2 + 1 ∧ Roots Toy.cfg Toy.C H L s ∧
    CollisionFree Toy.cfg.hasher (Among H) ∧ (r, ℓ) ∈ L ∧
    getOne Toy.cfg s r k = .error (.exception "Depth limit exceeded") :=
  ⟨_, _, _, _, _, Toy.key 48, Toy.sane, rfl, Toy.dHist, Toy.dFree, List.mem_cons_self,
    by decide +kernel⟩

/-- C41 is false of a root of a straddling batch: inserting again a pair that is stored and read gives
another root. -/
theorem C41_false : ∃ (H : List (HIn 2)) (L : Lineages 2 (List UInt8)) (s s' : HashDB 2) (r r' : Arr 2)
    (ℓ : Lineage 2 (List UInt8)) (k : Arr 2),
    Sane Toy.cfg ∧ Roots Toy.cfg Toy.C H L s ∧ (r, ℓ) ∈ L ∧
    CollisionFree Toy.cfg.hasher (Among (hashedBy Toy.cfg (some r) [k] [[1]] s ++ H)) ∧
    ℓ.contents k = some [1] ∧ getOne Toy.cfg s r k = .ok (some [1]) ∧
    insert Toy.cfg (some r) [k] [[1]] s = (.ok r', s') ∧ r' ≠ r :=
  ⟨_, _, _, (Toy.ins (some (Toy.key 20819)) [152] [1] Toy.b2s).2, Toy.key 20819, Toy.key 34469, _,
    Toy.key 152, Toy.sane, Toy.bHist2, List.mem_cons_self, collisionFree_of_check (by decide +kernel),
    by decide +kernel, by decide +kernel, outcome (by decide +kernel), by decide⟩

/-! ## The hypotheses are met -/

/-- The root of history C: the key of the batch reads its new value, proofs are for inserted pairs, a key
never inserted is not found and has no proof. -/
example : getOne Toy.cfg (Toy.c2s 2) (Toy.key 15028) (Toy.key 56) = .ok (some [2]) ∧
    (∀ v, getOne Toy.cfg (Toy.c2s 2) (Toy.key 15028) (Toy.key 48) = .ok (some v) →
      (Toy.key 48, v) ∈ Toy.cℓ 2) ∧
    (∃ m, get Toy.cfg (Toy.c2s 2) (Toy.key 15028) [Toy.key 56] = .ok m ∧
      m.get? (Toy.key 56) = some (some [2])) ∧
    (∃ p, generateInclusionProof Toy.cfg (Toy.c2s 2) (Toy.key 15028) (Toy.key 56) = .ok p ∧
      verifyInclusionProof Toy.cfg.hasher Toy.cfg.encode (Toy.key 15028) (Toy.key 56) [2] p = .ok ()) ∧
    ∃ msg, generateInclusionProof Toy.cfg (Toy.c2s 2) (Toy.key 15028) (Toy.key 57) =
      .error (.exception msg) := by
  have h := Toy.cHist 2 (Toy.key 15028) (by decide +kernel)
  have hcf : CollisionFree Toy.cfg.hasher (Among (Toy.cH 2)) :=
    collisionFree_of_check (by decide +kernel)
  have h1 := Toy.roots_ext Toy.roots0 none [] [0, 48, 56] [1, 1, 1] (Toy.key 23221) rfl
    (by decide +kernel)
  have hrun : insert Toy.cfg (some (Toy.key 23221)) ([8, 56, 88, 296, 496].map Toy.key)
      ([2, 2, 2, 2, 2].map (fun v => [v])) Toy.c1s = (.ok (Toy.key 15028), Toy.c2s 2) :=
    Prod.ext (show (Toy.ins (some (Toy.key 23221)) [8, 56, 88, 296, 496] [2, 2, 2, 2, 2] Toy.c1s).1 = _ by
      decide +kernel) rfl
  have h56 := (C02_batch_reads_back Toy.sane (by decide) h1 (prev := some (Toy.key 23221))
    (ℓ := Toy.lin [0, 48, 56] [1, 1, 1] []) List.mem_cons_self hcf hrun trivial).2
      (Toy.key 56) [2] (by decide +kernel)
  exact ⟨h56, (C08_values_were_inserted Toy.sane h trivial hcf List.mem_cons_self _).1,
    C09_get_agrees_all_roots Toy.sane h trivial hcf List.mem_cons_self h56,
    (C15_readable_is_provable Toy.sane Toy.room h trivial hcf List.mem_cons_self _).1 _ h56,
    C17_no_proof_for_uninserted_key Toy.sane Toy.room h hcf List.mem_cons_self (by
      intro v hv
      have hk : Toy.key 57 ∉ (Toy.cℓ 2).map (·.1) := by decide +kernel
      exact hk (List.mem_map_of_mem (f := (·.1)) hv))⟩

/-- The proof of the overwritten value in history C is of a pair inserted on the way. -/
example : (Toy.key 56, [1]) ∈ Toy.cℓ 2 :=
  C16_accepted_were_inserted Toy.sane (Toy.cHist 2 (Toy.key 15028) (by decide +kernel))
    List.mem_cons_self (p := [(Toy.key 12444, false), (Toy.key 2373, false),
      (Toy.key 61606, false), (Toy.key 2374, true), (Toy.key 35949, false), (Toy.key 27526, true),
      (Toy.key 41522, true)])
    (fun b hb => by cases hb; exact collisionFree_of_check (by decide +kernel)) (by decide +kernel)

/-- A request with a stored, an overwritten and an absent key in history B. -/
example (m : AMap (Arr 2) (Option (List UInt8)))
    (hm : get Toy.cfg Toy.b3s (Toy.key 53289) [Toy.key 168, Toy.key 152, Toy.key 7] = .ok m) :
    ∀ k v, m.get? k = some (some v) → (k, v) ∈ Toy.lin [152] [3] Toy.bℓ2 :=
  (C06_values_were_inserted Toy.sane Toy.bHist trivial Toy.bFree List.mem_cons_self hm).2

/-- The second root of history B, before and after the third call. -/
example (k : Arr 2) : getOne Toy.cfg Toy.b3s (Toy.key 20819) k = getOne Toy.cfg Toy.b2s (Toy.key 20819) k :=
  (C05_equal_roots_read_equal Toy.sane Toy.sane rfl rfl rfl Toy.bHist2 Toy.bHist trivial trivial
    (collisionFree_of_check (by decide +kernel)) (r := Toy.key 20819) (ℓ := Toy.bℓ2) (ℓ' := Toy.bℓ2)
    (by simp [Toy.bL2]) (by simp [Toy.bL, Toy.bL2])).1 k

end MerkleBit
