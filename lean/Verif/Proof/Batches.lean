import Verif.Proof.Inclusion
/-! # Batches without straddles, and consequences of the invariant of histories -/

namespace MerkleBit
variable {N : Nat} {σ V : Type} {cfg : Config N σ V} {C : DbContract cfg.db}

/-- Nothing is straddled in the empty tree. -/
theorem outcome {α β : Type} {x : α × β} {a : α} (h : x.1 = a) : x = (a, x.2) := Prod.ext h rfl

theorem error_of_not_ok {α : Type} {x : Res α × σ} (h : ∀ a s', x ≠ (.ok a, s')) :
    ∃ e, x.1 = .error e := by
  rcases x with ⟨r, s'⟩
  cases r with
  | ok a => exact absurd rfl (h a s')
  | error e => exact ⟨e, rfl⟩

theorem noStraddle_empty (keys : List (Arr N)) : NoStraddle cfg Contents.empty keys := by
  intro T _ h
  have := (h.mem (k := T.key)).1 T.key_mem
  simp [Contents.empty] at this

/-- A batch with at most one key that is not stored. -/
theorem noStraddle_of_new {M : Contents N V} {keys : List (Arr N)}
    (h : ∀ k ∈ keys, ∀ k' ∈ keys, M k = none → M k' = none → k' = k) : NoStraddle cfg M keys := by
  intro T hT hM
  have hm : ∀ k, k ∈ sortKeys keys ↔ k ∈ keys := fun k => (sortKeys_perm keys).mem_iff
  apply straddleFree_of_stored hT
  intro k hk k' hk' h1 h2
  rw [hM.mem, not_not] at h1 h2
  exact h k ((hm k).1 hk) k' ((hm k').1 hk') h1 h2

/-- One key. -/
theorem noStraddle_single {M : Contents N V} (k : Arr N) : NoStraddle cfg M [k] :=
  noStraddle_of_new (by simp)

/-- Keys that are all stored. -/
theorem noStraddle_stored {M : Contents N V} {keys : List (Arr N)} (h : ∀ k ∈ keys, M k ≠ none) :
    NoStraddle cfg M keys :=
  noStraddle_of_new (fun k hk _ _ h1 => absurd h1 (h k hk))

/-- One-byte keys. -/
theorem noStraddle_byte {cfg : Config 1 σ V} {M : Contents 1 V} {keys : List (Arr 1)} :
    NoStraddle cfg M keys := fun _ _ _ => straddleFree_byte

/-- Batches without straddles. -/
theorem NoStraddle.handled (hc : Sane cfg) {M : Contents N V} {keys : List (Arr N)}
    (h : NoStraddle cfg M keys) : Handled cfg M keys := fun _ hk T hT hM =>
  opened_of_straddleFree hc.pos hc.pp (sortKeys_sorted keys) hT (h T hT hM)
    ((sortKeys_perm keys).mem_iff.2 hk)

theorem handled_empty (keys : List (Arr N)) : Handled cfg Contents.empty keys := by
  intro _ _ T _ h
  have := (h.mem (k := T.key)).1 T.key_mem
  simp [Contents.empty] at this

theorem handled_of_new (hc : Sane cfg) {M : Contents N V} {keys : List (Arr N)}
    (h : ∀ k ∈ keys, ∀ k' ∈ keys, M k = none → M k' = none → k' = k) : Handled cfg M keys :=
  (noStraddle_of_new h).handled hc

theorem handled_single (hc : Sane cfg) {M : Contents N V} (k : Arr N) : Handled cfg M [k] :=
  (noStraddle_single k).handled hc

theorem handled_stored (hc : Sane cfg) {M : Contents N V} {keys : List (Arr N)}
    (h : ∀ k ∈ keys, M k ≠ none) : Handled cfg M keys := (noStraddle_stored h).handled hc

theorem handled_byte {cfg : Config 1 σ V} (hc : Sane cfg) {M : Contents 1 V} {keys : List (Arr 1)} :
    Handled cfg M keys := noStraddle_byte.handled hc

/-- A condition on the keys alone. -/
theorem noStraddle_of_clear {M : Contents N V} {keys : List (Arr N)} (h : Clear M keys) :
    NoStraddle cfg M keys := by
  intro T hT hM
  have hm : ∀ k, k ∈ sortKeys keys ↔ k ∈ keys := fun k => (sortKeys_perm keys).mem_iff
  refine straddleFree_at ?_ hT (Trie.Sub.refl T) (Nat.zero_le _) (fun k hk _ => hk)
  rintro l r p hsub hpos ⟨k1, h1, h2, h3, h4, k2, h5, h6, h7⟩
  have hwf := hsub.wf hT
  have hkey : ∀ k ∈ (Trie.node l r).keys, M k ≠ none := fun k hk =>
    hM.mem.1 ((hsub.entries.map Prod.fst).subset hk)
  have hl : M l.key ≠ none := hkey _ (by rw [Trie.keys_node]; exact List.mem_append_left _ l.key_mem)
  have hr : M r.key ≠ none := hkey _ (by rw [Trie.keys_node]; exact List.mem_append_right _ r.key_mem)
  have hne : l.key ≠ r.key := fun e => by
    have h1 := hwf.bit_left l.key_mem
    have h2 := hwf.bit_right r.key_mem
    rw [e, h2] at h1
    cases h1
  have hnew : ∀ k ∈ (sortKeys keys).filter (fun k => p ≤ firstDiff k l.key),
      firstDiff k l.key < firstDiff l.key r.key → k ∈ keys ∧ M k = none := by
    intro k hk hlt
    obtain ⟨hk1, hk2⟩ := List.mem_filter.1 hk
    refine ⟨(hm k).1 hk1, ?_⟩
    by_contra hc
    have := hwf.agree k (hpos k (hM.mem.2 hc) (by simpa using hk2))
    simp only [Trie.key, Trie.split] at this
    omega
  obtain ⟨hk1, hn1⟩ := hnew k1 h1 h3
  obtain ⟨hk2, hn2⟩ := hnew k2 h5 h6
  have h8 := h2 k2 h5
  have := h l.key r.key hl hr hne k1 hk1 k2 hk2 hn1 hn2 (by
    rcases Nat.lt_or_eq_of_le h8 with h | h
    · exact h
    · exfalso; omega) h6 h7
  omega

theorem handled_of_clear (hc : Sane cfg) {M : Contents N V} {keys : List (Arr N)} (h : Clear M keys) :
    Handled cfg M keys := (noStraddle_of_clear h).handled hc

theorem clear_of_one {M : Contents N V} {keys : List (Arr N)} (h : AtMostOneNew M keys) : Clear M keys := by
  intro a c _ _ _ k1 hk1 k2 hk2 h1 h2 hlt
  rw [h k1 hk1 k2 hk2 h1 h2] at hlt
  omega

theorem clear_of_short {M : Contents N V} {keys : List (Arr N)} (h : keys.length ≤ 1) : Clear M keys :=
  clear_of_one (by
    intro k h1 k' h2 _ _
    match keys, h with
    | [], _ => cases h1
    | [x], _ => rw [List.mem_singleton.1 h1, List.mem_singleton.1 h2])

theorem clear_empty (keys : List (Arr N)) : Clear (Contents.empty : Contents N V) keys :=
  fun _ _ h => absurd rfl h

theorem clear_byte {M : Contents 1 V} {keys : List (Arr 1)} : Clear M keys := by
  intro a c _ _ _ k1 _ k2 _ _ _ h1 h2 _
  have := firstDiff_le a c
  omega

/-- New keys that share their first byte with at most one stored key. -/
theorem clear_of_spread {M : Contents N V} {keys : List (Arr N)} (h : Spread M keys) : Clear M keys := by
  intro a c ha hc hne k1 hk1 k2 hk2 _ hnew h1 h2 h3
  by_contra h4
  have h5 := min_le_firstDiff k2 a c
  exact hne (h k2 hk2 hnew a c ha hc (by omega) (by omega))

/-- A check of collision-freeness by enumeration. -/
def collisionCheck (H : Hasher N) (l : List (HIn N)) : Bool :=
  l.all fun i => l.all fun j => decide (i.hash H = j.hash H → i = j)

theorem collisionFree_of_check {H : Hasher N} {l : List (HIn N)} (h : collisionCheck H l = true) :
    CollisionFree H (Among l) := by
  intro i j hi hj
  simp only [collisionCheck, List.all_eq_true, decide_eq_true_eq] at h
  exact h i hi j hj

/-! ## Contents -/

theorem assign_mem (M : Contents N V) {keys : List (Arr N)} {values : List V}
    (hlen : keys.length = values.length) (hnd : keys.Nodup) {k : Arr N} {v : V}
    (h : (k, v) ∈ keys.zip values) : M.assign keys values k = some v := by
  unfold Contents.assign
  cases hf : (keys.zip values).find? (fun e => e.1 = k) with
  | none =>
    rw [List.find?_eq_none] at hf
    exact absurd (by simp) (hf _ h)
  | some e =>
    have h1 := List.find?_some hf
    have h2 := List.mem_of_find?_eq_some hf
    simp only [decide_eq_true_eq] at h1
    subst h1
    have hnd' : ((keys.zip values).map (·.1)).Nodup := by rw [zip_keys hlen]; exact hnd
    have := List.inj_on_of_nodup_map hnd' h h2 rfl
    rw [← this]

theorem assign_not_mem (M : Contents N V) {keys : List (Arr N)} (values : List V) {k : Arr N}
    (h : k ∉ keys) : M.assign keys values k = M k := by
  unfold Contents.assign
  cases hf : (keys.zip values).find? (fun e => e.1 = k) with
  | none => rfl
  | some e =>
    have h1 := List.find?_some hf
    have h2 := List.mem_of_find?_eq_some hf
    simp only [decide_eq_true_eq] at h1
    subst h1
    exact absurd (List.of_mem_zip h2).1 h

theorem assign_keeps (M : Contents N V) (keys : List (Arr N)) (values : List V) (k : Arr N)
    (h : M k ≠ none) : M.assign keys values k ≠ none := by
  unfold Contents.assign
  split
  · simp
  · exact h

theorem assign_ne_none (M : Contents N V) {keys : List (Arr N)} {values : List V}
    (hlen : keys.length = values.length) {k : Arr N} (h : k ∈ keys) :
    M.assign keys values k ≠ none := by
  unfold Contents.assign
  cases hf : (keys.zip values).find? (fun e => e.1 = k) with
  | none =>
    rw [← zip_keys hlen] at h
    obtain ⟨e, he, rfl⟩ := List.mem_map.1 h
    rw [List.find?_eq_none] at hf
    exact absurd (by simp) (hf _ he)
  | some e => simp

/-! ## Ledgers -/

variable {H : List (HIn N)} {R : List (Arr N)} {L : Ledger N V} {s : σ}

theorem Inserts.version (hc : Sane cfg) (h : Inserts cfg C H R L s)
    (hcf : CollisionFree cfg.hasher (Among H)) {r : Arr N} {M : Contents N V} (hr : (r, M) ∈ L) :
    IsVersion cfg (C.view s) r M := (inserts_inv hc.pos hc.pp h hcf).2.1 _ hr

theorem Inserts.sound (hc : Sane cfg) (h : Inserts cfg C H R L s)
    (hcf : CollisionFree cfg.hasher (Among H)) : Sound C (Among H) s :=
  (inserts_inv hc.pos hc.pp h hcf).1

theorem Inserts.tree (hc : Sane cfg) (h : Inserts cfg C H R L s)
    (hcf : CollisionFree cfg.hasher (Among H)) {r : Arr N} (hr : r ∈ R) :
    HasTree cfg (C.view s) r := (inserts_inv hc.pos hc.pp h hcf).2.2 _ hr

theorem Outcome.alive {db : Database N σ} {C : DbContract db} {α : Type} {r e : Res α}
    (h : Outcome C s r e) (hs : C.alive s) : r = e := by
  rcases h with h | ⟨h, _⟩
  · exact h
  · exact absurd hs h

/-- A batch that meets the demands on batches, inserted on top of a version of the ledger: it
succeeds and gives the updated version. -/
theorem Inserts.insert_ok (hc : Sane cfg) (h : Inserts cfg C H R L s) (hs : C.alive s)
    {prev : Option (Arr N)} {M : Contents N V} {keys : List (Arr N)} {values : List V}
    (hcf : CollisionFree cfg.hasher (Among (hashedBy cfg prev keys values s ++ H)))
    (hprev : L.Prev prev M) (hd : HeightBelow M (cfg.depth + 1)) (hns : Handled cfg M keys)
    (hlen : keys.length = values.length) (hne : keys ≠ []) (hnd : keys.Nodup)
    (henc : ∀ v ∈ values, ∃ b, cfg.encode v = .ok b) :
    ∃ r s', insert cfg prev keys values s = (.ok r, s') ∧ C.alive s' ∧
      Inserts cfg C (hashedBy cfg prev keys values s ++ H) (r :: R)
        ((r, M.assign keys values) :: L) s' := by
  have hsub : ∀ i, Among H i → Among (hashedBy cfg prev keys values s ++ H) i :=
    fun i hi => List.mem_append_right _ hi
  obtain ⟨hso, hL, -⟩ := inserts_inv hc.pos hc.pp h (hcf.mono hsub)
  have := insert_version (C := C) hc.pos hc.pp hcf (s0 := s) (keys := keys) (values := values)
    (fun i hi => List.mem_append_left _ hi) (hso.inv.mono hsub).sound (hprev.prevIs hL)
    (fun _ => hns)
  unfold Ends at this
  rcases hrun : insert cfg prev keys values s with ⟨res, s'⟩
  rw [hrun] at this
  cases res with
  | ok r => exact ⟨r, s', rfl, this.1 hs, .good h hprev hns hrun⟩
  | error e =>
    exfalso
    rcases this.1 with ⟨⟨-, hb⟩, -⟩ | ⟨h1, -⟩
    · rcases hb with hb | hb | hb | ⟨v, hv, e, he⟩ | hb
      · exact hb hlen
      · exact hne hb
      · exact hb hnd
      · obtain ⟨b, hb⟩ := henc v hv
        rw [hb] at he; cases he
      · exact hb hd
    · exact h1 hs

/-- Reads of a version of the ledger. -/
theorem Inserts.getOne (hc : Sane cfg) (h : Inserts cfg C H R L s) (hs : C.alive s)
    (hcf : CollisionFree cfg.hasher (Among H)) {r : Arr N} {M : Contents N V} (hr : (r, M) ∈ L)
    (hd : HeightBelow M cfg.depth) (k : Arr N) : getOne cfg s r k = .ok (M k) :=
  (version_getOne (C := C) hc.pos hc.codec hd (h.version hc hcf hr) k).alive hs

theorem Inserts.get (hc : Sane cfg) (h : Inserts cfg C H R L s) (hs : C.alive s)
    (hcf : CollisionFree cfg.hasher (Among H)) {r : Arr N} {M : Contents N V} (hr : (r, M) ∈ L)
    (hd : HeightBelow M (cfg.depth + 1)) (keys : List (Arr N)) : ∃ m, get cfg s r keys = .ok m ∧
      (∀ k, k ∉ keys → m.get? k = none) ∧
      (∀ k ∈ keys, m.get? k = some (M k) ∨ m.get? k = some none) ∧
      (∀ k ∈ keys, m.get? k = some (M k) ↔ (M k = none ∨ Finds cfg M keys k)) := by
  obtain ⟨m, h1, h2⟩ := version_get (C := C) hc.pos hc.pp hc.codec hd
    (h.version hc hcf hr) keys
  exact ⟨m, h1.alive hs, h2⟩

/-- Reads of a version of the ledger that open what they have to. -/
theorem Inserts.get_all (hc : Sane cfg) (h : Inserts cfg C H R L s) (hs : C.alive s)
    (hcf : CollisionFree cfg.hasher (Among H)) {r : Arr N} {M : Contents N V} (hr : (r, M) ∈ L)
    (hd : HeightBelow M (cfg.depth + 1)) {keys : List (Arr N)} (hns : Handled cfg M keys) :
    ∃ m, MerkleBit.get cfg s r keys = .ok m ∧ (∀ k, k ∉ keys → m.get? k = none) ∧
      ∀ k ∈ keys, m.get? k = some (M k) := by
  obtain ⟨m, h1, h2, -, h4⟩ := h.get hc hs hcf hr hd keys
  exact ⟨m, h1, h2, fun k hk => (h4 k hk).2 (.inr (hns k hk))⟩

end MerkleBit
