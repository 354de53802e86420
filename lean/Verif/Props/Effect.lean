import Verif.Proof.Effect
import Verif.Props.Exact
/-!
# C77: what an insert does to every key

Batches that are not `Handled` are refused, or change more than they should.  Here is exactly when they
are refused, and exactly which keys lose their values when they are not.
-/

namespace MerkleBit

section
variable {N : Nat} {σ V : Type} {cfg : Config N σ V} {C : DbContract cfg.db} {H : List (HIn N)}
  {R : List (Arr N)} {L : Ledger N V} {s : σ}

/-- C77: any batch of distinct keys on top of a version.  It is refused, with the message about duplicate
keys, if and only if one of its keys is the smallest key of a subtree that the batch leaves closed.
Otherwise every key of the batch reads its new value under the new root, and a key outside the batch reads
as before, unless it is in a closed subtree and some key of the batch agrees with the smallest key of that
subtree for at least as many bits: then it has no value any more. -/
theorem C77_effect_of_insert (hc : Sane cfg) (h : Inserts cfg C H R L s) (hs : C.alive s)
    {r0 : Arr N} {M : Contents N V} {keys : List (Arr N)} {values : List V}
    (hcf : CollisionFree cfg.hasher (Among (hashedBy cfg (some r0) keys values s ++ H)))
    (hr : (r0, M) ∈ L) (hlen : keys.length = values.length) (hne : keys ≠ []) (hnd : keys.Nodup)
    (henc : ∀ v ∈ values, ∃ b, cfg.encode v = .ok b) (hd : 8 * N < cfg.depth) :
    (Refused cfg M keys ∧ ∃ s', insert cfg (some r0) keys values s =
      (.error (.exception "Attempted to insert item with duplicate keys"), s')) ∨
    (¬ Refused cfg M keys ∧ ∃ r s', insert cfg (some r0) keys values s = (.ok r, s') ∧ C.alive s' ∧
      (∀ k v, (k, v) ∈ keys.zip values → getOne cfg s' r k = .ok (some v)) ∧
      ∀ k ∉ keys,
        (Lost cfg M keys k → DeepOr N cfg.depth (getOne cfg s' r k) none) ∧
        (¬ Lost cfg M keys k → DeepOr N cfg.depth (getOne cfg s' r k) (M k))) := by
  have hsub : ∀ i, Among H i → Among (hashedBy cfg (some r0) keys values s ++ H) i :=
    fun i hi => List.mem_append_right _ hi
  have hsound := ((h.sound hc (hcf.mono hsub)).inv.mono hsub).sound
  have := insert_effect (C := C) hc.pos hc.pp hc.codec hcf (keys := keys) (values := values)
    (fun i hi => List.mem_append_left _ hi) hsound (h.version hc (hcf.mono hsub) hr) hlen hne hnd henc hd
  unfold Ends at this
  rcases hrun : insert cfg (some r0) keys values s with ⟨res, s'⟩
  rw [hrun] at this
  cases res with
  | ok r =>
    obtain ⟨hal, hnr, T, rfl, hn, hst, hb, ho⟩ := this
    have hs' := hal hs
    have hread := fun k => (getOne_stored (C := C) hc.pos hn hst k).alive hs'
    refine .inr ⟨hnr, _, s', rfl, hs', fun k v hkv => ?_, fun k hk => ?_⟩
    · rw [hread, hb _ hkv]
    · rw [hread]; exact ho k hk
  | error e =>
    rcases this.1 with ⟨⟨rfl, hrf⟩, -⟩ | ⟨h1, -⟩
    · exact .inl ⟨hrf, s', rfl⟩
    · exact absurd hs h1

/-- C77, for batches of new keys: they are never refused, and all that was stored keeps its value if and
only if the batch opens every place where one of its keys belongs (the depth limit being above `16 N`). -/
theorem C77_new_keys (hc : Sane cfg) (h : Inserts cfg C H R L s) (hs : C.alive s)
    {r0 : Arr N} {M : Contents N V} {keys : List (Arr N)} {values : List V}
    (hcf : CollisionFree cfg.hasher (Among (hashedBy cfg (some r0) keys values s ++ H)))
    (hr : (r0, M) ∈ L) (hlen : keys.length = values.length) (hne : keys ≠ []) (hnd : keys.Nodup)
    (henc : ∀ v ∈ values, ∃ b, cfg.encode v = .ok b) (hd : 16 * N < cfg.depth)
    (hnew : ∀ k ∈ keys, M k = none) :
    ∃ r s', insert cfg (some r0) keys values s = (.ok r, s') ∧
      (∀ k v, (k, v) ∈ keys.zip values → getOne cfg s' r k = .ok (some v)) ∧
      ((∀ k, M k ≠ none → getOne cfg s' r k = .ok (M k)) ↔ Handled cfg M keys) := by
  obtain ⟨P, hP, -, -, hPM⟩ := h.version hc (hcf.mono (fun i hi => List.mem_append_right _ hi)) hr
  rcases C77_effect_of_insert hc h hs hcf hr hlen hne hnd henc (by omega) with
    ⟨⟨T, hT, hTM, u, hu, hk⟩, -⟩ | ⟨hnr, r, s', hrun, -, hb, ho⟩
  · have hne' : sortKeys keys ≠ [] := fun h => hne (by simpa [h] using (sortKeys_perm keys).symm)
    have hsub := trav_sub T _ u ((closed_trav hc.pos hc.pp (Q := sortKeys keys) hT
      (sortKeys_sorted keys) hne').1 u hu)
    exact absurd (hnew _ hk) (hTM.mem.1 (Sub.key_mem hsub))
  · have deep : ∀ {x : Res (Option V)} {a}, DeepOr N cfg.depth x a → x = .ok a := by
      rintro x a (h | ⟨h, -⟩)
      · exact h
      · omega
    refine ⟨r, s', hrun, hb, fun hall => ?_, fun hh k hk => ?_⟩
    · by_contra hh
      obtain ⟨k, hkP, hl⟩ := unhandled_loses hc.pos hc.pp hP hPM hh hnr
      have hMk := hPM.mem.1 hkP
      have := deep ((ho k fun hk => hMk (hnew k hk)).1 hl)
      rw [hall k hMk] at this
      exact hMk (by simpa using this)
    · exact deep ((ho k fun hk' => hk (hnew k hk')).2 ((handled_keeps hc.pos hc.pp hh).2 k))

/-- Which batches are refused, on the compact trie of the contents. -/
theorem refused_on {T : Trie N} {M : Contents N V} (hT : T.WF) (hM : Represents cfg T M)
    {keys : List (Arr N)} :
    Refused cfg M keys ↔ ∃ u ∈ closed cfg.pp T (sortKeys keys), u.key ∈ keys :=
  ⟨fun ⟨T', hT', hM', h⟩ => by rwa [Represents.unique hT' hT hM' hM] at h, fun h => ⟨T, hT, hM, h⟩⟩

/-- Which keys lose their values, on the compact trie of the contents. -/
theorem lost_on {T : Trie N} {M : Contents N V} (hT : T.WF) (hM : Represents cfg T M)
    {keys : List (Arr N)} {k : Arr N} :
    Lost cfg M keys k ↔ ∃ u ∈ closed cfg.pp T (sortKeys keys), k ∈ u.keys ∧
      ∃ k' ∈ keys, firstDiff k u.key ≤ firstDiff k' u.key :=
  ⟨fun ⟨T', hT', hM', h⟩ => by rwa [Represents.unique hT' hT hM' hM] at h, fun h => ⟨T, hT, hM, h⟩⟩

end

/-! ## The batches of `C02_false` and `C02_false_refused` -/

namespace Toy

/-- The trie of 0x0080, 0x0090, 0x00A0, 0x00C0. -/
def fourT : Trie 2 := .node (.node (.node (.leaf (key 0x80) [1]) (.leaf (key 0x90) [2]))
  (.leaf (key 0xA0) [3])) (.leaf (key 0xC0) [4])

theorem fourT_wf : fourT.WF := by
  refine ⟨⟨⟨trivial, trivial, ?_, ?_, ?_⟩, trivial, ?_, ?_, ?_⟩, trivial, ?_, ?_, ?_⟩ <;> decide +kernel

/-- Their contents. -/
def fourM : Contents 2 (List UInt8) :=
  Contents.empty.assign ([0x80, 0x90, 0xA0, 0xC0].map key) [[1], [2], [3], [4]]

theorem four_rep : Represents cfg fourT fourM := by
  intro k
  by_cases h : k ∈ [0x80, 0x90, 0xA0, 0xC0].map key
  · simp only [List.map_cons, List.map_nil, List.mem_cons, List.not_mem_nil, or_false] at h
    rcases h with rfl | rfl | rfl | rfl
    · exact ⟨[1], rfl, by decide +kernel⟩
    · exact ⟨[2], rfl, by decide +kernel⟩
    · exact ⟨[3], rfl, by decide +kernel⟩
    · exact ⟨[4], rfl, by decide +kernel⟩
  · have hM : fourM k = none := by
      unfold fourM
      rw [assign_not_mem _ _ h]; rfl
    simp only [List.map_cons, List.map_nil, List.mem_cons, List.not_mem_nil, or_false, not_or] at h
    rw [hM]
    change fourT.lookup k = none
    simp [fourT, Trie.lookup, Trie.entries, List.find?, Ne.symm h.1, Ne.symm h.2.1, Ne.symm h.2.2.1,
      Ne.symm h.2.2.2]

end Toy

/-- The batch of `C02_false_refused` is refused because 0x0080 is the smallest key of a closed subtree. -/
example : Refused Toy.cfg Toy.twoM ([0x40, 0x80, 0xC0, 0x100].map Toy.key) :=
  (refused_on Toy.twoT_wf Toy.two_rep).2 (by decide +kernel)

/-- The batch of `C02_false`: it is not refused; 0x00A0 is lost, and 0x0080 is not. -/
example : ∃ r s', insert Toy.cfg (some (Toy.key 31137)) ([0x40, 0x90, 0xC0, 0x100].map Toy.key)
      [[5], [6], [7], [8]] Toy.lossBefore.2 = (.ok r, s') ∧
    DeepOr 2 17 (getOne Toy.cfg s' r (Toy.key 0xA0)) none ∧
    DeepOr 2 17 (getOne Toy.cfg s' r (Toy.key 0x80)) (some [1]) := by
  rcases C77_effect_of_insert Toy.sane Toy.lossHist (Toy.alive _) (r0 := Toy.key 31137) (M := Toy.fourM)
    (keys := [0x40, 0x90, 0xC0, 0x100].map Toy.key) (values := [[5], [6], [7], [8]])
    (collisionFree_of_check (by decide +kernel)) (List.mem_singleton.2 rfl) rfl (by decide) (by decide)
    (fun v _ => ⟨v, rfl⟩) (by decide) with ⟨h, -⟩ | ⟨-, r, s', hrun, -, -, ho⟩
  · exact absurd ((refused_on Toy.fourT_wf Toy.four_rep).1 h) (by decide +kernel)
  · exact ⟨r, s', hrun,
      (ho (Toy.key 0xA0) (by decide)).1 ((lost_on Toy.fourT_wf Toy.four_rep).2 (by decide +kernel)),
      (ho (Toy.key 0x80) (by decide)).2 fun h =>
        absurd ((lost_on Toy.fourT_wf Toy.four_rep).1 h) (by decide +kernel)⟩

/-- The toy tree with a depth limit above `16 N`. -/
def Toy.deepCfg : Config 2 (HashDB 2) (List UInt8) := Toy.cfg.withDepth 40

theorem Toy.deepSane : Sane Toy.deepCfg := ⟨Toy.sane.pos, Toy.sane.pp, Toy.sane.codec⟩

theorem Toy.deepHist : Inserts Toy.deepCfg Toy.C
    (hashedBy Toy.deepCfg none ([0x80, 0x90, 0xA0, 0xC0].map Toy.key) [[1], [2], [3], [4]] Toy.db0 ++ [])
    [Toy.key 31137] [(Toy.key 31137, Toy.fourM)]
    (insert Toy.deepCfg none ([0x80, 0x90, 0xA0, 0xC0].map Toy.key) [[1], [2], [3], [4]] Toy.db0).2 :=
  .good (.start rfl rfl) (prev := none) rfl (handled_empty _) (outcome (by decide +kernel))

/-- A batch of new keys only that takes the values of stored keys away. -/
example : ∃ r s', insert Toy.deepCfg (some (Toy.key 31137)) ([0x40, 0x84, 0xD0, 0x100].map Toy.key)
      [[5], [6], [7], [8]] (insert Toy.deepCfg none ([0x80, 0x90, 0xA0, 0xC0].map Toy.key)
        [[1], [2], [3], [4]] Toy.db0).2 = (.ok r, s') ∧
    ¬ ∀ k, Toy.fourM k ≠ none → getOne Toy.deepCfg s' r k = .ok (Toy.fourM k) := by
  obtain ⟨r, s', hrun, -, hiff⟩ := C77_new_keys Toy.deepSane Toy.deepHist trivial
    (r0 := Toy.key 31137) (M := Toy.fourM) (keys := [0x40, 0x84, 0xD0, 0x100].map Toy.key)
    (values := [[5], [6], [7], [8]]) (collisionFree_of_check (by decide +kernel))
    (List.mem_singleton.2 rfl) rfl (by decide) (by decide) (fun v _ => ⟨v, rfl⟩) (by decide)
    (fun k hk => by
      simp only [List.map_cons, List.map_nil, List.mem_cons, List.not_mem_nil, or_false] at hk
      rcases hk with rfl | rfl | rfl | rfl <;> decide +kernel)
  refine ⟨r, s', hrun, fun h => ?_⟩
  have := (handled_iff (cfg := Toy.deepCfg) Toy.fourT_wf Toy.four_rep).1 (hiff.1 h) (Toy.key 0x84)
    (List.mem_map_of_mem (by decide))
  exact absurd this (by decide +kernel)

end MerkleBit
