import Verif.Proof.Exact
import Verif.Props.Versions
import Verif.Props.Calls
/-!
# C02, C04: which batches are inserted properly

`Spec/Opened.lean` follows the keys of a call through the tree; `Handled` says that they open every place
where one of them belongs.  Here is the proof that this condition cannot be weakened.
-/

namespace MerkleBit

section
variable {N : Nat} {σ σ' V : Type} {cfg : Config N σ V} {C : DbContract cfg.db} {H : List (HIn N)}
  {R : List (Arr N)} {L : Ledger N V} {s : σ} {cfg' : Config N σ' V} {C' : DbContract cfg'.db}
  {H' : List (HIn N)} {R' : List (Arr N)} {L' : Ledger N V} {s' : σ'}

/-- C04, exactly: an insert that was accepted on top of a version returns the root that its contents have
elsewhere (in the same or in another database, inserted in any other way) if and only if the batch
opened every place where one of its keys belongs. -/
theorem C04_insert_exact (hc : Sane cfg) (hc' : Sane cfg') (hhash : cfg'.hasher = cfg.hasher)
    (henc : cfg'.encode = cfg.encode) (h : Inserts cfg C H R L s) (h' : Inserts cfg' C' H' R' L' s')
    {r0 r r' : Arr N} {M : Contents N V} {keys : List (Arr N)} {values : List V} {s1 : σ}
    (hcf : CollisionFree cfg.hasher (Among (hashedBy cfg (some r0) keys values s ++ H ++ H')))
    (hr : (r0, M) ∈ L) (hr' : (r', M.assign keys values) ∈ L')
    (hrun : insert cfg (some r0) keys values s = (.ok r, s1)) :
    r = r' ↔ Handled cfg M keys := by
  have hsub1 : ∀ i, Among (hashedBy cfg (some r0) keys values s ++ H) i →
      Among (hashedBy cfg (some r0) keys values s ++ H ++ H') i :=
    fun i hi => List.mem_append_left _ hi
  have hsub2 : ∀ i, Among H' i → Among (hashedBy cfg (some r0) keys values s ++ H ++ H') i :=
    fun i hi => List.mem_append_right _ hi
  have hsub0 : ∀ i, Among H i → Among (hashedBy cfg (some r0) keys values s ++ H ++ H') i :=
    fun i hi => hsub1 i (List.mem_append_right _ hi)
  have hcf1 := hcf.mono hsub1
  have hcf2 : CollisionFree cfg'.hasher (Among H') := by rw [hhash]; exact hcf.mono hsub2
  constructor
  · rintro rfl
    have hsound := ((h.sound hc (hcf.mono hsub0)).inv.mono hsub0).sound
    have := insert_opened (C := C) hc.pos hc.pp hcf (values := values) (keys := keys)
      (fun i hi => hsub1 i (List.mem_append_left _ hi)) hsound (h.version hc (hcf.mono hsub0) hr)
    unfold Ends at this
    rw [hrun] at this
    obtain ⟨-, T, hT, hin, hw⟩ := this
    obtain ⟨T', hwf', hloc', hst', -⟩ := h'.version hc' hcf2 hr'
    have hin' := (hst'.honest hcf2 (h'.sound hc' hcf2).view).2
    rw [hhash] at hloc' hin'
    have : T = T' := Trie.eq_of_loc hcf hin (fun i hi => hsub2 i (hin' i hi)) (hT.symm.trans hloc'.symm)
    exact hw (this ▸ hwf')
  · intro hns
    exact C04_root_history_independent_partial hc hc' hhash henc
      (.good h (prev := some r0) hr hns hrun) hcf1 h' hcf2 List.mem_cons_self hr'

/-- C02, exactly: a batch of distinct keys is accepted on top of a version and gives the root of the new
contents if and only if it opens every place where one of its keys belongs. -/
theorem C02_insert_exact (hc : Sane cfg) (hc' : Sane cfg') (hhash : cfg'.hasher = cfg.hasher)
    (henc : cfg'.encode = cfg.encode) (h : Inserts cfg C H R L s) (hs : C.alive s)
    (h' : Inserts cfg' C' H' R' L' s')
    {r0 r' : Arr N} {M : Contents N V} {keys : List (Arr N)} {values : List V}
    (hcf : CollisionFree cfg.hasher (Among (hashedBy cfg (some r0) keys values s ++ H ++ H')))
    (hr : (r0, M) ∈ L) (hr' : (r', M.assign keys values) ∈ L')
    (hlen : keys.length = values.length) (hne : keys ≠ []) (hnd : keys.Nodup)
    (hval : ∀ v ∈ values, ∃ b, cfg.encode v = .ok b) (hd : HeightBelow M (cfg.depth + 1)) :
    (∃ s1, insert cfg (some r0) keys values s = (.ok r', s1)) ↔ Handled cfg M keys := by
  constructor
  · rintro ⟨s1, hrun⟩
    exact (C04_insert_exact hc hc' hhash henc h h' hcf hr hr' hrun).1 rfl
  · intro hns
    obtain ⟨r, s1, hrun, -⟩ := h.insert_ok hc hs (prev := some r0)
      (hcf.mono (fun i hi => List.mem_append_left _ hi)) hr hd hns hlen hne hnd hval
    exact ⟨s1, by rw [hrun, (C04_insert_exact hc hc' hhash henc h h' hcf hr hr' hrun).2 hns]⟩

/-- C11, exactly: the pairs of a batch of distinct keys can always be inserted one at a time, in any order;
inserting them at once gives the same root if and only if the batch opens every place where one of its
keys belongs. -/
theorem C11_batching_exact (hc : Sane cfg) (h : Inserts cfg C H R L s)
    (hs : C.alive s) {prev : Option (Arr N)} {M : Contents N V} (hprev : L.Prev prev M)
    {keys : List (Arr N)} {values : List V} (hlen : keys.length = values.length) (hne : keys ≠ [])
    (hnd : keys.Nodup) (henc : ∀ v ∈ values, ∃ b, cfg.encode v = .ok b) {pairs : List (Arr N × V)}
    (hd : HeightBelow (M.assign keys values) (cfg.depth + 1))
    (hperm : pairs.Perm (keys.zip values))
    (hcf : CollisionFree cfg.hasher
      (Among (hashedBy cfg prev keys values s ++ H ++ (hashedByEach cfg prev pairs s ++ H)))) :
    ∃ r s2, insertEach cfg prev pairs s = (.ok (some r), s2) ∧
      ((∃ s1, insert cfg prev keys values s = (.ok r, s1)) ↔ Handled cfg M keys) := by
  have hcf1 := hcf.mono (U := Among (hashedBy cfg prev keys values s ++ H))
    (fun i hi => List.mem_append_left _ hi)
  have hcf2 := hcf.mono (U := Among (hashedByEach cfg prev pairs s ++ H))
    (fun i hi => List.mem_append_right _ hi)
  obtain ⟨last, s2, R', L', hrun2, -, h2, hl⟩ := Inserts.each hc h hs hprev
    (by rw [foldl_assign_eq M hlen hnd hperm]; exact hd) (by
    intro e he
    exact henc e.2 (List.of_mem_zip (hperm.mem_iff.1 he)).2) hcf2
  rw [foldl_assign_eq M hlen hnd hperm] at hl
  cases last with
  | none =>
    exfalso
    obtain ⟨k, hk⟩ := List.exists_mem_of_ne_nil _ hne
    have : M.assign keys values k = none := by rw [show M.assign keys values = _ from hl]; rfl
    exact assign_ne_none M hlen hk this
  | some r =>
    refine ⟨r, s2, hrun2, ?_⟩
    cases prev with
    | some r0 =>
      exact C02_insert_exact hc hc rfl rfl h hs h2 hcf hprev hl hlen hne hnd henc
        (hd.subset (assign_keeps M keys values))
    | none =>
      have hM : M = Contents.empty := hprev
      subst hM
      refine ⟨fun _ => handled_empty _, fun _ => ?_⟩
      obtain ⟨r', s1, hrun, -, h1⟩ := h.insert_ok hc hs (prev := none) hcf1 rfl
        (heightBelow_empty _) (handled_empty _) hlen hne hnd henc
      exact ⟨s1, by rw [hrun, C04_root_history_independent_partial hc hc rfl rfl h1 hcf1 h2 hcf2
        List.mem_cons_self hl]⟩

/-- The condition, on the compact trie of the contents. -/
theorem handled_iff {T : Trie N} {M : Contents N V} (hT : T.WF) (hM : Represents cfg T M)
    {keys : List (Arr N)} : Handled cfg M keys ↔ ∀ k ∈ keys, Opened cfg.pp k T (sortKeys keys) :=
  ⟨fun h k hk => h k hk T hT hM, fun h k hk T' hT' hM' => by
    rw [Represents.unique hT' hT hM' hM]; exact h k hk⟩

end

/-! ## Concrete batches -/

namespace Toy

/-- The contents 0x0080, 0x00C0. -/
def twoM : Contents 2 (List UInt8) := Contents.empty.assign ([0x80, 0xC0].map key) [[1], [2]]

/-- Their trie. -/
def twoT : Trie 2 := .node (.leaf (key 0x80) [1]) (.leaf (key 0xC0) [2])

theorem twoT_wf : twoT.WF := ⟨trivial, trivial, by decide +kernel, by decide +kernel, by decide +kernel⟩

theorem two_rep : Represents cfg twoT twoM := by
  intro k
  by_cases h1 : k = key 0x80
  · subst h1; exact ⟨[1], rfl, by decide +kernel⟩
  · by_cases h2 : k = key 0xC0
    · subst h2; exact ⟨[2], rfl, by decide +kernel⟩
    · have hM : twoM k = none := by
        unfold twoM
        rw [assign_not_mem _ _ (by simp [h1, h2])]; rfl
      rw [hM]
      change twoT.lookup k = none
      simp [twoT, Trie.lookup, Trie.entries, List.find?, Ne.symm h1, Ne.symm h2]

instance {N : Nat} (pp : PartitionPoint N) (k : Arr N) : ∀ (t : Trie N) (D : List (Arr N)),
    Decidable (Opened pp k t D)
  | .leaf _ _, _ => by unfold Opened; infer_instance
  | .node l r, D => by
    have := fun D => instDecidableOpened pp k l D
    have := fun D => instDecidableOpened pp k r D
    unfold Opened
    infer_instance

/-- A batch that straddles the branch but is handled: `0x0000` is taken for a descendant, to no harm. -/
theorem three_handled : Handled cfg twoM ([0, 0xC0, 0x100].map key) :=
  (handled_iff twoT_wf two_rep).2 (by decide +kernel)

theorem three_straddles : ¬ NoStraddle cfg twoM ([0, 0xC0, 0x100].map key) := fun h => by
  have := (h twoT twoT_wf two_rep).1
  refine this ⟨key 0x100, by decide +kernel, by decide +kernel, by decide +kernel, by decide +kernel,
    key 0, by decide +kernel⟩

/-- The request of `C07_false` does not find the key `0x0080`. -/
theorem four_misses : ¬ Finds cfg twoM ([0x40, 0x80, 0xC0, 0x100].map key) (key 0x80) := fun h =>
  absurd (h twoT twoT_wf two_rep) (by decide +kernel)

theorem two_run : insert cfg none ([0x80, 0xC0].map key) [[1], [2]] db0 =
    (.ok (key 35239), (ins none [0x80, 0xC0] [1, 2] db0).2) := outcome (by decide +kernel)

theorem two_hist : Inserts cfg C (hashedBy cfg none ([0x80, 0xC0].map key) [[1], [2]] db0 ++ [])
    [key 35239] [(key 35239, twoM)] (ins none [0x80, 0xC0] [1, 2] db0).2 :=
  .good hist0 (prev := none) rfl (handled_empty _) two_run

end Toy

/-- The exact answers of C07 for the request of `C07_false`. -/
example : ∃ m, get Toy.cfg (Toy.ins none [0x80, 0xC0] [1, 2] Toy.db0).2 (Toy.key 35239)
    ([0x40, 0x80, 0xC0, 0x100].map Toy.key) = .ok m ∧ m.get? (Toy.key 0x80) = some none := by
  obtain ⟨m, h1, -, h2⟩ := C07_get_exact Toy.sane Toy.two_hist (Toy.alive _)
    (collisionFree_of_check (by decide +kernel)) (List.mem_singleton.2 rfl) (Toy.deep _).succ
    ([0x40, 0x80, 0xC0, 0x100].map Toy.key)
  exact ⟨m, h1, (h2 _ (by decide)).2 Toy.four_misses⟩

/-- A straddling batch that is handled gives the root of all four pairs inserted at once. -/
example : ∃ r s', insert Toy.cfg none ([0, 0x80, 0xC0, 0x100].map Toy.key) [[3], [1], [4], [5]] Toy.db0 =
      (.ok r, s') ∧
    ∃ s1, insert Toy.cfg (some (Toy.key 35239)) ([0, 0xC0, 0x100].map Toy.key) [[3], [4], [5]]
      (Toy.ins none [0x80, 0xC0] [1, 2] Toy.db0).2 = (.ok r, s1) := by
  obtain ⟨r, s', hrun, -, h'⟩ := Toy.hist0.insert_ok Toy.sane (Toy.alive _) (prev := none)
    (keys := [0, 0x80, 0xC0, 0x100].map Toy.key) (values := [[3], [1], [4], [5]])
    (collisionFree_of_check (by decide +kernel)) rfl (heightBelow_empty _) (handled_empty _) rfl
    (by decide) (by decide) (fun v _ => ⟨v, rfl⟩)
  refine ⟨r, s', hrun, ?_⟩
  have hM : Contents.empty.assign ([0, 0x80, 0xC0, 0x100].map Toy.key) [[3], [1], [4], [5]] =
      Toy.twoM.assign ([0, 0xC0, 0x100].map Toy.key) [[3], [4], [5]] := by
    funext k
    by_cases h : k ∈ [0, 0x80, 0xC0, 0x100].map Toy.key
    · have : ∀ k ∈ [0, 0x80, 0xC0, 0x100].map Toy.key,
        (Contents.empty.assign ([0, 0x80, 0xC0, 0x100].map Toy.key) [[3], [1], [4], [5]]) k =
          Toy.twoM.assign ([0, 0xC0, 0x100].map Toy.key) [[3], [4], [5]] k := by decide +kernel
      exact this k h
    · simp only [List.map_cons, List.map_nil, List.mem_cons, List.not_mem_nil, or_false, not_or] at h
      rw [assign_not_mem _ _ (by simpa using h), assign_not_mem _ _ (by simp [h]), Toy.twoM,
        assign_not_mem _ _ (by simp [h])]
  rw [hM] at h'
  refine (C02_insert_exact Toy.sane Toy.sane rfl rfl Toy.two_hist (Toy.alive _) h'
    (collisionFree_of_check (by decide +kernel)) (List.mem_singleton.2 rfl) List.mem_cons_self rfl
    (by decide) (by decide) (fun v _ => ⟨v, rfl⟩) (Toy.deep _).succ).2 Toy.three_handled

/-- The batch of `C11_false`, exactly. -/
example : ∃ r s2, insertEach Toy.cfg (some (Toy.key 35239))
      (([0x40, 0x80, 0xC0, 0x100].map Toy.key).zip [[5], [6], [7], [8]])
      (Toy.ins none [0x80, 0xC0] [1, 2] Toy.db0).2 = (.ok (some r), s2) ∧
    ¬ ∃ s1, insert Toy.cfg (some (Toy.key 35239)) ([0x40, 0x80, 0xC0, 0x100].map Toy.key)
      [[5], [6], [7], [8]] (Toy.ins none [0x80, 0xC0] [1, 2] Toy.db0).2 = (.ok r, s1) := by
  obtain ⟨r, s2, h1, h2⟩ := C11_batching_exact Toy.sane Toy.two_hist (Toy.alive _)
    (prev := some (Toy.key 35239)) (M := Toy.twoM) (List.mem_singleton.2 rfl)
    (keys := [0x40, 0x80, 0xC0, 0x100].map Toy.key) (values := [[5], [6], [7], [8]]) rfl
    (by decide) (by decide) (fun v _ => ⟨v, rfl⟩) (Toy.deep _).succ (List.Perm.refl _)
    (collisionFree_of_check (by decide +kernel))
  exact ⟨r, s2, h1, fun h => Toy.four_misses (h2.1 h _ (by decide))⟩

end MerkleBit
