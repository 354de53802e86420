import Verif.Spec.Live
import Verif.Proof.Fresh
/-!
# Parts of versions are held by subtrees
-/

namespace MerkleBit
open Trie
variable {N : Nat} {σ V : Type}

theorem partOf_of_sub {cfg : Config N σ V} (hc : RoundTrip cfg) {T T' : Trie N} (hT : T.WF)
    (hT' : T'.WF) {M M' : Contents N V} (hM : Represents cfg T M) (hM' : Represents cfg T' M')
    (hs : T.Sub T') : M.PartOf M' := by
  refine ⟨T.key, T.split, fun k' => ?_⟩
  refine (hM k').unique hc ?_
  have hcut := fun v => Sub.cuts hT' hs (k', v)
  split
  · next hd =>
    have : T.lookup k' = T'.lookup k' := by
      apply Option.ext
      intro v
      rw [lookup_eq_some_iff hT, lookup_eq_some_iff hT', hcut v]
      exact ⟨fun h => h.1, fun h => ⟨h, hd⟩⟩
    rw [this]
    exact hM' k'
  · next hd =>
    show T.lookup k' = none
    cases hl : T.lookup k' with
    | none => rfl
    | some v => exact absurd ((hcut v).1 ((lookup_eq_some_iff hT).1 hl)).2 hd

theorem sub_of_partOf {cfg : Config N σ V} {T T' : Trie N} (hT : T.WF)
    (hT' : T'.WF) {M M' : Contents N V} (hM : Represents cfg T M) (hM' : Represents cfg T' M')
    (hp : M.PartOf M') : T.Sub T' := by
  obtain ⟨k, d, hp⟩ := hp
  have hlk : ∀ k', T.lookup k' = if d ≤ firstDiff k k' then T'.lookup k' else none := by
    intro k'
    have h1 := hM k'
    have h2 := hM' k'
    rw [hp k'] at h1
    split
    · next hd =>
      rw [if_pos hd] at h1
      cases hm : M' k' with
      | none => rw [hm] at h1 h2; rw [show T.lookup k' = none from h1, show T'.lookup k' = none from h2]
      | some v =>
        rw [hm] at h1 h2
        obtain ⟨b, h3, h4⟩ := h1
        obtain ⟨b', h5, h6⟩ := h2
        rw [h3] at h5
        cases h5
        rw [h4, h6]
    · next hd =>
      rw [if_neg hd] at h1
      exact h1
  have hkeys : ∀ x ∈ T.keys, d ≤ firstDiff k x := by
    intro x hx
    obtain ⟨v, hv⟩ := mem_keys.1 hx
    have := (lookup_eq_some_iff hT).2 hv
    rw [hlk x] at this
    by_contra hd
    rw [if_neg hd] at this
    cases this
  have hd : d ≤ T.split := by
    cases T with
    | leaf k' v =>
      exact Nat.le_trans (hkeys k' (by simp [Trie.keys, Trie.entries])) (firstDiff_le _ _)
    | node l r =>
      have h1 := hkeys l.key (by simp [keys_node, l.key_mem])
      have h2 := hkeys r.key (by simp [keys_node, r.key_mem])
      have h3 := min_le_firstDiff l.key k r.key
      rw [firstDiff_comm l.key k] at h3
      simp only [Trie.split]
      omega
  refine Cuts.sub hT hT' ?_
  rintro ⟨x, v⟩
  rw [← lookup_eq_some_iff hT, ← lookup_eq_some_iff hT', hlk x]
  have hkey := hkeys _ T.key_mem
  constructor
  · intro h
    split at h
    · refine ⟨h, ?_⟩
      have := hT.agree x (mem_keys.2 ⟨v, (lookup_eq_some_iff hT).1 (by rw [hlk x, if_pos ‹_›, h])⟩)
      rwa [firstDiff_comm] at this
    · cases h
  · rintro ⟨h, h1⟩
    have := min_le_firstDiff k T.key x
    rw [if_pos (by simp only at h1; omega)]
    exact h

end MerkleBit
