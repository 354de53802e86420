import Verif.Spec.History
import Verif.Proof.Trie
import Mathlib.Data.List.Perm.Subperm
/-! # Heights of versions -/

namespace MerkleBit
variable {N : Nat} {σ V : Type} {cfg : Config N σ V}

open Trie

theorem Represents.mem {T : Trie N} {M : Contents N V} (h : Represents cfg T M) {k : Arr N} :
    k ∈ T.keys ↔ M k ≠ none := by
  rw [← lookup_isSome_iff]
  have := h k
  cases hM : M k with
  | none => rw [hM] at this; simp only [Encodes] at this; simp [this]
  | some v =>
    rw [hM] at this
    obtain ⟨b, h1, h2⟩ := this
    simp [h2]

/-! ## Heights -/

theorem HeightBelow.mono {M : Contents N V} {d d' : Nat} (h : HeightBelow M d) (hd : d ≤ d') :
    HeightBelow M d' := fun k hk ps h1 h2 => Nat.lt_of_lt_of_le (h k hk ps h1 h2) hd

theorem HeightBelow.succ {M : Contents N V} {d : Nat} (h : HeightBelow M d) :
    HeightBelow M (d + 1) := h.mono (Nat.le_succ d)

theorem HeightBelow.subset {M M' : Contents N V} {d : Nat} (h : HeightBelow M d)
    (hsub : ∀ k, M' k ≠ none → M k ≠ none) : HeightBelow M' d := by
  intro k hk ps h1 h2
  refine h k (hsub k hk) ps h1 (fun p hp => ?_)
  obtain ⟨k', h3, h4, h5⟩ := h2 p hp
  exact ⟨k', hsub k' h3, h4, h5⟩

/-- The other keys branch off a key at fewer bits than a key has. -/
theorem heightBelow_of_bits (M : Contents N V) {d : Nat} (h : 8 * N < d) : HeightBelow M d := by
  intro k _ ps h1 h2
  have hsub : ps ⊆ List.range (8 * N) := by
    intro p hp
    obtain ⟨k', -, h4, rfl⟩ := h2 p hp
    exact List.mem_range.2 (firstDiff_lt_iff.2 (Ne.symm h4))
  have := (List.subperm_of_subset h1 hsub).length_le
  simp only [List.length_range] at this
  omega

theorem heightBelow_empty (d : Nat) : HeightBelow (Contents.empty (N := N) (V := V)) d :=
  fun k hk => absurd rfl hk

/-- At most `d` keys. -/
theorem heightBelow_of_keys {M : Contents N V} {d : Nat}
    (h : ∀ ks : List (Arr N), ks.Nodup → (∀ k ∈ ks, M k ≠ none) → ks.length ≤ d) :
    HeightBelow M d := by
  intro k hk ps h1 h2
  have key : ∀ ps : List Nat, ps.Nodup →
      (∀ p ∈ ps, ∃ k', M k' ≠ none ∧ k' ≠ k ∧ firstDiff k k' = p) →
      ∃ ks : List (Arr N), ks.Nodup ∧ (∀ x ∈ ks, M x ≠ none ∧ x ≠ k) ∧
        ks.map (firstDiff k) = ps := by
    intro ps h1 h2
    induction ps with
    | nil => exact ⟨[], List.nodup_nil, by simp, rfl⟩
    | cons p ps ih =>
      obtain ⟨ks, e1, e2, e3⟩ := ih h1.of_cons (fun q hq => h2 q (List.mem_cons_of_mem _ hq))
      obtain ⟨k', f1, f2, f3⟩ := h2 p List.mem_cons_self
      refine ⟨k' :: ks, List.nodup_cons.2 ⟨?_, e1⟩, ?_, by simp [e3, f3]⟩
      · intro hm
        apply (List.nodup_cons.1 h1).1
        rw [← e3, ← f3]
        exact List.mem_map_of_mem hm
      · intro x hx
        rcases List.mem_cons.1 hx with rfl | hx
        · exact ⟨f1, f2⟩
        · exact e2 x hx
  obtain ⟨ks, e1, e2, rfl⟩ := key ps h1 h2
  have := h (k :: ks) (List.nodup_cons.2 ⟨fun hm => (e2 k hm).2 rfl, e1⟩) (by
    intro x hx
    rcases List.mem_cons.1 hx with rfl | hx
    · exact hk
    · exact (e2 x hx).1)
  simp only [List.length_cons, List.length_map] at this ⊢
  omega

theorem Trie.WF.firstDiff_cross {l r : Trie N} (h : (Trie.node l r).WF) {a b : Arr N}
    (ha : a ∈ l.keys) (hb : b ∈ r.keys) : firstDiff a b = (Trie.node l r).split := by
  have hsa := h.agree a (by simp [Trie.keys_node, ha])
  have hsb := h.agree b (by simp [Trie.keys_node, hb])
  have h3 := min_le_firstDiff a (Trie.node l r).key b
  rw [firstDiff_comm _ b] at h3
  refine Nat.le_antisymm ?_ (by omega)
  by_contra hlt
  have := bit_eq_of_lt_firstDiff (a := a) (b := b) (i := (Trie.node l r).split) (by omega)
  rw [h.bit_left ha, h.bit_right hb] at this
  cases this

/-- A longest path. -/
theorem Trie.WF.longest : ∀ {T : Trie N}, T.WF → ∃ k ∈ T.keys, ∃ ps : List Nat, ps.Nodup ∧
    ps.length = T.height ∧
    ∀ p ∈ ps, T.split ≤ p ∧ ∃ k' ∈ T.keys, k' ≠ k ∧ firstDiff k k' = p
  | .leaf k v, _ => ⟨k, by simp [Trie.keys, Trie.entries], [], by simp, rfl, by simp⟩
  | .node l r, h => by
    have hne : ∀ {a b : Arr N}, firstDiff a b = (Trie.node l r).split → b ≠ a := by
      intro a b hab
      refine Ne.symm (firstDiff_lt_iff.1 ?_)
      rw [hab]; exact h.split_lt
    by_cases hh : r.height ≤ l.height
    · obtain ⟨k, hk, ps, h1, h2, h3⟩ := h.1.longest
      have hc := h.firstDiff_cross hk (Trie.key_mem r)
      refine ⟨k, by simp [Trie.keys_node, hk], (Trie.node l r).split :: ps,
        List.nodup_cons.2 ⟨?_, h1⟩, ?_, ?_⟩
      · intro hm
        have := (h3 _ hm).1
        have := h.2.2.2.1
        simp only [Trie.split] at *
        omega
      · simp only [List.length_cons, h2, Trie.height]; omega
      · intro p hp
        rcases List.mem_cons.1 hp with rfl | hp
        · exact ⟨Nat.le_refl _, r.key, by simp [Trie.keys_node, Trie.key_mem r], hne hc, hc⟩
        · obtain ⟨e1, k', e2, e3, e4⟩ := h3 p hp
          refine ⟨?_, k', by simp [Trie.keys_node, e2], e3, e4⟩
          have := h.2.2.2.1
          simp only [Trie.split] at *
          omega
    · obtain ⟨k, hk, ps, h1, h2, h3⟩ := h.2.1.longest
      have hc := h.firstDiff_cross (Trie.key_mem l) hk
      rw [firstDiff_comm] at hc
      refine ⟨k, by simp [Trie.keys_node, hk], (Trie.node l r).split :: ps,
        List.nodup_cons.2 ⟨?_, h1⟩, ?_, ?_⟩
      · intro hm
        have := (h3 _ hm).1
        have := h.2.2.2.2
        simp only [Trie.split] at *
        omega
      · simp only [List.length_cons, h2, Trie.height]; omega
      · intro p hp
        rcases List.mem_cons.1 hp with rfl | hp
        · exact ⟨Nat.le_refl _, l.key, by simp [Trie.keys_node, Trie.key_mem l], hne hc, hc⟩
        · obtain ⟨e1, k', e2, e3, e4⟩ := h3 p hp
          refine ⟨?_, k', by simp [Trie.keys_node, e2], e3, e4⟩
          have := h.2.2.2.2
          simp only [Trie.split] at *
          omega

theorem HeightBelow.height {M : Contents N V} {d : Nat} (h : HeightBelow M d) {T : Trie N}
    (hwf : T.WF) (hM : Represents cfg T M) : T.height < d := by
  obtain ⟨k, hk, ps, h1, h2, h3⟩ := hwf.longest
  rw [← h2]
  refine h k (hM.mem.1 hk) ps h1 (fun p hp => ?_)
  obtain ⟨-, k', e1, e2, e3⟩ := h3 p hp
  exact ⟨k', hM.mem.1 e1, e2, e3⟩

/-- The bits at which the other keys branch off a key are those of the branches above it. -/
theorem Trie.WF.shortest : ∀ {T : Trie N}, T.WF → ∀ k ∈ T.keys, ∃ qs : List Nat,
    qs.length ≤ T.height ∧ ∀ k' ∈ T.keys, k' ≠ k → firstDiff k k' ∈ qs
  | .leaf k v, _, x, hx => by
    refine ⟨[], by simp, ?_⟩
    intro k' hk' hne
    simp only [Trie.keys, Trie.entries, List.map_cons, List.map_nil, List.mem_singleton] at hx hk'
    exact absurd (hk'.trans hx.symm) hne
  | .node l r, h, x, hx => by
    rw [Trie.keys_node, List.mem_append] at hx
    rcases hx with hx | hx
    · obtain ⟨qs, h1, h2⟩ := h.1.shortest x hx
      refine ⟨(Trie.node l r).split :: qs, by simp only [List.length_cons, Trie.height]; omega, ?_⟩
      intro k' hk' hne
      rw [Trie.keys_node, List.mem_append] at hk'
      rcases hk' with hk' | hk'
      · exact List.mem_cons_of_mem _ (h2 k' hk' hne)
      · rw [h.firstDiff_cross hx hk']; exact List.mem_cons_self
    · obtain ⟨qs, h1, h2⟩ := h.2.1.shortest x hx
      refine ⟨(Trie.node l r).split :: qs, by simp only [List.length_cons, Trie.height]; omega, ?_⟩
      intro k' hk' hne
      rw [Trie.keys_node, List.mem_append] at hk'
      rcases hk' with hk' | hk'
      · rw [firstDiff_comm, h.firstDiff_cross hk' hx]; exact List.mem_cons_self
      · exact List.mem_cons_of_mem _ (h2 k' hk' hne)

/-- `HeightBelow` is about the height of the tree. -/
theorem heightBelow_iff {M : Contents N V} {d : Nat} {T : Trie N} (hwf : T.WF)
    (hM : Represents cfg T M) : HeightBelow M d ↔ T.height < d := by
  refine ⟨fun h => h.height hwf hM, ?_⟩
  intro hd k hk ps h1 h2
  obtain ⟨qs, h3, h4⟩ := hwf.shortest k (hM.mem.2 hk)
  have hsub : ps ⊆ qs := by
    intro p hp
    obtain ⟨k', e1, e2, rfl⟩ := h2 p hp
    exact h4 k' (hM.mem.2 e1) e2
  have := (List.subperm_of_subset h1 hsub).length_le
  omega

end MerkleBit
