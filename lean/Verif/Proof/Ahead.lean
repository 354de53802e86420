import Verif.Proof.CountsRemove
import Mathlib.Data.List.Perm.Subperm
/-! # Removing the same from two databases -/

namespace MerkleBit
variable {N : Nat}

namespace Item

/-- Two items below the same one with a common key are the same. -/
theorem sibling {q i j : Item N} (hnd : q.keys.Nodup) (hi : i ∈ q.children) (hj : j ∈ q.children)
    {k : Arr N} (h1 : k ∈ i.keys) (h2 : k ∈ j.keys) : i = j := by
  cases q with
  | data k v => simp [children] at hi
  | tree t =>
    cases t with
    | leaf k v =>
      simp only [children, List.mem_singleton] at hi hj
      rw [hi, hj]
    | node l r =>
      simp only [children, List.mem_cons, List.not_mem_nil, or_false] at hi hj
      have hd : ∀ x ∈ l.keys, x ∉ r.keys := by
        have : (l.keys ++ r.keys).Nodup := by simpa [keys, Trie.keys_node] using hnd
        intro x hx hx'
        exact (List.nodup_append.1 this).2.2 x hx x hx' rfl
      rcases hi with rfl | rfl <;> rcases hj with rfl | rfl
      · rfl
      · exact absurd h2 (hd k h1)
      · exact absurd h1 (hd k h2)
      · rfl

theorem child_nodup {q j : Item N} (hnd : q.keys.Nodup) (hj : j ∈ q.children) : j.keys.Nodup :=
  (List.nodup_flatMap.1 (hnd.sublist q.children_keys)).1 j hj

end Item

section
variable {c c1 : Item N → Nat} {q i j : Item N}

theorem GivenUp.any (h : GivenUp c q i) : GivenUp (fun _ => 1) q i := by
  induction h with
  | here => exact .here
  | under _ hj _ ih => exact .under rfl hj ih

theorem GivenUp.step (h : GivenUp c q i) (h1 : c i = 1) (hj : j ∈ i.children) : GivenUp c q j := by
  induction h with
  | here => exact .under h1 hj .here
  | under h2 hj' _ ih => exact .under h2 hj' (ih h1 hj)

theorem GivenUp.last (h : GivenUp c q j) : j = q ∨ ∃ i, GivenUp c q i ∧ c i = 1 ∧ j ∈ i.children := by
  induction h with
  | here => exact .inl rfl
  | @under q j i h1 hj _ ih =>
    right
    rcases ih with rfl | ⟨p, h2, h3, h4⟩
    · exact ⟨q, .here, h1, hj⟩
    · exact ⟨p, .under h1 hj h2, h3, h4⟩

theorem GivenUp.ok {ok : Item N → Prop} (hok : ∀ i, ok i → ∀ j ∈ i.children, ok j) (h : GivenUp c q i)
    (hq : ok q) : ok i := by
  induction h with
  | here => exact hq
  | under _ hj _ ih => exact ih (hok _ hq _ hj)

/-- In a tree with distinct keys an item is the child of one item only. -/
theorem GivenUp.parent {T q' : Item N} (h : GivenUp (fun _ => 1) T q) (hnd : T.keys.Nodup)
    (h' : GivenUp (fun _ => 1) T q') (hj : j ∈ q.children) (hj' : j ∈ q'.children) : q = q' := by
  obtain ⟨k, hk⟩ := j.keys_ne
  have low : ∀ {T p j1 : Item N}, T.keys.Nodup → j1 ∈ T.children → GivenUp (fun _ => 1) j1 p → j ∈ T.children →
      j ∈ p.children → False := by
    intro T p j1 hnd h1 h2 h3 h4
    cases Item.sibling hnd h1 h3 (h2.keys (Item.child_keys h4 hk)) hk
    have := Item.rank_children h4
    rcases h2.rank with rfl | h <;> omega
  induction h with
  | here =>
    cases h' with
    | here => rfl
    | under _ h1 h2 => exact (low hnd h1 h2 hj hj').elim
  | under _ h1 h2 ih =>
    cases h' with
    | here => exact (low hnd h1 h2 hj' hj).elim
    | under _ h3 h4 =>
      cases Item.sibling hnd h1 h3 (h2.keys (Item.child_keys hj hk)) (h4.keys (Item.child_keys hj' hk))
      exact ih (Item.child_nodup hnd h1) h4 hj

/-- The counts `c1` are ahead of the counts `c`: what is stored according to `c` has at least as large a count in
`c1`, and in addition one for every parent that is stored according to `c1` only. -/
def Ahead (ok : Item N → Prop) (c c1 : Item N → Nat) : Prop :=
  ∀ j, ok j → 0 < c j → ∀ X : List (Item N), X.Nodup →
    (∀ q ∈ X, ok q ∧ c q = 0 ∧ 0 < c1 q ∧ j ∈ q.children) → c j + X.length ≤ c1 j

theorem Ahead.le {ok : Item N → Prop} (h : Ahead ok c c1) (hj : ok j) (h0 : 0 < c j) : c j ≤ c1 j :=
  h j hj h0 [] List.nodup_nil (by simp)

/-- What giving up an item makes of the counts. -/
def AfterGivenUp (ok : Item N → Prop) (c c' : Item N → Nat) (T : Item N) : Prop :=
  ∀ i, ok i → (GivenUp c T i → c' i = c i - 1) ∧ (¬ GivenUp c T i → c' i = c i)

theorem AfterGivenUp.le {ok : Item N → Prop} {c' : Item N → Nat} {T : Item N} (h : AfterGivenUp ok c c' T)
    (hi : ok i) : c' i ≤ c i := by
  by_cases hg : GivenUp c T i
  · rw [(h i hi).1 hg]; omega
  · rw [(h i hi).2 hg]

/-- Giving up the same item keeps the one ahead of the other. -/
theorem Ahead.givenUp {ok : Item N → Prop} (hok : ∀ i, ok i → ∀ j ∈ i.children, ok j)
    {c' c1' : Item N → Nat} {T : Item N} (hT : ok T) (hnd : T.keys.Nodup) (h : Ahead ok c c1)
    (hc : AfterGivenUp ok c c' T) (hc1 : AfterGivenUp ok c1 c1' T) : Ahead ok c' c1' := by
  have okG : ∀ {d : Item N → Nat} {i}, GivenUp d T i → ok i := by
    intro d i hg
    exact hg.ok hok hT
  have both : ∀ {i}, GivenUp c1 T i → c1 i = 1 → 0 < c i → GivenUp c T i := by
    intro i hg
    suffices H : ∀ r i, i.rank + r = T.rank → GivenUp c1 T i → c1 i = 1 → 0 < c i → GivenUp c T i by
      refine H (T.rank - i.rank) i ?_ hg
      rcases hg.rank with rfl | h' <;> omega
    intro r
    induction r using Nat.strong_induction_on with
    | _ r ih =>
      intro i hr hg h1 h0
      rcases hg.last with rfl | ⟨p, hp, hp1, hpi⟩
      · exact .here
      have hrk := Item.rank_children hpi
      have hrT : p.rank ≤ T.rank := by rcases hp.rank with rfl | h' <;> omega
      by_cases hp0 : c p = 0
      · have := h i (okG hg) h0 [p] (by simp) (by
          intro q hq
          cases List.mem_singleton.1 hq
          exact ⟨okG hp, hp0, by omega, hpi⟩)
        simp only [List.length_singleton] at this
        omega
      · have hle := h.le (okG hp) (Nat.pos_of_ne_zero hp0)
        exact (ih (T.rank - p.rank) (by omega) p (by omega) hp hp1 (Nat.pos_of_ne_zero hp0)).step (by omega) hpi
  intro j hj h0 X hX hXs
  have h0' : 0 < c j := Nat.lt_of_lt_of_le h0 (hc.le hj)
  -- the parents that are new, and those that are not
  have old : ∀ q ∈ X, ¬ (GivenUp c T q ∧ c q = 1) → ok q ∧ c q = 0 ∧ 0 < c1 q ∧ j ∈ q.children := by
    intro q hq hn
    obtain ⟨h1, h2, h3, h4⟩ := hXs q hq
    refine ⟨h1, ?_, Nat.lt_of_lt_of_le h3 (hc1.le h1), h4⟩
    by_cases hg : GivenUp c T q
    · have := (hc q h1).1 hg
      by_contra hne
      exact hn ⟨hg, by omega⟩
    · rw [← (hc q h1).2 hg]; exact h2
  by_cases hnew : ∃ q ∈ X, GivenUp c T q ∧ c q = 1
  · obtain ⟨p, hpX, hpg, hp1⟩ := hnew
    obtain ⟨hpo, hp2, hp3, hp4⟩ := hXs p hpX
    have hG := hpg.step hp1 hp4
    have hG1 : ¬ GivenUp c1 T j := by
      intro hg
      rcases hg.last with rfl | ⟨p', hp', hp1', hpj'⟩
      · have := Item.rank_children hp4
        rcases hpg.rank with rfl | h' <;> omega
      · cases hpg.any.parent hnd hp'.any hp4 hpj'
        have := (hc1 p hpo).1 hp'
        omega
    rw [(hc j hj).1 hG, (hc1 j hj).2 hG1]
    have hsub : ∀ q ∈ X.erase p, ok q ∧ c q = 0 ∧ 0 < c1 q ∧ j ∈ q.children := by
      intro q hq
      have hqX := List.mem_of_mem_erase hq
      refine old q hqX ?_
      rintro ⟨hg, -⟩
      cases hg.any.parent hnd hpg.any (hXs q hqX).2.2.2 hp4
      exact hX.not_mem_erase hq
    have := h j hj h0' (X.erase p) (hX.erase _) hsub
    rw [List.length_erase_of_mem hpX] at this
    have := List.length_pos_of_mem hpX
    omega
  · have hold : ∀ q ∈ X, ok q ∧ c q = 0 ∧ 0 < c1 q ∧ j ∈ q.children :=
      fun q hq => old q hq fun hn => hnew ⟨q, hq, hn⟩
    by_cases hG1 : GivenUp c1 T j
    swap
    · rw [(hc1 j hj).2 hG1]
      exact Nat.le_trans (Nat.add_le_add_right (hc.le hj) _) (h j hj h0' X hX hold)
    rw [(hc1 j hj).1 hG1]
    by_cases hG : GivenUp c T j
    · rw [(hc j hj).1 hG]
      have := h j hj h0' X hX hold
      omega
    · rw [(hc j hj).2 hG]
      rcases hG1.last with rfl | ⟨p, hp, hp1, hpj⟩
      · exact absurd .here hG
      have hp0 : c p = 0 := by
        by_contra hne
        have hpos := Nat.pos_of_ne_zero hne
        have := h.le (okG hp) hpos
        exact hG ((both hp hp1 hpos).step (by omega) hpj)
      have hpX : p ∉ X := by
        intro hpX
        have := (hXs p hpX).2.2.1
        rw [(hc1 p (okG hp)).1 hp] at this
        omega
      have := h j hj h0' (p :: X) (List.nodup_cons.2 ⟨hpX, hX⟩) (by
        intro q hq
        rcases List.mem_cons.1 hq with rfl | hq
        · exact ⟨okG hp, hp0, by omega, hpj⟩
        · exact hold q hq)
      simp only [List.length_cons] at this
      omega

end
end MerkleBit
