import Verif.Model.PartitionPoint
/-!
# The binary searches of the standard library meet the contract
-/

namespace MerkleBit
variable {N : Nat}

theorem predAt_append {zs os : List (Arr N)} {p : Arr N → Bool} (hz : ∀ z ∈ zs, p z = true)
    (ho : ∀ o ∈ os, p o = false) (i : Nat) : predAt (zs ++ os) p i = decide (i < zs.length) := by
  unfold predAt
  by_cases h : i < zs.length
  · rw [List.getElem?_append_left h, List.getElem?_eq_getElem h]
    simp [h, hz _ (List.getElem_mem h)]
  · rw [List.getElem?_append_right (Nat.le_of_not_lt h)]
    cases hx : os[i - zs.length]? with
    | none => simp [h]
    | some x => simp [h, ho x (List.mem_of_getElem? hx)]

theorem bisect_le (p : Nat → Bool) : ∀ (n left right : Nat), left ≤ right → bisect p n left right ≤ right
  | 0, left, right, h => h
  | n + 1, left, right, h => by
    unfold bisect
    split
    · split
      · exact bisect_le p n _ _ (by omega)
      · exact le_trans (bisect_le p n _ _ (by omega)) (by omega)
    · omega

theorem bisect_eq (m : Nat) : ∀ (n left right : Nat), left ≤ m → m ≤ right → right - left ≤ n →
    bisect (fun i => decide (i < m)) n left right = m
  | 0, left, right, h1, h2, h3 => by unfold bisect; omega
  | n + 1, left, right, h1, h2, h3 => by
    unfold bisect
    split
    · simp only [decide_eq_true_eq]
      split
      · exact bisect_eq m n _ _ (by omega) (by omega) (by omega)
      · exact bisect_eq m n _ _ (by omega) (by omega) (by omega)
    · omega

/-- The search of Rust 1.52 to 1.81 meets the contract. -/
theorem stdPartitionPoint_lawful (N : Nat) : (stdPartitionPoint N).Lawful where
  le_length l p := bisect_le _ _ _ _ (Nat.zero_le _)
  partitioned zs os p hz ho := by
    have : predAt (zs ++ os) p = fun i => decide (i < zs.length) := funext (predAt_append hz ho)
    simp only [stdPartitionPoint, this]
    exact bisect_eq _ _ _ _ (by omega) (by simp) (by omega)

theorem halve_le (p : Nat → Bool) : ∀ (n base size : Nat), 0 < size → halve p n base size ≤ base + size
  | 0, base, size, _ => by unfold halve; omega
  | n + 1, base, size, h => by
    unfold halve
    split
    · refine le_trans (halve_le p n _ _ (by omega)) ?_
      split <;> omega
    · split <;> omega

theorem halve_eq (m : Nat) : ∀ (n base size : Nat), (base < m ∨ base = 0) → m ≤ base + size → 0 < size →
    base ≤ m → size ≤ n → halve (fun i => decide (i < m)) n base size = m
  | 0, base, size, _, _, _, _, _ => by omega
  | n + 1, base, size, h1, h2, h3, h4, h5 => by
    unfold halve
    simp only [decide_eq_true_eq]
    split
    · split
      · exact halve_eq m n _ _ (by omega) (by omega) (by omega) (by omega) (by omega)
      · exact halve_eq m n _ _ h1 (by omega) (by omega) h4 (by omega)
    · split <;> omega

/-- The search since Rust 1.82 meets the contract. -/
theorem newPartitionPoint_lawful (N : Nat) : (newPartitionPoint N).Lawful where
  le_length l p := by
    simp only [newPartitionPoint]
    split
    · omega
    · exact le_trans (halve_le _ _ _ _ (by omega)) (by omega)
  partitioned zs os p hz ho := by
    have : predAt (zs ++ os) p = fun i => decide (i < zs.length) := funext (predAt_append hz ho)
    simp only [newPartitionPoint, this]
    split
    · rename_i h
      simp only [List.length_append] at h
      omega
    · exact halve_eq _ _ _ _ (by omega) (by simp) (by omega) (by omega) (by omega)

end MerkleBit
