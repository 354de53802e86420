import Verif.Model.MerkleBit
import Verif.Spec.Database
/-! # The reservations of `generate_inclusion_proof` -/

namespace MerkleBit
variable {N : Nat} {σ V : Type} {cfg : Config N σ V} {s : σ} {r k : Arr N}

theorem generateInclusionProof_room (h : cfg.Room) :
    generateInclusionProof cfg s r k = inclusionProof cfg s r k := by
  unfold Config.Room at h
  have h' : cfg.depth * N ≤ isizeMax := Nat.le_trans (Nat.mul_le_mul_left _ (Nat.le_succ N)) h
  simp [generateInclusionProof, withCapacity, h, h']

theorem generateInclusionProof_no_room (h : ¬ cfg.Room) :
    generateInclusionProof cfg s r k = .error (.panic "capacity overflow") := by
  unfold Config.Room at h
  unfold generateInclusionProof withCapacity
  by_cases h' : cfg.depth * N ≤ isizeMax <;> simp [h, h']

theorem generateInclusionProof_ok {p : List (Arr N × Bool)}
    (h : generateInclusionProof cfg s r k = .ok p) : inclusionProof cfg s r k = .ok p := by
  by_cases hr : cfg.Room
  · rw [← generateInclusionProof_room hr]; exact h
  · rw [generateInclusionProof_no_room hr] at h; cases h

/-- Equal answers after the reservations are equal answers. -/
theorem generateInclusionProof_congr {τ : Type} {cfg' : Config N τ V} {t : τ} {r' k' : Arr N}
    (hd : cfg'.depth = cfg.depth) (h : inclusionProof cfg' t r' k' = inclusionProof cfg s r k) :
    generateInclusionProof cfg' t r' k' = generateInclusionProof cfg s r k := by
  unfold generateInclusionProof
  rw [hd, h]

theorem generateInclusionProof_mono {s' : σ} {p : List (Arr N × Bool)}
    (h : generateInclusionProof cfg s r k = .ok p)
    (hmono : inclusionProof cfg s r k = .ok p → inclusionProof cfg s' r k = .ok p) :
    generateInclusionProof cfg s' r k = .ok p := by
  have h' := generateInclusionProof_ok h
  rw [← h]
  exact generateInclusionProof_congr rfl ((hmono h').trans h'.symm)

end MerkleBit
