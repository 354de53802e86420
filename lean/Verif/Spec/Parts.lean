import Verif.Spec.History
/-!
# Specification vocabulary: the parts of a version, as seen from a key
-/

namespace MerkleBit
variable {N : Nat} {V : Type}

/-- The pairs whose keys differ from `k` at bit `b` for the first time.  (For `b = 8 * N`: the pair of `k`.) -/
def Contents.part (M : Contents N V) (k : Arr N) (b : Nat) : Contents N V :=
  fun k' => if firstDiff k k' = b then M k' else none

/-- The bits at which the keys of `M` differ from `k` for the first time, from the last to the first. -/
structure PartBits (M : Contents N V) (k : Arr N) (bits : List Nat) : Prop where
  sorted : bits.Pairwise (· > ·)
  mem : ∀ b, b ∈ bits ↔ ∃ k', M k' ≠ none ∧ firstDiff k k' = b

end MerkleBit
