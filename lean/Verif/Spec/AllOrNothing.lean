import Verif.Spec.AnyRoot
import Verif.Spec.Complete
/-!
# Specification vocabulary: reads before and after
-/

namespace MerkleBit
variable {N : Nat} {σ V : Type}

/-- All reads under `x` have the same results in `s'` as in `s`. -/
structure ReadsSame (cfg : Config N σ V) (s s' : σ) (x : Arr N) : Prop where
  one : ∀ k, getOne cfg s' x k = getOne cfg s x k
  many : ∀ keys, get cfg s' x keys = get cfg s x keys
  proofs : ∀ k, generateInclusionProof cfg s' x k = generateInclusionProof cfg s x k

/-- However a removal ends, or stops. -/
def RemoveEnds (cfg : Config N σ V) (r : Arr N) (s s' : σ) : Prop :=
  remove cfg r s = (.ok (), s') ∨ RemoveStops cfg r s s'

end MerkleBit
