import Verif.Spec.Damage
import Verif.Spec.Counts
/-!
# Specification vocabulary: calls that are refused

`Alongside` compares two runs from the same state: one of removals only, and one in which inserts that are
refused come between them.
-/

namespace MerkleBit
variable {N : Nat} {σ V : Type}

/-- `s` is what removals of versions of `L` make of `s0`, and `t` what the same removals make of `s0` if calls of
`insert` that return an error come before, between and after them.  `H` is what these calls hashed. -/
inductive Alongside (cfg : Config N σ V) (L : Ledger N V) (s0 : σ) : List (HIn N) → σ → σ → Prop
  | start : Alongside cfg L s0 [] s0 s0
  | remove {H : List (HIn N)} {s s' t t' : σ} {r : Arr N} {M : Contents N V} : Alongside cfg L s0 H s t →
      (r, M) ∈ L → MerkleBit.remove cfg r s = (.ok (), s') → MerkleBit.remove cfg r t = (.ok (), t') →
      Alongside cfg L s0 H s' t'
  | refused {H : List (HIn N)} {s t t' : σ} {prev : Option (Arr N)} {keys : List (Arr N)} {values : List V}
      {e : Err} : Alongside cfg L s0 H s t → MerkleBit.insert cfg prev keys values t = (.error e, t') →
      Alongside cfg L s0 (hashedBy cfg prev keys values t ++ H) s t'

end MerkleBit
