import Verif.Spec.Live
/-!
# Specification vocabulary: what a database holds
-/

namespace MerkleBit
variable {N : Nat} {V : Type}

/-- Exactly `n` things have a property. -/
def Exactly {α : Type} (n : Nat) (p : α → Prop) : Prop :=
  ∃ xs : List α, xs.Nodup ∧ xs.length = n ∧ ∀ x, p x ↔ x ∈ xs

/-- At most `n` things have a property. -/
def AtMost {α : Type} (n : Nat) (p : α → Prop) : Prop :=
  ∃ xs : List α, xs.length ≤ n ∧ ∀ x, p x → x ∈ xs

end MerkleBit
