import Verif.Model.MerkleBit
/-!
# Specification vocabulary: the errors a caller has to expect

Messages that blame the caller's arguments, the value codec or the depth limit, as opposed to panics
and reports of a corrupt tree.
-/

namespace MerkleBit
variable {N : Nat} {σ V : Type}

/-- Errors of `insert` for which the caller is responsible; `tooHigh` says that the depth limit may be
exceeded. -/
def InsertErr (cfg : Config N σ V) (keys : List (Arr N)) (values : List V) (tooHigh : Prop)
    (e : Err) : Prop :=
  (e = .exception "Keys and values have different lengths" ∧ keys.length ≠ values.length) ∨
  (e = .exception "Keys or values are empty" ∧ keys = []) ∨
  e = .exception "Attempted to insert item with duplicate keys" ∨
  (∃ v ∈ values, cfg.encode v = .error e) ∨
  (e = .exception "Depth of merkle tree exceeded" ∧ tooHigh)

end MerkleBit
