import Verif.Spec.Storage
import Verif.Model.MerkleBit
/-!
# Specification vocabulary: what the reads under a root tell
-/

namespace MerkleBit
variable {N : Nat} {σ V : Type}

/-- The reads under the root `r` are answered from the map `P`: single reads, reads of several keys that are clear for it
(`Spec/History.lean`), and requests for proofs, which exist for its pairs and only for them. -/
structure Tells (cfg : Config N σ V) (s : σ) (r : Arr N) (P : Contents N V) : Prop where
  one : ∀ k, getOne cfg s r k = .ok (P k)
  many : ∀ keys, Clear P keys → ∃ m, get cfg s r keys = .ok m ∧ ∀ k, m.get? k = if k ∈ keys then some (P k) else none
  proved : ∀ k v, P k = some v → ∃ p, generateInclusionProof cfg s r k = .ok p ∧
    verifyInclusionProof cfg.hasher cfg.encode r k v p = .ok ()
  unproved : ∀ k, P k = none → ∃ msg, generateInclusionProof cfg s r k = .error (.exception msg)

/-- All reads under the root `r` are refused. -/
structure ReadsFail (cfg : Config N σ V) (s : σ) (r : Arr N) : Prop where
  one : ∀ k, ∃ msg, getOne cfg s r k = .error (.exception msg)
  many : ∀ keys, keys ≠ [] → ∃ msg, get cfg s r keys = .error (.exception msg)
  unproved : ∀ k, ∃ msg, generateInclusionProof cfg s r k = .error (.exception msg)

end MerkleBit
