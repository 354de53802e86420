import Verif.Spec.Follow
/-!
# Specification vocabulary: the sparse Merkle tree of a list of pairs

The textbook tree over all `2 ^ (8 * N)` keys, in which a subtree without pairs has no hash, and a branch with one empty
side has the hash of the other.  It knows nothing of split indices, batches, versions or databases.
-/

namespace MerkleBit
variable {N : Nat} {V : Type}

/-- The hash of a branch, given those of its sides. -/
def joinSides (H : Hasher N) : Option (Arr N) → Option (Arr N) → Option (Arr N)
  | none, y => y
  | x, none => x
  | some x, some y => some ((HIn.branch x y).hash H)

/-- The pairs whose keys have bit `i` equal to `b`. -/
def withBit (i : Nat) (b : Bool) (pairs : List (Arr N × List UInt8)) : List (Arr N × List UInt8) :=
  pairs.filter fun e => e.1.bit i == b

/-- The hash of a subtree with `n` levels: pairs of keys and encoded values whose keys agree in all but the last `n`
bits. -/
def sparseHash (H : Hasher N) : Nat → List (Arr N × List UInt8) → Option (Arr N)
  | _, [] => none
  | 0, e :: _ => some (pairHash H e.1 e.2)
  | n + 1, e :: rest =>
    joinSides H (sparseHash H n (withBit (8 * N - (n + 1)) false (e :: rest)))
      (sparseHash H n (withBit (8 * N - (n + 1)) true (e :: rest)))

/-- The root of the sparse Merkle tree. -/
def sparseRoot (H : Hasher N) (pairs : List (Arr N × List UInt8)) : Option (Arr N) := sparseHash H (8 * N) pairs

/-- What is hashed where two sides are joined. -/
def joinInputs : Option (Arr N) → Option (Arr N) → List (HIn N)
  | some x, some y => [.branch x y]
  | _, _ => []

/-- All that is hashed for the hash of a subtree with `n` levels. -/
def sparseInputs (H : Hasher N) : Nat → List (Arr N × List UInt8) → List (HIn N)
  | _, [] => []
  | 0, e :: _ => [.data e.1 e.2, .leaf e.1 ((HIn.data e.1 e.2).hash H)]
  | n + 1, e :: rest =>
    joinInputs (sparseHash H n (withBit (8 * N - (n + 1)) false (e :: rest)))
        (sparseHash H n (withBit (8 * N - (n + 1)) true (e :: rest))) ++
      (sparseInputs H n (withBit (8 * N - (n + 1)) false (e :: rest)) ++
        sparseInputs H n (withBit (8 * N - (n + 1)) true (e :: rest)))

/-- The hashes beside the way from the root of a subtree with `n` levels to `k`, from the last to the first, and whether
they are on the right. -/
def sparsePath (H : Hasher N) (k : Arr N) : Nat → List (Arr N × List UInt8) → List (Arr N × Bool)
  | 0, _ => []
  | n + 1, pairs =>
    let b := k.bit (8 * N - (n + 1))
    sparsePath H k n (withBit (8 * N - (n + 1)) b pairs) ++
      ((sparseHash H n (withBit (8 * N - (n + 1)) (!b) pairs)).map fun x => (x, !b)).toList

/-- The list has the pairs of `M`, with encoded values, once each. -/
def Lists (encode : V → Res (List UInt8)) (M : Contents N V) (pairs : List (Arr N × List UInt8)) : Prop :=
  pairs.Nodup ∧ ∀ k b, (k, b) ∈ pairs ↔ ∃ v, M k = some v ∧ encode v = .ok b

/-- The list with the pairs of a batch put in, instead of those with the same keys. -/
def putPairs {α : Type} (pairs news : List (Arr N × α)) : List (Arr N × α) :=
  pairs.filter (fun e => e.1 ∉ news.map Prod.fst) ++ news

end MerkleBit
