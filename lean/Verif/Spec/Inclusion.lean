import Verif.Spec.Trie
/-!
# Specification vocabulary: inclusion proofs

What is hashed while an inclusion proof is verified, and the proof prescribed for a key of a trie.
-/

namespace MerkleBit
variable {N : Nat}

/-- The branch inputs hashed from a starting hash along the entries of a proof. -/
def foldInputs (H : Hasher N) : Arr N → List (Arr N × Bool) → List (HIn N)
  | _, [] => []
  | cur, (h, true) :: rest => .branch cur h :: foldInputs H ((HIn.branch cur h).hash H) rest
  | cur, (h, false) :: rest => .branch h cur :: foldInputs H ((HIn.branch h cur).hash H) rest

/-- Everything that is hashed while a proof for the pair `(k, v)` is verified. -/
def verifyInputs (H : Hasher N) (k : Arr N) (v : List UInt8) (proof : List (Arr N × Bool)) :
    List (HIn N) :=
  .data k v :: .leaf k (Trie.dataLoc H k v) ::
    foldInputs H ((Trie.leaf k v).loc H) (proof.drop 2)

/-- The siblings on the way from the leaf of `k` up to the root, each with a flag that tells whether
the sibling is on the right. -/
def Trie.path (H : Hasher N) (k : Arr N) : Trie N → List (Arr N × Bool)
  | leaf _ _ => []
  | node l r =>
    if k.bit (firstDiff l.key r.key) then r.path H k ++ [(l.loc H, false)]
    else l.path H k ++ [(r.loc H, true)]

end MerkleBit
