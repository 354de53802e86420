import Verif.Model.Arr
/-!
# Specification vocabulary: bits of keys

Independent of the code in /repo: plain definitions used to state properties.
-/

namespace MerkleBit
variable {N : Nat}

/-- The `i`-th bit of a key, most significant bit of the first byte first. -/
def Arr.bit (k : Arr N) (i : Nat) : Bool :=
  (k.bytes.getD (i / 8) 0).toNat.testBit (7 - i % 8)

/-- Index of the first bit in which two keys differ; `8 * N` when they are equal. -/
def firstDiff (a b : Arr N) : Nat :=
  ((List.range (8 * N)).find? (fun i => a.bit i != b.bit i)).getD (8 * N)

end MerkleBit
