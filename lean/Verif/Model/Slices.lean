import Verif.Model.MerkleBit
/-!
# The caller's key slice

`get` and `insert` take `keys: &mut [Array<N>]` and sort it in place (src/merkle_bit.rs:88, 203).  The
slice of values is shared and stays as it is.
-/

namespace MerkleBit
variable {N : Nat} {σ V : Type}

/-- The slice `keys` after `get` (src/merkle_bit.rs:82-88): an empty slice returns early, any other is
sorted before anything can fail. -/
def getKeysAfter (keys : List (Arr N)) : List (Arr N) :=
  if keys.isEmpty then keys else sortKeys keys

/-- The slice `keys` after `insert` (src/merkle_bit.rs:190-203): unchanged if the arguments are refused,
otherwise sorted before anything else can fail. -/
def insertKeysAfter (keys : List (Arr N)) (values : List V) : List (Arr N) :=
  if keys.length ≠ values.length then keys
  else if keys.isEmpty || values.isEmpty then keys
  else sortKeys keys

/-- `get` (src/merkle_bit.rs:77-156) with the slice it leaves behind. -/
def getInPlace (cfg : Config N σ V) (s : σ) (rootHash : Arr N) (keys : List (Arr N)) :
    Res (AMap (Arr N) (Option V)) × List (Arr N) :=
  (get cfg s rootHash keys, getKeysAfter keys)

/-- `insert` (src/merkle_bit.rs:184-222) with the slice it leaves behind. -/
def insertInPlace (cfg : Config N σ V) (previousRoot : Option (Arr N)) (keys : List (Arr N))
    (values : List V) (s : σ) : (Res (Arr N) × σ) × List (Arr N) :=
  (insert cfg previousRoot keys values s, insertKeysAfter keys values)

end MerkleBit
