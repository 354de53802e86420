import Verif.Model.TreeUtils
/-!
# The traits a `MerkleBIT` is generic over

src/traits.rs and the `MerkleTree` trait (src/merkle_bit.rs:27-42).
-/

namespace MerkleBit

/-- `trait Hasher<N>` (src/traits.rs:16-23): a hasher state machine. -/
structure Hasher (N : Nat) where
  St : Type
  new : Nat → St
  update : St → List UInt8 → St
  finalize : St → Arr N

/-- The sequence `new; update; update; update; finalize` that occurs at every hashing site
(src/merkle_bit.rs:427-431, 441-445, 561-565, 712-716, 727-731, 762-766, 772-776, 785-794). -/
def Hasher.hash3 {N : Nat} (H : Hasher N) (size : Nat) (a b c : List UInt8) : Arr N :=
  H.finalize (H.update (H.update (H.update (H.new size) a) b) c)

/-- `trait Database<N, M>` (src/traits.rs:142-167) over a state `σ`.  `&self` methods cannot change
the state, `&mut self` methods can, also when they fail.  `open` is not modelled. -/
structure Database (N : Nat) (σ : Type) where
  getNode : σ → Arr N → Res (Option (Node N))
  insert : Arr N → Node N → M σ Unit
  remove : Arr N → M σ Unit
  batchWrite : M σ Unit

/-- The associated types of `trait MerkleTree<N>` (src/merkle_bit.rs:27-42) together with the
`depth` field of `MerkleBIT` (src/merkle_bit.rs:48-53) and the standard library's
`partition_point`.  `Encode`/`Decode` (src/traits.rs:170-194) of the value type are `encode` and
`decode`. -/
structure Config (N : Nat) (σ V : Type) where
  db : Database N σ
  hasher : Hasher N
  encode : V → Res (List UInt8)
  decode : List UInt8 → Res V
  pp : PartitionPoint N
  depth : Nat

/-- `b"d"`. -/
def tagD : List UInt8 := [0x64]
/-- `b"l"`. -/
def tagL : List UInt8 := [0x6c]
/-- `b"b"`. -/
def tagB : List UInt8 := [0x62]

end MerkleBit
