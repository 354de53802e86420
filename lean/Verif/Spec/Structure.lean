import Verif.Spec.Trie
import Verif.Spec.Database
/-!
# Specification vocabulary: following stored nodes

What hangs below a location, read off the stored nodes alone.
-/

namespace MerkleBit
variable {N : Nat}

/-- `y` is `x` or one of the nodes below it. -/
inductive Reaches (v : View N) : Arr N → Arr N → Prop
  | refl (x : Arr N) : Reaches v x x
  | zero {x y : Arr N} {b : Branch N} : View.Has v x (.branch b) → Reaches v b.zero y → Reaches v x y
  | one {x y : Arr N} {b : Branch N} : View.Has v x (.branch b) → Reaches v b.one y → Reaches v x y

/-- The keys of the leaves below `x`, from left to right. -/
inductive Leaves (v : View N) : Arr N → List (Arr N) → Prop
  | leaf {x : Arr N} {l : Leaf N} : View.Has v x (.leaf l) → Leaves v x [l.key]
  | branch {x : Arr N} {b : Branch N} {ks ks' : List (Arr N)} : View.Has v x (.branch b) →
      Leaves v b.zero ks → Leaves v b.one ks' → Leaves v x (ks ++ ks')

/-- What a branch says about the keys `ks` below its zero side and `ks'` below its one side: how many
there are and which is the smallest. -/
structure Describes (b : Branch N) (ks ks' : List (Arr N)) : Prop where
  count : b.count = ks.length + ks'.length
  key_mem : b.key ∈ ks
  key_min : ∀ k ∈ ks ++ ks', k = b.key ∨ Arr.lt b.key k

/-- What a branch says about where its keys part: at the split index, and not before. -/
structure Splits (b : Branch N) (ks ks' : List (Arr N)) : Prop where
  lt : b.splitIndex < 8 * N
  zeros : ∀ k ∈ ks, k.bit b.splitIndex = false
  ones : ∀ k ∈ ks', k.bit b.splitIndex = true
  same : ∀ k ∈ ks ++ ks', ∀ k' ∈ ks ++ ks', ∀ i < b.splitIndex, k.bit i = k'.bit i

/-- The location demanded by the contents of a node: the hash of its tagged fields.  A data node does
not carry its key. -/
def Variant.At (H : Hasher N) : Variant N → Arr N → Prop
  | .branch b, x => x = (HIn.branch b.zero b.one).hash H
  | .leaf l, x => x = (HIn.leaf l.key l.data).hash H
  | .data d, x => ∃ k, x = (HIn.data k d.value).hash H

/-- The bytes fed to the hasher for an input. -/
def HIn.bytes : HIn N → List UInt8
  | data k v => tagD ++ k.bytes ++ v
  | leaf k d => tagL ++ k.bytes ++ d.bytes
  | branch a b => tagB ++ a.bytes ++ b.bytes

/-- Feeding a hasher piece by piece is the same as feeding it the concatenation. -/
def Hasher.Streaming (H : Hasher N) : Prop :=
  ∀ st a b, H.update (H.update st a) b = H.update st (a ++ b)

end MerkleBit
