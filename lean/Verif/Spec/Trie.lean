import Verif.Spec.Bits
import Verif.Model.Traits
/-!
# Specification vocabulary: versions as compact binary tries

A version of the tree is described by a `Trie`: a binary trie without single-child nodes.  `WF`
says that a trie is the compact trie of its set of keys, so a `WF` trie is nothing but a finite map
from keys to byte strings (`Trie.eq_of_lookup`).  `Trie.loc` is the root hash prescribed for it.
-/

namespace MerkleBit
variable {N : Nat}

/-- A binary tree of key/value pairs. -/
inductive Trie (N : Nat) where
  | leaf (k : Arr N) (v : List UInt8)
  | node (l r : Trie N)
deriving DecidableEq

namespace Trie

/-- The leftmost key. -/
def key : Trie N → Arr N
  | leaf k _ => k
  | node l _ => l.key

/-- The key/value pairs, left to right. -/
def entries : Trie N → List (Arr N × List UInt8)
  | leaf k v => [(k, v)]
  | node l r => l.entries ++ r.entries

/-- The keys, left to right. -/
def keys (t : Trie N) : List (Arr N) := t.entries.map (·.1)

/-- Number of pairs. -/
def size (t : Trie N) : Nat := t.entries.length

/-- Length of the longest path from the root to a leaf. -/
def height : Trie N → Nat
  | leaf _ _ => 0
  | node l r => max l.height r.height + 1

/-- The bit on which the root splits; `8 * N` for a leaf. -/
def split : Trie N → Nat
  | leaf _ _ => 8 * N
  | node l r => firstDiff l.key r.key

/-- The value stored at a key. -/
def lookup (t : Trie N) (k : Arr N) : Option (List UInt8) :=
  (t.entries.find? (fun e => e.1 = k)).map (·.2)

/-- Every branch has its smaller key on the left. -/
def Norm : Trie N → Prop
  | leaf _ _ => True
  | node l r => l.Norm ∧ r.Norm ∧ Arr.lt l.key r.key

/-- Compact binary trie: children come in key order and split on a later bit than their parent. -/
def WF : Trie N → Prop
  | leaf _ _ => True
  | node l r => l.WF ∧ r.WF ∧ Arr.lt l.key r.key ∧
      firstDiff l.key r.key < l.split ∧ firstDiff l.key r.key < r.split

end Trie

/-- The three kinds of hash input. -/
inductive HIn (N : Nat) where
  | data (k : Arr N) (v : List UInt8)
  | leaf (k d : Arr N)
  | branch (a b : Arr N)
deriving DecidableEq

/-- The hash of an input: a one-byte tag followed by two parts. -/
def HIn.hash (H : Hasher N) : HIn N → Arr N
  | data k v => H.hash3 N tagD k.bytes v
  | leaf k d => H.hash3 N tagL k.bytes d.bytes
  | branch a b => H.hash3 N tagB a.bytes b.bytes

/-- The hash function has no collision among the inputs in `U`. -/
def CollisionFree (H : Hasher N) (U : HIn N → Prop) : Prop :=
  ∀ i j, U i → U j → i.hash H = j.hash H → i = j

namespace Trie

/-- Location of the data node of a pair. -/
def dataLoc (H : Hasher N) (k : Arr N) (v : List UInt8) : Arr N := (HIn.data k v).hash H

/-- The root hash of a trie. -/
def loc (H : Hasher N) : Trie N → Arr N
  | leaf k v => (HIn.leaf k (dataLoc H k v)).hash H
  | node l r => (HIn.branch (l.loc H) (r.loc H)).hash H

/-- The hash input of the root. -/
def rootIn (H : Hasher N) : Trie N → HIn N
  | leaf k v => .leaf k (dataLoc H k v)
  | node l r => .branch (l.loc H) (r.loc H)

/-- All hash inputs of a trie. -/
def inputs (H : Hasher N) : Trie N → List (HIn N)
  | leaf k v => [.data k v, .leaf k (dataLoc H k v)]
  | node l r => .branch (l.loc H) (r.loc H) :: (l.inputs H ++ r.inputs H)

/-- The node that represents the root of a trie. -/
def variant (H : Hasher N) : Trie N → Variant N
  | leaf k v => .leaf ⟨k, dataLoc H k v⟩
  | node l r => .branch ⟨(node l r).size, l.loc H, r.loc H, firstDiff l.key r.key, l.key⟩

end Trie

/-- The locations a node points at. -/
def Variant.children : Variant N → List (Arr N)
  | .branch b => [b.zero, b.one]
  | .leaf l => [l.data]
  | .data _ => []

/-- A view holds a node with the given contents at `x` (with some reference count). -/
def View.Has (v : Arr N → Option (Node N)) (x : Arr N) (c : Variant N) : Prop :=
  ∃ refs, v x = some ⟨refs, c⟩

/-- A view holds all nodes of a trie. -/
def Stored (H : Hasher N) (v : Arr N → Option (Node N)) : Trie N → Prop
  | .leaf k val => View.Has v ((Trie.leaf k val).loc H) ((Trie.leaf k val).variant H) ∧
      View.Has v (Trie.dataLoc H k val) (.data ⟨val⟩)
  | .node l r => View.Has v ((Trie.node l r).loc H) ((Trie.node l r).variant H) ∧
      Stored H v l ∧ Stored H v r

end MerkleBit
