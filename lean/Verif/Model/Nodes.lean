import Verif.Model.Prelude
import Verif.Model.Arr
/-!
# Nodes

src/tree/tree_branch.rs, tree_leaf.rs, tree_data.rs, tree_node.rs, src/utils/tree_ref.rs,
src/utils/tree_cell.rs.  The `Branch`/`Leaf`/`Data`/`Node` traits are modelled by these default
implementations; `get_*`/`set_*`/`decompose` are field access.  Integer fields are unbounded `Nat`
(`u64` counts and references, `u32` `TreeRef::count`, `usize` split indices).
-/

namespace MerkleBit

/-- `TreeBranch<N>` (src/tree/tree_branch.rs:32-43). -/
structure Branch (N : Nat) where
  count : Nat
  zero : Arr N
  one : Arr N
  splitIndex : Nat
  key : Arr N
deriving DecidableEq

/-- `TreeLeaf<N>` (src/tree/tree_leaf.rs:28-33). -/
structure Leaf (N : Nat) where
  key : Arr N
  data : Arr N
deriving DecidableEq

/-- `TreeData` (src/tree/tree_data.rs:27-30). -/
structure Data where
  value : List UInt8
deriving DecidableEq

/-- `NodeVariant` (src/traits.rs:132-139). -/
inductive Variant (N : Nat) where
  | branch (b : Branch N)
  | leaf (l : Leaf N)
  | data (d : Data)
deriving DecidableEq

/-- `TreeNode<N>` (src/tree/tree_node.rs:31-36). -/
structure Node (N : Nat) where
  references : Nat
  variant : Variant N
deriving DecidableEq

/-- `TreeRef<N>` (src/utils/tree_ref.rs:7-18). -/
structure TreeRef (N : Nat) where
  key : Arr N
  location : Arr N
  nodeCount : Nat
  count : Nat
deriving DecidableEq

/-- Order of `TreeRef`s: by key only (src/utils/tree_ref.rs:34-46). -/
def TreeRef.le {N : Nat} (a b : TreeRef N) : Prop := Arr.le a.key b.key

instance {N : Nat} : DecidableRel (TreeRef.le (N := N)) := fun a b =>
  inferInstanceAs (Decidable (Arr.le a.key b.key))

/-- `tree_refs.sort()` (src/merkle_bit.rs:484): a stable sort by key. -/
def sortRefs {N : Nat} (refs : List (TreeRef N)) : List (TreeRef N) :=
  refs.insertionSort TreeRef.le

/-- `TreeCell<N>` (src/utils/tree_cell.rs:6-15).  `keys` is a borrowed slice in Rust; here the list
of its elements. -/
structure TreeCell (N : Nat) where
  location : Arr N
  keys : List (Arr N)
  node : Node N
  depth : Nat

end MerkleBit
