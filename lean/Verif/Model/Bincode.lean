import Verif.Model.RocksDB
/-!
# Serialization of nodes with the `bincode` feature

`TreeNode::encode`/`decode` (src/tree/tree_node.rs:77-83, 128-134), `TreeBranch` (the same in
src/tree/tree_branch.rs), `TreeLeaf`, `TreeData` and the hand-written `Serialize`/`Deserialize` of
`Array<N>` (src/lib.rs:219-262) under `bincode::serialize`/`bincode::deserialize`.

bincode and the derive macros of serde are third-party code.  Their documented default format is
modelled: struct fields in declaration order without names; `u64` and `usize` as eight little-endian
bytes; an enum as its variant index in four little-endian bytes followed by the variant's contents;
sequences and byte strings as an eight-byte length followed by the elements; `deserialize` ignores
bytes after the value.  The size limit is infinite by default and not modelled.
-/

namespace MerkleBit.Bincode

/-- A decoder consumes a prefix of the input; `none` is a decoding error. -/
abbrev Dec (α : Type) := List UInt8 → Option (α × List UInt8)

/-- `w` bytes, little endian. -/
def putLE : Nat → Nat → List UInt8
  | 0, _ => []
  | w + 1, n => UInt8.ofNat n :: putLE w (n / 256)

/-- Reads `w` bytes, little endian. -/
def getLE : Nat → Dec Nat
  | 0, bs => some (0, bs)
  | _ + 1, [] => none
  | w + 1, b :: bs =>
    match getLE w bs with
    | some (n, rest) => some (b.toNat + 256 * n, rest)
    | none => none

/-- `serialize_u64`, and `usize` on a 64-bit target. -/
def putU64 (n : Nat) : List UInt8 := putLE 8 n

/-- `deserialize_u64`. -/
def getU64 : Dec Nat := getLE 8

/-- A length followed by that many bytes: how `Vec<u8>` (`TreeData::value`) and a sequence of bytes
are written. -/
def putBytes (bs : List UInt8) : List UInt8 := putU64 bs.length ++ bs

/-- Reads a length and that many bytes (`deserialize_bytes`, and `Vec<u8>` element by element). -/
def getBytes : Dec (List UInt8) := fun bs =>
  match getU64 bs with
  | some (n, rest) => if rest.length < n then none else some (rest.take n, rest.drop n)
  | none => none

/-- `impl Serialize for Array<N>` (src/lib.rs:219-228): a sequence of `N` bytes. -/
def putArr {N : Nat} (a : Arr N) : List UInt8 := putBytes a.bytes

/-- `ArrayVisitor::visit_bytes` (src/lib.rs:243-251): copies `min(N, v.len())` bytes into a zeroed
array. -/
def visitBytes (N : Nat) (v : List UInt8) : Arr N :=
  ⟨v.take N ++ List.replicate (N - v.length) 0, by simp; omega⟩

/-- `impl Deserialize for Array<N>` (src/lib.rs:255-262). -/
def getArr (N : Nat) : Dec (Arr N) := fun bs =>
  match getBytes bs with
  | some (v, rest) => some (visitBytes N v, rest)
  | none => none

/-- `TreeBranch<N>` (src/tree/tree_branch.rs:32-43). -/
def putBranch {N : Nat} (b : Branch N) : List UInt8 :=
  putU64 b.count ++ (putArr b.zero ++ (putArr b.one ++ (putU64 b.splitIndex ++ putArr b.key)))

/-- `TreeBranch<N>` (src/tree/tree_branch.rs:32-43). -/
def getBranch (N : Nat) : Dec (Branch N) := fun bs => do
  let (count, bs) ← getU64 bs
  let (zero, bs) ← getArr N bs
  let (one, bs) ← getArr N bs
  let (splitIndex, bs) ← getU64 bs
  let (key, bs) ← getArr N bs
  some (⟨count, zero, one, splitIndex, key⟩, bs)

/-- `TreeLeaf<N>` (src/tree/tree_leaf.rs:28-33). -/
def putLeaf {N : Nat} (l : Leaf N) : List UInt8 := putArr l.key ++ putArr l.data

/-- `TreeLeaf<N>` (src/tree/tree_leaf.rs:28-33). -/
def getLeaf (N : Nat) : Dec (Leaf N) := fun bs => do
  let (key, bs) ← getArr N bs
  let (data, bs) ← getArr N bs
  some (⟨key, data⟩, bs)

/-- `TreeData` (src/tree/tree_data.rs:27-30). -/
def putData (d : Data) : List UInt8 := putBytes d.value

/-- `TreeData` (src/tree/tree_data.rs:27-30). -/
def getData : Dec Data := fun bs => do
  let (value, bs) ← getBytes bs
  some (⟨value⟩, bs)

/-- `NodeVariant` (src/traits.rs:132-139): variant indices 0, 1, 2 in declaration order. -/
def putVariant {N : Nat} : Variant N → List UInt8
  | .branch b => putLE 4 0 ++ putBranch b
  | .leaf l => putLE 4 1 ++ putLeaf l
  | .data d => putLE 4 2 ++ putData d

/-- `NodeVariant` (src/traits.rs:132-139); any other variant index is an error. -/
def getVariant (N : Nat) : Dec (Variant N) := fun bs => do
  let (tag, bs) ← getLE 4 bs
  if tag = 0 then
    let (b, bs) ← getBranch N bs
    some (.branch b, bs)
  else if tag = 1 then
    let (l, bs) ← getLeaf N bs
    some (.leaf l, bs)
  else if tag = 2 then
    let (d, bs) ← getData bs
    some (.data d, bs)
  else none

/-- `TreeNode<N>` (src/tree/tree_node.rs:31-36). -/
def putNode {N : Nat} (n : Node N) : List UInt8 := putU64 n.references ++ putVariant n.variant

/-- `TreeNode<N>` (src/tree/tree_node.rs:31-36). -/
def getNode (N : Nat) : Dec (Node N) := fun bs => do
  let (references, bs) ← getU64 bs
  let (variant, bs) ← getVariant N bs
  some (⟨references, variant⟩, bs)

/-- `bincode::deserialize`: bytes left over are ignored; an error becomes an `Exception`
(src/tree/tree_branch.rs:121-126). -/
def decoded {α : Type} (d : Dec α) (bs : List UInt8) : Res α :=
  match d bs with
  | some (a, _) => .ok a
  | none => .error (.exception "bincode")

/-- `Encode`/`Decode` for `TreeNode<N>` with the `bincode` feature (src/tree/tree_node.rs:77-83,
128-134).  Numbers of the model are unbounded; a number of `2^64` or more, which no Rust value holds,
is written modulo `2^64`. -/
def codec (N : Nat) : NodeCodec N := ⟨fun n => .ok (putNode n), decoded (getNode N)⟩

end MerkleBit.Bincode
