import Verif.Model.Bincode
/-!
# Serialization of nodes with the features `json`, `cbor`, `yaml`, `pickle` and `ron`

`Encode`/`Decode` of `TreeNode` (src/tree/tree_node.rs:85-176) hand the node to one of five formats.
These formats describe themselves: a reader can tell a number, a sequence, a byte string and a map
apart.  The formats and the derive macros of serde are third-party code.  What is modelled of them:

* A serialized value is a tree of numbers, sequences, byte strings and maps (`SVal`).  A derived
  `Serialize` writes a struct as a map from field names to fields and an enum variant as a map with the
  variant's name as its only key.  (pickle writes the variant as a pair, ron as a call; both still name it.)
* A format writes such a tree as bytes and reads it back (`Format`).
* A visitor for which a format finds a sequence is asked to `visit_seq`, also after
  `deserialize_bytes`: serde_json and ciborium do so explicitly, serde-pickle ignores the hint, and
  serde_yaml and ron refuse a sequence at once.  A visitor without `visit_seq` reports an invalid type.

`Json` and `Cbor` are two such formats in full, for the values that nodes consist of.
-/

namespace MerkleBit.Serde

/-- The part of serde's data model that nodes use.  Names are ASCII bytes. -/
inductive SVal where
  | num (n : Nat)
  | bytes (bs : List UInt8)
  | seq (xs : List SVal)
  | map (fs : List (List UInt8 × SVal))

/-- ASCII bytes of a name. -/
def name (s : String) : List UInt8 := s.toList.map (fun c => UInt8.ofNat c.toNat)

/-- `Vec<u8>`, and `impl Serialize for Array<N>` (src/lib.rs:219-228): a sequence of numbers. -/
def serBytes (bs : List UInt8) : SVal := .seq (bs.map (fun b => .num b.toNat))

/-- `TreeBranch<N>` (src/tree/tree_branch.rs:29-43). -/
def serBranch {N : Nat} (b : Branch N) : SVal :=
  .map [(name "count", .num b.count), (name "zero", serBytes b.zero.bytes),
    (name "one", serBytes b.one.bytes), (name "split_index", .num b.splitIndex),
    (name "key", serBytes b.key.bytes)]

/-- `TreeLeaf<N>` (src/tree/tree_leaf.rs:26-33). -/
def serLeaf {N : Nat} (l : Leaf N) : SVal :=
  .map [(name "key", serBytes l.key.bytes), (name "data", serBytes l.data.bytes)]

/-- `TreeData` (src/tree/tree_data.rs:25-30). -/
def serData (d : Data) : SVal := .map [(name "value", serBytes d.value)]

/-- `NodeVariant` (src/traits.rs:128-139). -/
def serVariant {N : Nat} : Variant N → SVal
  | .branch b => .map [(name "Branch", serBranch b)]
  | .leaf l => .map [(name "Leaf", serLeaf l)]
  | .data d => .map [(name "Data", serData d)]

/-- `TreeNode<N>` (src/tree/tree_node.rs:28-36). -/
def serNode {N : Nat} (n : Node N) : SVal :=
  .map [(name "references", .num n.references), (name "node", serVariant n.variant)]

/-- `u64` and `usize`. -/
def deNum : SVal → Option Nat
  | .num n => if n < 2 ^ 64 then some n else none
  | _ => none

/-- `impl Deserialize for Array<N>` (src/lib.rs:255-262): `deserialize_bytes` with a visitor
(src/lib.rs:230-252) that only has `visit_bytes`. -/
def deArr (N : Nat) : SVal → Option (Arr N)
  | .bytes bs => some (Bincode.visitBytes N bs)
  | _ => none

/-- An element of a `Vec<u8>`. -/
def deByte : SVal → Option UInt8
  | .num n => if n < 256 then some (UInt8.ofNat n) else none
  | _ => none

/-- `Vec<u8>`. -/
def deBytes : SVal → Option (List UInt8)
  | .seq xs => xs.mapM deByte
  | _ => none

/-- A field of a struct; a missing or repeated field is an error, fields with other names are
ignored.  (Derived visitors also take a sequence for a struct; no format writes a struct so.) -/
def field (s : String) : SVal → Option SVal
  | .map fs =>
    match fs.filter (fun f => f.1 = name s) with
    | [f] => some f.2
    | _ => none
  | _ => none

/-- `TreeBranch<N>` (src/tree/tree_branch.rs:29-43). -/
def deBranch (N : Nat) (v : SVal) : Option (Branch N) := do
  let count ← (field "count" v).bind deNum
  let zero ← (field "zero" v).bind (deArr N)
  let one ← (field "one" v).bind (deArr N)
  let splitIndex ← (field "split_index" v).bind deNum
  let key ← (field "key" v).bind (deArr N)
  some ⟨count, zero, one, splitIndex, key⟩

/-- `TreeLeaf<N>` (src/tree/tree_leaf.rs:26-33). -/
def deLeaf (N : Nat) (v : SVal) : Option (Leaf N) := do
  let key ← (field "key" v).bind (deArr N)
  let data ← (field "data" v).bind (deArr N)
  some ⟨key, data⟩

/-- `TreeData` (src/tree/tree_data.rs:25-30). -/
def deData (v : SVal) : Option Data := do
  let value ← (field "value" v).bind deBytes
  some ⟨value⟩

/-- `NodeVariant` (src/traits.rs:128-139). -/
def deVariant (N : Nat) : SVal → Option (Variant N)
  | .map [(k, v)] =>
    if k = name "Branch" then (deBranch N v).map .branch
    else if k = name "Leaf" then (deLeaf N v).map .leaf
    else if k = name "Data" then (deData v).map .data
    else none
  | _ => none

/-- `TreeNode<N>` (src/tree/tree_node.rs:28-36). -/
def deNode (N : Nat) (v : SVal) : Option (Node N) := do
  let references ← (field "references" v).bind deNum
  let variant ← (field "node" v).bind (deVariant N)
  some ⟨references, variant⟩

/-- The numbers in the node, and the lengths of its arrays and of its value, are values of `u64`/`usize`, as
they are for every Rust value. -/
def Fits {N : Nat} (n : Node N) : Prop :=
  n.references < 2 ^ 64 ∧ match n.variant with
    | .branch b => b.count < 2 ^ 64 ∧ b.splitIndex < 2 ^ 64 ∧ N < 2 ^ 64
    | .leaf _ => N < 2 ^ 64
    | .data d => d.value.length < 2 ^ 64

instance {N : Nat} (n : Node N) : Decidable (Fits n) := by
  unfold Fits
  cases n.variant <;> infer_instance

/-- A format that describes itself: it reads back the tree that it wrote for a node. -/
structure Format where
  write : SVal → List UInt8
  read : List UInt8 → Option SVal
  reads_back : ∀ (N : Nat) (n : Node N), Fits n → read (write (serNode n)) = some (serNode n)

/-- `Encode`/`Decode` for `TreeNode<N>` (src/tree/tree_node.rs:85-176).  Numbers of the model are
unbounded; a node with a number that no Rust value holds is refused. -/
def Format.codec (F : Format) (N : Nat) : NodeCodec N where
  encode n := if Fits n then .ok (F.write (serNode n)) else .error (.exception "unrepresentable")
  decode bs := match (F.read bs).bind (deNode N) with
    | some n => .ok n
    | none => .error (.exception "serde")

/-! ## JSON

`serde_json::to_string` and `serde_json::from_str` (src/tree/tree_node.rs:85-92, 136-144), for the
values that nodes consist of: no white space, no strings other than names, no escapes. -/

namespace Json

/-- Decimal digits, least significant first. -/
def revDigits : Nat → Nat → List UInt8
  | 0, _ => []
  | fuel + 1, n => UInt8.ofNat (48 + n % 10) :: if n < 10 then [] else revDigits fuel (n / 10)

/-- Decimal digits. -/
def digits (n : Nat) : List UInt8 := (revDigits (n + 1) n).reverse

/-- Separates with commas. -/
def commas : List (List UInt8) → List UInt8
  | [] => []
  | [x] => x
  | x :: xs => x ++ 44 :: commas xs

mutual
/-- The text of a value; bytes are written as a sequence of numbers. -/
def write : SVal → List UInt8
  | .num n => digits n
  | .bytes bs => 91 :: (commas (bs.map (fun b => digits b.toNat)) ++ [93])
  | .seq xs => 91 :: (commas (writeAll xs) ++ [93])
  | .map fs => 123 :: (commas (writeFields fs) ++ [125])
/-- The texts of the elements of a sequence. -/
def writeAll : List SVal → List (List UInt8)
  | [] => []
  | x :: xs => write x :: writeAll xs
/-- The texts of the entries of a map. -/
def writeFields : List (List UInt8 × SVal) → List (List UInt8)
  | [] => []
  | (k, v) :: fs => (34 :: (k ++ 34 :: 58 :: write v)) :: writeFields fs
end

/-- Whether a byte is a digit. -/
def isDigit (b : UInt8) : Bool := 48 ≤ b && b ≤ 57

/-- Reads digits. -/
def readDigits : Nat → List UInt8 → Nat × List UInt8
  | acc, [] => (acc, [])
  | acc, b :: bs => if isDigit b then readDigits (10 * acc + (b.toNat - 48)) bs else (acc, b :: bs)

/-- Reads a name up to the closing quote. -/
def readName : List UInt8 → Option (List UInt8 × List UInt8)
  | [] => none
  | b :: bs => if b = 34 then some ([], bs) else (readName bs).map (fun (k, rest) => (b :: k, rest))

mutual
/-- Reads a value from the front. -/
def readValue : Nat → List UInt8 → Option (SVal × List UInt8)
  | 0, _ => none
  | _ + 1, [] => none
  | fuel + 1, b :: bs =>
    if b = 91 then
      if bs.head? = some 93 then some (.seq [], bs.tail)
      else (readAll fuel bs).map (fun (xs, rest) => (.seq xs, rest))
    else if b = 123 then
      if bs.head? = some 125 then some (.map [], bs.tail)
      else (readFields fuel bs).map (fun (fs, rest) => (.map fs, rest))
    else if isDigit b then some (.num (readDigits 0 (b :: bs)).1, (readDigits 0 (b :: bs)).2)
    else none
/-- Reads one or more elements and the closing bracket. -/
def readAll : Nat → List UInt8 → Option (List SVal × List UInt8)
  | 0, _ => none
  | fuel + 1, bs =>
    (readValue fuel bs).bind fun (x, rest) =>
      if rest.head? = some 44 then (readAll fuel rest.tail).map (fun (xs, rest) => (x :: xs, rest))
      else if rest.head? = some 93 then some ([x], rest.tail)
      else none
/-- Reads one or more entries and the closing brace. -/
def readFields : Nat → List UInt8 → Option (List (List UInt8 × SVal) × List UInt8)
  | 0, _ => none
  | fuel + 1, bs =>
    if bs.head? = some 34 then
      (readName bs.tail).bind fun (k, bs) =>
        if bs.head? = some 58 then
          (readValue fuel bs.tail).bind fun (v, rest) =>
            if rest.head? = some 44 then
              (readFields fuel rest.tail).map (fun (fs, rest) => ((k, v) :: fs, rest))
            else if rest.head? = some 125 then some ([(k, v)], rest.tail)
            else none
        else none
    else none
end

/-- Reads a text that consists of one value. -/
def read (bs : List UInt8) : Option SVal :=
  match readValue (2 * bs.length + 1) bs with
  | some (v, []) => some v
  | _ => none

end Json

/-! ## CBOR

`ciborium::ser::into_writer` and `ciborium::de::from_reader` (src/tree/tree_node.rs:94-102, 146-152), for the
values that nodes consist of: lengths are definite, and there are no negative numbers, tags, floats and
strings other than names.  (RFC 8949: the first byte of an item is its major type times 32 plus 0 to 23 for a
small argument, or plus 24 to 27 for an argument in the next 1, 2, 4 or 8 bytes.) -/

namespace Cbor

/-- `n` in `k` bytes, the most significant first. -/
def putBE : Nat → Nat → List UInt8
  | 0, _ => []
  | k + 1, n => UInt8.ofNat (n / 256 ^ k) :: putBE k (n % 256 ^ k)

/-- The number of which these are the bytes, the most significant first. -/
def getBE (bs : List UInt8) : Nat := bs.foldl (fun n b => n * 256 + b.toNat) 0

/-- The head of an item with this major type and argument; the shortest form is written. -/
def head (major n : Nat) : List UInt8 :=
  if n < 24 then [UInt8.ofNat (major * 32 + n)]
  else if n < 2 ^ 8 then UInt8.ofNat (major * 32 + 24) :: putBE 1 n
  else if n < 2 ^ 16 then UInt8.ofNat (major * 32 + 25) :: putBE 2 n
  else if n < 2 ^ 32 then UInt8.ofNat (major * 32 + 26) :: putBE 4 n
  else UInt8.ofNat (major * 32 + 27) :: putBE 8 n

mutual
/-- An item: a number (major type 0), a byte string (2), an array (4) or a map (5). -/
def write : SVal → List UInt8
  | .num n => head 0 n
  | .bytes bs => head 2 bs.length ++ bs
  | .seq xs => head 4 xs.length ++ writeAll xs
  | .map fs => head 5 fs.length ++ writeFields fs
/-- The elements of an array. -/
def writeAll : List SVal → List UInt8
  | [] => []
  | x :: xs => write x ++ writeAll xs
/-- The entries of a map; names are text strings (major type 3). -/
def writeFields : List (List UInt8 × SVal) → List UInt8
  | [] => []
  | (k, v) :: fs => head 3 k.length ++ (k ++ (write v ++ writeFields fs))
end

/-- Reads this many bytes. -/
def takeBytes (n : Nat) (bs : List UInt8) : Option (List UInt8 × List UInt8) :=
  if bs.length < n then none else some (bs.take n, bs.drop n)

/-- Reads a head: the major type and the argument. -/
def readHead : List UInt8 → Option ((Nat × Nat) × List UInt8)
  | [] => none
  | b :: bs =>
    let major := b.toNat / 32
    let info := b.toNat % 32
    if info < 24 then some ((major, info), bs)
    else if info < 28 then (takeBytes (2 ^ (info - 24)) bs).map (fun (n, rest) => ((major, getBE n), rest))
    else none

mutual
/-- Reads an item. -/
def readValue : Nat → List UInt8 → Option (SVal × List UInt8)
  | 0, _ => none
  | fuel + 1, bs =>
    (readHead bs).bind fun ((major, n), bs) =>
      if major = 0 then some (.num n, bs)
      else if major = 2 then (takeBytes n bs).map (fun (v, rest) => (.bytes v, rest))
      else if major = 4 then (readAll fuel n bs).map (fun (xs, rest) => (.seq xs, rest))
      else if major = 5 then (readFields fuel n bs).map (fun (fs, rest) => (.map fs, rest))
      else none
/-- Reads this many items. -/
def readAll : Nat → Nat → List UInt8 → Option (List SVal × List UInt8)
  | _, 0, bs => some ([], bs)
  | 0, _ + 1, _ => none
  | fuel + 1, n + 1, bs =>
    (readValue fuel bs).bind fun (x, bs) =>
      (readAll fuel n bs).map (fun (xs, rest) => (x :: xs, rest))
/-- Reads this many entries of a map. -/
def readFields : Nat → Nat → List UInt8 → Option (List (List UInt8 × SVal) × List UInt8)
  | _, 0, bs => some ([], bs)
  | 0, _ + 1, _ => none
  | fuel + 1, n + 1, bs =>
    (readHead bs).bind fun ((major, len), bs) =>
      if major = 3 then
        (takeBytes len bs).bind fun (k, bs) =>
          (readValue fuel bs).bind fun (v, bs) =>
            (readFields fuel n bs).map (fun (fs, rest) => ((k, v) :: fs, rest))
      else none
end

/-- `from_reader`: reads one item and leaves what follows it unread. -/
def read (bs : List UInt8) : Option SVal := (readValue (2 * bs.length + 2) bs).map (·.1)

end Cbor

end MerkleBit.Serde
