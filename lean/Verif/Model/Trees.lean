import Verif.Model.HashDB
import Verif.Model.RocksDB
/-!
# src/hash_tree.rs, src/rocks_tree.rs and the constructors of src/merkle_bit.rs

The trees a user creates: a database and a depth limit.  Every method of `HashTree` and `RocksTree`
forwards to the method of `MerkleBIT` with the same name.
-/

namespace MerkleBit
variable {N : Nat} {σ V : Type}

/-- `MerkleBIT { db, depth }` (src/merkle_bit.rs:48-53). -/
structure MerkleBIT (σ : Type) where
  db : σ
  depth : Nat

/-- `MerkleBIT::new` (src/merkle_bit.rs:60-63), given what `Database::open(path)` returned. -/
def MerkleBIT.new (opened : Res σ) (depth : Nat) : Res (MerkleBIT σ) :=
  match opened with
  | .error e => .error e
  | .ok db => .ok ⟨db, depth⟩

/-- `MerkleBIT::from_db` (src/merkle_bit.rs:69-71). -/
def MerkleBIT.fromDb (db : σ) (depth : Nat) : Res (MerkleBIT σ) := .ok ⟨db, depth⟩

/-- `MerkleBIT::decompose` (src/merkle_bit.rs:908-910). -/
def MerkleBIT.decompose (t : MerkleBIT σ) : σ × Nat := (t.db, t.depth)

/-- A `&mut self` method: it works on `self.db` and leaves `self.depth` alone. -/
def MerkleBIT.update {α : Type} (t : MerkleBIT σ) (m : M σ α) : Res α × MerkleBIT σ :=
  ((m t.db).1, ⟨(m t.db).2, t.depth⟩)

/-- The associated types of `HashTree` and `RocksTree` other than the database: the hasher chosen by
the features of the crate (src/tree_hasher/mod.rs), the encoding of the value type, and the standard
library's `partition_point` (src/hash_tree.rs:31-39, src/rocks_tree.rs:28-36). -/
structure TreeTypes (N : Nat) (V : Type) where
  hasher : Hasher N
  encode : V → Res (List UInt8)
  decode : List UInt8 → Res V
  pp : PartitionPoint N

/-! ## src/hash_tree.rs -/

/-- `HashTree<N, Value>` (src/hash_tree.rs:24-29).  The methods exist for `Value = Vec<u8>` only
(src/hash_tree.rs:41); the model allows any value type, as with `RocksTree`. -/
structure HashTree (N : Nat) where
  tree : MerkleBIT (HashDB N)

/-- `impl MerkleTree<N> for HashTree` (src/hash_tree.rs:31-39) with a depth limit. -/
def TreeTypes.hashConfig (ty : TreeTypes N V) (depth : Nat) : Config N (HashDB N) V :=
  ⟨hashDatabase N, ty.hasher, ty.encode, ty.decode, ty.pp, depth⟩

namespace HashTree

/-- `HashTree::new` (src/hash_tree.rs:46-53); `HashDB::open` ignores its path. -/
def new (N depth : Nat) : Res (HashTree N) :=
  match MerkleBIT.new (.ok (HashDB.open N)) depth with
  | .error e => .error e
  | .ok tree => .ok ⟨tree⟩

/-- `HashTree::open` (src/hash_tree.rs:60-66): the same, since `HashDB::open` ignores its path. -/
def «open» (N depth : Nat) : Res (HashTree N) :=
  match MerkleBIT.new (.ok (HashDB.open N)) depth with
  | .error e => .error e
  | .ok tree => .ok ⟨tree⟩

/-- `HashTree::get` (src/hash_tree.rs:72-78). -/
def get (ty : TreeTypes N V) (t : HashTree N) (rootHash : Arr N) (keys : List (Arr N)) :
    Res (AMap (Arr N) (Option V)) :=
  MerkleBit.get (ty.hashConfig t.tree.depth) t.tree.db rootHash keys

/-- `HashTree::insert` (src/hash_tree.rs:85-92). -/
def insert (ty : TreeTypes N V) (t : HashTree N) (previousRoot : Option (Arr N))
    (keys : List (Arr N)) (values : List V) : Res (Arr N) × HashTree N :=
  let r := t.tree.update (MerkleBit.insert (ty.hashConfig t.tree.depth) previousRoot keys values)
  (r.1, ⟨r.2⟩)

/-- `HashTree::remove` (src/hash_tree.rs:99-101). -/
def remove (ty : TreeTypes N V) (t : HashTree N) (rootHash : Arr N) : Res Unit × HashTree N :=
  let r := t.tree.update (MerkleBit.remove (ty.hashConfig t.tree.depth) rootHash)
  (r.1, ⟨r.2⟩)

/-- `HashTree::generate_inclusion_proof` (src/hash_tree.rs:107-113). -/
def generateInclusionProof (ty : TreeTypes N V) (t : HashTree N) (root key : Arr N) :
    Res (List (Arr N × Bool)) :=
  MerkleBit.generateInclusionProof (ty.hashConfig t.tree.depth) t.tree.db root key

/-- `HashTree::verify_inclusion_proof` (src/hash_tree.rs:119-126). -/
def verifyInclusionProof (ty : TreeTypes N V) (root key : Arr N) (value : V)
    (proof : List (Arr N × Bool)) : Res Unit :=
  MerkleBit.verifyInclusionProof ty.hasher ty.encode root key value proof

/-- `HashTree::get_one` (src/hash_tree.rs:132-138). -/
def getOne (ty : TreeTypes N V) (t : HashTree N) (root key : Arr N) : Res (Option V) :=
  MerkleBit.getOne (ty.hashConfig t.tree.depth) t.tree.db root key

/-- `HashTree::insert_one` (src/hash_tree.rs:144-151). -/
def insertOne (ty : TreeTypes N V) (t : HashTree N) (previousRoot : Option (Arr N)) (key : Arr N)
    (value : V) : Res (Arr N) × HashTree N :=
  let r := t.tree.update (MerkleBit.insertOne (ty.hashConfig t.tree.depth) previousRoot key value)
  (r.1, ⟨r.2⟩)

/-- `HashTree::decompose` (src/hash_tree.rs:156-158). -/
def decompose (t : HashTree N) : HashDB N × Nat := t.tree.decompose

end HashTree

/-! ## src/rocks_tree.rs -/

/-- `RocksDB::new` (src/tree_db/rocksdb.rs:22-29) on what is stored on disk. -/
def RocksDB.new (db : AMap (Arr N) (List UInt8)) : RocksDB N := ⟨db, some [], 0⟩

/-- `RocksDB::decompose` (src/tree_db/rocksdb.rs:31-34). -/
def RocksDB.decompose (s : RocksDB N) : AMap (Arr N) (List UInt8) := s.db

/-- `RocksTree<N, ValueType>` (src/rocks_tree.rs:24-26). -/
structure RocksTree (N : Nat) where
  tree : MerkleBIT (RocksDB N)

/-- `impl MerkleTree<N> for RocksTree` (src/rocks_tree.rs:28-36) with a depth limit. -/
def TreeTypes.rocksConfig (ty : TreeTypes N V) (codec : NodeCodec N) (env : RocksEnv N)
    (depth : Nat) : Config N (RocksDB N) V :=
  ⟨rocksDatabase codec env, ty.hasher, ty.encode, ty.decode, ty.pp, depth⟩

namespace RocksTree

/-- `RocksTree::from_db` (src/rocks_tree.rs:47-50). -/
def fromDb (db : RocksDB N) (depth : Nat) : Res (RocksTree N) :=
  match MerkleBIT.fromDb db depth with
  | .error e => .error e
  | .ok tree => .ok ⟨tree⟩

/-- `RocksTree::open` (src/rocks_tree.rs:40-44), given what RocksDB's `DB::open_default(path)`
returned (src/tree_db/rocksdb.rs:41-43). -/
def «open» (opened : Res (AMap (Arr N) (List UInt8))) (depth : Nat) : Res (RocksTree N) :=
  match opened with
  | .error e => .error e
  | .ok db => fromDb (RocksDB.new db) depth

/-- `RocksTree::get` (src/rocks_tree.rs:53-59). -/
def get (ty : TreeTypes N V) (codec : NodeCodec N) (env : RocksEnv N) (t : RocksTree N)
    (rootHash : Arr N) (keys : List (Arr N)) : Res (AMap (Arr N) (Option V)) :=
  MerkleBit.get (ty.rocksConfig codec env t.tree.depth) t.tree.db rootHash keys

/-- `RocksTree::get_one` (src/rocks_tree.rs:62-68). -/
def getOne (ty : TreeTypes N V) (codec : NodeCodec N) (env : RocksEnv N) (t : RocksTree N)
    (root key : Arr N) : Res (Option V) :=
  MerkleBit.getOne (ty.rocksConfig codec env t.tree.depth) t.tree.db root key

/-- `RocksTree::insert` (src/rocks_tree.rs:71-78). -/
def insert (ty : TreeTypes N V) (codec : NodeCodec N) (env : RocksEnv N) (t : RocksTree N)
    (previousRoot : Option (Arr N)) (keys : List (Arr N)) (values : List V) :
    Res (Arr N) × RocksTree N :=
  let r := t.tree.update
    (MerkleBit.insert (ty.rocksConfig codec env t.tree.depth) previousRoot keys values)
  (r.1, ⟨r.2⟩)

/-- `RocksTree::insert_one` (src/rocks_tree.rs:81-88). -/
def insertOne (ty : TreeTypes N V) (codec : NodeCodec N) (env : RocksEnv N) (t : RocksTree N)
    (previousRoot : Option (Arr N)) (key : Arr N) (value : V) : Res (Arr N) × RocksTree N :=
  let r := t.tree.update
    (MerkleBit.insertOne (ty.rocksConfig codec env t.tree.depth) previousRoot key value)
  (r.1, ⟨r.2⟩)

/-- `RocksTree::remove` (src/rocks_tree.rs:91-93). -/
def remove (ty : TreeTypes N V) (codec : NodeCodec N) (env : RocksEnv N) (t : RocksTree N)
    (rootHash : Arr N) : Res Unit × RocksTree N :=
  let r := t.tree.update (MerkleBit.remove (ty.rocksConfig codec env t.tree.depth) rootHash)
  (r.1, ⟨r.2⟩)

/-- `RocksTree::generate_inclusion_proof` (src/rocks_tree.rs:96-102). -/
def generateInclusionProof (ty : TreeTypes N V) (codec : NodeCodec N) (env : RocksEnv N)
    (t : RocksTree N) (root key : Arr N) : Res (List (Arr N × Bool)) :=
  MerkleBit.generateInclusionProof (ty.rocksConfig codec env t.tree.depth) t.tree.db root key

/-- `RocksTree::verify_inclusion_proof` (src/rocks_tree.rs:105-112). -/
def verifyInclusionProof (ty : TreeTypes N V) (root key : Arr N) (value : V)
    (proof : List (Arr N × Bool)) : Res Unit :=
  MerkleBit.verifyInclusionProof ty.hasher ty.encode root key value proof

/-- `RocksTree::decompose` (src/rocks_tree.rs:116-118). -/
def decompose (t : RocksTree N) : RocksDB N × Nat := t.tree.decompose

end RocksTree

end MerkleBit
