import Verif.Model.MerkleBit
/-!
# src/tree_db/rocksdb.rs

RocksDB itself is third-party code.  Its documented behaviour is modelled: `get` reads committed
data, `write` applies a whole `WriteBatch` atomically and in order or fails without effect, `delete`
removes a key or fails without effect.  Failures are decided by an arbitrary environment, so a
theorem about this model covers every pattern of I/O errors.  A process crash is the environment
that fails every operation from some point on; what survives a crash is `db`, not `pending`.
-/

namespace MerkleBit

/-- `impl Encode for TreeNode` / `impl Decode for TreeNode` (src/tree/tree_node.rs:77-176): the
serialization of nodes used by the database. -/
structure NodeCodec (N : Nat) where
  encode : Node N → Res (List UInt8)
  decode : List UInt8 → Res (Node N)

/-- Which RocksDB calls fail: reads at a key, and writes; both may depend on the number of
RocksDB writes attempted so far. -/
structure RocksEnv (N : Nat) where
  readFails : Nat → Arr N → Bool
  writeFails : Nat → Bool

/-- `RocksDB<N>` (src/tree_db/rocksdb.rs:17-20); `clock` counts the RocksDB writes attempted so far
and exists only to index the environment's failures. -/
structure RocksDB (N : Nat) where
  db : AMap (Arr N) (List UInt8)
  pending : Option (List (Arr N × List UInt8))
  clock : Nat

/-- `DB::write(batch)`: the puts of a `WriteBatch` in order (third-party, see the file header). -/
def applyBatch {N : Nat} (db : AMap (Arr N) (List UInt8)) (batch : List (Arr N × List UInt8)) :
    AMap (Arr N) (List UInt8) :=
  batch.foldl (fun m kv => m.insert kv.1 kv.2) db

/-- `impl Database for RocksDB` (src/tree_db/rocksdb.rs:37-80). -/
def rocksDatabase {N : Nat} (codec : NodeCodec N) (env : RocksEnv N) : Database N (RocksDB N) where
  getNode s key :=
    if env.readFails s.clock key then .error (.exception "rocksdb: get")
    else match s.db.get? key with
      | some buffer =>
        match codec.decode buffer with
        | .ok node => .ok (some node)
        | .error e => .error e
      | none => .ok none
  insert key node := fun s =>
    match codec.encode node with
    | .error e => (.error e, s)
    | .ok serialized =>
      match s.pending with
      | some wb => (.ok (), { s with pending := some (wb ++ [(key, serialized)]) })
      | none => (.ok (), { s with pending := some [(key, serialized)] })
  remove key := fun s =>
    if env.writeFails s.clock then (.error (.exception "rocksdb: delete"), { s with clock := s.clock + 1 })
    else (.ok (), { s with db := s.db.erase key, clock := s.clock + 1 })
  batchWrite := fun s =>
    match s.pending with
    | some wb =>
      if env.writeFails s.clock then
        (.error (.exception "rocksdb: write"), { s with pending := some [], clock := s.clock + 1 })
      else (.ok (), { db := applyBatch s.db wb, pending := none, clock := s.clock + 1 })
    | none => (.ok (), s)

/-- `RocksDB::new` on an empty database (src/tree_db/rocksdb.rs:22-29). -/
def RocksDB.open (N : Nat) : RocksDB N := ⟨AMap.empty, some [], 0⟩

end MerkleBit
