import Verif.Model.MerkleBit
/-!
# src/tree_db/hashmap.rs and src/tree_db/hashbrown.rs
-/

namespace MerkleBit

/-- `HashDB<N>` (src/tree_db/hashmap.rs:9-12, src/tree_db/hashbrown.rs). -/
structure HashDB (N : Nat) where
  map : AMap (Arr N) (Node N)

/-- `impl Database for HashDB` (src/tree_db/hashmap.rs:30-62). -/
def hashDatabase (N : Nat) : Database N (HashDB N) where
  getNode s key := .ok (s.map.get? key)
  insert key node := fun s => (.ok (), ⟨s.map.insert key node⟩)
  remove key := fun s => (.ok (), ⟨s.map.erase key⟩)
  batchWrite := fun s => (.ok (), s)

/-- `HashDB::open` / `HashDB::new(HashMap::new())` (src/tree_db/hashmap.rs:34-36). -/
def HashDB.open (N : Nat) : HashDB N := ⟨AMap.empty⟩

end MerkleBit
