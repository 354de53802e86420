import Verif.Props.Toy
/-!
# The project's own tests, run on the model

These are no proofs of properties.  They check the model: what tests/merkle_bit.rs, examples/main.rs and the fuzz
target expect of the code is computed from the model.  Keys are the bytes of the test, repeated twice instead of 32
times, and the hash is the one of `Toy`.  The tests with random keys are left out here.
-/

namespace MerkleBit.RepoTests
open MerkleBit

/-- `[b; KEY_LEN]`. -/
def rep (b : UInt8) : Arr 2 := ⟨[b, b], rfl⟩

/-- `Tree::open(&path, depth)` for `HashTree`. -/
def cfg (depth : Nat) : Config 2 (HashDB 2) (List UInt8) := { Toy.cfg with depth := depth }

def db0 : HashDB 2 := HashDB.open 2

/-- `insert(prev, keys, values)?`. -/
def ins (d : Nat) (prev : Option (Arr 2)) (kvs : List (UInt8 × List UInt8)) : M (HashDB 2) (Arr 2) :=
  MerkleBit.insert (cfg d) prev (kvs.map fun e => rep e.1) (kvs.map Prod.snd)

/-- `get(root, keys)?` and `items[key]` for the keys of the call. -/
def items (d : Nat) (s : HashDB 2) (r : Arr 2) (ks : List UInt8) : Option (List (Option (List UInt8))) :=
  match MerkleBit.get (cfg d) s r (ks.map rep) with
  | .ok m => some (ks.map fun k => (m.get? (rep k)).join)
  | .error _ => none

/-- A test that inserts into an empty tree and reads keys. -/
def oneInsert (d : Nat) (kvs : List (UInt8 × List UInt8)) (ks : List UInt8) : Option (List (Option (List UInt8))) :=
  match ins d none kvs db0 with
  | (.ok r, s) => items d s r ks
  | _ => none

/-- A test that inserts twice and reads keys from both roots. -/
def twoInserts (d : Nat) (kvs kvs' : List (UInt8 × List UInt8)) (ks ks' : List UInt8) :
    Option (List (Option (List UInt8)) × List (Option (List UInt8))) :=
  match ins d none kvs db0 with
  | (.ok r, s) =>
    match ins d (some r) kvs' s with
    | (.ok r', s') => do return (← items d s' r ks, ← items d s' r' ks')
    | _ => none
  | _ => none

/-- A test that inserts twice, removes the first root, and reads keys from the second. -/
def twoInsertsRemove (d : Nat) (kvs kvs' : List (UInt8 × List UInt8)) (ks' : List UInt8) :
    Option (List (Option (List UInt8))) :=
  match ins d none kvs db0 with
  | (.ok r, s) =>
    match ins d (some r) kvs' s with
    | (.ok r', s') =>
      match MerkleBit.remove (cfg d) r s' with
      | (.ok _, s'') => items d s'' r' ks'
      | _ => none
    | _ => none
  | _ => none

/-- `it_gets_an_item_out_of_a_simple_tree` (tests/merkle_bit.rs:124-139). -/
example : oneInsert 160 [(0xAA, [0xFF])] [0xAA] = some [some [0xFF]] := by decide +kernel

/-- `it_fails_to_get_from_empty_tree` (142-160). -/
example : items 160 db0 (rep 1) [0] = some [none] := by decide +kernel

/-- `it_fails_to_get_a_nonexistent_item` (163-183). -/
example : oneInsert 160 [(0xAA, [0xFF])] [0xAB] = some [none] := by decide +kernel

/-- `it_gets_items_from_a_small_balanced_tree` (186-205). -/
example : oneInsert 3 ((List.range 8).map fun i => (UInt8.ofNat (32 * i), [UInt8.ofNat i]))
    ((List.range 8).map fun i => UInt8.ofNat (32 * i)) =
    some ((List.range 8).map fun i => some [UInt8.ofNat i]) := by decide +kernel

/-- `it_gets_items_from_a_small_unbalanced_tree` (208-226). -/
example : oneInsert 3 ((List.range 7).map fun i => (UInt8.ofNat (32 * i), [UInt8.ofNat i]))
    ((List.range 7).map fun i => UInt8.ofNat (32 * i)) =
    some ((List.range 7).map fun i => some [UInt8.ofNat i]) := by decide +kernel

/-- `it_gets_items_from_a_complex_tree` (409-486). -/
example : oneInsert 5 [(0x60, [1]), (0x68, [2]), (0x80, [3]), (0xF0, [4])]
    [0x00, 0x40, 0x41, 0x60, 0x68, 0x70, 0x71, 0x72, 0x80, 0xC0, 0xC1, 0xE0, 0xE1, 0xE2, 0xF0, 0xF8] =
    some [none, none, none, some [1], some [2], none, none, none, some [3], none, none, none, none, none, some [4],
      none] := by decide +kernel

/-- `it_inserts_two_leaf_nodes_into_empty_tree`, also `..._with_first_bit_split` (519-553). -/
example : oneInsert 3 [(0, [2]), (1, [3])] [0, 1] = some [some [2], some [3]] ∧
    oneInsert 3 [(0, [2]), (0x80, [3])] [0, 0x80] = some [some [2], some [3]] := by decide +kernel

/-- `it_inserts_multiple_leaf_nodes_into_empty_tree` (572-591). -/
example : oneInsert 3 [(0xAA, [0xDD]), (0xBB, [0xEE]), (0xCC, [0xFF])] [0xAA, 0xBB, 0xCC] =
    some [some [0xDD], some [0xEE], some [0xFF]] := by decide +kernel

/-- `it_inserts_a_leaf_node_into_a_tree_with_one_item` (720-743). -/
example : (twoInserts 3 [(0xAA, [0xBB])] [(0xCC, [0xDD])] [] [0xAA, 0xCC]).map Prod.snd =
    some [some [0xBB], some [0xDD]] := by decide +kernel

/-- `it_updates_an_existing_entry` (815-838). -/
example : twoInserts 3 [(0xAA, [0xBB])] [(0xAA, [0xCC])] [0xAA] [0xAA] = some ([some [0xBB]], [some [0xCC]]) := by
  decide +kernel

/-- `it_does_not_panic_when_removing_a_nonexistent_node` (878-887). -/
example : (MerkleBit.remove (cfg 160) (rep 0) db0).1 = .ok () := by decide +kernel

/-- `it_removes_a_node` (890-911), and the end of examples/main.rs. -/
example : (match ins 160 none [(0, [1])] db0 with
    | (.ok r, s) => match MerkleBit.remove (cfg 160) r s with
      | (.ok _, s') => (items 160 s r [0], items 160 s' r [0], s'.map.entries.length)
      | _ => (none, none, 1)
    | _ => (none, none, 1)) = (some [some [1]], some [none], 0) := by decide +kernel

/-- `it_removes_an_old_root` (947-972). -/
example : twoInsertsRemove 160 [(0, [1])] [(2, [3])] [0, 2] = some [some [1], some [3]] := by decide +kernel

/-- `it_removes_a_small_old_tree` (975-1020). -/
example : twoInsertsRemove 160 [(0, [4]), (1, [5])] [(2, [6]), (3, [7])] [0, 1, 2, 3] =
    some [some [4], some [5], some [6], some [7]] := by decide +kernel

/-- `it_inserts_with_compressed_nodes_that_are_not_descendants` (1072-1102). -/
example : (twoInserts 160 [(0, [0]), (1, [1])] [(2, [2]), (0x10, [3]), (0x20, [4])] [] [0, 1, 2, 0x10, 0x20]).map
    Prod.snd = some [some [0], some [1], some [2], some [3], some [4]] := by decide +kernel

/-- `it_inserts_with_compressed_nodes_that_are_descendants` (1105-1143). -/
example : (twoInserts 160 [(0x10, [0]), (0x11, [1])] [(0, [2]), (1, [3]), (2, [4])] [] [0x10, 0x11, 0, 1, 2]).map
    Prod.snd = some [some [0], some [1], some [2], some [3], some [4]] := by decide +kernel

/-- `it_correctly_increments_a_leaf_reference_count` (1163-1180). -/
example : twoInsertsRemove 160 [(0, [0])] [(0, [0])] [0] = some [some [0]] := by decide +kernel

/-- `it_generates_a_simple_inclusion_proof` and `it_fails_an_invalid_simple_proof` (1183-1219). -/
example : (match ins 160 none [(0, [0])] db0 with
    | (.ok r, s) => match MerkleBit.generateInclusionProof (cfg 160) s r (rep 0) with
      | .ok p => ((verifyInclusionProof Toy.hasher .ok r (rep 0) [(0 : UInt8)] p).toOption,
          (verifyInclusionProof Toy.hasher .ok (rep 1) (rep 0) [(0 : UInt8)] p).toOption)
      | _ => (none, none)
    | _ => (none, none)) = (some (), none) := by decide +kernel

/-- `it_gets_one_key_from_a_small_tree` and `it_inserts_one_into_an_empty_tree` (1301-1358). -/
example : (match MerkleBit.insertOne (cfg 2) none (rep 0x78) [0x2B] db0 with
    | (.ok r, s) => (MerkleBit.getOne (cfg 2) s r (rep 0x78)).toOption.join
    | _ => none) = some [0x2B] := by decide +kernel

/-- `it_actually_removes_things_from_the_db` (1390-1413), with 16 keys. -/
example : (match ins 160 none ((List.range 16).map fun i => (UInt8.ofNat (37 * i), [UInt8.ofNat i])) db0 with
    | (.ok r, s) => (s.map.entries.length, (MerkleBit.remove (cfg 160) r s).2.map.entries.length)
    | _ => (0, 1)) = (47, 0) := by decide +kernel

end MerkleBit.RepoTests
