#!/usr/bin/env python3
"""Generates /verif/properties.jsonl (one property per line)."""
import json, os
P = []
def p(title, statement, quantifier, why, *anchors):
    P.append(dict(id="C%02d" % (len(P)+1), title=title, statement=statement,
                  quantifier=quantifier, why_tests_cant=why, anchors=list(anchors)))
MB="src/merkle_bit.rs"; TU="src/utils/tree_utils.rs"

p("Insert into an empty tree reads back",
  "insert(None, keys, values) with non-empty, pairwise distinct keys returns Ok(root), and afterwards every inserted key reads back exactly its value under root and every other key reads None.",
  "every key length N>=1, every set of distinct keys, every assignment of values, every hasher without a collision on the hashed inputs, every starting database state reached by the API",
  "The tree shape depends on which bits the keys share; tests sample random key sets and never exhaust the shapes (or the merge order) for any size.",
  MB+"::insert", MB+"::create_tree", MB+"::merge_nodes", MB+"::get_one")
p("Insert on a previous root is a map override",
  "insert(Some(r), keys, values) returns Ok(r') such that under r' every key in keys reads its new value and every other key reads what it read under r.",
  "every tree content, every batch of distinct keys (new, updated or mixed), every reachable database",
  "Correctness depends on how the batch interleaves with the compressed branches of the old tree; it must hold for every old tree and every batch.",
  MB+"::insert", MB+"::traverse_tree", MB+"::split_nodes", TU+"::check_descendants", TU+"::split_pairs")
p("Old versions survive inserts",
  "A call to insert or insert_one, whether it returns Ok or Err, never changes what any earlier root returns for any key.",
  "every history of inserts, every earlier root, every key",
  "Nodes are shared between versions and rewritten in place to bump reference counts; a test checks a few versions of one history.",
  MB+"::insert", MB+"::traverse_tree", MB+"::insert_leaves", MB+"::merge_nodes")
p("The root hash is independent of history",
  "Two trees with the same key/value contents have the same root, however the contents were reached (order of inserts, batching, overwritten values, starting root).",
  "every pair of histories ending in equal contents",
  "Quantifies over pairs of arbitrary histories.",
  MB+"::create_tree", MB+"::merge_nodes", MB+"::insert")
p("The root hash binds the contents",
  "If two live roots are equal then they have equal contents, provided the hasher has no collision among the inputs it was given.",
  "every pair of live roots of every history",
  "A negative statement about all pairs of trees.",
  MB+"::insert_leaves", MB+"::merge_nodes")
p("get is sound",
  "get(root, keys) returns a map with exactly the requested keys; whenever it maps a key to Some(v), v is the value stored for that key under root.",
  "every live root, every list of requested keys (present, absent, duplicated, unsorted), every partition_point behaviour on unpartitioned input",
  "Must hold for every mix of present and absent keys.",
  MB+"::get", TU+"::generate_leaf_map")
p("get is complete",
  "get(root, keys) maps every requested key that is stored under root to Some(value).",
  "every live root, every list of requested keys",
  "The failing mixes of absent and present keys are rare for random keys; only a quantified statement covers them.",
  MB+"::get", TU+"::check_descendants", TU+"::split_pairs", TU+"::calc_min_split_index")
p("get_one is exact",
  "get_one(root, key) returns Ok(Some(v)) when v is stored for key under root and Ok(None) when key is not stored.",
  "every live root, every key",
  "All keys, all trees.",
  MB+"::get_one")
p("get and get_one agree",
  "For every live root and key, get_one(root, key) and get(root, [key])[key] return the same answer.",
  "every live root and key",
  "The two functions use different traversals and different depth counters.",
  MB+"::get", MB+"::get_one")
p("insert_one is insert of one pair",
  "insert_one(r, k, v) and insert(r, [k], [v]) return the same result and leave the database in the same state.",
  "every database state (reachable or corrupt), every previous root, key and value",
  "Equality of two code paths on every state.",
  MB+"::insert_one", MB+"::insert")
p("Batching does not matter",
  "Inserting a batch in one call and inserting its pairs one at a time (in any order) end in the same root.",
  "every live root, every batch, every order",
  "Quantifies over all batches and permutations.",
  MB+"::insert", MB+"::insert_one")
p("Bad arguments are rejected without effect",
  "insert with keys and values of different lengths, or with no keys, returns Err and leaves the database unchanged.",
  "every database state, every argument list of the stated shape",
  "Every state.",
  MB+"::insert")
p("Duplicate keys are rejected",
  "insert of a batch containing the same key twice returns Err (it never silently picks one value), and what every earlier root returns is unchanged.",
  "every live root or None, every batch with a repeated key",
  "The duplicate check sits after sorting and tree traversal; it must fire for every batch.",
  MB+"::insert", TU+"::generate_tree_ref_queue")
p("Unknown previous root is rejected",
  "insert/insert_one with a previous root that is not in the database returns Err, and every live root still returns what it did.",
  "every reachable database, every absent root, every batch",
  "Every state.",
  MB+"::generate_treerefs")
p("Generated inclusion proofs verify",
  "For every key stored with value v under root, generate_inclusion_proof(root, key) returns Ok(proof) and verify_inclusion_proof(root, key, v, proof) returns Ok.",
  "every live root and stored key",
  "All trees and keys.",
  MB+"::generate_inclusion_proof", MB+"::verify_inclusion_proof")
p("Inclusion proofs are sound",
  "If verify_inclusion_proof(root, key, v, proof) returns Ok for a live root then v is the value stored for key under root, unless the hasher collides on inputs of the tree or of the verification.",
  "every proof list an adversary can write, every live root, key, value",
  "Universally quantified over adversarial proofs.",
  MB+"::verify_inclusion_proof")
p("No inclusion proof for an absent key",
  "generate_inclusion_proof(root, key) returns Err when key is not stored under root.",
  "every live root and absent key; proofs with a depth limit whose reservation is possible (limit * (N + 1) <= isize::MAX, see C70)",
  "All absent keys.",
  MB+"::generate_inclusion_proof")
p("Inclusion proofs are unique",
  "For a live root, key and value at most one list of hashes and sides is accepted (apart from the two side flags of the leaf and data entries, which are ignored): an altered, truncated, extended or reordered proof is rejected.",
  "every adversarial proof, every live root",
  "All tamperings.",
  MB+"::verify_inclusion_proof")
p("remove does not disturb other roots",
  "After remove(r) of a live root, every other live root still returns every one of its keys and values.",
  "every history of inserts and removes of live roots",
  "Reference counts are maintained by several code paths; safety is an invariant over all histories.",
  MB+"::remove", MB+"::merge_nodes", MB+"::split_nodes", MB+"::insert_leaves")
p("remove makes a sole root unreadable",
  "Inserting into an empty database and then removing the returned root leaves the database empty, and every key reads None under that root.",
  "every batch of distinct keys",
  "All batches.",
  MB+"::remove")
p("Removing every root empties the database",
  "When every root returned by the history has been removed, the database holds no nodes.",
  "every history of inserts and removes in which each root is removed",
  "Leak freedom is a statement about all histories.",
  MB+"::remove", MB+"::insert_leaves")
p("remove of an unknown root is a no-op",
  "remove(r) for r not in the database returns Ok and changes nothing.",
  "every database state, every absent root",
  "Every state.",
  MB+"::remove")
p("A depth limit of 8N+1 is never hit",
  "No tree over N-byte keys is higher than 8N branches, so with depth >= 8N+1 no call on a live root fails with a depth error.",
  "every N, every live root, every key",
  "Bounds the height of all trees.",
  MB+"::get", MB+"::get_one", MB+"::traverse_tree")
p("The depth limit is applied uniformly",
  "With a given depth limit, get, get_one, generate_inclusion_proof and insert accept exactly the same trees.",
  "every tree height and depth limit",
  "Relates four functions at every height.",
  MB+"::get", MB+"::get_one", MB+"::generate_inclusion_proof", MB+"::traverse_tree")
p("Every operation terminates",
  "get, get_one, generate_inclusion_proof, insert and remove terminate on every finite database, including corrupt or cyclic ones.",
  "every finite database state",
  "Termination on all states.",
  MB+"::get", MB+"::get_one", MB+"::traverse_tree", MB+"::remove", MB+"::merge_nodes")
p("No panics",
  "No API call on a reachable database with a live root (or None) panics or reports a corrupt tree.",
  "every history, every argument",
  "Slice indexing and arithmetic must be safe on all inputs.",
  MB, TU)
p("Bit selection",
  "choose_zero(key, i) returns Ok(true) iff bit i of key (most significant first) is 0 for i < 8N and Err for i >= 8N; fast_log_2(b) is the floor of log2 b for every non-zero byte.",
  "every key, every index, every byte",
  "All N and indices.",
  TU+"::choose_zero", TU+"::fast_log_2", "src/constants.rs")
p("calc_min_split_index is the first divergence",
  "For a sorted non-empty slice of keys, calc_min_split_index(keys, b) is the least bit position at which some two of keys+[b] differ, and 8N-1 if they are all equal; it errs on an empty slice.",
  "every sorted slice and branch key",
  "All slices.",
  TU+"::calc_min_split_index")
p("split_pairs partitions",
  "For sorted keys that agree on all bits below i, split_pairs(keys, i) returns (zeros, ones) with zeros ++ ones = keys, bit i of every key in zeros 0 and in ones 1.",
  "every sorted slice sharing a prefix, every bit",
  "All slices.",
  TU+"::split_pairs")
p("check_descendants selects exactly the descendants",
  "For sorted keys, check_descendants(keys, s, b, calc_min_split_index(keys, b)) returns exactly the keys that agree with b on all bits below s.",
  "every sorted slice, branch key and split index",
  "The step-by-8 scan skips bytes for some combinations only.",
  TU+"::check_descendants")
p("generate_tree_ref_queue schedules every boundary once",
  "On references sorted by key the queue contains every adjacent pair exactly once, filed under the first bit where the two keys differ, and the returned set is the set of those bits; it errs iff two adjacent keys are equal.",
  "every list of references",
  "All lists.",
  TU+"::generate_tree_ref_queue")
p("Stored branches describe their subtree",
  "Every branch node ever stored has count = number of leaves below it, key = the smallest key below it, split index = the first bit at which the keys below it differ, with the 0-keys under zero and the 1-keys under one.",
  "every branch node of every live root in every history",
  "Invariant over histories.",
  MB+"::merge_nodes", MB+"::create_tree")
p("Content addressing",
  "Every node in the database is stored under the hash of its tagged content, and no write ever replaces a node by one with different content.",
  "every database state reachable by inserts and removes",
  "Invariant over histories.",
  MB+"::insert_leaves", MB+"::merge_nodes", MB+"::traverse_tree", MB+"::split_nodes")
p("Argument order is irrelevant",
  "Permuting the (key, value) pairs given to insert, or the keys given to get, does not change the result (nor the resulting database).",
  "every database, every permutation",
  "All permutations.",
  MB+"::insert", MB+"::get")
p("Storage backends are interchangeable",
  "The batch-writing RocksDB backend and the in-memory HashDB backend return the same roots and the same reads for the same history.",
  "every history of inserts",
  "RocksDB reads do not see pending writes; equivalence must hold for all histories.",
  "src/tree_db/rocksdb.rs", "src/tree_db/hashmap.rs", MB)
p("A failed or interrupted insert is harmless",
  "If a database call fails at any point during insert (I/O error, crash with loss of the pending batch), every earlier root still returns all its keys and values.",
  "every history, every failing call (crash point)",
  "All crash points.",
  MB+"::insert", "src/tree_db/rocksdb.rs")
p("A failed or interrupted remove is harmless to other roots",
  "If a database call fails at any point during remove, every other live root still returns all its keys and values.",
  "every history, every failing call (crash point)",
  "All crash points.",
  MB+"::remove", "src/tree_db/rocksdb.rs")
p("Hash inputs are domain separated",
  "The byte strings hashed for data, leaf and branch nodes are an injective encoding of the node kind and its fields: no data, leaf or branch input equals another with different kind or fields.",
  "every pair of nodes",
  "All pairs.",
  MB+"::insert_leaves", MB+"::merge_nodes", MB+"::verify_inclusion_proof")
p("A failed insert changes nothing",
  "If insert returns Err the database is exactly what it was before the call.",
  "every database and every failing argument",
  "All failure points.",
  MB+"::insert", MB+"::insert_leaves")
p("Reference counts cover references",
  "The reference count of every stored node is at least the number of stored parents pointing at it plus the number of live roots equal to its location.",
  "every reachable database state, every node",
  "Invariant over histories.",
  MB+"::insert_leaves", MB+"::insert_leaf", MB+"::split_nodes", MB+"::traverse_tree", MB+"::merge_nodes", MB+"::remove")
p("Re-inserting stored pairs returns the same root",
  "Inserting pairs that are already stored under r with the same values returns r.",
  "every live root, every subset of its pairs",
  "All subsets.",
  MB+"::insert", MB+"::traverse_tree")
p("Typed values round-trip",
  "When decode inverts encode, what is read back is the inserted value itself, for every value type; a value that fails to encode makes insert return Err without disturbing earlier roots.",
  "every value type with a lawful codec",
  "All types and values.",
  "src/traits.rs", MB+"::get", MB+"::insert_leaves")
p("Node serialization round-trips",
  "Decoding the bincode encoding of any node (branch, leaf or data, any field values) yields that node, and encodings of different nodes differ. The bytes are the reference count, the kind (branch 0, leaf 1, data 2) and the fields in order of declaration, with fixed widths and little endian, so that a branch takes 3 N + 52 bytes, a leaf 2 N + 28 and data its length + 20; and exactly the bytes of this layout (arrays of any length, cut off or filled up with zeros, and anything at the end) are read as a node.",
  "every node of every key length",
  "All nodes.",
  "src/tree/tree_node.rs", "src/tree/tree_branch.rs", "src/tree/tree_leaf.rs", "src/tree/tree_data.rs", "src/lib.rs")
p("Hasher adapters preserve the digest",
  "The digest adapters place the digest in the N-byte location by truncation or zero padding, so two inputs with different N-byte digest prefixes get different locations, for every N. The Keccak and SHA-3 adapters squeeze N bytes, without padding, and BLAKE2b is asked for N bytes; there too different bytes give different locations.",
  "every N and digest length",
  "All N.",
  "src/traits.rs", "src/tree_hasher/default.rs", "src/tree_hasher/sha256.rs", "src/tree_hasher/blake2b_rfc.rs", "src/tree_hasher/keccak.rs", "src/tree_hasher/sha3_openssl.rs")

p("Unknown roots read as empty",
  "Under a root that is not in the database, get_one and get return None for every key (and no entry for other keys), and generate_inclusion_proof returns Err; nothing panics.",
  "every database state, every unknown root, every key list; proofs with a depth limit whose reservation is possible (limit * (N + 1) <= isize::MAX, see C70)",
  "All roots and key lists.",
  MB+"::get", MB+"::get_one", MB+"::generate_inclusion_proof")

p("Calls can be repeated with the same buffers",
  "get and insert leave in the caller's key slice the same keys; repeating a call with the buffers the first call left behind means the same thing (get returns the same answers, insert stores the same pairs).",
  "every database, every key slice and values",
  "All orders of keys; the call has a side effect on its argument.",
  MB+"::get", MB+"::insert")
p("Live roots can always be extended",
  "After any history of inserts and removes, with failed calls and crashes, an insert of distinct keys on top of a live root succeeds, and the new root reads the old contents updated by the batch.",
  "every history, every live root, every batch",
  "Availability over all histories.",
  MB+"::insert", MB+"::remove")

p("Storage is canonical",
  "What the database holds, reference counts included, depends only on the contents of the live versions: two histories whose live versions have the same contents leave the same nodes, whatever was inserted and removed on the way.",
  "every pair of histories of successful inserts and removes, within and across databases",
  "Pairs of histories; the order of calls and removed versions must leave no trace.",
  MB+"::insert", MB+"::remove")
p("Removing a root undoes its insert",
  "Removing the root an insert returned leaves the database exactly as it was before the insert; removals of two live roots can be swapped.",
  "every history, every insert on top of a live root or nothing, every two live roots",
  "All histories; equality of whole databases.",
  MB+"::insert", MB+"::remove")
p("A removed root is gone",
  "After a live root is removed, it reads nothing (get_one returns None for every key), unless its contents are the part under a common key prefix of a version that is still live, in which case it reads as before.",
  "every history, every live root",
  "All histories and all other live versions.",
  MB+"::remove", MB+"::get_one")
p("A lone version takes 3n-1 nodes",
  "When one version of n keys is live, the database holds exactly 3n-1 nodes: a leaf and a data node per key and one branch less than keys.",
  "every history that ends with one live version",
  "All histories; exact storage.",
  MB+"::insert", MB+"::remove")
p("Growth per insert is bounded",
  "An insert of m pairs adds nodes at no more than m*(depth+4) new places (3m-1 without a previous root), whether it succeeds or fails and however large the database is; between versions, at most m*(8N+2).",
  "every database, every state, all arguments, every outcome",
  "All sizes; a bound independent of the size of the database.",
  MB+"::insert", MB+"::insert_leaves", MB+"::split_nodes", MB+"::create_tree")
p("Writes per insert are bounded",
  "An insert of m pairs asks the database for no more than m*(2*depth+5)+1 writes (3m-1 without a previous root).",
  "every database, every state, all arguments, every outcome",
  "All sizes.",
  MB+"::insert", MB+"::traverse_tree", MB+"::insert_leaf", MB+"::split_nodes", MB+"::create_tree")
p("Reads are bounded",
  "get_one and generate_inclusion_proof depend on at most depth+1 nodes of the database, get of m keys on at most 2m(depth+2)+1: databases that agree on those nodes give the same answer.",
  "every database (well-formed or not), every root, key and key list",
  "All databases; corrupt or adversarial ones included.",
  MB+"::get", MB+"::get_one", MB+"::generate_inclusion_proof")
p("Proof length is bounded",
  "A generated inclusion proof has at most depth+1 entries.",
  "every database, root and key",
  "All databases.",
  MB+"::generate_inclusion_proof")

p("Counters stay small",
  "Every stored node has at least one reference and at most as many as writes were asked for (an insert of m pairs asks for at most m*(2*depth+5)+1; removals raise no count), and under every returned root no branch counts more leaves than pairs were inserted on the way to it; so 64-bit counters do not overflow before 2^64 writes.",
  "every sequence of inserts and removes with any arguments and outcomes, with crashes",
  "Overflow is out of reach of tests; all sequences of calls.",
  MB+"::insert_leaves", MB+"::insert_leaf", MB+"::split_nodes", MB+"::traverse_tree", MB+"::merge_nodes", MB+"::remove")

p("Every serialization feature works",
  "With each of the supported serialization features a node that was written is read back unchanged, so that a tree on RocksDB reads what was inserted.",
  "every format that tells sequences and byte strings apart (json, cbor, yaml, pickle, ron), every node, every sequence of inserts on RocksDB",
  "The tests of these features run on the in-memory database, which serializes nothing.",
  "src/lib.rs::Array::serialize", "src/lib.rs::ArrayVisitor::visit_bytes", "src/lib.rs::Array::deserialize", "src/tree/tree_node.rs::TreeNode::encode", "src/tree/tree_node.rs::TreeNode::decode", "src/tree_db/rocksdb.rs::RocksDB::get_node")

p("No root reads two values",
  "Whatever inserts and removes (failed and interrupted ones included) were done to two databases with the same hash function and value codec, a root under which get_one returns a value for a key in both returns the same value in both, and proofs that can be generated in both are equal.",
  "all pairs of call sequences, every root (any byte string) and key; one database at two times as a special case",
  "All histories, including the ones that lose data; arbitrary byte strings as roots.",
  MB+"::get_one", MB+"::generate_inclusion_proof", MB+"::insert", MB+"::remove")
p("Lost data is not wrong data",
  "Whatever part of a version was lost by removes or interrupted calls, its root never reads wrong data: get_one returns the value that the version has for the key or None, get returns each requested key with its value or None, a generated proof verifies for the value of the key, only values of the version are accepted by verify_inclusion_proof, and a value is readable exactly if it is provable.",
  "every sequence of inserts and removes with any arguments and outcomes, with crashes, every returned root, every key",
  "The damaged states are not constructed by tests.",
  MB+"::get", MB+"::get_one", MB+"::generate_inclusion_proof", MB+"::verify_inclusion_proof")
p("A fresh insert always works",
  "In whatever state earlier inserts, removes, failures and crashes left the database, inserting distinct keys without previous root succeeds and the returned root reads and proves exactly the inserted pairs.",
  "every sequence of calls with any arguments and outcomes, with crashes, every batch of distinct keys; proofs with a depth limit whose reservation is possible (limit * (N + 1) <= isize::MAX, see C70)",
  "All histories, including the ones that lose data.",
  MB+"::insert", MB+"::get_one", MB+"::generate_inclusion_proof")
p("Inserts take nothing away",
  "An insert, whatever its arguments and outcome and even if interrupted, never makes a value unreadable or unprovable under any root.",
  "every sequence of calls before it, every insert, every root (any byte string) and key",
  "All histories and all outcomes of the insert.",
  MB+"::insert", MB+"::insert_leaf", MB+"::merge_nodes", MB+"::create_tree")
p("A completely readable root can be extended",
  "If get_one still returns the value of every key of a version, an insert on top of its root succeeds and the new root reads the batch over the contents of the version, whatever happened to other versions.",
  "every sequence of calls with any arguments and outcomes, with crashes, every returned root, every batch of distinct keys",
  "All histories, including the ones that lose data.",
  MB+"::insert", MB+"::traverse_tree", MB+"::get_one")
p("Re-inserting repairs",
  "Inserting the contents of a version without previous root returns the root of that version, and everything lost under it is readable again.",
  "every sequence of calls with any arguments and outcomes, with crashes, every returned root",
  "All histories, including the ones that lose data.",
  MB+"::insert", MB+"::create_tree", MB+"::get_one")

p("The depth limit only limits",
  "A call on a tree with depth limit d gives the same answer and leaves the same database as under any larger limit, or returns the error of the limit. remove does not depend on the limit, nor does insert without previous root.",
  "every database state (corrupt ones included), every pair of limits, all arguments; proofs with a depth limit whose reservation is possible (limit * (N + 1) <= isize::MAX, see C70)",
  "All limits and all states; two runs of the same call under different limits are compared.",
  MB+"::get", MB+"::get_one", MB+"::insert", MB+"::insert_one", MB+"::remove", MB+"::generate_inclusion_proof")
p("The documented session works",
  "With a new HashTree, or a RocksTree opened on an empty directory, with any positive depth limit: inserting one pair returns a root under which get_one and get return the value and no other key has one, the inclusion proof of the key is generated and verifies, remove succeeds, and afterwards the key reads None, nothing is stored, and decompose returns the depth limit.",
  "every key size, key, value, value codec, depth limit, hasher that gives the data node and the leaf different locations; proofs with a depth limit whose reservation is possible (limit * (N + 1) <= isize::MAX, see C70)",
  "The documentation shows one run with one key; here all keys, values, sizes, limits and hashers.",
  "src/hash_tree.rs::HashTree", "src/rocks_tree.rs::RocksTree", MB+"::new", MB+"::from_db", MB+"::decompose")
p("Acknowledged writes survive closing",
  "When insert, insert_one or remove returns Ok, nothing is queued any more: on RocksDB the database can be closed and opened again, and every later call gives the same answer and leaves the same data on disk as if it had stayed open.",
  "every database state, every write and its arguments, every sequence of later calls of all kinds",
  "All later programs and all states; what is only queued in memory is not visible to the tests.",
  MB+"::insert", MB+"::insert_one", MB+"::remove", MB+"::create_tree", "src/tree_db/rocksdb.rs::RocksDB::batch_write", "src/tree_db/rocksdb.rs::RocksDB::new")

p("An accepted insert reads back",
  "Whenever insert returns Ok, the keys of the batch were distinct, and under the returned root every pair of the batch is read by get_one and has an inclusion proof that verifies. This holds whatever was lost from the database before, whatever was given as previous root, and whatever depth limit the insert had.",
  "every sequence of calls with any arguments and outcomes, with crashes, every previous root (any byte string), every batch, straddling ones included; proofs with a depth limit whose reservation is possible (limit * (N + 1) <= isize::MAX, see C70)",
  "All histories, including the ones that lose data, and all previous roots.",
  MB+"::insert", MB+"::traverse_tree", MB+"::create_tree", MB+"::get_one", MB+"::generate_inclusion_proof")
p("Nothing is read that was not inserted",
  "Whatever is given as a root, get and get_one return a value for a key only if that pair was given to some insert, get answers for exactly the requested keys, and generate_inclusion_proof succeeds only for a key of such a pair, with a proof that verifies for its value.",
  "every sequence of calls with any arguments and outcomes, with crashes, every root (any byte string), every key",
  "All histories and all byte strings as roots, including those of inner nodes.",
  MB+"::get", MB+"::get_one", MB+"::generate_inclusion_proof", MB+"::insert")
p("Readable if and only if provable",
  "Under any root, get_one returns a value for a key if and only if generate_inclusion_proof succeeds for it, and the proof verifies for that value.",
  "every sequence of calls with any arguments and outcomes, with crashes, every root (any byte string), every key; proofs with a depth limit whose reservation is possible (limit * (N + 1) <= isize::MAX, see C70)",
  "All histories and all byte strings as roots.",
  MB+"::get_one", MB+"::generate_inclusion_proof", MB+"::verify_inclusion_proof")

p("Raising the depth limit takes nothing away",
  "What get, get_one and generate_inclusion_proof return under a depth limit they also return under every larger limit.",
  "every database state (corrupt ones included), every pair of limits, all arguments",
  "All limits and all states; the tests use a few limits.",
  MB+"::get", MB+"::get_one", MB+"::generate_inclusion_proof", MB+"::new", MB+"::from_db")

p("The counters are wide enough",
  "Whether sums of counters panic on overflow (debug builds) or wrap around (release builds) makes no difference: as long as all inserts together asked for fewer than 2^64 - 1 writes (an insert of m pairs under depth limit d asks for at most m (2 d + 5) + 1) and every insert puts fewer than 2^32 subtrees together (at most m (d + 2) + 1, or m on top of nothing), no sum overflows, every call gives the answer and the database it would give with unbounded counters, and no stored counter exceeds the number of writes. Reads never overflow under any depth limit below usize::MAX. In any database state whatsoever, an insert of a build with overflow checks either does what it would do with unbounded counters or panics; one of 2^32 keys or more is never accepted, because subtrees are counted in 32 bits.",
  "every sequence of calls with any arguments and outcomes, with crashes and with depth limits that differ between the calls, every overflow behaviour; reads and the last part: every database state",
  "The counters overflow only after more calls than any test can make, or in databases no test has.",
  MB+"::insert", MB+"::insert_one", MB+"::insert_leaf", MB+"::split_nodes", MB+"::traverse_tree", MB+"::insert_leaves", MB+"::merge_nodes", MB+"::get", MB+"::get_one", MB+"::generate_inclusion_proof", MB+"::remove", "src/utils/tree_ref.rs::TreeRef")

p("One key at a time, versions are maps",
  "A program that starts on an empty database and inserts and reads one key per call (and batches on top of nothing), on top of any version made so far, gets exactly the answers of a list of maps: which inserts are accepted, what get, get_one and inclusion proofs answer for every version, and which versions have equal roots. Closing and opening the database and crashes during an insert do not change this. With batches it holds while every insert on top of a version and every get has at most one key that the version does not store, or all its new keys share their first byte with at most one stored key each.",
  "every list of calls of all kinds except remove, with any arguments; every key size, every depth limit above the number of key bits whose reservation for proofs is possible (see C70); HashTree and RocksTree",
  "All programs of any length; the tests are single programs.",
  MB+"::insert", MB+"::insert_one", MB+"::get", MB+"::get_one", MB+"::generate_inclusion_proof", MB+"::verify_inclusion_proof", "src/hash_tree.rs::HashTree", "src/rocks_tree.rs::RocksTree")

p("Nothing outside a root matters to it",
  "get, get_one and generate_inclusion_proof under a root depend only on what is reached from the root by following pointers, and remove of a root changes nothing else, whether it succeeds, fails or is interrupted; what is left of the nodes below the root points where it pointed and has no more references than before. So removing a root leaves the answers under another root alone if nothing is reached from both.",
  "every database state without queued writes (corrupt ones included), every root (any byte string), every key",
  "All states and all pairs of roots; the tests have a few roots.",
  MB+"::remove", MB+"::get", MB+"::get_one", MB+"::generate_inclusion_proof")
p("The work of a remove",
  "remove deletes no place twice, deletes and writes only at places that hold a node and are reached from its root, and writes at most one time more often than it deletes; so it does nothing when no node is stored at the root, and its work is bounded by the number of nodes below the root even when pointers form cycles.",
  "every database state without queued writes (corrupt ones included), every root (any byte string), failing calls included",
  "All states, including ones with cycles of pointers, for which a test would have to wait forever if the claim were false.",
  MB+"::remove")

p("Any root commits to the pairs at its places",
  "Read a proof from the root down: its sides (left or right) name a place below the root. For any byte string taken as a root, if verify_inclusion_proof accepts two proofs and the place of one is the place of the other or above it, both prove the same key and value with the same list of hashes (two flags that are ignored aside), unless the hasher has a collision among what the two checks hash. So a root commits to one pair per place, whoever made it. It does not commit to one value per key: the sides are not compared with the key, so one who makes up a root can have two values of a key accepted.",
  "every byte string as root, every pair of proofs, keys and values, every hasher; the second part for every key, every two values and every hasher",
  "Roots and proofs come from others; a test cannot try them all.",
  MB+"::verify_inclusion_proof", MB+"::generate_inclusion_proof")

p("With removals, live versions are maps, and nothing else is stored",
  "A program that starts on an empty database and inserts, reads, proves and removes versions gets, for the versions it has not removed, exactly the answers of a list of maps, provided its inserts that are accepted have one key each, or start from nothing, or have new keys that share their first byte with at most one stored key each, and never give a pair that a live version has. Inserts that are refused (a key given twice, a wrong number of values, a value that cannot be encoded), processes that die during an insert or a removal, and closing and opening the database, do not change this. If no process died and no insert was refused, what is stored in the end depends only on the maps of the live versions: not on the order of the calls, the database or the numbering; and nothing is stored once every version is removed. (The condition is needed: after an insert of a pair of a live version, a removal can take keys from another version, see C19.)",
  "every list of calls of all kinds; every key size, every depth limit above the number of key bits whose reservation for proofs is possible (see C70); HashTree and RocksTree",
  "All programs of any length, with every order of inserts and removals; the tests are single programs.",
  MB+"::insert", MB+"::insert_one", MB+"::remove", MB+"::get", MB+"::get_one", MB+"::generate_inclusion_proof", MB+"::verify_inclusion_proof", "src/hash_tree.rs::HashTree", "src/rocks_tree.rs::RocksTree")

p("What an insert does to every key",
  "Which keys an insert of distinct keys on top of a version changes, in every case. Follow the sorted keys of the batch down the tree: the subtrees at which none of them arrives, and the branches that none of them follows, stay closed. The insert is refused (as if it had duplicate keys) if and only if one of its keys is the smallest key of a closed subtree. Otherwise, under the new root, every key of the batch reads its new value, a stored key in a closed subtree that agrees with the smallest key of that subtree for no more bits than some key of the batch does reads as absent, and every other key reads as before. So a batch of new keys is never refused, and takes no value away if and only if it opens every place where one of its keys belongs. (Keys outside the batch that are too deep for the depth limit give the error about it; not if it is above 16 bits per key byte.)",
  "every version that inserts can leave, every batch of distinct keys, every key; every key size, database, hasher and codec",
  "All trees and batches, among them those for which the scan of the keys goes wrong; a test sees single cases.",
  MB+"::insert", MB+"::traverse_tree", MB+"::split_nodes", MB+"::create_tree", TU+"::check_descendants")

p("What a remove does to the stored reference counts",
  "remove gives up one reference to the root: its count goes down by one, and if it was one the node is deleted and one reference to each of its children is given up in the same way, down to the data nodes. No other count changes.",
  "every state that calls with any arguments and outcomes can leave, with crashes and lost writes, without queued writes; every tree of a version, every node",
  "All histories and trees; the counts are not visible to the tests of the API, only what happens after many calls.",
  MB+"::remove")
p("What an insert does to the stored reference counts",
  "An insert of a batch that opens what it has to on top of a version adds one reference to the data node of each pair and one to its leaf (if the version had the very same pair: two when the database shows writes at once, as HashDB does, one when it queues them, as RocksDB does), one to each subtree it takes over, sets the count of every branch it makes to one whatever it was, and changes no other count.",
  "every state that calls with any arguments and outcomes can leave, with crashes and lost writes, without queued writes; every version, every batch that opens every place where one of its keys belongs; every database that shows all its writes at once or queues them all",
  "All histories and batches; the counts are not visible to the tests of the API, only what happens after many calls.",
  MB+"::insert", MB+"::insert_leaf", MB+"::insert_leaves", MB+"::split_nodes", MB+"::traverse_tree", MB+"::merge_nodes", "src/tree_db/hashmap.rs::HashDB::insert", "src/tree_db/rocksdb.rs::RocksDB::insert")
p("Which keys a remove takes from which versions",
  "A key has a value under the root of a version if and only if the nodes on the way to it have positive counts. So after any version is removed, a key reads its value under another root if it did before and no node on the way to it lost its last reference, and nothing otherwise; and removing a root that is counted more than once changes no answer.",
  "every state that calls with any arguments and outcomes can leave, with crashes and lost writes, without queued writes; all pairs of roots of batches that opened what they had to, every key; a depth limit above the height of the version",
  "All histories, all pairs of versions and all keys.",
  MB+"::remove", MB+"::get_one")

p("What an insert needs to find",
  "In whatever state the database is, an insert of a valid batch on top of a returned root looks at the root node of the version and of the two sides of each branch that some of its keys follow, and succeeds if and only if all of these are stored; where the database shows writes at once (HashDB), a lost leaf does no harm if the batch writes the very same pair. Nothing else has to be there: not the data nodes, and nothing below the subtrees that it takes over. Where the insert does not succeed it returns an error. So with RocksDB it depends on the keys of the batch alone.",
  "every state that calls with any arguments and outcomes can leave, with crashes and lost writes, without queued writes; every version within the depth limit, every valid batch that opens every place where one of its keys belongs; every database that shows all its writes at once or queues them all",
  "All damaged databases and batches; the tests insert on undamaged trees.",
  MB+"::insert", MB+"::generate_treerefs", MB+"::traverse_tree", MB+"::split_nodes", "src/tree_db/hashmap.rs::HashDB::insert", "src/tree_db/rocksdb.rs::RocksDB::insert")
p("The same program does the same on every database",
  "Run the same inserts on top of returned roots and removals of returned roots (in any order, also when removals have taken nodes from other versions) on two databases. If both show writes at once, or both queue them, or no insert writes a pair that the version it builds on has already, both end with the same nodes and counts, every insert succeeds on both or on none and returns the same root, and every read gives the same on both. So HashDB can stand in for RocksDB, and RocksDB gives the same with every serialization of its nodes. (The condition is needed: C79.)",
  "every program of inserts that open every place where one of their keys belongs and that succeed on the first database, and of removals; every root, every key; every two databases of either kind",
  "All programs with all damage that removals do; a test compares single programs.",
  MB+"::insert", MB+"::remove", MB+"::get", MB+"::get_one", MB+"::generate_inclusion_proof", "src/tree_db/hashmap.rs::HashDB", "src/tree_db/rocksdb.rs::RocksDB")

p("What any program without removals is told",
  "A program without removals may insert any batches, good or bad, on top of any versions it has made, read any keys, ask for proofs, die during inserts and open the database again. A version that was made only by batches that open every place where one of their keys belongs is a map from then on, whatever else the program does: get_one, proofs and comparisons of roots tell exactly this map, and get of any keys gives the value of every key that they find and says of the others that they are not there. Another batch on top of a map is refused, or makes a version under which get_one gives the new pairs and takes away exactly the pairs of C77. A batch with bad arguments is refused. (Of batches on top of versions that lost pairs nothing is said but that they do no harm to others.)",
  "every list of calls other than removals; every key size, every depth limit above the number of key bits whose reservation for proofs is possible (see C70); HashTree and RocksTree",
  "All programs of any length; the tests are single programs, and none of them has a batch that goes wrong.",
  MB+"::insert", MB+"::insert_one", MB+"::get", MB+"::get_one", MB+"::generate_inclusion_proof", MB+"::verify_inclusion_proof", "src/hash_tree.rs::HashTree", "src/rocks_tree.rs::RocksTree")

p("The hashes of a proof are roots",
  "A proof of a key consists of one hash for the value and then, for every bit at which a key of the version differs from it for the first time (the last bit first, the key itself in front of them), one hash and one side. Each of these hashes is itself the root of a version: of exactly the pairs that differ from the key first at that bit, as if only these pairs had been inserted into an empty tree. get_one under it finds these pairs and no others, and an insert on top of it starts from these pairs. So if two proofs, of two versions or in two databases, have a hash in common, the versions have the same pairs there.",
  "every version that inserts of batches that open every place where one of their keys belongs can leave, every key of it, every entry of its proof; depth limits above the height of the version",
  "All versions, keys and places in proofs.",
  MB+"::generate_inclusion_proof", MB+"::get_one", MB+"::insert")

p("What a batch read of a damaged database returns",
  "In whatever state the database is, get under the root of a version comes to the leaves of those keys that its keys open and whose way from the root is still stored. If one of these leaves has lost its data, the whole call fails, even if the leaf is not asked for. Otherwise it returns exactly one entry for every key of the request: the value of the version if the leaf of the key was reached, nothing if not; so it agrees with get_one on the keys that it opens. If remove is only given returned roots (or anything but the place of the data of a leaf), and is not called while the writes of a failed insert are queued, then no get of a version ever fails, whatever was removed, also after crashes.",
  "every state that calls with any arguments and outcomes can leave, with crashes and lost writes; every root of batches that opened what they had to, every list of keys; a depth limit not below the height of the version",
  "All damaged states and requests; the tests never read what was partly removed.",
  MB+"::get", MB+"::get_one", MB+"::remove", MB+"::insert", MB+"::push_cell_if_node", "src/tree_db/rocksdb.rs::RocksDB::batch_write")

p("Refused inserts do no harm",
  "An insert that returns an error takes nothing away, whatever it was given and whatever is stored: every stored node stays with at least the references it had, what the insert leaves behind are leaves and data nodes but no branches, and where it leaves a leaf it has counted its data. So later removals, of whatever versions, leave every key readable that they would leave readable had the refused inserts not been called. A database that queues writes shows nothing of a refused insert. And whether writes are queued or not, if inserts rebuild nothing that a live version has (as in C19), a live version can be removed after a refused insert, and all other live versions read as before.",
  "every state that calls with any arguments and outcomes can leave, without queued writes; every refused insert (any keys, any previous root, any reason), every sequence of removals with refused inserts before, between and after them; every version, every key",
  "All histories, refused batches and orders of removals; the effects of an error show only many calls later.",
  MB+"::insert", MB+"::remove", MB+"::split_nodes", MB+"::insert_leaf", MB+"::create_tree", "src/tree_db/rocksdb.rs::RocksDB::batch_write")

p("What pairs that are inserted again leave behind",
  "If inserts write no group of two or more pairs of a live version again (single pairs may be written again, as often as one likes), then exactly these references are in excess of what the live versions account for: for every pair of a batch that some live version has already, one to its data node (also if only an earlier excess keeps its leaf); and, if writes show at once, for every pair that the previous version has, one to its leaf. Every reference count is the number of pointers and live roots at the node plus the number of these references. What is stored is what the live roots reach and the leaves and data nodes that have such references; after all roots are removed only the latter are left, each with the count that these references give it. With RocksDB only data nodes are left over. Two databases whose live versions have the same contents and in which the same is left over hold the same nodes with the same counts. If no pair of a live version is inserted again nothing is left over.",
  "every history of successful inserts that straddle no branch and write no group of two or more pairs of a live version again, and of removals of live versions, with reopening; every database, every key size and depth limit",
  "All histories; the excess builds up over many calls and shows only after removals.",
  MB+"::insert", MB+"::remove", MB+"::insert_leaves", MB+"::insert_leaf", MB+"::traverse_tree", "src/hash_tree.rs::HashTree", "src/rocks_tree.rs::RocksTree")

p("Proofs can be brought up to date from outside",
  "Whoever keeps the proof of a key can follow updates. An insert leaves every entry of the proof alone that belongs to a bit at which no key of the batch differs from the key for the first time (and, more generally, two versions with the same pairs there have the same entry there). If the value of one key is changed: its own proof keeps all entries after the second, and exactly one root, the one that insert returns, accepts the new value with these entries; the proof of any other key keeps its length and all entries but one, and the hash in this entry becomes the only one that accepts the new value with a known beginning of the old proof of the changed key. So the new root and the new proofs follow from the old proofs and the new value, without the database: a client that keeps a root and the proofs of some keys, and hears of any number of updates of their values, ends with the root that the last insert returned and with the proofs that generate_inclusion_proof returns. New pairs can be followed as well: if the client has the proof of a stored key closest to the new one and hears how many of its entries belong to bits before the first difference, it finds the new root, the proof of the new pair, and the changes of its other proofs. A mirror, which starts with all keys and all proofs of a version, needs to hear nothing but the pairs that are inserted one by one.",
  "every version that inserts of batches that open every place where one of their keys belongs can leave; every next such batch; every two keys of the version, every new value, every list of updates and new pairs; depth limits above the height of the version whose reservation for proofs is possible (see C70)",
  "All versions, pairs of keys and values; that no other root accepts is about all candidates.",
  MB+"::insert", MB+"::insert_one", MB+"::generate_inclusion_proof", MB+"::verify_inclusion_proof")

p("Roots and proofs are those of the sparse Merkle tree",
  "Take the textbook sparse Merkle tree over all keys: a subtree without pairs has no hash, a branch with one empty side has the hash of its other side, a branch with two has the hash of both, and at the bottom is the hash of the pair. An insert of distinct keys without a previous root returns the root of the sparse Merkle tree of its pairs. On top of a version, it returns the root of the sparse Merkle tree of the pairs of the version with those of the batch put in if and only if the batch opens every place where one of its keys belongs (all other batches fail or return a different root). generate_inclusion_proof returns the hash of the pair, the hash of its leaf, and the hashes beside the way to the key in the sparse Merkle tree, from the bottom to the top, each with its side. So roots and proofs can be computed from the pairs by anyone, in whatever order they are listed, without split indices, versions or databases. Where versions are removed and inserts write no group of pairs of a live version again (as in C19), the live versions keep these roots and proofs.",
  "every version that inserts of batches that open every place where one of their keys belongs can leave, in histories with any other inserts, crashes and reopening; every next batch; every list of the pairs; every key of the version; depth limits above the height of the version",
  "All sets of pairs and histories; the tests compare no root with one computed independently.",
  MB+"::insert", MB+"::insert_one", MB+"::generate_inclusion_proof", MB+"::create_tree", "src/utils/tree_utils.rs::choose_zero")

p("The answers are those of a reference program, byte for byte",
  "A reference program of a page keeps, for every root it has given out, a list of pairs. It puts the pairs of an insert into the list and gives out the root of the sparse Merkle tree (C89), answers get and get_one from the list, returns the path of the sparse Merkle tree as proof of a key in the list and an error for other keys, accepts exactly the pairs of the list with exactly these proofs (up to the two sides that verify_inclusion_proof does not look at), and refuses inserts without keys, with a wrong number of values, with a key twice, or with a value that cannot be encoded. A removal strikes the root out. Under a root that it has not given out it finds nothing, proves nothing, accepts nothing and refuses inserts. Whatever calls are made of a new tree, in whatever order and with whatever arguments, the roots, values, proofs, verdicts and refusals are those of the reference program, also after the process died in the course of inserts or removals and the database was opened again. (Conditions: the roots that are asked about were given out before and not removed, or are not the hash of anything that the calls have hashed so far (only what is removed must have been given out); inserts on top of a version and get are clear for the version, as in C72, for example with at most one key that it does not have; and either nothing is removed, or no insert writes a group of two or more pairs again that a live version has, for example none of its pairs: otherwise the crate may give other answers than the reference program after a removal.) Without removals it is known exactly when the answers are those of the reference program: if and only if every insert on top of a version opens every place where one of its keys belongs, and every get those of its keys that the version has; the first call that does not is the first that is answered otherwise.",
  "every list of calls of insert, insert_one, get, get_one, remove, generate_inclusion_proof and verify_inclusion_proof with any keys, values and proofs; every key size, every depth limit whose reservation for proofs is possible (see C70) and that is above the heights of the versions asked about (for instance above the number of key bits, or not below the number of pairs of any version); HashTree and RocksTree",
  "All programs of any length, and all bytes of all answers; the tests compare no root or proof with an independent computation.",
  MB+"::insert", MB+"::insert_one", MB+"::get", MB+"::get_one", MB+"::remove", MB+"::generate_inclusion_proof", MB+"::verify_inclusion_proof", "src/hash_tree.rs::HashTree", "src/rocks_tree.rs::RocksTree")

p("What is read under any bytes given as a root",
  "Any bytes whatsoever can be given as a root to get, get_one and generate_inclusion_proof, and what they answer is then the content of one of three kinds. Either nothing: every key is absent and no key has a proof. Or exactly the pairs of one live version whose keys begin with some common bits: these pairs are read and proved (and verify_inclusion_proof accepts the proofs against the given bytes), all other keys are absent and have no proof. Or, if and only if the bytes are the hash of the data of a pair of a live version, every read is refused with an error. No other mixture of pairs can ever be read, and nothing of removed versions. Conversely, for every beginning of a key, the pairs of a live version with this beginning (if there are any) can be read under exactly one root: that of the sparse Merkle tree (C89) of these pairs. This root can also be given to insert as the previous root: a batch that is clear for the part and has no pair of a live version is accepted and put into the part, the result is one more live version, and the others stay as they are. If single pairs of live versions are inserted again (as in C87), what is left over after removals shows as well, and nothing else does: a pair whose leaf is left over is read alone under the root of this pair (even when all versions are removed), and the hash of data that is left over is refused.",
  "every history of successful inserts (on top of nothing, of live versions or of parts of them) that straddle no branch and give no pair of a live version again (or no group of two or more), and of removals of live versions, with reopening; every array of bytes given as a root, every key and (for get) every list of keys that is clear for what is read, as in C72; every live version, every beginning; every database, every depth limit above the heights of the live versions whose reservation for proofs is possible (see C70)",
  "All byte arrays and histories; the tests try one unknown root.",
  MB+"::get", MB+"::get_one", MB+"::generate_inclusion_proof", MB+"::verify_inclusion_proof", MB+"::insert", MB+"::remove")

p("The reference program under any bytes given as a root",
  "Reads may be given any bytes as the root, and the answers are still those of a reference program of a page, byte for byte. The program keeps a list of pairs for every root it has given out and that was not removed (C90). When it is asked about any bytes, it goes through its lists: if the bytes are the hash of the data of a pair, get (of one key or more), get_one and generate_inclusion_proof are refused and verify_inclusion_proof accepts nothing; if they are the root of the sparse Merkle tree (C89) of those pairs of a list whose keys begin with some common bits, it answers from these pairs as it would if it had given out the root, and puts the pairs of an insert on top of these bytes into this part; otherwise it finds nothing. After a removal the roots of parts that no other list has find nothing either. If batches give single pairs of live versions again, the reference program also keeps two lists of what is left over: the data of every pair that was given again while some list (or a leaf left over) had it, and, with HashTree, the leaf of every pair that was given again on top of a list that had it. A pair whose leaf is left over is read alone under its own root for ever after, the hash of data left over is refused, and with these two lists all answers are again those of the reference program; so the lists say exactly where HashTree and RocksTree differ.",
  "every list of calls of insert, insert_one, get, get_one, remove, generate_inclusion_proof and verify_inclusion_proof and of reopening, in which inserts are on top of versions in the book, of parts of them, or of none, clear for them (as in C72) and give no pair of a live version again (or, with the lists of what is left over, no group of two or more), or have wrong numbers of arguments; removed are roots in the book; get has keys that are clear for what is read; verify_inclusion_proof is called with any key, value and proof and with roots under which something is stored, or that are not the hash of anything hashed so far; get, get_one and generate_inclusion_proof with any bytes; every key size, every depth limit as in C90; HashTree and RocksTree",
  "All programs of any length, all bytes given as roots and all bytes of all answers; the tests try one unknown root.",
  MB+"::get", MB+"::get_one", MB+"::generate_inclusion_proof", MB+"::verify_inclusion_proof", MB+"::insert", MB+"::insert_one", MB+"::remove", "src/hash_tree.rs::HashTree", "src/rocks_tree.rs::RocksTree")

p("Nothing stored is incomplete",
  "Whatever inserts are called with, and however they end, nothing is ever stored whose parts are not stored: both sides of every stored branch are stored leaves or branches, and every stored leaf has its data stored, under the hash of its key and its value. This holds of what the database shows at any time and of what it would show after the queued writes arrive; so a failed insert, or one that is interrupted after any number of its writes, leaves complete trees or single data nodes behind, never half a tree. Therefore reads under any bytes given as a root fail only for one of three reasons: the depth limit, the bytes being the place of a data node, or (for proofs) a key that is not there. Removals of live versions leave nothing incomplete either, if inserts write no group of two or more pairs of a live version again; and if then a removal fails or is interrupted after any number of its writes, what it leaves is complete as well, and stays so whatever is inserted afterwards. (Where groups are written again, even a successful removal may leave a branch that points at nothing.)",
  "every history of inserts with any previous roots, keys and values, at any depth limits, successful, refused, failed or interrupted after any number of writes, with reopening; every history of inserts and removals as in C87, one more removal that fails or is interrupted, and any inserts after that; every stored node; every array of bytes given as a root; every database",
  "All histories, arguments and moments of interruption; the tests look at no node that no returned root reaches.",
  MB+"::insert", MB+"::insert_leaves", MB+"::create_tree", MB+"::insert_node", MB+"::remove", MB+"::get", MB+"::get_one", MB+"::generate_inclusion_proof")

p("Removals are all or nothing for readers",
  "However the removal of a live version ends (it succeeds, it returns an error, or the process dies after any number of its writes and the database is opened again without what was queued): whatever bytes are given as a root, either get, get_one and generate_inclusion_proof answer under these bytes exactly as before the removal, or nothing is found under them. So nobody ever reads half a version: the version that is removed is there with all its pairs and proofs or with none, the other live versions stay, and every part of a version (C91) is there in full or not at all. But what an interrupted removal has not yet deleted may stay for ever: its root is deleted first, so calling remove again succeeds and deletes nothing. For the root that is given to remove, this holds whatever is stored, also after removals that destroyed what others share (C19) and for bytes that were never a root: either no read under any root changes, or nothing is found under this root. All this is for databases in which nothing is queued: with RocksDB, what refused inserts queued arrives with the next removal, and half of the removed version may then be read.",
  "every history of inserts and removals as in C87; every live version removed, every outcome and every moment of interruption; every array of bytes given as a root, every key and list of keys; every database; depth limits whose reservation for proofs is possible (see C70)",
  "All histories, moments of interruption and roots; the tests interrupt nothing.",
  MB+"::remove", MB+"::get", MB+"::get_one", MB+"::generate_inclusion_proof")

p("Every version in full or not at all",
  "A root that was given out for some contents is read, in every database in which nothing was destroyed, as exactly these contents (get_one, get, and proofs that verify) or as nothing: never as a part of them or as something else. It does not matter when, in which history and on which database the root was given out, as long as the hash function and the encoding of values are the same; so roots can be passed between databases, and asked for before, during or after the calls that make or remove their versions. In particular, if the process dies during an insert, after any number of its writes, the root that the call would have returned has all of the new version or nothing. And inserts, whatever they are called with and however they end, change no reads: under any bytes given as a root, either all reads are as before, or nothing was found before. Two databases in which nothing was destroyed never contradict each other: under any bytes all reads have the same results in both, or nothing is found in one of them.",
  "every root given out in a history of inserts (any others before and after, refused or interrupted) or of inserts and removals as in C87, on any database; every database state left by inserts and removals as in C87, by one more removal that succeeds, fails or is interrupted, and by any further inserts with any arguments and outcomes, with process deaths and reopening; every key and list of keys (as in C91); depth limits that the contents stay below and whose reservation for proofs is possible (see C70)",
  "All pairs of histories, moments of interruption and roots; the tests use each root with the database that returned it, after calls that succeeded.",
  MB+"::insert", MB+"::insert_leaves", MB+"::create_tree", MB+"::remove", MB+"::get", MB+"::get_one", MB+"::generate_inclusion_proof", MB+"::verify_inclusion_proof")

if __name__ == "__main__":
    out = os.path.join(os.path.dirname(__file__), "..", "properties.jsonl")
    with open(out, "w") as f:
        for q in P: f.write(json.dumps(q, ensure_ascii=False) + "\n")
    print(len(P))
