# merkle_bit in Lean 4: design

## What is here

| path | contents |
|---|---|
| `properties.jsonl` | the properties, written by `tools/gen_properties.py` |
| `MANIFEST.json` | status and theorem names per property, written by `tools/gen_manifest.py` |
| `lean/Verif/Model/*` | the model of the code, function by function, with file and line citations |
| `lean/Verif/Spec/*` | the vocabulary in which properties are stated |
| `lean/Verif/Proof/*` | lemmas |
| `lean/Verif/Props/*` | the property theorems (`Cxx_...`), one file per group, with examples beside them |
| `seeded/LOG.jsonl` | mutation tests of the theorems |

## Trusted base

* Lean 4's kernel.  No axioms are added; no `sorry`, `native_decide`, `bv_decide`, `implemented_by` or
  `unsafe`.  Every theorem depends on at most `propext`, `Classical.choice` and `Quot.sound`.
* The reading of the Rust source: `Verif/Model/*` was written by hand from the text of /repo.
* The meaning of the definitions in `Verif/Spec/*` and of the theorem statements.

Witnesses and examples are evaluated by the kernel (`decide +kernel`), never by compiled code.

## What is modelled

| Lean module | models |
|---|---|
| `Model/Prelude.lean` | `Result` with explicit panics, `&mut self` state threading (`M`), `HashMap` |
| `Model/Arr.lean` | `Array<N>` / `[u8; N]`, its order, sorting, bits |
| `Model/Nodes.lean` | `tree/*.rs`, `utils/tree_ref.rs`, `utils/tree_cell.rs` |
| `Model/TreeUtils.lean` | `utils/tree_utils.rs` and `constants.rs`, all functions |
| `Model/Traits.lean` | `traits.rs`: `Database`, `Hasher`, `Encode`/`Decode`; `MerkleTree` |
| `Model/MerkleBit.lean` | `merkle_bit.rs`, all functions |
| `Model/HashDB.lean` | `tree_db/hashmap.rs`, `tree_db/hashbrown.rs` |
| `Model/RocksDB.lean` | `tree_db/rocksdb.rs` over the documented behaviour of RocksDB, with arbitrary I/O failures |
| `Model/Bincode.lean` | the bincode encoding of nodes (`tree/*.rs` with the `bincode` feature, `Array` of `lib.rs`) |
| `Model/Serde.lean` | the encoding of nodes with the features json, cbor, yaml, pickle, ron: what serde's derive macros and `Array` of `lib.rs` hand to the format and ask of it; JSON and CBOR texts in full |
| `Model/PartitionPoint.lean` | the two binary searches `slice::partition_point` has used in the standard library (before and since Rust 1.82); both are proved lawful (`Proof/PartitionPoint.lean`) and the concrete witnesses run the former |
| `Model/Slices.lean` | what `get` and `insert` leave in the caller's key slice |
| `Model/Hashers.lean` | `tree_hasher/*.rs` and the `Digest` adapter of `traits.rs` |
| `Model/Machine.lean` | the functions of `merkle_bit.rs` that add counters, with the sums as a build with or without overflow checks computes them |
| `Model/Trees.lean` | `hash_tree.rs`, `rocks_tree.rs`, and the constructors and `decompose` of `merkle_bit.rs`, `rocksdb.rs` |

The methods of `HashTree` and `RocksTree` forward to `MerkleBIT`; C65 runs them, the other theorems are
about `MerkleBIT` on any database.

How the model relates to the code:

* Every Rust loop is structural recursion, with fuel where Rust has no syntactic bound.  Running out of
  fuel is the separate error `Err.outOfFuel`, and C25 shows that it does not occur.
* A panic is the error `Err.panic`; C26 shows when it cannot occur.
* The state is kept on errors (Rust does not roll back), so what failed calls leave behind is visible.
* `slice::partition_point` is a parameter constrained by its documented contract
  (`PartitionPoint.Lawful`): on an unpartitioned slice it may return anything in range.
* Databases are arbitrary, constrained by `DbContract` (`Spec/Database.lean`): a write may be queued until
  `batch_write`; any call may fail.  `Proof/Backends.lean` shows that `HashDB` and `RocksDB` meet it.
* A crash (`crashDb`) stops the writes of a call after an arbitrary number of them.
* In histories every call may have a depth limit of its own (a database can be taken out of a tree with
  `decompose` and put into another with `from_db`).

Not modelled:

* Numbers are natural numbers in all files but `Model/Machine.lean`, which has the same functions with sums
  of 64 bits, and of 32 bits for `TreeRef::count` (`usize` is taken to be 64 bits wide).  C71 shows that the two
  agree as long as fewer than `2 ^ 64 - 1` writes were asked for and no insert puts `2 ^ 32` tree references
  together.  Sums of positions of bits and bytes (src/utils/tree_utils.rs) are below `8 N`, or the length of a
  list, and stay unbounded there as well.  Subtractions that could underflow are modelled as panics or saturate where Rust
  saturates.
* `HashMap` iteration order: the code never depends on it (it sorts what it iterates).
* Serialization formats: only what `Model/Bincode.lean` and `Model/Serde.lean` state about the third-party
  crates.  Of yaml, pickle and ron only that they tell sequences and byte strings apart.
* The hash functions themselves, RocksDB itself, opening databases by path, exhaustion of memory (but
  reservations above `isize::MAX` bytes are modelled),
  benchmarks and tests.

### How the model was checked

* It was read against the source function by function, more than once.
* `Props/RepoTests.lean` computes from the model (in the kernel) what the tests of tests/merkle_bit.rs with fixed keys
  expect.  These are tests of the model, not proofs.
* `tools/random_tests.py` (not part of the build) runs the tests with random keys that insert again and again, and remove,
  with the keys that `StdRng` gives.  All keys of all rounds are read back, as the tests expect.

## Assumptions that appear as hypotheses

* `CollisionFree H U`: different inputs in `U` have different hashes.  Locations are finite, so injectivity
  of a hasher would be unsatisfiable; every theorem takes as `U` exactly the inputs that the calls in
  question hash (`hashedBy`, `Spec/Hashed.lean`), which makes the hypothesis checkable, and the examples
  check it for a concrete hasher.
* `Sane cfg`: at least one key byte, a lawful `partition_point`, `decode` inverts `encode`.  The depth limit
  is arbitrary.
* `HeightBelow M d`: the keys of `M` branch off each other at fewer than `d` bits on every path.  Asked for,
  with `d` the depth limit (or one more), where a call must not hit the limit.  It holds if the limit is
  larger than `8N` (`heightBelow_of_bits`) and if `M` has at most `d` keys (`heightBelow_of_keys`).
* `C.alive s`: the database does not fail from here on.  Asked for only where a call must succeed.
* `cfg.Room`: `depth * (N + 1) ≤ isize::MAX`, the depth limit leaves room for the reservations of
  `generate_inclusion_proof`.  Asked for only where that call must not panic.
* `Handled cfg M keys`, `NoStraddle cfg M keys`: see below.
* `Careful ...`: see below.
* For the RocksDB backend, nodes are encoded by a lawful codec.  `Proof/Bincode.lean` shows that bincode
  is one on nodes whose numbers fit 64 bits; since numbers of the model are unbounded, the concrete
  instance extends bincode to larger numbers (`wide`).

## Findings: properties that the code does not have

Each is proved false by a concrete witness (`Cxx_false`), and proved (`..._partial`) under the weakest
condition found.

* **Straddled branches** (C02, C04, C07, C11, C30, C32).  `check_descendants` compares the key bytes in
  strides of 8 bits from `min_split_index`; the last partial stride can miss the byte of the split bit.
  A request or batch with keys on both sides of a branch can then be cut wrongly: `get` returns `None`
  for stored keys; `insert` loses stored keys that are not in the batch, or refuses distinct keys as
  duplicates.  A straddled branch need not do harm: additional keys only open more subtrees.
  `Spec/Opened.lean` follows the keys of a call down the tree; `Handled` (`Spec/History.lean`) says that they
  open every place where one of them belongs.  This is exactly the condition: a requested stored key is found
  if and only if its places are opened (`C07_get_exact`), an insert returns the root of the new contents if
  and only if its batch is handled (`C02_insert_exact`, `C04_insert_exact`), and inserting at once and one at
  a time agree if and only if it is (`C11_batching_exact`).  A simpler sufficient condition is that no branch
  is straddled (`StraddleFree`, `NoStraddle`, `Spec/Straddle.lean`); that is implied by: one key; all keys
  stored; at most one new key; an empty tree; one-byte keys; two conditions that speak of keys only (`Clear`,
  and the simpler `Spread`: every new key shares its first byte with at most one stored key).
  `C30_check_descendants_exact` says which keys `check_descendants` selects in every case.  C77 says what a
  batch that is not handled does: it is refused if one of its keys is the smallest key of a subtree left closed,
  and otherwise takes away the values of some keys of closed subtrees, exactly determined.
* **Roots of straddling batches** (C06, C08, C09, C15, C16, C18, C23, C41).  The tree an accepted straddling
  batch leaves can hold a key twice, with an old and a new value, and can be higher than the key has bits.
  Under its root a stored key can be missing, a later insert can bring back the overwritten value, proofs of
  overwritten values verify, `get_one` can pass the depth limit `8N + 1` where `get` does not, inserting
  a stored pair again changes the root.  `Props/Lineage.lean` has the witnesses and what still holds for
  every returned root: every value read or proved was inserted for its key on the way to the root, the
  batch inserted last reads back, what is read is provable, equal roots read equal.
* **Reference counts** (C19, C37, C40).  `merge_nodes` writes branches with reference count 1 even if the
  branch exists.  If a batch rebuilds a branch that a live version has (for example by inserting a stored
  pair again), its count drops, and removing one root deletes nodes that another needs.  C79 says what an insert
  does to every count, C78 what a removal does, C80 which keys a removal takes from which versions.
* **Counts differ between the databases** (C79).  `insert_leaves` counts a leaf, and `traverse_tree` (through `insert_leaf`) again
  when the previous version has the very same pair.  The second count starts from the first when writes show at once
  (`HashDB`), and from the old value when they are queued (`RocksDB`): 2 more or 1 more.  The same inserts and
  removals then leave a version readable in memory that is gone on RocksDB (`C79_databases_differ`).
* **Leaks** (C21).  `insert_leaves` increments the count of a data node even if its leaf exists, so the data
  node outlives its leaf.  C87 says exactly what is left over, call by call.
* **Failed inserts** (C39).  Leaves are written, and counts incremented, before later checks fail.  With
  RocksDB the queued writes of a failed insert are flushed by the next call.
* **Depth limit** (C24).  `get` and `insert` count branches, `get_one` and `generate_inclusion_proof` count
  the leaf and the data node too, so they refuse trees that the others accept.
* **Unknown previous roots** (C14, C35).  The in-memory database accepts an unknown previous root if it is the
  location of a leaf of the batch; RocksDB does not see the queued leaf and refuses.

* **Made-up roots** (C75).  `verify_inclusion_proof` never compares the sides in a proof with the bits of the key.
  Roots of versions are safe (C16), but who makes up a root can have two values of one key accepted.
* **Buffers** (C46).  `insert` sorts the caller's slice of keys in place, but not the values: repeating a call with
  the same two buffers stores values under other keys.
* **Damaged roots** (C47).  A live root that lost nodes to a removal cannot be extended.
* **Storage** (C48-C51).  After an insert of a stored pair, what is stored no longer depends only on the live
  contents: removing the returned root removes more than the insert added, and data nodes are left behind.

* **Queued writes of refused calls** (C66).  On RocksDB the nodes queued by a refused insert are written by the next
  successful call, unless the database is reopened in between; so reopening can change later answers.  If that next
  call is a `remove`, it can bring a removed leaf back without its data (`C85_queued_leaf_comes_back`), or a removed
  branch, whose removal then gives up references that are not its own (`C86_false`).  Programs that never use a root
  after its removal are not harmed (`C86_removal_after_refused`, C76).
* **One lost data node fails a batch read** (C85).  `get` fails as a whole if any leaf that it comes to has lost its
  data, even for other keys; `get_one` and missing nodes elsewhere just give nothing.
* **Trees built beyond the limit** (C64).  `insert` without previous root never looks at the depth limit, so under a
  small limit it returns roots whose keys the same tree refuses to read.
* **Reservations** (C26, C70).  `generate_inclusion_proof` reserves room for as many entries as the depth limit
  before it looks at the tree.  With a limit above `isize::MAX / (N + 1)` (a natural way to say "no limit") it
  panics with "capacity overflow" for every root and key, while all other calls work.
* **Batches of `2 ^ 32` keys** (C71).  `merge_nodes` counts the subtrees of one insert in a `u32`.  With overflow
  checks an insert of `2 ^ 32` or more keys always panics (`C71_large_batches_differ`).

* **Serialization** (C57).  `Array<N>` serializes as a sequence but its visitor only accepts byte strings
  (`lib.rs:219-262`).  bincode writes both alike.  With json, cbor, yaml, pickle and ron no branch and no leaf can be
  read back: on RocksDB an insert succeeds, and the returned root is unreadable.

## How the properties are proved

* An abstract trie (`Spec/Trie.lean`) with its location, hash inputs and contents.  `Stored H v T`: the view `v`
  holds the nodes of `T`.
* **Reading** (`Proof/Read.lean`, `ReadVersion.lean`, `Inclusion.lean`): on a stored trie, `get`, `get_one`
  and `generate_inclusion_proof` compute functions of the trie, by induction over it.  C06-C09, C15-C18.
* **Writing**: a Hoare logic for `M` over database contracts (`Proof/Hoare.lean`); `Proof/Insert.lean` gives
  one rule for `insert` (leaves, traversal, merge), used three times: for the contents
  (`InsertContent.lean`), for soundness of arbitrary calls (`History.lean`), and for reference counts
  (`AccountInsert.lean`).  `Proof/Merge.lean` and `CreateTree.lean` show that the merge of
  `create_tree` assembles the compact trie of the blocks, with an invariant on the array of references;
  `Traverse.lean` shows which blocks a traversal yields.  C01-C05, C10-C14, C32-C34, C41.
* **All returned roots** (`Spec/Lineage.lean`, `Proof/Lineage.lean`): the same Hoare rule with the weaker
  invariant that the entries of the tree come from the lineage of the root, and that the leaves of the last
  batch are where their keys lead.  The all-roots parts of C02, C05, C06, C08, C09, C15-C17.
* **Histories** (`Spec/History.lean`, `Proof/History.lean`): the invariant holds along all sequences of calls with
  any arguments and outcomes, crashes included.  C03, C33, C36, C39.
* **Guarded hashing** (`Proof/Logged.lean`): proofs about `insert` assume collision-freeness only for what the
  call really hashes; a guarded database fails as soon as anything else is written, and running on it is
  shown to be the same as running on the real one.
* **Reference counts** (`Proof/Graph.lean`, `Account*.lean`, `Fresh.lean`, `Uses.lean`): `load R x` counts the
  pointers at `x` from what is reachable from the roots `R`, plus occurrences in `R`; along `Careful`
  histories the stored counts are at least (in strict ones, exactly) the load of the live roots.
  C19-C21, C37, C40, C47.
* **Storage** (`Spec/Storage.lean`, `Proof/Storage.lean`): in strict histories the stored counts are exactly the load
  of the live roots, so the database is a function of the live contents.  C48-C51.
* **Work** (`Spec/Cost.lean`, `Proof/Cost.lean`, `Proof/Reads.lean`): `Meter` relates runs of one call on two
  databases and counts writes to places read before and to others; the instance that counts gives C53, the
  instance that collects new places gives C52.  Reads are bounded by induction over the loops: C54, C55.
* **Counters** (`Proof/Counters.lean`): runs on the counting database keep every reference count below the number
  of writes; the size of the tree under any root is bounded along its lineage.  C56.
* **Machine arithmetic** (`Proof/Machine*.lean`): `Lock` runs the program three times, on a counting database, plain and
  with machine sums, and shows that the last two agree while the count is small; `Fits` does the same for
  `create_tree`, where the sums are leaf counts, bounded because everything stored is in its place.
  `MachineTraces` (`Spec/Machine.lean`) are the histories of `Traces` with machine counters;
  `MachineLarge` shows that batches that do not fit panic.  C71.
* **Formats** (`Proof/Serde.lean`): RocksDB with a format that cannot read back what it wrote still meets the database
  contract with calls that may fail, so returned roots are stored; decoding them fails.  C57.
* **Bits, depth, termination, panics, backends, codec, hashers**: C22-C31, C35, C38, C42-C46.
* **Damaged databases.**  Every stored node is at the location of its own hash (`Honest`, from C41), so under
  a root there is the tree of that root, possibly with holes (`Remains`); reads are analysed on trees with
  holes (`PathStored` is what a read of one key needs), and the insert is redone on top of them
  (`Proof/Repair.lean`).  C58 to C63, and versions of C04 and C05 for histories with removes and crashes.
* **Accepted inserts in any state.**  `create_tree` puts the blocks (new leaves and parts of the previous tree)
  together by joins (`Joins`); it writes every branch it makes (`Above`), so the way from the returned root to
  every new leaf is there, whatever else is missing (`insert_built` in `Proof/Trace.lean`).  The histories
  `Traces` (`Spec/Trace.lean`) keep a log of all pairs given to inserts and the lineages of all returned roots.
  C67 to C69, and C59 for all returned roots.
* **Sessions** (`Spec/Session.lean`, `Proof/Sessions.lean`, `Proof/TidySessions.lean`): a simulation between a list of
  maps and the database with the list of roots; without removals the steps use the properties of all returned
  roots, with removals those of live versions (`Uses`).  The methods of `HashTree` and `RocksTree` are collected
  in a record (`Api`), and a homomorphism from the methods of `MerkleBIT` carries the answers over.  C72, C76.
* **What is below a root** (`Spec/Touched.lean`, `Proof/Touched.lean`): the loops of the reads never leave a set of
  places that pointers do not leave (`ClosedAt`); the loop of `remove` changes nothing outside one (`Within`), and
  on a database that keeps lists of the places written and deleted (`touchDb`) its queue pays for its writes
  (`Work`).  No history is assumed.  C73, C74.
* **Proofs under any root** (`Props/Binding.lean`): two accepted lists are folded from the same root; by induction
  from the root down they agree as long as their sides do.  C75.
* **The effect of every batch** (`Proof/Effect.lean`): the blocks from which the new tree is made are the leaves of
  the batch and the subtrees left closed (`closed_trav`).  The branches above the blocks (`Joins`) send a key to the
  block whose smallest key agrees with it longest, if there is only one (`Joins.follows`, `Joins.misses`).  C77.
* **The effect on every count** (`Spec/Counts.lean`, `Proof/CountsRemove.lean`, `CountsInsert.lean`,
  `CountsEvents.lean`): the same rule for `insert` with an invariant that gives every count at every step as a
  function of the counts before; for `remove` the invariant is that finishing the queue (`finish`) always leads to
  the same counts.  C78, C79.  C80 reads the counts on the way to a key.
* **What an insert needs** (Spec/Counts `lookedAt`, Proof/Looked): the same induction over `traverse_tree`, with
  the failing read as an exit: the first subtree that is looked at and not found ends the call.  C81.
* **Twins** (Spec/Twins, Proof/Twins): two runs of the same calls.  Nodes in their places are determined by the
  counts, the counts after each call by C78 and C79, and the success of the second insert by C81.  C82.
- Sessions of any calls without removals: the state of a session is a history of inserts (`Inserts`) with the
  versions known so far, each a map, a trie with known single reads, or nothing known.  A call with a batch that
  opens what it has to is C02, with another one C77; that old nodes stay (`insert_ext`) keeps what is known
  of tries that are not maps.  C83.
- Hashes of proofs: the subtrees beside the way to a key (`Trie.parts`) are compact tries of their own, hence
  versions, and their keys are told apart by the first bit in which they differ from the key.  C84.
- Batch reads of damaged databases (Spec/Reached, Proof/Reached): the queue of `get` holds cells of subtrees that are
  there; what it still comes to is the concatenation of `reached` over the queue, and the fuel is bounded by the
  same weight as on whole trees.  That leaves have their data (Spec/Whole, Proof/Whole) is kept by the Hoare rule
  for `insert`, as the data is written first, and by `remove`, as nothing in its queue is the data of a leaf
  that is still there.  C85.
- Refused inserts (Spec/Refused, Proof/Ahead, Proof/Refused): by Hoare rules for any state and arguments, the database
  after an insert that is refused is above the one before (`Rise`).  Two databases of which one is ahead of the other
  stay so under the same removals: a node that dies in the one that is ahead has given up no more references than it
  has in the other, shown by induction on the items that the removals give up.  C86.
- Refused inserts in careful histories (Proof/Lifted): what a refused insert queues has at least the counts that are
  stored (`NothingLess`), so the accounting of the next `insert` or `remove` separates its own queued writes from the
  others (`Own` in Proof/AccountRemove), which can only raise counts when they arrive.  C19, C37, C47, C76, C86.
- Leftovers (Spec/Leftover, Proof/Leftover, Proof/Keeps): the references that belong to no version are carried as
  further roots, items rather than versions.  Proof/CountsEvents says what a successful insert adds to every count;
  the load of the roots with the new version and `leftBy` added grows by the same amount at every item.  C87.
- Following a proof (Proof/Follow): a part of a version (C84) is determined by its pairs, so equal pairs give equal entries.  If one
  value changes, the parts beside the way to its key stay, so the path in the proof stays, and the root is what
  `verify_inclusion_proof` computes from it; seen from another key, the changed key lies in one part, whose path is the
  beginning of the path of the whole.  The proofs of two keys have the same end, and the entries before it have opposite
  sides, so a client (Spec/Follow) finds the place where one key looks at the other.  A new
  pair (Proof/FollowNew) gets beside it the part of its closest keys, and everything above is shared with them, so
  the parts seen from the new key, from its closest keys, and from all others are known from those before.  C88.
- The sparse Merkle tree (Spec/Sparse, a functional specification of roots and proofs) goes through all levels; Proof/Sparse
  shows, by induction over the levels, that above the split of a trie one side has no pairs, and that at the split the
  sides are the entries of the subtrees.  When a batch gives its root is C11.  C89.
- The reference program (Spec/Reference) is executable and knows nothing of the crate; Props/Reference carries a history
  (`Inserts`) along with its lists of pairs and compares the answers call by call.  With removals the history is one of
  careful inserts (`Uses`), and the lists are those of the live versions.  For the exact condition, the trie of the
  reference program's pairs (`sparse_trie`) hashes only what the reference program hashes, so an equal root is that of the
  same trie, and only batches that open every place build it.  C90.
- Any root: where exact accounting holds (C20), every stored node is reached from a live root, so it is the data of a pair or the
  top of a subtree of a live version, and a subtree is a version of its own whose contents are a part (C84).  In all
  histories of careful inserts (`Uses`, `Keeps`) an insert may also be on top of such a part (`Ledger.Base`): what it takes over is
  reached from a live root.  C91.
- **The reference program under any root.**  `Spec/Anywhere.lean` extends the reference program of C90: from its lists it computes
  the roots of all parts (`Book.spread`) and the hashes of data (`Book.dataAt`), and answers reads from these and inserts on top of them.  The proof keeps
  the invariant of C91 along the calls (the ledger is the book, and all reference counts are accounted for): every entry of the
  spread book is a version, so the answers are those of C90 for the spread book; and what is stored under other bytes is a data
  node or nothing.  A proof never leads to the hash of data, because it ends in the hash of a leaf or a branch.  Where single
  pairs are inserted again (Props/AnywhereAgain), the invariant is that of C87: the items left over are those of two further
  lists of the reference program (`Rest`).  C92.
- **Nothing stored is incomplete.**  The invariant of all insert histories has that every place is that of a trie or of data
  that was hashed (`Honest`), and that the children of what is stored are stored, also after the queue arrives (`Closed`);
  `Spec/Complete.lean` says so in terms of nodes.  With removals the inventory of C87 lists everything that is stored.  A removal
  deletes a node before it releases its children, so on the way the counts, with the queue, are exact for the live roots and what
  is still to be released (`Freed`); hence the children of what is stored are stored whenever it stops (`Halfway`).  C93.
- **Removals are all or nothing.**  However a removal stops, what is stored is complete (C93) and was stored before
  (`remove_within`), and the trie at a place is determined by the place; reads under a place are functions of its trie.
  For the root given to `remove`, whatever is stored: its first write deletes the root, or lowers its count and there is no second
  (`remove_first`), and reads do not look at counts (`readsSame_of_sameNodes`).  That nothing is
  queued is needed (`C94_refused_inserts_differ`).  C94.
- **Every version in full or not at all.**  `Spec/Undamaged.lean` has the states in which nothing was destroyed; in all of them what is
  stored is honest and closed (`undamaged_sound`, from C93).  A root that was given out is the place of a trie with the contents,
  all of whose hashes are collision-free together with what the other database hashed; so if anything is stored at the place, it is
  this trie, in full (`stored_of_closed`).  C95.

## Status per property

`MANIFEST.json` has the theorem names, and for each partial property what is missing.  A partial property is
one that the code does not have in full (`Cxx_false` is the witness).

| | property | status | `Props/` |
|---|---|---|---|
| C01 | Insert into an empty tree reads back | proved | Versions.lean |
| C02 | Insert on a previous root is a map override | partial | Exact.lean, Lineage.lean, Versions.lean |
| C03 | Old versions survive inserts | proved | Versions.lean |
| C04 | The root hash is independent of history | partial | Damage.lean, Exact.lean, Versions.lean |
| C05 | The root hash binds the contents | proved | Damage.lean, Lineage.lean, Versions.lean |
| C06 | get is sound | partial | Lineage.lean, Versions.lean |
| C07 | get is complete | partial | Versions.lean |
| C08 | get_one is exact | partial | Lineage.lean, Versions.lean |
| C09 | get and get_one agree | partial | Lineage.lean, Versions.lean |
| C10 | insert_one is insert of one pair | proved | Calls.lean |
| C11 | Batching does not matter | partial | Calls.lean, Exact.lean |
| C12 | Bad arguments are rejected without effect | proved | Calls.lean |
| C13 | Duplicate keys are rejected | proved | Calls.lean |
| C14 | Unknown previous root is rejected | partial | Calls.lean |
| C15 | Generated inclusion proofs verify | partial | InclusionProofs.lean, Lineage.lean |
| C16 | Inclusion proofs are sound | partial | InclusionProofs.lean, Lineage.lean |
| C17 | No inclusion proof for an absent key | proved | InclusionProofs.lean, Lineage.lean |
| C18 | Inclusion proofs are unique | partial | InclusionProofs.lean, Lineage.lean |
| C19 | remove does not disturb other roots | partial | Remove.lean |
| C20 | remove makes a sole root unreadable | proved | Remove.lean |
| C21 | Removing every root empties the database | partial | Remove.lean |
| C22 | remove of an unknown root is a no-op | proved | Calls.lean |
| C23 | A depth limit of 8N+1 is never hit | partial | Errors.lean, Lineage.lean |
| C24 | The depth limit is applied uniformly | partial | Errors.lean |
| C25 | Every operation terminates | proved | Errors.lean |
| C26 | No panics | partial | Errors.lean |
| C27 | Bit selection | proved | Utils.lean |
| C28 | calc_min_split_index is the first divergence | proved | Utils.lean |
| C29 | split_pairs partitions | proved | Utils.lean |
| C30 | check_descendants selects exactly the descendants | partial | Utils.lean |
| C31 | generate_tree_ref_queue schedules every boundary once | proved | Utils.lean |
| C32 | Stored branches describe their subtree | partial | Structure.lean |
| C33 | Content addressing | proved | Structure.lean |
| C34 | Argument order is irrelevant | proved | Calls.lean |
| C35 | Storage backends are interchangeable | proved | Backends.lean |
| C36 | A failed or interrupted insert is harmless | proved | Failures.lean |
| C37 | A failed or interrupted remove is harmless to other roots | partial | Remove.lean |
| C38 | Hash inputs are domain separated | proved | Structure.lean |
| C39 | A failed insert changes nothing | partial | Failures.lean |
| C40 | Reference counts cover references | partial | Remove.lean |
| C41 | Re-inserting stored pairs returns the same root | partial | Calls.lean, Lineage.lean |
| C42 | Typed values round-trip | proved | Calls.lean |
| C43 | Node serialization round-trips | proved | Codec.lean |
| C44 | Hasher adapters preserve the digest | proved | Hashers.lean |
| C45 | Unknown roots read as empty | proved | Remove.lean |
| C46 | Calls can be repeated with the same buffers | partial | Slices.lean |
| C47 | Live roots can always be extended | partial | Live.lean |
| C48 | Storage is canonical | partial | Storage.lean |
| C49 | Removing a root undoes its insert | partial | Storage.lean |
| C50 | A removed root is gone | partial | Storage.lean |
| C51 | A lone version takes 3n-1 nodes | partial | Storage.lean |
| C52 | Growth per insert is bounded | proved | Cost.lean, Storage.lean |
| C53 | Writes per insert are bounded | proved | Cost.lean |
| C54 | Reads are bounded | proved | Cost.lean |
| C55 | Proof length is bounded | proved | Cost.lean |
| C56 | Counters stay small | proved | Counters.lean |
| C57 | Every serialization feature works | partial | Formats.lean |
| C58 | No root reads two values | proved | Damage.lean |
| C59 | Lost data is not wrong data | partial | Damage.lean, Trace.lean |
| C60 | A fresh insert always works | proved | Damage.lean |
| C61 | Inserts take nothing away | proved | Damage.lean |
| C62 | A completely readable root can be extended | partial | Damage.lean, Trace.lean |
| C63 | Re-inserting repairs | partial | Damage.lean, Trace.lean |
| C64 | The depth limit only limits | proved | Trees.lean |
| C65 | The documented session works | proved | Trees.lean |
| C66 | Acknowledged writes survive closing | proved | Durability.lean |
| C67 | An accepted insert reads back | proved | Trace.lean |
| C68 | Nothing is read that was not inserted | proved | Trace.lean |
| C69 | Readable if and only if provable | proved | Trace.lean |
| C70 | Raising the depth limit takes nothing away | partial | Trees.lean |
| C71 | The counters are wide enough | proved | Machine.lean |
| C72 | One key at a time, versions are maps | proved | Session.lean |
| C73 | Nothing outside a root matters to it | proved | Touched.lean |
| C74 | The work of a remove | proved | Touched.lean |
| C75 | Any root commits to the pairs at its places | proved | Binding.lean |
| C76 | With removals, live versions are maps, and nothing else is stored | proved | TidySession.lean |
| C77 | What an insert does to every key | proved | Effect.lean |
| C78 | What a remove does to the stored reference counts | proved | Counts.lean |
| C79 | What an insert does to the stored reference counts | proved | Counts.lean |
| C80 | Which keys a remove takes from which versions | proved | Counts.lean |
| C81 | What an insert needs to find | proved | Needs.lean |
| C82 | The same program does the same on every database | proved | Twins.lean |
| C83 | What any program without removals is told | proved | AnySession.lean |
| C84 | The hashes of a proof are roots | proved | Parts.lean |
| C85 | What a batch read of a damaged database returns | proved | Reached.lean |
| C86 | Refused inserts do no harm | partial | Refused.lean |
| C87 | What pairs that are inserted again leave behind | proved | Leftover.lean |
| C88 | Proofs can be brought up to date from outside | proved | Follow.lean, FollowNew.lean |
| C89 | Roots and proofs are those of the sparse Merkle tree | proved | Sparse.lean |
| C90 | The answers are those of a reference program, byte for byte | proved | Reference.lean |
| C91 | What is read under any bytes given as a root | proved | AnyRoot.lean |
| C92 | The reference program under any bytes given as a root | proved | Anywhere.lean, AnywhereAgain.lean |
| C93 | Nothing stored is incomplete | proved | Complete.lean |
| C94 | Removals are all or nothing for readers | proved | AllOrNothing.lean |
| C95 | Every version in full or not at all | proved | Undamaged.lean |
