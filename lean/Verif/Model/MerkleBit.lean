import Verif.Model.Traits
/-!
# src/merkle_bit.rs

`MerkleBIT { db, depth }` is a `Config` (which holds `depth`) and a database state `σ`.
`while let Some(..) = queue.pop_front()` loops take a fuel argument; the entry points pass enough
fuel (`Proof/Termination.lean`).  What is left in the caller's key slice, which is sorted in place, is in
`Model/Slices.lean`.
-/

namespace MerkleBit
variable {N : Nat} {σ V : Type}

/-! ## Reading -/

/-- `push_cell_if_node` (src/merkle_bit.rs:159-178); the front of the `VecDeque` is the head. -/
def pushCellIfNode (cfg : Config N σ V) (s : σ) (queue : List (TreeCell N)) (depth : Nat)
    (location : Arr N) (locations : List (Arr N)) : Res (List (TreeCell N)) :=
  match cfg.db.getNode s location with
  | .error e => .error e
  | .ok (some node) =>
    if !locations.isEmpty then .ok (⟨location, locations, node, depth + 1⟩ :: queue)
    else .ok queue
  | .ok none => .ok queue

/-- The loop of `get` (src/merkle_bit.rs:103-153).  `keys.binary_search(k)` on the sorted `keys` is
membership (src/merkle_bit.rs:133). -/
def getLoop (cfg : Config N σ V) (s : σ) (keys : List (Arr N)) :
    Nat → List (TreeCell N) → AMap (Arr N) (Option V) → Res (AMap (Arr N) (Option V))
  | _, [], leafMap => .ok leafMap
  | 0, _ :: _, _ => .error .outOfFuel
  | fuel + 1, cell :: queue, leafMap =>
    if cell.depth > cfg.depth then .error (.exception "Depth of merkle tree exceeded")
    else match cell.node.variant with
      | .branch b =>
        match calcMinSplitIndex cell.keys b.key with
        | .error e => .error e
        | .ok minSplitIndex =>
          match checkDescendants cell.keys b.splitIndex b.key minSplitIndex with
          | .error e => .error e
          | .ok descendants =>
            if descendants.isEmpty then getLoop cfg s keys fuel queue leafMap
            else match splitPairs cfg.pp descendants b.splitIndex with
              | .error e => .error e
              | .ok (zeros, ones) =>
                match pushCellIfNode cfg s queue cell.depth b.one ones with
                | .error e => .error e
                | .ok queue1 =>
                  match pushCellIfNode cfg s queue1 cell.depth b.zero zeros with
                  | .error e => .error e
                  | .ok queue2 => getLoop cfg s keys fuel queue2 leafMap
      | .leaf n =>
        match cfg.db.getNode s n.data with
        | .error e => .error e
        | .ok (some d) =>
          match d.variant with
          | .data data =>
            match cfg.decode data.value with
            | .error e => .error e
            | .ok value =>
              if n.key ∈ keys then getLoop cfg s keys fuel queue (leafMap.insert n.key (some value))
              else getLoop cfg s keys fuel queue leafMap
          | _ => .error (.exception "Corrupt merkle tree: Found non data node after leaf")
        | .ok none => .error (.exception "Corrupt merkle tree: Failed to get leaf node from DB")
      | .data _ =>
        .error (.exception "Corrupt merkle tree: Found data node while traversing tree")

/-- Loop iterations that suffice for a traversal with `n` keys. -/
def traversalFuel (cfg : Config N σ V) (n : Nat) : Nat := n * (cfg.depth + 2) + 1

/-- `get` (src/merkle_bit.rs:77-156). -/
def get (cfg : Config N σ V) (s : σ) (rootHash : Arr N) (keys : List (Arr N)) :
    Res (AMap (Arr N) (Option V)) :=
  if keys.isEmpty then .ok AMap.empty
  else
    let leafMap := generateLeafMap keys
    let sorted := sortKeys keys
    match cfg.db.getNode s rootHash with
    | .error e => .error e
    | .ok none => .ok leafMap
    | .ok (some rootNode) =>
      getLoop cfg s sorted (traversalFuel cfg keys.length) [⟨rootHash, sorted, rootNode, 0⟩] leafMap

/-- The loop of `get_one` (src/merkle_bit.rs:820-871); the front of the `VecDeque` is the head. -/
def getOneLoop (cfg : Config N σ V) (s : σ) (key : Arr N) :
    Nat → List (Arr N) → Bool → Nat → Res (Option V)
  | _, [], _, _ => .ok none
  | 0, _ :: _, _, _ => .error .outOfFuel
  | fuel + 1, location :: nodes, foundLeaf, depth =>
    if depth > cfg.depth then .error (.exception "Depth limit exceeded")
    else match cfg.db.getNode s location with
      | .error e => .error e
      | .ok none => getOneLoop cfg s key fuel nodes foundLeaf (depth + 1)
      | .ok (some node) =>
        match node.variant with
        | .branch b =>
          if foundLeaf then .error (.exception "Corrupt Merkle Tree")
          else match calcMinSplitIndex [key] b.key with
            | .error e => .error e
            | .ok minSplitIndex =>
              match checkDescendants [key] b.splitIndex b.key minSplitIndex with
              | .error e => .error e
              | .ok descendants =>
                if descendants.isEmpty then .ok none
                else match chooseZero key b.splitIndex with
                  | .error e => .error e
                  | .ok true => getOneLoop cfg s key fuel (nodes ++ [b.zero]) foundLeaf (depth + 1)
                  | .ok false => getOneLoop cfg s key fuel (nodes ++ [b.one]) foundLeaf (depth + 1)
        | .leaf l =>
          if foundLeaf then .error (.exception "Corrupt Merkle Tree")
          else if l.key ≠ key then .ok none
          else getOneLoop cfg s key fuel (nodes ++ [l.data]) true (depth + 1)
        | .data d =>
          if !foundLeaf then .error (.exception "Corrupt Merkle Tree")
          else match cfg.decode d.value with
            | .error e => .error e
            | .ok value => .ok (some value)

/-- `get_one` (src/merkle_bit.rs:809-873). -/
def getOne (cfg : Config N σ V) (s : σ) (root key : Arr N) : Res (Option V) :=
  getOneLoop cfg s key (cfg.depth + 2) [root] false 0

/-- The loop of `generate_inclusion_proof` (src/merkle_bit.rs:675-739). -/
def proofLoop (cfg : Config N σ V) (s : σ) (key : Arr N) :
    Nat → List (Arr N) → List (Arr N × Bool) → Bool → Nat → Res (List (Arr N × Bool))
  | _, [], proof, _, _ => .ok proof
  | 0, _ :: _, _, _, _ => .error .outOfFuel
  | fuel + 1, location :: nodes, proof, foundLeaf, depth =>
    if depth > cfg.depth then .error (.exception "Depth limit exceeded")
    else match cfg.db.getNode s location with
      | .error e => .error e
      | .ok none => .error (.exception "Failed to find node")
      | .ok (some node) =>
        match node.variant with
        | .branch b =>
          if foundLeaf then .error (.exception "Corrupt Merkle Tree")
          else match calcMinSplitIndex [key] b.key with
            | .error e => .error e
            | .ok minSplitIndex =>
              match checkDescendants [key] b.splitIndex b.key minSplitIndex with
              | .error e => .error e
              | .ok descendants =>
                if descendants.isEmpty then .error (.exception "Key not found in tree")
                else match chooseZero key b.splitIndex with
                  | .error e => .error e
                  | .ok true =>
                    proofLoop cfg s key fuel (nodes ++ [b.zero]) (proof ++ [(b.one, true)])
                      foundLeaf (depth + 1)
                  | .ok false =>
                    proofLoop cfg s key fuel (nodes ++ [b.one]) (proof ++ [(b.zero, false)])
                      foundLeaf (depth + 1)
        | .leaf l =>
          if foundLeaf then .error (.exception "Corrupt Merkle Tree")
          else if l.key ≠ key then .error (.exception "Key not found in tree")
          else
            let leafNodeLocation :=
              cfg.hasher.hash3 location.bytes.length tagL l.key.bytes l.data.bytes
            proofLoop cfg s key fuel (nodes ++ [l.data]) (proof ++ [(leafNodeLocation, false)])
              true (depth + 1)
        | .data d =>
          if !foundLeaf then .error (.exception "Corrupt Merkle Tree")
          else
            let dataNodeLocation :=
              cfg.hasher.hash3 location.bytes.length tagD key.bytes d.value
            proofLoop cfg s key fuel nodes (proof ++ [(dataNodeLocation, false)])
              foundLeaf (depth + 1)

/-- `generate_inclusion_proof` after the reservations (src/merkle_bit.rs:673-744). -/
def inclusionProof (cfg : Config N σ V) (s : σ) (root key : Arr N) :
    Res (List (Arr N × Bool)) :=
  match proofLoop cfg s key (cfg.depth + 2) [root] [] false 0 with
  | .error e => .error e
  | .ok proof => .ok proof.reverse

/-- `generate_inclusion_proof` (src/merkle_bit.rs:663-744): room for `depth` locations and for `depth`
proof entries (a location and a flag) is reserved first (lines 668 and 671).  The other reservations of
the code are for a constant number of elements or as many as the caller passed. -/
def generateInclusionProof (cfg : Config N σ V) (s : σ) (root key : Arr N) :
    Res (List (Arr N × Bool)) :=
  match withCapacity cfg.depth N with
  | .error e => .error e
  | .ok () =>
    match withCapacity cfg.depth (N + 1) with
    | .error e => .error e
    | .ok () => inclusionProof cfg s root key

/-- The loop of `verify_inclusion_proof` over the entries after the second
(src/merkle_bit.rs:784-796). -/
def foldProof (H : Hasher N) (keyLen : Nat) : Arr N → List (Arr N × Bool) → Arr N
  | currentHash, [] => currentHash
  | currentHash, (h, true) :: rest =>
    foldProof H keyLen (H.hash3 keyLen tagB currentHash.bytes h.bytes) rest
  | currentHash, (h, false) :: rest =>
    foldProof H keyLen (H.hash3 keyLen tagB h.bytes currentHash.bytes) rest

/-- `verify_inclusion_proof` (src/merkle_bit.rs:750-803). -/
def verifyInclusionProof (H : Hasher N) (encode : V → Res (List UInt8)) (root key : Arr N)
    (value : V) (proof : List (Arr N × Bool)) : Res Unit :=
  match proof with
  | p0 :: p1 :: rest =>
    let keyLen := root.bytes.length
    match encode value with
    | .error e => .error e
    | .ok bytes =>
      let dataHash := H.hash3 keyLen tagD key.bytes bytes
      if dataHash ≠ p0.1 then .error (.exception "Proof is invalid")
      else
        let leafHash := H.hash3 keyLen tagL key.bytes dataHash.bytes
        if leafHash ≠ p1.1 then .error (.exception "Proof is invalid")
        else if root ≠ foldProof H keyLen leafHash rest then
          .error (.exception "Proof is invalid")
        else .ok ()
  | _ => .error (.exception "Proof is too short to be valid")

/-! ## Writing -/

/-- `self.db.get_node(location)?` inside a `&mut self` method. -/
def dbGet (cfg : Config N σ V) (location : Arr N) : M σ (Option (Node N)) :=
  M.read (fun s => cfg.db.getNode s location)

/-- `insert_leaf` (src/merkle_bit.rs:351-361). -/
def insertLeaf (cfg : Config N σ V) (location : Arr N) : M σ Unit := do
  match ← dbGet cfg location with
  | some l => cfg.db.insert location ⟨l.references + 1, l.variant⟩
  | none => M.throw (.exception "Corrupt merkle tree: Failed to update leaf references")

/-- `SplitNodeType` (src/merkle_bit.rs:914-919). -/
inductive SplitNodeType (N : Nat) where
  | ref (r : TreeRef N)
  | cell (c : TreeCell N)

/-- `split_nodes` (src/merkle_bit.rs:367-411). -/
def splitNodes (cfg : Config N σ V) (depth : Nat) (branch : Arr N) (nodeList : List (Arr N)) :
    M σ (SplitNodeType N) := do
  match ← dbGet cfg branch with
  | some node =>
    if nodeList.isEmpty then
      match node.variant with
      | .branch b => do
        cfg.db.insert branch ⟨node.references + 1, .branch b⟩
        pure (.ref ⟨b.key, branch, b.count, 1⟩)
      | .leaf l => do
        cfg.db.insert branch ⟨node.references + 1, .leaf l⟩
        pure (.ref ⟨l.key, branch, 1, 1⟩)
      | .data _ =>
        M.throw (.exception "Corrupt merkle tree: Found data node while traversing tree")
    else pure (.cell ⟨branch, nodeList, node, depth + 1⟩)
  | none => M.throw (.exception "Failed to find node in database.")

/-- `proof_nodes.push(..)` or `cell_queue.push_front(..)` (src/merkle_bit.rs:334-337, 340-343). -/
def pushSplit (proofNodes : List (TreeRef N)) (queue : List (TreeCell N)) :
    SplitNodeType N → List (TreeRef N) × List (TreeCell N)
  | .ref r => (proofNodes ++ [r], queue)
  | .cell c => (proofNodes, c :: queue)

/-- `traverse_tree` (src/merkle_bit.rs:252-348); returns the final `proof_nodes`. -/
def traverseTree (cfg : Config N σ V) (keyMap : AMap (Arr N) (Arr N)) :
    Nat → List (TreeRef N) → List (TreeCell N) → M σ (List (TreeRef N))
  | _, proofNodes, [] => pure proofNodes
  | 0, _, _ :: _ => M.throw .outOfFuel
  | fuel + 1, proofNodes, cell :: queue =>
    if cell.depth > cfg.depth then M.throw (.exception "Depth of merkle tree exceeded")
    else match cell.node.variant with
      | .leaf n =>
        match keyMap.get? n.key with
        | some loc =>
          if loc = cell.location then do
            insertLeaf cfg cell.location
            traverseTree cfg keyMap fuel proofNodes queue
          else traverseTree cfg keyMap fuel proofNodes queue
        | none => do
          insertLeaf cfg cell.location
          traverseTree cfg keyMap fuel (proofNodes ++ [⟨n.key, cell.location, 1, 1⟩]) queue
      | .data _ =>
        M.throw (.exception "Corrupt merkle tree: Found data node while traversing tree")
      | .branch b => do
        let minSplitIndex ← M.lift (calcMinSplitIndex cell.keys b.key)
        let descendants ← M.lift (if minSplitIndex < b.splitIndex then
            checkDescendants cell.keys b.splitIndex b.key minSplitIndex
          else .ok cell.keys)
        if minSplitIndex < b.splitIndex ∧ descendants.isEmpty then do
          cfg.db.insert cell.location ⟨cell.node.references + 1, .branch b⟩
          traverseTree cfg keyMap fuel
            (proofNodes ++ [⟨b.key, cell.location, b.count, 1⟩]) queue
        else do
          let (zeros, ones) ← M.lift (splitPairs cfg.pp descendants b.splitIndex)
          let one ← splitNodes cfg cell.depth b.one ones
          let st1 := pushSplit proofNodes queue one
          let zero ← splitNodes cfg cell.depth b.zero zeros
          let st2 := pushSplit st1.1 st1.2 zero
          traverseTree cfg keyMap fuel st2.1 st2.2

/-- `generate_treerefs` (src/merkle_bit.rs:227-249). -/
def generateTreerefs (cfg : Config N σ V) (root : Arr N) (keys : List (Arr N))
    (keyMap : AMap (Arr N) (Arr N)) : M σ (List (TreeRef N)) := do
  match ← dbGet cfg root with
  | some rootNode =>
    traverseTree cfg keyMap (traversalFuel cfg keys.length) [] [⟨root, keys, rootNode, 0⟩]
  | none => M.throw (.exception "Could not find root")

/-- `n.get_references() + 1` of an existing node, or 1 (src/merkle_bit.rs:434, 448, 450-458). -/
def nextRefs : Option (Node N) → Nat
  | some n => n.references + 1
  | none => 1

/-- `insert_leaves` (src/merkle_bit.rs:415-466).  `values[k]` panics on a missing key. -/
def insertLeaves (cfg : Config N σ V) (values : AMap (Arr N) V) :
    List (Arr N) → M σ (List (Arr N))
  | [] => pure []
  | k :: ks => do
    let value ← M.lift (match values.get? k with
      | some v => cfg.encode v
      | none => .error (.panic "HashMap index: key not found"))
    let dataLocation := cfg.hasher.hash3 k.bytes.length tagD k.bytes value
    let leafLocation := cfg.hasher.hash3 k.bytes.length tagL k.bytes dataLocation.bytes
    let oldData ← dbGet cfg dataLocation
    let oldLeaf ← dbGet cfg leafLocation
    cfg.db.insert dataLocation ⟨nextRefs oldData, .data ⟨value⟩⟩
    cfg.db.insert leafLocation ⟨nextRefs oldLeaf, .leaf ⟨k, dataLocation⟩⟩
    let rest ← insertLeaves cfg values ks
    pure (leafLocation :: rest)

/-- `tree_refs[i]`, panicking when out of range. -/
def refAt (refs : List (TreeRef N)) (i : Nat) : Res (TreeRef N) :=
  match refs[i]? with
  | some r => .ok r
  | none => .error (.panic "index out of bounds")

/-- The `while lookahead_count > count_` loop (src/merkle_bit.rs:544-550), entered with `count_`;
returns `(lookahead_tree_ref_pointer, lookahead_count)`. -/
def lookaheadLoop (refs : List (TreeRef N)) (treeRefPointer : Nat) : Nat → Nat → Res (Nat × Nat)
  | 0, _ => .error .outOfFuel
  | fuel + 1, count =>
    let pointer := treeRefPointer + count
    match refAt refs pointer with
    | .error e => .error e
    | .ok r =>
      if r.count > count then lookaheadLoop refs treeRefPointer fuel r.count
      else .ok (pointer, r.count)

/-- `(lookahead_tree_ref_pointer, lookahead_count)` (src/merkle_bit.rs:537-555). -/
def lookahead (refs : List (TreeRef N)) (treeRefPointer nextTreeRefPointer : Nat) :
    Res (Nat × Nat) :=
  match refAt refs nextTreeRefPointer with
  | .error e => .error e
  | .ok next =>
    if next.count > 1 then lookaheadLoop refs treeRefPointer (refs.length + 1) next.count
    else .ok (nextTreeRefPointer, next.count)

/-- The updates of `tree_refs` after a merge (src/merkle_bit.rs:579-586). -/
def updateRefs (refs : List (TreeRef N)) (treeRefPointer lookaheadPointer : Nat)
    (newRef : TreeRef N) : List (TreeRef N) :=
  (refs.set lookaheadPointer newRef).set treeRefPointer newRef

/-- The loop of `merge_nodes` (src/merkle_bit.rs:529-589): the final `tree_refs` and `root`. -/
def mergeLoop (cfg : Config N σ V) :
    List QueueItem → List (TreeRef N) → Arr N → M σ (List (TreeRef N) × Arr N)
  | [], refs, root => pure (refs, root)
  | (splitIndex, treeRefPointer, nextTreeRefPointer) :: level, refs, root => do
    let treeRef ← M.lift (refAt refs treeRefPointer)
    let (lookaheadPointer, lookaheadCount) ←
      M.lift (lookahead refs treeRefPointer nextTreeRefPointer)
    let next ← M.lift (refAt refs lookaheadPointer)
    let count := treeRef.nodeCount + next.nodeCount
    let branchLocation :=
      cfg.hasher.hash3 root.bytes.length tagB treeRef.location.bytes next.location.bytes
    cfg.db.insert branchLocation
      ⟨1, .branch ⟨count, treeRef.location, next.location, splitIndex, treeRef.key⟩⟩
    let newRef : TreeRef N :=
      ⟨treeRef.key, branchLocation, count, lookaheadCount + treeRef.count⟩
    mergeLoop cfg level (updateRefs refs treeRefPointer lookaheadPointer newRef) branchLocation

/-- `merge_nodes` (src/merkle_bit.rs:520-592): the final `tree_refs` and the returned root. -/
def mergeNodes (cfg : Config N σ V) (refs : List (TreeRef N)) (level : List QueueItem) :
    M σ (List (TreeRef N) × Arr N) := do
  let r ← mergeLoop cfg level refs (Arr.zero N)
  cfg.db.batchWrite
  pure r

/-- The loop over the levels in `create_tree` (src/merkle_bit.rs:492-499). -/
def levelsLoop (cfg : Config N σ V) :
    List Nat → AMap Nat (List QueueItem) → List (TreeRef N) → Option (Arr N) →
      M σ (Option (Arr N))
  | [], _, _, root => pure root
  | i :: indices, q, refs, _ =>
    match q.get? i with
    | some level => do
      let (refs', root) ← mergeNodes cfg refs level
      levelsLoop cfg indices (q.erase i) refs' (some root)
    | none => M.throw (.exception "Level should not be empty.")

/-- The split indices in the order they are processed: `sort_unstable` then `rev`
(src/merkle_bit.rs:489-493). -/
def sortIndices (bits : List Nat) : List Nat := (bits.insertionSort (· ≤ ·)).reverse

/-- `create_tree` (src/merkle_bit.rs:473-501). -/
def createTree (cfg : Config N σ V) (treeRefs : List (TreeRef N)) : M σ (Arr N) :=
  match treeRefs with
  | [] => M.throw (.exception "tree_refs should not be empty!")
  | [node] => do
    cfg.db.batchWrite
    pure node.location
  | _ => do
    let refs := sortRefs treeRefs
    let (q, bits) ← M.lift (generateTreeRefQueue refs)
    match ← levelsLoop cfg (sortIndices bits) q refs none with
    | some root => pure root
    | none => M.throw (.exception "Failed to get root.")

/-- `value_map` (src/merkle_bit.rs:198-201): later pairs override earlier ones. -/
def valueMap (keys : List (Arr N)) (values : List V) : AMap (Arr N) V :=
  (keys.zip values).foldl (fun m kv => m.insert kv.1 kv.2) AMap.empty

/-- `key_map` (src/merkle_bit.rs:208-210). -/
def keyMapOf (keys locations : List (Arr N)) : AMap (Arr N) (Arr N) :=
  (locations.zip keys).foldl (fun m lk => m.insert lk.2 lk.1) AMap.empty

/-- `tree_refs` of the inserted leaves (src/merkle_bit.rs:207-213). -/
def leafRefs (keys locations : List (Arr N)) : List (TreeRef N) :=
  (locations.zip keys).map (fun lk => ⟨lk.2, lk.1, 1, 1⟩)

/-- `insert` (src/merkle_bit.rs:184-222). -/
def insert (cfg : Config N σ V) (previousRoot : Option (Arr N)) (keys : List (Arr N))
    (values : List V) : M σ (Arr N) :=
  if keys.length ≠ values.length then
    M.throw (.exception "Keys and values have different lengths")
  else if keys.isEmpty || values.isEmpty then
    M.throw (.exception "Keys or values are empty")
  else do
    let sorted := sortKeys keys
    let nodes ← insertLeaves cfg (valueMap keys values) sorted
    let treeRefs := leafRefs sorted nodes
    let proofNodes ← match previousRoot with
      | some root => generateTreerefs cfg root sorted (keyMapOf sorted nodes)
      | none => pure []
    createTree cfg (treeRefs ++ proofNodes)

/-- `insert_one` (src/merkle_bit.rs:879-904). -/
def insertOne (cfg : Config N σ V) (previousRoot : Option (Arr N)) (key : Arr N) (value : V) :
    M σ (Arr N) := do
  let nodes ← insertLeaves cfg (AMap.empty.insert key value) [key]
  match nodes with
  | [] => M.throw (.panic "index out of bounds")
  | leafLocation :: _ =>
    let keyMap := AMap.empty.insert key leafLocation
    let treeRefs : List (TreeRef N) := [⟨key, leafLocation, 1, 1⟩]
    let proofNodes ← match previousRoot with
      | some root => generateTreerefs cfg root [key] keyMap
      | none => pure []
    createTree cfg (treeRefs ++ proofNodes)

/-- The loop of `remove` (src/merkle_bit.rs:602-652); the front of the `VecDeque` is the head. -/
def removeLoop (cfg : Config N σ V) : Nat → List (Arr N) → M σ Unit
  | _, [] => pure ()
  | 0, _ :: _ => M.throw .outOfFuel
  | fuel + 1, location :: nodes => do
    match ← dbGet cfg location with
    | none => removeLoop cfg fuel nodes
    | some node =>
      let refs := node.references - 1
      if refs = 0 then
        match node.variant with
        | .branch b => do
          cfg.db.remove location
          removeLoop cfg fuel (nodes ++ [b.zero, b.one])
        | .leaf l => do
          cfg.db.remove location
          removeLoop cfg fuel (nodes ++ [l.data])
        | .data _ => do
          cfg.db.remove location
          removeLoop cfg fuel nodes
      else do
        cfg.db.insert location ⟨refs, node.variant⟩
        removeLoop cfg fuel nodes

/-- Loop iterations that suffice for `remove`: a database holds at most `256 ^ N` nodes. -/
def removeFuel (N : Nat) : Nat := 2 * 256 ^ N + 1

/-- `remove` (src/merkle_bit.rs:598-656). -/
def remove (cfg : Config N σ V) (rootHash : Arr N) : M σ Unit := do
  removeLoop cfg (removeFuel N) [rootHash]
  cfg.db.batchWrite

end MerkleBit
