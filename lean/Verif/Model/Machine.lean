import Verif.Model.MerkleBit
/-!
# src/merkle_bit.rs with counters of the machine's width

The functions of `Model/MerkleBit.lean` that add counters, with the additions as the machine does them.
Reference counts and leaf counts are `u64`, the counts of tree references are `u32`
(src/utils/tree_ref.rs:17), depths and positions are `usize`; `usize` is taken to be 64 bits wide, so that
`usize::try_from(count_)?` never fails (src/merkle_bit.rs:544, 548).  The only other operation on counters is the `saturating_sub` of
`remove` (src/merkle_bit.rs:617), which is the subtraction of `Model/MerkleBit.lean`.
-/

namespace MerkleBit
variable {N : Nat} {σ V : Type}

/-- `a + b` on `u64` and `usize` (`add`) and on `u32` (`add32`): what is computed when the sum fits is the
sum. -/
structure Arith where
  add : Nat → Nat → Res Nat
  add32 : Nat → Nat → Res Nat
  exact : ∀ {a b : Nat}, a + b < 2 ^ 64 → add a b = .ok (a + b)
  exact32 : ∀ {a b : Nat}, a + b < 2 ^ 32 → add32 a b = .ok (a + b)

/-- A build with overflow checks (the default of debug builds): a sum that does not fit is a panic. -/
def Arith.checked : Arith where
  add a b := if a + b < 2 ^ 64 then .ok (a + b) else .error (.panic "attempt to add with overflow")
  add32 a b := if a + b < 2 ^ 32 then .ok (a + b) else .error (.panic "attempt to add with overflow")
  exact h := if_pos h
  exact32 h := if_pos h

/-- A build without overflow checks (the default of release builds): sums are taken modulo `2 ^ 64` and
`2 ^ 32`. -/
def Arith.wrapping : Arith where
  add a b := .ok ((a + b) % 2 ^ 64)
  add32 a b := .ok ((a + b) % 2 ^ 32)
  exact h := by rw [Nat.mod_eq_of_lt h]
  exact32 h := by rw [Nat.mod_eq_of_lt h]

/-- Sums that never overflow: the program of `Model/MerkleBit.lean` (`C71_unbounded`). -/
def Arith.unbounded : Arith where
  add a b := .ok (a + b)
  add32 a b := .ok (a + b)
  exact _ := rfl
  exact32 _ := rfl

namespace Machine
variable (A : Arith)

/-! ## Reading -/

/-- `push_cell_if_node` (src/merkle_bit.rs:159-178), `depth + 1` at line 172. -/
def pushCellIfNode (cfg : Config N σ V) (s : σ) (queue : List (TreeCell N)) (depth : Nat)
    (location : Arr N) (locations : List (Arr N)) : Res (List (TreeCell N)) :=
  match cfg.db.getNode s location with
  | .error e => .error e
  | .ok (some node) =>
    if !locations.isEmpty then
      match A.add depth 1 with
      | .error e => .error e
      | .ok d => .ok (⟨location, locations, node, d⟩ :: queue)
    else .ok queue
  | .ok none => .ok queue

/-- The loop of `get` (src/merkle_bit.rs:103-153). -/
def getLoop (cfg : Config N σ V) (s : σ) (keys : List (Arr N)) :
    Nat → List (TreeCell N) → AMap (Arr N) (Option V) → Res (AMap (Arr N) (Option V))
  | _, [], leafMap => .ok leafMap
  | 0, _ :: _, _ => .error .outOfFuel
  | fuel + 1, cell :: queue, leafMap =>
    if cell.depth > cfg.depth then .error (.exception "Depth of merkle tree exceeded")
    else match cell.node.variant with
      | .branch b =>
        match calcMinSplitIndex cell.keys b.key with
        | .error e => .error e
        | .ok minSplitIndex =>
          match checkDescendants cell.keys b.splitIndex b.key minSplitIndex with
          | .error e => .error e
          | .ok descendants =>
            if descendants.isEmpty then getLoop cfg s keys fuel queue leafMap
            else match splitPairs cfg.pp descendants b.splitIndex with
              | .error e => .error e
              | .ok (zeros, ones) =>
                match pushCellIfNode A cfg s queue cell.depth b.one ones with
                | .error e => .error e
                | .ok queue1 =>
                  match pushCellIfNode A cfg s queue1 cell.depth b.zero zeros with
                  | .error e => .error e
                  | .ok queue2 => getLoop cfg s keys fuel queue2 leafMap
      | .leaf n =>
        match cfg.db.getNode s n.data with
        | .error e => .error e
        | .ok (some d) =>
          match d.variant with
          | .data data =>
            match cfg.decode data.value with
            | .error e => .error e
            | .ok value =>
              if n.key ∈ keys then getLoop cfg s keys fuel queue (leafMap.insert n.key (some value))
              else getLoop cfg s keys fuel queue leafMap
          | _ => .error (.exception "Corrupt merkle tree: Found non data node after leaf")
        | .ok none => .error (.exception "Corrupt merkle tree: Failed to get leaf node from DB")
      | .data _ =>
        .error (.exception "Corrupt merkle tree: Found data node while traversing tree")

/-- `get` (src/merkle_bit.rs:77-156). -/
def get (cfg : Config N σ V) (s : σ) (rootHash : Arr N) (keys : List (Arr N)) :
    Res (AMap (Arr N) (Option V)) :=
  if keys.isEmpty then .ok AMap.empty
  else
    let leafMap := generateLeafMap keys
    let sorted := sortKeys keys
    match cfg.db.getNode s rootHash with
    | .error e => .error e
    | .ok none => .ok leafMap
    | .ok (some rootNode) =>
      getLoop A cfg s sorted (traversalFuel cfg keys.length) [⟨rootHash, sorted, rootNode, 0⟩] leafMap

/-- The loop of `get_one` (src/merkle_bit.rs:820-871), `depth += 1` at line 824. -/
def getOneLoop (cfg : Config N σ V) (s : σ) (key : Arr N) :
    Nat → List (Arr N) → Bool → Nat → Res (Option V)
  | _, [], _, _ => .ok none
  | 0, _ :: _, _, _ => .error .outOfFuel
  | fuel + 1, location :: nodes, foundLeaf, depth =>
    if depth > cfg.depth then .error (.exception "Depth limit exceeded")
    else match A.add depth 1 with
    | .error e => .error e
    | .ok depth' =>
      match cfg.db.getNode s location with
      | .error e => .error e
      | .ok none => getOneLoop cfg s key fuel nodes foundLeaf depth'
      | .ok (some node) =>
        match node.variant with
        | .branch b =>
          if foundLeaf then .error (.exception "Corrupt Merkle Tree")
          else match calcMinSplitIndex [key] b.key with
            | .error e => .error e
            | .ok minSplitIndex =>
              match checkDescendants [key] b.splitIndex b.key minSplitIndex with
              | .error e => .error e
              | .ok descendants =>
                if descendants.isEmpty then .ok none
                else match chooseZero key b.splitIndex with
                  | .error e => .error e
                  | .ok true => getOneLoop cfg s key fuel (nodes ++ [b.zero]) foundLeaf depth'
                  | .ok false => getOneLoop cfg s key fuel (nodes ++ [b.one]) foundLeaf depth'
        | .leaf l =>
          if foundLeaf then .error (.exception "Corrupt Merkle Tree")
          else if l.key ≠ key then .ok none
          else getOneLoop cfg s key fuel (nodes ++ [l.data]) true depth'
        | .data d =>
          if !foundLeaf then .error (.exception "Corrupt Merkle Tree")
          else match cfg.decode d.value with
            | .error e => .error e
            | .ok value => .ok (some value)

/-- `get_one` (src/merkle_bit.rs:809-873). -/
def getOne (cfg : Config N σ V) (s : σ) (root key : Arr N) : Res (Option V) :=
  getOneLoop A cfg s key (cfg.depth + 2) [root] false 0

/-- The loop of `generate_inclusion_proof` (src/merkle_bit.rs:675-739), `depth += 1` at line 679. -/
def proofLoop (cfg : Config N σ V) (s : σ) (key : Arr N) :
    Nat → List (Arr N) → List (Arr N × Bool) → Bool → Nat → Res (List (Arr N × Bool))
  | _, [], proof, _, _ => .ok proof
  | 0, _ :: _, _, _, _ => .error .outOfFuel
  | fuel + 1, location :: nodes, proof, foundLeaf, depth =>
    if depth > cfg.depth then .error (.exception "Depth limit exceeded")
    else match A.add depth 1 with
    | .error e => .error e
    | .ok depth' =>
      match cfg.db.getNode s location with
      | .error e => .error e
      | .ok none => .error (.exception "Failed to find node")
      | .ok (some node) =>
        match node.variant with
        | .branch b =>
          if foundLeaf then .error (.exception "Corrupt Merkle Tree")
          else match calcMinSplitIndex [key] b.key with
            | .error e => .error e
            | .ok minSplitIndex =>
              match checkDescendants [key] b.splitIndex b.key minSplitIndex with
              | .error e => .error e
              | .ok descendants =>
                if descendants.isEmpty then .error (.exception "Key not found in tree")
                else match chooseZero key b.splitIndex with
                  | .error e => .error e
                  | .ok true =>
                    proofLoop cfg s key fuel (nodes ++ [b.zero]) (proof ++ [(b.one, true)])
                      foundLeaf depth'
                  | .ok false =>
                    proofLoop cfg s key fuel (nodes ++ [b.one]) (proof ++ [(b.zero, false)])
                      foundLeaf depth'
        | .leaf l =>
          if foundLeaf then .error (.exception "Corrupt Merkle Tree")
          else if l.key ≠ key then .error (.exception "Key not found in tree")
          else
            let leafNodeLocation :=
              cfg.hasher.hash3 location.bytes.length tagL l.key.bytes l.data.bytes
            proofLoop cfg s key fuel (nodes ++ [l.data]) (proof ++ [(leafNodeLocation, false)])
              true depth'
        | .data d =>
          if !foundLeaf then .error (.exception "Corrupt Merkle Tree")
          else
            let dataNodeLocation :=
              cfg.hasher.hash3 location.bytes.length tagD key.bytes d.value
            proofLoop cfg s key fuel nodes (proof ++ [(dataNodeLocation, false)])
              foundLeaf depth'

/-- `generate_inclusion_proof` (src/merkle_bit.rs:663-744). -/
def generateInclusionProof (cfg : Config N σ V) (s : σ) (root key : Arr N) :
    Res (List (Arr N × Bool)) :=
  match withCapacity cfg.depth N with
  | .error e => .error e
  | .ok () =>
    match withCapacity cfg.depth (N + 1) with
    | .error e => .error e
    | .ok () =>
      match proofLoop A cfg s key (cfg.depth + 2) [root] [] false 0 with
      | .error e => .error e
      | .ok proof => .ok proof.reverse

/-! ## Writing -/

/-- `insert_leaf` (src/merkle_bit.rs:351-361), `get_references() + 1` at line 353. -/
def insertLeaf (cfg : Config N σ V) (location : Arr N) : M σ Unit := do
  match ← dbGet cfg location with
  | some l =>
    let refs ← M.lift (A.add l.references 1)
    cfg.db.insert location ⟨refs, l.variant⟩
  | none => M.throw (.exception "Corrupt merkle tree: Failed to update leaf references")

/-- `split_nodes` (src/merkle_bit.rs:367-411), `get_references() + 1` at line 377 before the variant is
looked at, `depth + 1` at line 405. -/
def splitNodes (cfg : Config N σ V) (depth : Nat) (branch : Arr N) (nodeList : List (Arr N)) :
    M σ (SplitNodeType N) := do
  match ← dbGet cfg branch with
  | some node =>
    if nodeList.isEmpty then do
      let refs ← M.lift (A.add node.references 1)
      match node.variant with
      | .branch b => do
        cfg.db.insert branch ⟨refs, .branch b⟩
        pure (.ref ⟨b.key, branch, b.count, 1⟩)
      | .leaf l => do
        cfg.db.insert branch ⟨refs, .leaf l⟩
        pure (.ref ⟨l.key, branch, 1, 1⟩)
      | .data _ =>
        M.throw (.exception "Corrupt merkle tree: Found data node while traversing tree")
    else do
      let d ← M.lift (A.add depth 1)
      pure (.cell ⟨branch, nodeList, node, d⟩)
  | none => M.throw (.exception "Failed to find node in database.")

/-- `traverse_tree` (src/merkle_bit.rs:252-348), `refs += 1` at line 323. -/
def traverseTree (cfg : Config N σ V) (keyMap : AMap (Arr N) (Arr N)) :
    Nat → List (TreeRef N) → List (TreeCell N) → M σ (List (TreeRef N))
  | _, proofNodes, [] => pure proofNodes
  | 0, _, _ :: _ => M.throw .outOfFuel
  | fuel + 1, proofNodes, cell :: queue =>
    if cell.depth > cfg.depth then M.throw (.exception "Depth of merkle tree exceeded")
    else match cell.node.variant with
      | .leaf n =>
        match keyMap.get? n.key with
        | some loc =>
          if loc = cell.location then do
            insertLeaf A cfg cell.location
            traverseTree cfg keyMap fuel proofNodes queue
          else traverseTree cfg keyMap fuel proofNodes queue
        | none => do
          insertLeaf A cfg cell.location
          traverseTree cfg keyMap fuel (proofNodes ++ [⟨n.key, cell.location, 1, 1⟩]) queue
      | .data _ =>
        M.throw (.exception "Corrupt merkle tree: Found data node while traversing tree")
      | .branch b => do
        let minSplitIndex ← M.lift (calcMinSplitIndex cell.keys b.key)
        let descendants ← M.lift (if minSplitIndex < b.splitIndex then
            checkDescendants cell.keys b.splitIndex b.key minSplitIndex
          else .ok cell.keys)
        if minSplitIndex < b.splitIndex ∧ descendants.isEmpty then do
          let refs ← M.lift (A.add cell.node.references 1)
          cfg.db.insert cell.location ⟨refs, .branch b⟩
          traverseTree cfg keyMap fuel
            (proofNodes ++ [⟨b.key, cell.location, b.count, 1⟩]) queue
        else do
          let (zeros, ones) ← M.lift (splitPairs cfg.pp descendants b.splitIndex)
          let one ← splitNodes A cfg cell.depth b.one ones
          let st1 := pushSplit proofNodes queue one
          let zero ← splitNodes A cfg cell.depth b.zero zeros
          let st2 := pushSplit st1.1 st1.2 zero
          traverseTree cfg keyMap fuel st2.1 st2.2

/-- `generate_treerefs` (src/merkle_bit.rs:227-249). -/
def generateTreerefs (cfg : Config N σ V) (root : Arr N) (keys : List (Arr N))
    (keyMap : AMap (Arr N) (Arr N)) : M σ (List (TreeRef N)) := do
  match ← dbGet cfg root with
  | some rootNode =>
    traverseTree A cfg keyMap (traversalFuel cfg keys.length) [] [⟨root, keys, rootNode, 0⟩]
  | none => M.throw (.exception "Could not find root")

/-- `get_references() + 1` of an existing node, or 1 (src/merkle_bit.rs:434, 448, 450-458). -/
def nextRefs : Option (Node N) → Res Nat
  | some n => A.add n.references 1
  | none => .ok 1

/-- `insert_leaves` (src/merkle_bit.rs:415-466).  The sum for the data node (line 451) is taken before the
leaf is read, the one for the leaf (line 456) before anything is written. -/
def insertLeaves (cfg : Config N σ V) (values : AMap (Arr N) V) :
    List (Arr N) → M σ (List (Arr N))
  | [] => pure []
  | k :: ks => do
    let value ← M.lift (match values.get? k with
      | some v => cfg.encode v
      | none => .error (.panic "HashMap index: key not found"))
    let dataLocation := cfg.hasher.hash3 k.bytes.length tagD k.bytes value
    let leafLocation := cfg.hasher.hash3 k.bytes.length tagL k.bytes dataLocation.bytes
    let oldData ← dbGet cfg dataLocation
    let dataRefs ← M.lift (nextRefs A oldData)
    let oldLeaf ← dbGet cfg leafLocation
    let leafRefs ← M.lift (nextRefs A oldLeaf)
    cfg.db.insert dataLocation ⟨dataRefs, .data ⟨value⟩⟩
    cfg.db.insert leafLocation ⟨leafRefs, .leaf ⟨k, dataLocation⟩⟩
    let rest ← insertLeaves cfg values ks
    pure (leafLocation :: rest)

/-- The `while lookahead_count > count_` loop (src/merkle_bit.rs:544-550), sums at lines 544 and 548. -/
def lookaheadLoop (refs : List (TreeRef N)) (treeRefPointer : Nat) : Nat → Nat → Res (Nat × Nat)
  | 0, _ => .error .outOfFuel
  | fuel + 1, count =>
    match A.add treeRefPointer count with
    | .error e => .error e
    | .ok pointer =>
      match refAt refs pointer with
      | .error e => .error e
      | .ok r =>
        if r.count > count then lookaheadLoop refs treeRefPointer fuel r.count
        else .ok (pointer, r.count)

/-- `(lookahead_tree_ref_pointer, lookahead_count)` (src/merkle_bit.rs:537-555). -/
def lookahead (refs : List (TreeRef N)) (treeRefPointer nextTreeRefPointer : Nat) :
    Res (Nat × Nat) :=
  match refAt refs nextTreeRefPointer with
  | .error e => .error e
  | .ok next =>
    if next.count > 1 then lookaheadLoop A refs treeRefPointer (refs.length + 1) next.count
    else .ok (nextTreeRefPointer, next.count)

/-- The loop of `merge_nodes` (src/merkle_bit.rs:529-589), sums at lines 558 (`u64`) and 583 (`u32`);
the second one is taken after the branch is written. -/
def mergeLoop (cfg : Config N σ V) :
    List QueueItem → List (TreeRef N) → Arr N → M σ (List (TreeRef N) × Arr N)
  | [], refs, root => pure (refs, root)
  | (splitIndex, treeRefPointer, nextTreeRefPointer) :: level, refs, root => do
    let treeRef ← M.lift (refAt refs treeRefPointer)
    let (lookaheadPointer, lookaheadCount) ←
      M.lift (lookahead A refs treeRefPointer nextTreeRefPointer)
    let next ← M.lift (refAt refs lookaheadPointer)
    let count ← M.lift (A.add treeRef.nodeCount next.nodeCount)
    let branchLocation :=
      cfg.hasher.hash3 root.bytes.length tagB treeRef.location.bytes next.location.bytes
    cfg.db.insert branchLocation
      ⟨1, .branch ⟨count, treeRef.location, next.location, splitIndex, treeRef.key⟩⟩
    let newCount ← M.lift (A.add32 lookaheadCount treeRef.count)
    let newRef : TreeRef N := ⟨treeRef.key, branchLocation, count, newCount⟩
    mergeLoop cfg level (updateRefs refs treeRefPointer lookaheadPointer newRef) branchLocation

/-- `merge_nodes` (src/merkle_bit.rs:520-592). -/
def mergeNodes (cfg : Config N σ V) (refs : List (TreeRef N)) (level : List QueueItem) :
    M σ (List (TreeRef N) × Arr N) := do
  let r ← mergeLoop A cfg level refs (Arr.zero N)
  cfg.db.batchWrite
  pure r

/-- The loop over the levels in `create_tree` (src/merkle_bit.rs:492-499). -/
def levelsLoop (cfg : Config N σ V) :
    List Nat → AMap Nat (List QueueItem) → List (TreeRef N) → Option (Arr N) →
      M σ (Option (Arr N))
  | [], _, _, root => pure root
  | i :: indices, q, refs, _ =>
    match q.get? i with
    | some level => do
      let (refs', root) ← mergeNodes A cfg refs level
      levelsLoop cfg indices (q.erase i) refs' (some root)
    | none => M.throw (.exception "Level should not be empty.")

/-- `create_tree` (src/merkle_bit.rs:473-501). -/
def createTree (cfg : Config N σ V) (treeRefs : List (TreeRef N)) : M σ (Arr N) :=
  match treeRefs with
  | [] => M.throw (.exception "tree_refs should not be empty!")
  | [node] => do
    cfg.db.batchWrite
    pure node.location
  | _ => do
    let refs := sortRefs treeRefs
    let (q, bits) ← M.lift (generateTreeRefQueue refs)
    match ← levelsLoop A cfg (sortIndices bits) q refs none with
    | some root => pure root
    | none => M.throw (.exception "Failed to get root.")

/-- `insert` (src/merkle_bit.rs:184-222). -/
def insert (cfg : Config N σ V) (previousRoot : Option (Arr N)) (keys : List (Arr N))
    (values : List V) : M σ (Arr N) :=
  if keys.length ≠ values.length then
    M.throw (.exception "Keys and values have different lengths")
  else if keys.isEmpty || values.isEmpty then
    M.throw (.exception "Keys or values are empty")
  else do
    let sorted := sortKeys keys
    let nodes ← insertLeaves A cfg (valueMap keys values) sorted
    let treeRefs := leafRefs sorted nodes
    let proofNodes ← match previousRoot with
      | some root => generateTreerefs A cfg root sorted (keyMapOf sorted nodes)
      | none => pure []
    createTree A cfg (treeRefs ++ proofNodes)

/-- `insert_one` (src/merkle_bit.rs:879-904). -/
def insertOne (cfg : Config N σ V) (previousRoot : Option (Arr N)) (key : Arr N) (value : V) :
    M σ (Arr N) := do
  let nodes ← insertLeaves A cfg (AMap.empty.insert key value) [key]
  match nodes with
  | [] => M.throw (.panic "index out of bounds")
  | leafLocation :: _ =>
    let keyMap := AMap.empty.insert key leafLocation
    let treeRefs : List (TreeRef N) := [⟨key, leafLocation, 1, 1⟩]
    let proofNodes ← match previousRoot with
      | some root => generateTreerefs A cfg root [key] keyMap
      | none => pure []
    createTree A cfg (treeRefs ++ proofNodes)

end Machine
end MerkleBit
