import Verif.Spec.Opened
import Verif.Spec.History
/-!
# Specification vocabulary: what calls do to reference counts

An `Item` is anything that has a place in the database: a tree, whose place is that of its root node,
or a data node.  `countsOf` reads the reference counts of a database off, 0 for what is not stored.
`GivenUp` and `afterInsert` say what `remove` and `insert` do to them.
-/

namespace MerkleBit
variable {N : Nat} {σ V : Type}

/-- Anything stored: a tree or a data node. -/
inductive Item (N : Nat) where
  | tree (t : Trie N)
  | data (k : Arr N) (v : List UInt8)
deriving DecidableEq

namespace Item

/-- Where an item is stored. -/
def loc (H : Hasher N) : Item N → Arr N
  | tree t => t.loc H
  | data k v => Trie.dataLoc H k v

/-- The items an item points at. -/
def children : Item N → List (Item N)
  | tree (.leaf k v) => [data k v]
  | tree (.node l r) => [tree l, tree r]
  | data _ _ => []

/-- All that is hashed for an item. -/
def inputs (H : Hasher N) : Item N → List (HIn N)
  | tree t => t.inputs H
  | data k v => [.data k v]

/-- The trees of an item have their smaller keys on the left. -/
def Norm : Item N → Prop
  | tree t => t.Norm
  | data _ _ => True

end Item

/-- The reference count of an item, 0 if it is not stored. -/
def countsOf (H : Hasher N) (v : View N) (i : Item N) : Nat :=
  match v (i.loc H) with
  | some n => n.references
  | none => 0

/-- Giving up one reference to the item `q` is one reference less to `i`: `i` is `q` itself, or it is
below `q` and everything from `q` down to it, `i` itself left out, has a count of one. -/
inductive GivenUp (c : Item N → Nat) : Item N → Item N → Prop
  | here {q : Item N} : GivenUp c q q
  | under {q j i : Item N} : c q = 1 → j ∈ q.children → GivenUp c j i → GivenUp c q i

/-- All subtrees of a tree. -/
def Trie.subtrees : Trie N → List (Trie N)
  | .leaf k v => [.leaf k v]
  | .node l r => .node l r :: (l.subtrees ++ r.subtrees)

/-- The subtrees of the previous version that a batch takes over as they are: those it leaves closed,
and the leaves it comes to without replacing them. -/
def takenOver (pp : PartitionPoint N) (keys : List (Arr N)) : Trie N → List (Arr N) → List (Trie N)
  | .leaf k v, D => if D ≠ [] ∧ k ∈ keys then [] else [.leaf k v]
  | .node l r, D =>
      if followers l.key (firstDiff l.key r.key) D = [] then [.node l r] else
        takenOver pp keys l (zeros pp l.key (firstDiff l.key r.key) D) ++
          takenOver pp keys r (ones pp l.key (firstDiff l.key r.key) D)

/-- The subtrees of the previous version whose root nodes a batch looks at: the version itself, and the two
sides of each branch that some key follows. -/
def lookedAt (pp : PartitionPoint N) : Trie N → List (Arr N) → List (Trie N)
  | .leaf k v, _ => [.leaf k v]
  | .node l r, D => .node l r ::
      if followers l.key (firstDiff l.key r.key) D = [] then [] else
        lookedAt pp l (zeros pp l.key (firstDiff l.key r.key) D) ++
          lookedAt pp r (ones pp l.key (firstDiff l.key r.key) D)

/-- The subtrees of the previous version (`none`: nothing) that the batch with these keys takes over. -/
def keptOf (pp : PartitionPoint N) (keys : List (Arr N)) : Option (Trie N) → List (Trie N)
  | none => []
  | some T => takenOver pp (sortKeys keys) T (sortKeys keys)

/-- The counts after a batch of the encoded pairs `es` has been inserted on top of the version `prev`
(`none`: nothing), of which the subtrees `kept` were taken over, where `T'` is the new version.
* The data node of a pair of the batch gets one more reference.
* So does its leaf; but if `prev` has the very same pair, `again` more.
* A subtree taken over gets one more.
* The branches of the new version that are not part of a subtree taken over now have the count 1,
  whatever it was before.
* Nothing else changes. -/
def afterInsert (again : Nat) (prev : Option (Trie N)) (kept : List (Trie N))
    (es : List (Arr N × List UInt8)) (T' : Trie N) (c : Item N → Nat) : Item N → Nat
  | .data k v => if (k, v) ∈ es then c (.data k v) + 1 else c (.data k v)
  | .tree (.leaf k v) =>
      if (k, v) ∈ es then
        c (.tree (.leaf k v)) + (if ∃ T ∈ prev, (k, v) ∈ T.entries then again else 1)
      else if .leaf k v ∈ kept then c (.tree (.leaf k v)) + 1 else c (.tree (.leaf k v))
  | .tree (.node l r) =>
      if .node l r ∈ kept then c (.tree (.node l r)) + 1
      else if .node l r ∈ T'.subtrees ∧ ∀ u ∈ kept, .node l r ∉ u.subtrees then 1
      else c (.tree (.node l r))

/-- What has to be stored for `k` to be read in a tree: the nodes on the way down, the leaf at its end
and the data node of that leaf. -/
def way (k : Arr N) : Trie N → List (Item N)
  | .leaf k' v => [.tree (.leaf k' v), .data k' v]
  | .node l r => .tree (.node l r) ::
      if k.bit (firstDiff l.key r.key) then way k r else way k l

/-- Writes show at once (`shows`), or are queued until the next confirmation. -/
def WritesShow {db : Database N σ} (C : DbContract db) (shows : Bool) : Prop :=
  ∀ s s' x n, db.insert x n s = (.ok (), s') →
    if shows then C.pending s = View.empty N → C.pending s' = View.empty N
    else C.view s' = C.view s

end MerkleBit
