import Verif.Spec.Counts
/-!
# Specification vocabulary: the leaves a request comes to

In a database that has lost nodes, the sorted keys of a request come to a leaf if some of them lead there
(`zeros`, `ones`) and every tree on the way, the leaf included, is still stored.
-/

namespace MerkleBit
variable {N : Nat}

/-- The leaves of a tree, with what is stored in them, that the keys `D` come to when `c` are the reference
counts of trees (0 for what is not stored). -/
def reached (pp : PartitionPoint N) (c : Item N → Nat) : Trie N → List (Arr N) → List (Arr N × List UInt8)
  | .leaf k v, D => if D = [] ∨ c (.tree (.leaf k v)) = 0 then [] else [(k, v)]
  | .node l r, D => if c (.tree (.node l r)) = 0 then [] else
      reached pp c l (zeros pp l.key (firstDiff l.key r.key) D) ++
        reached pp c r (ones pp l.key (firstDiff l.key r.key) D)

end MerkleBit
