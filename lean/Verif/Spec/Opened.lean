import Verif.Spec.Straddle
import Verif.Model.TreeUtils
/-!
# Specification vocabulary: where the keys of a request go

`get` and `insert` carry the sorted keys of a call down the tree.  At a branch they keep those that
seem to belong there (`followers`), cut them in two at the first key whose bit is set (`zeros`,
`ones`), and go on to each side that gets any.  Both steps go astray when the scan stops a byte short
(`MissesLastByte`).  `Opened k` says that this does no harm to `k`: wherever `k` belongs, some key of
the request leads there.
-/

namespace MerkleBit
variable {N : Nat}

/-- How many leading bits all keys of `D` share with `b`. -/
def shared (D : List (Arr N)) (b : Arr N) : Nat := (D.map (fun k => firstDiff k b)).foldr min (8 * N)

instance (m s : Nat) : Decidable (MissesLastByte m s) := by unfold MissesLastByte; infer_instance

/-- How many leading bits of the branch key `b` are really compared with the keys of `D`. -/
def compared (b : Arr N) (s : Nat) (D : List (Arr N)) : Nat :=
  if MissesLastByte (shared D b) s then 8 * ((s - 1) / 8) else s

/-- The keys of `D` that are taken for descendants of the branch with key `b` and split index `s`. -/
def followers (b : Arr N) (s : Nat) (D : List (Arr N)) : List (Arr N) :=
  D.filter (fun k => compared b s D ≤ firstDiff k b)

/-- Where the followers are cut in two: at the end if the last one has bit `s` clear, else at the
start if the first one has it set, else where `partition_point` says. -/
def cut (pp : PartitionPoint N) (s : Nat) (F : List (Arr N)) : Nat :=
  match F.getLast?, F.head? with
  | some last, some first =>
    if last.bit s = false then F.length else if first.bit s = true then 0 else
      pp.run F (fun k => !k.bit s)
  | _, _ => 0

/-- The keys of `D` that go on to the left of the branch. -/
def zeros (pp : PartitionPoint N) (b : Arr N) (s : Nat) (D : List (Arr N)) : List (Arr N) :=
  (followers b s D).take (cut pp s (followers b s D))

/-- The keys of `D` that go on to the right of the branch. -/
def ones (pp : PartitionPoint N) (b : Arr N) (s : Nat) (D : List (Arr N)) : List (Arr N) :=
  (followers b s D).drop (cut pp s (followers b s D))

/-- When the keys `D` come to a tree, every subtree in which `k` belongs is opened: some key has come
to it, and, if it is a branch, some key follows it. -/
def Opened (pp : PartitionPoint N) (k : Arr N) : Trie N → List (Arr N) → Prop
  | .leaf k' _, D => k' = k → D ≠ []
  | .node l r, D => firstDiff l.key r.key ≤ firstDiff k l.key →
      followers l.key (firstDiff l.key r.key) D ≠ [] ∧
        Opened pp k l (zeros pp l.key (firstDiff l.key r.key) D) ∧
        Opened pp k r (ones pp l.key (firstDiff l.key r.key) D)

/-- The subtrees that the keys `D` leave closed: those at which no key arrives, and those branches that no
key follows. -/
def closed (pp : PartitionPoint N) : Trie N → List (Arr N) → List (Trie N)
  | .leaf k v, D => if D = [] then [.leaf k v] else []
  | .node l r, D =>
      if followers l.key (firstDiff l.key r.key) D = [] then [.node l r] else
        closed pp l (zeros pp l.key (firstDiff l.key r.key) D) ++
          closed pp r (ones pp l.key (firstDiff l.key r.key) D)

end MerkleBit
