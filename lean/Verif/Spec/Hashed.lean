import Verif.Spec.Trie
import Verif.Model.MerkleBit
/-!
# Specification vocabulary: what a call hashes

Collision-freeness can only be asked of the hash inputs that occur: no function into `N` bytes is
free of collisions on all inputs.  `hashedBy` is the list of the inputs a call of `insert` hashes,
obtained by running the call on an instrumented database.
-/

namespace MerkleBit
variable {N : Nat} {σ τ V : Type}

/-- The hash input that gives the location of a node; data nodes do not carry theirs. -/
def Variant.input : Variant N → Option (HIn N)
  | .branch b => some (.branch b.zero b.one)
  | .leaf l => some (.leaf l.key l.data)
  | .data _ => none

/-- A database that records the nodes handed to `insert` (whether or not `insert` succeeds). -/
def logDb (db : Database N σ) : Database N (σ × List (HIn N)) where
  getNode s x := db.getNode s.1 x
  insert x n s := ((db.insert x n s.1).1, ((db.insert x n s.1).2, n.variant.input.toList ++ s.2))
  remove x s := ((db.remove x s.1).1, ((db.remove x s.1).2, s.2))
  batchWrite s := ((db.batchWrite s.1).1, ((db.batchWrite s.1).2, s.2))

/-- The same tree on another database. -/
def Config.withDb (cfg : Config N σ V) (db : Database N τ) : Config N τ V :=
  ⟨db, cfg.hasher, cfg.encode, cfg.decode, cfg.pp, cfg.depth⟩

/-- The encoded pairs of a batch. -/
def encodedPairs (cfg : Config N σ V) (keys : List (Arr N)) (values : List V) :
    List (Arr N × List UInt8) :=
  (keys.zip values).filterMap (fun e => match cfg.encode e.2 with
    | .ok b => some (e.1, b)
    | .error _ => none)

/-- The hash inputs of a call of `insert`: those of its data nodes and leaves, and those of the
nodes it hands to the database. -/
def hashedBy (cfg : Config N σ V) (prev : Option (Arr N)) (keys : List (Arr N)) (values : List V)
    (s : σ) : List (HIn N) :=
  (encodedPairs cfg keys values).flatMap (fun e => (Trie.leaf e.1 e.2).inputs cfg.hasher) ++
    (insert (cfg.withDb (logDb cfg.db)) prev keys values (s, [])).2.2

end MerkleBit
