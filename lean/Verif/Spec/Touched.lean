import Verif.Spec.Live
/-! # Specification vocabulary: what a call touches -/

namespace MerkleBit
variable {N : Nat} {σ V : Type}

/-- A database that keeps two lists: the places it was asked to write to, and those it was asked to
delete. -/
def touchDb (db : Database N σ) : Database N (σ × List (Arr N) × List (Arr N)) where
  getNode s x := db.getNode s.1 x
  insert x n s := ((db.insert x n s.1).1, (db.insert x n s.1).2, x :: s.2.1, s.2.2)
  remove x s := ((db.remove x s.1).1, (db.remove x s.1).2, s.2.1, x :: s.2.2)
  batchWrite s := ((db.batchWrite s.1).1, (db.batchWrite s.1).2, s.2)

/-- The tree on such a database. -/
abbrev Config.touched (cfg : Config N σ V) : Config N (σ × List (Arr N) × List (Arr N)) V :=
  cfg.withDb (touchDb cfg.db)

end MerkleBit
