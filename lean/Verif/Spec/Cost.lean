import Verif.Spec.Storage
import Verif.Spec.Calls
/-! # Specification vocabulary: work -/

namespace MerkleBit
variable {N : Nat} {σ V : Type}

/-- A database that counts the nodes it is asked to write or delete. -/
def countDb (db : Database N σ) : Database N (σ × Nat) where
  getNode s x := db.getNode s.1 x
  insert x n s := ((db.insert x n s.1).1, ((db.insert x n s.1).2, s.2 + 1))
  remove x s := ((db.remove x s.1).1, ((db.remove x s.1).2, s.2 + 1))
  batchWrite s := ((db.batchWrite s.1).1, ((db.batchWrite s.1).2, s.2))

/-- The tree on a counting database. -/
abbrev Config.counted (cfg : Config N σ V) : Config N (σ × Nat) V := cfg.withDb (countDb cfg.db)

/-- Two database states that agree on the nodes at `xs`. -/
def AgreeOn (db : Database N σ) (xs : List (Arr N)) (s s' : σ) : Prop :=
  ∀ x ∈ xs, db.getNode s' x = db.getNode s x

/-- The most writes an insert of `m` pairs asks for (`C53_insert_writes`). -/
def Config.writes (cfg : Config N σ V) (m : Nat) : Nat := m * (2 * cfg.depth + 5) + 1

/-- States reachable by any calls (as `Calls`), with a bound on the writes asked for by inserts. -/
inductive Spent (cfg : Config N σ V) (C : DbContract cfg.db) : Nat → σ → Prop
  | start {s : σ} : C.view s = View.empty N → C.pending s = View.empty N → Spent cfg C 0 s
  | insert {b : Nat} {s s' : σ} {prev : Option (Arr N)} {keys : List (Arr N)} {values : List V}
      {res : Res (Arr N)} : Spent cfg C b s → MerkleBit.insert cfg prev keys values s = (res, s') →
      Spent cfg C (b + cfg.writes keys.length) s'
  | remove {b : Nat} {s s' : σ} {r : Arr N} {res : Res Unit} :
      Spent cfg C b s → MerkleBit.remove cfg r s = (res, s') → Spent cfg C b s'
  | crashInsert {b : Nat} {s s' : σ} {n n' : Nat} {prev : Option (Arr N)} {keys : List (Arr N)}
      {values : List V} {e : Err} : Spent cfg C b s →
      MerkleBit.insert cfg.crash prev keys values (s, n) = (.error e, (s', n')) →
      Spent cfg C (b + cfg.writes keys.length) s'
  | crashRemove {b : Nat} {s s' : σ} {n n' : Nat} {r : Arr N} {e : Err} : Spent cfg C b s →
      MerkleBit.remove cfg.crash r (s, n) = (.error e, (s', n')) → Spent cfg C b s'
  | reopen {b : Nat} {s s' : σ} : Spent cfg C b s → C.view s' = C.view s →
      C.pending s' = View.empty N → Spent cfg C b s'

end MerkleBit
