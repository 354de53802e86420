import Verif.Model.MerkleBit
/-!
# Specification vocabulary: programs

A list of requests of any kind, and what a database answers to them.
-/

namespace MerkleBit
variable {N : Nat} {σ V : Type}

/-- A call of the API. -/
inductive Request (N : Nat) (V : Type) where
  | get (root : Arr N) (keys : List (Arr N))
  | getOne (root key : Arr N)
  | proof (root key : Arr N)
  | insert (prev : Option (Arr N)) (keys : List (Arr N)) (values : List V)
  | insertOne (prev : Option (Arr N)) (key : Arr N) (value : V)
  | remove (root : Arr N)

/-- The call can change the database. -/
def Request.IsWrite : Request N V → Prop
  | .insert .. | .insertOne .. | .remove .. => True
  | _ => False

/-- What a call returns. -/
inductive Answer (N : Nat) (V : Type) where
  | values (r : Res (AMap (Arr N) (Option V)))
  | value (r : Res (Option V))
  | proof (r : Res (List (Arr N × Bool)))
  | root (r : Res (Arr N))
  | done (r : Res Unit)

/-- The call returned an error. -/
def Answer.IsError : Answer N V → Prop
  | .values r => ∃ e, r = .error e
  | .value r => ∃ e, r = .error e
  | .proof r => ∃ e, r = .error e
  | .root r => ∃ e, r = .error e
  | .done r => ∃ e, r = .error e

/-- The answer to a request and the state after it. -/
def Request.run (cfg : Config N σ V) (s : σ) : Request N V → Answer N V × σ
  | .get r ks => (.values (MerkleBit.get cfg s r ks), s)
  | .getOne r k => (.value (MerkleBit.getOne cfg s r k), s)
  | .proof r k => (.proof (generateInclusionProof cfg s r k), s)
  | .insert prev ks vs =>
    (.root (MerkleBit.insert cfg prev ks vs s).1, (MerkleBit.insert cfg prev ks vs s).2)
  | .insertOne prev k v =>
    (.root (MerkleBit.insertOne cfg prev k v s).1, (MerkleBit.insertOne cfg prev k v s).2)
  | .remove r => (.done (MerkleBit.remove cfg r s).1, (MerkleBit.remove cfg r s).2)

/-- The answers to a list of requests and the state after them. -/
def runRequests (cfg : Config N σ V) : List (Request N V) → σ → List (Answer N V) × σ
  | [], s => ([], s)
  | q :: qs, s =>
    let a := q.run cfg s
    let rest := runRequests cfg qs a.2
    (a.1 :: rest.1, rest.2)

end MerkleBit
