import Verif.Spec.History
/-!
# Specification vocabulary: histories of arbitrary calls

Inserts and removes with arbitrary arguments and outcomes, interrupted or not.
-/

namespace MerkleBit
variable {N : Nat} {σ V : Type}

/-- States reachable by any calls.  `H` is everything that was hashed by inserts (`remove` hashes
nothing).
* `start`: an empty database.
* `insertAt`, `remove`: a call with any arguments and any outcome.
* `crashInsertAt`, `crashRemove`: a call during which the process dies after some number of writes.
* `reopen`: the queued writes may get lost.
Every insert may have its own depth limit `d`; `remove` does not look at it (C64). -/
inductive Calls (cfg : Config N σ V) (C : DbContract cfg.db) : List (HIn N) → σ → Prop
  | start {s : σ} : C.view s = View.empty N → C.pending s = View.empty N → Calls cfg C [] s
  | insertAt {d : Nat} {H : List (HIn N)} {s s' : σ} {prev : Option (Arr N)} {keys : List (Arr N)}
      {values : List V} {res : Res (Arr N)} :
      Calls cfg C H s → MerkleBit.insert (cfg.withDepth d) prev keys values s = (res, s') →
      Calls cfg C (hashedBy (cfg.withDepth d) prev keys values s ++ H) s'
  | remove {H : List (HIn N)} {s s' : σ} {r : Arr N} {res : Res Unit} :
      Calls cfg C H s → MerkleBit.remove cfg r s = (res, s') → Calls cfg C H s'
  | crashInsertAt {d : Nat} {H : List (HIn N)} {s s' : σ} {n n' : Nat} {prev : Option (Arr N)}
      {keys : List (Arr N)} {values : List V} {e : Err} :
      Calls cfg C H s → MerkleBit.insert (cfg.withDepth d).crash prev keys values (s, n) = (.error e, (s', n')) →
      Calls cfg C (hashedBy (cfg.withDepth d).crash prev keys values (s, n) ++ H) s'
  | crashRemove {H : List (HIn N)} {s s' : σ} {n n' : Nat} {r : Arr N} {e : Err} :
      Calls cfg C H s → MerkleBit.remove cfg.crash r (s, n) = (.error e, (s', n')) →
      Calls cfg C H s'
  | reopen {H : List (HIn N)} {s s' : σ} :
      Calls cfg C H s → C.view s' = C.view s → C.pending s' = View.empty N → Calls cfg C H s'

/-- A call with the limit of `cfg`. -/
theorem Calls.insert {cfg : Config N σ V} {C : DbContract cfg.db}
    {H : List (HIn N)} {s s' : σ} {prev : Option (Arr N)} {keys : List (Arr N)}
      {values : List V} {res : Res (Arr N)} :
      Calls cfg C H s → MerkleBit.insert cfg prev keys values s = (res, s') →
      Calls cfg C (hashedBy cfg prev keys values s ++ H) s' :=
  Calls.insertAt (d := cfg.depth)

/-- A call with the limit of `cfg`. -/
theorem Calls.crashInsert {cfg : Config N σ V} {C : DbContract cfg.db}
    {H : List (HIn N)} {s s' : σ} {n n' : Nat} {prev : Option (Arr N)}
      {keys : List (Arr N)} {values : List V} {e : Err} :
      Calls cfg C H s → MerkleBit.insert cfg.crash prev keys values (s, n) = (.error e, (s', n')) →
      Calls cfg C (hashedBy cfg.crash prev keys values (s, n) ++ H) s' :=
  Calls.crashInsertAt (d := cfg.depth)

end MerkleBit
