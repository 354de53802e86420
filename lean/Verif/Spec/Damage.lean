import Verif.Spec.Calls
/-!
# Specification vocabulary: histories in which data may get lost

Arbitrary calls as in `Calls`, together with a ledger of the versions that were created on the way.
Nothing is ever taken off the ledger: it tells what a root stands for, whether or not the nodes of
that version are still in the database.
-/

namespace MerkleBit
variable {N : Nat} {σ V : Type}

/-- States reachable by any calls, with `H` everything that was hashed by inserts and `L` the contents
of the versions that were created.
* `start`: an empty database.
* `insertAt`, `remove`: a call with any arguments and any outcome.
* `goodAt`: a successful insert on top of a version of the ledger (or of nothing), whose batch opens
  every place where one of its keys belongs (`Handled`); the returned root enters the ledger.  Nodes of the previous version may be missing.
* `crashInsertAt`, `crashRemove`: a call during which the process dies after some number of writes.
* `reopen`: the queued writes may get lost.
Every insert may have its own depth limit `d`. -/
inductive Events (cfg : Config N σ V) (C : DbContract cfg.db) :
    List (HIn N) → Ledger N V → σ → Prop
  | start {s : σ} : C.view s = View.empty N → C.pending s = View.empty N → Events cfg C [] [] s
  | insertAt {d : Nat} {H : List (HIn N)} {L : Ledger N V} {s s' : σ} {prev : Option (Arr N)}
      {keys : List (Arr N)} {values : List V} {res : Res (Arr N)} :
      Events cfg C H L s → MerkleBit.insert (cfg.withDepth d) prev keys values s = (res, s') →
      Events cfg C (hashedBy (cfg.withDepth d) prev keys values s ++ H) L s'
  | goodAt {d : Nat} {H : List (HIn N)} {L : Ledger N V} {s s' : σ} {prev : Option (Arr N)}
      {M : Contents N V} {keys : List (Arr N)} {values : List V} {r : Arr N} :
      Events cfg C H L s → L.Prev prev M → Handled cfg M keys →
      MerkleBit.insert (cfg.withDepth d) prev keys values s = (.ok r, s') →
      Events cfg C (hashedBy (cfg.withDepth d) prev keys values s ++ H) ((r, M.assign keys values) :: L) s'
  | remove {H : List (HIn N)} {L : Ledger N V} {s s' : σ} {r : Arr N} {res : Res Unit} :
      Events cfg C H L s → MerkleBit.remove cfg r s = (res, s') → Events cfg C H L s'
  | crashInsertAt {d : Nat} {H : List (HIn N)} {L : Ledger N V} {s s' : σ} {n n' : Nat}
      {prev : Option (Arr N)} {keys : List (Arr N)} {values : List V} {e : Err} :
      Events cfg C H L s →
      MerkleBit.insert (cfg.withDepth d).crash prev keys values (s, n) = (.error e, (s', n')) →
      Events cfg C (hashedBy (cfg.withDepth d).crash prev keys values (s, n) ++ H) L s'
  | crashRemove {H : List (HIn N)} {L : Ledger N V} {s s' : σ} {n n' : Nat} {r : Arr N} {e : Err} :
      Events cfg C H L s → MerkleBit.remove cfg.crash r (s, n) = (.error e, (s', n')) →
      Events cfg C H L s'
  | reopen {H : List (HIn N)} {L : Ledger N V} {s s' : σ} :
      Events cfg C H L s → C.view s' = C.view s → C.pending s' = View.empty N →
      Events cfg C H L s'

/-- A call with the limit of `cfg`. -/
theorem Events.insert {cfg : Config N σ V} {C : DbContract cfg.db}
    {H : List (HIn N)} {L : Ledger N V} {s s' : σ} {prev : Option (Arr N)}
      {keys : List (Arr N)} {values : List V} {res : Res (Arr N)} :
      Events cfg C H L s → MerkleBit.insert cfg prev keys values s = (res, s') →
      Events cfg C (hashedBy cfg prev keys values s ++ H) L s' :=
  Events.insertAt (d := cfg.depth)

/-- A call with the limit of `cfg`. -/
theorem Events.good {cfg : Config N σ V} {C : DbContract cfg.db}
    {H : List (HIn N)} {L : Ledger N V} {s s' : σ} {prev : Option (Arr N)}
      {M : Contents N V} {keys : List (Arr N)} {values : List V} {r : Arr N} :
      Events cfg C H L s → L.Prev prev M → Handled cfg M keys →
      MerkleBit.insert cfg prev keys values s = (.ok r, s') →
      Events cfg C (hashedBy cfg prev keys values s ++ H) ((r, M.assign keys values) :: L) s' :=
  Events.goodAt (d := cfg.depth)

/-- A call with the limit of `cfg`. -/
theorem Events.crashInsert {cfg : Config N σ V} {C : DbContract cfg.db}
    {H : List (HIn N)} {L : Ledger N V} {s s' : σ} {n n' : Nat}
      {prev : Option (Arr N)} {keys : List (Arr N)} {values : List V} {e : Err} :
      Events cfg C H L s →
      MerkleBit.insert cfg.crash prev keys values (s, n) = (.error e, (s', n')) →
      Events cfg C (hashedBy cfg.crash prev keys values (s, n) ++ H) L s' :=
  Events.crashInsertAt (d := cfg.depth)

end MerkleBit
