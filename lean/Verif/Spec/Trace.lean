import Verif.Spec.Calls
import Verif.Spec.Lineage
/-!
# Specification vocabulary: arbitrary calls with what was given to them

Arbitrary calls as in `Calls`, together with the log of all pairs that were given to inserts and with the
lineages of the returned roots as in `Roots`.  Unlike in `Roots`, nodes may get lost on the way.
-/

namespace MerkleBit
variable {N : Nat} {σ V : Type}

/-- States reachable by any calls.  `H` is everything that was hashed by inserts, `P` are all pairs given
to inserts, `L` are the lineages of the roots that were returned for inserts on top of roots in `L`, or of
nothing.
* `start`: an empty database.
* `insertAt`, `remove`: a call with any arguments and any outcome.
* `extendAt`: an accepted insert on top of a root in `L` or of nothing.
* `crashInsertAt`, `crashRemove`: a call during which the process dies after some number of writes.
* `reopen`: the queued writes may get lost.
Every insert may have its own depth limit `d`. -/
inductive Traces (cfg : Config N σ V) (C : DbContract cfg.db) :
    List (HIn N) → List (Arr N × V) → Lineages N V → σ → Prop
  | start {s : σ} : C.view s = View.empty N → C.pending s = View.empty N → Traces cfg C [] [] [] s
  | insertAt {d : Nat} {H : List (HIn N)} {P : List (Arr N × V)} {L : Lineages N V} {s s' : σ}
      {prev : Option (Arr N)} {keys : List (Arr N)} {values : List V} {res : Res (Arr N)} :
      Traces cfg C H P L s → MerkleBit.insert (cfg.withDepth d) prev keys values s = (res, s') →
      Traces cfg C (hashedBy (cfg.withDepth d) prev keys values s ++ H) (keys.zip values ++ P) L s'
  | extendAt {d : Nat} {H : List (HIn N)} {P : List (Arr N × V)} {L : Lineages N V} {s s' : σ}
      {prev : Option (Arr N)} {ℓ : Lineage N V} {keys : List (Arr N)} {values : List V} {r : Arr N} :
      Traces cfg C H P L s → L.Prev prev ℓ →
      MerkleBit.insert (cfg.withDepth d) prev keys values s = (.ok r, s') →
      Traces cfg C (hashedBy (cfg.withDepth d) prev keys values s ++ H) (keys.zip values ++ P)
        ((r, keys.zip values ++ ℓ) :: L) s'
  | remove {H : List (HIn N)} {P : List (Arr N × V)} {L : Lineages N V} {s s' : σ} {r : Arr N}
      {res : Res Unit} :
      Traces cfg C H P L s → MerkleBit.remove cfg r s = (res, s') → Traces cfg C H P L s'
  | crashInsertAt {d : Nat} {H : List (HIn N)} {P : List (Arr N × V)} {L : Lineages N V} {s s' : σ}
      {n n' : Nat} {prev : Option (Arr N)} {keys : List (Arr N)} {values : List V} {e : Err} :
      Traces cfg C H P L s →
      MerkleBit.insert (cfg.withDepth d).crash prev keys values (s, n) = (.error e, (s', n')) →
      Traces cfg C (hashedBy (cfg.withDepth d).crash prev keys values (s, n) ++ H)
        (keys.zip values ++ P) L s'
  | crashRemove {H : List (HIn N)} {P : List (Arr N × V)} {L : Lineages N V} {s s' : σ} {n n' : Nat}
      {r : Arr N} {e : Err} :
      Traces cfg C H P L s → MerkleBit.remove cfg.crash r (s, n) = (.error e, (s', n')) →
      Traces cfg C H P L s'
  | reopen {H : List (HIn N)} {P : List (Arr N × V)} {L : Lineages N V} {s s' : σ} :
      Traces cfg C H P L s → C.view s' = C.view s → C.pending s' = View.empty N →
      Traces cfg C H P L s'

end MerkleBit
