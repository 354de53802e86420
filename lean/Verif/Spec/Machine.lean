import Verif.Model.Machine
import Verif.Spec.Trace
import Verif.Spec.Cost
/-!
# Specification vocabulary: arbitrary calls with counters of the machine's width

The histories of `Traces`, with the program of `Model/Machine.lean` in place of the one of
`Model/MerkleBit.lean` and with a meter of writes.
-/

namespace MerkleBit
variable {N : Nat} {σ V : Type}

/-- The most tree references an insert of `m` pairs puts together (`batchRefs_length`). -/
def Config.treeRefs (cfg : Config N σ V) (prev : Option (Arr N)) (m : Nat) : Nat :=
  match prev with
  | none => m
  | some _ => m * (cfg.depth + 2) + 1

/-- States reachable by any calls of the program with counters of the machine's width.  `W` bounds the
writes asked for by inserts; `H`, `P` and `L` are as in `Traces`.
* `start`: an empty database.
* `insertAt`, `insertOneAt`, `remove`: a call with any arguments and any outcome.
* `extendAt`: an accepted insert on top of a root in `L` or of nothing.
* `crashInsertAt`, `crashRemove`: a call during which the process dies after some number of writes.
* `reopen`: the queued writes may get lost.
Every insert may have its own depth limit `d`; it puts together less than `2 ^ 32` tree references. -/
inductive MachineTraces (A : Arith) (cfg : Config N σ V) (C : DbContract cfg.db) :
    Nat → List (HIn N) → List (Arr N × V) → Lineages N V → σ → Prop
  | start {s : σ} : C.view s = View.empty N → C.pending s = View.empty N →
      MachineTraces A cfg C 0 [] [] [] s
  | insertAt {d W : Nat} {H : List (HIn N)} {P : List (Arr N × V)} {L : Lineages N V} {s s' : σ}
      {prev : Option (Arr N)} {keys : List (Arr N)} {values : List V} {res : Res (Arr N)} :
      MachineTraces A cfg C W H P L s → (cfg.withDepth d).treeRefs prev keys.length < 2 ^ 32 →
      Machine.insert A (cfg.withDepth d) prev keys values s = (res, s') →
      MachineTraces A cfg C (W + (cfg.withDepth d).writes keys.length)
        (hashedBy (cfg.withDepth d) prev keys values s ++ H) (keys.zip values ++ P) L s'
  | insertOneAt {d W : Nat} {H : List (HIn N)} {P : List (Arr N × V)} {L : Lineages N V} {s s' : σ}
      {prev : Option (Arr N)} {k : Arr N} {v : V} {res : Res (Arr N)} :
      MachineTraces A cfg C W H P L s → (cfg.withDepth d).treeRefs prev 1 < 2 ^ 32 →
      Machine.insertOne A (cfg.withDepth d) prev k v s = (res, s') →
      MachineTraces A cfg C (W + (cfg.withDepth d).writes 1)
        (hashedBy (cfg.withDepth d) prev [k] [v] s ++ H) ((k, v) :: P) L s'
  | extendAt {d W : Nat} {H : List (HIn N)} {P : List (Arr N × V)} {L : Lineages N V} {s s' : σ}
      {prev : Option (Arr N)} {ℓ : Lineage N V} {keys : List (Arr N)} {values : List V} {r : Arr N} :
      MachineTraces A cfg C W H P L s → (cfg.withDepth d).treeRefs prev keys.length < 2 ^ 32 →
      L.Prev prev ℓ →
      Machine.insert A (cfg.withDepth d) prev keys values s = (.ok r, s') →
      MachineTraces A cfg C (W + (cfg.withDepth d).writes keys.length)
        (hashedBy (cfg.withDepth d) prev keys values s ++ H) (keys.zip values ++ P)
        ((r, keys.zip values ++ ℓ) :: L) s'
  | remove {W : Nat} {H : List (HIn N)} {P : List (Arr N × V)} {L : Lineages N V} {s s' : σ} {r : Arr N}
      {res : Res Unit} :
      MachineTraces A cfg C W H P L s → MerkleBit.remove cfg r s = (res, s') →
      MachineTraces A cfg C W H P L s'
  | crashInsertAt {d W : Nat} {H : List (HIn N)} {P : List (Arr N × V)} {L : Lineages N V} {s s' : σ}
      {n n' : Nat} {prev : Option (Arr N)} {keys : List (Arr N)} {values : List V} {e : Err} :
      MachineTraces A cfg C W H P L s → (cfg.withDepth d).treeRefs prev keys.length < 2 ^ 32 →
      Machine.insert A (cfg.withDepth d).crash prev keys values (s, n) = (.error e, (s', n')) →
      MachineTraces A cfg C (W + (cfg.withDepth d).writes keys.length)
        (hashedBy (cfg.withDepth d).crash prev keys values (s, n) ++ H) (keys.zip values ++ P) L s'
  | crashRemove {W : Nat} {H : List (HIn N)} {P : List (Arr N × V)} {L : Lineages N V} {s s' : σ}
      {n n' : Nat} {r : Arr N} {e : Err} :
      MachineTraces A cfg C W H P L s →
      MerkleBit.remove cfg.crash r (s, n) = (.error e, (s', n')) → MachineTraces A cfg C W H P L s'
  | reopen {W : Nat} {H : List (HIn N)} {P : List (Arr N × V)} {L : Lineages N V} {s s' : σ} :
      MachineTraces A cfg C W H P L s → C.view s' = C.view s → C.pending s' = View.empty N →
      MachineTraces A cfg C W H P L s'

end MerkleBit
