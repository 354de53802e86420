import Verif.Spec.Reached
import Verif.Spec.Damage
/-!
# Specification vocabulary: databases whose leaves have their data

`Gentle` are histories of calls as in `Events`, of any arguments and outcomes, with process deaths and losses
of queued writes, in which `remove` is not called while writes of a failed insert are queued, and not with the
place of the data of a leaf.
-/

namespace MerkleBit
variable {N : Nat} {σ V : Type}

/-- Whatever leaf is stored, something is stored at the place of its data. -/
def View.Whole (v : View N) : Prop :=
  ∀ (x : Arr N) (n : Node N) (l : Leaf N), v x = some n → n.variant = .leaf l → v l.data ≠ none

/-- `r` is not the place of the data of a stored leaf. -/
def View.NoData (v : View N) (r : Arr N) : Prop :=
  ∀ (x : Arr N) (n : Node N) (l : Leaf N), v x = some n → n.variant = .leaf l → l.data ≠ r

/-- Histories as in `Events`, but that removes are gentle. -/
inductive Gentle (cfg : Config N σ V) (C : DbContract cfg.db) :
    List (HIn N) → Ledger N V → σ → Prop
  | start {s : σ} : C.view s = View.empty N → C.pending s = View.empty N → Gentle cfg C [] [] s
  | insertAt {d : Nat} {H : List (HIn N)} {L : Ledger N V} {s s' : σ} {prev : Option (Arr N)}
      {keys : List (Arr N)} {values : List V} {res : Res (Arr N)} :
      Gentle cfg C H L s → MerkleBit.insert (cfg.withDepth d) prev keys values s = (res, s') →
      Gentle cfg C (hashedBy (cfg.withDepth d) prev keys values s ++ H) L s'
  | goodAt {d : Nat} {H : List (HIn N)} {L : Ledger N V} {s s' : σ} {prev : Option (Arr N)}
      {M : Contents N V} {keys : List (Arr N)} {values : List V} {r : Arr N} :
      Gentle cfg C H L s → L.Prev prev M → Handled cfg M keys →
      MerkleBit.insert (cfg.withDepth d) prev keys values s = (.ok r, s') →
      Gentle cfg C (hashedBy (cfg.withDepth d) prev keys values s ++ H) ((r, M.assign keys values) :: L) s'
  | remove {H : List (HIn N)} {L : Ledger N V} {s s' : σ} {r : Arr N} {res : Res Unit} :
      Gentle cfg C H L s → C.pending s = View.empty N → (C.view s).NoData r →
      MerkleBit.remove cfg r s = (res, s') → Gentle cfg C H L s'
  | crashInsertAt {d : Nat} {H : List (HIn N)} {L : Ledger N V} {s s' : σ} {n n' : Nat}
      {prev : Option (Arr N)} {keys : List (Arr N)} {values : List V} {e : Err} :
      Gentle cfg C H L s →
      MerkleBit.insert (cfg.withDepth d).crash prev keys values (s, n) = (.error e, (s', n')) →
      Gentle cfg C (hashedBy (cfg.withDepth d).crash prev keys values (s, n) ++ H) L s'
  | crashRemove {H : List (HIn N)} {L : Ledger N V} {s s' : σ} {n n' : Nat} {r : Arr N} {e : Err} :
      Gentle cfg C H L s → C.pending s = View.empty N → (C.view s).NoData r →
      MerkleBit.remove cfg.crash r (s, n) = (.error e, (s', n')) → Gentle cfg C H L s'
  | reopen {H : List (HIn N)} {L : Ledger N V} {s s' : σ} :
      Gentle cfg C H L s → C.view s' = C.view s → C.pending s' = View.empty N →
      Gentle cfg C H L s'

end MerkleBit
