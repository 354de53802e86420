import Verif.Spec.Damage
import Verif.Spec.Counts
/-!
# Specification vocabulary: the same program on two databases
-/

namespace MerkleBit
variable {N : Nat} {σ τ V : Type}

/-- The same calls on two empty databases, one of them opened by `cfg` and the other one by the same
configuration on `db'`: inserts of batches that open what they have to (`Handled`) on top of roots that were
returned, of which the first run succeeds, and removals of roots that were returned, whether anything was
removed before or not.  `fresh` demands that no insert writes a pair that the version it builds on has
already.  `H` is everything that was hashed and `L` lists the roots returned in the first run with the
contents that were asked for. -/
inductive Twins (cfg : Config N σ V) (C : DbContract cfg.db) (db' : Database N τ)
    (C' : DbContract (cfg.withDb db').db) (fresh : Prop) :
    List (HIn N) → Ledger N V → σ → τ → Prop
  | start {s t} : C.view s = View.empty N → C.pending s = View.empty N → C.alive s →
      C'.view t = View.empty N → C'.pending t = View.empty N → C'.alive t →
      Twins cfg C db' C' fresh [] [] s t
  | insert {H L s s' t t' prev M keys values r res} : Twins cfg C db' C' fresh H L s t →
      L.Prev prev M → HeightBelow M (cfg.depth + 1) → (prev ≠ none → Handled cfg M keys) →
      (fresh → ∀ p ∈ keys.zip values, M p.1 ≠ some p.2) →
      insert cfg prev keys values s = (.ok r, s') →
      insert (cfg.withDb db') prev keys values t = (res, t') →
      Twins cfg C db' C' fresh
        (hashedBy cfg prev keys values s ++ (hashedBy (cfg.withDb db') prev keys values t ++ H))
        ((r, M.assign keys values) :: L) s' t'
  | remove {H L s s' t t' r M res res'} : Twins cfg C db' C' fresh H L s t → (r, M) ∈ L →
      remove cfg r s = (res, s') → remove (cfg.withDb db') r t = (res', t') →
      Twins cfg C db' C' fresh H L s' t'

end MerkleBit
