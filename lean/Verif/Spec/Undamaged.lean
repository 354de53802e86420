import Verif.Spec.AllOrNothing
import Verif.Spec.Leftover
import Verif.Spec.Counts
/-!
# Specification vocabulary: databases in which nothing was destroyed
-/

namespace MerkleBit
variable {N : Nat} {σ V : Type}

/-- What calls leave without destroying anything: inserts and removals as in C87, one more removal however it ends or stops, and
any inserts before and after, with any arguments and outcomes.  The list has what was hashed. -/
inductive Undamaged (cfg : Config N σ V) (C : DbContract cfg.db) : List (HIn N) → σ → Prop
  | start {s : σ} : C.view s = View.empty N → C.pending s = View.empty N → Undamaged cfg C [] s
  | keeps {shows : Bool} {H : List (HIn N)} {L : Ledger N V} {P : List (Item N)} {s : σ} :
      WritesShow C shows → Keeps cfg C shows H L P s → Undamaged cfg C H s
  | removal {shows : Bool} {H : List (HIn N)} {L1 L2 : Ledger N V} {P : List (Item N)} {r : Arr N} {M : Contents N V} {s s' : σ} :
      WritesShow C shows → Keeps cfg C shows H (L1 ++ (r, M) :: L2) P s → RemoveEnds cfg r s s' → Undamaged cfg C H s'
  | more {H H' : List (HIn N)} {s s' : σ} : Undamaged cfg C H s → MoreInserts cfg C s H' s' → Undamaged cfg C (H' ++ H) s'

/-- `r` was given out for the contents `M`, in some history, possibly of another database. -/
def GivenOut (cfg : Config N σ V) (C : DbContract cfg.db) (H : List (HIn N)) (r : Arr N) (M : Contents N V) : Prop :=
  (∃ R L s, Inserts cfg C H R L s ∧ (r, M) ∈ L) ∨
  ∃ shows L P s, WritesShow C shows ∧ Keeps cfg C shows H L P s ∧ (r, M) ∈ L

end MerkleBit
