import Verif.Spec.History
import Mathlib.Data.Fintype.BigOperators
/-!
# Specification vocabulary: live versions

`Uses` is the set of states a database can get into by inserts on top of live versions (or parts of them) and by removals
of live versions, together with the ledger of the versions that are live: created by a successful
`insert` and not yet given to `remove`.  A version occurs in the ledger as often as it was returned.
-/

namespace MerkleBit
variable {N : Nat} {σ V : Type}

/-- `M` and `M'` agree on all keys that share the first `d` bits with `k`. -/
def AgreeNear (M M' : Contents N V) (k : Arr N) (d : Nat) : Prop :=
  ∀ k', d ≤ firstDiff k k' → M k' = M' k'

/-- The contents `M'` that result from inserting `keys` have, around one of these keys, a group of at
least two keys that `M` has with the same values.  (`insert` then writes a branch again that `M`
has.) -/
def Rewrites (M M' : Contents N V) (keys : List (Arr N)) : Prop :=
  ∃ k ∈ keys, ∃ d, (∃ k', k' ≠ k ∧ d ≤ firstDiff k k' ∧ M' k' ≠ none) ∧ AgreeNear M M' k d

/-- `M` is the part of `M'` under a common prefix: the keys that share their first `d` bits with `k`. -/
def Contents.PartOf (M M' : Contents N V) : Prop :=
  ∃ k d, ∀ k', M k' = if d ≤ firstDiff k k' then M' k' else none

/-- What an insert may be on top of: nothing, a live version, or what is stored under the root of a part of a live version. -/
def Ledger.Base (cfg : Config N σ V) (L : Ledger N V) (v : View N) : Option (Arr N) → Contents N V → Prop
  | none, M => M = Contents.empty
  | some r, M => (r, M) ∈ L ∨ ∃ e ∈ L, M.PartOf e.2 ∧ IsVersion cfg v r M

/-- Where a node is queued over a stored one, the queued one counts no fewer references. -/
def NothingLess {db : Database N σ} (C : DbContract db) (s : σ) : Prop :=
  ∀ x n m, C.pending s x = some n → C.view s x = some m → m.references ≤ n.references

/-- Queued writes that are left over take no counts away; if `strict`, there are none. -/
def Confirmed {db : Database N σ} (C : DbContract db) (strict : Prop) (s : σ) : Prop :=
  C.pending s = View.empty N ∨ (¬ strict ∧ NothingLess C s)

/-- Conditions on a call of `insert` under which reference counts stay right: queued writes
take no counts away, the previous root is live (or that of a part of a live version) and stands for `M`, the keys are distinct, no branch is
straddled, no group of pairs of a live version is written again, and, if `strict`, not even a single pair. -/
structure Careful (cfg : Config N σ V) (C : DbContract cfg.db) (strict : Prop) (L : Ledger N V) (s : σ)
    (prev : Option (Arr N)) (M : Contents N V) (keys : List (Arr N)) (values : List V) : Prop where
  confirmed : Confirmed C strict s
  prev : L.Base cfg (C.view s) prev M
  distinct : keys.Nodup
  straddle : NoStraddle cfg M keys
  fresh : ∀ e ∈ L, ¬ Rewrites e.2 (M.assign keys values) keys
  new : strict → ∀ e ∈ L, ∀ p ∈ keys.zip values, e.2 p.1 ≠ some p.2

/-- States reachable by careful inserts and by removals of live versions.  `H` is everything that was
hashed and `L` the ledger of the live versions.  If `strict`, no pair of a live version is ever
inserted again and no call fails; otherwise calls may fail, the process may die during a call, and a
working database may be asked for any insert, with any arguments, that it refuses.  The
database may be closed and opened, which loses queued writes.  Every insert may have its own depth limit `d`. -/
inductive Uses (cfg : Config N σ V) (C : DbContract cfg.db) (strict : Prop) :
    List (HIn N) → Ledger N V → σ → Prop
  | start {s : σ} : C.view s = View.empty N → C.pending s = View.empty N → Uses cfg C strict [] [] s
  | insertAt {d : Nat} {H : List (HIn N)} {L : Ledger N V} {s s' : σ} {prev : Option (Arr N)} {M : Contents N V}
      {keys : List (Arr N)} {values : List V} {r : Arr N} :
      Uses cfg C strict H L s → Careful cfg C strict L s prev M keys values →
      MerkleBit.insert (cfg.withDepth d) prev keys values s = (.ok r, s') →
      Uses cfg C strict (hashedBy (cfg.withDepth d) prev keys values s ++ H) ((r, M.assign keys values) :: L) s'
  | insertFailedAt {d : Nat} {H : List (HIn N)} {L : Ledger N V} {s s' : σ} {prev : Option (Arr N)}
      {M : Contents N V} {keys : List (Arr N)} {values : List V} {e : Err} : ¬ strict →
      Uses cfg C strict H L s → Careful cfg C strict L s prev M keys values →
      MerkleBit.insert (cfg.withDepth d) prev keys values s = (.error e, s') →
      Uses cfg C strict (hashedBy (cfg.withDepth d) prev keys values s ++ H) L s'
  | insertCrashedAt {d : Nat} {H : List (HIn N)} {L : Ledger N V} {s s' : σ} {n n' : Nat}
      {prev : Option (Arr N)} {M : Contents N V} {keys : List (Arr N)} {values : List V} {e : Err} :
      ¬ strict → Uses cfg C strict H L s → Careful cfg C strict L s prev M keys values →
      MerkleBit.insert (cfg.withDepth d).crash prev keys values (s, n) = (.error e, (s', n')) →
      Uses cfg C strict (hashedBy (cfg.withDepth d).crash prev keys values (s, n) ++ H) L s'
  | refusedAt {d : Nat} {H : List (HIn N)} {L : Ledger N V} {s s' : σ} {prev : Option (Arr N)}
      {keys : List (Arr N)} {values : List V} {e : Err} : ¬ strict →
      Uses cfg C strict H L s → C.alive s →
      MerkleBit.insert (cfg.withDepth d) prev keys values s = (.error e, s') →
      Uses cfg C strict (hashedBy (cfg.withDepth d) prev keys values s ++ H) L s'
  | remove {H : List (HIn N)} {L1 L2 : Ledger N V} {s s' : σ} {r : Arr N} {M : Contents N V} :
      Uses cfg C strict H (L1 ++ (r, M) :: L2) s → Confirmed C strict s →
      MerkleBit.remove cfg r s = (.ok (), s') →
      Uses cfg C strict H (L1 ++ L2) s'
  | removeFailed {H : List (HIn N)} {L1 L2 : Ledger N V} {s s' : σ} {r : Arr N} {M : Contents N V}
      {e : Err} : ¬ strict →
      Uses cfg C strict H (L1 ++ (r, M) :: L2) s → Confirmed C strict s →
      MerkleBit.remove cfg r s = (.error e, s') →
      Uses cfg C strict H (L1 ++ L2) s'
  | removeCrashed {H : List (HIn N)} {L1 L2 : Ledger N V} {s s' : σ} {n n' : Nat} {r : Arr N}
      {M : Contents N V} {e : Err} : ¬ strict →
      Uses cfg C strict H (L1 ++ (r, M) :: L2) s → Confirmed C strict s →
      MerkleBit.remove cfg.crash r (s, n) = (.error e, (s', n')) →
      Uses cfg C strict H (L1 ++ L2) s'
  | reopen {H : List (HIn N)} {L : Ledger N V} {s s' : σ} :
      Uses cfg C strict H L s → C.view s' = C.view s → C.pending s' = View.empty N →
      Uses cfg C strict H L s'

/-- Histories of successful inserts on top of live versions, and of successful removals of live
roots; no care is taken.  Every insert may have its own depth limit `d`. -/
inductive Lives (cfg : Config N σ V) (C : DbContract cfg.db) :
    List (HIn N) → Ledger N V → σ → Prop
  | start {s : σ} : C.view s = View.empty N → C.pending s = View.empty N → Lives cfg C [] [] s
  | insertAt {d : Nat} {H : List (HIn N)} {L : Ledger N V} {s s' : σ} {prev : Option (Arr N)} {M : Contents N V}
      {keys : List (Arr N)} {values : List V} {r : Arr N} :
      Lives cfg C H L s → L.Prev prev M → Handled cfg M keys →
      MerkleBit.insert (cfg.withDepth d) prev keys values s = (.ok r, s') →
      Lives cfg C (hashedBy (cfg.withDepth d) prev keys values s ++ H) ((r, M.assign keys values) :: L) s'
  | remove {H : List (HIn N)} {L1 L2 : Ledger N V} {s s' : σ} {r : Arr N} {M : Contents N V} :
      Lives cfg C H (L1 ++ (r, M) :: L2) s → MerkleBit.remove cfg r s = (.ok (), s') →
      Lives cfg C H (L1 ++ L2) s'

/-- What is reached from the locations `R` by following the pointers of stored nodes, data nodes
included. -/
inductive Below (v : View N) (R : List (Arr N)) : Arr N → Prop
  | root {x : Arr N} : x ∈ R → Below v R x
  | child {x y : Arr N} {n : Node N} : Below v R y → v y = some n → x ∈ n.variant.children →
      Below v R x

open Classical in
/-- The number of pointers at `x` that the stored nodes of a set hold. -/
noncomputable def pointers [Fintype (Arr N)] (v : View N) (S : Arr N → Prop) (x : Arr N) : Nat :=
  ∑ y : Arr N, if S y then (match v y with
    | some n => n.variant.children.count x
    | none => 0) else 0

/-- A call with the limit of `cfg`. -/
theorem Uses.insert {cfg : Config N σ V} {C : DbContract cfg.db} {strict : Prop}
    {H : List (HIn N)} {L : Ledger N V} {s s' : σ} {prev : Option (Arr N)} {M : Contents N V}
      {keys : List (Arr N)} {values : List V} {r : Arr N} :
      Uses cfg C strict H L s → Careful cfg C strict L s prev M keys values →
      MerkleBit.insert cfg prev keys values s = (.ok r, s') →
      Uses cfg C strict (hashedBy cfg prev keys values s ++ H) ((r, M.assign keys values) :: L) s' :=
  Uses.insertAt (d := cfg.depth)

/-- A call with the limit of `cfg`. -/
theorem Uses.insertFailed {cfg : Config N σ V} {C : DbContract cfg.db} {strict : Prop}
    {H : List (HIn N)} {L : Ledger N V} {s s' : σ} {prev : Option (Arr N)}
      {M : Contents N V} {keys : List (Arr N)} {values : List V} {e : Err} :
      ¬ strict →
      Uses cfg C strict H L s → Careful cfg C strict L s prev M keys values →
      MerkleBit.insert cfg prev keys values s = (.error e, s') →
      Uses cfg C strict (hashedBy cfg prev keys values s ++ H) L s' :=
  Uses.insertFailedAt (d := cfg.depth)

/-- A call with the limit of `cfg`. -/
theorem Uses.insertCrashed {cfg : Config N σ V} {C : DbContract cfg.db} {strict : Prop}
    {H : List (HIn N)} {L : Ledger N V} {s s' : σ} {n n' : Nat}
      {prev : Option (Arr N)} {M : Contents N V} {keys : List (Arr N)} {values : List V} {e : Err} :
      ¬ strict → Uses cfg C strict H L s → Careful cfg C strict L s prev M keys values →
      MerkleBit.insert cfg.crash prev keys values (s, n) = (.error e, (s', n')) →
      Uses cfg C strict (hashedBy cfg.crash prev keys values (s, n) ++ H) L s' :=
  Uses.insertCrashedAt (d := cfg.depth)

/-- A call with the limit of `cfg`. -/
theorem Uses.refused {cfg : Config N σ V} {C : DbContract cfg.db} {strict : Prop}
    {H : List (HIn N)} {L : Ledger N V} {s s' : σ} {prev : Option (Arr N)}
      {keys : List (Arr N)} {values : List V} {e : Err} :
      ¬ strict → Uses cfg C strict H L s → C.alive s →
      MerkleBit.insert cfg prev keys values s = (.error e, s') →
      Uses cfg C strict (hashedBy cfg prev keys values s ++ H) L s' :=
  Uses.refusedAt (d := cfg.depth)

/-- A call with the limit of `cfg`. -/
theorem Lives.insert {cfg : Config N σ V} {C : DbContract cfg.db}
    {H : List (HIn N)} {L : Ledger N V} {s s' : σ} {prev : Option (Arr N)} {M : Contents N V}
      {keys : List (Arr N)} {values : List V} {r : Arr N} :
      Lives cfg C H L s → L.Prev prev M → Handled cfg M keys →
      MerkleBit.insert cfg prev keys values s = (.ok r, s') →
      Lives cfg C (hashedBy cfg prev keys values s ++ H) ((r, M.assign keys values) :: L) s' :=
  Lives.insertAt (d := cfg.depth)

end MerkleBit
