import Verif.Spec.Session
/-!
# Specification vocabulary: sessions of any calls

In a session that may do anything except remove, a version is a map as long as only batches that open what
they have to (`Handled`) have led to it.  `Allowed` says which answers such a session can get.
-/

namespace MerkleBit
variable {N : Nat} {σ V : Type}

/-- What is known of a version.
* `map M`: it is the map `M`.
* `only M`: a batch that does not open what it has to was inserted on top of a map; single reads are those of
  `M`.
* `any`: it was made on top of such a version. -/
inductive Ver (N : Nat) (V : Type) where
  | map (M : Contents N V)
  | only (M : Contents N V)
  | any

/-- What an insert starts from. -/
def Ver.base (vs : List (Ver N V)) : Option Nat → Option (Ver N V)
  | none => some (.map Contents.empty)
  | some i => vs[i]?

open Classical in
/-- What single reads give after a batch that does not open what it has to (C77). -/
noncomputable def Contents.bent (cfg : Config N σ V) (M : Contents N V) (keys : List (Arr N)) (values : List V) :
    Contents N V :=
  Contents.assign (fun k => if Lost cfg M keys k then none else M k) keys values

/-- The answer `a` to an insert of a batch on top of `b`, and what is known of the new version (`none`: there is
none). -/
def AllowedInsert (cfg : Config N σ V) (keys : List (Arr N)) (values : List V) (b : Ver N V)
    (new : Option (Ver N V)) : Prop :=
  (¬ GoodBatch cfg.encode keys values → new = none) ∧
  (GoodBatch cfg.encode keys values → match b with
    | .map M =>
      (Handled cfg M keys → new = some (.map (M.assign keys values))) ∧
      (¬ Handled cfg M keys → Refused cfg M keys → new = none) ∧
      (¬ Handled cfg M keys → ¬ Refused cfg M keys → new = some (.only (M.bent cfg keys values)))
    | _ => new = none ∨ new = some .any)

open Classical in
/-- The answer `a` to a call, and the versions `vs'` after it. -/
def Cmd.Allowed (cfg : Config N σ V) (vs : List (Ver N V)) (a : Reply V) (vs' : List (Ver N V)) :
    Cmd N V → Prop
  | .put prev keys values => match Ver.base vs prev with
    | none => a = .nothing ∧ vs' = vs
    | some b => ∃ new, AllowedInsert cfg keys values b new ∧
        a = (if new.isSome then .version vs.length else .refused) ∧ vs' = vs ++ new.toList
  | .putOne prev k v => match Ver.base vs prev with
    | none => a = .nothing ∧ vs' = vs
    | some b => ∃ new, AllowedInsert cfg [k] [v] b new ∧
        a = (if new.isSome then .version vs.length else .refused) ∧ vs' = vs ++ new.toList
  | .read i keys => vs' = vs ∧ match vs[i]? with
    | none => a = .nothing
    | some (.map M) => a = .values (keys.map fun k => some (if Finds cfg M keys k then M k else none))
    | some _ => True
  | .readOne i k => vs' = vs ∧ match vs[i]? with
    | none => a = .nothing
    | some (.map M) => a = .value (M k)
    | some (.only M) => a = .value (M k) ∨ cfg.depth ≤ 16 * N ∧ a = .refused
    | some .any => True
  | .prove i k v => vs' = vs ∧ match vs[i]? with
    | none => a = .nothing
    | some (.map M) => a = .verdict (decide (M k = some v))
    | some _ => ∃ b, a = .verdict b
  | .same i j => vs' = vs ∧ match vs[i]?, vs[j]? with
    | some (.map M), some (.map M') => a = .verdict (decide (M = M'))
    | some _, some _ => ∃ b, a = .verdict b
    | _, _ => a = .nothing
  | .remove _ => False
  | .reopen => a = .nothing ∧ vs' = vs
  | .crash _ _ _ _ => a = .nothing ∧ vs' = vs
  | .crashRemove _ _ => False

/-- The answers to all calls of a session. -/
def AllowedSession (cfg : Config N σ V) : List (Cmd N V) → List (Reply V) → List (Ver N V) → Prop
  | [], as, _ => as = []
  | c :: cs, as, vs => ∃ a as' vs', as = a :: as' ∧ c.Allowed cfg vs a vs' ∧ AllowedSession cfg cs as' vs'

end MerkleBit
