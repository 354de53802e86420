import Verif.Spec.History
/-!
# Specification vocabulary: scripts

A list of `insert` calls that can be run on any database.  The previous root of a call is given as the
number of an earlier call, whose root it is.
-/

namespace MerkleBit
variable {N : Nat} {σ V : Type}

/-- A call of `insert`: on top of nothing, or of the root returned by an earlier call. -/
structure Step (N : Nat) (V : Type) where
  prev : Option Nat
  keys : List (Arr N)
  values : List V

/-- The previous root, given the results so far; `none` if the call it refers to returned none. -/
def Step.root? (st : Step N V) (rs : List (Res (Arr N))) : Option (Option (Arr N)) :=
  match st.prev with
  | none => some none
  | some i => match rs[i]? with
    | some (.ok r) => some (some r)
    | _ => none

/-- The results of the calls of a script and the final state; a call that refers to a root that does
not exist is left out. -/
def runScript (cfg : Config N σ V) : List (Step N V) → List (Res (Arr N)) → σ →
    List (Res (Arr N)) × σ
  | [], rs, s => (rs, s)
  | st :: sts, rs, s => match st.root? rs with
    | some prev =>
      runScript cfg sts (rs ++ [(insert cfg prev st.keys st.values s).1])
        (insert cfg prev st.keys st.values s).2
    | none => runScript cfg sts rs s

/-- Everything hashed by the calls of a script. -/
def hashedByScript (cfg : Config N σ V) : List (Step N V) → List (Res (Arr N)) → σ → List (HIn N)
  | [], _, _ => []
  | st :: sts, rs, s => match st.root? rs with
    | some prev =>
      hashedByScript cfg sts (rs ++ [(insert cfg prev st.keys st.values s).1])
        (insert cfg prev st.keys st.values s).2 ++ hashedBy cfg prev st.keys st.values s
    | none => hashedByScript cfg sts rs s

end MerkleBit
