import Verif.Spec.Counts
import Verif.Spec.Live
/-!
# Specification vocabulary: what repeated pairs leave behind

`insert` counts the data node of every pair of its batch once more, also if the leaf of the pair is stored
already and so points at it already; and if writes show at once and the previous version has the pair, it
counts the leaf twice.  `Keeps` are histories of successful inserts and removals together with the list of
these references, which belong to no version.
-/

namespace MerkleBit
variable {N : Nat} {σ V : Type}

/-- The contents have the key `k` with a value that is encoded as `b`. -/
def Contents.Has (cfg : Config N σ V) (M : Contents N V) (k : Arr N) (b : List UInt8) : Prop :=
  ∃ v, M k = some v ∧ cfg.encode v = .ok b

open Classical in
/-- The references that a batch adds and that belong to no version, where `L` are the versions live
before, `P` the references left over before and `M` the contents of the previous version.  For each pair:
* one to its data node, if a live version has the pair or there is a reference left over to its leaf;
* one to its leaf, if writes show at once and the previous version has the pair. -/
noncomputable def leftBy (cfg : Config N σ V) (shows : Bool) (L : Ledger N V) (P : List (Item N))
    (M : Contents N V) (keys : List (Arr N)) (values : List V) : List (Item N) :=
  (encodedPairs cfg keys values).flatMap fun e =>
    (if (∃ x ∈ L, x.2.Has cfg e.1 e.2) ∨ .tree (.leaf e.1 e.2) ∈ P then [.data e.1 e.2] else []) ++
    (if shows = true ∧ M.Has cfg e.1 e.2 then [.tree (.leaf e.1 e.2)] else [])

/-- Histories of successful inserts on top of live versions and of successful removals of live versions.
The inserts straddle no branch and write no group of two or more pairs of a live version again; single
pairs may be written again.  `H` is everything that was hashed, `L` the ledger of the live versions and `P`
the references left over (most recent first). -/
inductive Keeps (cfg : Config N σ V) (C : DbContract cfg.db) (shows : Bool) :
    List (HIn N) → Ledger N V → List (Item N) → σ → Prop
  | start {s : σ} : C.view s = View.empty N → C.pending s = View.empty N → Keeps cfg C shows [] [] [] s
  | insertAt {d : Nat} {H : List (HIn N)} {L : Ledger N V} {P : List (Item N)} {s s' : σ}
      {prev : Option (Arr N)} {M : Contents N V} {keys : List (Arr N)} {values : List V} {r : Arr N} :
      Keeps cfg C shows H L P s → Careful cfg C False L s prev M keys values →
      MerkleBit.insert (cfg.withDepth d) prev keys values s = (.ok r, s') →
      Keeps cfg C shows (hashedBy (cfg.withDepth d) prev keys values s ++ H) ((r, M.assign keys values) :: L)
        (leftBy cfg shows L P M keys values ++ P) s'
  | remove {H : List (HIn N)} {L1 L2 : Ledger N V} {P : List (Item N)} {s s' : σ} {r : Arr N}
      {M : Contents N V} :
      Keeps cfg C shows H (L1 ++ (r, M) :: L2) P s → MerkleBit.remove cfg r s = (.ok (), s') →
      Keeps cfg C shows H (L1 ++ L2) P s'
  | reopen {H : List (HIn N)} {L : Ledger N V} {P : List (Item N)} {s s' : σ} :
      Keeps cfg C shows H L P s → C.view s' = C.view s → C.pending s' = View.empty N →
      Keeps cfg C shows H L P s'

/-- A call with the limit of `cfg`. -/
theorem Keeps.insert {cfg : Config N σ V} {C : DbContract cfg.db} {shows : Bool}
    {H : List (HIn N)} {L : Ledger N V} {P : List (Item N)} {s s' : σ}
    {prev : Option (Arr N)} {M : Contents N V} {keys : List (Arr N)} {values : List V} {r : Arr N} :
    Keeps cfg C shows H L P s → Careful cfg C False L s prev M keys values →
    MerkleBit.insert cfg prev keys values s = (.ok r, s') →
    Keeps cfg C shows (hashedBy cfg prev keys values s ++ H) ((r, M.assign keys values) :: L)
      (leftBy cfg shows L P M keys values ++ P) s' :=
  Keeps.insertAt (d := cfg.depth)

end MerkleBit
