import Verif.Spec.History
/-!
# Specification vocabulary: lineages

`Roots` describes the same histories as `Inserts`, but keeps for *every* root returned on top of a known
root (or of nothing), straddled branches or not, its lineage: all pairs that were inserted on the way to
it, the latest first.
-/

namespace MerkleBit
variable {N : Nat} {σ V : Type}

/-- The pairs inserted on the way to a root, the latest batch first. -/
abbrev Lineage (N : Nat) (V : Type) := List (Arr N × V)

/-- The contents a root is meant to have: for each key the value inserted last. -/
def Lineage.contents (ℓ : Lineage N V) : Contents N V := fun k =>
  (ℓ.find? (fun e => e.1 = k)).map (·.2)

/-- Roots with their lineages. -/
abbrev Lineages (N : Nat) (V : Type) := List (Arr N × Lineage N V)

/-- A previous-root argument with lineage `ℓ`. -/
def Lineages.Prev (L : Lineages N V) : Option (Arr N) → Lineage N V → Prop
  | none, ℓ => ℓ = []
  | some r, ℓ => (r, ℓ) ∈ L

/-- States reachable by inserts, with the lineages of the returned roots.  `H` is everything that was
hashed.
* `anyAt`: any `insert` call whatsoever, whatever its arguments and outcome.
* `extendAt`: a successful `insert` on top of a known root (or of nothing).
* `crashAt`, `reopen`: as for `Inserts`.  Every call may have its own depth limit `d`. -/
inductive Roots (cfg : Config N σ V) (C : DbContract cfg.db) :
    List (HIn N) → Lineages N V → σ → Prop
  | start {s : σ} : C.view s = View.empty N → C.pending s = View.empty N → Roots cfg C [] [] s
  | anyAt {d : Nat} {H : List (HIn N)} {L : Lineages N V} {s s' : σ} {prev : Option (Arr N)}
      {keys : List (Arr N)} {values : List V} {res : Res (Arr N)} :
      Roots cfg C H L s → insert (cfg.withDepth d) prev keys values s = (res, s') →
      Roots cfg C (hashedBy (cfg.withDepth d) prev keys values s ++ H) L s'
  | extendAt {d : Nat} {H : List (HIn N)} {L : Lineages N V} {s s' : σ} {prev : Option (Arr N)}
      {ℓ : Lineage N V} {keys : List (Arr N)} {values : List V} {r : Arr N} :
      Roots cfg C H L s → L.Prev prev ℓ → insert (cfg.withDepth d) prev keys values s = (.ok r, s') →
      Roots cfg C (hashedBy (cfg.withDepth d) prev keys values s ++ H) ((r, keys.zip values ++ ℓ) :: L) s'
  | crashAt {d : Nat} {H : List (HIn N)} {L : Lineages N V} {s s' : σ} {n n' : Nat} {prev : Option (Arr N)}
      {keys : List (Arr N)} {values : List V} {e : Err} :
      Roots cfg C H L s → insert (cfg.withDepth d).crash prev keys values (s, n) = (.error e, (s', n')) →
      Roots cfg C (hashedBy (cfg.withDepth d).crash prev keys values (s, n) ++ H) L s'
  | reopen {H : List (HIn N)} {L : Lineages N V} {s s' : σ} :
      Roots cfg C H L s → C.view s' = C.view s → C.pending s' = View.empty N → Roots cfg C H L s'

/-- A call with the limit of `cfg`. -/
theorem Roots.any {cfg : Config N σ V} {C : DbContract cfg.db}
    {H : List (HIn N)} {L : Lineages N V} {s s' : σ} {prev : Option (Arr N)}
      {keys : List (Arr N)} {values : List V} {res : Res (Arr N)} :
      Roots cfg C H L s → insert cfg prev keys values s = (res, s') →
      Roots cfg C (hashedBy cfg prev keys values s ++ H) L s' :=
  Roots.anyAt (d := cfg.depth)

/-- A call with the limit of `cfg`. -/
theorem Roots.extend {cfg : Config N σ V} {C : DbContract cfg.db}
    {H : List (HIn N)} {L : Lineages N V} {s s' : σ} {prev : Option (Arr N)}
      {ℓ : Lineage N V} {keys : List (Arr N)} {values : List V} {r : Arr N} :
      Roots cfg C H L s → L.Prev prev ℓ → insert cfg prev keys values s = (.ok r, s') →
      Roots cfg C (hashedBy cfg prev keys values s ++ H) ((r, keys.zip values ++ ℓ) :: L) s' :=
  Roots.extendAt (d := cfg.depth)

/-- A call with the limit of `cfg`. -/
theorem Roots.crash {cfg : Config N σ V} {C : DbContract cfg.db}
    {H : List (HIn N)} {L : Lineages N V} {s s' : σ} {n n' : Nat} {prev : Option (Arr N)}
      {keys : List (Arr N)} {values : List V} {e : Err} :
      Roots cfg C H L s → insert cfg.crash prev keys values (s, n) = (.error e, (s', n')) →
      Roots cfg C (hashedBy cfg.crash prev keys values (s, n) ++ H) L s' :=
  Roots.crashAt (d := cfg.depth)

end MerkleBit
