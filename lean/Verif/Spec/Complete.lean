import Verif.Spec.History
import Verif.Spec.Trie
/-!
# Specification vocabulary: nothing stored is incomplete
-/

namespace MerkleBit
variable {N : Nat} {σ V : Type}

/-- At `x` is a leaf or a branch. -/
def View.TreeAt (v : View N) (x : Arr N) : Prop := ∃ n, v x = some n ∧ ∀ d, n.variant ≠ .data d

/-- What a node points at is there, and is what it has to be: both sides of a branch are leaves or branches, and a leaf points
at data whose hash, together with the key of the leaf, is the pointer. -/
def View.Complete (H : Hasher N) (v : View N) : Variant N → Prop
  | .branch b => v.TreeAt b.zero ∧ v.TreeAt b.one
  | .leaf l => ∃ n d, v l.data = some n ∧ n.variant = .data d ∧ l.data = (HIn.data l.key d.value).hash H
  | .data _ => True

/-- Nothing is stored whose parts are not stored. -/
def View.AllComplete (H : Hasher N) (v : View N) : Prop := ∀ x n, v x = some n → v.Complete H n.variant

/-- Any further inserts: with any arguments and outcomes, at any depth limits, with process deaths and reopening. -/
inductive MoreInserts (cfg : Config N σ V) (C : DbContract cfg.db) (s0 : σ) : List (HIn N) → σ → Prop
  | start : MoreInserts cfg C s0 [] s0
  | insertAt {d : Nat} {H : List (HIn N)} {s s' : σ} {prev : Option (Arr N)} {keys : List (Arr N)} {values : List V}
      {res : Res (Arr N)} :
      MoreInserts cfg C s0 H s → insert (cfg.withDepth d) prev keys values s = (res, s') →
      MoreInserts cfg C s0 (hashedBy (cfg.withDepth d) prev keys values s ++ H) s'
  | crashAt {d : Nat} {H : List (HIn N)} {s s' : σ} {n n' : Nat} {prev : Option (Arr N)} {keys : List (Arr N)}
      {values : List V} {e : Err} :
      MoreInserts cfg C s0 H s → insert (cfg.withDepth d).crash prev keys values (s, n) = (.error e, (s', n')) →
      MoreInserts cfg C s0 (hashedBy (cfg.withDepth d).crash prev keys values (s, n) ++ H) s'
  | reopen {H : List (HIn N)} {s s' : σ} :
      MoreInserts cfg C s0 H s → C.view s' = C.view s → C.pending s' = View.empty N → MoreInserts cfg C s0 H s'

/-- `remove` does not succeed: it returns an error, or the process dies after some of its writes. -/
def RemoveStops (cfg : Config N σ V) (r : Arr N) (s s' : σ) : Prop :=
  (∃ e, remove cfg r s = (.error e, s')) ∨ ∃ e n n', remove cfg.crash r (s, n) = (.error e, (s', n'))

end MerkleBit
