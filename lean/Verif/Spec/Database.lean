import Verif.Model.Traits
/-!
# Specification vocabulary: what is expected of a database

The contract of `trait Database` (src/traits.rs:141-167) that the properties rely on.  It allows
a database whose `insert` is only queued until `batch_write`, and it allows every call to fail.
`HashDB` and `RocksDB` are shown to satisfy it (`Proof/Backends.lean`).
-/

namespace MerkleBit

/-- What a database holds: a partial map from locations to nodes. -/
abbrev View (N : Nat) := Arr N → Option (Node N)

/-- The view after writing one node. -/
def View.put {N : Nat} (v : View N) (x : Arr N) (n : Node N) : View N :=
  fun y => if y = x then some n else v y

/-- The view after deleting one node. -/
def View.del {N : Nat} (v : View N) (x : Arr N) : View N :=
  fun y => if y = x then none else v y

/-- The empty view. -/
def View.empty (N : Nat) : View N := fun _ => none

/-- A view overridden by queued writes. -/
def View.overlay {N : Nat} (v pending : View N) : View N := fun x => (pending x).or (v x)

/-- An error other than a panic (or the model's fuel marker). -/
def Err.IsException (e : Err) : Prop := ∃ msg, e = .exception msg

/-- Contract of `trait Database` (src/traits.rs:141-167).
`view s` is what `get_node` reads, `pending s` the queued writes it does not see yet, and
`alive s` means that no call fails from here on.  An `insert` either takes effect at once, in which
case nothing is queued, or is queued.  A failed call leaves `view` alone; a failed
`batch_write` may lose the queue. -/
structure DbContract {N : Nat} {σ : Type} (db : Database N σ) where
  view : σ → View N
  pending : σ → View N
  alive : σ → Prop
  getNode_ok : ∀ {s x r}, db.getNode s x = .ok r → r = view s x
  getNode_err : ∀ {s x e}, db.getNode s x = .error e → ¬ alive s ∧ e.IsException
  insert_ok : ∀ {s s' x n}, db.insert x n s = (.ok (), s') → (alive s → alive s') ∧
    ((pending s = View.empty N ∧ view s' = (view s).put x n ∧ pending s' = View.empty N) ∨
      (view s' = view s ∧ pending s' = (pending s).put x n))
  insert_err : ∀ {s s' x n e}, db.insert x n s = (.error e, s') →
    ¬ alive s ∧ e.IsException ∧ view s' = view s ∧ pending s' = pending s
  remove_ok : ∀ {s s' x}, db.remove x s = (.ok (), s') → (alive s → alive s') ∧
    view s' = (view s).del x ∧ pending s' = pending s
  remove_err : ∀ {s s' x e}, db.remove x s = (.error e, s') →
    ¬ alive s ∧ e.IsException ∧ view s' = view s ∧ pending s' = pending s
  batchWrite_ok : ∀ {s s'}, db.batchWrite s = (.ok (), s') → (alive s → alive s') ∧
    view s' = (view s).overlay (pending s) ∧ pending s' = View.empty N
  batchWrite_err : ∀ {s s' e}, db.batchWrite s = (.error e, s') →
    ¬ alive s ∧ e.IsException ∧ view s' = view s ∧
      (pending s' = pending s ∨ pending s' = View.empty N)

/-- What `get_node` will read once the queued writes are confirmed. -/
def DbContract.settled {N : Nat} {σ : Type} {db : Database N σ} (C : DbContract db) (s : σ) :
    View N := (C.view s).overlay (C.pending s)

/-- The depth limit is small enough for the reservations of `generate_inclusion_proof`: `depth` entries of
`N + 1` bytes are no more than `isize::MAX` bytes. -/
def Config.Room {V : Type} (cfg : Config N σ V) : Prop := cfg.depth * (N + 1) ≤ isizeMax

end MerkleBit
