import Verif.Model.HashDB
import Verif.Model.PartitionPoint
/-!
# A concrete instance

Two-byte keys, a small polynomial hash, byte-string values and the in-memory database.  Used to show
that the hypotheses of theorems are met by non-trivial cases, and to exhibit counterexamples.
-/

namespace MerkleBit.Toy

/-- A polynomial hash with values below 65521. -/
def fin (bs : List UInt8) : Nat := bs.foldl (fun h b => (h * 257 + b.toNat + 1) % 65521) 7

/-- A two-byte key. -/
def key (n : Nat) : Arr 2 := ⟨[UInt8.ofNat (n / 256), UInt8.ofNat n], rfl⟩

/-- Hasher whose state is the input so far. -/
def hasher : Hasher 2 := ⟨List UInt8, fun _ => [], fun s d => s ++ d, fun s => key (fin s)⟩

/-- The `partition_point` of Rust 1.52 to 1.81. -/
def pp (N : Nat) : PartitionPoint N := stdPartitionPoint N

/-- Configuration with the default-sized depth limit `8N + 1`. -/
def cfg : Config 2 (HashDB 2) (List UInt8) := ⟨hashDatabase 2, hasher, .ok, .ok, pp 2, 17⟩

/-- The empty database. -/
def db0 : HashDB 2 := HashDB.open 2

/-- `insert` with keys and one-byte values given by numbers. -/
def ins (prev : Option (Arr 2)) (ks : List Nat) (vs : List UInt8) : M (HashDB 2) (Arr 2) :=
  MerkleBit.insert cfg prev (ks.map key) (vs.map (fun v => [v]))

end MerkleBit.Toy
