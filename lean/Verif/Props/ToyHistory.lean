import Verif.Proof.Batches
import Verif.Proof.Backends
import Verif.Props.Utils
/-!
# A concrete history

Three inserts into the in-memory database of `Props/Toy.lean`: a first version, an update of it, and
a failing call.
-/

namespace MerkleBit.Toy

/-- The contract of the in-memory database. -/
abbrev C : DbContract cfg.db := hashContract 2

theorem sane : Sane cfg := ⟨by decide, pp_lawful 2, fun _ _ h => by cases h; rfl⟩

theorem room : cfg.Room := by unfold Config.Room isizeMax; decide

theorem deep (M : Contents 2 (List UInt8)) : HeightBelow M cfg.depth :=
  heightBelow_of_bits M (by decide)

/-- The keys 0x0001, 0x0002 and 0x8000. -/
def ks1 : List (Arr 2) := [key 1, key 2, key 0x8000]
/-- Their values. -/
def vs1 : List (List UInt8) := [[10], [20], [30]]
/-- An update of 0x0002, and the new key 0x0005. -/
def ks2 : List (Arr 2) := [key 5, key 2]
/-- Their values. -/
def vs2 : List (List UInt8) := [[50], [21]]

/-- The database after the first insert. -/
def s1 : HashDB 2 := (insert cfg none ks1 vs1 db0).2
/-- The first root. -/
def r1 : Arr 2 := key 24207
/-- The database after the second insert. -/
def s2 : HashDB 2 := (insert cfg (some r1) ks2 vs2 s1).2
/-- The second root. -/
def r2 : Arr 2 := key 56010
/-- The database after a third insert that is refused: 0x0007 occurs twice. -/
def s3 : HashDB 2 := (insert cfg (some r2) [key 7, key 7] [[1], [2]] s2).2

/-- The contents of the first version. -/
def M1 : Contents 2 (List UInt8) := Contents.empty.assign ks1 vs1
/-- The contents of the second version. -/
def M2 : Contents 2 (List UInt8) := M1.assign ks2 vs2

/-- Everything hashed by the first call. -/
def H1 : List (HIn 2) := hashedBy cfg none ks1 vs1 db0 ++ []
/-- Everything hashed by the first two calls. -/
def H2 : List (HIn 2) := hashedBy cfg (some r1) ks2 vs2 s1 ++ H1
/-- Everything hashed by the three calls. -/
def H3 : List (HIn 2) := hashedBy cfg (some r2) [key 7, key 7] [[1], [2]] s2 ++ H2

theorem run1 : insert cfg none ks1 vs1 db0 = (.ok r1, s1) := Prod.ext (by decide +kernel) rfl
theorem run2 : insert cfg (some r1) ks2 vs2 s1 = (.ok r2, s2) := Prod.ext (by decide +kernel) rfl
theorem run3 : insert cfg (some r2) [key 7, key 7] [[1], [2]] s2 =
    (.error (.exception "Attempted to insert item with duplicate keys"), s3) :=
  Prod.ext (by decide +kernel) rfl

theorem noStraddle2 : NoStraddle cfg M1 ks2 := noStraddle_of_new (by
  intro k hk k' hk' h1 h2
  have hd : ∀ k ∈ ks2, M1 k = none → k = key 5 := by decide +kernel
  rw [hd k hk h1, hd k' hk' h2])

theorem hist0 : Inserts cfg C [] [] [] db0 := .start rfl rfl
theorem hist1 : Inserts cfg C H1 [r1] [(r1, M1)] s1 :=
  .good hist0 (prev := none) rfl (handled_empty _) run1
theorem hist2 : Inserts cfg C H2 [r2, r1] [(r2, M2), (r1, M1)] s2 :=
  .good hist1 (prev := some r1) (by simp [Ledger.Prev]) (noStraddle2.handled sane) run2
theorem hist3 : Inserts cfg C H3 [r2, r1] [(r2, M2), (r1, M1)] s3 := .any hist2 run3

theorem free3 : CollisionFree cfg.hasher (Among H3) := collisionFree_of_check (by decide +kernel)
theorem free2 : CollisionFree cfg.hasher (Among H2) :=
  free3.mono (fun _ h => List.mem_append_right _ h)
theorem free1 : CollisionFree cfg.hasher (Among H1) :=
  free2.mono (fun _ h => List.mem_append_right _ h)

theorem alive (s : HashDB 2) : C.alive s := trivial

end MerkleBit.Toy
