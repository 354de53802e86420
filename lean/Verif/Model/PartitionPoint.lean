import Verif.Model.TreeUtils
/-!
# `slice::partition_point`

The standard library documents the result of `partition_point` only for partitioned slices.  The theorems
hold for every function that meets this contract (`PartitionPoint.Lawful`).  This file has the two
binary searches that releases of Rust have used, so that counterexamples can be shown for the functions
that really run.
-/

namespace MerkleBit
variable {N : Nat}

/-- The predicate of `partition_point` at an index. -/
def predAt (l : List (Arr N)) (p : Arr N → Bool) (i : Nat) : Bool :=
  match l[i]? with
  | some x => p x
  | none => false

/-- The loop of `binary_search_by` in Rust 1.52 to 1.81 (library/core/src/slice/mod.rs): `mid = left +
(right - left) / 2`; the first argument bounds the number of steps. -/
def bisect (p : Nat → Bool) : Nat → Nat → Nat → Nat
  | 0, left, _ => left
  | n + 1, left, right =>
    if left < right then
      if p (left + (right - left) / 2) then bisect p n (left + (right - left) / 2 + 1) right
      else bisect p n left (left + (right - left) / 2)
    else left

/-- `partition_point` in Rust 1.52 to 1.81. -/
def stdPartitionPoint (N : Nat) : PartitionPoint N :=
  ⟨fun l p => bisect (predAt l p) l.length 0 l.length⟩

/-- The loop of `binary_search_by` since Rust 1.82 (library/core/src/slice/mod.rs): halves the size and
keeps the base; the first argument bounds the number of steps. -/
def halve (p : Nat → Bool) : Nat → Nat → Nat → Nat
  | 0, base, _ => base
  | n + 1, base, size =>
    if size > 1 then halve p n (if p (base + size / 2) then base + size / 2 else base) (size - size / 2)
    else if p base then base + 1 else base

/-- `partition_point` since Rust 1.82. -/
def newPartitionPoint (N : Nat) : PartitionPoint N :=
  ⟨fun l p => if l.length = 0 then 0 else halve (predAt l p) l.length 0 l.length⟩

end MerkleBit
