import Mathlib.Data.List.Sort
/-!
# `Array<N>`

src/lib.rs:119-128: `[u8; N]`, or a newtype around it with derived order and equality.  Keys and
node locations are both `Array<N>`.
-/

namespace MerkleBit

/-- `Array<N>` (src/lib.rs:119-128): exactly `N` bytes. -/
structure Arr (N : Nat) where
  bytes : List UInt8
  len : bytes.length = N
deriving DecidableEq

/-- Derived lexicographic order on `[u8; N]` (src/lib.rs:125-128), strict part. -/
def bytesLt : List UInt8 → List UInt8 → Bool
  | [], [] => false
  | [], _ :: _ => true
  | _ :: _, [] => false
  | a :: as, b :: bs => if a < b then true else if b < a then false else bytesLt as bs

namespace Arr
variable {N : Nat}

/-- `a < b` on `Array<N>`. -/
def lt (a b : Arr N) : Prop := bytesLt a.bytes b.bytes = true

instance : DecidableRel (Arr.lt (N := N)) := fun a b =>
  inferInstanceAs (Decidable (bytesLt a.bytes b.bytes = true))

/-- `a <= b` on `Array<N>`. -/
def le (a b : Arr N) : Prop := ¬ lt b a

instance : DecidableRel (Arr.le (N := N)) := fun a b =>
  inferInstanceAs (Decidable (¬ lt b a))

/-- `[0; N]` / `Array::default()` (src/lib.rs:139-145). -/
def zero (N : Nat) : Arr N := ⟨List.replicate N 0, by simp⟩

end Arr

/-- `keys.sort_unstable()` (src/merkle_bit.rs:88, 203).  Equal keys are indistinguishable, so every
sorting algorithm returns this list. -/
def sortKeys {N : Nat} (keys : List (Arr N)) : List (Arr N) :=
  keys.insertionSort Arr.le

end MerkleBit
