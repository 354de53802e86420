import Verif.Model.Traits
/-!
# The hasher adapters

src/tree_hasher/*.rs and the blanket implementation for `Digest` (src/traits.rs:25-49).  The hash
functions themselves are third-party code and stay abstract; modelled is how a digest is turned into
an `Array<N>`, including the slice operations that panic.
-/

namespace MerkleBit

/-- A third-party hash function: a state that absorbs bytes and ends in a digest. -/
structure RawDigest where
  St : Type
  init : St
  update : St → List UInt8 → St
  finish : St → List UInt8

/-- `&value[..n]`: panics when `n` is beyond the end. -/
def sliceTo (value : List UInt8) (n : Nat) : Res (List UInt8) :=
  if n ≤ value.length then .ok (value.take n) else .error (.panic "range end out of bounds")

/-- `v[..n].copy_from_slice(src)` for an array `v`: panics when `n` is beyond the end of `v` or `src`
does not have length `n`. -/
def copyTo {N : Nat} (v : Arr N) (n : Nat) (src : List UInt8) : Res (Arr N) :=
  if h : n ≤ N ∧ src.length = n then
    .ok ⟨src ++ v.bytes.drop n, by simp [v.len]; omega⟩
  else .error (.panic "copy_from_slice")

/-- `DefaultHasher` (src/tree_hasher/default.rs:18-32), `FxHasher` (src/tree_hasher/fx.rs:17-30) and
`SeaHasher` (src/tree_hasher/seahasher.rs:18-31): eight digest bytes (`finish().to_le_bytes()`). -/
def finalize64 (N : Nat) (value : List UInt8) : Res (Arr N) :=
  if N ≥ 8 then copyTo (Arr.zero N) 8 value
  else do
    let src ← sliceTo value N
    copyTo (Arr.zero N) N src

/-- `Sha256Hasher` (src/tree_hasher/sha256.rs:20-34): thirty-two digest bytes. -/
def finalizeSha256 (N : Nat) (value : List UInt8) : Res (Arr N) :=
  if N > 32 then copyTo (Arr.zero N) 32 value
  else do
    let src ← sliceTo value N
    copyTo (Arr.zero N) N src

/-- The blanket implementation for `Digest` (src/traits.rs:35-48). -/
def finalizeDigest (N : Nat) (result : List UInt8) : Res (Arr N) := do
  let size := if N > result.length then result.length else N
  let src ← sliceTo result size
  copyTo (Arr.zero N) size src

/-- `Blake2bHasher` (src/tree_hasher/blake2b_rfc.rs:20-29): `finalized.copy_from_slice(result)`.  Not modelled: the third-party
constructor that `new(size)` calls (lines 10-13) has its own limits on `size` (BLAKE2b has digests of 1 to 64 bytes). -/
def finalizeBlake2b (N : Nat) (result : List UInt8) : Res (Arr N) :=
  copyTo (Arr.zero N) N result

/-- A hasher from a hash function and an adapter.  The model's `finalize` is total; C44 shows which
adapters never panic. -/
def adapted {N : Nat} (D : RawDigest) (fin : List UInt8 → Res (Arr N)) : Hasher N where
  St := D.St
  new _ := D.init
  update := D.update
  finalize st :=
    match fin (D.finish st) with
    | .ok v => v
    | .error _ => Arr.zero N

/-- A third-party sponge: a state that absorbs bytes, and from which bytes are squeezed, as many as one asks for. -/
structure RawSponge where
  St : Type
  init : St
  update : St → List UInt8 → St
  squeeze : St → Nat → UInt8

/-- `KeccakHasher` (src/tree_hasher/keccak.rs:20-28) and `Sha3Hasher` (src/tree_hasher/sha3_openssl.rs:20-24):
`tiny_keccak`'s `finalize` fills the whole array, whatever its length; the documented 32 bytes of the two hash functions
are the first 32 that are squeezed. -/
def finalizeSqueeze (N : Nat) (out : Nat → UInt8) : Arr N := ⟨(List.range N).map out, by simp⟩

/-- `KeccakHasher` and `Sha3Hasher` (src/tree_hasher/keccak.rs, src/tree_hasher/sha3_openssl.rs). -/
def sponged (N : Nat) (D : RawSponge) : Hasher N where
  St := D.St
  new _ := D.init
  update := D.update
  finalize st := finalizeSqueeze N (D.squeeze st)

end MerkleBit
