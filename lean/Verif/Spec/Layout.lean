import Verif.Model.Nodes
/-!
# Specification vocabulary: the bytes of a node under bincode
-/

namespace MerkleBit
variable {N : Nat}

/-- The number `n` in `w` bytes, the least significant one first. -/
def le (w n : Nat) : List UInt8 := (List.range w).map (fun i => UInt8.ofNat (n / 256 ^ i))

/-- Bytes with their number before them, in eight bytes. -/
def chunk (bs : List UInt8) : List UInt8 := le 8 bs.length ++ bs

/-- The array holds the first `N` of the bytes, and zeros after them if there are fewer. -/
def Padded (a : Arr N) (bs : List UInt8) : Prop := a.bytes = bs.take N ++ List.replicate (N - bs.length) 0

/-- The bytes that are written for a branch, a leaf or data: the kind in four bytes, then the fields. -/
def layout : Variant N → List UInt8
  | .branch b => le 4 0 ++ le 8 b.count ++ chunk b.zero.bytes ++ chunk b.one.bytes ++
      le 8 b.splitIndex ++ chunk b.key.bytes
  | .leaf l => le 4 1 ++ chunk l.key.bytes ++ chunk l.data.bytes
  | .data d => le 4 2 ++ chunk d.value

/-- Bytes that are read as a branch, a leaf or data: as they are written, but with arrays of any length. -/
inductive LaidOut : Variant N → List UInt8 → Prop
  | branch {b : Branch N} {zs os ks : List UInt8} : b.count < 2 ^ 64 → b.splitIndex < 2 ^ 64 →
    Padded b.zero zs → zs.length < 2 ^ 64 → Padded b.one os → os.length < 2 ^ 64 →
    Padded b.key ks → ks.length < 2 ^ 64 →
    LaidOut (.branch b) (le 4 0 ++ le 8 b.count ++ chunk zs ++ chunk os ++ le 8 b.splitIndex ++ chunk ks)
  | leaf {l : Leaf N} {ks ds : List UInt8} : Padded l.key ks → ks.length < 2 ^ 64 →
    Padded l.data ds → ds.length < 2 ^ 64 →
    LaidOut (.leaf l) (le 4 1 ++ chunk ks ++ chunk ds)
  | data {d : Data} : d.value.length < 2 ^ 64 → LaidOut (.data d) (le 4 2 ++ chunk d.value)

end MerkleBit
