import Verif.Proof.Backends
/-!
# A lawful serialization of nodes that can be evaluated

Numbers in unary.  Used for concrete cases on RocksDB; the bincode serialization of the crate is in
`Model/Bincode.lean`.
-/

namespace MerkleBit.ToyCodec

/-- A number in unary. -/
def put (n : Nat) : List UInt8 := List.replicate n 1 ++ [0]

/-- The numbers of a byte string, the first of them increased by `n`. -/
def nums : Nat → List UInt8 → List Nat
  | _, [] => []
  | n, b :: l => if b = 0 then n :: nums 0 l else nums (n + 1) l

theorem nums_put (l : List UInt8) : ∀ (n m : Nat), nums m (put n ++ l) = (m + n) :: nums 0 l
  | 0, m => by simp [put, nums]
  | n + 1, m => by
    have := nums_put l n (m + 1)
    simp only [put, List.replicate_succ, List.cons_append, List.append_assoc] at this ⊢
    rw [nums, if_neg (by decide), this]
    congr 1
    omega

theorem nums_flatMap : ∀ l : List Nat, nums 0 (l.flatMap put) = l
  | [] => rfl
  | n :: l => by
    rw [List.flatMap_cons, nums_put, nums_flatMap l]
    simp

/-- The first byte of a key. -/
def hi (x : Arr 2) : Nat := (x.bytes.headD 0).toNat
/-- The second byte of a key. -/
def lo (x : Arr 2) : Nat := (x.bytes.tail.headD 0).toNat
/-- A key from its bytes. -/
def arr (a b : Nat) : Arr 2 := ⟨[UInt8.ofNat a, UInt8.ofNat b], rfl⟩

theorem arr_eq (x : Arr 2) : arr (hi x) (lo x) = x := by
  obtain ⟨l, hl⟩ := x
  match l, hl with
  | [a, b], _ => simp [arr, hi, lo]

/-- A node as numbers. -/
def toNums : Node 2 → List Nat
  | ⟨r, .branch b⟩ => [0, r, b.count, b.splitIndex, hi b.zero, lo b.zero, hi b.one, lo b.one,
      hi b.key, lo b.key]
  | ⟨r, .leaf l⟩ => [1, r, hi l.key, lo l.key, hi l.data, lo l.data]
  | ⟨r, .data d⟩ => 2 :: r :: d.value.map UInt8.toNat

/-- A node from its numbers. -/
def ofNums : List Nat → Res (Node 2)
  | [0, r, c, s, z, z', o, o', k, k'] => .ok ⟨r, .branch ⟨c, arr z z', arr o o', s, arr k k'⟩⟩
  | [1, r, k, k', d, d'] => .ok ⟨r, .leaf ⟨arr k k', arr d d'⟩⟩
  | 2 :: r :: bs => .ok ⟨r, .data ⟨bs.map UInt8.ofNat⟩⟩
  | _ => .error (.exception "decode")

theorem ofNums_toNums (n : Node 2) : ofNums (toNums n) = .ok n := by
  obtain ⟨r, v⟩ := n
  cases v with
  | branch b => simp [toNums, ofNums, arr_eq]
  | leaf l => simp [toNums, ofNums, arr_eq]
  | data d =>
    have h : (UInt8.ofNat ∘ UInt8.toNat) = id := by funext x; simp
    simp [toNums, ofNums, h]

/-- The serialization. -/
def codec : NodeCodec 2 := ⟨fun n => .ok ((toNums n).flatMap put), fun b => ofNums (nums 0 b)⟩

theorem lawful : LawfulCodec codec where
  round n := ⟨_, rfl, by simp only [codec, nums_flatMap, ofNums_toNums]⟩
  err b e h := by
    simp only [codec] at h
    unfold ofNums at h
    split at h <;> cases h
    exact ⟨_, rfl⟩

end MerkleBit.ToyCodec
