import Verif.Proof.Layout
import Verif.Props.Toy
/-!
# C43: serialization of nodes

`Bincode.Fits` says that the numbers in the node are values of `u64`/`usize`, as they are for every
Rust value; the key length `N` is a `usize` itself.
-/

namespace MerkleBit
variable {N : Nat}
open Bincode

/-- C43: decoding the encoding of a node yields the node, also when other bytes follow. -/
theorem C43_node_round_trip (hN : N < 2 ^ 64) (n : Node N) (hn : Fits n) :
    ∃ bs, (codec N).encode n = .ok bs ∧ ∀ rest, (codec N).decode (bs ++ rest) = .ok n := by
  refine ⟨_, rfl, fun rest => ?_⟩
  simp only [codec, decoded, getNode_putNode hN n rest hn]

/-- C43: encodings of different nodes differ. -/
theorem C43_encodings_differ (hN : N < 2 ^ 64) {m n : Node N} (hm : Fits m) (hn : Fits n)
    (hne : m ≠ n) : (codec N).encode m ≠ (codec N).encode n := by
  intro h
  obtain ⟨bs, hb, hr⟩ := C43_node_round_trip hN m hm
  obtain ⟨bs', hb', hr'⟩ := C43_node_round_trip hN n hn
  rw [h, hb'] at hb
  cases hb
  have := (hr []).symm.trans (hr' [])
  cases this
  exact hne rfl

/-- C43: a truncated encoding is rejected with an error. -/
theorem C43_truncated_rejected (hN : N < 2 ^ 64) (n : Node N) (hn : Fits n) {bs p q : List UInt8}
    (hb : (codec N).encode n = .ok bs) (hp : bs = p ++ q) (hq : q ≠ []) :
    ∃ msg, (codec N).decode p = .error (.exception msg) := by
  simp only [codec, Except.ok.injEq] at hb
  simp only [codec, decoded]
  cases hd : getNode N p with
  | none => exact ⟨_, rfl⟩
  | some x =>
    obtain ⟨m, rest⟩ := x
    exfalso
    have h1 := prefixed_getNode N p q m rest hd
    have h2 := getNode_putNode hN n [] hn
    rw [List.append_nil, hb, hp, h1] at h2
    simp only [Option.some.injEq, Prod.mk.injEq, List.append_eq_nil_iff] at h2
    exact hq h2.2.2

/-- C43: decoding never panics: it yields a node or an ordinary error, for all bytes. -/
theorem C43_decode_total (bs : List UInt8) :
    (∃ n, (codec N).decode bs = .ok n) ∨ ∃ msg, (codec N).decode bs = .error (.exception msg) := by
  simp only [codec, decoded]
  split
  · exact .inl ⟨_, rfl⟩
  · exact .inr ⟨_, rfl⟩

/-- C43: a byte string of any length decodes to an array: its first `N` bytes, followed by zeros if
there are fewer. -/
theorem C43_array_lengths (v rest : List UInt8) (hv : v.length < 2 ^ 64) :
    ∃ a : Arr N, getArr N (putBytes v ++ rest) = some (a, rest) ∧
      ∀ i < N, a.bytes[i]? = some (v.getD i 0) := by
  refine ⟨visitBytes N v, by simp only [getArr, getBytes_putBytes v rest hv], fun i hi => ?_⟩
  simp only [visitBytes]
  by_cases h : i < v.length
  · rw [List.getElem?_append_left (by simp; omega), List.getElem?_take_of_lt hi]
    simp [List.getD, List.getElem?_eq_getElem h]
  · rw [List.getElem?_append_right (by simp; omega), List.getElem?_replicate]
    simp [List.getD, List.getElem?_eq_none (Nat.le_of_not_lt h)]
    omega

/-- One byte read as a two-byte array, three bytes read as a two-byte array. -/
example : getArr 2 (putBytes [7]) = some (⟨[7, 0], rfl⟩, []) ∧
    getArr 2 (putBytes [7, 8, 9]) = some (⟨[7, 8], rfl⟩, []) := by decide

/-- C43: the encodings of branches, leaves and data on their own also round-trip. -/
theorem C43_parts_round_trip (hN : N < 2 ^ 64) (rest : List UInt8) :
    (∀ b : Branch N, b.count < 2 ^ 64 → b.splitIndex < 2 ^ 64 →
      decoded (getBranch N) (putBranch b ++ rest) = .ok b) ∧
    (∀ l : Leaf N, decoded (getLeaf N) (putLeaf l ++ rest) = .ok l) ∧
    (∀ d : Data, d.value.length < 2 ^ 64 → decoded getData (putData d ++ rest) = .ok d) := by
  refine ⟨fun b h1 h2 => ?_, fun l => ?_, fun d h => ?_⟩
  · simp only [decoded, getBranch_putBranch hN b rest h1 h2]
  · simp only [decoded, getLeaf_putLeaf hN l rest]
  · simp only [decoded, getData_putData d rest h]

/-- C43: the RocksDB backend with bincode nodes meets the database contract that the other
properties assume.  `wide` is bincode on every node whose numbers fit and differs only on nodes that
Rust cannot represent. -/
theorem C43_bincode_lawful (hN : N < 2 ^ 64) :
    LawfulCodec (wide N) ∧
    (∀ n : Node N, Fits n → (wide N).encode n = (codec N).encode n) ∧
    ∀ bs (n : Node N), (codec N).decode bs = .ok n → (wide N).decode bs = .ok n :=
  ⟨wide_lawful hN, fun _ => wide_encode, fun _ _ => wide_decode⟩

/-- A branch with distinct fields. -/
def Toy.branchNode : Node 2 :=
  ⟨3, .branch ⟨258, Toy.key 513, Toy.key 1027, 7, Toy.key 772⟩⟩

example : Fits Toy.branchNode ∧ (2 : Nat) < 2 ^ 64 := by decide
example : (codec 2).encode Toy.branchNode = .ok
    ([3, 0, 0, 0, 0, 0, 0, 0] ++ [0, 0, 0, 0] ++ [2, 1, 0, 0, 0, 0, 0, 0] ++
      [2, 0, 0, 0, 0, 0, 0, 0, 2, 1] ++ [2, 0, 0, 0, 0, 0, 0, 0, 4, 3] ++
      [7, 0, 0, 0, 0, 0, 0, 0] ++ [2, 0, 0, 0, 0, 0, 0, 0, 3, 4]) := by decide
example : Fits (⟨1, .data ⟨[1, 2, 3]⟩⟩ : Node 2) := by decide

/-- C43: the bytes that are written for a node: its reference count in eight bytes, its kind in four, and its
fields in order, numbers in eight bytes, arrays and values with their length before them. -/
theorem C43_layout_written (n : Node N) :
    (codec N).encode n = .ok (le 8 n.references ++ layout n.variant) := by
  simp only [codec, putNode, putU64, putLE_eq, putVariant_eq]

/-- C43: which bytes are read as which node, whoever wrote them: those of the same layout, with arrays of any
length (cut off or filled up with zeros), and with anything after them. -/
theorem C43_layout_read (bs : List UInt8) (n : Node N) : (codec N).decode bs = .ok n ↔
    ∃ body rest, bs = le 8 n.references ++ body ++ rest ∧ n.references < 2 ^ 64 ∧ LaidOut n.variant body := by
  simp only [codec, decoded]
  constructor
  · intro h
    split at h
    · next m rest hm =>
      cases h
      obtain ⟨body, h1, h2⟩ := getNode_iff.1 hm
      exact ⟨body, rest, h1, h2⟩
    · cases h
  · rintro ⟨body, rest, h1, h2⟩
    rw [getNode_iff.2 ⟨body, h1, h2⟩]

/-- C43: how many bytes a node takes. -/
theorem C43_sizes (n : Node N) : ∃ bs, (codec N).encode n = .ok bs ∧ bs.length = match n.variant with
    | .branch _ => 3 * N + 52
    | .leaf _ => 2 * N + 28
    | .data d => d.value.length + 20 := by
  refine ⟨_, C43_layout_written n, ?_⟩
  rcases n with ⟨refs, b | l | d⟩ <;>
    simp only [layout, chunk, List.length_append, le_length, Arr.len] <;> omega

/-- A leaf whose key is stored with three bytes and whose data location is stored with one. -/
example : (codec 2).decode ([1, 0, 0, 0, 0, 0, 0, 0] ++ [1, 0, 0, 0] ++
      [3, 0, 0, 0, 0, 0, 0, 0, 1, 2, 3] ++ [1, 0, 0, 0, 0, 0, 0, 0, 9] ++ [77]) =
      .ok ⟨1, .leaf ⟨⟨[1, 2], rfl⟩, ⟨[9, 0], rfl⟩⟩⟩ ∧
    LaidOut (N := 2) (.leaf ⟨⟨[1, 2], rfl⟩, ⟨[9, 0], rfl⟩⟩) (le 4 1 ++ chunk [1, 2, 3] ++ chunk [9]) :=
  ⟨by decide, .leaf rfl (by decide) rfl (by decide)⟩

end MerkleBit
