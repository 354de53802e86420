import Verif.Model.Bincode
import Verif.Proof.Backends
import Mathlib.Data.Countable.Basic
import Mathlib.Logic.Equiv.List
/-!
# The bincode format round-trips
-/

namespace MerkleBit.Bincode
variable {N : Nat}

/-- The numbers in the node are values of the Rust types `u64` and `usize` (64 bit). -/
def Fits : Node N → Prop
  | ⟨r, .branch b⟩ => r < 2 ^ 64 ∧ b.count < 2 ^ 64 ∧ b.splitIndex < 2 ^ 64
  | ⟨r, .leaf _⟩ => r < 2 ^ 64
  | ⟨r, .data d⟩ => r < 2 ^ 64 ∧ d.value.length < 2 ^ 64

instance (n : Node N) : Decidable (Fits n) := by
  rcases n with ⟨r, b | l | d⟩ <;> simp only [Fits] <;> infer_instance

theorem getLE_putLE (w : Nat) : ∀ (n : Nat) (rest : List UInt8), n < 256 ^ w →
    getLE w (putLE w n ++ rest) = some (n, rest) := by
  induction w with
  | zero =>
    intro n rest h
    have : n = 0 := by simpa using h
    subst this; rfl
  | succ w ih =>
    intro n rest h
    have h' : n / 256 < 256 ^ w := by
      rw [Nat.pow_succ] at h
      exact Nat.div_lt_of_lt_mul (by omega)
    have hn : n % 256 + 256 * (n / 256) = n := by omega
    simp only [putLE, List.cons_append, getLE, ih _ rest h', Option.some.injEq, Prod.mk.injEq,
      and_true, UInt8.toNat_ofNat']
    simpa using hn

theorem getU64_putU64 {n : Nat} (rest : List UInt8) (h : n < 2 ^ 64) :
    getU64 (putU64 n ++ rest) = some (n, rest) :=
  getLE_putLE 8 n rest (Nat.lt_of_lt_of_eq h (by decide))

theorem getBytes_putBytes (bs rest : List UInt8) (h : bs.length < 2 ^ 64) :
    getBytes (putBytes bs ++ rest) = some (bs, rest) := by
  unfold getBytes putBytes
  rw [List.append_assoc, getU64_putU64 _ h]
  simp

theorem visitBytes_bytes (a : Arr N) : visitBytes N a.bytes = a := by
  rcases a with ⟨bs, rfl⟩
  simp [visitBytes]

theorem getArr_putArr (hN : N < 2 ^ 64) (a : Arr N) (rest : List UInt8) :
    getArr N (putArr a ++ rest) = some (a, rest) := by
  unfold getArr putArr
  rw [getBytes_putBytes _ _ (by rw [a.len]; exact hN)]
  simp only [visitBytes_bytes]

theorem getBranch_putBranch (hN : N < 2 ^ 64) (b : Branch N) (rest : List UInt8)
    (h1 : b.count < 2 ^ 64) (h2 : b.splitIndex < 2 ^ 64) :
    getBranch N (putBranch b ++ rest) = some (b, rest) := by
  simp only [getBranch, putBranch, List.append_assoc, getU64_putU64 _ h1, getU64_putU64 _ h2,
    getArr_putArr hN, Option.bind_eq_bind, Option.bind_some]

theorem getLeaf_putLeaf (hN : N < 2 ^ 64) (l : Leaf N) (rest : List UInt8) :
    getLeaf N (putLeaf l ++ rest) = some (l, rest) := by
  simp only [getLeaf, putLeaf, List.append_assoc, getArr_putArr hN, Option.bind_eq_bind,
    Option.bind_some]

theorem getData_putData (d : Data) (rest : List UInt8) (h : d.value.length < 2 ^ 64) :
    getData (putData d ++ rest) = some (d, rest) := by
  simp only [getData, putData, getBytes_putBytes _ _ h, Option.bind_eq_bind, Option.bind_some]

theorem getNode_putNode (hN : N < 2 ^ 64) (n : Node N) (rest : List UInt8) (h : Fits n) :
    getNode N (putNode n ++ rest) = some (n, rest) := by
  rcases n with ⟨r, b | l | d⟩ <;> simp only [Fits] at h
  · simp only [getNode, putNode, getVariant, putVariant, List.append_assoc, getU64_putU64 _ h.1,
      getLE_putLE 4 0 _ (by decide), getBranch_putBranch hN _ _ h.2.1 h.2.2, Option.bind_eq_bind,
      Option.bind_some, if_true]
  · simp only [getNode, putNode, getVariant, putVariant, List.append_assoc, getU64_putU64 _ h,
      getLE_putLE 4 1 _ (by decide), getLeaf_putLeaf hN, Option.bind_eq_bind,
      Option.bind_some, if_true]
    rfl
  · simp only [getNode, putNode, getVariant, putVariant, List.append_assoc, getU64_putU64 _ h.1,
      getLE_putLE 4 2 _ (by decide), getData_putData _ _ h.2, Option.bind_eq_bind,
      Option.bind_some, if_true]
    rfl

/-! ## A codec for the unbounded numbers of the model -/

/-- The contents of a node as lists of numbers and bytes. -/
def flat (n : Node N) : Nat × List (List UInt8) × List Nat :=
  match n.variant with
  | .branch b => (0, [b.zero.bytes, b.one.bytes, b.key.bytes], [n.references, b.count, b.splitIndex])
  | .leaf l => (1, [l.key.bytes, l.data.bytes], [n.references])
  | .data d => (2, [d.value], [n.references])

theorem flat_inj : Function.Injective (flat (N := N)) := by
  rintro ⟨r, b | l | d⟩ ⟨r', b' | l' | d'⟩ h <;> simp [flat] at h
  · rcases b with ⟨c, ⟨z, hz⟩, ⟨o, ho⟩, i, ⟨k, hk⟩⟩
    rcases b' with ⟨c', ⟨z', hz'⟩, ⟨o', ho'⟩, i', ⟨k', hk'⟩⟩
    simp only at h
    obtain ⟨⟨rfl, rfl, rfl⟩, rfl, rfl, rfl⟩ := h
    rfl
  · rcases l with ⟨⟨z, hz⟩, ⟨o, ho⟩⟩
    rcases l' with ⟨⟨z', hz'⟩, ⟨o', ho'⟩⟩
    simp only at h
    obtain ⟨⟨rfl, rfl⟩, rfl⟩ := h
    rfl
  · rcases d with ⟨v⟩
    rcases d' with ⟨v'⟩
    simp only at h
    obtain ⟨rfl, rfl⟩ := h
    rfl

instance : Countable UInt8 :=
  Function.Injective.countable (f := UInt8.toNat) (fun _ _ h => UInt8.toNat_inj.mp h)

instance : Countable (Node N) := Function.Injective.countable flat_inj

/-- A numbering of nodes. -/
noncomputable def number : Node N → Nat := (exists_injective_nat (Node N)).choose

theorem number_inj : Function.Injective (number (N := N)) := (exists_injective_nat (Node N)).choose_spec

/-- Bytes that bincode rejects (variant index 3). -/
def escape (k : Nat) : List UInt8 := putU64 0 ++ putLE 4 3 ++ List.replicate k 0

theorem getNode_escape (k : Nat) : getNode N (escape k) = none := by
  simp only [getNode, escape, getVariant, List.append_assoc,
    getU64_putU64 (n := 0) _ (by decide), getLE_putLE 4 3 _ (by decide), Option.bind_eq_bind,
    Option.bind_some]
  rfl

open Classical in
/-- The bincode format, extended to nodes with numbers of `2^64` or more, which exist in the model
but not in Rust: they are written as bytes that bincode rejects. -/
noncomputable def wide (N : Nat) : NodeCodec N where
  encode n := if Fits n then .ok (putNode n) else .ok (escape (number n))
  decode bs :=
    match getNode N bs with
    | some (n, _) => .ok n
    | none =>
      if h : ∃ n : Node N, escape (number n) = bs then .ok h.choose
      else .error (.exception "bincode")

/-- On nodes that Rust can represent the extended codec is bincode. -/
theorem wide_encode {n : Node N} (h : Fits n) : (wide N).encode n = (codec N).encode n := by
  simp only [wide, codec, if_pos h]

/-- What bincode decodes, the extended codec decodes to the same node. -/
theorem wide_decode {bs : List UInt8} {n : Node N} (h : (codec N).decode bs = .ok n) :
    (wide N).decode bs = .ok n := by
  simp only [codec, decoded, wide] at h ⊢
  split at h
  · next hg => cases h; rw [hg]
  · cases h

theorem escape_inj {j k : Nat} (h : escape j = escape k) : j = k := by
  have := congrArg List.length h
  simpa [escape] using this

theorem wide_lawful (hN : N < 2 ^ 64) : LawfulCodec (wide N) where
  round n := by
    by_cases h : Fits n
    · refine ⟨putNode n, by simp [wide, h], ?_⟩
      have := getNode_putNode hN n [] h
      rw [List.append_nil] at this
      simp only [wide, this]
    · refine ⟨escape (number n), by simp [wide, h], ?_⟩
      have hex : ∃ m : Node N, escape (number m) = escape (number n) := ⟨n, rfl⟩
      simp only [wide, getNode_escape, dif_pos hex]
      rw [number_inj (escape_inj hex.choose_spec)]
  err b e h := by
    simp only [wide] at h
    split at h
    · cases h
    · split at h
      · cases h
      · cases h; exact ⟨_, rfl⟩

end MerkleBit.Bincode

namespace MerkleBit.Bincode
variable {N : Nat}

/-! ## Decoders look only at the bytes they consume -/

/-- Bytes after the ones consumed do not matter. -/
def Prefixed {α : Type} (d : Dec α) : Prop :=
  ∀ p q a rest, d p = some (a, rest) → d (p ++ q) = some (a, rest ++ q)

theorem Prefixed.bind {α β : Type} {d : Dec α} {f : α → Dec β} (hd : Prefixed d)
    (hf : ∀ a, Prefixed (f a)) :
    Prefixed (fun bs => (d bs).bind (fun x => f x.1 x.2)) := by
  intro p q b rest h
  dsimp only at h ⊢
  cases hp : d p with
  | none => rw [hp] at h; simp at h
  | some x =>
    obtain ⟨a, r⟩ := x
    rw [hp] at h
    simp only [Option.bind_some] at h
    rw [hd p q a r hp]
    exact hf a r q b rest h

theorem Prefixed.pure {α : Type} (a : α) : Prefixed (fun bs => some (a, bs)) := by
  intro p q b rest h
  simp only [Option.some.injEq, Prod.mk.injEq] at h ⊢
  exact ⟨h.1, by rw [h.2]⟩

theorem prefixed_getLE (w : Nat) : Prefixed (getLE w) := by
  induction w with
  | zero => exact Prefixed.pure 0
  | succ w ih =>
    intro p q n rest h
    cases p with
    | nil => simp [getLE] at h
    | cons b bs =>
      simp only [List.cons_append, getLE] at h ⊢
      cases hp : getLE w bs with
      | none => rw [hp] at h; simp at h
      | some x =>
        obtain ⟨m, r⟩ := x
        rw [hp] at h
        rw [ih bs q m r hp]
        simp only [Option.some.injEq, Prod.mk.injEq] at h ⊢
        exact ⟨h.1, by rw [h.2]⟩

theorem prefixed_getBytes : Prefixed getBytes := by
  intro p q v rest h
  unfold getBytes at h ⊢
  cases hp : getU64 p with
  | none => rw [hp] at h; simp at h
  | some x =>
    obtain ⟨n, r⟩ := x
    rw [hp] at h
    rw [show getU64 (p ++ q) = _ from prefixed_getLE 8 p q n r hp]
    dsimp only at h ⊢
    split at h
    · cases h
    · next hl =>
      cases h
      rw [if_neg (by simp; omega), List.take_append_of_le_length (by omega),
        List.drop_append_of_le_length (by omega)]

theorem prefixed_getArr (N : Nat) : Prefixed (getArr N) := by
  intro p q v rest h
  unfold getArr at h ⊢
  cases hp : getBytes p with
  | none => rw [hp] at h; simp at h
  | some x =>
    obtain ⟨v', r⟩ := x
    rw [hp] at h
    rw [prefixed_getBytes p q v' r hp]
    cases h; rfl

theorem prefixed_getBranch (N : Nat) : Prefixed (getBranch N) :=
  Prefixed.bind (prefixed_getLE 8) fun _ =>
    Prefixed.bind (prefixed_getArr N) fun _ =>
      Prefixed.bind (prefixed_getArr N) fun _ =>
        Prefixed.bind (prefixed_getLE 8) fun _ =>
          Prefixed.bind (prefixed_getArr N) fun _ => Prefixed.pure _

theorem prefixed_getLeaf (N : Nat) : Prefixed (getLeaf N) :=
  Prefixed.bind (prefixed_getArr N) fun _ =>
    Prefixed.bind (prefixed_getArr N) fun _ => Prefixed.pure _

theorem prefixed_getData : Prefixed getData :=
  Prefixed.bind prefixed_getBytes fun _ => Prefixed.pure _

theorem prefixed_getVariant (N : Nat) : Prefixed (getVariant N) := by
  intro p q v rest h
  simp only [getVariant, Option.bind_eq_bind] at h ⊢
  cases hp : getLE 4 p with
  | none => rw [hp] at h; simp at h
  | some x =>
    obtain ⟨tag, r⟩ := x
    rw [hp] at h
    rw [prefixed_getLE 4 p q tag r hp]
    simp only [Option.bind_some] at h ⊢
    by_cases h0 : tag = 0
    · simp only [h0, if_true] at h ⊢
      exact Prefixed.bind (prefixed_getBranch N) (fun b => Prefixed.pure (Variant.branch b)) r q v rest h
    · by_cases h1 : tag = 1
      · subst h1
        exact Prefixed.bind (prefixed_getLeaf N) (fun b => Prefixed.pure (Variant.leaf b)) r q v rest h
      · by_cases h2 : tag = 2
        · subst h2
          exact Prefixed.bind prefixed_getData (fun b => Prefixed.pure (Variant.data b)) r q v rest h
        · simp only [h0, h1, h2, if_false] at h
          cases h

theorem prefixed_getNode (N : Nat) : Prefixed (getNode N) :=
  Prefixed.bind (prefixed_getLE 8) fun _ =>
    Prefixed.bind (prefixed_getVariant N) fun _ => Prefixed.pure _

end MerkleBit.Bincode
