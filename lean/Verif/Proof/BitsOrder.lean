import Verif.Proof.Bits
import Mathlib.Data.Nat.Bitwise
/-! # `fast_log_2`, first differing bytes, and how the order relates to `firstDiff` -/

namespace MerkleBit
variable {N : Nat}

set_option maxRecDepth 10000 in
theorem fastLog2_table : ∀ n < 256, n ≠ 0 →
    (fastLog2 (UInt8.ofNat n)).toNat < 8 ∧ n.testBit (fastLog2 (UInt8.ofNat n)).toNat = true ∧
      ∀ j < 8, (fastLog2 (UInt8.ofNat n)).toNat < j → n.testBit j = false := by
  decide +kernel

theorem fastLog2_spec {x : UInt8} (hx : x ≠ 0) :
    (fastLog2 x).toNat < 8 ∧ x.toNat.testBit (fastLog2 x).toNat = true ∧
      ∀ j, (fastLog2 x).toNat < j → x.toNat.testBit j = false := by
  have h0 : x.toNat ≠ 0 := fun h => hx (UInt8.toNat.inj h)
  have := fastLog2_table x.toNat x.toNat_lt h0
  simp only [UInt8.ofNat_toNat] at this
  refine ⟨this.1, this.2.1, fun j hj => ?_⟩
  by_cases h8 : j < 8
  · exact this.2.2 j h8 hj
  · exact Nat.testBit_lt_two_pow
      (lt_of_lt_of_le x.toNat_lt (Nat.pow_le_pow_right (by omega) (by omega)))

theorem xor_ne_zero {x y : UInt8} (h : x ≠ y) : x ^^^ y ≠ 0 := by
  simpa using h

theorem testBit_xor_log {x y : UInt8} (h : x ≠ y) :
    x.toNat.testBit (fastLog2 (x ^^^ y)).toNat ≠ y.toNat.testBit (fastLog2 (x ^^^ y)).toNat ∧
      ∀ j, (fastLog2 (x ^^^ y)).toNat < j → x.toNat.testBit j = y.toNat.testBit j := by
  obtain ⟨_, h2, h3⟩ := fastLog2_spec (xor_ne_zero h)
  constructor
  · rw [UInt8.toNat_xor, Nat.testBit_xor] at h2
    simpa using h2
  · intro j hj
    have := h3 j hj
    rw [UInt8.toNat_xor, Nat.testBit_xor] at this
    simpa using this

theorem uint8_lt_iff {x y : UInt8} (h : x ≠ y) :
    x < y ↔ x.toNat.testBit (fastLog2 (x ^^^ y)).toNat = false := by
  obtain ⟨h2, h3⟩ := testBit_xor_log h
  rw [UInt8.lt_iff_toNat_lt]
  constructor
  · intro hlt
    by_contra hc
    simp only [Bool.not_eq_false] at hc
    have := Nat.lt_of_testBit _ (n := y.toNat) (m := x.toNat)
      (by rw [hc] at h2; simpa using h2.symm) hc (fun j hj => (h3 j hj).symm)
    omega
  · intro hf
    exact Nat.lt_of_testBit _ hf (by rw [hf] at h2; simpa using h2.symm) h3

/-- The first differing byte of two different lists of equal length. -/
theorem exists_diff_byte : ∀ {a b : List UInt8}, a.length = b.length → a ≠ b →
    ∃ pre x y as bs, a = pre ++ x :: as ∧ b = pre ++ y :: bs ∧ x ≠ y
  | [], [], _, h => absurd rfl h
  | [], _ :: _, h, _ => by simp at h
  | _ :: _, [], h, _ => by simp at h
  | a :: as, b :: bs, h, hne => by
    by_cases hab : a = b
    · subst hab
      obtain ⟨pre, x, y, as', bs', h1, h2, h3⟩ :=
        exists_diff_byte (a := as) (b := bs) (by simpa using h) (by simpa using hne)
      exact ⟨a :: pre, x, y, as', bs', by simp [h1], by simp [h2], h3⟩
    · exact ⟨[], a, b, as, bs, rfl, rfl, hab⟩

theorem Arr.exists_diff_byte {a b : Arr N} (h : a ≠ b) :
    ∃ pre x y as bs, a.bytes = pre ++ x :: as ∧ b.bytes = pre ++ y :: bs ∧ x ≠ y :=
  MerkleBit.exists_diff_byte (by rw [a.len, b.len]) (by intro h'; apply h; cases a; cases b; simp_all)

theorem bytesLt_append (pre : List UInt8) {x y : UInt8} (as bs : List UInt8) (h : x ≠ y) :
    bytesLt (pre ++ x :: as) (pre ++ y :: bs) = decide (x < y) := by
  induction pre with
  | nil =>
    simp only [List.nil_append, bytesLt]
    by_cases h1 : x < y
    · simp [h1]
    · have : y < x := by
        rcases UInt8.lt_or_lt_of_ne h with h2 | h2
        · exact absurd h2 h1
        · exact h2
      simp [h1, this]
  | cons p pre ih => simp [bytesLt, ih]

theorem bit_of_append {a : Arr N} {pre as : List UInt8} {x : UInt8} (h : a.bytes = pre ++ x :: as)
    {j : Nat} (hj : j < 8) : a.bit (8 * pre.length + j) = x.toNat.testBit (7 - j) := by
  unfold Arr.bit
  have h1 : (8 * pre.length + j) / 8 = pre.length := by omega
  have h2 : (8 * pre.length + j) % 8 = j := by omega
  rw [h1, h2, h]
  simp

theorem firstDiff_of_append {a b : Arr N} {pre as bs : List UInt8} {x y : UInt8}
    (ha : a.bytes = pre ++ x :: as) (hb : b.bytes = pre ++ y :: bs) (h : x ≠ y) :
    firstDiff a b = 8 * pre.length + 7 - (fastLog2 (x ^^^ y)).toNat := by
  have hlog := (fastLog2_spec (xor_ne_zero h)).1
  obtain ⟨h2, h3⟩ := testBit_xor_log h
  have hlen : pre.length < N := by
    have := a.len
    rw [ha] at this
    simp at this; omega
  have hidx : 8 * pre.length + 7 - (fastLog2 (x ^^^ y)).toNat =
      8 * pre.length + (7 - (fastLog2 (x ^^^ y)).toNat) := by omega
  rw [hidx]
  apply firstDiff_eq_of (by omega)
  · intro i hi
    by_cases hlt : i < 8 * pre.length
    · unfold Arr.bit
      have : i / 8 < pre.length := by omega
      rw [ha, hb]
      simp [List.getD, List.getElem?_append_left this]
    · obtain ⟨j, rfl⟩ : ∃ j, i = 8 * pre.length + j := ⟨i - 8 * pre.length, by omega⟩
      rw [bit_of_append ha (by omega), bit_of_append hb (by omega)]
      exact h3 _ (by omega)
  · intro _
    rw [bit_of_append ha (by omega), bit_of_append hb (by omega)]
    have : 7 - (7 - (fastLog2 (x ^^^ y)).toNat) = (fastLog2 (x ^^^ y)).toNat := by omega
    rw [this]
    exact h2

theorem Arr.lt_iff_bit {a b : Arr N} :
    Arr.lt a b ↔ firstDiff a b < 8 * N ∧ a.bit (firstDiff a b) = false := by
  by_cases h : a = b
  · subst h
    simp [Arr.lt_irrefl, firstDiff_self]
  · obtain ⟨pre, x, y, as, bs, ha, hb, hxy⟩ := Arr.exists_diff_byte h
    have hlog := (fastLog2_spec (xor_ne_zero hxy)).1
    have hlt : firstDiff a b < 8 * N := firstDiff_lt_iff.2 h
    have : Arr.lt a b ↔ x < y := by
      unfold Arr.lt
      rw [ha, hb, bytesLt_append pre as bs hxy]
      simp
    rw [this, uint8_lt_iff hxy]
    simp only [hlt, true_and]
    rw [firstDiff_of_append ha hb hxy]
    have hidx : 8 * pre.length + 7 - (fastLog2 (x ^^^ y)).toNat =
      8 * pre.length + (7 - (fastLog2 (x ^^^ y)).toNat) := by omega
    rw [hidx, bit_of_append ha (by omega)]
    have : 7 - (7 - (fastLog2 (x ^^^ y)).toNat) = (fastLog2 (x ^^^ y)).toNat := by omega
    rw [this]

theorem Arr.lt_bits {a b : Arr N} (h : Arr.lt a b) :
    firstDiff a b < 8 * N ∧ a.bit (firstDiff a b) = false ∧ b.bit (firstDiff a b) = true := by
  obtain ⟨h1, h2⟩ := Arr.lt_iff_bit.1 h
  refine ⟨h1, h2, ?_⟩
  have := bit_ne_firstDiff h1
  rw [h2] at this
  simpa using this.symm

theorem Arr.lt_of_bits {a b : Arr N} {d : Nat} (hd : d < 8 * N) (hle : d ≤ firstDiff a b)
    (ha : a.bit d = false) (hb : b.bit d = true) : Arr.lt a b := by
  have : firstDiff a b = d :=
    firstDiff_eq_of (by omega) (fun i hi => bit_eq_of_lt_firstDiff (by omega))
      (fun _ => by simp [ha, hb])
  rw [Arr.lt_iff_bit, this]
  exact ⟨hd, ha⟩

/-- Adjacent first differences of three increasing keys are never equal. -/
theorem firstDiff_ne_of_lt {a b c : Arr N} (h1 : Arr.lt a b) (h2 : Arr.lt b c) :
    firstDiff a b ≠ firstDiff b c := by
  intro h
  have hb1 := (Arr.lt_bits h1).2.2
  have hb2 := (Arr.lt_bits h2).2.1
  rw [h, hb2] at hb1
  simp at hb1

theorem firstDiff_sorted {a b c : Arr N} (h1 : Arr.le a b) (h2 : Arr.le b c) :
    firstDiff a c = min (firstDiff a b) (firstDiff b c) := by
  rcases Arr.lt_or_eq_of_le h1 with h1 | rfl
  · rcases Arr.lt_or_eq_of_le h2 with h2 | rfl
    · rcases Nat.lt_trichotomy (firstDiff a b) (firstDiff b c) with h | h | h
      · rw [firstDiff_eq_of_lt h]; omega
      · exact absurd h (firstDiff_ne_of_lt h1 h2)
      · rw [firstDiff_comm a c, firstDiff_eq_of_lt (a := c) (b := b) (c := a), firstDiff_comm c b]
        · omega
        · rw [firstDiff_comm c b, firstDiff_comm b a]; exact h
    · rw [firstDiff_self]; have := firstDiff_le a b; omega
  · rw [firstDiff_self]; have := firstDiff_le a c; omega

end MerkleBit
