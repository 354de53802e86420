import Verif.Model.TreeUtils
import Verif.Spec.Bits
import Mathlib.Tactic.Ring
import Mathlib.Tactic.Linarith
/-! # Bits, first differences and the order on keys -/

namespace MerkleBit
variable {N : Nat}

/-! ## `firstDiff` -/

theorem firstDiff_le (a b : Arr N) : firstDiff a b ≤ 8 * N := by
  unfold firstDiff
  cases h : (List.range (8 * N)).find? (fun i => a.bit i != b.bit i) with
  | none => simp
  | some i =>
    have := List.mem_of_find?_eq_some h
    simp at this ⊢
    omega

theorem bit_eq_of_lt_firstDiff {a b : Arr N} {i : Nat} (h : i < firstDiff a b) :
    a.bit i = b.bit i := by
  unfold firstDiff at h
  cases h' : (List.range (8 * N)).find? (fun i => a.bit i != b.bit i) with
  | none =>
    rw [h'] at h
    have := List.find?_eq_none.1 h' i (by simpa using h)
    simpa using this
  | some j =>
    rw [h'] at h
    simp only [Option.getD_some] at h
    rw [List.find?_eq_some_iff_getElem] at h'
    obtain ⟨_, k, hk, hkj, hlt⟩ := h'
    simp at hkj
    subst hkj
    have := hlt i h
    simpa using this

theorem bit_ne_firstDiff {a b : Arr N} (h : firstDiff a b < 8 * N) :
    a.bit (firstDiff a b) ≠ b.bit (firstDiff a b) := by
  unfold firstDiff at *
  cases h' : (List.range (8 * N)).find? (fun i => a.bit i != b.bit i) with
  | none => rw [h'] at h; simp at h
  | some j =>
    have := List.find?_some h'
    simpa using this

theorem firstDiff_eq_of {a b : Arr N} {d : Nat} (hd : d ≤ 8 * N) (hlt : ∀ i < d, a.bit i = b.bit i)
    (hne : d < 8 * N → a.bit d ≠ b.bit d) : firstDiff a b = d := by
  rcases Nat.lt_trichotomy (firstDiff a b) d with h | h | h
  · exact absurd (hlt _ h) (bit_ne_firstDiff (by omega))
  · exact h
  · exact absurd (bit_eq_of_lt_firstDiff h) (hne (by have := firstDiff_le a b; omega))

theorem le_firstDiff_iff {a b : Arr N} {d : Nat} (hd : d ≤ 8 * N) :
    d ≤ firstDiff a b ↔ ∀ i < d, a.bit i = b.bit i := by
  constructor
  · intro h i hi
    exact bit_eq_of_lt_firstDiff (by omega)
  · intro h
    by_contra hc
    exact bit_ne_firstDiff (a := a) (b := b) (by omega) (h _ (by omega))

theorem firstDiff_comm (a b : Arr N) : firstDiff a b = firstDiff b a :=
  firstDiff_eq_of (firstDiff_le b a) (fun _ h => (bit_eq_of_lt_firstDiff h).symm)
    (fun h => (bit_ne_firstDiff h).symm)

theorem firstDiff_self (a : Arr N) : firstDiff a a = 8 * N :=
  firstDiff_eq_of (Nat.le_refl _) (fun _ _ => rfl) (fun h => absurd h (by omega))

theorem eq_of_toNat_testBit {a b : UInt8} (h : ∀ j < 8, a.toNat.testBit j = b.toNat.testBit j) :
    a = b := by
  apply UInt8.toNat.inj
  apply Nat.eq_of_testBit_eq
  intro j
  by_cases hj : j < 8
  · exact h j hj
  · have ha : a.toNat < 2 ^ j := lt_of_lt_of_le a.toNat_lt (Nat.pow_le_pow_right (by omega) (by omega))
    have hb : b.toNat < 2 ^ j := lt_of_lt_of_le b.toNat_lt (Nat.pow_le_pow_right (by omega) (by omega))
    rw [Nat.testBit_lt_two_pow ha, Nat.testBit_lt_two_pow hb]

theorem byte_eq_of_bits {a b : Arr N} {i : Nat} (h : ∀ j < 8, a.bit (8 * i + j) = b.bit (8 * i + j)) :
    a.bytes.getD i 0 = b.bytes.getD i 0 := by
  apply eq_of_toNat_testBit
  intro j hj
  have := h (7 - j) (by omega)
  unfold Arr.bit at this
  have h1 : (8 * i + (7 - j)) / 8 = i := by omega
  have h2 : 7 - (8 * i + (7 - j)) % 8 = j := by omega
  rwa [h1, h2] at this

theorem Arr.ext_getD {a b : Arr N} (h : ∀ i < N, a.bytes.getD i 0 = b.bytes.getD i 0) : a = b := by
  have : a.bytes = b.bytes := by
    apply List.ext_getElem (by rw [a.len, b.len])
    intro i h1 h2
    have := h i (by rw [a.len] at h1; exact h1)
    simpa [List.getD, h1, h2] using this
  cases a; cases b; simp_all

theorem Arr.ext_bit {a b : Arr N} (h : ∀ i < 8 * N, a.bit i = b.bit i) : a = b := by
  apply Arr.ext_getD
  intro i hi
  apply byte_eq_of_bits
  intro j hj
  exact h _ (by omega)

theorem firstDiff_lt_iff {a b : Arr N} : firstDiff a b < 8 * N ↔ a ≠ b := by
  constructor
  · rintro h rfl
    rw [firstDiff_self] at h; omega
  · intro h
    by_contra hc
    apply h
    apply Arr.ext_bit
    intro i hi
    exact bit_eq_of_lt_firstDiff (by omega)

/-- The ultrametric inequality. -/
theorem min_le_firstDiff (a b c : Arr N) :
    min (firstDiff a b) (firstDiff b c) ≤ firstDiff a c := by
  rw [le_firstDiff_iff (by have := firstDiff_le a b; omega)]
  intro i hi
  rw [bit_eq_of_lt_firstDiff (a := a) (b := b) (by omega),
    bit_eq_of_lt_firstDiff (a := b) (b := c) (by omega)]

theorem firstDiff_eq_of_lt {a b c : Arr N} (h : firstDiff a b < firstDiff b c) :
    firstDiff a c = firstDiff a b := by
  have h1 := firstDiff_le b c
  apply firstDiff_eq_of (firstDiff_le a b)
  · intro i hi
    rw [bit_eq_of_lt_firstDiff hi, bit_eq_of_lt_firstDiff (a := b) (b := c) (by omega)]
  · intro h2
    rw [← bit_eq_of_lt_firstDiff (a := b) (b := c) h]
    exact bit_ne_firstDiff h2

/-! ## The order -/

theorem bytesLt_irrefl (l : List UInt8) : bytesLt l l = false := by
  induction l with
  | nil => rfl
  | cons a l ih => simp [bytesLt, ih]

theorem bytesLt_trans : ∀ {a b c : List UInt8}, bytesLt a b = true → bytesLt b c = true →
    bytesLt a c = true
  | [], [], _, h, _ => by simp [bytesLt] at h
  | [], _ :: _, [], _, h => by simp [bytesLt] at h
  | [], _ :: _, _ :: _, _, _ => rfl
  | _ :: _, [], _, h, _ => by simp [bytesLt] at h
  | _ :: _, _ :: _, [], _, h => by simp [bytesLt] at h
  | a :: as, b :: bs, c :: cs, h1, h2 => by
    simp only [bytesLt] at *
    split at h1
    · split at h2
      · rw [if_pos (UInt8.lt_trans ‹_› ‹_›)]
      · split at h2
        · simp at h2
        · have : b = c := UInt8.le_antisymm (UInt8.not_lt.1 ‹_›) (UInt8.not_lt.1 ‹_›)
          subst this; rw [if_pos ‹_›]
    · split at h1
      · simp at h1
      · have : a = b := UInt8.le_antisymm (UInt8.not_lt.1 ‹_›) (UInt8.not_lt.1 ‹_›)
        subst this
        split at h2
        · rw [if_pos ‹_›]
        · split at h2
          · simp at h2
          · rw [if_neg ‹_›, if_neg ‹_›]; exact bytesLt_trans h1 h2

theorem bytesLt_total : ∀ {a b : List UInt8}, bytesLt a b = false → bytesLt b a = false → a = b
  | [], [], _, _ => rfl
  | [], _ :: _, h, _ => by simp [bytesLt] at h
  | _ :: _, [], _, h => by simp [bytesLt] at h
  | a :: as, b :: bs, h1, h2 => by
    simp only [bytesLt] at *
    split at h1
    · simp at h1
    · split at h1
      · rw [if_pos ‹_›] at h2; simp at h2
      · rw [if_neg ‹_›, if_neg ‹_›] at h2
        have : a = b := UInt8.le_antisymm (UInt8.not_lt.1 ‹_›) (UInt8.not_lt.1 ‹_›)
        rw [this, bytesLt_total h1 h2]

namespace Arr

theorem lt_irrefl (a : Arr N) : ¬ lt a a := by simp [lt, bytesLt_irrefl]

theorem lt_trans {a b c : Arr N} (h1 : lt a b) (h2 : lt b c) : lt a c := bytesLt_trans h1 h2

theorem eq_of_not_lt {a b : Arr N} (h1 : ¬ lt a b) (h2 : ¬ lt b a) : a = b := by
  have : a.bytes = b.bytes := bytesLt_total (by simpa [lt] using h1) (by simpa [lt] using h2)
  cases a; cases b; simp_all

theorem lt_or_eq_of_le {a b : Arr N} (h : le a b) : lt a b ∨ a = b := by
  by_cases h' : lt a b
  · exact .inl h'
  · exact .inr (eq_of_not_lt h' h)

theorem le_of_lt {a b : Arr N} (h : lt a b) : le a b := fun h' => lt_irrefl _ (lt_trans h h')

theorem le_refl (a : Arr N) : le a a := lt_irrefl a

theorem le_total (a b : Arr N) : le a b ∨ le b a := by
  by_cases h : lt b a
  · exact .inr (le_of_lt h)
  · exact .inl h

theorem lt_of_lt_of_le {a b c : Arr N} (h1 : lt a b) (h2 : le b c) : lt a c := by
  rcases lt_or_eq_of_le h2 with h | h
  · exact lt_trans h1 h
  · exact h ▸ h1

theorem lt_of_le_of_lt {a b c : Arr N} (h1 : le a b) (h2 : lt b c) : lt a c := by
  rcases lt_or_eq_of_le h1 with h | h
  · exact lt_trans h h2
  · exact h ▸ h2

theorem le_trans {a b c : Arr N} (h1 : le a b) (h2 : le b c) : le a c := by
  rcases lt_or_eq_of_le h1 with h | h
  · exact le_of_lt (lt_of_lt_of_le h h2)
  · exact h ▸ h2

theorem le_antisymm {a b : Arr N} (h1 : le a b) (h2 : le b a) : a = b := eq_of_not_lt h2 h1

theorem ne_of_lt {a b : Arr N} (h : lt a b) : a ≠ b := by
  rintro rfl; exact lt_irrefl _ h

instance : Std.Total (le (N := N)) := ⟨le_total⟩
instance : IsTrans (Arr N) le := ⟨fun _ _ _ => le_trans⟩
instance : Std.Antisymm (le (N := N)) := ⟨fun _ _ => le_antisymm⟩
instance : Std.Refl (le (N := N)) := ⟨le_refl⟩

end Arr

end MerkleBit
