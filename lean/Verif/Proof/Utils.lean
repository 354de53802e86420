import Verif.Proof.BitsOrder
/-! # Correctness of src/utils/tree_utils.rs -/

namespace MerkleBit
variable {N : Nat}

/-! ## `choose_zero` -/

theorem chooseZero_ok (k : Arr N) {i : Nat} (h : i < 8 * N) : chooseZero k i = .ok (!k.bit i) := by
  unfold chooseZero Arr.bit
  have h1 : i >>> 3 = i / 8 := by rw [Nat.shiftRight_eq_div_pow]
  have h2 : i / 8 < k.bytes.length := by rw [k.len]; omega
  simp only [h1, List.getElem?_eq_getElem h2]
  simp only [List.getD, List.getElem?_eq_getElem h2, Option.getD_some]
  congr 1
  rw [Nat.testBit]
  generalize hb : (k.bytes[i / 8].toNat >>> (7 - i % 8)) = z
  rw [Nat.and_comm 1 z]
  simp [bne]

theorem chooseZero_err (k : Arr N) {i : Nat} (h : 8 * N ≤ i) :
    chooseZero k i = .error (.exception "Designated bit exceeds key length") := by
  unfold chooseZero
  have h1 : i >>> 3 = i / 8 := by rw [Nat.shiftRight_eq_div_pow]
  have h2 : k.bytes.length ≤ i / 8 := by rw [k.len]; omega
  simp only [h1, List.getElem?_eq_none h2]

/-! ## `split_pairs` -/

theorem splitPairs_nil (pp : PartitionPoint N) (i : Nat) : splitPairs pp [] i = .ok ([], []) := rfl

theorem splitPairs_ok {pp : PartitionPoint N} (hpp : pp.Lawful) {i : Nat} (hi : i < 8 * N)
    {zs os : List (Arr N)} (hz : ∀ z ∈ zs, z.bit i = false) (ho : ∀ o ∈ os, o.bit i = true) :
    splitPairs pp (zs ++ os) i = .ok (zs, os) := by
  unfold splitPairs
  cases hl : (zs ++ os).getLast? with
  | none =>
    have : zs ++ os = [] := List.getLast?_eq_none_iff.1 hl
    simp at this
    simp [this.1, this.2]
  | some last =>
    cases hf : (zs ++ os).head? with
    | none =>
      have : zs ++ os = [] := List.head?_eq_none_iff.1 hf
      rw [this] at hl; simp at hl
    | some first =>
      simp only [chooseZero_ok _ hi]
      by_cases hos : os = []
      · subst hos
        have : last ∈ zs := by simpa using List.mem_of_getLast? hl
        simp [hz _ this]
      · have hlo : last ∈ os := by
          rw [List.getLast?_append] at hl
          cases h' : os.getLast? with
          | none => exact absurd (List.getLast?_eq_none_iff.1 h') hos
          | some x =>
            rw [h'] at hl
            simp at hl
            exact hl ▸ List.mem_of_getLast? h'
        simp only [ho _ hlo]
        by_cases hzs : zs = []
        · subst hzs
          have : first ∈ os := by simpa using List.mem_of_head? hf
          simp [ho _ this]
        · have hfz : first ∈ zs := by
            cases zs with
            | nil => exact absurd rfl hzs
            | cons z zs => simp at hf; simp [hf]
          simp only [hz _ hfz]
          have := hpp.partitioned zs os (fun v => match chooseZero v i with
            | .ok b => b
            | .error _ => false) (fun z hz' => by simp [chooseZero_ok _ hi, hz z hz'])
              (fun o ho' => by simp [chooseZero_ok _ hi, ho o ho'])
          simp only [chooseZero_ok _ hi] at this
          simp [this]

/-- Whatever `split_pairs` returns is a split of its input. -/
theorem splitPairs_append {pp : PartitionPoint N} {i : Nat} {l zs os : List (Arr N)}
    (h : splitPairs pp l i = .ok (zs, os)) : zs ++ os = l := by
  unfold splitPairs at h
  split at h
  · split at h
    · cases h
    · cases h; simp
    · split at h
      · cases h
      · cases h; simp
      · dsimp only at h
        split at h
        · cases h; simp
        · cases h
  · cases h
    rename_i hh
    cases l with
    | nil => rfl
    | cons a l =>
      exfalso
      exact hh _ _ (List.getLast?_eq_getLast_of_ne_nil (by simp)) rfl

/-- `split_pairs` never panics. -/
theorem splitPairs_no_panic {pp : PartitionPoint N} (hpp : pp.Lawful) {i : Nat} {l : List (Arr N)}
    {e : Err} (h : splitPairs pp l i = .error e) :
    e = .exception "Designated bit exceeds key length" ∧ 8 * N ≤ i := by
  by_cases hi : i < 8 * N
  · exfalso
    unfold splitPairs at h
    split at h
    · simp only [chooseZero_ok _ hi] at h
      split at h
      · simp_all
      · simp_all
      · split at h
        · simp_all
        · simp_all
        · rw [if_pos (hpp.le_length _ _)] at h
          cases h
    · cases h
  · unfold splitPairs at h
    split at h
    · rw [chooseZero_err _ (by omega)] at h
      simp at h
      exact ⟨h.symm, by omega⟩
    · cases h

/-! ## `check_descendants` -/

theorem stepBy8_nil {m s : Nat} (h : s ≤ m) : stepBy8 m s = [] := by
  unfold stepBy8
  have : (s - m + 7) / 8 = 0 := by omega
  rw [this]; rfl

theorem mem_stepBy8 {m s j : Nat} : j ∈ stepBy8 m s ↔ ∃ t, j = m + 8 * t ∧ j < s := by
  unfold stepBy8
  simp only [List.mem_map, List.mem_range]
  constructor
  · rintro ⟨t, ht, rfl⟩
    exact ⟨t, rfl, by omega⟩
  · rintro ⟨t, rfl, ht⟩
    exact ⟨t, by omega, rfl⟩

/-- Within byte `c`, `a` and `b` agree on all bits below `s`. -/
def byteAgree (a b : Arr N) (s c : Nat) : Prop := ∀ i, i / 8 = c → i < s → a.bit i = b.bit i

theorem byteAgree_of_eq {a b : Arr N} {s c : Nat} (h : a.bytes[c]? = b.bytes[c]?) :
    byteAgree a b s c := by
  intro i hi _
  unfold Arr.bit
  rw [List.getD_eq_getElem?_getD, List.getD_eq_getElem?_getD, hi, h]

theorem byteAgree_iff_of_ne {a b : Arr N} {s c : Nat} {x y : UInt8} (ha : a.bytes[c]? = some x)
    (hb : b.bytes[c]? = some y) (h : x ≠ y) :
    byteAgree a b s c ↔ s ≤ (c <<< 3) + 7 - (fastLog2 (x ^^^ y)).toNat := by
  have hlog := (fastLog2_spec (xor_ne_zero h)).1
  obtain ⟨h2, h3⟩ := testBit_xor_log h
  have hc : c <<< 3 = 8 * c := by rw [Nat.shiftLeft_eq]; omega
  rw [hc]
  have bita : ∀ j < 8, a.bit (8 * c + j) = x.toNat.testBit (7 - j) := by
    intro j hj
    unfold Arr.bit
    have e1 : (8 * c + j) / 8 = c := by omega
    have e2 : (8 * c + j) % 8 = j := by omega
    rw [List.getD_eq_getElem?_getD, e1, e2, ha]; rfl
  have bitb : ∀ j < 8, b.bit (8 * c + j) = y.toNat.testBit (7 - j) := by
    intro j hj
    unfold Arr.bit
    have e1 : (8 * c + j) / 8 = c := by omega
    have e2 : (8 * c + j) % 8 = j := by omega
    rw [List.getD_eq_getElem?_getD, e1, e2, hb]; rfl
  constructor
  · intro hag
    by_contra hc'
    have := hag (8 * c + (7 - (fastLog2 (x ^^^ y)).toNat)) (by omega) (by omega)
    rw [bita _ (by omega), bitb _ (by omega)] at this
    have e : 7 - (7 - (fastLog2 (x ^^^ y)).toNat) = (fastLog2 (x ^^^ y)).toNat := by omega
    rw [e] at this
    exact h2 this
  · intro hs i hi his
    obtain ⟨j, rfl⟩ : ∃ j, i = 8 * c + j := ⟨i - 8 * c, by omega⟩
    rw [bita _ (by omega), bitb _ (by omega)]
    exact h3 _ (by omega)

open Classical in
theorem isDescendant_eq (a b : Arr N) {s : Nat} {js : List Nat} (hjs : ∀ j ∈ js, j < 8 * N) :
    isDescendant a.bytes b.bytes s js = .ok (decide (∀ j ∈ js, byteAgree a b s (j / 8))) := by
  induction js with
  | nil => simp [isDescendant]
  | cons j js ih =>
    have hsh : j >>> 3 = j / 8 := by rw [Nat.shiftRight_eq_div_pow]
    have hj := hjs j (by simp)
    have hla : j / 8 < a.bytes.length := by rw [a.len]; omega
    have hlb : j / 8 < b.bytes.length := by rw [b.len]; omega
    have ih := ih (fun j hj => hjs j (by simp [hj]))
    unfold isDescendant
    simp only [hsh, List.getElem?_eq_getElem hla, List.getElem?_eq_getElem hlb]
    by_cases h : a.bytes[j / 8] = b.bytes[j / 8]
    · have : byteAgree a b s (j / 8) :=
        byteAgree_of_eq (by rw [List.getElem?_eq_getElem hla, List.getElem?_eq_getElem hlb, h])
      rw [if_pos h, ih]
      simp [this]
    · have := byteAgree_iff_of_ne (s := s) (List.getElem?_eq_getElem hla)
        (List.getElem?_eq_getElem hlb) h
      rw [if_neg h]
      split
      · rename_i hlt
        have hn : ¬ byteAgree a b s (j / 8) := by rw [this]; omega
        simp [hn]
      · rename_i hlt
        have hn : byteAgree a b s (j / 8) := by rw [this]; omega
        rw [ih]
        simp [hn]

theorem descendantRange_eq {desc : Arr N → Res Bool} {p : Arr N → Bool} {len : Nat} :
    ∀ (ks : List (Arr N)) (i start stop : Nat) (found : Bool), (∀ k ∈ ks, desc k = .ok (p k)) →
      i + ks.length = len →
      descendantRange desc len i ks start stop found =
        .ok (if found then
              (if ks = [] then (start, stop) else (start, i + (ks.takeWhile p).length))
            else
              (if ks.dropWhile (fun k => !p k) = [] then (start, stop)
              else (i + (ks.takeWhile (fun k => !p k)).length,
                i + (ks.takeWhile (fun k => !p k)).length +
                  ((ks.dropWhile (fun k => !p k)).takeWhile p).length)))
  | [], i, start, stop, found, _, _ => by simp [descendantRange]
  | k :: ks, i, start, stop, found, hd, hl => by
    have ih := descendantRange_eq (desc := desc) (p := p) (len := len) ks (i + 1)
    unfold descendantRange
    rw [hd k (by simp)]
    have hd' : ∀ k ∈ ks, desc k = .ok (p k) := fun k hk => hd k (by simp [hk])
    simp only [List.length_cons] at hl
    cases hp : p k <;> cases found
    · have := ih start stop false hd' (by omega)
      simp [this, hp]
      split
      · simp
      · simp; omega
    · simp [hp]
    · by_cases hlast : i = len - 1
      · have : ks = [] := by
          cases ks with
          | nil => rfl
          | cons _ _ => simp at hl; omega
        subst this
        simp [hp, hlast]
      · have hne : ks ≠ [] := by rintro rfl; simp at hl; omega
        have := ih i stop true hd' (by omega)
        simp [hp, hlast, this, hne]
        omega
    · by_cases hlast : i = len - 1
      · have : ks = [] := by
          cases ks with
          | nil => rfl
          | cons _ _ => simp at hl; omega
        subst this
        simp [hp, hlast]
      · have hne : ks ≠ [] := by rintro rfl; simp at hl; omega
        have := ih start stop true hd' (by omega)
        simp [hp, hlast, this, hne]
        omega

/-- `check_descendants` returns the first run of keys accepted by its inner loop. -/
theorem checkDescendants_run {ks : List (Arr N)} {s m : Nat} {b : Arr N} {p : Arr N → Bool}
    (hp : ∀ k ∈ ks, isDescendant b.bytes k.bytes s (stepBy8 m s) = .ok (p k)) :
    checkDescendants ks s b m = .ok ((ks.dropWhile (fun k => !p k)).takeWhile p) := by
  unfold checkDescendants
  rw [descendantRange_eq (p := p) ks 0 0 0 false hp (by simp)]
  have hsplit : ks = ks.takeWhile (fun k => !p k) ++ ks.dropWhile (fun k => !p k) :=
    (List.takeWhile_append_dropWhile).symm
  simp only [Bool.false_eq_true, if_false]
  by_cases hnil : ks.dropWhile (fun k => !p k) = []
  · simp [hnil, slice]
  · simp only [hnil, if_false, Nat.zero_add]
    unfold slice
    set pre := ks.takeWhile (fun k => !p k) with hpre
    set suf := ks.dropWhile (fun k => !p k) with hsuf
    have hlen : pre.length + (suf.takeWhile p).length ≤ ks.length := by
      have h1 : (suf.takeWhile p).length ≤ suf.length := (List.takeWhile_prefix p).length_le
      have h2 : ks.length = pre.length + suf.length := by
        conv_lhs => rw [hsplit]
        simp
      omega
    rw [if_pos ⟨by omega, hlen⟩]
    congr 1
    conv_lhs => rw [hsplit]
    rw [List.take_append, List.drop_append]
    have : (List.take (pre.length + (suf.takeWhile p).length) pre) = pre :=
      List.take_of_length_le (by omega)
    rw [this]
    simp only [List.drop_length, List.nil_append, Nat.sub_self, Nat.add_sub_cancel_left]
    have h3 : suf.take (suf.takeWhile p).length = suf.takeWhile p := by
      conv_lhs => rw [← List.takeWhile_append_dropWhile (p := p) (l := suf)]
      rw [List.take_left']
      simp
    rw [List.drop_zero, h3]

end MerkleBit
