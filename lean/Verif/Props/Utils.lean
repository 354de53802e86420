import Verif.Spec.Straddle
import Verif.Proof.PartitionPoint
import Verif.Proof.Utils2
import Verif.Props.Toy
/-!
# C27-C31: the functions of src/utils/tree_utils.rs
-/

namespace MerkleBit
variable {N : Nat}

/-! ## C27 -/

/-- C27: `choose_zero(key, i)` reads bit `i`, and errs past the end. -/
theorem C27_choose_zero (k : Arr N) (i : Nat) :
    (i < 8 * N → chooseZero k i = .ok (k.bit i == false)) ∧
    (8 * N ≤ i → ∃ msg, chooseZero k i = .error (.exception msg)) :=
  ⟨fun h => by rw [chooseZero_ok k h]; cases k.bit i <;> rfl, fun h => ⟨_, chooseZero_err k h⟩⟩

/-- C27: `fast_log_2` is the floor of the binary logarithm on non-zero bytes. -/
theorem C27_fast_log_2 (b : UInt8) (h : b ≠ 0) :
    2 ^ (fastLog2 b).toNat ≤ b.toNat ∧ b.toNat < 2 ^ ((fastLog2 b).toNat + 1) := by
  obtain ⟨_, h2, h3⟩ := fastLog2_spec h
  refine ⟨Nat.ge_two_pow_of_testBit h2, ?_⟩
  apply Nat.lt_pow_two_of_testBit
  intro i hi
  exact h3 i (by omega)

example : chooseZero (Toy.key 0x4000) 1 = .ok false ∧ chooseZero (Toy.key 0x4000) 0 = .ok true ∧
    fastLog2 0x1f = 4 ∧ (16 : Nat) ≥ 8 * 2 := by decide

/-! ## C28 -/

/-- C28: on sorted keys `calc_min_split_index` is the first bit on which some two of the keys and
the branch key differ. -/
theorem C28_calc_min_split_index (hN : 0 < N) (ks : List (Arr N)) (hne : ks ≠ [])
    (hs : ks.Pairwise Arr.le) (b : Arr N) :
    ∃ m, calcMinSplitIndex ks b = .ok m ∧
      ((∀ x ∈ b :: ks, x = b) → m = 8 * N - 1) ∧
      ((∃ x ∈ b :: ks, x ≠ b) →
        (∃ x ∈ b :: ks, ∃ y ∈ b :: ks, x.bit m ≠ y.bit m) ∧
        ∀ i < m, ∀ x ∈ b :: ks, ∀ y ∈ b :: ks, x.bit i = y.bit i) := by
  obtain ⟨m, h1, hm, h2, h3⟩ := calcMin_sorted hN hne hs b
  refine ⟨m, h1, ?_, ?_⟩
  · intro hall
    obtain ⟨a, l, rfl⟩ := List.exists_cons_of_ne_nil hne
    have ha : a = b := hall a (by simp)
    have hl : (a :: l).getLast? = some b := by
      rw [List.getLast?_eq_some_getLast (by simp)]
      exact congrArg some (hall _ (List.mem_cons_of_mem _ (List.getLast_mem _)))
    subst ha
    unfold calcMinSplitIndex at h1
    rw [hl] at h1
    simp only [List.head?_cons, Arr.lt_irrefl, if_false, show ¬ N = 0 by omega,
      minSplitLoop_self] at h1
    cases h1
    omega
  · rintro ⟨x, hx, hxb⟩
    rcases h3 with h3 | ⟨k, hk, hkm⟩
    · rcases List.mem_cons.1 hx with rfl | hx
      · exact absurd rfl hxb
      · exact absurd (h3 x hx) hxb
    · refine ⟨⟨k, List.mem_cons_of_mem _ hk, b, by simp, ?_⟩, ?_⟩
      · rw [← hkm]; exact bit_ne_firstDiff (by omega)
      · have : ∀ i < m, ∀ x ∈ b :: ks, x.bit i = b.bit i := by
          intro i hi x hx
          rcases List.mem_cons.1 hx with rfl | hx
          · rfl
          · exact bit_eq_of_lt_firstDiff (by have := h2 x hx; omega)
        intro i hi x hx y hy
        rw [this i hi x hx, this i hi y hy]

/-- C28: an empty slice is an error. -/
theorem C28_empty (b : Arr N) : ∃ msg, calcMinSplitIndex [] b = .error (.exception msg) :=
  ⟨_, rfl⟩

example : ([Toy.key 3, Toy.key 0x81, Toy.key 0x90]).Pairwise Arr.le ∧
    calcMinSplitIndex [Toy.key 3, Toy.key 0x81, Toy.key 0x90] (Toy.key 0x85) = .ok 8 := by decide

/-! ## C29 -/

/-- C29: `split_pairs` on sorted keys with a common prefix of `i` bits separates the keys with a 0
from those with a 1 at bit `i`. -/
theorem C29_split_pairs {pp : PartitionPoint N} (hpp : pp.Lawful) (ks : List (Arr N)) (i : Nat)
    (hi : i < 8 * N) (hs : ks.Pairwise Arr.le)
    (hcommon : ∀ x ∈ ks, ∀ y ∈ ks, ∀ j < i, x.bit j = y.bit j) :
    ∃ zeros ones, splitPairs pp ks i = .ok (zeros, ones) ∧ zeros ++ ones = ks ∧
      (∀ k ∈ zeros, k.bit i = false) ∧ (∀ k ∈ ones, k.bit i = true) := by
  have key : ∃ zs os, zs ++ os = ks ∧ (∀ k ∈ zs, k.bit i = false) ∧ (∀ k ∈ os, k.bit i = true) := by
    clear hpp
    induction ks with
    | nil => exact ⟨[], [], rfl, by simp, by simp⟩
    | cons a ks ih =>
      rw [List.pairwise_cons] at hs
      cases ha : a.bit i with
      | false =>
        obtain ⟨zs, os, h1, h2, h3⟩ := ih hs.2
          (fun x hx y hy => hcommon x (by simp [hx]) y (by simp [hy]))
        exact ⟨a :: zs, os, by simp [h1], by simpa [ha] using h2, h3⟩
      | true =>
        refine ⟨[], a :: ks, rfl, by simp, ?_⟩
        intro k hk
        rcases List.mem_cons.1 hk with rfl | hk'
        · exact ha
        · by_contra hb
          simp only [Bool.not_eq_true] at hb
          refine hs.1 k hk' (Arr.lt_of_bits hi ?_ hb ha)
          rw [le_firstDiff_iff (by omega)]
          exact hcommon k hk a (by simp)
  obtain ⟨zs, os, h1, h2, h3⟩ := key
  exact ⟨zs, os, by rw [← h1]; exact splitPairs_ok hpp hi h2 h3, h1, h2, h3⟩

/-- The hypothesis on `partition_point` is met by the searches of the standard library. -/
theorem Toy.pp_lawful (N : Nat) : (Toy.pp N).Lawful := stdPartitionPoint_lawful N

example : ([Toy.key 0x81, Toy.key 0x90, Toy.key 0xc0]).Pairwise Arr.le ∧
    (∀ x ∈ [Toy.key 0x81, Toy.key 0x90, Toy.key 0xc0], ∀ y ∈ [Toy.key 0x81, Toy.key 0x90, Toy.key 0xc0],
      ∀ j < 9, x.bit j = y.bit j) ∧
    splitPairs (Toy.pp 2) [Toy.key 0x81, Toy.key 0x90, Toy.key 0xc0] 9 =
      .ok ([Toy.key 0x81, Toy.key 0x90], [Toy.key 0xc0]) := by decide

/-! ## C30 -/

/-- C30 fails: on sorted keys `check_descendants` can return a key that differs from the branch key
below the split index, and drop one that does not. -/
theorem C30_check_descendants_false : ¬ (∀ (N : Nat) (ks : List (Arr N)) (b : Arr N) (s m : Nat),
    ks.Pairwise Arr.le → ks ≠ [] → s < 8 * N → calcMinSplitIndex ks b = .ok m →
    checkDescendants ks s b m = .ok (ks.filter (fun k => ∀ i < s, k.bit i = b.bit i))) := by
  intro h
  have := h 2 [Toy.key 0x40, Toy.key 0x80, Toy.key 0xC0, Toy.key 0x100] (Toy.key 0x80) 9 7
    (by decide) (by decide) (by decide) (by decide)
  revert this
  decide

/-- C30, the part that holds: the result is exact unless the scan stops a byte short *and* some key
first differs from the branch key in the unscanned byte, below the split index.
Missing for the full claim: those cases (`C30_check_descendants_false`). -/
theorem C30_check_descendants_partial (hN : 0 < N) (ks : List (Arr N)) (b : Arr N) (s m : Nat)
    (hs : ks.Pairwise Arr.le) (hne : ks ≠ []) (hsN : s ≤ 8 * N)
    (hm : calcMinSplitIndex ks b = .ok m)
    (hgood : ¬ MissesLastByte m s ∨
      ∀ k ∈ ks, (∀ i < s, i / 8 < (s - 1) / 8 → k.bit i = b.bit i) → ∀ i < s, k.bit i = b.bit i) :
    checkDescendants ks s b m = .ok (ks.filter (fun k => ∀ i < s, k.bit i = b.bit i)) := by
  obtain ⟨m', h1, hm', h2, -⟩ := calcMin_sorted hN hne hs b
  rw [hm] at h1
  cases h1
  rw [checkDescendants_exact hsN hs h2]
  · congr 1
    apply List.filter_congr
    intro k _
    simp only [decide_eq_decide]
    exact le_firstDiff_iff hsN
  · rcases hgood with h | h
    · left
      unfold MissesLastByte at h
      unfold ScanComplete
      omega
    · right
      rintro k hk ⟨h3, h4⟩
      have := h k hk (fun i hi hlt => bit_eq_of_lt_firstDiff (by omega)) (firstDiff k b) h3
      exact bit_ne_firstDiff (by omega) this

/-- C30 for one key: `get_one`, `insert_one` and proofs are not affected. -/
theorem C30_single (hN : 0 < N) (k b : Arr N) (s m : Nat) (hsN : s ≤ 8 * N)
    (hm : calcMinSplitIndex [k] b = .ok m) :
    checkDescendants [k] s b m = .ok (if (∀ i < s, k.bit i = b.bit i) then [k] else []) := by
  obtain ⟨m', h1, hm', h2, h3⟩ := calcMin_sorted hN (ks := [k]) (by simp) (by simp) b
  rw [hm] at h1
  cases h1
  rw [checkDescendants_exact hsN (by simp) h2]
  · by_cases h : s ≤ firstDiff k b
    · rw [if_pos ((le_firstDiff_iff hsN).1 h)]; simp [h]
    · have : ¬ ∀ i < s, k.bit i = b.bit i := fun h' => h ((le_firstDiff_iff hsN).2 h')
      simp [h, this]
  · rcases h3 with h3 | ⟨k', hk', h3⟩
    · right
      intro k' hk'
      rw [h3 k' hk', firstDiff_self]
      omega
    · simp only [List.mem_singleton] at hk'
      subst hk'
      by_cases hc : firstDiff k' b / 8 = (s - 1) / 8
      · left; unfold ScanComplete; omega
      · right; simp [hc]

example : ([Toy.key 0x40, Toy.key 0x81, Toy.key 0x85, Toy.key 0xC0]).Pairwise Arr.le ∧
    calcMinSplitIndex [Toy.key 0x40, Toy.key 0x81, Toy.key 0x85, Toy.key 0xC0] (Toy.key 0x82) = .ok 8 ∧
    checkDescendants [Toy.key 0x40, Toy.key 0x81, Toy.key 0x85, Toy.key 0xC0] 11 (Toy.key 0x82) 8 =
      .ok [Toy.key 0x81, Toy.key 0x85] := by decide

example : ¬ MissesLastByte 8 11 := by unfold MissesLastByte; omega

/-- C30, for all sorted keys: exactly which keys `check_descendants` selects.  They are the descendants
of the branch, except when the scan stops a byte short; then they are all keys that share the whole
bytes before the one of bit `s - 1`. -/
theorem C30_check_descendants_exact (hN : 0 < N) (ks : List (Arr N)) (b : Arr N) (s m : Nat)
    (hs : ks.Pairwise Arr.le) (hne : ks ≠ []) (hsN : s ≤ 8 * N)
    (hm : calcMinSplitIndex ks b = .ok m) :
    (¬ MissesLastByte m s →
      checkDescendants ks s b m = .ok (ks.filter (fun k => ∀ i < s, k.bit i = b.bit i))) ∧
    (MissesLastByte m s →
      checkDescendants ks s b m =
        .ok (ks.filter (fun k => ∀ i < 8 * ((s - 1) / 8), k.bit i = b.bit i))) := by
  obtain ⟨m', h1, hm', h2, -⟩ := calcMin_sorted hN hne hs b
  rw [hm] at h1
  cases h1
  constructor
  · intro h
    exact C30_check_descendants_partial hN ks b s m hs hne hsN hm (.inl h)
  · intro h
    rw [checkDescendants_scanned hsN hs h2, scanned, if_pos (show m < s ∧ (s - 1) % 8 < m % 8 from h)]
    congr 1
    apply List.filter_congr
    intro k _
    simp only [decide_eq_decide]
    exact le_firstDiff_iff (by omega)

example : MissesLastByte 7 9 ∧
    calcMinSplitIndex [Toy.key 0x40, Toy.key 0x80, Toy.key 0xC0, Toy.key 0x100] (Toy.key 0x80) = .ok 7 ∧
    checkDescendants [Toy.key 0x40, Toy.key 0x80, Toy.key 0xC0, Toy.key 0x100] 9 (Toy.key 0x80) 7 =
      .ok [Toy.key 0x40, Toy.key 0x80, Toy.key 0xC0] := by
  refine ⟨by unfold MissesLastByte; omega, by decide, by decide⟩

/-! ## C31 -/

theorem mem_boundaries {ks : List (Arr N)} {it : QueueItem} : ∀ {off : Nat},
    it ∈ boundaries off ks ↔ ∃ i l r, ks[i]? = some l ∧ ks[i + 1]? = some r ∧
      it = (firstDiff l r, off + i, off + i + 1) := by
  induction ks with
  | nil => simp [boundaries]
  | cons a ks ih =>
    cases ks with
    | nil => simp [boundaries]
    | cons b ks =>
      intro off
      simp only [boundaries, List.mem_cons, ih]
      constructor
      · rintro (rfl | ⟨i, l, r, h1, h2, rfl⟩)
        · exact ⟨0, a, b, rfl, rfl, rfl⟩
        · exact ⟨i + 1, l, r, h1, h2, by congr 2 <;> omega⟩
      · rintro ⟨i, l, r, h1, h2, rfl⟩
        cases i with
        | zero => simp at h1 h2; subst h1 h2; exact .inl rfl
        | succ i => exact .inr ⟨i, l, r, by simpa using h1, by simpa using h2, by congr 2 <;> omega⟩

theorem boundaries_increasing {ks : List (Arr N)} : ∀ {off : Nat},
    (boundaries off ks).Pairwise (fun x y => x.2.1 < y.2.1) := by
  induction ks with
  | nil => simp [boundaries]
  | cons a ks ih =>
    cases ks with
    | nil => simp [boundaries]
    | cons b ks =>
      intro off
      simp only [boundaries, List.pairwise_cons]
      refine ⟨?_, ih⟩
      intro y hy
      obtain ⟨i, l, r, -, -, rfl⟩ := mem_boundaries.1 hy
      simp only
      omega

/-- C31: when no two neighbours have equal keys, `generate_tree_ref_queue` files every pair of
neighbours exactly once, in order, under the first bit on which their keys differ, and returns
the set of these bits. -/
theorem C31_generate_tree_ref_queue (refs : List (TreeRef N)) (h0 : refs ≠ [])
    (hne : ∀ i l r, refs[i]? = some l → refs[i + 1]? = some r → l.key ≠ r.key) :
    ∃ q bits, generateTreeRefQueue refs = .ok (q, bits) ∧ bits.Nodup ∧
      (∀ b, b ∈ bits ↔ ∃ items, q.get? b = some items) ∧
      ∀ b items, q.get? b = some items →
        items ≠ [] ∧ items.Pairwise (fun x y => x.2.1 < y.2.1) ∧
        ∀ it, it ∈ items ↔ ∃ i l r, refs[i]? = some l ∧ refs[i + 1]? = some r ∧
          firstDiff l.key r.key = b ∧ it = (b, i, i + 1) := by
  have hch : (refs.map (·.key)).IsChain (· ≠ ·) := by
    rw [List.isChain_iff_getElem]
    intro i hi
    simp only [List.getElem_map]
    simp only [List.length_map] at hi
    exact hne i _ _ (List.getElem?_eq_getElem (by omega)) (List.getElem?_eq_getElem (by omega))
  obtain ⟨q, bits, h1, h2⟩ := generateTreeRefQueue_ok h0 hch
  refine ⟨q, bits, h1, h2.nodup, ?_, ?_⟩
  · intro b
    rw [h2.mem, h2.get]
    constructor
    · rintro ⟨it, hit, hb⟩
      rw [if_neg]
      · exact ⟨_, rfl⟩
      · intro h
        have : it ∈ (boundaries 0 (refs.map (·.key))).filter (fun it => it.1 = b) := by
          simp [hit, hb]
        rw [h] at this; simp at this
    · rintro ⟨items, h⟩
      split at h
      · cases h
      · next hn =>
        obtain ⟨it, hit⟩ := List.exists_mem_of_ne_nil _ hn
        simp only [List.mem_filter, decide_eq_true_eq] at hit
        exact ⟨it, hit⟩
  · intro b items h
    rw [h2.get] at h
    split at h
    · cases h
    · next hn =>
      cases h
      refine ⟨hn, boundaries_increasing.filter _, ?_⟩
      intro it
      simp only [List.mem_filter, decide_eq_true_eq, mem_boundaries, List.getElem?_map,
        Option.map_eq_some_iff]
      constructor
      · rintro ⟨⟨i, l, r, ⟨l', hl, rfl⟩, ⟨r', hr, rfl⟩, rfl⟩, hb⟩
        simp only at hb
        exact ⟨i, l', r', hl, hr, hb, by rw [hb]; simp⟩
      · rintro ⟨i, l, r, hl, hr, hb, rfl⟩
        exact ⟨⟨i, _, _, ⟨l, hl, rfl⟩, ⟨r, hr, rfl⟩, by rw [hb]; simp⟩, rfl⟩

/-- C31: two neighbours with equal keys are rejected. -/
theorem C31_duplicate (hN : 0 < N) (refs : List (TreeRef N))
    (hdup : ∃ i l r, refs[i]? = some l ∧ refs[i + 1]? = some r ∧ l.key = r.key) :
    generateTreeRefQueue refs =
      .error (.exception "Attempted to insert item with duplicate keys") := by
  apply generateTreeRefQueue_err hN
  rw [List.isChain_iff_getElem]
  intro h
  obtain ⟨i, l, r, hl, hr, he⟩ := hdup
  obtain ⟨hi1, rfl⟩ := List.getElem?_eq_some_iff.1 hl
  obtain ⟨hi2, rfl⟩ := List.getElem?_eq_some_iff.1 hr
  have := h i (by simpa using hi2)
  simp only [List.getElem_map] at this
  exact this he

example : (match generateTreeRefQueue [⟨Toy.key 1, Toy.key 0, 1, 1⟩, ⟨Toy.key 2, Toy.key 0, 1, 1⟩,
      (⟨Toy.key 0x8000, Toy.key 0, 1, 1⟩ : TreeRef 2)] with
    | .ok (q, bits) => bits == [14, 0] && q.get? 14 == some [(14, 0, 1)] && q.get? 0 == some [(0, 1, 2)]
    | .error _ => false) = true := by decide

end MerkleBit
