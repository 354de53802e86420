import Verif.Proof.Utils
import Verif.Proof.AMap
/-! # Correctness of src/utils/tree_utils.rs, continued -/

namespace MerkleBit
variable {N : Nat}

/-! ## `calc_min_split_index` -/

theorem minSplitLoop_self (d i : Nat) (l : List UInt8) : minSplitLoop d i l l = .ok d := by
  induction l generalizing i with
  | nil => rfl
  | cons a l ih => simp [minSplitLoop, ih]

theorem minSplitLoop_append (d : Nat) (pre : List UInt8) {x y : UInt8} (as bs : List UInt8)
    (h : x ≠ y) : ∀ i, minSplitLoop d i (pre ++ x :: as) (pre ++ y :: bs) =
      .ok (((i + pre.length) <<< 3) + 7 - (fastLog2 (x ^^^ y)).toNat) := by
  induction pre with
  | nil => intro i; simp [minSplitLoop, h]
  | cons p pre ih =>
    intro i
    simp only [List.cons_append, minSplitLoop, if_true, ih, List.length_cons]
    rw [show i + 1 + pre.length = i + (pre.length + 1) by omega]

theorem minSplitLoop_eq (d : Nat) (a b : Arr N) :
    minSplitLoop d 0 a.bytes b.bytes = .ok (if a = b then d else firstDiff a b) := by
  by_cases h : a = b
  · subst h; simp [minSplitLoop_self]
  · obtain ⟨pre, x, y, as, bs, ha, hb, hxy⟩ := Arr.exists_diff_byte h
    rw [if_neg h, firstDiff_of_append ha hb hxy, ha, hb, minSplitLoop_append _ _ _ _ hxy,
      Nat.zero_add, Nat.shiftLeft_eq]
    congr 2; omega

/-- `calc_min_split_index` on any nonempty list. -/
theorem calcMin_total (hN : 0 < N) {ks : List (Arr N)} (hks : ks ≠ []) (b : Arr N) :
    ∃ m, calcMinSplitIndex ks b = .ok m ∧ m < 8 * N := by
  unfold calcMinSplitIndex
  cases hf : ks.head? with
  | none => exact absurd (List.head?_eq_none_iff.1 hf) hks
  | some first =>
    cases hl : ks.getLast? with
    | none => exact absurd (List.getLast?_eq_none_iff.1 hl) hks
    | some last =>
      simp only [show ¬ N = 0 by omega, if_false, minSplitLoop_eq]
      refine ⟨_, rfl, ?_⟩
      generalize (if Arr.lt b first then b else first) = lo
      generalize (if Arr.lt b first then last else if Arr.lt last b then b else last) = hi
      split
      · omega
      · exact firstDiff_lt_iff.2 ‹_›

/-- `calc_min_split_index` on a sorted list: the least first difference with the branch key,
capped at the last bit index. -/
theorem calcMin_sorted (hN : 0 < N) {ks : List (Arr N)} (hks : ks ≠ [])
    (hs : ks.Pairwise Arr.le) (b : Arr N) :
    ∃ m, calcMinSplitIndex ks b = .ok m ∧ m < 8 * N ∧ (∀ k ∈ ks, m ≤ firstDiff k b) ∧
      ((∀ k ∈ ks, k = b) ∨ ∃ k ∈ ks, firstDiff k b = m) := by
  unfold calcMinSplitIndex
  cases hf : ks.head? with
  | none => exact absurd (List.head?_eq_none_iff.1 hf) hks
  | some first =>
    cases hl : ks.getLast? with
    | none => exact absurd (List.getLast?_eq_none_iff.1 hl) hks
    | some last =>
      have hfm : first ∈ ks := List.mem_of_head? hf
      have hlm : last ∈ ks := List.mem_of_getLast? hl
      have hmin : ∀ k ∈ ks, Arr.le first k := by
        cases ks with
        | nil => simp at hks
        | cons a ks =>
          simp at hf; subst hf
          intro k hk
          rcases List.mem_cons.1 hk with rfl | hk
          · exact Arr.le_refl _
          · exact List.rel_of_pairwise_cons hs hk
      have hmax : ∀ k ∈ ks, Arr.le k last := by
        obtain ⟨pre, rfl⟩ : ∃ pre, ks = pre ++ [last] := by
          rw [List.getLast?_eq_some_iff] at hl; exact hl
        intro k hk
        rw [List.pairwise_append] at hs
        rcases List.mem_append.1 hk with hk | hk
        · exact hs.2.2 k hk last (by simp)
        · simp at hk; subst hk; exact Arr.le_refl _
      simp only [show ¬ N = 0 by omega, if_false, minSplitLoop_eq]
      refine ⟨_, rfl, ?_⟩
      set lo := if Arr.lt b first then b else first with hlo
      set hi := if Arr.lt b first then last else if Arr.lt last b then b else last with hhi
      have hfl : Arr.le first last := hmin _ hlm
      have hlob : Arr.le lo b := by
        rw [hlo]; split
        · exact Arr.le_refl _
        · assumption
      have hbhi : Arr.le b hi := by
        rw [hhi]; split
        · exact Arr.le_trans (Arr.le_of_lt ‹_›) hfl
        · split
          · exact Arr.le_refl _
          · assumption
      have hlok : ∀ k ∈ ks, Arr.le lo k := by
        intro k hk
        rw [hlo]; split
        · exact Arr.le_trans (Arr.le_of_lt ‹_›) (hmin k hk)
        · exact hmin k hk
      have hkhi : ∀ k ∈ ks, Arr.le k hi := by
        intro k hk
        rw [hhi]; split
        · exact hmax k hk
        · split
          · exact Arr.le_trans (hmax k hk) (Arr.le_of_lt ‹_›)
          · exact hmax k hk
      have hle : ∀ k ∈ ks, firstDiff lo hi ≤ firstDiff k b := by
        intro k hk
        rcases Arr.le_total k b with h | h
        · have h1 := firstDiff_sorted (hlok k hk) (Arr.le_trans h hbhi)
          have h2 := firstDiff_sorted h hbhi
          omega
        · have h1 := firstDiff_sorted (Arr.le_trans hlob h) (hkhi k hk)
          have h2 := firstDiff_sorted hlob h
          rw [firstDiff_comm k b]
          omega
      have hat : ∃ k ∈ ks, firstDiff k b = firstDiff lo hi := by
        by_cases h1 : Arr.lt b first
        · refine ⟨last, hlm, ?_⟩
          rw [hlo, hhi, if_pos h1, if_pos h1, firstDiff_comm]
        · by_cases h2 : Arr.lt last b
          · refine ⟨first, hfm, ?_⟩
            rw [hlo, hhi, if_neg h1, if_neg h1, if_pos h2]
          · rw [hlo, hhi, if_neg h1, if_neg h1, if_neg h2]
            have := firstDiff_sorted (a := first) (b := b) (c := last) h1 h2
            rcases Nat.le_total (firstDiff first b) (firstDiff b last) with h | h
            · exact ⟨first, hfm, by omega⟩
            · exact ⟨last, hlm, by rw [firstDiff_comm]; omega⟩
      by_cases heq : lo = hi
      · rw [if_pos heq]
        rw [heq, firstDiff_self] at hle
        refine ⟨by omega, fun k hk => by have := hle k hk; omega, .inl fun k hk => ?_⟩
        have := hle k hk
        by_contra hne
        have := firstDiff_lt_iff.2 hne
        omega
      · rw [if_neg heq]
        exact ⟨firstDiff_lt_iff.2 heq, hle, .inr hat⟩

/-! ## exactness of `check_descendants` -/

/-- The positions scanned by `check_descendants` starting from `m` reach the byte containing the
last bit below `s`. -/
def ScanComplete (m s : Nat) : Prop := s ≤ m ∨ m % 8 ≤ (s - 1) % 8

/-- Keys that agree with the branch key below `m` are recognised exactly, provided the scan reaches
the last byte or no key first differs there. -/
theorem isDescendant_exact {a b : Arr N} {m s : Nat} (hs : s ≤ 8 * N) (hm : m ≤ firstDiff a b)
    (hex : ScanComplete m s ∨ ¬ (firstDiff a b < s ∧ firstDiff a b / 8 = (s - 1) / 8)) :
    isDescendant a.bytes b.bytes s (stepBy8 m s) = .ok (decide (s ≤ firstDiff a b)) := by
  rw [isDescendant_eq a b (fun j hj => by
    obtain ⟨t, rfl, h⟩ := mem_stepBy8.1 hj
    omega)]
  congr 1
  rw [decide_eq_decide]
  constructor
  · intro h
    by_contra hc
    have hne := bit_ne_firstDiff (a := a) (b := b) (by omega)
    have hin : m + 8 * (firstDiff a b / 8 - m / 8) < s := by
      rcases hex with hex | hex
      · rcases hex with hex | hex
        · omega
        · omega
      · omega
    have := h (m + 8 * (firstDiff a b / 8 - m / 8)) (mem_stepBy8.2 ⟨_, rfl, hin⟩)
    exact hne (this _ (by omega) (by omega))
  · intro h j _ i _ hi
    exact bit_eq_of_lt_firstDiff (by omega)

/-- In a sorted list the keys sharing at least `s` leading bits with `b` are contiguous. -/
theorem run_eq_filter {p : Arr N → Bool} {ks : List (Arr N)}
    (hconv : ∀ x y z, List.Sublist [x, y, z] ks → p x = true → p z = true → p y = true) :
    (ks.dropWhile (fun k => !p k)).takeWhile p = ks.filter p := by
  induction ks with
  | nil => rfl
  | cons a ks ih =>
    cases hp : p a
    · rw [List.dropWhile_cons_of_pos (by simp [hp]), List.filter_cons_of_neg (by simp [hp])]
      exact ih (fun x y z h => hconv x y z (List.Sublist.cons _ h))
    · rw [List.dropWhile_cons_of_neg (by simp [hp]), List.takeWhile_cons_of_pos hp,
        List.filter_cons_of_pos hp]
      congr 1
      have key : ∀ l : List (Arr N), List.Sublist l ks → l.takeWhile p = l.filter p := by
        intro l
        induction l with
        | nil => intro _; rfl
        | cons b l ihl =>
          intro hl
          cases hb : p b
          · rw [List.takeWhile_cons_of_neg (by simp [hb]), List.filter_cons_of_neg (by simp [hb])]
            symm
            rw [List.filter_eq_nil_iff]
            intro z hz hpz
            have : p b = true := hconv a b z
              (List.Sublist.cons_cons a (List.Sublist.trans
                (List.Sublist.cons_cons b (List.singleton_sublist.2 hz)) hl)) hp hpz
            rw [hb] at this; simp at this
          · rw [List.takeWhile_cons_of_pos hb, List.filter_cons_of_pos hb,
              ihl (List.Sublist.trans (List.sublist_cons_self _ _) hl)]
      exact key ks (List.Sublist.refl _)

theorem prefix_convex {x y z b : Arr N} {s : Nat} (hxy : Arr.le x y) (hyz : Arr.le y z)
    (hx : s ≤ firstDiff b x) (hz : s ≤ firstDiff b z) : s ≤ firstDiff b y := by
  have h1 := min_le_firstDiff x b z
  have h2 := firstDiff_sorted hxy hyz
  have h3 := min_le_firstDiff b x y
  rw [firstDiff_comm x b] at h1
  omega

theorem checkDescendants_exact {ks : List (Arr N)} {s m : Nat} {b : Arr N} (hs : s ≤ 8 * N)
    (hsorted : ks.Pairwise Arr.le) (hm : ∀ k ∈ ks, m ≤ firstDiff k b)
    (hex : ScanComplete m s ∨
      ∀ k ∈ ks, ¬ (firstDiff k b < s ∧ firstDiff k b / 8 = (s - 1) / 8)) :
    checkDescendants ks s b m = .ok (ks.filter (fun k => decide (s ≤ firstDiff k b))) := by
  rw [checkDescendants_run (p := fun k => decide (s ≤ firstDiff k b)), run_eq_filter]
  · intro x y z hsub hx hz
    have hp := hsorted.sublist hsub
    simp only [List.pairwise_cons, List.mem_cons, List.not_mem_nil, or_false] at hp
    simp only [decide_eq_true_eq] at *
    rw [firstDiff_comm] at *
    exact prefix_convex (hp.1 y (by simp)) (hp.2.1 z (by simp)) hx hz
  · intro k hk
    have := isDescendant_exact (a := b) (b := k) (m := m) hs
      (by rw [firstDiff_comm]; exact hm k hk)
      (by
        rcases hex with h | h
        · exact .inl h
        · right; rw [firstDiff_comm]; exact h k hk)
    rw [this, firstDiff_comm]

/-- How many leading bits of a branch key `check_descendants` really compares. -/
def scanned (m s : Nat) : Nat := if m < s ∧ (s - 1) % 8 < m % 8 then 8 * ((s - 1) / 8) else s

/-- Keys that agree with the branch key below `m`: what the scan recognises, in all cases. -/
theorem isDescendant_scanned {a b : Arr N} {m s : Nat} (hs : s ≤ 8 * N) (hm : m ≤ firstDiff a b) :
    isDescendant a.bytes b.bytes s (stepBy8 m s) = .ok (decide (scanned m s ≤ firstDiff a b)) := by
  by_cases hc : m < s ∧ (s - 1) % 8 < m % 8
  · rw [scanned, if_pos hc, isDescendant_eq a b (fun j hj => by
      obtain ⟨t, rfl, h⟩ := mem_stepBy8.1 hj
      omega)]
    congr 1
    rw [decide_eq_decide]
    constructor
    · intro h
      by_contra hlt
      have hne := bit_ne_firstDiff (a := a) (b := b) (by omega)
      have := h (m + 8 * (firstDiff a b / 8 - m / 8)) (mem_stepBy8.2 ⟨_, rfl, by omega⟩)
      exact hne (this _ (by omega) (by omega))
    · intro h j hj i hi1 hi2
      obtain ⟨t, rfl, hj⟩ := mem_stepBy8.1 hj
      exact bit_eq_of_lt_firstDiff (by omega)
  · rw [scanned, if_neg hc]
    exact isDescendant_exact hs hm (.inl (by unfold ScanComplete; omega))

theorem checkDescendants_scanned {ks : List (Arr N)} {s m : Nat} {b : Arr N} (hs : s ≤ 8 * N)
    (hsorted : ks.Pairwise Arr.le) (hm : ∀ k ∈ ks, m ≤ firstDiff k b) :
    checkDescendants ks s b m = .ok (ks.filter (fun k => decide (scanned m s ≤ firstDiff k b))) := by
  rw [checkDescendants_run (p := fun k => decide (scanned m s ≤ firstDiff k b)), run_eq_filter]
  · intro x y z hsub hx hz
    have hp := hsorted.sublist hsub
    simp only [List.pairwise_cons, List.mem_cons, List.not_mem_nil, or_false] at hp
    simp only [decide_eq_true_eq] at *
    rw [firstDiff_comm] at *
    exact prefix_convex (hp.1 y (by simp)) (hp.2.1 z (by simp)) hx hz
  · intro k hk
    rw [isDescendant_scanned hs (by rw [firstDiff_comm]; exact hm k hk), firstDiff_comm]

/-- `check_descendants` does not panic when the split index is at most the key length in bits,
and returns a contiguous part of its input containing every actual descendant. -/
theorem checkDescendants_total {ks : List (Arr N)} {s m : Nat} {b : Arr N} (hs : s ≤ 8 * N) :
    ∃ r pre post, checkDescendants ks s b m = .ok r ∧ ks = pre ++ r ++ post := by
  classical
  have : ∀ k ∈ ks, isDescendant b.bytes k.bytes s (stepBy8 m s) =
      .ok (decide (∀ j ∈ stepBy8 m s, byteAgree b k s (j / 8))) := by
    intro k _
    exact isDescendant_eq b k (fun j hj => by
      obtain ⟨t, rfl, h⟩ := mem_stepBy8.1 hj
      omega)
  rw [checkDescendants_run this]
  refine ⟨_, ks.takeWhile (fun k => !decide (∀ j ∈ stepBy8 m s, byteAgree b k s (j / 8))),
    (ks.dropWhile (fun k => !decide (∀ j ∈ stepBy8 m s, byteAgree b k s (j / 8)))).dropWhile
      (fun k => decide (∀ j ∈ stepBy8 m s, byteAgree b k s (j / 8))), rfl, ?_⟩
  · rw [List.append_assoc, List.takeWhile_append_dropWhile, List.takeWhile_append_dropWhile]

/-! ## `generate_tree_ref_queue` -/

theorem splitBitLoop_append (len : Nat) (pre : List UInt8) {x y : UInt8} (as bs : List UInt8)
    (h : x ≠ y) : ∀ j, j + (pre ++ x :: as).length = len →
      splitBitLoop len j (pre ++ x :: as) (pre ++ y :: bs) =
        .ok (some ((j + pre.length) * 8 + 7 - (fastLog2 (x ^^^ y)).toNat)) := by
  induction pre with
  | nil => intro j _; simp [splitBitLoop, h]
  | cons p pre ih =>
    intro j hj
    simp only [List.cons_append, List.length_cons, List.length_append] at hj
    have hne : ¬ j = len - 1 := by omega
    simp only [List.cons_append, splitBitLoop, hne, false_and, if_false, if_true]
    rw [ih (j + 1) (by simp; omega)]
    rw [show j + 1 + pre.length = j + (p :: pre).length by simp; omega]

theorem splitBitLoop_self (l : List UInt8) : ∀ j, l ≠ [] →
    splitBitLoop (j + l.length) j l l =
      .error (.exception "Attempted to insert item with duplicate keys") := by
  induction l with
  | nil => intro j h; exact absurd rfl h
  | cons a l ih =>
    intro j _
    by_cases hl : l = []
    · subst hl; simp [splitBitLoop]
    · have : l.length ≠ 0 := by simpa using hl
      have h1 : ¬ j = j + (a :: l).length - 1 := by
        rw [List.length_cons]; omega
      simp only [splitBitLoop, h1, false_and, if_false, if_true]
      have := ih (j + 1) hl
      rwa [show j + 1 + l.length = j + (a :: l).length by simp; omega] at this

theorem splitBitLoop_ne {a b : Arr N} (h : a ≠ b) :
    splitBitLoop a.bytes.length 0 a.bytes b.bytes = .ok (some (firstDiff a b)) := by
  obtain ⟨pre, x, y, as, bs, ha, hb, hxy⟩ := Arr.exists_diff_byte h
  rw [firstDiff_of_append ha hb hxy, ha, hb, splitBitLoop_append _ _ _ _ hxy 0 (by simp)]
  congr 3; omega

theorem splitBitLoop_eq (hN : 0 < N) (a : Arr N) :
    splitBitLoop a.bytes.length 0 a.bytes a.bytes =
      .error (.exception "Attempted to insert item with duplicate keys") := by
  have := splitBitLoop_self a.bytes 0 (by
    intro h; have := a.len; rw [h] at this; simp at this; omega)
  simpa using this

/-- Adjacent pairs of keys with their first difference and positions. -/
def boundaries : Nat → List (Arr N) → List QueueItem
  | i, l :: r :: rest => (firstDiff l r, i, i + 1) :: boundaries (i + 1) (r :: rest)
  | _, _ => []

/-- What a queue and its set of split bits contain. -/
structure QueueHolds (items : List QueueItem) (q : AMap Nat (List QueueItem)) (bits : List Nat) :
    Prop where
  get : ∀ b, q.get? b =
    if (items.filter (fun it => it.1 = b)) = [] then none else some (items.filter (fun it => it.1 = b))
  nodup : bits.Nodup
  mem : ∀ b, b ∈ bits ↔ ∃ it ∈ items, it.1 = b

theorem QueueHolds.empty : QueueHolds [] AMap.empty [] :=
  ⟨fun b => by simp, List.nodup_nil, fun b => by simp⟩

theorem QueueHolds.push {items : List QueueItem} {q : AMap Nat (List QueueItem)} {bits : List Nat}
    (h : QueueHolds items q bits) (b i : Nat) :
    QueueHolds (items ++ [(b, i, i + 1)]) (pushItem q b (b, i, i + 1)) (setInsert bits b) := by
  constructor
  · intro c
    have hg := h.get b
    unfold pushItem
    by_cases hc : c = b
    · subst hc
      by_cases hnil : items.filter (fun it => it.1 = c) = []
      · rw [if_pos hnil] at hg
        rw [hg]
        simp only [AMap.get?_insert, List.filter_append, hnil]
        simp
      · rw [if_neg hnil] at hg
        rw [hg]
        simp only [AMap.get?_insert, List.filter_append]
        simp
    · have hbc : ¬ b = c := fun h => hc h.symm
      have : (q.insert b (items.filter (fun it => it.1 = b) ++ [(b, i, i + 1)])).get? c = q.get? c := by
        rw [AMap.get?_insert, if_neg hc]
      have hc' : (items ++ [(b, i, i + 1)]).filter (fun it => it.1 = c) =
          items.filter (fun it => it.1 = c) := by
        simp [List.filter_append, hbc]
      rw [hc', ← h.get c]
      split
      · rw [AMap.get?_insert, if_neg hc]
      · rw [AMap.get?_insert, if_neg hc]
  · unfold setInsert
    split
    · exact h.nodup
    · rename_i hb
      rw [List.nodup_append]
      exact ⟨h.nodup, by simp, by rintro a ha b' hb'; simp at hb'; subst hb'; rintro rfl; exact hb ha⟩
  · intro c
    unfold setInsert
    have := h.mem c
    split
    · rename_i hb
      rw [this]
      constructor
      · rintro ⟨it, hit, rfl⟩; exact ⟨it, by simp [hit], rfl⟩
      · rintro ⟨it, hit, rfl⟩
        rcases List.mem_append.1 hit with hit | hit
        · exact ⟨it, hit, rfl⟩
        · simp at hit; subst hit; exact (h.mem _).1 hb
    · simp only [List.mem_append, List.mem_singleton, this]
      constructor
      · rintro (⟨it, hit, rfl⟩ | rfl)
        · exact ⟨it, .inl hit, rfl⟩
        · exact ⟨_, .inr rfl, rfl⟩
      · rintro ⟨it, hit | rfl, rfl⟩
        · exact .inl ⟨it, hit, rfl⟩
        · exact .inr rfl

theorem queueLoop_ok : ∀ (refs : List (TreeRef N)) (i : Nat) (items : List QueueItem)
    (q : AMap Nat (List QueueItem)) (bits : List Nat),
    (refs.map (·.key)).IsChain (· ≠ ·) → QueueHolds items q bits →
    ∃ q' bits', queueLoop i refs q bits = .ok (q', bits') ∧
      QueueHolds (items ++ boundaries i (refs.map (·.key))) q' bits'
  | [], i, items, q, bits, _, hq => ⟨q, bits, rfl, by simpa [boundaries] using hq⟩
  | [_], i, items, q, bits, _, hq => ⟨q, bits, rfl, by simpa [boundaries] using hq⟩
  | l :: r :: rest, i, items, q, bits, hne, hq => by
    simp only [List.map_cons, List.isChain_cons_cons] at hne
    obtain ⟨q', bits', h1, h2⟩ := queueLoop_ok (r :: rest) (i + 1) _ _ _ hne.2
      (hq.push (firstDiff l.key r.key) i)
    refine ⟨q', bits', ?_, ?_⟩
    · unfold queueLoop
      rw [splitBitLoop_ne hne.1]
      exact h1
    · simpa [boundaries] using h2

theorem queueLoop_err (hN : 0 < N) : ∀ (refs : List (TreeRef N)) (i : Nat)
    (q : AMap Nat (List QueueItem)) (bits : List Nat),
    ¬ (refs.map (·.key)).IsChain (· ≠ ·) →
    queueLoop i refs q bits = .error (.exception "Attempted to insert item with duplicate keys")
  | [], i, q, bits, h => absurd (by simp) h
  | [_], i, q, bits, h => absurd (by simp) h
  | l :: r :: rest, i, q, bits, h => by
    simp only [List.map_cons, List.isChain_cons_cons, not_and] at h
    unfold queueLoop
    by_cases hlr : l.key = r.key
    · rw [hlr, splitBitLoop_eq hN]
    · rw [splitBitLoop_ne hlr]
      exact queueLoop_err hN (r :: rest) (i + 1) _ _ (h hlr)

theorem generateTreeRefQueue_ok {refs : List (TreeRef N)} (h0 : refs ≠ [])
    (hne : (refs.map (·.key)).IsChain (· ≠ ·)) :
    ∃ q bits, generateTreeRefQueue refs = .ok (q, bits) ∧
      QueueHolds (boundaries 0 (refs.map (·.key))) q bits := by
  obtain ⟨q, bits, h1, h2⟩ := queueLoop_ok refs 0 [] _ _ hne QueueHolds.empty
  refine ⟨q, bits, ?_, by simpa using h2⟩
  unfold generateTreeRefQueue
  rw [if_neg (by simpa using h0), h1]

theorem generateTreeRefQueue_err (hN : 0 < N) {refs : List (TreeRef N)}
    (hne : ¬ (refs.map (·.key)).IsChain (· ≠ ·)) :
    generateTreeRefQueue refs =
      .error (.exception "Attempted to insert item with duplicate keys") := by
  unfold generateTreeRefQueue
  have : refs ≠ [] := by rintro rfl; exact hne (by simp)
  rw [if_neg (by simpa using this), queueLoop_err hN refs 0 _ _ hne]

end MerkleBit
