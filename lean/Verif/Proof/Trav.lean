import Verif.Proof.Utils2
import Verif.Proof.Trie
import Verif.Spec.Straddle
/-! # Pure descriptions of what the traversals visit -/

namespace MerkleBit
variable {N : Nat}
open Trie

/-- The descendants selected at a branch. -/
def descs (b : Arr N) (s : Nat) (ks : List (Arr N)) : List (Arr N) :=
  match calcMinSplitIndex ks b with
  | .ok m => match checkDescendants ks s b m with
    | .ok d => d
    | .error _ => []
  | .error _ => []

/-- The two halves of the selected descendants. -/
def halves (pp : PartitionPoint N) (s : Nat) (ds : List (Arr N)) : List (Arr N) × List (Arr N) :=
  match splitPairs pp ds s with
  | .ok p => p
  | .error _ => ([], [])

/-- The subtrees `traverse_tree` keeps. -/
def trav (pp : PartitionPoint N) (ks0 : List (Arr N)) : Trie N → List (Arr N) → List (Trie N)
  | .leaf k v, _ => if k ∈ ks0 then [] else [.leaf k v]
  | .node l r, ks =>
    if descs l.key (firstDiff l.key r.key) ks = [] then [.node l r]
    else
      let h := halves pp (firstDiff l.key r.key) (descs l.key (firstDiff l.key r.key) ks)
      (if h.1 = [] then [l] else trav pp ks0 l h.1) ++ (if h.2 = [] then [r] else trav pp ks0 r h.2)

/-- The leaves `get` visits. -/
def visit (pp : PartitionPoint N) : Trie N → List (Arr N) → List (Arr N × List UInt8)
  | .leaf k v, _ => [(k, v)]
  | .node l r, ks =>
    if descs l.key (firstDiff l.key r.key) ks = [] then []
    else
      let h := halves pp (firstDiff l.key r.key) (descs l.key (firstDiff l.key r.key) ks)
      (if h.1 = [] then [] else visit pp l h.1) ++ (if h.2 = [] then [] else visit pp r h.2)

theorem descs_ok (hN : 0 < N) {ks : List (Arr N)} (hks : ks ≠ []) {b : Arr N} {s : Nat}
    (hs : s ≤ 8 * N) : ∃ m, calcMinSplitIndex ks b = .ok m ∧
      checkDescendants ks s b m = .ok (descs b s ks) ∧ ∃ pre post, ks = pre ++ descs b s ks ++ post := by
  obtain ⟨m, h1, -⟩ := calcMin_total hN hks b
  obtain ⟨r, pre, post, h2, h3⟩ := checkDescendants_total (ks := ks) (m := m) (b := b) hs
  have : descs b s ks = r := by simp [descs, h1, h2]
  exact ⟨m, h1, by rw [this, h2], pre, post, by rw [this, h3]⟩

theorem checkDescendants_all {ks : List (Arr N)} {s m : Nat} {b : Arr N} (h : s ≤ m) :
    checkDescendants ks s b m = .ok ks := by
  rw [checkDescendants_run (p := fun _ => true) (by
    intro k _
    rw [stepBy8_nil h]; rfl)]
  rw [run_eq_filter (by simp)]
  simp

theorem halves_ok {pp : PartitionPoint N} (hpp : pp.Lawful) {s : Nat} (hs : s < 8 * N)
    (ds : List (Arr N)) : splitPairs pp ds s = .ok (halves pp s ds) ∧
      (halves pp s ds).1 ++ (halves pp s ds).2 = ds := by
  cases h : splitPairs pp ds s with
  | error e => have := (splitPairs_no_panic hpp h).2; omega
  | ok p =>
    have : halves pp s ds = p := by simp [halves, h]
    rw [this]
    exact ⟨rfl, splitPairs_append h⟩

theorem descs_subset (hN : 0 < N) {ks : List (Arr N)} {b : Arr N} {s : Nat}
    (hs : s ≤ 8 * N) : descs b s ks <:+: ks := by
  by_cases hks : ks = []
  · subst hks
    have : descs b s [] = [] := by simp [descs, calcMinSplitIndex]
    rw [this]; exact List.nil_infix
  · obtain ⟨m, _, _, pre, post, h⟩ := descs_ok hN hks (b := b) hs
    exact ⟨pre, post, h.symm⟩

/-! ## The exact selection -/

theorem descs_exact (hN : 0 < N) {ks : List (Arr N)} (hks : ks ≠ []) (hsorted : ks.Pairwise Arr.le)
    {b : Arr N} {s : Nat} (hs : s ≤ 8 * N) (hst : ¬ Straddle ks b s) :
    descs b s ks = ks.filter (fun k => decide (s ≤ firstDiff k b)) := by
  obtain ⟨m, h1, hm8, hm, hex⟩ := calcMin_sorted hN hks hsorted b
  have h2 := checkDescendants_exact (m := m) hs hsorted hm (by
    rcases hex with hall | ⟨k1, hk1, hk1m⟩
    · right
      intro k hk
      rw [hall k hk, firstDiff_self]
      omega
    · by_cases hsc : ScanComplete m s
      · exact .inl hsc
      · right
        intro k2 hk2 h
        unfold ScanComplete at hsc
        exact hst ⟨k1, hk1, fun k hk => by rw [hk1m]; exact hm k hk, by omega, by omega, k2, hk2, h⟩)
  simp [descs, h1, h2]

/-- The maximal subtrees of `t` that contain no key of `ks`, nor share the position of one. -/
def keep : Trie N → List (Arr N) → List (Trie N)
  | .leaf k v, ks => if (∃ k' ∈ ks, (Trie.leaf k v).split ≤ firstDiff k' k) then [] else [.leaf k v]
  | .node l r, ks => if (∃ k' ∈ ks, firstDiff l.key r.key ≤ firstDiff k' l.key) then
      keep l ks ++ keep r ks else [.node l r]

theorem keep_congr : ∀ (t : Trie N) {ks ks' : List (Arr N)},
    (∀ k, t.split ≤ firstDiff k t.key → (k ∈ ks ↔ k ∈ ks')) → t.WF → keep t ks = keep t ks'
  | .leaf k v, ks, ks', h, _ => by
    unfold keep
    congr 1
    apply propext
    constructor
    · rintro ⟨k', h1, h2⟩; exact ⟨k', (h k' h2).1 h1, h2⟩
    · rintro ⟨k', h1, h2⟩; exact ⟨k', (h k' h2).2 h1, h2⟩
  | .node l r, ks, ks', h, hwf => by
    obtain ⟨hl, hr, hlt, hsl, hsr⟩ := hwf
    have hl' := keep_congr l (ks := ks) (ks' := ks') (fun k hk => h k (by
      simp only [split, key] at *; omega)) hl
    have hr' := keep_congr r (ks := ks) (ks' := ks') (fun k hk => h k (by
      simp only [split, key] at *
      have := min_le_firstDiff k r.key l.key
      rw [firstDiff_comm r.key l.key] at this
      omega)) hr
    unfold keep
    rw [hl', hr']
    congr 1
    apply propext
    constructor
    · rintro ⟨k', h1, h2⟩; exact ⟨k', (h k' h2).1 h1, h2⟩
    · rintro ⟨k', h1, h2⟩; exact ⟨k', (h k' h2).2 h1, h2⟩

theorem keep_of_none : ∀ (t : Trie N) {ks : List (Arr N)},
    (∀ k ∈ ks, firstDiff k t.key < t.split) → keep t ks = [t]
  | .leaf k v, ks, h => by
    unfold keep
    rw [if_neg]
    rintro ⟨k', h1, h2⟩
    have := h k' h1
    simp only [key] at this
    omega
  | .node l r, ks, h => by
    unfold keep
    rw [if_neg]
    rintro ⟨k', h1, h2⟩
    have := h k' h1
    simp only [key, split] at this
    omega

theorem halves_eq {pp : PartitionPoint N} (hpp : pp.Lawful) {s : Nat} (hs : s < 8 * N) {b : Arr N} :
    ∀ {ds : List (Arr N)}, ds.Pairwise Arr.le → (∀ k ∈ ds, s ≤ firstDiff k b) →
    halves pp s ds = (ds.filter (fun k => k.bit s = false), ds.filter (fun k => k.bit s = true)) := by
  intro ds hsorted hfd
  have hsplit : ds = ds.filter (fun k => k.bit s = false) ++ ds.filter (fun k => k.bit s = true) := by
    clear hpp
    induction ds with
    | nil => rfl
    | cons a ds ih =>
      rw [List.pairwise_cons] at hsorted
      have ih := ih hsorted.2 (fun k hk => hfd k (by simp [hk]))
      cases ha : a.bit s with
      | false =>
        rw [List.filter_cons_of_pos (by simp [ha]), List.filter_cons_of_neg (by simp [ha]),
          List.cons_append, ← ih]
      | true =>
        rw [List.filter_cons_of_neg (by simp [ha]), List.filter_cons_of_pos (by simp [ha])]
        have hall : ∀ k ∈ ds, k.bit s = true := by
          intro k hk
          by_contra hb
          simp only [Bool.not_eq_true] at hb
          refine hsorted.1 k hk (Arr.lt_of_bits hs ?_ hb ha)
          have h1 := hfd k (by simp [hk])
          have h2 := hfd a (by simp)
          have h3 := min_le_firstDiff k b a
          rw [firstDiff_comm b a] at h3
          omega
        rw [List.filter_eq_nil_iff.2 (fun k hk => by simp [hall k hk]),
          List.filter_eq_self.2 (fun k hk => by simp [hall k hk])]
        rfl
  have h1 := splitPairs_ok hpp hs (zs := ds.filter (fun k => k.bit s = false))
    (os := ds.filter (fun k => k.bit s = true)) (fun z hz => by simpa using (List.mem_filter.1 hz).2)
    (fun o ho => by simpa using (List.mem_filter.1 ho).2)
  rw [← hsplit] at h1
  unfold halves
  rw [h1]

/-- Reaching a child: the keys selected for it. -/
theorem filter_left {l r : Trie N} (h : (Trie.node l r).WF) {Q : List (Arr N)} {p : Nat}
    (hp : p ≤ firstDiff l.key r.key) :
    ((Q.filter (fun k => decide (p ≤ firstDiff k l.key))).filter
      (fun k => decide (firstDiff l.key r.key ≤ firstDiff k l.key))).filter
        (fun k => k.bit (firstDiff l.key r.key) = false) =
      Q.filter (fun k => decide (firstDiff l.key r.key + 1 ≤ firstDiff k l.key)) := by
  rw [List.filter_filter, List.filter_filter]
  apply List.filter_congr
  intro k _
  obtain ⟨h1, h2, h3⟩ := Arr.lt_bits h.2.2.1
  rw [Bool.eq_iff_iff]
  simp only [Bool.and_eq_true, decide_eq_true_eq]
  constructor
  · rintro ⟨⟨h4, h5⟩, h6⟩
    rcases Nat.lt_or_ge (firstDiff l.key r.key) (firstDiff k l.key) with h | h
    · exact h
    · have h7 : firstDiff k l.key = firstDiff l.key r.key := by omega
      have := bit_ne_firstDiff (a := k) (b := l.key) (by omega)
      rw [h7] at this
      rw [h4, h2] at this
      exact absurd rfl this
  · intro h4
    refine ⟨⟨?_, by omega⟩, by omega⟩
    rw [bit_eq_of_lt_firstDiff (a := k) (b := l.key) (by omega), h2]

theorem filter_right {l r : Trie N} (h : (Trie.node l r).WF) {Q : List (Arr N)} {p : Nat}
    (hp : p ≤ firstDiff l.key r.key) :
    ((Q.filter (fun k => decide (p ≤ firstDiff k l.key))).filter
      (fun k => decide (firstDiff l.key r.key ≤ firstDiff k l.key))).filter
        (fun k => k.bit (firstDiff l.key r.key) = true) =
      Q.filter (fun k => decide (firstDiff l.key r.key + 1 ≤ firstDiff k r.key)) := by
  rw [List.filter_filter, List.filter_filter]
  apply List.filter_congr
  intro k _
  obtain ⟨h1, h2, h3⟩ := Arr.lt_bits h.2.2.1
  rw [Bool.eq_iff_iff]
  simp only [Bool.and_eq_true, decide_eq_true_eq]
  constructor
  · rintro ⟨⟨h4, h5⟩, h6⟩
    have h8 := min_le_firstDiff k l.key r.key
    rcases Nat.lt_or_ge (firstDiff l.key r.key) (firstDiff k r.key) with h | h
    · exact h
    · have h7 : firstDiff k r.key = firstDiff l.key r.key := by omega
      have := bit_ne_firstDiff (a := k) (b := r.key) (by omega)
      rw [h7] at this
      rw [h4, h3] at this
      exact absurd rfl this
  · intro h4
    have h8 := min_le_firstDiff k r.key l.key
    rw [firstDiff_comm r.key l.key] at h8
    refine ⟨⟨?_, by omega⟩, by omega⟩
    rw [bit_eq_of_lt_firstDiff (a := k) (b := r.key) (by omega), h3]

/-- On a batch without straddles `traverse_tree` keeps exactly the maximal subtrees without new
keys. -/
theorem trav_eq_keep (hN : 0 < N) {pp : PartitionPoint N} (hpp : pp.Lawful) {Q : List (Arr N)}
    (hQ : Q.Pairwise Arr.le) : ∀ (t : Trie N) (p : Nat), t.WF → p ≤ t.split →
      StraddleFree Q p t → (Q.filter (fun k => decide (p ≤ firstDiff k t.key))) ≠ [] →
      trav pp Q t (Q.filter (fun k => decide (p ≤ firstDiff k t.key))) = keep t Q
  | .leaf k v, p, _, _, _, _ => by
    unfold trav keep
    congr 1
    apply propext
    simp only [split, key]
    constructor
    · intro h; exact ⟨k, h, by rw [firstDiff_self]⟩
    · rintro ⟨k', h1, h2⟩
      have : ¬ k' ≠ k := fun hne => by have := firstDiff_lt_iff.2 hne; omega
      simp only [ne_eq, Decidable.not_not] at this
      exact this ▸ h1
  | .node l r, p, hwf, hp, hsf, hne => by
    obtain ⟨hl, hr, hlt, hsl, hsr⟩ := hwf
    obtain ⟨hs1, hs2, hs3⟩ := hsf
    have hwf : (Trie.node l r).WF := ⟨hl, hr, hlt, hsl, hsr⟩
    have h8 := (Arr.lt_bits hlt).1
    change p ≤ firstDiff l.key r.key at hp
    change Q.filter (fun k => decide (p ≤ firstDiff k l.key)) ≠ [] at hne
    change trav pp Q (.node l r) (Q.filter (fun k => decide (p ≤ firstDiff k l.key))) = _
    have hsorted := hQ.filter (fun k => decide (p ≤ firstDiff k l.key))
    have hd := descs_exact hN hne hsorted (s := firstDiff l.key r.key) (by omega) hs1
    have hmem : ∀ k, k ∈ descs l.key (firstDiff l.key r.key)
        (Q.filter (fun k => decide (p ≤ firstDiff k l.key))) ↔
          k ∈ Q ∧ firstDiff l.key r.key ≤ firstDiff k l.key := by
      intro k
      rw [hd]
      simp only [List.mem_filter, decide_eq_true_eq]
      constructor
      · rintro ⟨⟨h1, h2⟩, h3⟩; exact ⟨h1, h3⟩
      · rintro ⟨h1, h3⟩; exact ⟨⟨h1, by omega⟩, h3⟩
    unfold trav keep
    by_cases hnil : descs l.key (firstDiff l.key r.key)
        (Q.filter (fun k => decide (p ≤ firstDiff k l.key))) = []
    · rw [if_pos hnil, if_neg]
      rintro ⟨k, hk, hk2⟩
      have := (hmem k).2 ⟨hk, hk2⟩
      rw [hnil] at this
      simp at this
    · rw [if_neg hnil]
      obtain ⟨k, hk⟩ := List.exists_mem_of_ne_nil _ hnil
      obtain ⟨hk1, hk2⟩ := (hmem k).1 hk
      rw [if_pos ⟨k, hk1, hk2⟩]
      have hh := halves_eq hpp h8 (b := l.key) (ds := descs l.key (firstDiff l.key r.key)
        (Q.filter (fun k => decide (p ≤ firstDiff k l.key)))) (by rw [hd]; exact hsorted.filter _)
        (fun k hk => ((hmem k).1 hk).2)
      rw [hd, filter_left hwf hp, filter_right hwf hp] at hh
      rw [hd, hh]
      refine congrArg₂ (· ++ ·) ?_ ?_
      · by_cases hz : Q.filter (fun k => decide (firstDiff l.key r.key + 1 ≤ firstDiff k l.key)) = []
        · simp only [hz, if_true]
          rw [keep_of_none]
          intro k hk
          by_contra hc
          have : k ∈ Q.filter (fun k => decide (firstDiff l.key r.key + 1 ≤ firstDiff k l.key)) := by
            simp only [List.mem_filter, decide_eq_true_eq]
            exact ⟨hk, by omega⟩
          rw [hz] at this
          simp at this
        · simp only [hz, if_false]
          exact trav_eq_keep hN hpp hQ l _ hl (by omega) hs2 hz
      · by_cases hz : Q.filter (fun k => decide (firstDiff l.key r.key + 1 ≤ firstDiff k r.key)) = []
        · simp only [hz, if_true]
          rw [keep_of_none]
          intro k hk
          by_contra hc
          have : k ∈ Q.filter (fun k => decide (firstDiff l.key r.key + 1 ≤ firstDiff k r.key)) := by
            simp only [List.mem_filter, decide_eq_true_eq]
            exact ⟨hk, by omega⟩
          rw [hz] at this
          simp at this
        · simp only [hz, if_false]
          exact trav_eq_keep hN hpp hQ r _ hr (by omega) hs3 hz

/-- `get` visits every requested key of the tree, on requests without straddles. -/
theorem visit_complete (hN : 0 < N) {pp : PartitionPoint N} (hpp : pp.Lawful) {Q : List (Arr N)}
    (hQ : Q.Pairwise Arr.le) : ∀ (t : Trie N) (p : Nat), t.WF → p ≤ t.split →
      StraddleFree Q p t → (Q.filter (fun k => decide (p ≤ firstDiff k t.key))) ≠ [] →
      ∀ e ∈ t.entries, e.1 ∈ Q →
        e ∈ visit pp t (Q.filter (fun k => decide (p ≤ firstDiff k t.key)))
  | .leaf k v, p, _, _, _, _, e, he, _ => by simpa [visit, entries] using he
  | .node l r, p, hwf, hp, hsf, hne, e, he, heQ => by
    have hag := hwf.agree e.1 (List.mem_map_of_mem he)
    obtain ⟨hl, hr, hlt, hsl, hsr⟩ := hwf
    obtain ⟨hs1, hs2, hs3⟩ := hsf
    have hwf : (Trie.node l r).WF := ⟨hl, hr, hlt, hsl, hsr⟩
    have h8 := (Arr.lt_bits hlt).1
    change p ≤ firstDiff l.key r.key at hp
    change Q.filter (fun k => decide (p ≤ firstDiff k l.key)) ≠ [] at hne
    change e ∈ visit pp (.node l r) (Q.filter (fun k => decide (p ≤ firstDiff k l.key)))
    change firstDiff l.key r.key ≤ firstDiff e.1 l.key at hag
    have hsorted := hQ.filter (fun k => decide (p ≤ firstDiff k l.key))
    have hd := descs_exact hN hne hsorted (s := firstDiff l.key r.key) (by omega) hs1
    have hmem : ∀ k, k ∈ descs l.key (firstDiff l.key r.key)
        (Q.filter (fun k => decide (p ≤ firstDiff k l.key))) ↔
          k ∈ Q ∧ firstDiff l.key r.key ≤ firstDiff k l.key := by
      intro k
      rw [hd]
      simp only [List.mem_filter, decide_eq_true_eq]
      constructor
      · rintro ⟨⟨h1, h2⟩, h3⟩; exact ⟨h1, h3⟩
      · rintro ⟨h1, h3⟩; exact ⟨⟨h1, by omega⟩, h3⟩
    unfold visit
    rw [if_neg (by
      intro hnil
      have := (hmem e.1).2 ⟨heQ, hag⟩
      rw [hnil] at this
      simp at this)]
    have hh := halves_eq hpp h8 (b := l.key) (ds := descs l.key (firstDiff l.key r.key)
      (Q.filter (fun k => decide (p ≤ firstDiff k l.key)))) (by rw [hd]; exact hsorted.filter _)
      (fun k hk => ((hmem k).1 hk).2)
    rw [hd, filter_left hwf hp, filter_right hwf hp] at hh
    rw [hd, hh]
    rw [entries, List.mem_append] at he
    dsimp only
    rw [List.mem_append]
    rcases he with he | he
    · left
      have hk := hl.agree e.1 (List.mem_map_of_mem he)
      have hz : Q.filter (fun k => decide (firstDiff l.key r.key + 1 ≤ firstDiff k l.key)) ≠ [] :=
        List.ne_nil_of_mem (a := e.1) (by
          simp only [List.mem_filter, decide_eq_true_eq]; exact ⟨heQ, by omega⟩)
      rw [if_neg hz]
      exact visit_complete hN hpp hQ l _ hl (by omega) hs2 hz e he heQ
    · right
      have hk := hr.agree e.1 (List.mem_map_of_mem he)
      have hz : Q.filter (fun k => decide (firstDiff l.key r.key + 1 ≤ firstDiff k r.key)) ≠ [] :=
        List.ne_nil_of_mem (a := e.1) (by
          simp only [List.mem_filter, decide_eq_true_eq]; exact ⟨heQ, by omega⟩)
      rw [if_neg hz]
      exact visit_complete hN hpp hQ r _ hr (by omega) hs3 hz e he heQ

theorem visit_sound {pp : PartitionPoint N} : ∀ (t : Trie N) (ks : List (Arr N)),
    ∀ e ∈ visit pp t ks, e ∈ t.entries
  | .leaf k v, ks, e, he => by simpa [visit, entries] using he
  | .node l r, ks, e, he => by
    unfold visit at he
    split at he
    · simp at he
    · dsimp only at he
      rw [List.mem_append] at he
      rw [entries, List.mem_append]
      rcases he with he | he
      · left
        split at he
        · simp at he
        · exact visit_sound l _ e he
      · right
        split at he
        · simp at he
        · exact visit_sound r _ e he

theorem trav_sub {pp : PartitionPoint N} {ks0 : List (Arr N)} : ∀ (t : Trie N) (ks : List (Arr N)),
    ∀ u ∈ trav pp ks0 t ks, u.Sub t
  | .leaf k v, ks, u, hu => by
    unfold trav at hu
    split at hu
    · simp at hu
    · simp only [List.mem_singleton] at hu
      exact hu ▸ Sub.refl _
  | .node l r, ks, u, hu => by
    unfold trav at hu
    split at hu
    · simp only [List.mem_singleton] at hu
      exact hu ▸ Sub.refl _
    · dsimp only at hu
      rw [List.mem_append] at hu
      rcases hu with hu | hu
      · refine Sub.trans ?_ (Sub.left l r)
        split at hu
        · simp only [List.mem_singleton] at hu
          exact hu ▸ Sub.refl _
        · exact trav_sub l _ u hu
      · refine Sub.trans ?_ (Sub.right l r)
        split at hu
        · simp only [List.mem_singleton] at hu
          exact hu ▸ Sub.refl _
        · exact trav_sub r _ u hu

/-! ## What is kept -/

theorem keep_sub : ∀ (t : Trie N) {ks : List (Arr N)}, ∀ u ∈ keep t ks, u.Sub t
  | .leaf k v, ks, u, hu => by
    unfold keep at hu
    split at hu
    · simp at hu
    · simp only [List.mem_singleton] at hu
      exact hu ▸ Sub.refl _
  | .node l r, ks, u, hu => by
    unfold keep at hu
    split at hu
    · rw [List.mem_append] at hu
      rcases hu with hu | hu
      · exact Sub.trans (keep_sub l u hu) (Sub.left l r)
      · exact Sub.trans (keep_sub r u hu) (Sub.right l r)
    · simp only [List.mem_singleton] at hu
      exact hu ▸ Sub.refl _

/-- No new key reaches a kept subtree. -/
theorem keep_far : ∀ (t : Trie N) {ks : List (Arr N)}, ∀ u ∈ keep t ks, ∀ k ∈ ks,
    firstDiff k u.key < u.split
  | .leaf k v, ks, u, hu => by
    unfold keep at hu
    split at hu
    · simp at hu
    · next h =>
      simp only [List.mem_singleton] at hu
      subst hu
      intro k' hk'
      by_contra hc
      exact h ⟨k', hk', by simp only [key] at hc; omega⟩
  | .node l r, ks, u, hu => by
    unfold keep at hu
    split at hu
    · rw [List.mem_append] at hu
      rcases hu with hu | hu
      · exact keep_far l u hu
      · exact keep_far r u hu
    · next h =>
      simp only [List.mem_singleton] at hu
      subst hu
      intro k' hk'
      by_contra hc
      exact h ⟨k', hk', by simp only [key, split] at hc; omega⟩

theorem keep_entries : ∀ {t : Trie N}, t.WF → ∀ {ks : List (Arr N)},
    (keep t ks).flatMap entries = t.entries.filter (fun e => decide (e.1 ∉ ks))
  | .leaf k v, _, ks => by
    unfold keep
    split
    · next h =>
      obtain ⟨k', h1, h2⟩ := h
      simp only [split] at h2
      have : ¬ k' ≠ k := fun hne => by have := firstDiff_lt_iff.2 hne; omega
      simp only [ne_eq, Decidable.not_not] at this
      subst this
      simp [entries, h1]
    · next h =>
      have : k ∉ ks := fun hk => h ⟨k, hk, by simp [split, firstDiff_self]⟩
      simp [entries, this]
  | .node l r, hwf, ks => by
    unfold keep
    split
    · rw [List.flatMap_append, keep_entries hwf.1, keep_entries hwf.2.1, entries, List.filter_append]
    · next h =>
      have : ∀ e ∈ (Trie.node l r).entries, e.1 ∉ ks := by
        intro e he hk
        have := hwf.agree e.1 (List.mem_map_of_mem he)
        exact h ⟨e.1, hk, this⟩
      rw [List.filter_eq_self.2 (by simpa using this)]
      simp

/-- Two subtrees at different positions. -/
def Apart (a b : Trie N) : Prop :=
  firstDiff a.key b.key < a.split ∧ firstDiff a.key b.key < b.split

theorem Apart.symm {a b : Trie N} (h : Apart a b) : Apart b a := by
  unfold Apart at *
  rw [firstDiff_comm b.key a.key]
  exact ⟨h.2, h.1⟩

theorem Sub.key_mem {u : Trie N} {t : Trie N} (h : u.Sub t) : u.key ∈ t.keys :=
  (h.entries.map Prod.fst).subset u.key_mem

theorem Sub.split_ge {u : Trie N} : ∀ {t : Trie N}, u.Sub t → t.WF → t.split ≤ u.split
  | .leaf k v, h, _ => by unfold Trie.Sub at h; rw [h]
  | .node l r, h, hwf => by
    rcases h with rfl | h | h
    · exact Nat.le_refl _
    · have := Sub.split_ge h hwf.1
      have h1 := hwf.2.2.2.1
      simp only [split] at *; omega
    · have := Sub.split_ge h hwf.2.1
      have h1 := hwf.2.2.2.2
      simp only [split] at *; omega

theorem keep_apart : ∀ {t : Trie N}, t.WF → ∀ {ks : List (Arr N)}, (keep t ks).Pairwise Apart
  | .leaf k v, _, ks => by
    unfold keep
    split <;> simp
  | .node l r, hwf, ks => by
    unfold keep
    split
    · rw [List.pairwise_append]
      refine ⟨keep_apart hwf.1, keep_apart hwf.2.1, ?_⟩
      intro a ha b hb
      have sa := keep_sub l a ha
      have sb := keep_sub r b hb
      have h1 := Sub.split_ge sa hwf.1
      have h2 := Sub.split_ge sb hwf.2.1
      have h3 := hwf.1.agree _ (Sub.key_mem sa)
      have h4 := hwf.2.1.agree _ (Sub.key_mem sb)
      obtain ⟨h5, h6⟩ := hwf.2.2.2
      have h7 : firstDiff a.key r.key = firstDiff l.key r.key := by
        rw [firstDiff_comm a.key, firstDiff_comm l.key]
        exact firstDiff_eq_of_lt (by
          rw [firstDiff_comm r.key, firstDiff_comm l.key a.key]; omega)
      have h8 : firstDiff a.key b.key = firstDiff l.key r.key := by
        rw [← h7]
        exact firstDiff_eq_of_lt (by rw [h7, firstDiff_comm r.key]; omega)
      unfold Apart
      omega
    · simp

/-! ## Batches without straddles -/

theorem straddleFree_of {Q : List (Arr N)} : ∀ {t : Trie N} {p : Nat},
    (∀ l r : Trie N, ∀ p : Nat, (Trie.node l r).Sub t →
      ¬ Straddle (Q.filter (fun k => p ≤ firstDiff k l.key)) l.key (firstDiff l.key r.key)) →
    StraddleFree Q p t
  | .leaf _ _, _, _ => trivial
  | .node l r, p, h =>
    ⟨h l r p (Sub.refl _), straddleFree_of (fun a b p hs => h a b p (hs.trans (Sub.left l r))),
      straddleFree_of (fun a b p hs => h a b p (hs.trans (Sub.right l r)))⟩

theorem not_straddle_single {D : List (Arr N)} {b : Arr N} {s : Nat}
    (h : ∀ x ∈ D, ∀ y ∈ D, firstDiff x b < s → firstDiff y b < s → x = y) : ¬ Straddle D b s := by
  rintro ⟨k1, h1, _, h2, h3, k2, h4, h5, h6⟩
  have := h k1 h1 k2 h4 h2 h5
  subst this
  omega

/-- One-byte keys. -/
theorem not_straddle_byte {D : List (Arr N)} {b : Arr N} {s : Nat} (hs : s ≤ 8) :
    ¬ Straddle D b s := by
  rintro ⟨k1, h1, _, h2, h3, k2, h4, h5, h6⟩
  omega

/-- Keys of a subtree are the keys of the tree at its position. -/
theorem mem_of_pos : ∀ {t : Trie N} {Q : List (Arr N)} {p : Nat}, t.WF → p ≤ t.split →
    (∀ k ∈ Q, p ≤ firstDiff k t.key → k ∈ t.keys ∨ ∀ k' ∈ Q, p ≤ firstDiff k' t.key → k' ∉ t.keys → k' = k) →
    StraddleFree Q p t
  | .leaf _ _, _, _, _, _, _ => trivial
  | .node l r, Q, p, hwf, hp, h => by
    have hl := hwf.1
    have hr := hwf.2.1
    obtain ⟨h5, h6⟩ := hwf.2.2.2
    refine ⟨?_, ?_, ?_⟩
    · apply not_straddle_single
      intro x hx y hy hxs hys
      simp only [List.mem_filter, decide_eq_true_eq] at hx hy
      have hxn : x ∉ (Trie.node l r).keys := fun hk => by
        have := hwf.agree x hk
        simp only [key, split] at this; omega
      have hyn : y ∉ (Trie.node l r).keys := fun hk => by
        have := hwf.agree y hk
        simp only [key, split] at this; omega
      rcases h y hy.1 hy.2 with h' | h'
      · exact absurd h' hyn
      · exact h' x hx.1 hx.2 hxn
    · apply mem_of_pos hl (by omega)
      intro k hk hpk
      rcases h k hk (by simp only [key, split] at *; omega) with h' | h'
      · left
        rw [keys_node, List.mem_append] at h'
        rcases h' with h' | h'
        · exact h'
        · exfalso
          have h1 := hwf.bit_right h'
          have h2 := hwf.bit_left l.key_mem
          rw [bit_eq_of_lt_firstDiff (a := k) (b := l.key) (by simp only [split] at *; omega), h2] at h1
          cases h1
      · right
        intro k' hk' hpk' hn
        apply h' k' hk' (by simp only [key, split] at *; omega)
        intro hc
        rw [keys_node, List.mem_append] at hc
        rcases hc with hc | hc
        · exact hn hc
        · have h1 := hwf.bit_right hc
          have h2 := hwf.bit_left l.key_mem
          rw [bit_eq_of_lt_firstDiff (a := k') (b := l.key) (by simp only [split] at *; omega), h2] at h1
          cases h1
    · apply mem_of_pos hr (by omega)
      have key2 : ∀ k, firstDiff l.key r.key + 1 ≤ firstDiff k r.key → p ≤ firstDiff k l.key := by
        intro k hk
        have := min_le_firstDiff k r.key l.key
        rw [firstDiff_comm r.key l.key] at this
        simp only [split] at hp
        omega
      intro k hk hpk
      rcases h k hk (key2 k hpk) with h' | h'
      · left
        rw [keys_node, List.mem_append] at h'
        rcases h' with h' | h'
        · exfalso
          have h1 := hwf.bit_left h'
          have h2 := hwf.bit_right r.key_mem
          rw [bit_eq_of_lt_firstDiff (a := k) (b := r.key) (by simp only [split] at *; omega), h2] at h1
          cases h1
        · exact h'
      · right
        intro k' hk' hpk' hn
        apply h' k' hk' (key2 k' hpk')
        intro hc
        rw [keys_node, List.mem_append] at hc
        rcases hc with hc | hc
        · have h1 := hwf.bit_left hc
          have h2 := hwf.bit_right r.key_mem
          rw [bit_eq_of_lt_firstDiff (a := k') (b := r.key) (by simp only [split] at *; omega), h2] at h1
          cases h1
        · exact hn hc

/-- A batch with at most one key that is not stored in the tree. -/
theorem straddleFree_of_stored {t : Trie N} (hwf : t.WF) {Q : List (Arr N)}
    (h : ∀ k ∈ Q, ∀ k' ∈ Q, k ∉ t.keys → k' ∉ t.keys → k' = k) : StraddleFree Q 0 t := by
  apply mem_of_pos hwf (Nat.zero_le _)
  intro k hk _
  by_cases hm : k ∈ t.keys
  · exact .inl hm
  · exact .inr (fun k' hk' _ hn => h k hk k' hk' hm hn)

/-- Straddles of subtrees at their positions. -/
theorem straddleFree_at {T : Trie N} {Q : List (Arr N)}
    (hbad : ∀ l r : Trie N, ∀ p : Nat, (Trie.node l r).Sub T →
      (∀ k ∈ T.keys, p ≤ firstDiff k l.key → k ∈ (Trie.node l r).keys) →
      ¬ Straddle (Q.filter (fun k => p ≤ firstDiff k l.key)) l.key (firstDiff l.key r.key)) :
    ∀ {t : Trie N} {p : Nat}, t.WF → t.Sub T → p ≤ t.split →
      (∀ k ∈ T.keys, p ≤ firstDiff k t.key → k ∈ t.keys) → StraddleFree Q p t
  | .leaf _ _, _, _, _, _, _ => trivial
  | .node l r, p, hwf, hsub, hp, h => by
    obtain ⟨h5, h6⟩ := hwf.2.2.2
    refine ⟨hbad l r p hsub h, ?_, ?_⟩
    · apply straddleFree_at hbad hwf.1 ((Sub.left l r).trans hsub) (by omega)
      intro k hk hpk
      have h' := h k hk (by simp only [key, split] at *; omega)
      rw [keys_node, List.mem_append] at h'
      rcases h' with h' | h'
      · exact h'
      · exfalso
        have h1 := hwf.bit_right h'
        have h2 := hwf.bit_left l.key_mem
        rw [bit_eq_of_lt_firstDiff (a := k) (b := l.key) (by simp only [split] at *; omega), h2] at h1
        cases h1
    · apply straddleFree_at hbad hwf.2.1 ((Sub.right l r).trans hsub) (by omega)
      intro k hk hpk
      have h' := h k hk (by
        have := min_le_firstDiff k r.key l.key
        rw [firstDiff_comm r.key l.key] at this
        simp only [key, split] at *
        omega)
      rw [keys_node, List.mem_append] at h'
      rcases h' with h' | h'
      · exfalso
        have h1 := hwf.bit_left h'
        have h2 := hwf.bit_right r.key_mem
        rw [bit_eq_of_lt_firstDiff (a := k) (b := r.key) (by simp only [split] at *; omega), h2] at h1
        cases h1
      · exact h'

/-- One-byte keys. -/
theorem straddleFree_byte {t : Trie 1} {Q : List (Arr 1)} {p : Nat} : StraddleFree Q p t :=
  straddleFree_of (fun l r _ _ => not_straddle_byte (by have := firstDiff_le l.key r.key; omega))

end MerkleBit
