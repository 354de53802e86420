import Verif.Proof.Trav
import Verif.Spec.Opened
/-! # What is opened, kept and visited -/

namespace MerkleBit
variable {N : Nat}
open Trie

theorem shared_le {D : List (Arr N)} {b : Arr N} {k : Arr N} (hk : k ∈ D) :
    shared D b ≤ firstDiff k b := by
  unfold shared
  induction D with
  | nil => simp at hk
  | cons a D ih =>
    simp only [List.map_cons, List.foldr_cons]
    rcases List.mem_cons.1 hk with rfl | hk
    · omega
    · have := ih hk
      omega

theorem shared_mem {D : List (Arr N)} {b : Arr N} :
    shared D b = 8 * N ∨ ∃ k ∈ D, firstDiff k b = shared D b := by
  unfold shared
  induction D with
  | nil => exact .inl rfl
  | cons a D ih =>
    simp only [List.map_cons, List.foldr_cons]
    rcases Nat.le_total (firstDiff a b) ((D.map (fun k => firstDiff k b)).foldr min (8 * N)) with h | h
    · exact .inr ⟨a, by simp, by omega⟩
    · rw [Nat.min_eq_right h]
      rcases ih with h1 | ⟨k, hk, h1⟩
      · exact .inl h1
      · exact .inr ⟨k, by simp [hk], h1⟩

theorem descs_followers (hN : 0 < N) {ks : List (Arr N)} (hsorted : ks.Pairwise Arr.le)
    {b : Arr N} {s : Nat} (hs : s < 8 * N) : descs b s ks = followers b s ks := by
  by_cases hks : ks = []
  · subst hks
    simp [descs, calcMinSplitIndex, followers]
  obtain ⟨m, h1, hm8, hm, hex⟩ := calcMin_sorted hN hks hsorted b
  have h2 := checkDescendants_scanned (m := m) (b := b) (Nat.le_of_lt hs) hsorted hm
  have hsc : ∀ m, scanned m s ≤ s := fun m => by unfold scanned; split <;> omega
  have hco : compared b s ks = scanned (shared ks b) s := rfl
  have h3 : followers b s ks = ks.filter (fun k => decide (scanned m s ≤ firstDiff k b)) := by
    unfold followers
    rw [hco]
    rcases hex with hall | ⟨k, hk, hkm⟩
    · rw [List.filter_eq_self.2, List.filter_eq_self.2]
      · intro k hk
        have := hsc m
        rw [hall k hk, firstDiff_self]
        exact decide_eq_true (by omega)
      · intro k hk
        have := hsc (shared ks b)
        rw [hall k hk, firstDiff_self]
        exact decide_eq_true (by omega)
    · have h5 : shared ks b = m := by
        have := shared_le (b := b) hk
        rcases shared_mem (D := ks) (b := b) with h | ⟨k', hk', h⟩
        · omega
        · have := hm k' hk'
          omega
      rw [h5]
  simp [descs, h1, h2, h3]

theorem halves_cut {pp : PartitionPoint N} (hpp : pp.Lawful) {s : Nat} (hs : s < 8 * N)
    (F : List (Arr N)) : halves pp s F = (F.take (cut pp s F), F.drop (cut pp s F)) := by
  unfold halves splitPairs cut
  cases hl : F.getLast? with
  | none => rw [List.getLast?_eq_none_iff] at hl; subst hl; rfl
  | some last =>
    cases hf : F.head? with
    | none => rw [List.head?_eq_none_iff] at hf; subst hf; rfl
    | some first =>
      simp only [chooseZero_ok _ hs]
      cases h1 : last.bit s with
      | false => simp
      | true =>
        cases h2 : first.bit s with
        | true => simp
        | false =>
          have := hpp.le_length F (fun k => !k.bit s)
          simp [this]

/-! ## Keys that come to a subtree -/

theorem followers_sorted {D : List (Arr N)} (h : D.Pairwise Arr.le) (b : Arr N) (s : Nat) :
    (followers b s D).Pairwise Arr.le := h.sublist List.filter_sublist

theorem zeros_sorted {pp : PartitionPoint N} {D : List (Arr N)} (h : D.Pairwise Arr.le) (b : Arr N)
    (s : Nat) : (zeros pp b s D).Pairwise Arr.le :=
  (followers_sorted h b s).sublist (List.take_sublist _ _)

theorem ones_sorted {pp : PartitionPoint N} {D : List (Arr N)} (h : D.Pairwise Arr.le) (b : Arr N)
    (s : Nat) : (ones pp b s D).Pairwise Arr.le :=
  (followers_sorted h b s).sublist (List.drop_sublist _ _)

theorem trav_node (hN : 0 < N) {pp : PartitionPoint N} (hpp : pp.Lawful) {Q : List (Arr N)}
    {l r : Trie N} (hs : firstDiff l.key r.key < 8 * N) {D : List (Arr N)} (hD : D.Pairwise Arr.le) :
    trav pp Q (.node l r) D =
      if followers l.key (firstDiff l.key r.key) D = [] then [.node l r] else
        (if zeros pp l.key (firstDiff l.key r.key) D = [] then [l] else
          trav pp Q l (zeros pp l.key (firstDiff l.key r.key) D)) ++
        (if ones pp l.key (firstDiff l.key r.key) D = [] then [r] else
          trav pp Q r (ones pp l.key (firstDiff l.key r.key) D)) := by
  rw [trav]
  simp only [descs_followers hN hD hs, halves_cut hpp hs]
  rfl

theorem visit_node (hN : 0 < N) {pp : PartitionPoint N} (hpp : pp.Lawful)
    {l r : Trie N} (hs : firstDiff l.key r.key < 8 * N) {D : List (Arr N)} (hD : D.Pairwise Arr.le) :
    visit pp (.node l r) D =
      if followers l.key (firstDiff l.key r.key) D = [] then [] else
        (if zeros pp l.key (firstDiff l.key r.key) D = [] then [] else
          visit pp l (zeros pp l.key (firstDiff l.key r.key) D)) ++
        (if ones pp l.key (firstDiff l.key r.key) D = [] then [] else
          visit pp r (ones pp l.key (firstDiff l.key r.key) D)) := by
  rw [visit]
  simp only [descs_followers hN hD hs, halves_cut hpp hs]
  rfl

/-! ## Opened subtrees -/

/-- A key that does not belong in a tree. -/
theorem opened_of_far {pp : PartitionPoint N} {k : Arr N} {t : Trie N} {D : List (Arr N)}
    (h : firstDiff k t.key < t.split) : Opened pp k t D := by
  cases t with
  | leaf k' v =>
    intro hk
    subst hk
    simp only [key, split, firstDiff_self] at h
    omega
  | node l r =>
    intro hk
    simp only [key, split] at h
    omega

theorem not_opened_nil {pp : PartitionPoint N} {k : Arr N} {t : Trie N}
    (h : t.split ≤ firstDiff k t.key) : ¬ Opened pp k t [] := by
  intro ho
  cases t with
  | leaf k' v =>
    have : ¬ k ≠ k' := fun hne => by
      have := firstDiff_lt_iff.2 hne
      simp only [key, split] at h
      omega
    exact ho (by simpa [eq_comm] using this) rfl
  | node l r => exact (ho h).1 (by simp [followers])

/-- A key outside a tree is outside its subtrees. -/
theorem far_sub {k : Arr N} {t u : Trie N} (hwf : t.WF) (hu : u.Sub t)
    (h : firstDiff k t.key < t.split) : firstDiff k u.key < u.split := by
  have h1 := hwf.agree _ (Sub.key_mem hu)
  have h2 := Sub.split_ge hu hwf
  have h3 := min_le_firstDiff k u.key t.key
  rw [firstDiff_comm u.key t.key] at h3
  rw [firstDiff_comm] at h1
  omega

theorem far_right {l r : Trie N} (hwf : (Trie.node l r).WF) {k : Arr N}
    (h1 : firstDiff l.key r.key ≤ firstDiff k l.key) (h2 : k.bit (firstDiff l.key r.key) = false) :
    firstDiff k r.key < r.split := by
  obtain ⟨h8, h3, h4⟩ := Arr.lt_bits hwf.2.2.1
  have h5 := hwf.2.2.2.2
  rcases Nat.lt_or_ge (firstDiff l.key r.key) (firstDiff k r.key) with h | h
  · rw [bit_eq_of_lt_firstDiff (a := k) (b := r.key) h, h4] at h2
    simp at h2
  · omega

theorem far_left {l r : Trie N} (hwf : (Trie.node l r).WF) {k : Arr N}
    (h2 : k.bit (firstDiff l.key r.key) = true) : firstDiff k l.key < l.split := by
  obtain ⟨h8, h3, h4⟩ := Arr.lt_bits hwf.2.2.1
  have h5 := hwf.2.2.2.1
  rcases Nat.lt_or_ge (firstDiff l.key r.key) (firstDiff k l.key) with h | h
  · rw [bit_eq_of_lt_firstDiff (a := k) (b := l.key) h, h3] at h2
    simp at h2
  · omega

/-- No kept subtree is a place where an opened key belongs; and only then. -/
theorem trav_far_iff (hN : 0 < N) {pp : PartitionPoint N} (hpp : pp.Lawful) {Q : List (Arr N)}
    {k : Arr N} (hk : k ∈ Q) : ∀ {t : Trie N} {D : List (Arr N)}, t.WF → D.Pairwise Arr.le → D ≠ [] →
      ((∀ u ∈ trav pp Q t D, firstDiff k u.key < u.split) ↔ Opened pp k t D)
  | .leaf k' v, D, _, _, hne => by
    unfold trav
    constructor
    · intro _ _; exact hne
    · intro _ u hu
      split at hu
      · simp at hu
      · next h =>
        simp only [List.mem_singleton] at hu
        subst hu
        refine firstDiff_lt_iff.2 ?_
        rintro rfl
        exact h hk
  | .node l r, D, hwf, hD, _ => by
    have hs := hwf.split_lt
    simp only [split] at hs
    rw [trav_node hN hpp hs hD]
    by_cases hfar : firstDiff k l.key < firstDiff l.key r.key
    · refine ⟨fun _ => opened_of_far hfar, fun _ u hu => ?_⟩
      rw [← trav_node hN hpp hs hD] at hu
      exact far_sub hwf (trav_sub _ _ u hu) hfar
    · have hl := fun hz => trav_far_iff hN hpp hk hwf.1
        (zeros_sorted (pp := pp) hD l.key (firstDiff l.key r.key)) hz
      have hr := fun hz => trav_far_iff hN hpp hk hwf.2.1
        (ones_sorted (pp := pp) hD l.key (firstDiff l.key r.key)) hz
      have far_or : ∀ {u : Trie N}, firstDiff k u.key < u.split → Opened pp k u [] :=
        fun h => opened_of_far h
      have or_far : ∀ {u : Trie N}, Opened pp k u [] → firstDiff k u.key < u.split := fun {u} h => by
        by_contra hc
        exact not_opened_nil (by omega) h
      have hl' : (∀ u ∈ (if zeros pp l.key (firstDiff l.key r.key) D = [] then [l] else
          trav pp Q l (zeros pp l.key (firstDiff l.key r.key) D)), firstDiff k u.key < u.split) ↔
          Opened pp k l (zeros pp l.key (firstDiff l.key r.key) D) := by
        split
        · next h =>
          rw [h]
          simp only [List.mem_singleton, forall_eq]
          exact ⟨far_or, or_far⟩
        · next h => exact hl h
      have hr' : (∀ u ∈ (if ones pp l.key (firstDiff l.key r.key) D = [] then [r] else
          trav pp Q r (ones pp l.key (firstDiff l.key r.key) D)), firstDiff k u.key < u.split) ↔
          Opened pp k r (ones pp l.key (firstDiff l.key r.key) D) := by
        split
        · next h =>
          rw [h]
          simp only [List.mem_singleton, forall_eq]
          exact ⟨far_or, or_far⟩
        · next h => exact hr h
      rw [Opened]
      split
      · next h =>
        simp only [List.mem_singleton, forall_eq, key, split]
        exact ⟨fun hc => absurd hc hfar, fun hc => absurd h (hc (by omega)).1⟩
      · next h =>
        simp only [List.mem_append, or_imp, forall_and]
        rw [hl', hr']
        exact ⟨fun hc => ⟨fun _ => h, fun _ => hc.1, fun _ => hc.2⟩,
          fun hc => ⟨hc.2.1 (by omega), hc.2.2 (by omega)⟩⟩

/-- A stored key is visited if and only if it is opened. -/
theorem visit_iff (hN : 0 < N) {pp : PartitionPoint N} (hpp : pp.Lawful) {k : Arr N}
    {v : List UInt8} : ∀ {t : Trie N} {D : List (Arr N)}, t.WF → D.Pairwise Arr.le → D ≠ [] →
      (k, v) ∈ t.entries → ((k, v) ∈ visit pp t D ↔ Opened pp k t D)
  | .leaf k' v', D, _, _, hne, he => by
    simp only [entries, List.mem_singleton] at he
    simp [visit, Opened, he, hne]
  | .node l r, D, hwf, hD, _, he => by
    have hs := hwf.split_lt
    have hag := hwf.agree k (List.mem_map_of_mem (f := Prod.fst) he)
    simp only [split, key] at hs hag
    rw [visit_node hN hpp hs hD, Opened]
    rw [entries, List.mem_append] at he
    rcases he with he | he
    · have hkl : k ∈ l.keys := List.mem_map_of_mem (f := Prod.fst) he
      have hb := hwf.bit_left hkl
      have hfr := far_right hwf hag hb
      have hnr : ∀ D, (k, v) ∉ visit pp r D := fun D hc => by
        have h1 := hwf.2.1.agree k (List.mem_map_of_mem (f := Prod.fst) (visit_sound _ _ _ hc))
        omega
      have ih := fun hz => visit_iff (v := v) hN hpp hwf.1
        (zeros_sorted (pp := pp) hD l.key (firstDiff l.key r.key)) hz he
      split
      · next h => simp [h, hag]
      · next h =>
        rw [List.mem_append]
        constructor
        · rintro (hc | hc)
          · split at hc
            · simp at hc
            · next hz => exact fun _ => ⟨h, (ih hz).1 hc, opened_of_far hfr⟩
          · split at hc
            · simp at hc
            · exact absurd hc (hnr _)
        · intro hc
          left
          have h2 := (hc hag).2.1
          split
          · next hz =>
            rw [hz] at h2
            exact absurd h2 (not_opened_nil (hwf.1.agree k hkl))
          · next hz => exact (ih hz).2 h2
    · have hkr : k ∈ r.keys := List.mem_map_of_mem (f := Prod.fst) he
      have hb := hwf.bit_right hkr
      have hfl := far_left hwf hb
      have hnl : ∀ D, (k, v) ∉ visit pp l D := fun D hc => by
        have h1 := hwf.1.agree k (List.mem_map_of_mem (f := Prod.fst) (visit_sound _ _ _ hc))
        omega
      have ih := fun hz => visit_iff (v := v) hN hpp hwf.2.1
        (ones_sorted (pp := pp) hD l.key (firstDiff l.key r.key)) hz he
      split
      · next h => simp [h, hag]
      · next h =>
        rw [List.mem_append]
        constructor
        · rintro (hc | hc)
          · split at hc
            · simp at hc
            · exact absurd hc (hnl _)
          · split at hc
            · simp at hc
            · next hz => exact fun _ => ⟨h, opened_of_far hfl, (ih hz).1 hc⟩
        · intro hc
          right
          have h2 := (hc hag).2.2
          split
          · next hz =>
            rw [hz] at h2
            exact absurd h2 (not_opened_nil (hwf.2.1.agree k hkr))
          · next hz => exact (ih hz).2 h2

/-! ## The kept subtrees, in all cases -/

theorem apart_sides {l r a b : Trie N} (hwf : (Trie.node l r).WF) (sa : a.Sub l) (sb : b.Sub r) :
    Apart a b := by
  have h1 := Sub.split_ge sa hwf.1
  have h2 := Sub.split_ge sb hwf.2.1
  have h3 := hwf.1.agree _ (Sub.key_mem sa)
  have h4 := hwf.2.1.agree _ (Sub.key_mem sb)
  obtain ⟨h5, h6⟩ := hwf.2.2.2
  have h7 : firstDiff a.key r.key = firstDiff l.key r.key := by
    rw [firstDiff_comm a.key, firstDiff_comm l.key]
    exact firstDiff_eq_of_lt (by
      rw [firstDiff_comm r.key, firstDiff_comm l.key a.key]; omega)
  have h8 : firstDiff a.key b.key = firstDiff l.key r.key := by
    rw [← h7]
    exact firstDiff_eq_of_lt (by rw [h7, firstDiff_comm r.key]; omega)
  unfold Apart
  omega

theorem trav_apart {pp : PartitionPoint N} {Q : List (Arr N)} : ∀ {t : Trie N} {D : List (Arr N)},
    t.WF → (trav pp Q t D).Pairwise Apart
  | .leaf k v, D, _ => by
    unfold trav
    split <;> simp
  | .node l r, D, hwf => by
    unfold trav
    split
    · simp
    · dsimp only
      rw [List.pairwise_append]
      refine ⟨?_, ?_, ?_⟩
      · split
        · simp
        · exact trav_apart hwf.1
      · split
        · simp
        · exact trav_apart hwf.2.1
      · intro a ha b hb
        refine apart_sides hwf ?_ ?_
        · split at ha
          · simp only [List.mem_singleton] at ha
            exact ha ▸ Sub.refl _
          · exact trav_sub _ _ a ha
        · split at hb
          · simp only [List.mem_singleton] at hb
            exact hb ▸ Sub.refl _
          · exact trav_sub _ _ b hb

/-- Pairs of other keys are kept. -/
theorem trav_others {pp : PartitionPoint N} {Q : List (Arr N)} {e : Arr N × List UInt8} (hQ : e.1 ∉ Q) :
    ∀ {t : Trie N} {D : List (Arr N)}, e ∈ t.entries → e ∈ (trav pp Q t D).flatMap entries
  | .leaf k v, D, he => by
    unfold trav
    rw [if_neg]
    · simpa using he
    · simp only [entries, List.mem_singleton] at he
      subst he
      exact hQ
  | .node l r, D, he => by
    unfold trav
    split
    · simpa using he
    · dsimp only
      rw [List.flatMap_append, List.mem_append]
      rw [entries, List.mem_append] at he
      rcases he with he | he
      · left
        split
        · simpa using he
        · exact trav_others hQ he
      · right
        split
        · simpa using he
        · exact trav_others hQ he

/-- Batches that straddle no branch open everything. -/
theorem opened_of_straddleFree (hN : 0 < N) {pp : PartitionPoint N} (hpp : pp.Lawful)
    {Q : List (Arr N)} (hQ : Q.Pairwise Arr.le) {t : Trie N} (hwf : t.WF) (hsf : StraddleFree Q 0 t)
    {k : Arr N} (hk : k ∈ Q) : Opened pp k t Q := by
  have hf : Q.filter (fun k => decide (0 ≤ firstDiff k t.key)) = Q := by
    apply List.filter_eq_self.2
    simp
  have hne : Q ≠ [] := List.ne_nil_of_mem hk
  have h := trav_eq_keep hN hpp hQ t 0 hwf (Nat.zero_le _) hsf (by rw [hf]; exact hne)
  rw [hf] at h
  refine (trav_far_iff hN hpp hk hwf hQ hne).1 ?_
  rw [h]
  exact fun u hu => keep_far t u hu k hk

end MerkleBit
