import Verif.Proof.Parts
import Verif.Proof.Storage
import Verif.Spec.Follow
/-! # Proofs of one key in two versions -/

namespace MerkleBit
variable {N : Nat} {σ V : Type} {cfg : Config N σ V}

/-- The parts start with the leaf. -/
theorem parts_head {k : Arr N} {v : List UInt8} : ∀ {T : Trie N}, T.WF → (k, v) ∈ T.entries →
    ∃ rest, T.parts k = (8 * N, .leaf k v) :: rest
  | .leaf k' v', _, he => by
    simp only [Trie.entries, List.mem_singleton, Prod.mk.injEq] at he
    obtain ⟨rfl, rfl⟩ := he
    exact ⟨[], rfl⟩
  | .node l r, hwf, he => by
    have hk := List.mem_append.1 he
    unfold Trie.parts
    by_cases hb : k.bit (firstDiff l.key r.key) = true
    · rw [if_pos hb]
      rcases hk with hk | hk
      · have := hwf.bit_left (List.mem_map_of_mem (f := Prod.fst) hk)
        simp only [Trie.split] at this
        rw [this] at hb; cases hb
      · obtain ⟨rest, hr⟩ := parts_head hwf.2.1 hk
        exact ⟨_, by rw [hr]; rfl⟩
    · rw [if_neg hb]
      rcases hk with hk | hk
      · obtain ⟨rest, hr⟩ := parts_head hwf.1 hk
        exact ⟨_, by rw [hr]; rfl⟩
      · have := hwf.bit_right (List.mem_map_of_mem (f := Prod.fst) hk)
        simp only [Trie.split] at this
        exact absurd this hb

/-- What the parts of a version are determined by. -/
theorem parts_congr {T T' : Trie N} {M M' : Contents N V} (hwf : T.WF) (hwf' : T'.WF)
    (hM : Represents cfg T M) (hM' : Represents cfg T' M') {k : Arr N} (hk : k ∈ T.keys) (hk' : k ∈ T'.keys)
    {e e' : Nat × Trie N} (he : e ∈ T.parts k) (he' : e' ∈ T'.parts k) (hb : e.1 = e'.1)
    (h : ∀ k', firstDiff k k' = e.1 → M k' = M' k') : e = e' := by
  have h1 := parts_represent hwf hM hk he
  have h2 := parts_represent hwf' hM' hk' he'
  have hp : M.part k e.1 = M'.part k e'.1 := by
    funext k'
    unfold Contents.part
    rw [← hb]
    split
    · exact h k' ‹_›
    · rfl
  rw [← hp] at h2
  exact Prod.ext hb (Represents.unique ((parts_sub e he).wf hwf) ((parts_sub e' he').wf hwf') h1 h2)

/-- Versions with the same keys have parts at the same bits. -/
theorem parts_same_bits {T T' : Trie N} {M M' : Contents N V} (hwf : T.WF) (hwf' : T'.WF)
    (hM : Represents cfg T M) (hM' : Represents cfg T' M') {k : Arr N} (hk : k ∈ T.keys)
    (hkeys : ∀ k', M k' ≠ none ↔ M' k' ≠ none) :
    (T.parts k).map Prod.fst = (T'.parts k).map Prod.fst := by
  have hk' : k ∈ T'.keys := hM'.mem.2 ((hkeys k).1 (hM.mem.1 hk))
  refine eq_of_falling (parts_bits hwf hM hk).sorted (parts_bits hwf' hM' hk').sorted fun x => ?_
  rw [(parts_bits hwf hM hk).mem, (parts_bits hwf' hM' hk').mem]
  simp only [hkeys]

/-- Versions with the same keys: the parts, one by one. -/
theorem parts_getElem {T T' : Trie N} {M M' : Contents N V} (hwf : T.WF) (hwf' : T'.WF)
    (hM : Represents cfg T M) (hM' : Represents cfg T' M') {k : Arr N} (hk : k ∈ T.keys)
    (hkeys : ∀ k', M k' ≠ none ↔ M' k' ≠ none) {i : Nat} {b : Nat}
    (hi : ((T.parts k).map Prod.fst)[i]? = some b) (h : ∀ k', firstDiff k k' = b → M k' = M' k') :
    (T.parts k)[i]? = (T'.parts k)[i]? := by
  have hk' : k ∈ T'.keys := hM'.mem.2 ((hkeys k).1 (hM.mem.1 hk))
  have hi' := hi
  rw [parts_same_bits hwf hwf' hM hM' hk hkeys] at hi'
  rw [List.getElem?_map] at hi hi'
  obtain ⟨e, he, h1⟩ := Option.map_eq_some_iff.1 hi
  obtain ⟨e', he', h2⟩ := Option.map_eq_some_iff.1 hi'
  rw [he, he']
  exact congrArg some (parts_congr hwf hwf' hM hM' hk hk' (List.mem_of_getElem? he) (List.mem_of_getElem? he')
    (h1.trans h2.symm) (by rw [h1]; exact h))

/-- Another value for `k` leaves everything beside the way to `k` alone. -/
theorem path_congr {T T' : Trie N} {M M' : Contents N V} (hwf : T.WF) (hwf' : T'.WF)
    (hM : Represents cfg T M) (hM' : Represents cfg T' M') {k : Arr N} {b b' : List UInt8}
    (hk : (k, b) ∈ T.entries) (hk' : (k, b') ∈ T'.entries)
    (hkeys : ∀ k', M k' ≠ none ↔ M' k' ≠ none) (h : ∀ k', k' ≠ k → M k' = M' k') (H : Hasher N) :
    T.path H k = T'.path H k := by
  have hkT : k ∈ T.keys := List.mem_map_of_mem (f := Prod.fst) hk
  obtain ⟨rest, hr⟩ := parts_head hwf hk
  obtain ⟨rest', hr'⟩ := parts_head hwf' hk'
  have hp := parts_path (H := H) hwf hk
  have hp' := parts_path (H := H) hwf' hk'
  have hrest : rest = rest' := by
    apply List.ext_getElem?
    intro i
    have hbits := parts_same_bits hwf hwf' hM hM' hkT hkeys
    have hso := (parts_sorted hwf hkT).1
    cases hi : rest[i]? with
    | none =>
      rw [hr, hr'] at hbits
      have hlen := congrArg List.length hbits
      simp only [List.map_cons, List.length_cons, List.length_map] at hlen
      rw [List.getElem?_eq_none_iff] at hi
      exact (List.getElem?_eq_none_iff.2 (by omega)).symm
    | some e =>
      have hlt : e.1 < 8 * N := by
        rw [hr, List.map_cons, List.pairwise_cons] at hso
        exact hso.1 _ (List.mem_map_of_mem (List.mem_of_getElem? hi))
      have := parts_getElem hwf hwf' hM hM' hkT hkeys (i := i + 1) (b := e.1)
        (by rw [hr, List.map_cons, List.getElem?_cons_succ, List.getElem?_map, hi]; rfl)
        (fun k' hk' => h k' (by rintro rfl; rw [firstDiff_self] at hk'; omega))
      rw [hr, hr', List.getElem?_cons_succ, List.getElem?_cons_succ, hi] at this
      exact this
  rw [hr, List.map_cons, List.cons.injEq] at hp
  rw [hr', List.map_cons, List.cons.injEq] at hp'
  rw [hp.2, hp'.2, hrest]

/-- The way to `k` goes through the part of `k`, as seen from another key. -/
theorem parts_through {k k2 : Arr N} (hne : k ≠ k2) : ∀ {T : Trie N}, T.WF → k ∈ T.keys → k2 ∈ T.keys →
    ∀ e ∈ T.parts k2, k ∈ e.2.keys →
      ∃ u rest, T.parts k = e.2.parts k ++ (e.1, u) :: rest ∧ e.1 = firstDiff k k2
  | .leaf k' v', _, hk, hk2, e, he, hke => by
    simp only [Trie.keys, Trie.entries, List.map_cons, List.map_nil, List.mem_singleton] at hk hk2
    exact absurd (hk.trans hk2.symm) hne
  | .node l r, hwf, hk, hk2, e, he, hke => by
    have hfd : e.1 = firstDiff k k2 := by
      obtain ⟨x, hx, rfl⟩ := List.mem_map.1 hke
      rw [firstDiff_comm, (((parts_entries hwf hk2 e he).2 x).1 hx).2]
    have hke' := hke
    rw [Trie.keys_node] at hk hk2
    unfold Trie.parts at he
    have side : ∀ {x : Arr N}, x ∈ l.keys ++ r.keys →
        (x.bit (firstDiff l.key r.key) = true ∧ x ∈ r.keys ∧ x ∉ l.keys) ∨
        (x.bit (firstDiff l.key r.key) ≠ true ∧ x ∈ l.keys ∧ x ∉ r.keys) := by
      intro x hx
      have hl : x ∈ l.keys → x.bit (firstDiff l.key r.key) = false := fun h => hwf.bit_left h
      have hr : x ∈ r.keys → x.bit (firstDiff l.key r.key) = true := fun h => hwf.bit_right h
      rcases List.mem_append.1 hx with hx | hx
      · exact .inr ⟨by rw [hl hx]; simp, hx, fun h => by rw [hl hx] at hr; exact absurd (hr h) (by simp)⟩
      · exact .inl ⟨hr hx, hx, fun h => by rw [hr hx] at hl; exact absurd (hl h) (by simp)⟩
    rcases side hk2 with ⟨hb2, hr2, hn2⟩ | ⟨hb2, hl2, hn2⟩
    · rw [if_pos hb2] at he
      rcases List.mem_append.1 he with he | he
      · have hkr : k ∈ r.keys := ((parts_sub e he).entries.map Prod.fst).subset hke
        rcases side hk with ⟨hb, -, -⟩ | ⟨-, -, hn⟩
        · obtain ⟨u, rest, h1, h2⟩ := parts_through hne hwf.2.1 hkr hr2 e he hke
          refine ⟨u, rest ++ [(firstDiff l.key r.key, l)], ?_, hfd⟩
          conv_lhs => unfold Trie.parts
          rw [if_pos hb, h1]
          simp
        · exact absurd hkr hn
      · cases List.mem_singleton.1 he
        rcases side hk with ⟨-, -, hn⟩ | ⟨hb, -, -⟩
        · exact absurd hke hn
        · refine ⟨r, [], ?_, hfd⟩
          conv_lhs => unfold Trie.parts
          rw [if_neg hb]
    · rw [if_neg hb2] at he
      rcases List.mem_append.1 he with he | he
      · have hkl : k ∈ l.keys := ((parts_sub e he).entries.map Prod.fst).subset hke
        rcases side hk with ⟨-, -, hn⟩ | ⟨hb, -, -⟩
        · exact absurd hkl hn
        · obtain ⟨u, rest, h1, h2⟩ := parts_through hne hwf.1 hkl hl2 e he hke
          refine ⟨u, rest ++ [(firstDiff l.key r.key, r)], ?_, hfd⟩
          conv_lhs => unfold Trie.parts
          rw [if_neg hb, h1]
          simp
      · cases List.mem_singleton.1 he
        rcases side hk with ⟨hb, -, -⟩ | ⟨-, -, hn⟩
        · refine ⟨l, [], ?_, hfd⟩
          conv_lhs => unfold Trie.parts
          rw [if_pos hb]
        · exact absurd hke hn

/-- Where the ways to two keys part. -/
theorem parts_fork {k k2 : Arr N} (hne : k ≠ k2) : ∀ {T : Trie N}, T.WF → k ∈ T.keys → k2 ∈ T.keys →
    ∃ (u u2 : Trie N) (b : Nat) (rest : List (Nat × Trie N)), b = firstDiff k k2 ∧
      T.parts k = u.parts k ++ (b, u2) :: rest ∧ T.parts k2 = u2.parts k2 ++ (b, u) :: rest
  | .leaf k' v', _, hk, hk2 => by
    simp only [Trie.keys, Trie.entries, List.map_cons, List.map_nil, List.mem_singleton] at hk hk2
    exact absurd (hk.trans hk2.symm) hne
  | .node l r, hwf, hk, hk2 => by
    rw [Trie.keys_node] at hk hk2
    have side : ∀ {x : Arr N}, x ∈ l.keys ++ r.keys →
        (x.bit (firstDiff l.key r.key) = true ∧ x ∈ r.keys) ∨
        (x.bit (firstDiff l.key r.key) ≠ true ∧ x ∈ l.keys) := by
      intro x hx
      have hl : x ∈ l.keys → x.bit (firstDiff l.key r.key) = false := fun h => hwf.bit_left h
      have hr : x ∈ r.keys → x.bit (firstDiff l.key r.key) = true := fun h => hwf.bit_right h
      rcases List.mem_append.1 hx with hx | hx
      · exact .inr ⟨by rw [hl hx]; simp, hx⟩
      · exact .inl ⟨hr hx, hx⟩
    rcases side hk with ⟨hb, hm⟩ | ⟨hb, hm⟩ <;> rcases side hk2 with ⟨hb2, hm2⟩ | ⟨hb2, hm2⟩
    · obtain ⟨u, u2, b, rest, h0, h1, h2⟩ := parts_fork hne hwf.2.1 hm hm2
      refine ⟨u, u2, b, rest ++ [(firstDiff l.key r.key, l)], h0, ?_, ?_⟩
      · conv_lhs => unfold Trie.parts
        rw [if_pos hb, h1]; simp
      · conv_lhs => unfold Trie.parts
        rw [if_pos hb2, h2]; simp
    · refine ⟨r, l, firstDiff l.key r.key, [], ?_, ?_, ?_⟩
      · rw [firstDiff_comm k k2]; exact (hwf.firstDiff_cross hm2 hm).symm
      · conv_lhs => unfold Trie.parts
        rw [if_pos hb]
      · conv_lhs => unfold Trie.parts
        rw [if_neg hb2]
    · refine ⟨l, r, firstDiff l.key r.key, [], ?_, ?_, ?_⟩
      · exact (hwf.firstDiff_cross hm hm2).symm
      · conv_lhs => unfold Trie.parts
        rw [if_neg hb]
      · conv_lhs => unfold Trie.parts
        rw [if_pos hb2]
    · obtain ⟨u, u2, b, rest, h0, h1, h2⟩ := parts_fork hne hwf.1 hm hm2
      refine ⟨u, u2, b, rest ++ [(firstDiff l.key r.key, r)], h0, ?_, ?_⟩
      · conv_lhs => unfold Trie.parts
        rw [if_neg hb, h1]; simp
      · conv_lhs => unfold Trie.parts
        rw [if_neg hb2, h2]; simp

theorem commonStart_append {α : Type} [DecidableEq α] {a b : α} (h : a ≠ b) (x y : List α) :
    ∀ l : List α, commonStart (l ++ a :: x) (l ++ b :: y) = l.length
  | [] => by simp [commonStart, h]
  | c :: l => by simp [commonStart, commonStart_append h x y l]

theorem commonEnd_append {α : Type} [DecidableEq α] {a b : α} (h : a ≠ b) (x y l : List α) :
    commonEnd (x ++ a :: l) (y ++ b :: l) = l.length := by
  unfold commonEnd
  simp only [List.reverse_append, List.reverse_cons, List.append_assoc, List.singleton_append]
  rw [commonStart_append h]
  simp

theorem climb_eq (H : Hasher N) : ∀ (x : Arr N) (es : List (Arr N × Bool)), climb H x es = foldProof H N x es
  | x, [] => rfl
  | x, (h, true) :: es => climb_eq H _ es
  | x, (h, false) :: es => climb_eq H _ es

end MerkleBit
