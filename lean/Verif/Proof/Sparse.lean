import Verif.Proof.FollowNew
import Verif.Spec.Sparse
/-! # The sparse Merkle tree of the entries of a trie -/

namespace MerkleBit
variable {N : Nat} {σ V : Type} {cfg : Config N σ V}

theorem withBit_perm {i : Nat} {b : Bool} {p q : List (Arr N × List UInt8)} (h : p.Perm q) :
    (withBit i b p).Perm (withBit i b q) := h.filter _

theorem withBit_all {i : Nat} {b : Bool} {p : List (Arr N × List UInt8)} (h : ∀ e ∈ p, e.1.bit i = b) :
    withBit i b p = p ∧ withBit i (!b) p = [] := by
  unfold withBit
  constructor
  · rw [List.filter_eq_self]
    intro e he; simp [h e he]
  · rw [List.filter_eq_nil_iff]
    intro e he; simp [h e he]

theorem sparseHash_nil (H : Hasher N) (n : Nat) : sparseHash H n [] = none := by cases n <;> rfl

theorem sparseHash_succ (H : Hasher N) (n : Nat) (pairs : List (Arr N × List UInt8)) : sparseHash H (n + 1) pairs =
    joinSides H (sparseHash H n (withBit (8 * N - (n + 1)) false pairs))
      (sparseHash H n (withBit (8 * N - (n + 1)) true pairs)) := by
  cases pairs with
  | nil =>
    simp only [withBit, List.filter_nil, sparseHash_nil]
    rfl
  | cons e rest => rfl

/-- The two halves of the entries of a node. -/
theorem withBit_node {l r : Trie N} (hwf : (Trie.node l r).WF) :
    withBit (firstDiff l.key r.key) false (Trie.node l r).entries = l.entries ∧
    withBit (firstDiff l.key r.key) true (Trie.node l r).entries = r.entries := by
  have hl : ∀ e ∈ l.entries, e.1.bit (firstDiff l.key r.key) = false :=
    fun e he => hwf.bit_left (List.mem_map_of_mem (f := Prod.fst) he)
  have hr : ∀ e ∈ r.entries, e.1.bit (firstDiff l.key r.key) = true :=
    fun e he => hwf.bit_right (List.mem_map_of_mem (f := Prod.fst) he)
  have h1 := withBit_all hl
  have h2 := withBit_all hr
  simp only [Bool.not_false, Bool.not_true] at h1 h2
  unfold withBit at *
  simp only [Trie.entries, List.filter_append]
  exact ⟨by rw [h1.1, h2.2, List.append_nil], by rw [h1.2, h2.1, List.nil_append]⟩

/-- A level above the split of a trie: all its keys have the same bit there. -/
theorem same_bit {T : Trie N} (hwf : T.WF) {i : Nat} (hi : i < T.split) : ∀ e ∈ T.entries, e.1.bit i = T.key.bit i := by
  intro e he
  have := hwf.agree e.1 (List.mem_map_of_mem (f := Prod.fst) he)
  exact bit_eq_of_lt_firstDiff (by omega)

theorem sparseHash_trie (H : Hasher N) : ∀ (n : Nat) {T : Trie N}, T.WF → n ≤ 8 * N → 8 * N - n ≤ T.split →
    ∀ {pairs}, pairs.Perm T.entries → sparseHash H n pairs = some (T.loc H)
  | 0, .leaf k v, _, _, _, pairs, hp => by
    have : pairs = [(k, v)] := List.perm_singleton.1 hp
    rw [this]; rfl
  | 0, .node l r, hwf, _, hs, pairs, hp => by have := hwf.split_lt; omega
  | n + 1, T, hwf, hn, hs, pairs, hp => by
    rw [sparseHash_succ]
    by_cases hlt : 8 * N - (n + 1) < T.split
    · have hall : ∀ e ∈ pairs, e.1.bit (8 * N - (n + 1)) = T.key.bit (8 * N - (n + 1)) :=
        fun e he => same_bit hwf hlt e (hp.subset he)
      have ih := sparseHash_trie H n hwf (by omega) (by omega) hp
      cases hb : T.key.bit (8 * N - (n + 1)) with
      | false =>
        rw [hb] at hall
        have := withBit_all hall
        rw [Bool.not_false] at this
        rw [this.1, this.2, ih, sparseHash_nil]
        rfl
      | true =>
        rw [hb] at hall
        have := withBit_all hall
        rw [Bool.not_true] at this
        rw [this.1, this.2, ih, sparseHash_nil]
        rfl
    · have heq : 8 * N - (n + 1) = T.split := by omega
      cases T with
      | leaf k v => simp only [Trie.split] at heq; omega
      | node l r =>
        have hsp := hwf
        simp only [Trie.split] at heq
        obtain ⟨h1, h2⟩ := withBit_node hwf
        rw [heq]
        have hl := sparseHash_trie H n hwf.1 (by omega) (by have := hwf.2.2.2.1; omega)
          (h1 ▸ withBit_perm (i := firstDiff l.key r.key) (b := false) hp)
        have hr := sparseHash_trie H n hwf.2.1 (by omega) (by have := hwf.2.2.2.2; omega)
          (h2 ▸ withBit_perm (i := firstDiff l.key r.key) (b := true) hp)
        rw [hl, hr]
        rfl

theorem sparsePath_trie (H : Hasher N) {k : Arr N} : ∀ (n : Nat) {T : Trie N}, T.WF → n ≤ 8 * N → 8 * N - n ≤ T.split →
    k ∈ T.keys → ∀ {pairs}, pairs.Perm T.entries → sparsePath H k n pairs = T.path H k
  | 0, .leaf k' v, _, _, _, _, pairs, hp => rfl
  | 0, .node l r, hwf, _, hs, _, pairs, hp => by have := hwf.split_lt; omega
  | n + 1, T, hwf, hn, hs, hk, pairs, hp => by
    unfold sparsePath
    dsimp only
    by_cases hlt : 8 * N - (n + 1) < T.split
    · have hkb : k.bit (8 * N - (n + 1)) = T.key.bit (8 * N - (n + 1)) := by
        obtain ⟨e, he, rfl⟩ := List.mem_map.1 hk
        exact same_bit hwf hlt e he
      have hall : ∀ e ∈ pairs, e.1.bit (8 * N - (n + 1)) = k.bit (8 * N - (n + 1)) :=
        fun e he => (same_bit hwf hlt e (hp.subset he)).trans hkb.symm
      obtain ⟨h1, h2⟩ := withBit_all hall
      rw [h1, h2, sparseHash_nil, sparsePath_trie H n hwf (by omega) (by omega) hk hp]
      simp
    · have heq : 8 * N - (n + 1) = T.split := by omega
      cases T with
      | leaf k' v => simp only [Trie.split] at heq; omega
      | node l r =>
        simp only [Trie.split] at heq
        obtain ⟨h1, h2⟩ := withBit_node hwf
        have hpl := h1 ▸ withBit_perm (i := firstDiff l.key r.key) (b := false) hp
        have hpr := h2 ▸ withBit_perm (i := firstDiff l.key r.key) (b := true) hp
        have hsl : 8 * N - n ≤ l.split := by have := hwf.2.2.2.1; omega
        have hsr : 8 * N - n ≤ r.split := by have := hwf.2.2.2.2; omega
        rw [heq]
        rw [Trie.keys_node] at hk
        rcases List.mem_append.1 hk with hk | hk
        · have hb : k.bit (firstDiff l.key r.key) = false := hwf.bit_left hk
          rw [hb, Bool.not_false, sparseHash_trie H n hwf.2.1 (by omega) hsr hpr,
            sparsePath_trie H n hwf.1 (by omega) hsl hk hpl]
          conv_rhs => unfold Trie.path
          simp [hb]
        · have hb : k.bit (firstDiff l.key r.key) = true := hwf.bit_right hk
          rw [hb, Bool.not_true, sparseHash_trie H n hwf.1 (by omega) hsl hpl,
            sparsePath_trie H n hwf.2.1 (by omega) hsr hk hpr]
          conv_rhs => unfold Trie.path
          simp [hb]

theorem sparseInputs_nil (H : Hasher N) (n : Nat) : sparseInputs H n [] = [] := by cases n <;> rfl

theorem sparseInputs_succ (H : Hasher N) (n : Nat) (pairs : List (Arr N × List UInt8)) : sparseInputs H (n + 1) pairs =
    joinInputs (sparseHash H n (withBit (8 * N - (n + 1)) false pairs))
        (sparseHash H n (withBit (8 * N - (n + 1)) true pairs)) ++
      (sparseInputs H n (withBit (8 * N - (n + 1)) false pairs) ++
        sparseInputs H n (withBit (8 * N - (n + 1)) true pairs)) := by
  cases pairs with
  | nil =>
    simp only [withBit, List.filter_nil, sparseHash_nil, sparseInputs_nil]
    rfl
  | cons e rest => rfl

theorem withBit_split (i : Nat) : ∀ pairs : List (Arr N × List UInt8),
    (withBit i false pairs ++ withBit i true pairs).Perm pairs
  | [] => .nil
  | e :: rest => by
    have ih := withBit_split i rest
    cases hb : e.1.bit i with
    | false =>
      simp only [withBit, List.filter_cons, hb, beq_self_eq_true, if_true, show (false == true) = false from rfl,
        Bool.false_eq_true, if_false, List.cons_append]
      exact ih.cons e
    | true =>
      simp only [withBit, List.filter_cons, hb, beq_self_eq_true, if_true, show (true == false) = false from rfl,
        Bool.false_eq_true, if_false]
      exact List.perm_middle.trans (ih.cons e)

/-- Pairs with different keys have a trie, and all that is hashed for it is hashed for the sparse tree. -/
theorem sparse_trie (H : Hasher N) : ∀ (n : Nat), n ≤ 8 * N → ∀ {pairs : List (Arr N × List UInt8)},
    (pairs.map Prod.fst).Nodup → pairs ≠ [] → (∀ e ∈ pairs, ∀ e' ∈ pairs, 8 * N - n ≤ firstDiff e.1 e'.1) →
    ∃ T : Trie N, T.WF ∧ 8 * N - n ≤ T.split ∧ pairs.Perm T.entries ∧ ∀ i ∈ T.inputs H, i ∈ sparseInputs H n pairs
  | 0, _, [], _, hne, _ => (hne rfl).elim
  | 0, _, [e], _, _, _ => ⟨.leaf e.1 e.2, trivial, Nat.le_refl _, .refl _, fun i hi => hi⟩
  | 0, _, e :: e' :: _, hnd, _, hag => by
    have h := hag e (by simp) e' (by simp)
    have : e.1 = e'.1 := by
      by_contra hne
      have := firstDiff_lt_iff.2 hne
      omega
    simp [this] at hnd
  | n + 1, hn, pairs, hnd, hne, hag => by
    have hsplit := withBit_split (8 * N - (n + 1)) pairs
    have hmem : ∀ {b e}, e ∈ withBit (8 * N - (n + 1)) b pairs → e ∈ pairs ∧ e.1.bit (8 * N - (n + 1)) = b := by
      intro b e he
      have := List.mem_filter.1 he
      exact ⟨this.1, by simpa using this.2⟩
    have hnd' : ∀ b, ((withBit (8 * N - (n + 1)) b pairs).map Prod.fst).Nodup :=
      fun b => hnd.sublist (List.filter_sublist.map _)
    have hag' : ∀ b, ∀ e ∈ withBit (8 * N - (n + 1)) b pairs, ∀ e' ∈ withBit (8 * N - (n + 1)) b pairs,
        8 * N - n ≤ firstDiff e.1 e'.1 := by
      intro b e he e' he'
      have h1 := hag e (hmem he).1 e' (hmem he').1
      have h2 : firstDiff e.1 e'.1 ≠ 8 * N - (n + 1) := by
        intro h3
        have h4 : e.1 ≠ e'.1 := by
          intro h5; rw [h5, firstDiff_self] at h3; omega
        exact bit_ne_firstDiff (firstDiff_lt_iff.2 h4) (by rw [h3, (hmem he).2, (hmem he').2])
      omega
    rw [sparseInputs_succ]
    by_cases hl : withBit (8 * N - (n + 1)) false pairs = []
    · rw [hl, List.nil_append] at hsplit
      have hr : withBit (8 * N - (n + 1)) true pairs ≠ [] := by
        intro h; rw [h] at hsplit; exact hne hsplit.symm.eq_nil
      obtain ⟨T, h1, h2, h3, h4⟩ := sparse_trie H n (by omega) (hnd' true) hr (hag' true)
      exact ⟨T, h1, by omega, hsplit.symm.trans h3, fun i hi =>
        List.mem_append_right _ (List.mem_append_right _ (h4 i hi))⟩
    · by_cases hr : withBit (8 * N - (n + 1)) true pairs = []
      · rw [hr, List.append_nil] at hsplit
        obtain ⟨T, h1, h2, h3, h4⟩ := sparse_trie H n (by omega) (hnd' false) hl (hag' false)
        exact ⟨T, h1, by omega, hsplit.symm.trans h3, fun i hi =>
          List.mem_append_right _ (List.mem_append_left _ (h4 i hi))⟩
      · obtain ⟨T1, h1, h2, h3, h4⟩ := sparse_trie H n (by omega) (hnd' false) hl (hag' false)
        obtain ⟨T2, g1, g2, g3, g4⟩ := sparse_trie H n (by omega) (hnd' true) hr (hag' true)
        obtain ⟨e1, he1, hk1⟩ := List.mem_map.1 (T1.key_mem)
        obtain ⟨e2, he2, hk2⟩ := List.mem_map.1 (T2.key_mem)
        have m1 := hmem (h3.symm.subset he1)
        have m2 := hmem (g3.symm.subset he2)
        have hage := hag e1 m1.1 e2 m2.1
        have hsp : firstDiff T1.key T2.key = 8 * N - (n + 1) := by
          rw [← hk1, ← hk2]
          by_contra hne
          have := bit_eq_of_lt_firstDiff (a := e1.1) (b := e2.1) (i := 8 * N - (n + 1)) (by omega)
          rw [m1.2, m2.2] at this
          cases this
        have hlt : Arr.lt T1.key T2.key := by
          refine Arr.lt_of_bits (d := 8 * N - (n + 1)) (by omega) (by omega) ?_ ?_
          · rw [← hk1]; exact m1.2
          · rw [← hk2]; exact m2.2
        refine ⟨.node T1 T2, ⟨h1, g1, hlt, by omega, by omega⟩, by simp only [Trie.split]; omega,
          hsplit.symm.trans (h3.append g3), ?_⟩
        rw [sparseHash_trie H n h1 (by omega) h2 h3, sparseHash_trie H n g1 (by omega) g2 g3]
        intro i hi
        rcases List.mem_cons.1 hi with rfl | hi
        · exact List.mem_append_left _ (List.mem_singleton.2 rfl)
        · rcases List.mem_append.1 hi with hi | hi
          · exact List.mem_append_right _ (List.mem_append_left _ (h4 i hi))
          · exact List.mem_append_right _ (List.mem_append_right _ (g4 i hi))

/-- The listed pairs of a version are the entries of its trie. -/
theorem Lists.perm {T : Trie N} {M : Contents N V} (hwf : T.WF) (hM : Represents cfg T M)
    {pairs : List (Arr N × List UInt8)} (h : Lists cfg.encode M pairs) : pairs.Perm T.entries := by
  have hnd : T.entries.Nodup := by
    have : T.keys.Nodup := hwf.sorted.imp (fun {a b} h => by rintro rfl; exact Arr.lt_irrefl _ h)
    exact List.Nodup.of_map _ this
  refine (List.perm_ext_iff_of_nodup h.1 hnd).2 ?_
  rintro ⟨k, b⟩
  rw [h.2, ← Trie.lookup_eq_some_iff hwf]
  have := hM k
  cases hk : M k with
  | none =>
    rw [hk] at this
    have this : T.lookup k = none := this
    simp [this]
  | some v =>
    rw [hk] at this
    obtain ⟨b', h1, h2⟩ := this
    rw [h2]
    constructor
    · rintro ⟨v', h3, h4⟩
      cases h3
      rw [h1] at h4; cases h4; rfl
    · intro h3
      cases h3
      exact ⟨v, rfl, h1⟩

end MerkleBit
