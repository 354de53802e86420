import Verif.Proof.Graph
import Verif.Proof.History
import Verif.Proof.Termination
/-! # Reference counts against pointers -/

namespace MerkleBit
variable {N : Nat} {σ V : Type}

open Classical in
/-- What the node that belongs at `x` points at. -/
noncomputable def childrenOf (H : Hasher N) (U : HIn N → Prop) (x : Arr N) : List (Arr N) :=
  if h : ∃ c, Belongs H U x c then (Classical.choose h).children else []

/-- The reference count at `x`, 0 if there is no node. -/
def refsOf (v : View N) (x : Arr N) : Nat :=
  match v x with
  | some n => n.references
  | none => 0

section
variable {H : Hasher N} {U : HIn N → Prop} {x y : Arr N} {c : Variant N}

theorem childrenOf_eq (hU : CollisionFree H U) (hb : Belongs H U x c) :
    childrenOf H U x = c.children := by
  unfold childrenOf
  have h : ∃ c, Belongs H U x c := ⟨c, hb⟩
  rw [dif_pos h, (Classical.choose_spec h).unique hU hb]

theorem childrenOf_tree (hU : CollisionFree H U) {t : Trie N} (hn : t.Norm)
    (ht : ∀ i ∈ t.inputs H, U i) : childrenOf H U (t.loc H) = (t.variant H).children :=
  childrenOf_eq hU (belongs_of_inputs hn ht)

theorem childrenOf_data (hU : CollisionFree H U) {k : Arr N} {v : List UInt8}
    (h : U (.data k v)) : childrenOf H U (Trie.dataLoc H k v) = [] :=
  childrenOf_eq hU (belongs_data h)

/-- Pointers lead to smaller trees. -/
theorem childrenOf_ranked (hU : CollisionFree H U) :
    ∃ rank : Arr N → Nat, ∀ x, ∀ y ∈ childrenOf H U x, rank y < rank x := by
  classical
  let rank : Arr N → Nat := fun x =>
    if h : ∃ t : Trie N, t.loc H = x ∧ ∀ i ∈ t.inputs H, U i
      then (Classical.choose h).height + 1 else 0
  have htree : ∀ t : Trie N, (∀ i ∈ t.inputs H, U i) → rank (t.loc H) = t.height + 1 := by
    intro t ht
    have h : ∃ u : Trie N, u.loc H = t.loc H ∧ ∀ i ∈ u.inputs H, U i := ⟨t, rfl, ht⟩
    have he : Classical.choose h = t :=
      Trie.eq_of_loc hU (Classical.choose_spec h).2 ht (Classical.choose_spec h).1
    simp only [rank]
    rw [dif_pos h, he]
  have hdata : ∀ k v, U (.data k v) → rank (Trie.dataLoc H k v) = 0 := by
    intro k v hk
    simp only [rank]
    rw [dif_neg]
    rintro ⟨t, h1, h2⟩
    rw [Trie.loc_eq] at h1
    have := hU _ _ (h2 _ (Trie.rootIn_mem H t)) hk h1
    cases t <;> simp [Trie.rootIn] at this
  refine ⟨rank, ?_⟩
  intro x y hy
  unfold childrenOf at hy
  split at hy
  · next h =>
    rcases Classical.choose_spec h with ⟨k, v, _, hc, _⟩ | ⟨t, _, hx, hc, ht⟩
    · rw [hc] at hy; simp [Variant.children] at hy
    · rw [hc] at hy
      rw [hx, htree t ht]
      cases t with
      | leaf k v =>
        simp only [Trie.variant, Variant.children, List.mem_singleton] at hy
        rw [hy, hdata k v (ht _ (by simp [Trie.inputs]))]
        omega
      | node l r =>
        simp only [Trie.variant, Variant.children, List.mem_cons, List.not_mem_nil, or_false] at hy
        rcases hy with rfl | rfl
        · rw [htree l (fun i hi => ht i (by simp [Trie.inputs, hi]))]
          simp only [Trie.height]; omega
        · rw [htree r (fun i hi => ht i (by simp [Trie.inputs, hi]))]
          simp only [Trie.height]; omega
  · simp at hy

theorem refsOf_put (v : View N) (x y : Arr N) (n : Node N) :
    refsOf (v.put x n) y = if y = x then n.references else refsOf v y := by
  unfold refsOf View.put
  by_cases h : y = x <;> simp [h]

theorem refsOf_del (v : View N) (x y : Arr N) :
    refsOf (v.del x) y = if y = x then 0 else refsOf v y := by
  unfold refsOf View.del
  by_cases h : y = x <;> simp [h]

theorem refsOf_some {v : View N} {n : Node N} (h : v x = some n) : refsOf v x = n.references := by
  unfold refsOf; rw [h]

theorem nextRefs_eq {v : View N} (x : Arr N) : nextRefs (v x) = refsOf v x + 1 := by
  unfold nextRefs refsOf
  cases v x <;> simp

end

/-- The reference counts of a view cover the pointers from everything reachable from the roots `R`
(and the roots themselves); if `ex`, they are equal to them. -/
structure Acct (H : Hasher N) (U : HIn N → Prop) (ex : Prop) (S : View N) (R : List (Arr N)) :
    Prop where
  honest : Honest H U S
  le : ∀ x, load (childrenOf H U) R x ≤ refsOf S x
  eq : ex → ∀ x, refsOf S x = load (childrenOf H U) R x

namespace Acct
variable {H : Hasher N} {U : HIn N → Prop} {ex : Prop} {S : View N} {R Q : List (Arr N)}
  {x : Arr N} {n : Node N}

theorem empty : Acct H U ex (View.empty N) [] := by
  have h : ∀ x, load (childrenOf H U) [] x = 0 := fun x => load_zero Reach.nil
  refine ⟨Honest.empty _ _, ?_, ?_⟩
  · intro x; rw [h]; omega
  · intro _ x; rw [h]; rfl

theorem perm (h : Acct H U ex S R) (hp : R.Perm Q) : Acct H U ex S Q := by
  refine ⟨h.honest, ?_, ?_⟩
  · rw [← load_perm hp]; exact h.le
  · rw [← load_perm hp]; exact h.eq

/-- Forget roots. -/
theorem forget (h : Acct H U ex S (R ++ Q)) : Acct H U False S Q :=
  ⟨h.honest, fun x => Nat.le_trans load_append_le (h.le x), fun hf => hf.elim⟩

theorem weak (h : Acct H U ex S R) : Acct H U False S R := ⟨h.honest, h.le, fun hf => hf.elim⟩

theorem present (h : Acct H U ex S R) (hx : Reach (childrenOf H U) R x) : ∃ n, S x = some n := by
  have h1 := h.le x
  have h2 := load_pos.2 hx
  unfold refsOf at h1
  cases hs : S x with
  | some n => exact ⟨n, rfl⟩
  | none => rw [hs] at h1; dsimp only at h1; omega

theorem has (hU : CollisionFree H U) (h : Acct H U ex S R) (hx : Reach (childrenOf H U) R x)
    {c : Variant N} (hb : Belongs H U x c) : View.Has S x c := by
  obtain ⟨n, hn⟩ := h.present hx
  have := (h.honest x n hn).2.unique hU hb
  exact ⟨n.references, by rw [hn, ← this]⟩

/-- Trees at reachable places are stored. -/
theorem stored (hU : CollisionFree H U) (h : Acct H U ex S R) : ∀ {t : Trie N}, t.Norm →
    (∀ i ∈ t.inputs H, U i) → Reach (childrenOf H U) R (t.loc H) → Stored H S t
  | .leaf k v, hn, ht, hr => by
    refine ⟨h.has hU hr (belongs_of_inputs hn ht), ?_⟩
    have hd : U (.data k v) := ht _ (by simp [Trie.inputs])
    refine h.has hU (.child hr ?_) (belongs_data hd)
    rw [childrenOf_tree hU hn ht]
    simp [Trie.variant, Variant.children]
  | .node l r, hn, ht, hr => by
    refine ⟨h.has hU hr (belongs_of_inputs hn ht), ?_, ?_⟩
    · refine stored hU h hn.1 (fun i hi => ht i (by simp [Trie.inputs, hi])) (.child hr ?_)
      rw [childrenOf_tree hU hn ht]
      simp [Trie.variant, Variant.children]
    · refine stored hU h hn.2.1 (fun i hi => ht i (by simp [Trie.inputs, hi])) (.child hr ?_)
      rw [childrenOf_tree hU hn ht]
      simp [Trie.variant, Variant.children]

/-- A write that only raises a count. -/
theorem touch (h : Acct H U ex S R) (hb : Belongs H U x n.variant) (hpos : 0 < n.references)
    (hn : refsOf S x ≤ n.references) (hex : ¬ ex) : Acct H U ex (S.put x n) R := by
  refine ⟨h.honest.put hpos hb, ?_, fun he => absurd he hex⟩
  intro y
  have := h.le y
  rw [refsOf_put]
  split
  · next hy => subst hy; omega
  · exact this

/-- One more root at a reachable place. -/
theorem bump (h : Acct H U ex S R) (hx : Reach (childrenOf H U) R x)
    (hb : Belongs H U x n.variant) (hn : n.references = refsOf S x + 1) :
    Acct H U ex (S.put x n) (x :: R) := by
  refine ⟨h.honest.put (by omega) hb, ?_, ?_⟩
  · intro y
    have := h.le y
    rw [refsOf_put, load_again hx]
    by_cases hy : y = x
    · subst hy; simp; omega
    · simp [hy, this]
  · intro he y
    have := h.eq he y
    rw [refsOf_put, load_again hx]
    by_cases hy : y = x
    · subst hy; simp; omega
    · simp [hy, this]

/-- A data node becomes a root (once more). -/
theorem sink (hU : CollisionFree H U) (h : Acct H U ex S R) (hc : childrenOf H U x = [])
    (hb : Belongs H U x n.variant) (hn : n.references = refsOf S x + 1) :
    Acct H U ex (S.put x n) (x :: R) := by
  have hl := fun y => load_sink (childrenOf_ranked hU) hc (R := R) (y := y)
  refine ⟨h.honest.put (by omega) hb, ?_, ?_⟩
  · intro y
    have := h.le y
    rw [refsOf_put, hl]
    by_cases hy : y = x
    · subst hy; simp; omega
    · simp [hy, this]
  · intro he y
    have := h.eq he y
    rw [refsOf_put, hl]
    by_cases hy : y = x
    · subst hy; simp; omega
    · simp [hy, this]

/-- A leaf takes over its data node. -/
theorem leaf (hU : CollisionFree H U) {d : Arr N} (h : Acct H U ex S (d :: R))
    (hc : childrenOf H U x = [d]) (hb : Belongs H U x n.variant)
    (hn : n.references = refsOf S x + 1) (hex : ex → ¬ Reach (childrenOf H U) R x) :
    Acct H U ex (S.put x n) (x :: R) := by
  by_cases hx : Reach (childrenOf H U) R x
  · refine ⟨h.honest.put (by omega) hb, ?_, fun he => absurd hx (hex he)⟩
    intro y
    have h1 := h.le y
    have h2 := load_tail (ch := childrenOf H U) (Q := R) (x := d) (y := y)
    rw [refsOf_put, load_again hx]
    by_cases hy : y = x
    · subst hy; simp; omega
    · simp [hy]; omega
  · have hl := fun y => load_open (childrenOf_ranked hU) hx (y := y)
    rw [hc] at hl
    simp only [List.singleton_append] at hl
    have hnew := load_new (childrenOf_ranked hU) hx
    refine ⟨h.honest.put (by omega) hb, ?_, ?_⟩
    · intro y
      have h1 := h.le y
      have h2 := hl y
      rw [refsOf_put]
      by_cases hy : y = x
      · subst hy; simp [hnew]; omega
      · simp only [hy, if_false] at h2 ⊢; omega
    · intro he y
      have h1 := h.eq he y
      have h2 := hl y
      rw [refsOf_put]
      by_cases hy : y = x
      · subst hy; simp only [if_true] at h2 ⊢; omega
      · simp only [hy, if_false] at h2 ⊢; omega

/-- A new node takes over its children. -/
theorem merge (hU : CollisionFree H U) {l : List (Arr N)} (h : Acct H U ex S (l ++ Q))
    (hc : childrenOf H U x = l) (hb : Belongs H U x n.variant) (hn : n.references = 1)
    (hx : ¬ Reach (childrenOf H U) Q x) : Acct H U ex (S.put x n) (x :: Q) := by
  have hl := fun y => load_open (childrenOf_ranked hU) hx (y := y)
  rw [hc] at hl
  have hnew := load_new (childrenOf_ranked hU) hx
  refine ⟨h.honest.put (by omega) hb, ?_, ?_⟩
  · intro y
    have h1 := h.le y
    have h2 := hl y
    rw [refsOf_put]
    by_cases hy : y = x
    · subst hy; simp only [if_true] at h2 ⊢; omega
    · simp only [hy, if_false] at h2 ⊢; omega
  · intro he y
    have h1 := h.eq he y
    have h2 := hl y
    rw [refsOf_put]
    by_cases hy : y = x
    · subst hy; simp only [if_true] at h2 ⊢; omega
    · simp only [hy, if_false] at h2 ⊢; omega

/-- A root is given up but its node stays. -/
theorem decr (hU : CollisionFree H U) (h : Acct H U ex S (x :: Q))
    (hb : Belongs H U x n.variant) (hn : n.references + 1 = refsOf S x) (hpos : 0 < n.references) :
    Acct H U ex (S.put x n) Q := by
  refine ⟨h.honest.put hpos hb, ?_, ?_⟩
  · intro y
    have h1 := h.le y
    have h2 := load_tail (ch := childrenOf H U) (Q := Q) (x := x) (y := y)
    rw [refsOf_put]
    by_cases hy : y = x
    · subst hy; simp only [if_true] at h2 ⊢; omega
    · simp only [hy, if_false] at h2 ⊢; omega
  · intro he y
    have h1 := h.eq he y
    have hr : Reach (childrenOf H U) Q x := by
      by_contra hx
      have h2 := load_new (childrenOf_ranked hU) hx
      have h3 := h.eq he x
      omega
    have h2 := load_again hr (y := y)
    rw [refsOf_put]
    by_cases hy : y = x
    · subst hy; simp only [if_true] at h2 ⊢; omega
    · simp only [hy, if_false] at h2 ⊢; omega

/-- A root with a count of one is not reachable in any other way. -/
theorem lone (h : Acct H U ex S (x :: Q)) (hn : refsOf S x = 1) :
    ¬ Reach (childrenOf H U) Q x := by
  intro hx
  have h1 := load_again hx (y := x)
  have h2 := load_pos.2 hx
  have h3 := h.le x
  simp only [if_true] at h1
  omega

/-- The last reference to a node is given up: its children become roots. -/
theorem delete (hU : CollisionFree H U) (h : Acct H U ex S (x :: Q)) (hn : refsOf S x = 1) :
    Acct H U ex (S.del x) (childrenOf H U x ++ Q) := by
  have hx := h.lone hn
  have hl := fun y => load_open (childrenOf_ranked hU) hx (y := y)
  refine ⟨h.honest.del, ?_, ?_⟩
  · intro y
    have h1 := h.le y
    rw [refsOf_del, hl]
    by_cases hy : y = x
    · simp [hy]
    · simp only [hy, if_false]; exact h1
  · intro he y
    have h1 := h.eq he y
    rw [refsOf_del, hl]
    by_cases hy : y = x
    · simp [hy]
    · simp only [hy, if_false]; exact h1

/-- Deleting something unreachable. -/
theorem drop (h : Acct H U ex S R) (hx : ¬ Reach (childrenOf H U) R x) :
    Acct H U False (S.del x) R := by
  refine ⟨h.honest.del, ?_, fun hf => hf.elim⟩
  intro y
  rw [refsOf_del]
  by_cases hy : y = x
  · rw [hy, load_zero hx]; omega
  · simp only [hy, if_false]; exact h.le y

end Acct
end MerkleBit
