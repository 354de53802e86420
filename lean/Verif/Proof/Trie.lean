import Verif.Spec.Trie
import Verif.Proof.BitsOrder
/-! # Facts about tries -/

namespace MerkleBit
variable {N : Nat}

namespace Trie

theorem WF.norm : ∀ {t : Trie N}, t.WF → t.Norm
  | leaf _ _, _ => trivial
  | node _ _, ⟨h1, h2, h3, _⟩ => ⟨h1.norm, h2.norm, h3⟩

theorem key_mem (t : Trie N) : t.key ∈ t.keys := by
  induction t with
  | leaf k v => simp [key, keys, entries]
  | node l r ihl _ => simp only [key, keys, entries, List.map_append, List.mem_append]; exact .inl ihl

theorem keys_node (l r : Trie N) : (node l r).keys = l.keys ++ r.keys := by simp [keys, entries]

theorem size_pos (t : Trie N) : 0 < t.size := by
  induction t with
  | leaf => simp [size, entries]
  | node l r ihl _ => simp only [size, entries, List.length_append] at *; omega

theorem size_node (l r : Trie N) : (node l r).size = l.size + r.size := by simp [size, entries]

theorem split_le (t : Trie N) : t.split ≤ 8 * N := by
  cases t with
  | leaf => exact Nat.le_refl _
  | node l r => exact firstDiff_le _ _

theorem split_lt_of_norm {l r : Trie N} (h : (node l r).Norm) : (node l r).split < 8 * N :=
  firstDiff_lt_iff.2 (Arr.ne_of_lt h.2.2)

/-- All keys of a compact trie agree below its split. -/
theorem WF.agree : ∀ {t : Trie N}, t.WF → ∀ k ∈ t.keys, t.split ≤ firstDiff k t.key
  | leaf k v, _, x, hx => by
    simp only [keys, entries, List.map_cons, List.map_nil, List.mem_singleton] at hx
    subst hx
    rw [key, firstDiff_self]
    exact Nat.le_refl _
  | node l r, ⟨hl, hr, hlt, h1, h2⟩, x, hx => by
    rw [keys_node, List.mem_append] at hx
    simp only [split, key]
    rcases hx with hx | hx
    · have := hl.agree x hx
      omega
    · have := hr.agree x hx
      have h3 := min_le_firstDiff x r.key l.key
      rw [firstDiff_comm r.key l.key] at h3
      omega

theorem WF.bit_left {l r : Trie N} (h : (node l r).WF) {k : Arr N} (hk : k ∈ l.keys) :
    k.bit (node l r).split = false := by
  obtain ⟨hl, hr, hlt, h1, h2⟩ := h
  have := hl.agree k hk
  have hb := (Arr.lt_bits hlt).2.1
  rw [split, bit_eq_of_lt_firstDiff (a := k) (b := l.key) (by omega), hb]

theorem WF.bit_right {l r : Trie N} (h : (node l r).WF) {k : Arr N} (hk : k ∈ r.keys) :
    k.bit (node l r).split = true := by
  obtain ⟨hl, hr, hlt, h1, h2⟩ := h
  have := hr.agree k hk
  have hb := (Arr.lt_bits hlt).2.2
  rw [split, bit_eq_of_lt_firstDiff (a := k) (b := r.key) (by omega), hb]

theorem WF.split_lt {l r : Trie N} (h : (node l r).WF) : (node l r).split < 8 * N :=
  split_lt_of_norm h.norm

theorem WF.lt_of_mem {l r : Trie N} (h : (node l r).WF) {a b : Arr N} (ha : a ∈ l.keys)
    (hb : b ∈ r.keys) : Arr.lt a b := by
  have hsa := h.agree a (by simp [keys_node, ha])
  have hsb := h.agree b (by simp [keys_node, hb])
  have h3 := min_le_firstDiff a (node l r).key b
  rw [firstDiff_comm _ b] at h3
  exact Arr.lt_of_bits h.split_lt (by omega) (h.bit_left ha) (h.bit_right hb)

theorem WF.sorted : ∀ {t : Trie N}, t.WF → t.keys.Pairwise Arr.lt
  | leaf _ _, _ => by simp [keys, entries]
  | node l r, h => by
    rw [keys_node, List.pairwise_append]
    exact ⟨h.1.sorted, h.2.1.sorted, fun a ha b hb => h.lt_of_mem ha hb⟩

/-- A compact trie is no deeper than the number of key bits. -/
theorem WF.height_le : ∀ {t : Trie N}, t.WF → t.height + t.split ≤ 8 * N
  | leaf _ _, _ => by simp [height, split]
  | node l r, ⟨hl, hr, _, h1, h2⟩ => by
    have := hl.height_le
    have := hr.height_le
    simp only [height, split] at *
    omega

/-! ## `lookup` and canonicity -/

theorem lookup_eq_some_iff {t : Trie N} (h : t.WF) {k : Arr N} {v : List UInt8} :
    t.lookup k = some v ↔ (k, v) ∈ t.entries := by
  have hs := h.sorted
  unfold lookup keys at *
  generalize t.entries = es at *
  constructor
  · intro hl
    rw [Option.map_eq_some_iff] at hl
    obtain ⟨e, he, rfl⟩ := hl
    have := List.find?_some he
    simp only [decide_eq_true_eq] at this
    subst this
    exact List.mem_of_find?_eq_some he
  · induction es with
    | nil => simp
    | cons e es ih =>
      intro hm
      rcases List.mem_cons.1 hm with rfl | hm
      · simp
      · have : e.1 ≠ k := by
          have := List.rel_of_pairwise_cons hs (List.mem_map_of_mem (f := (·.1)) hm)
          exact Arr.ne_of_lt this
        rw [List.find?_cons_of_neg (by simpa using this)]
        exact ih (List.Pairwise.of_cons hs) hm

theorem lookup_isSome_iff {t : Trie N} {k : Arr N} : (t.lookup k).isSome ↔ k ∈ t.keys := by
  unfold lookup keys
  simp only [Option.isSome_map, List.find?_isSome, List.mem_map, decide_eq_true_eq]

theorem split_eq_of_keys {t u : Trie N} (ht : t.WF) (hu : u.WF)
    (h : ∀ k, k ∈ t.keys ↔ k ∈ u.keys) : t.key = u.key ∧ t.split ≤ u.split := by
  have hmin : ∀ {t : Trie N}, t.WF → ∀ k ∈ t.keys, Arr.le t.key k := by
    intro t ht
    induction t with
    | leaf k v =>
      intro x hx
      simp only [keys, entries, List.map_cons, List.map_nil, List.mem_singleton] at hx
      subst hx; exact Arr.le_refl _
    | node l r ihl _ =>
      intro x hx
      rw [keys_node, List.mem_append] at hx
      rcases hx with hx | hx
      · exact ihl ht.1 x hx
      · exact Arr.le_of_lt (ht.lt_of_mem l.key_mem hx)
  have hk : t.key = u.key := Arr.le_antisymm (hmin ht _ ((h _).2 u.key_mem))
    (hmin hu _ ((h _).1 t.key_mem))
  refine ⟨hk, ?_⟩
  cases u with
  | leaf k v => exact split_le t
  | node l r =>
    by_contra hc
    have h1 := ht.agree l.key ((h _).2 (by simp [keys_node, l.key_mem]))
    have h2 := ht.agree r.key ((h _).2 (by simp [keys_node, r.key_mem]))
    have h3 := min_le_firstDiff l.key t.key r.key
    rw [firstDiff_comm t.key r.key] at h3
    have : (node l r).split = firstDiff l.key r.key := rfl
    omega

/-- Compact tries with the same pairs are equal. -/
theorem eq_of_entries : ∀ {t u : Trie N}, t.WF → u.WF →
    (∀ e, e ∈ t.entries ↔ e ∈ u.entries) → t = u := by
  intro t
  induction t with
  | leaf k v =>
    intro u ht hu h
    cases u with
    | leaf k' v' =>
      have := (h (k, v)).1 (by simp [entries])
      simp only [entries, List.mem_singleton, Prod.mk.injEq] at this
      rw [this.1, this.2]
    | node l r =>
      exfalso
      have h1 := fun k' hk' => h k' |>.2 hk'
      have hl : l.key ∈ l.keys := l.key_mem
      have hr : r.key ∈ r.keys := r.key_mem
      simp only [keys, List.mem_map] at hl hr
      obtain ⟨el, hel, hel'⟩ := hl
      obtain ⟨er, her, her'⟩ := hr
      have a1 := h1 el (by simp [entries, hel])
      have a2 := h1 er (by simp [entries, her])
      simp only [entries, List.mem_singleton] at a1 a2
      subst a1 a2
      exact Arr.ne_of_lt hu.2.2.1 (by rw [← hel', ← her'])
  | node l r ihl ihr =>
    intro u ht hu h
    have hkeys : ∀ k, k ∈ (node l r).keys ↔ k ∈ u.keys := by
      intro k
      simp only [keys, List.mem_map]
      constructor
      · rintro ⟨e, he, rfl⟩; exact ⟨e, (h e).1 he, rfl⟩
      · rintro ⟨e, he, rfl⟩; exact ⟨e, (h e).2 he, rfl⟩
    obtain ⟨_, hs1⟩ := split_eq_of_keys ht hu hkeys
    obtain ⟨_, hs2⟩ := split_eq_of_keys hu ht (fun k => (hkeys k).symm)
    cases u with
    | leaf k v =>
      have := ht.split_lt
      simp only [split] at hs1 hs2 this
      omega
    | node l' r' =>
      have hs : (node l r).split = (node l' r').split := by omega
      have memk : ∀ {t : Trie N} {e}, e ∈ t.entries → e.1 ∈ t.keys :=
        fun he => List.mem_map_of_mem (f := (·.1)) he
      have hL : ∀ e, e ∈ l.entries ↔ e ∈ l'.entries := by
        intro e
        constructor
        · intro he
          have := (h e).1 (by simp [entries, he])
          simp only [entries, List.mem_append] at this
          rcases this with h' | h'
          · exact h'
          · have a := ht.bit_left (memk he)
            have b := hu.bit_right (memk h')
            rw [hs, b] at a; simp at a
        · intro he
          have := (h e).2 (by simp [entries, he])
          simp only [entries, List.mem_append] at this
          rcases this with h' | h'
          · exact h'
          · have a := hu.bit_left (memk he)
            have b := ht.bit_right (memk h')
            rw [← hs, b] at a; simp at a
      have hR : ∀ e, e ∈ r.entries ↔ e ∈ r'.entries := by
        intro e
        constructor
        · intro he
          have := (h e).1 (by simp [entries, he])
          simp only [entries, List.mem_append] at this
          rcases this with h' | h'
          · have a := ht.bit_right (memk he)
            have b := hu.bit_left (memk h')
            rw [hs, b] at a; simp at a
          · exact h'
        · intro he
          have := (h e).2 (by simp [entries, he])
          simp only [entries, List.mem_append] at this
          rcases this with h' | h'
          · have a := hu.bit_right (memk he)
            have b := ht.bit_left (memk h')
            rw [← hs, b] at a; simp at a
          · exact h'
      rw [ihl ht.1 hu.1 hL, ihr ht.2.1 hu.2.1 hR]

/-- A compact trie is determined by the finite map it represents. -/
theorem eq_of_lookup {t u : Trie N} (ht : t.WF) (hu : u.WF) (h : ∀ k, t.lookup k = u.lookup k) :
    t = u :=
  eq_of_entries ht hu (fun ⟨k, v⟩ => by
    rw [← lookup_eq_some_iff ht, ← lookup_eq_some_iff hu, h])

/-! ## Locations determine tries -/

theorem rootIn_mem (H : Hasher N) (t : Trie N) : t.rootIn H ∈ t.inputs H := by
  cases t <;> simp [rootIn, inputs]

theorem loc_eq (H : Hasher N) (t : Trie N) : t.loc H = (t.rootIn H).hash H := by
  cases t <;> rfl

theorem eq_of_loc {H : Hasher N} {U : HIn N → Prop} (hU : CollisionFree H U) : ∀ {t u : Trie N},
    (∀ i ∈ t.inputs H, U i) → (∀ i ∈ u.inputs H, U i) → t.loc H = u.loc H → t = u := by
  intro t
  induction t with
  | leaf k v =>
    intro u ht hu h
    rw [loc_eq, loc_eq] at h
    have := hU _ _ (ht _ (rootIn_mem H _)) (hu _ (rootIn_mem H _)) h
    cases u with
    | leaf k' v' =>
      simp only [rootIn, HIn.leaf.injEq] at this
      have hd := hU (.data k v) (.data k' v') (ht _ (by simp [inputs])) (hu _ (by simp [inputs]))
        this.2
      simp only [HIn.data.injEq] at hd
      rw [hd.1, hd.2]
    | node l r => simp [rootIn] at this
  | node l r ihl ihr =>
    intro u ht hu h
    rw [loc_eq, loc_eq] at h
    have := hU _ _ (ht _ (rootIn_mem H _)) (hu _ (rootIn_mem H _)) h
    cases u with
    | leaf k' v' => simp [rootIn] at this
    | node l' r' =>
      simp only [rootIn, HIn.branch.injEq] at this
      rw [ihl (fun i hi => ht i (by simp [inputs, hi])) (fun i hi => hu i (by simp [inputs, hi])) this.1,
        ihr (fun i hi => ht i (by simp [inputs, hi])) (fun i hi => hu i (by simp [inputs, hi])) this.2]

/-! ## Subtrees -/

/-- `u` is a subtree of `t`. -/
def Sub (u : Trie N) : Trie N → Prop
  | leaf k v => u = leaf k v
  | node l r => u = node l r ∨ Sub u l ∨ Sub u r

theorem Sub.refl (t : Trie N) : Sub t t := by
  cases t with
  | leaf => exact rfl
  | node => exact .inl rfl

theorem Sub.trans {a b : Trie N} (h1 : Sub a b) : ∀ {c : Trie N}, Sub b c → Sub a c
  | leaf k v, h2 => by simp only [Sub] at h2; subst h2; exact h1
  | node l r, h2 => by
    rcases h2 with rfl | h2 | h2
    · exact h1
    · exact .inr (.inl (Sub.trans h1 h2))
    · exact .inr (.inr (Sub.trans h1 h2))

theorem Sub.left (l r : Trie N) : Sub l (node l r) := .inr (.inl (Sub.refl l))
theorem Sub.right (l r : Trie N) : Sub r (node l r) := .inr (.inr (Sub.refl r))

/-- The way down from a trie that the key `k` takes leads to `u` in that many steps. -/
inductive PathTo (k : Arr N) (u : Trie N) : Trie N → Nat → Prop where
  | here : PathTo k u u 0
  | left {l r : Trie N} {n : Nat} (h1 : firstDiff l.key r.key ≤ firstDiff k l.key)
      (h2 : k.bit (firstDiff l.key r.key) = false) (h : PathTo k u l n) : PathTo k u (node l r) (n + 1)
  | right {l r : Trie N} {n : Nat} (h1 : firstDiff l.key r.key ≤ firstDiff k l.key)
      (h2 : k.bit (firstDiff l.key r.key) = true) (h : PathTo k u r n) : PathTo k u (node l r) (n + 1)

theorem Sub.wf {u : Trie N} : ∀ {t : Trie N}, Sub u t → t.WF → u.WF
  | leaf _ _, h, ht => by simp only [Sub] at h; subst h; exact ht
  | node l r, h, ht => by
    rcases h with rfl | h | h
    · exact ht
    · exact h.wf ht.1
    · exact h.wf ht.2.1

theorem Sub.norm {u : Trie N} : ∀ {t : Trie N}, Sub u t → t.Norm → u.Norm
  | leaf _ _, h, ht => by simp only [Sub] at h; subst h; exact ht
  | node l r, h, ht => by
    rcases h with rfl | h | h
    · exact ht
    · exact h.norm ht.1
    · exact h.norm ht.2.1

theorem Sub.inputs {H : Hasher N} {u : Trie N} : ∀ {t : Trie N}, Sub u t →
    ∀ i ∈ u.inputs H, i ∈ t.inputs H
  | leaf _ _, h => by simp only [Sub] at h; subst h; exact fun _ h => h
  | node l r, h => by
    intro i hi
    rcases h with rfl | h | h
    · exact hi
    · simp only [Trie.inputs, List.mem_cons, List.mem_append]; exact .inr (.inl (h.inputs i hi))
    · simp only [Trie.inputs, List.mem_cons, List.mem_append]; exact .inr (.inr (h.inputs i hi))

theorem Sub.entries {u : Trie N} : ∀ {t : Trie N}, Sub u t → u.entries.Sublist t.entries
  | leaf _ _, h => by simp only [Sub] at h; subst h; exact List.Sublist.refl _
  | node l r, h => by
    rcases h with rfl | h | h
    · exact List.Sublist.refl _
    · exact h.entries.trans (List.sublist_append_left _ _)
    · exact h.entries.trans (List.sublist_append_right _ _)

end Trie
end MerkleBit
