import Verif.Spec.Parts
import Verif.Proof.Inclusion
import Verif.Proof.Repair
import Verif.Proof.Heights
/-! # The parts of a version -/

namespace MerkleBit
variable {N : Nat} {σ V : Type} {cfg : Config N σ V} {C : DbContract cfg.db} {s : σ}

/-- The leaf of `k` and the subtrees beside the way to it, upwards. -/
def Trie.parts (k : Arr N) : Trie N → List (Nat × Trie N)
  | .leaf k' v => [(8 * N, .leaf k' v)]
  | .node l r =>
    if k.bit (firstDiff l.key r.key) then r.parts k ++ [(firstDiff l.key r.key, l)]
    else l.parts k ++ [(firstDiff l.key r.key, r)]

theorem parts_path {H : Hasher N} {k : Arr N} {v : List UInt8} : ∀ {T : Trie N}, T.WF → (k, v) ∈ T.entries →
    ((Trie.leaf k v).loc H, false) :: T.path H k =
      (T.parts k).map fun e => (e.2.loc H, decide (e.1 < 8 * N) && !k.bit e.1)
  | .leaf k' v', _, he => by
    simp only [Trie.entries, List.mem_singleton, Prod.mk.injEq] at he
    obtain ⟨rfl, rfl⟩ := he
    simp [Trie.parts, Trie.path]
  | .node l r, hwf, he => by
    have hlt := hwf.split_lt
    simp only [Trie.split] at hlt
    have hk := List.mem_append.1 he
    unfold Trie.parts Trie.path
    by_cases hb : k.bit (firstDiff l.key r.key) = true
    · rw [if_pos hb, if_pos hb]
      have hr : (k, v) ∈ r.entries := by
        rcases hk with hk | hk
        · have := hwf.bit_left (List.mem_map_of_mem (f := Prod.fst) hk)
          simp only [Trie.split] at this
          rw [this] at hb; cases hb
        · exact hk
      rw [List.map_append, ← parts_path hwf.2.1 hr]
      simp [hb]
    · rw [if_neg hb, if_neg hb]
      have hl : (k, v) ∈ l.entries := by
        rcases hk with hk | hk
        · exact hk
        · have := hwf.bit_right (List.mem_map_of_mem (f := Prod.fst) hk)
          simp only [Trie.split] at this
          exact absurd this hb
      rw [List.map_append, ← parts_path hwf.1 hl]
      simp [hb, hlt]

theorem parts_sub {k : Arr N} : ∀ {T : Trie N}, ∀ e ∈ T.parts k, e.2.Sub T
  | .leaf k' v', e, he => by
    cases List.mem_singleton.1 he
    exact Trie.Sub.refl _
  | .node l r, e, he => by
    unfold Trie.parts at he
    split at he <;> rcases List.mem_append.1 he with he | he
    · exact (parts_sub e he).trans (Trie.Sub.right l r)
    · cases List.mem_singleton.1 he; exact Trie.Sub.left l r
    · exact (parts_sub e he).trans (Trie.Sub.left l r)
    · cases List.mem_singleton.1 he; exact Trie.Sub.right l r

theorem parts_entries {k : Arr N} : ∀ {T : Trie N}, T.WF → k ∈ T.keys → ∀ e ∈ T.parts k, T.split ≤ e.1 ∧
    ∀ x : Arr N × List UInt8, x ∈ e.2.entries ↔ x ∈ T.entries ∧ firstDiff k x.1 = e.1
  | .leaf k' v', _, hk, e, he => by
    cases List.mem_singleton.1 he
    simp only [Trie.keys, Trie.entries, List.map_cons, List.map_nil, List.mem_singleton] at hk
    subst hk
    refine ⟨le_refl _, fun x => ?_⟩
    simp only [Trie.entries, List.mem_singleton]
    constructor
    · rintro rfl; exact ⟨rfl, firstDiff_self _⟩
    · exact fun h => h.1
  | .node l r, hwf, hk, e, he => by
    rw [Trie.keys_node] at hk
    have hkey : ∀ {t : Trie N} {x : Arr N × List UInt8}, x ∈ t.entries → x.1 ∈ t.keys :=
      fun h => List.mem_map_of_mem (f := Prod.fst) h
    have same : ∀ {t : Trie N} {x : Arr N}, t.WF → k ∈ t.keys → x ∈ t.keys → t.split ≤ firstDiff k x := by
      intro t x ht h1 h2
      have h3 := min_le_firstDiff k t.key x
      have h4 := ht.agree k h1
      have h5 := ht.agree x h2
      rw [firstDiff_comm t.key x] at h3
      omega
    have hsl := hwf.2.2.2.1
    have hsr := hwf.2.2.2.2
    unfold Trie.parts at he
    by_cases hb : k.bit (firstDiff l.key r.key) = true
    · have hr : k ∈ r.keys := by
        rcases List.mem_append.1 hk with hk | hk
        · have := hwf.bit_left hk
          simp only [Trie.split] at this
          rw [this] at hb; cases hb
        · exact hk
      rw [if_pos hb] at he
      rcases List.mem_append.1 he with he | he
      · obtain ⟨h1, h2⟩ := parts_entries hwf.2.1 hr e he
        refine ⟨by simp only [Trie.split]; omega, fun x => ?_⟩
        rw [h2 x]
        simp only [Trie.entries, List.mem_append]
        constructor
        · exact fun h => ⟨.inr h.1, h.2⟩
        · rintro ⟨h3 | h3, h4⟩
          · have := hwf.firstDiff_cross (hkey h3) hr
            rw [firstDiff_comm, h4] at this
            simp only [Trie.split] at this
            omega
          · exact ⟨h3, h4⟩
      · cases List.mem_singleton.1 he
        refine ⟨le_refl _, fun x => ?_⟩
        simp only [Trie.entries, List.mem_append]
        constructor
        · intro h
          refine ⟨.inl h, ?_⟩
          have := hwf.firstDiff_cross (hkey h) hr
          rw [firstDiff_comm, this]
          rfl
        · rintro ⟨h3 | h3, h4⟩
          · exact h3
          · have := same hwf.2.1 hr (hkey h3)
            omega
    · have hl : k ∈ l.keys := by
        rcases List.mem_append.1 hk with hk | hk
        · exact hk
        · have := hwf.bit_right hk
          simp only [Trie.split] at this
          exact absurd this hb
      rw [if_neg hb] at he
      rcases List.mem_append.1 he with he | he
      · obtain ⟨h1, h2⟩ := parts_entries hwf.1 hl e he
        refine ⟨by simp only [Trie.split]; omega, fun x => ?_⟩
        rw [h2 x]
        simp only [Trie.entries, List.mem_append]
        constructor
        · exact fun h => ⟨.inl h.1, h.2⟩
        · rintro ⟨h3 | h3, h4⟩
          · exact ⟨h3, h4⟩
          · have := hwf.firstDiff_cross hl (hkey h3)
            rw [h4] at this
            simp only [Trie.split] at this
            omega
      · cases List.mem_singleton.1 he
        refine ⟨le_refl _, fun x => ?_⟩
        simp only [Trie.entries, List.mem_append]
        constructor
        · intro h
          refine ⟨.inr h, ?_⟩
          exact hwf.firstDiff_cross hl (hkey h)
        · rintro ⟨h3 | h3, h4⟩
          · have := same hwf.1 hl (hkey h3)
            omega
          · exact h3

theorem parts_sorted {k : Arr N} : ∀ {T : Trie N}, T.WF → k ∈ T.keys →
    ((T.parts k).map Prod.fst).Pairwise (· > ·) ∧ ∀ e ∈ T.parts k, T.split ≤ e.1
  | .leaf k' v', _, hk => by simp [Trie.parts, Trie.split]
  | .node l r, hwf, hk => by
    rw [Trie.keys_node] at hk
    refine ⟨?_, fun e he => (parts_entries hwf (by rwa [Trie.keys_node]) e he).1⟩
    have hsl := hwf.2.2.2.1
    have hsr := hwf.2.2.2.2
    unfold Trie.parts
    by_cases hb : k.bit (firstDiff l.key r.key) = true
    · have hr : k ∈ r.keys := by
        rcases List.mem_append.1 hk with hk | hk
        · have := hwf.bit_left hk
          simp only [Trie.split] at this
          rw [this] at hb; cases hb
        · exact hk
      obtain ⟨h1, h2⟩ := parts_sorted hwf.2.1 hr
      rw [if_pos hb, List.map_append, List.pairwise_append]
      refine ⟨h1, by simp, ?_⟩
      rintro a ha b hb
      obtain ⟨e, he, rfl⟩ := List.mem_map.1 ha
      have := h2 e he
      simp only [List.map_cons, List.map_nil, List.mem_singleton] at hb
      omega
    · have hl : k ∈ l.keys := by
        rcases List.mem_append.1 hk with hk | hk
        · exact hk
        · have := hwf.bit_right hk
          simp only [Trie.split] at this
          exact absurd this hb
      obtain ⟨h1, h2⟩ := parts_sorted hwf.1 hl
      rw [if_neg hb, List.map_append, List.pairwise_append]
      refine ⟨h1, by simp, ?_⟩
      rintro a ha b hb
      obtain ⟨e, he, rfl⟩ := List.mem_map.1 ha
      have := h2 e he
      simp only [List.map_cons, List.map_nil, List.mem_singleton] at hb
      omega

theorem parts_cover {k k' : Arr N} : ∀ {T : Trie N}, T.WF → k ∈ T.keys → k' ∈ T.keys →
    ∃ e ∈ T.parts k, k' ∈ e.2.keys
  | .leaf _ _, _, _, hk' => ⟨_, List.mem_singleton.2 rfl, hk'⟩
  | .node l r, hwf, hk, hk' => by
    rw [Trie.keys_node] at hk hk'
    unfold Trie.parts
    by_cases hb : k.bit (firstDiff l.key r.key) = true
    · have hr : k ∈ r.keys := by
        rcases List.mem_append.1 hk with hk | hk
        · have := hwf.bit_left hk
          simp only [Trie.split] at this
          rw [this] at hb; cases hb
        · exact hk
      rw [if_pos hb]
      rcases List.mem_append.1 hk' with hk' | hk'
      · exact ⟨_, List.mem_append_right _ (List.mem_singleton.2 rfl), hk'⟩
      · obtain ⟨e, h1, h2⟩ := parts_cover hwf.2.1 hr hk'
        exact ⟨e, List.mem_append_left _ h1, h2⟩
    · have hl : k ∈ l.keys := by
        rcases List.mem_append.1 hk with hk | hk
        · exact hk
        · have := hwf.bit_right hk
          simp only [Trie.split] at this
          exact absurd this hb
      rw [if_neg hb]
      rcases List.mem_append.1 hk' with hk' | hk'
      · obtain ⟨e, h1, h2⟩ := parts_cover hwf.1 hl hk'
        exact ⟨e, List.mem_append_left _ h1, h2⟩
      · exact ⟨_, List.mem_append_right _ (List.mem_singleton.2 rfl), hk'⟩

/-- Strictly falling lists with the same members are the same. -/
theorem eq_of_falling : ∀ {as bs : List Nat}, as.Pairwise (· > ·) → bs.Pairwise (· > ·) →
    (∀ x, x ∈ as ↔ x ∈ bs) → as = bs
  | [], [], _, _, _ => rfl
  | [], b :: bs, _, _, h => by simpa using (h b).2
  | a :: as, [], _, _, h => by simpa using (h a).1
  | a :: as, b :: bs, ha, hb, h => by
    have hab : a = b := by
      have h1 := (h a).1 List.mem_cons_self
      have h2 := (h b).2 List.mem_cons_self
      rcases List.mem_cons.1 h1 with h1 | h1
      · exact h1
      · rcases List.mem_cons.1 h2 with h2 | h2
        · exact h2.symm
        · have := List.rel_of_pairwise_cons ha h2
          have := List.rel_of_pairwise_cons hb h1
          omega
    subst hab
    refine congrArg (a :: ·) (eq_of_falling ha.of_cons hb.of_cons fun x => ?_)
    constructor
    · intro hx
      rcases List.mem_cons.1 ((h x).1 (List.mem_cons_of_mem _ hx)) with rfl | h1
      · have := List.rel_of_pairwise_cons ha hx; omega
      · exact h1
    · intro hx
      rcases List.mem_cons.1 ((h x).2 (List.mem_cons_of_mem _ hx)) with rfl | h1
      · have := List.rel_of_pairwise_cons hb hx; omega
      · exact h1

theorem parts_bits {T : Trie N} {M : Contents N V} (hwf : T.WF) (hM : Represents cfg T M) {k : Arr N}
    (hk : k ∈ T.keys) : PartBits M k ((T.parts k).map Prod.fst) := by
  refine ⟨(parts_sorted hwf hk).1, fun b => ?_⟩
  constructor
  · intro hb
    obtain ⟨e, he, rfl⟩ := List.mem_map.1 hb
    obtain ⟨x, hx⟩ : ∃ x, x ∈ e.2.entries := by
      have := e.2.key_mem
      obtain ⟨x, hx, -⟩ := List.mem_map.1 this
      exact ⟨x, hx⟩
    have := ((parts_entries hwf hk e he).2 x).1 hx
    exact ⟨x.1, hM.mem.1 (List.mem_map_of_mem (f := Prod.fst) this.1), this.2⟩
  · rintro ⟨k', h1, rfl⟩
    obtain ⟨e, he, h2⟩ := parts_cover hwf hk (hM.mem.2 h1)
    obtain ⟨x, hx, rfl⟩ := List.mem_map.1 h2
    rw [(((parts_entries hwf hk e he).2 x).1 hx).2]
    exact List.mem_map_of_mem he

/-- A part is a version. -/
theorem parts_represent {T : Trie N} {M : Contents N V} (hwf : T.WF) (hM : Represents cfg T M) {k : Arr N}
    (hk : k ∈ T.keys) {e : Nat × Trie N} (he : e ∈ T.parts k) : Represents cfg e.2 (M.part k e.1) := by
  have hu := (parts_sub e he).wf hwf
  have hent := (parts_entries hwf hk e he).2
  intro k'
  unfold Contents.part
  by_cases hb : firstDiff k k' = e.1
  · rw [if_pos hb]
    have : e.2.lookup k' = T.lookup k' := by
      cases hl : T.lookup k' with
      | none =>
        cases hl' : e.2.lookup k' with
        | none => rfl
        | some v =>
          have := ((hent _).1 ((Trie.lookup_eq_some_iff hu).1 hl')).1
          rw [(Trie.lookup_eq_some_iff hwf).2 this] at hl
          cases hl
      | some v =>
        exact (Trie.lookup_eq_some_iff hu).2 ((hent _).2 ⟨(Trie.lookup_eq_some_iff hwf).1 hl, hb⟩)
    rw [this]
    exact hM k'
  · rw [if_neg hb]
    cases hl' : e.2.lookup k' with
    | none => rfl
    | some v => exact absurd ((hent _).1 ((Trie.lookup_eq_some_iff hu).1 hl')).2 hb

/-- The hashes of a proof. -/
theorem proof_parts (hc : Sane cfg) {r : Arr N} {M : Contents N V} (hv : IsVersion cfg (C.view s) r M)
    (hd : HeightBelow M cfg.depth) {k : Arr N} {v : V} (hk : M k = some v) {p : List (Arr N × Bool)}
    (hp : inclusionProof cfg s r k = .ok p) :
    ∃ T, T.WF ∧ T.loc cfg.hasher = r ∧ Stored cfg.hasher (C.view s) T ∧ Represents cfg T M ∧ k ∈ T.keys ∧
      p.tail = (T.parts k).map fun e => (e.2.loc cfg.hasher, decide (e.1 < 8 * N) && !k.bit e.1) := by
  obtain ⟨T, hwf, rfl, hst, hM⟩ := hv
  obtain ⟨b, hb, henc⟩ := hM.entry hwf hk
  have := proof_stored (C := C) hc.pos hwf.norm hst k
  rw [readProof_wf T 0 hwf (by have := hd.height hwf hM; omega) hb] at this
  refine ⟨T, hwf, rfl, hst, hM, List.mem_map_of_mem (f := Prod.fst) hb, ?_⟩
  rcases this with h1 | ⟨-, e, h1⟩
  · rw [hp] at h1
    cases h1
    exact parts_path hwf hb
  · rw [hp] at h1; cases h1

/-- A trie represents one map. -/
theorem Represents.map_eq {σ' : Type} {cfg' : Config N σ' V} (hrt : RoundTrip cfg)
    (henc : cfg'.encode = cfg.encode) {T : Trie N} (hT : T.WF) {M M' : Contents N V}
    (h : Represents cfg T M) (h' : Represents cfg' T M') : M = M' := by
  have h' : Represents cfg T M' := by
    intro k
    have := h' k
    unfold Encodes at this ⊢
    rw [henc] at this
    exact this
  funext k
  cases hk : M k with
  | none =>
    cases hk' : M' k with
    | none => rfl
    | some v => exact absurd (h'.mem.2 (by rw [hk']; simp)) (fun hm => h.mem.1 hm hk)
  | some v =>
    obtain ⟨b, hb, -⟩ := h.entry hT hk
    obtain ⟨v1, h1, h2, -⟩ := h.decode hT hrt hb
    obtain ⟨v2, h3, h4, -⟩ := h'.decode hT hrt hb
    rw [h2] at h4
    cases h4
    rw [h3, ← h1, hk]

end MerkleBit
