import Verif.Proof.Follow
/-! # The parts of a version after a new pair -/

namespace MerkleBit
variable {N : Nat} {σ V : Type} {cfg : Config N σ V}

/-- A list with the right parts is the list of parts. -/
theorem parts_eq_of {T : Trie N} {M : Contents N V} (hwf : T.WF) (hM : Represents cfg T M) {k : Arr N} (hk : k ∈ T.keys)
    {l : List (Nat × Trie N)} (hso : (l.map Prod.fst).Pairwise (· > ·))
    (hl : ∀ e ∈ l, e.2.WF ∧ Represents cfg e.2 (M.part k e.1))
    (hall : ∀ k', M k' ≠ none → firstDiff k k' ∈ l.map Prod.fst) : T.parts k = l := by
  have hb := parts_bits hwf hM hk
  have hbits : (T.parts k).map Prod.fst = l.map Prod.fst := by
    refine eq_of_falling hb.sorted hso fun x => ?_
    rw [hb.mem]
    constructor
    · rintro ⟨k', h1, rfl⟩; exact hall k' h1
    · intro hx
      obtain ⟨e, he, rfl⟩ := List.mem_map.1 hx
      have h1 := (hl e he).2.mem.1 (Trie.key_mem e.2)
      unfold Contents.part at h1
      split at h1
      · exact ⟨_, h1, ‹_›⟩
      · exact absurd rfl h1
  apply List.ext_getElem?
  intro i
  have hi := congrArg (fun l => l[i]?) hbits
  simp only [List.getElem?_map] at hi
  cases h1 : (T.parts k)[i]? with
  | none => rw [h1] at hi; cases h2 : l[i]? with
    | none => rfl
    | some e => rw [h2] at hi; cases hi
  | some e =>
    rw [h1] at hi
    cases h2 : l[i]? with
    | none => rw [h2] at hi; cases hi
    | some e' =>
      rw [h2] at hi
      have hb : e.1 = e'.1 := by simpa using hi
      have a1 := List.mem_of_getElem? h1
      have a2 := hl e' (List.mem_of_getElem? h2)
      have a3 := parts_represent hwf hM hk a1
      rw [hb] at a3
      exact congrArg some (Prod.ext hb (Represents.unique ((parts_sub e a1).wf hwf) a2.1 a3 a2.2))

/-- Where the way to `k` passes bit `b`. -/
theorem parts_cut {k : Arr N} (b : Nat) (hb : b < 8 * N) : ∀ {T : Trie N}, T.WF → k ∈ T.keys →
    ∃ (u : Trie N) (rest : List (Nat × Trie N)), u.WF ∧ k ∈ u.keys ∧ T.parts k = u.parts k ++ rest ∧
      (∀ e ∈ rest, e.1 ≤ b) ∧ (∀ e ∈ u.parts k, b < e.1) ∧
      ∀ x : Arr N × List UInt8, x ∈ u.entries ↔ x ∈ T.entries ∧ b < firstDiff k x.1
  | .leaf k' v', hwf, hk => by
    refine ⟨_, [], hwf, hk, (List.append_nil _).symm, by simp, ?_, ?_⟩
    · intro e he; cases List.mem_singleton.1 he; exact hb
    · intro x
      simp only [Trie.keys, Trie.entries, List.map_cons, List.map_nil, List.mem_singleton] at hk
      subst hk
      simp only [Trie.entries, List.mem_singleton]
      constructor
      · rintro rfl; exact ⟨rfl, by rw [firstDiff_self]; exact hb⟩
      · exact fun h => h.1
  | .node l r, hwf, hk => by
    by_cases hlt : b < firstDiff l.key r.key
    · refine ⟨_, [], hwf, hk, (List.append_nil _).symm, by simp, ?_, ?_⟩
      · intro e he
        have := (parts_sorted hwf hk).2 e he
        simp only [Trie.split] at this
        omega
      · intro x
        constructor
        · intro hx
          refine ⟨hx, ?_⟩
          obtain ⟨e, he, hke⟩ := parts_cover hwf hk (List.mem_map_of_mem (f := Prod.fst) hx)
          have h1 := parts_entries hwf hk e he
          have h2 := h1.1
          simp only [Trie.split] at h2
          obtain ⟨y, hy, hyx⟩ := List.mem_map.1 hke
          rw [← hyx, ((h1.2 y).1 hy).2]
          omega
        · exact fun h => h.1
    · have hk0 := hk
      rw [Trie.keys_node] at hk
      have cross : ∀ {x y : Arr N}, x ∈ l.keys → y ∈ r.keys → firstDiff x y = firstDiff l.key r.key :=
        fun h1 h2 => hwf.firstDiff_cross h1 h2
      rcases List.mem_append.1 hk with hl | hr
      · have hbit := hwf.bit_left hl
        simp only [Trie.split] at hbit
        obtain ⟨u, rest, h1, h2, h3, h4, h5, h6⟩ := parts_cut b hb hwf.1 hl
        refine ⟨u, rest ++ [(firstDiff l.key r.key, r)], h1, h2, ?_, ?_, h5, ?_⟩
        · conv_lhs => unfold Trie.parts
          rw [if_neg (by rw [hbit]; simp), h3]; simp
        · intro e he
          rcases List.mem_append.1 he with he | he
          · exact h4 e he
          · cases List.mem_singleton.1 he; omega
        · intro x
          rw [h6, Trie.entries, List.mem_append]
          constructor
          · exact fun h => ⟨.inl h.1, h.2⟩
          · rintro ⟨h | h, h'⟩
            · exact ⟨h, h'⟩
            · rw [cross hl (List.mem_map_of_mem (f := Prod.fst) h)] at h'
              omega
      · have hbit := hwf.bit_right hr
        simp only [Trie.split] at hbit
        obtain ⟨u, rest, h1, h2, h3, h4, h5, h6⟩ := parts_cut b hb hwf.2.1 hr
        refine ⟨u, rest ++ [(firstDiff l.key r.key, l)], h1, h2, ?_, ?_, h5, ?_⟩
        · conv_lhs => unfold Trie.parts
          rw [if_pos hbit, h3]; simp
        · intro e he
          rcases List.mem_append.1 he with he | he
          · exact h4 e he
          · cases List.mem_singleton.1 he; omega
        · intro x
          rw [h6, Trie.entries, List.mem_append]
          constructor
          · exact fun h => ⟨.inr h.1, h.2⟩
          · rintro ⟨h | h, h'⟩
            · rw [firstDiff_comm, cross (List.mem_map_of_mem (f := Prod.fst) h) hr] at h'
              omega
            · exact ⟨h, h'⟩

/-- Two keys that differ from a third at the same bit for the first time agree there. -/
theorem firstDiff_third {a b c : Arr N} (h : firstDiff a b = firstDiff a c) (hlt : firstDiff a b < 8 * N) :
    firstDiff a b < firstDiff b c := by
  have h1 : a.bit (firstDiff a b) ≠ b.bit (firstDiff a b) := bit_ne_firstDiff hlt
  have h2 : a.bit (firstDiff a b) ≠ c.bit (firstDiff a b) := by
    have := bit_ne_firstDiff (a := a) (b := c) (by omega); rw [h]; exact this
  have : firstDiff a b + 1 ≤ firstDiff b c := by
    rw [le_firstDiff_iff (by omega)]
    intro i hi
    by_cases he : i = firstDiff a b
    · subst he
      revert h1 h2
      cases a.bit (firstDiff a b) <;> cases b.bit (firstDiff a b) <;> cases c.bit (firstDiff a b) <;> simp
    · rw [← bit_eq_of_lt_firstDiff (a := a) (b := b) (i := i) (by omega),
        bit_eq_of_lt_firstDiff (a := a) (b := c) (i := i) (by omega)]
  omega

/-- A trie with the pairs of another that satisfy a condition. -/
theorem represents_filter {T u : Trie N} {M : Contents N V} (hwf : T.WF) (hu : u.WF) (hM : Represents cfg T M)
    {P : Arr N → Prop} (h : ∀ x : Arr N × List UInt8, x ∈ u.entries ↔ x ∈ T.entries ∧ P x.1) {M' : Contents N V}
    (h1 : ∀ k, P k → M' k = M k) (h0 : ∀ k, ¬P k → M' k = none) : Represents cfg u M' := by
  intro k
  have hk := hM k
  have hlook : ∀ b, u.lookup k = some b ↔ T.lookup k = some b ∧ P k := by
    intro b
    rw [Trie.lookup_eq_some_iff hu, Trie.lookup_eq_some_iff hwf, h]
  by_cases hp : P k
  · rw [h1 k hp]
    have : u.lookup k = T.lookup k := by
      apply Option.ext
      intro b
      have := hlook b
      simp only [hp, and_true] at this
      exact this
    rw [this]
    exact hk
  · rw [h0 k hp]
    show u.lookup k = none
    rw [Option.eq_none_iff_forall_ne_some]
    intro b hb
    exact hp ((hlook b).1 hb).2

theorem represents_leaf {k : Arr N} {b : List UInt8} {M : Contents N V} (h : Encodes cfg (M k) (some b))
    (h0 : ∀ k', k' ≠ k → M k' = none) : Represents cfg (.leaf k b) M := by
  intro k'
  by_cases he : k' = k
  · subst he
    rw [(Trie.lookup_eq_some_iff (t := .leaf k' b) (v := b) trivial).2 (by simp [Trie.entries])]
    exact h
  · rw [h0 k' he]
    show (Trie.leaf k b).lookup k' = none
    rw [Option.eq_none_iff_forall_ne_some]
    intro b' hb
    have := (Trie.lookup_eq_some_iff (t := .leaf k b) trivial).1 hb
    simp only [Trie.entries, List.mem_singleton, Prod.mk.injEq] at this
    exact he this.1

/-- A version and the same with one pair more, `k0` being one of the keys closest to the new one: the parts as seen from
the new key and from `k0`. -/
theorem parts_new {T T' : Trie N} {M M' : Contents N V} (hwf : T.WF) (hwf' : T'.WF)
    (hM : Represents cfg T M) (hM' : Represents cfg T' M') {k k0 : Arr N} {b : List UInt8} (hnew : M k = none)
    (hbk : (k, b) ∈ T'.entries) (hsame : ∀ k', k' ≠ k → M k' = M' k') (hk0 : k0 ∈ T.keys)
    (hmax : ∀ k', M k' ≠ none → firstDiff k k' ≤ firstDiff k k0) :
    ∃ (u : Trie N) (rest : List (Nat × Trie N)), u.WF ∧ k0 ∈ u.keys ∧
      (∀ x, x ∈ u.entries → x ∈ T.entries) ∧
      T.parts k0 = u.parts k0 ++ rest ∧ (∀ e ∈ rest, e.1 < firstDiff k k0) ∧ (∀ e ∈ u.parts k0, firstDiff k k0 < e.1) ∧
      T'.parts k = (8 * N, .leaf k b) :: (firstDiff k k0, u) :: rest ∧
      T'.parts k0 = u.parts k0 ++ (firstDiff k k0, .leaf k b) :: rest := by
  have hM0 := hM.mem.1 hk0
  have hne : k ≠ k0 := by rintro rfl; exact hM0 hnew
  have hlt : firstDiff k k0 < 8 * N := firstDiff_lt_iff.2 hne
  have hkT' : k ∈ T'.keys := List.mem_map_of_mem (f := Prod.fst) hbk
  have hk0T' : k0 ∈ T'.keys := hM'.mem.2 (by rw [← hsame k0 hne.symm]; exact hM0)
  obtain ⟨u, rest, huw, hku, hcut, hrest, hup, hue⟩ := parts_cut (firstDiff k k0) hlt hwf hk0
  -- no key of the version differs from `k0` at this bit
  have hnone : ∀ k', M k' ≠ none → firstDiff k0 k' ≠ firstDiff k k0 := by
    intro k' hk' he
    have h1 : firstDiff k0 k = firstDiff k0 k' := by rw [he, firstDiff_comm]
    have h2 := firstDiff_third h1 (by rw [firstDiff_comm]; exact hlt)
    have := hmax k' hk'
    rw [firstDiff_comm k0 k] at h2
    omega
  have hrest' : ∀ e ∈ rest, e.1 < firstDiff k k0 := by
    intro e he
    have he' : e ∈ T.parts k0 := by rw [hcut]; exact List.mem_append_right _ he
    obtain ⟨k', h1, h2⟩ := ((parts_bits hwf hM hk0).mem e.1).1 (List.mem_map_of_mem he')
    have := hrest e he
    have := hnone k' h1
    omega
  have hup' : ∀ k', M k' ≠ none → (firstDiff k0 k' > firstDiff k k0 ↔ firstDiff k k' = firstDiff k k0) := by
    intro k' hk'
    constructor
    · intro hg
      rw [firstDiff_eq_of_lt (a := k) (b := k0) (c := k') hg]
    · intro he
      have := firstDiff_third (a := k) (b := k0) (c := k') he.symm hlt
      exact this
  have hlow : ∀ k' bit, bit < firstDiff k k0 → (firstDiff k k' = bit ↔ firstDiff k0 k' = bit) := by
    intro k' bit hbit
    constructor
    · intro he
      rw [firstDiff_comm k0 k', ← he, firstDiff_comm k k']
      refine firstDiff_eq_of_lt (a := k') (b := k) (c := k0) ?_
      rw [firstDiff_comm k' k]; omega
    · intro he
      rw [firstDiff_comm k k', ← he, firstDiff_comm k0 k']
      refine firstDiff_eq_of_lt (a := k') (b := k0) (c := k) ?_
      rw [firstDiff_comm k' k0, firstDiff_comm k0 k]; omega
  have hencb : Encodes cfg (M' k) (some b) := by
    have := hM' k
    rwa [(Trie.lookup_eq_some_iff hwf').2 hbk] at this
  have hrestrep : ∀ e ∈ rest, e.2.WF ∧ Represents cfg e.2 (M.part k0 e.1) := by
    intro e he
    have he' : e ∈ T.parts k0 := by rw [hcut]; exact List.mem_append_right _ he
    exact ⟨(parts_sub e he').wf hwf, parts_represent hwf hM hk0 he'⟩
  refine ⟨u, rest, huw, hku, fun x hx => ((hue x).1 hx).1, hcut, hrest', hup, ?_, ?_⟩
  · have hdisj : ∀ k', M' k' ≠ none → k' = k ∨ M k' ≠ none := by
      intro k' h
      by_cases he : k' = k
      · exact .inl he
      · rw [← hsame k' he] at h; exact .inr h
    refine parts_eq_of hwf' hM' hkT' ?_ ?_ ?_
    · have := (parts_sorted hwf hk0).1
      rw [hcut, List.map_append, List.pairwise_append] at this
      simp only [List.map_cons, List.pairwise_cons, List.mem_cons, List.mem_map]
      refine ⟨?_, ?_, this.2.1⟩
      · rintro _ (rfl | ⟨e, he, rfl⟩)
        · exact hlt
        · have := hrest' e he; omega
      · rintro _ ⟨e, he, rfl⟩
        exact hrest' e he
    · intro e he
      rcases List.mem_cons.1 he with rfl | he
      · refine ⟨trivial, represents_leaf ?_ ?_⟩
        · unfold Contents.part
          rw [if_pos (firstDiff_self k)]
          exact hencb
        · intro k' hne'
          unfold Contents.part
          rw [if_neg]
          have := firstDiff_lt_iff.2 (Ne.symm hne')
          dsimp only
          omega
      rcases List.mem_cons.1 he with rfl | he
      · refine ⟨huw, represents_filter hwf huw hM (P := fun k' => firstDiff k k0 < firstDiff k0 k') hue ?_ ?_⟩
        · intro k' hp
          have hfd : firstDiff k k' = firstDiff k k0 := firstDiff_eq_of_lt (a := k) (b := k0) (c := k') hp
          unfold Contents.part
          rw [if_pos hfd, ← hsame k']
          rintro rfl
          rw [firstDiff_self] at hfd
          omega
        · intro k' hp
          unfold Contents.part
          dsimp only
          split
          · rename_i hfd
            exact absurd (firstDiff_third (a := k) (b := k0) (c := k') hfd.symm hlt) hp
          · rfl
      · obtain ⟨h1, h2⟩ := hrestrep e he
        refine ⟨h1, ?_⟩
        have hl := hrest' e he
        have : M'.part k e.1 = M.part k0 e.1 := by
          funext k'
          unfold Contents.part
          by_cases hfd : firstDiff k k' = e.1
          · rw [if_pos hfd, if_pos ((hlow k' e.1 hl).1 hfd), hsame k']
            rintro rfl
            rw [firstDiff_self] at hfd; omega
          · rw [if_neg hfd, if_neg (fun h => hfd ((hlow k' e.1 hl).2 h))]
        rw [this]
        exact h2
    · intro k' hk'
      rcases hdisj k' hk' with rfl | hk'
      · rw [firstDiff_self]; exact List.mem_cons_self
      · have hle := hmax k' hk'
        by_cases hfd : firstDiff k k' = firstDiff k k0
        · rw [hfd]; exact List.mem_cons_of_mem _ List.mem_cons_self
        · have hfd' := (hlow k' (firstDiff k k') (by omega)).1 rfl
          have := ((parts_bits hwf hM hk0).mem (firstDiff k k')).2 ⟨k', hk', hfd'⟩
          rw [hcut, List.map_append, List.mem_append] at this
          refine List.mem_cons_of_mem _ (List.mem_cons_of_mem _ (this.resolve_left ?_))
          intro h
          obtain ⟨e, he, h1⟩ := List.mem_map.1 h
          have := hup e he
          omega
  · refine parts_eq_of hwf' hM' hk0T' ?_ ?_ ?_
    · have := (parts_sorted hwf hk0).1
      rw [hcut, List.map_append, List.pairwise_append] at this
      rw [List.map_append, List.pairwise_append]
      refine ⟨this.1, ?_, ?_⟩
      · simp only [List.map_cons, List.pairwise_cons, List.mem_map]
        refine ⟨?_, this.2.1⟩
        rintro _ ⟨e, he, rfl⟩
        exact hrest' e he
      · intro x hx y hy
        obtain ⟨e, he, rfl⟩ := List.mem_map.1 hx
        have h1 := hup e he
        obtain ⟨e', he', rfl⟩ := List.mem_map.1 hy
        rcases List.mem_cons.1 he' with rfl | he'
        · exact h1
        · have := hrest' e' he'; omega
    · have hkeep : ∀ e ∈ T.parts k0, e.2.WF ∧ Represents cfg e.2 (M'.part k0 e.1) := by
        intro e he
        refine ⟨(parts_sub e he).wf hwf, ?_⟩
        have : M'.part k0 e.1 = M.part k0 e.1 := by
          funext k'
          unfold Contents.part
          split
          · rename_i hfd
            refine (hsame k' ?_).symm
            rintro rfl
            have hm := List.mem_map_of_mem (f := Prod.fst) he
            obtain ⟨k1, h1, h2⟩ := ((parts_bits hwf hM hk0).mem e.1).1 hm
            exact hnone k1 h1 (by rw [h2, ← hfd, firstDiff_comm])
          · rfl
        rw [this]
        exact parts_represent hwf hM hk0 he
      intro e he
      rcases List.mem_append.1 he with he | he
      · exact hkeep e (by rw [hcut]; exact List.mem_append_left _ he)
      rcases List.mem_cons.1 he with rfl | he
      · refine ⟨trivial, represents_leaf ?_ ?_⟩
        · unfold Contents.part
          rw [if_pos (firstDiff_comm k0 k)]
          exact hencb
        · intro k' hne'
          unfold Contents.part
          dsimp only
          split
          · rename_i hfd
            rw [← hsame k' hne']
            by_contra hc
            exact hnone k' hc hfd
          · rfl
      · exact hkeep e (by rw [hcut]; exact List.mem_append_right _ he)
    · intro k' hk'
      rw [List.map_append, List.map_cons]
      by_cases he : k' = k
      · subst he
        rw [firstDiff_comm]
        exact List.mem_append_right _ List.mem_cons_self
      · rw [← hsame k' he] at hk'
        have := ((parts_bits hwf hM hk0).mem (firstDiff k0 k')).2 ⟨k', hk', rfl⟩
        rw [hcut, List.map_append, List.mem_append] at this
        rcases this with h | h
        · exact List.mem_append_left _ h
        · exact List.mem_append_right _ (List.mem_cons_of_mem _ h)

/-- The entry of a part. -/
def partEntry (H : Hasher N) (k : Arr N) (e : Nat × Trie N) : Arr N × Bool :=
  (e.2.loc H, decide (e.1 < 8 * N) && !k.bit e.1)

theorem modify_at {α : Type} (f : α → α) (a : α) (r : List α) : ∀ l : List α,
    (l ++ a :: r).modify l.length f = l ++ f a :: r
  | [] => rfl
  | c :: l => by
    rw [List.cons_append, List.length_cons, List.modify_succ_cons, modify_at f a r l]; rfl

/-- What `follow` does to a proof, in terms of parts. -/
theorem follow_parts (H : Hasher N) {k k2 : Arr N} (hne : k ≠ k2) {b : List UInt8} {u u2 x : Trie N} (hu : u.WF)
    (hk : (k, b) ∈ u.entries) {l rest : List (Nat × Trie N)} (hrest : ∀ e ∈ rest, e.1 < firstDiff k k2)
    (d d2 : Arr N × Bool) :
    follow H k b (d :: (u.parts k ++ (firstDiff k k2, u2) :: rest).map (partEntry H k))
        (d2 :: (l ++ (firstDiff k k2, x) :: rest).map (partEntry H k2)) =
      d2 :: (l ++ (firstDiff k k2, u) :: rest).map (partEntry H k2) := by
  have hlt : firstDiff k k2 < 8 * N := firstDiff_lt_iff.2 hne
  have hr : rest.map (partEntry H k) = rest.map (partEntry H k2) := by
    apply List.map_congr_left
    intro e he
    unfold partEntry
    rw [bit_eq_of_lt_firstDiff (a := k) (b := k2) (i := e.1) (hrest e he)]
  have hcommon : commonEnd (d :: (u.parts k ++ (firstDiff k k2, u2) :: rest).map (partEntry H k))
      (d2 :: (l ++ (firstDiff k k2, x) :: rest).map (partEntry H k2)) = rest.length := by
    rw [List.map_append, List.map_append, List.map_cons, List.map_cons, ← List.cons_append,
        ← List.cons_append, hr, commonEnd_append ?_, List.length_map]
    intro heq
    have := (Prod.mk.inj heq).2
    simp only [hlt, decide_true, Bool.true_and, Bool.not_inj_iff] at this
    exact bit_ne_firstDiff hlt this
  obtain ⟨m, hm⟩ := parts_head hu hk
  have hpath := parts_path (H := H) hu hk
  have hclimb : climb H (pairHash H k b) (u.path H k) = u.loc H := by
    rw [climb_eq]; exact foldProof_path _ hu hk
  unfold follow
  dsimp only
  rw [hcommon]
  have hp : (List.drop 2 (d :: (u.parts k ++ (firstDiff k k2, u2) :: rest).map (partEntry H k))).take
      ((d :: (u.parts k ++ (firstDiff k k2, u2) :: rest).map (partEntry H k)).length - rest.length - 3) =
      u.path H k := by
    have h1 : (u.parts k).map (partEntry H k) = ((Trie.leaf k b).loc H, false) :: u.path H k := hpath.symm
    have h2 := congrArg List.length h1
    simp only [List.length_map, List.length_cons] at h2
    rw [List.map_append, h1]
    simp only [List.cons_append, List.drop_succ_cons, List.drop_zero, List.length_cons, List.length_append,
      List.length_map]
    rw [show (u.path H k).length + (rest.length + 1) + 1 + 1 - rest.length - 3 = (u.path H k).length by omega,
      List.take_left]
  rw [hp, hclimb]
  have hlen : (d2 :: (l ++ (firstDiff k k2, x) :: rest).map (partEntry H k2)).length - rest.length - 1 =
      l.length + 1 := by simp; omega
  rw [hlen, List.modify_succ_cons, List.map_append, List.map_append, List.map_cons, List.map_cons]
  congr 1
  have : l.length = (l.map (partEntry H k2)).length := by simp
  rw [this, modify_at]
  rfl

end MerkleBit
