import Verif.Proof.CountsEvents
import Verif.Proof.Uses
import Verif.Proof.Storage
/-! # The load of the items of a batch -/

namespace MerkleBit
variable {N : Nat} {H : Hasher N} {U : HIn N → Prop}

/-- Items below items. -/
theorem item_keys {is : List (Item N)} {j : Item N} (h : Reach Item.children is j) :
    ∃ i ∈ is, ∀ k ∈ j.keys, k ∈ i.keys := by
  induction h with
  | root hx => exact ⟨_, hx, fun _ h => h⟩
  | child _ hy ih =>
    obtain ⟨i, hi, h⟩ := ih
    exact ⟨i, hi, fun k hk => h k (Item.child_keys hy hk)⟩

theorem item_ok {is : List (Item N)} (his : ∀ i ∈ is, i.Ok H U) {j : Item N}
    (h : Reach Item.children is j) : j.Ok H U := by
  induction h with
  | root hx => exact his _ hx
  | child _ hy ih => exact ih.children _ hy

theorem Item.Ok.childrenOf (hU : CollisionFree H U) {i : Item N} (h : i.Ok H U) :
    MerkleBit.childrenOf H U (i.loc H) = i.children.map (Item.loc H) := by
  rw [childrenOf_eq hU h.belongs, Item.children_loc]

/-- Locations reachable from the locations of items are those of items below. -/
theorem reach_items (hU : CollisionFree H U) {is : List (Item N)} (his : ∀ i ∈ is, i.Ok H U)
    {x : Arr N} (h : Reach (childrenOf H U) (is.map (Item.loc H)) x) :
    ∃ j : Item N, Reach Item.children is j ∧ j.loc H = x := by
  induction h with
  | root hx =>
    obtain ⟨i, hi, rfl⟩ := List.mem_map.1 hx
    exact ⟨i, .root hi, rfl⟩
  | child _ hy ih =>
    obtain ⟨j, hj, rfl⟩ := ih
    rw [(item_ok his hj).childrenOf hU] at hy
    obtain ⟨i, hi, rfl⟩ := List.mem_map.1 hy
    exact ⟨i, .child hj hi, rfl⟩

theorem reach_item (hU : CollisionFree H U) {is : List (Item N)} (his : ∀ i ∈ is, i.Ok H U)
    {j : Item N} (hj : j.Ok H U) :
    Reach (childrenOf H U) (is.map (Item.loc H)) (j.loc H) ↔ Reach Item.children is j := by
  constructor
  · intro h
    obtain ⟨i, hi, he⟩ := reach_items hU his h
    exact Item.eq_of_loc hU (item_ok his hi) hj he ▸ hi
  · intro h
    clear hj
    induction h with
    | root hx => exact .root (List.mem_map_of_mem hx)
    | child hx hy ih =>
      refine .child ih ?_
      rw [(item_ok his hx).childrenOf hU]
      exact List.mem_map_of_mem hy

theorem reach_data {k : Arr N} {v : List UInt8} {j : Item N} :
    Reach Item.children [.data k v] j ↔ j = .data k v := by
  rw [Reach.single]
  constructor
  · rintro (h | h)
    · exact h
    · exact absurd h Reach.nil
  · exact .inl

theorem reach_leaf {k : Arr N} {v : List UInt8} {j : Item N} :
    Reach Item.children [.tree (.leaf k v)] j ↔ j = .tree (.leaf k v) ∨ j = .data k v := by
  rw [Reach.single, Item.children, reach_data]

theorem reach_node {l r : Trie N} {j : Item N} :
    Reach Item.children [.tree (.node l r)] j ↔
      j = .tree (.node l r) ∨ Reach Item.children [.tree l] j ∨ Reach Item.children [.tree r] j := by
  rw [Reach.single, Item.children, Reach.cons]

theorem reach_subtree {u : Trie N} : ∀ {t : Trie N},
    Reach Item.children [.tree t] (.tree u) ↔ u.Sub t
  | .leaf k v => by rw [reach_leaf]; simp [Trie.Sub]
  | .node l r => by rw [reach_node, reach_subtree, reach_subtree]; simp [Trie.Sub]

/-- What counts the item `j` gets from the roots `is` and all below them. -/
noncomputable def itemLoad (H : Hasher N) (U : HIn N → Prop) (is : List (Item N)) (j : Item N) : Nat :=
  load (childrenOf H U) (is.map (Item.loc H)) (j.loc H)

section
variable {is Q : List (Item N)} {i j : Item N}

theorem itemLoad_perm {is' : List (Item N)} (h : is.Perm is') : itemLoad H U is = itemLoad H U is' := by
  funext j
  unfold itemLoad
  rw [load_perm (h.map _)]

theorem loc_eq_iff (hU : CollisionFree H U) (hi : i.Ok H U) (hj : j.Ok H U) :
    j.loc H = i.loc H ↔ j = i := ⟨fun h => Item.eq_of_loc hU hj hi h, fun h => by rw [h]⟩

theorem itemLoad_zero (hU : CollisionFree H U) (hQ : ∀ q ∈ Q, q.Ok H U) (hj : j.Ok H U)
    (h : ¬ Reach Item.children Q j) : itemLoad H U Q j = 0 :=
  load_zero (mt (reach_item hU hQ hj).1 h)

/-- One more root where there is an item already. -/
theorem itemLoad_again (hU : CollisionFree H U) (hQ : ∀ q ∈ Q, q.Ok H U) (hj : j.Ok H U)
    (h : Reach Item.children Q i) :
    itemLoad H U (i :: Q) j = itemLoad H U Q j + if j = i then 1 else 0 := by
  have hi := item_ok hQ h
  unfold itemLoad
  rw [List.map_cons, load_again ((reach_item hU hQ hi).2 h)]
  simp only [loc_eq_iff hU hi hj]

/-- A new root takes the place of its children. -/
theorem itemLoad_new (hU : CollisionFree H U) (hQ : ∀ q ∈ Q, q.Ok H U) (hi : i.Ok H U) (hj : j.Ok H U)
    (h : ¬ Reach Item.children Q i) :
    itemLoad H U (i :: Q) j = itemLoad H U (i.children ++ Q) j + if j = i then 1 else 0 := by
  have hx := mt (reach_item hU hQ hi).1 h
  unfold itemLoad
  have h1 := load_open (childrenOf_ranked hU) hx (y := j.loc H)
  have h2 := load_new (childrenOf_ranked hU) hx
  rw [hi.childrenOf hU, ← List.map_append] at h1
  rw [List.map_cons, h1]
  by_cases he : j = i
  · subst he; simp [h2]
  · rw [if_neg (mt (loc_eq_iff hU hi hj).1 he), if_neg he]; rfl

theorem itemLoad_data (hU : CollisionFree H U) {k : Arr N} {v : List UInt8} (hi : (Item.data k v).Ok H U)
    (hj : j.Ok H U) :
    itemLoad H U (.data k v :: Q) j = itemLoad H U Q j + if j = .data k v then 1 else 0 := by
  unfold itemLoad
  rw [List.map_cons, load_sink (childrenOf_ranked hU) (by rw [hi.childrenOf hU]; rfl)]
  simp only [loc_eq_iff hU hi hj]

end

open Classical in
/-- The branches above the parts a tree is joined from are new. -/
theorem itemLoad_joins (hU : CollisionFree H U) {ts : List (Trie N)} {T : Trie N} (hjs : Joins ts T) :
    TreeOk H U T → T.keys.Nodup → (∀ u ∈ ts, u.Sub T) → ∀ {Q : List (Item N)}, (∀ q ∈ Q, q.Ok H U) →
    (∀ u : Trie N, u.Sub T → (∀ b ∈ ts, ¬ u.Sub b) → ¬ Reach Item.children Q (.tree u)) →
    ∀ {j : Item N}, j.Ok H U →
    itemLoad H U (.tree T :: Q) j = itemLoad H U (ts.map .tree ++ Q) j +
      if ∃ u, j = .tree u ∧ u.Sub T ∧ ∀ b ∈ ts, ¬ u.Sub b then 1 else 0 := by
  induction hjs with
  | one t =>
    intro hT _ _ Q hQ hnew j hj
    rw [if_neg]
    · rfl
    · rintro ⟨u, _, h1, h2⟩
      exact h2 t (by simp) h1
  | join xs ys a b ha hb _ _ iha ihb =>
    intro hT hnd hsub Q hQ hnew j hj
    have hTa : TreeOk H U a := hT.sub (Trie.Sub.left a b)
    have hTb : TreeOk H U b := hT.sub (Trie.Sub.right a b)
    rw [Trie.keys_node, List.nodup_append] at hnd
    obtain ⟨hnda, hndb, hdis⟩ := hnd
    have hjk : ∀ {xs : List (Trie N)} {a : Trie N}, Joins xs a → ∀ u ∈ xs, u.Sub a := by
      intro xs a h
      induction h with
      | one t => intro u hu; rw [List.mem_singleton.1 hu]; exact Trie.Sub.refl _
      | join xs ys a b _ _ _ _ iha ihb =>
        intro u hu
        rcases List.mem_append.1 hu with hu | hu
        · exact (iha u hu).trans (Trie.Sub.left a b)
        · exact (ihb u hu).trans (Trie.Sub.right a b)
    have hxa := hjk ha
    have hyb := hjk hb
    have hab : ∀ u : Trie N, u.Sub a → u.Sub b → False := fun u h1 h2 =>
      hdis _ (Sub.key_mem h1) _ (Sub.key_mem h2) rfl
    have hself : ∀ u : Trie N, (Trie.node a b).Sub u → u.Sub a ∨ u.Sub b → False := by
      intro u h1 h2
      rcases h2 with h2 | h2
      · exact hab _ ((Trie.Sub.right a b).trans (h1.trans h2)) (Trie.Sub.refl _)
      · exact hab _ (Trie.Sub.refl _) ((Trie.Sub.left a b).trans (h1.trans h2))
    have hmade : ∀ c ∈ xs ++ ys, ¬ (Trie.node a b).Sub c := by
      intro c hc hs
      rcases List.mem_append.1 hc with hc | hc
      · exact hself _ hs (.inl (hxa c hc))
      · exact hself _ hs (.inr (hyb c hc))
    have hma : ∀ u : Trie N, u.Sub a → (∀ c ∈ xs, ¬ u.Sub c) → ∀ c ∈ xs ++ ys, ¬ u.Sub c := by
      intro u h1 h2 c hc hs
      rcases List.mem_append.1 hc with hc | hc
      · exact h2 c hc hs
      · exact hab u h1 (hs.trans (hyb c hc))
    have hmb : ∀ u : Trie N, u.Sub b → (∀ c ∈ ys, ¬ u.Sub c) → ∀ c ∈ xs ++ ys, ¬ u.Sub c := by
      intro u h1 h2 c hc hs
      rcases List.mem_append.1 hc with hc | hc
      · exact hab u (hs.trans (hxa c hc)) h1
      · exact h2 c hc hs
    rw [itemLoad_new hU hQ (i := .tree (.node a b)) hT hj (hnew _ (Trie.Sub.refl _) hmade)]
    have hQb : ∀ q ∈ Item.tree b :: Q, q.Ok H U := by
      intro q hq
      rcases List.mem_cons.1 hq with rfl | hq
      · exact hTb
      · exact hQ q hq
    have hQx : ∀ q ∈ xs.map Item.tree ++ Q, q.Ok H U := by
      intro q hq
      rcases List.mem_append.1 hq with hq | hq
      · obtain ⟨u, hu, rfl⟩ := List.mem_map.1 hq
        exact hTa.sub (hxa u hu)
      · exact hQ q hq
    have h1 := iha hTa hnda hxa (Q := .tree b :: Q) hQb (by
      intro u hu hn hr
      rw [Reach.cons, reach_subtree] at hr
      rcases hr with hr | hr
      · exact hab u hu hr
      · exact hnew u (hu.trans (Trie.Sub.left a b)) (hma u hu hn) hr) hj
    have h2 := ihb hTb hndb hyb (Q := xs.map .tree ++ Q) hQx (by
      intro u hu hn hr
      rw [Reach.append] at hr
      rcases hr with hr | hr
      · obtain ⟨i, hi, hk⟩ := item_keys hr
        obtain ⟨c, hc, rfl⟩ := List.mem_map.1 hi
        have := hk u.key u.key_mem
        have hca := (hxa c hc).entries.subset
        refine hdis _ ?_ _ (Sub.key_mem hu) rfl
        obtain ⟨e, he, hek⟩ := List.mem_map.1 this
        exact hek ▸ List.mem_map_of_mem (f := Prod.fst) (hca he)
      · exact hnew u (hu.trans (Trie.Sub.right a b)) (hmb u hu hn) hr) hj
    have e1 : itemLoad H U ((Item.tree (.node a b)).children ++ Q) j =
        itemLoad H U (.tree a :: .tree b :: Q) j := rfl
    have e2 : itemLoad H U (xs.map .tree ++ .tree b :: Q) j =
        itemLoad H U (.tree b :: (xs.map .tree ++ Q)) j := by
      rw [itemLoad_perm List.perm_middle]
    have e3 : itemLoad H U ((xs ++ ys).map .tree ++ Q) j =
        itemLoad H U (ys.map .tree ++ (xs.map .tree ++ Q)) j := by
      rw [List.map_append, ← List.append_assoc]
      rw [itemLoad_perm (List.perm_append_comm.append_right Q)]
    rw [e1, h1, e2, h2, e3]
    -- the three kinds of new branches
    by_cases he : j = .tree (.node a b)
    · subst he
      rw [if_neg, if_neg, if_pos rfl, if_pos ⟨_, rfl, Trie.Sub.refl _, hmade⟩]
      · rintro ⟨u, hu, h, -⟩
        cases hu
        exact hself _ (Trie.Sub.refl _) (.inl h)
      · rintro ⟨u, hu, h, -⟩
        cases hu
        exact hself _ (Trie.Sub.refl _) (.inr h)
    · rw [if_neg he]
      by_cases hA : ∃ u, j = .tree u ∧ u.Sub a ∧ ∀ c ∈ xs, ¬ u.Sub c
      · obtain ⟨u, rfl, h3, h4⟩ := hA
        rw [if_neg, if_pos ⟨u, rfl, h3, h4⟩, if_pos ⟨u, rfl, h3.trans (Trie.Sub.left a b), hma u h3 h4⟩]
        rintro ⟨w, hw, h5, -⟩
        cases hw
        exact hab _ h3 h5
      · rw [if_neg hA]
        by_cases hB : ∃ u, j = .tree u ∧ u.Sub b ∧ ∀ c ∈ ys, ¬ u.Sub c
        · obtain ⟨u, rfl, h3, h4⟩ := hB
          rw [if_pos ⟨u, rfl, h3, h4⟩, if_pos ⟨u, rfl, h3.trans (Trie.Sub.right a b), hmb u h3 h4⟩]
        · rw [if_neg hB, if_neg]
          rintro ⟨u, rfl, h3 | h3 | h3, h4⟩
          · exact he (by rw [h3])
          · exact hA ⟨u, rfl, h3, fun c hc => h4 c (List.mem_append_left _ hc)⟩
          · exact hB ⟨u, rfl, h3, fun c hc => h4 c (List.mem_append_right _ hc)⟩

/-- Subtrees that are there already get one more reference each. -/
theorem itemLoad_kept (hU : CollisionFree H U) {Q : List (Item N)} (hQ : ∀ q ∈ Q, q.Ok H U) :
    ∀ {K : List (Trie N)}, K.Nodup → (∀ t ∈ K, Reach Item.children Q (.tree t)) →
    ∀ {j : Item N}, j.Ok H U →
    itemLoad H U (K.map .tree ++ Q) j = itemLoad H U Q j + if j ∈ K.map Item.tree then 1 else 0
  | [], _, _, j, _ => by simp
  | t :: K, hnd, hK, j, hj => by
    have hok : ∀ q ∈ K.map Item.tree ++ Q, q.Ok H U := by
      intro q hq
      rcases List.mem_append.1 hq with hq | hq
      · obtain ⟨u, hu, rfl⟩ := List.mem_map.1 hq
        exact item_ok hQ (hK u (by simp [hu]))
      · exact hQ q hq
    rw [List.nodup_cons] at hnd
    rw [List.map_cons, List.cons_append, itemLoad_again hU hok hj
        (Reach.append.2 (.inr (hK t (by simp)))),
      itemLoad_kept hU hQ hnd.2 (fun u hu => hK u (by simp [hu])) hj]
    by_cases he : j = .tree t
    · subst he
      have : Item.tree t ∉ K.map Item.tree := by
        intro h
        obtain ⟨u, hu, h⟩ := List.mem_map.1 h
        cases h
        exact hnd.1 hu
      simp [this, List.mem_cons]
    · simp [he]

open Classical in
/-- What a batch leaves for a pair: its data node, if the pair was there (`st`), and its leaf, if that was
counted twice (`twice`). -/
noncomputable def leftFor (st twice : Arr N × List UInt8 → Prop) (e : Arr N × List UInt8) :
    List (Item N) :=
  (if st e then [.data e.1 e.2] else []) ++ (if twice e then [.tree (.leaf e.1 e.2)] else [])

open Classical in
/-- What the pairs of a batch add to the counts. -/
noncomputable def pairLoad (twice : Arr N × List UInt8 → Prop) (es : List (Arr N × List UInt8)) : Item N → Nat
  | .data k v => if (k, v) ∈ es then 1 else 0
  | .tree (.leaf k v) => if (k, v) ∈ es then (if twice (k, v) then 2 else 1) else 0
  | .tree (.node _ _) => 0

theorem reach_left {st twice : Arr N × List UInt8 → Prop} {es : List (Arr N × List UInt8)}
    {j : Item N}
    (h : Reach Item.children (es.flatMap (fun e => .tree (.leaf e.1 e.2) :: leftFor st twice e)) j) :
    ∃ e ∈ es, j = .tree (.leaf e.1 e.2) ∨ j = .data e.1 e.2 := by
  induction h with
  | root hx =>
    obtain ⟨e, he, h⟩ := List.mem_flatMap.1 hx
    refine ⟨e, he, ?_⟩
    rcases List.mem_cons.1 h with rfl | h
    · exact .inl rfl
    · unfold leftFor at h
      rcases List.mem_append.1 h with h | h <;> split at h
      · rw [List.mem_singleton.1 h]; exact .inr rfl
      · simp at h
      · rw [List.mem_singleton.1 h]; exact .inl rfl
      · simp at h
  | child _ hy ih =>
    obtain ⟨e, he, rfl | rfl⟩ := ih
    · simp only [Item.children, List.mem_singleton] at hy
      exact ⟨e, he, .inr hy⟩
    · simp [Item.children] at hy

theorem left_ok {st twice : Arr N × List UInt8 → Prop} {es : List (Arr N × List UInt8)}
    (hes : ∀ e ∈ es, TreeOk H U (.leaf e.1 e.2)) :
    ∀ i ∈ es.flatMap (fun e => .tree (.leaf e.1 e.2) :: leftFor st twice e), i.Ok H U := by
  intro i hi
  obtain ⟨e, he, rfl | rfl⟩ := reach_left (.root hi)
  · exact hes e he
  · exact (hes e he).2 _ (by simp [Trie.inputs])

open Classical in
theorem itemLoad_pairs (hU : CollisionFree H U) {Q : List (Item N)} (hQ : ∀ q ∈ Q, q.Ok H U)
    {st twice : Arr N × List UInt8 → Prop} :
    ∀ {es : List (Arr N × List UInt8)}, es.Nodup → (∀ e ∈ es, TreeOk H U (.leaf e.1 e.2)) →
    (∀ e ∈ es, st e ↔ Reach Item.children Q (.tree (.leaf e.1 e.2))) → (∀ e, twice e → st e) →
    ∀ {j : Item N}, j.Ok H U →
    itemLoad H U (es.flatMap (fun e => .tree (.leaf e.1 e.2) :: leftFor st twice e) ++ Q) j =
      itemLoad H U Q j + pairLoad twice es j
  | [], _, _, _, _, j, _ => by
    cases j with
    | data k v => simp [pairLoad]
    | tree t => cases t <;> simp [pairLoad]
  | e :: es, hnd, hes, hst, htw, j, hj => by
    rw [List.nodup_cons] at hnd
    have hes' : ∀ e ∈ es, TreeOk H U (.leaf e.1 e.2) := fun e he => hes e (by simp [he])
    have ih := itemLoad_pairs hU hQ hnd.2 hes' (fun e he => hst e (by simp [he])) htw hj
    have hle : TreeOk H U (.leaf e.1 e.2) := hes e (by simp)
    have hda : (Item.data e.1 e.2).Ok H U := hle.2 _ (by simp [Trie.inputs])
    set R := es.flatMap (fun e => Item.tree (.leaf e.1 e.2) :: leftFor st twice e) ++ Q with hR
    have hRok : ∀ q ∈ R, q.Ok H U := by
      intro q hq
      rcases List.mem_append.1 hq with hq | hq
      · exact left_ok hes' q hq
      · exact hQ q hq
    have hreach : Reach Item.children R (.tree (.leaf e.1 e.2)) ↔ st e := by
      rw [hst e (by simp), hR, Reach.append]
      refine ⟨?_, .inr⟩
      rintro (h | h)
      · obtain ⟨e', he', h | h⟩ := reach_left h
        · injection h with h
          injection h with h1 h2
          exact absurd (show e ∈ es from (Prod.ext h1 h2 : e = e') ▸ he') hnd.1
        · cases h
      · exact h
    have hpl : pairLoad twice (e :: es) j = pairLoad twice es j +
        (if j = .data e.1 e.2 then 1 else 0) +
        (if j = .tree (.leaf e.1 e.2) then (if twice e then 2 else 1) else 0) := by
      cases j with
      | data k v =>
        by_cases he : (k, v) = e
        · subst he; simp [pairLoad, hnd.1]
        · have : ¬ (k = e.1 ∧ v = e.2) := fun h => he (Prod.ext h.1 h.2)
          simp [pairLoad, he, this]
      | tree t =>
        cases t with
        | leaf k v =>
          by_cases he : (k, v) = e
          · subst he; simp [pairLoad, hnd.1]
          · have : ¬ (k = e.1 ∧ v = e.2) := fun h => he (Prod.ext h.1 h.2)
            simp [pairLoad, he, this]
        | node l r => simp [pairLoad]
    have e0 : (e :: es).flatMap (fun e => Item.tree (.leaf e.1 e.2) :: leftFor st twice e) ++ Q =
        .tree (.leaf e.1 e.2) :: (leftFor st twice e ++ R) := by
      simp [hR]
    rw [e0, hpl]
    by_cases h1 : st e
    · have hr := hreach.2 h1
      by_cases h2 : twice e
      · have e1 : leftFor st twice e ++ R = .data e.1 e.2 :: .tree (.leaf e.1 e.2) :: R := by
          simp [leftFor, h1, h2]
        have hok1 : ∀ q ∈ Item.tree (.leaf e.1 e.2) :: R, q.Ok H U := by
          intro q hq
          rcases List.mem_cons.1 hq with rfl | hq
          · exact hle
          · exact hRok q hq
        have hok2 : ∀ q ∈ Item.data e.1 e.2 :: .tree (.leaf e.1 e.2) :: R, q.Ok H U := by
          intro q hq
          rcases List.mem_cons.1 hq with rfl | hq
          · exact hda
          · exact hok1 q hq
        rw [e1, itemLoad_again hU hok2 hj (.root (by simp)), itemLoad_data hU hda hj,
          itemLoad_again hU hRok hj hr, ih, if_pos h2]
        split <;> split <;> omega
      · have e1 : leftFor st twice e ++ R = .data e.1 e.2 :: R := by
          simp [leftFor, h1, h2]
        have hok2 : ∀ q ∈ Item.data e.1 e.2 :: R, q.Ok H U := by
          intro q hq
          rcases List.mem_cons.1 hq with rfl | hq
          · exact hda
          · exact hRok q hq
        rw [e1, itemLoad_again hU hok2 hj (Reach.cons.2 (.inr hr)), itemLoad_data hU hda hj, ih, if_neg h2]
        omega
    · have h2 : ¬ twice e := fun h => h1 (htw e h)
      have e1 : leftFor st twice e ++ R = R := by simp [leftFor, h1, h2]
      rw [e1, itemLoad_new hU hRok (i := .tree (.leaf e.1 e.2)) hle hj (mt hreach.1 h1)]
      simp only [Item.children, List.singleton_append]
      rw [itemLoad_data hU hda hj, ih, if_neg h2]
      omega

open Classical in
/-- What a batch does to the counts is what its version and the leftovers add. -/
theorem itemLoad_batch (hU : CollisionFree H U) {live : List (Item N)} (hlive : ∀ q ∈ live, q.Ok H U)
    {es : List (Arr N × List UInt8)} {K ts : List (Trie N)} {T : Trie N}
    (hp : ts.Perm (es.map (fun e => .leaf e.1 e.2) ++ K)) (hjs : Joins ts T) (hT : TreeOk H U T)
    (hnd : T.keys.Nodup) (hent : T.entries = ts.flatMap Trie.entries) (hsub : ∀ u ∈ ts, u.Sub T)
    (hK : ∀ t ∈ K, Reach Item.children live (.tree t))
    (hnew : ∀ l r : Trie N, (Trie.node l r).Sub T → (∀ b ∈ K, ¬ (Trie.node l r).Sub b) →
      ¬ Reach Item.children live (.tree (.node l r)))
    {st twice : Arr N × List UInt8 → Prop}
    (hst : ∀ e ∈ es, st e ↔ Reach Item.children live (.tree (.leaf e.1 e.2)))
    (htw : ∀ e, twice e → st e) {prev : Option (Trie N)} {again : Nat}
    (hag : ∀ e, (if ∃ T ∈ prev, e ∈ T.entries then again else 1) = if twice e then 2 else 1)
    {j : Item N} (hj : j.Ok H U) :
    itemLoad H U (.tree T :: (es.flatMap (leftFor st twice) ++ live)) j =
      afterInsert again prev K es T (itemLoad H U live) j := by
  have hokt : ∀ t ∈ ts, TreeOk H U t := fun t ht => hT.sub (hsub t ht)
  have hes : ∀ e ∈ es, TreeOk H U (.leaf e.1 e.2) := fun e he =>
    hokt _ (hp.mem_iff.2 (List.mem_append_left _ (List.mem_map_of_mem (f := fun e : Arr N × List UInt8 => Trie.leaf e.1 e.2) he)))
  -- the parts have distinct keys
  have hkeys : ((es.map (fun e => Trie.leaf e.1 e.2) ++ K).flatMap Trie.keys).Nodup := by
    refine (hp.flatMap_right Trie.keys).nodup_iff.1 ?_
    unfold Trie.keys at hnd ⊢
    rw [hent, List.map_flatMap] at hnd
    exact hnd
  rw [List.flatMap_append, List.nodup_append] at hkeys
  obtain ⟨hk1, hk2, hk3⟩ := hkeys
  have hnd1 : es.Nodup := by
    have : (es.map Prod.fst).Nodup := by
      have e : (es.map (fun e => Trie.leaf e.1 e.2)).flatMap Trie.keys = es.map Prod.fst := by
        simp [List.flatMap_map, Trie.keys, Trie.entries]
        exact List.flatMap_pure_eq_map _ _
      rwa [e] at hk1
    exact this.of_map
  have hnd2 : K.Nodup := by
    rw [List.nodup_flatMap] at hk2
    refine hk2.2.imp ?_
    rintro a b hab rfl
    exact hab a.key_mem a.key_mem
  have hdis : ∀ e ∈ es, ∀ t ∈ K, e.1 ∉ t.keys := by
    intro e he t ht hk
    refine hk3 e.1 ?_ e.1 (List.mem_flatMap.2 ⟨t, ht, hk⟩) rfl
    exact List.mem_flatMap.2 ⟨.leaf e.1 e.2, List.mem_map_of_mem (f := fun e : Arr N × List UInt8 => Trie.leaf e.1 e.2) he,
      by simp [Trie.keys, Trie.entries]⟩
  have hQ : ∀ q ∈ es.flatMap (leftFor st twice) ++ live, q.Ok H U := by
    intro q hq
    rcases List.mem_append.1 hq with hq | hq
    · refine left_ok (st := st) (twice := twice) hes q ?_
      obtain ⟨e, he, h⟩ := List.mem_flatMap.1 hq
      exact List.mem_flatMap.2 ⟨e, he, List.mem_cons_of_mem _ h⟩
    · exact hlive q hq
  have hleft : ∀ l r : Trie N, ¬ Reach Item.children (es.flatMap (leftFor st twice)) (.tree (.node l r)) := by
    intro l r h
    have h' : Reach Item.children (es.flatMap (fun e => .tree (.leaf e.1 e.2) :: leftFor st twice e))
        (.tree (.node l r)) := by
      refine h.subset ?_
      intro q hq
      obtain ⟨e, he, h⟩ := List.mem_flatMap.1 hq
      exact List.mem_flatMap.2 ⟨e, he, List.mem_cons_of_mem _ h⟩
    obtain ⟨e, _, h | h⟩ := reach_left h' <;> cases h
  have hmem : ∀ b, b ∈ ts ↔ (∃ e ∈ es, Trie.leaf e.1 e.2 = b) ∨ b ∈ K := by
    intro b
    rw [hp.mem_iff, List.mem_append, List.mem_map]
  have hmadeK : ∀ u : Trie N, (∀ b ∈ ts, ¬ u.Sub b) → ∀ b ∈ K, ¬ u.Sub b :=
    fun u h b hb => h b ((hmem b).2 (.inr hb))
  -- a new branch is not a leaf
  have hbranch : ∀ k v, (Trie.leaf k v).Sub T → ∃ b ∈ ts, (Trie.leaf k v).Sub b := by
    intro k v hs
    have : (k, v) ∈ T.entries := hs.entries.subset (by simp [Trie.entries])
    rw [hent] at this
    obtain ⟨b, hb, hkb⟩ := List.mem_flatMap.1 this
    exact ⟨b, hb, Trie.Sub.of_entry hkb⟩
  rw [itemLoad_joins hU hjs hT hnd hsub hQ (by
    intro u hu hn hr
    cases u with
    | leaf k v =>
      obtain ⟨b, hb, hs⟩ := hbranch k v hu
      exact hn b hb hs
    | node l r =>
      rcases Reach.append.1 hr with hr | hr
      · exact hleft l r hr
      · exact hnew l r hu (hmadeK _ hn) hr) hj]
  have hperm : (ts.map Item.tree ++ (es.flatMap (leftFor st twice) ++ live)).Perm
      (K.map .tree ++ (es.flatMap (fun e => .tree (.leaf e.1 e.2) :: leftFor st twice e) ++ live)) := by
    have h1 : (ts.map Item.tree).Perm (K.map .tree ++ es.map (fun e => .tree (.leaf e.1 e.2))) := by
      refine (hp.map Item.tree).trans ?_
      rw [List.map_append, List.map_map]
      exact List.perm_append_comm
    have h2 : (es.flatMap (fun e => Item.tree (.leaf e.1 e.2) :: leftFor st twice e)).Perm
        (es.map (fun e => .tree (.leaf e.1 e.2)) ++ es.flatMap (leftFor st twice)) := by
      clear h1 hst hes hnd1 hdis hQ hleft hmem hp hk1 hk3
      induction es with
      | nil => simp
      | cons e es ih =>
        simp only [List.flatMap_cons, List.map_cons, List.cons_append]
        refine List.Perm.cons _ ?_
        refine (ih.append_left _).trans ?_
        rw [← List.append_assoc, ← List.append_assoc]
        exact List.perm_append_comm.append_right _
    refine (h1.append_right _).trans ?_
    rw [List.append_assoc]
    refine List.Perm.append_left _ ?_
    rw [← List.append_assoc]
    exact h2.symm.append_right _
  have hQ2 : ∀ q ∈ es.flatMap (fun e => Item.tree (.leaf e.1 e.2) :: leftFor st twice e) ++ live, q.Ok H U := by
    intro q hq
    rcases List.mem_append.1 hq with hq | hq
    · exact left_ok hes q hq
    · exact hlive q hq
  rw [itemLoad_perm hperm, itemLoad_kept hU hQ2 hnd2 (fun t ht => Reach.append.2 (.inr (hK t ht))) hj,
    itemLoad_pairs hU hlive hnd1 hes hst htw hj]
  cases j with
  | data k v =>
    simp [pairLoad, afterInsert]
    split <;> rfl
  | tree t =>
    have hmemK : Item.tree t ∈ K.map Item.tree ↔ t ∈ K := by simp
    cases t with
    | leaf k v =>
      have hno : ¬ ∃ u, Item.tree (Trie.leaf k v) = .tree u ∧ u.Sub T ∧ ∀ b ∈ ts, ¬ u.Sub b := by
        rintro ⟨u, hu, h1, h2⟩
        cases hu
        obtain ⟨b, hb, hs⟩ := hbranch k v h1
        exact h2 b hb hs
      rw [if_neg hno]
      simp only [pairLoad, afterInsert, hmemK]
      by_cases he : (k, v) ∈ es
      · have hnk : Trie.leaf k v ∉ K := fun h => hdis _ he _ h (by simp [Trie.keys, Trie.entries])
        rw [if_pos he, if_pos he, if_neg hnk, hag]
        omega
      · rw [if_neg he, if_neg he]
        split <;> omega
    | node l r =>
      simp only [pairLoad, afterInsert, hmemK, mem_subtrees]
      have hiff : (∃ u, Item.tree (Trie.node l r) = .tree u ∧ u.Sub T ∧ ∀ b ∈ ts, ¬ u.Sub b) ↔
          (Trie.node l r).Sub T ∧ ∀ b ∈ K, ¬ (Trie.node l r).Sub b := by
        constructor
        · rintro ⟨u, hu, h1, h2⟩
          cases hu
          exact ⟨h1, hmadeK _ h2⟩
        · rintro ⟨h1, h2⟩
          refine ⟨_, rfl, h1, fun b hb hs => ?_⟩
          rcases (hmem b).1 hb with ⟨e, _, rfl⟩ | hb
          · simp [Trie.Sub] at hs
          · exact h2 b hb hs
      rw [if_congr hiff rfl rfl]
      by_cases h1 : Trie.node l r ∈ K
      · rw [if_pos h1, if_pos h1, if_neg]
        rintro ⟨_, h2⟩
        exact h2 _ h1 (Trie.Sub.refl _)
      · rw [if_neg h1, if_neg h1]
        by_cases h2 : (Trie.node l r).Sub T ∧ ∀ b ∈ K, ¬ (Trie.node l r).Sub b
        · rw [if_pos h2, if_pos h2, itemLoad_zero hU hlive hj (hnew l r h2.1 h2.2)]
        · rw [if_neg h2, if_neg h2]
          omega

end MerkleBit
