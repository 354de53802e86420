import Verif.Proof.Batches
/-!
# Facts about single calls, on any database
-/

namespace MerkleBit
variable {N : Nat} {σ V : Type}

/-! ## Inversion of runs -/

theorem bind_ok {α β : Type} {m : M σ α} {f : α → M σ β} {s s' : σ} {b : β}
    (h : M.bind m f s = (.ok b, s')) : ∃ a s1, m s = (.ok a, s1) ∧ f a s1 = (.ok b, s') := by
  unfold M.bind at h
  rcases hm : m s with ⟨r, s1⟩
  rw [hm] at h
  cases r with
  | ok a => exact ⟨a, s1, rfl, h⟩
  | error e => cases h

theorem bind_congr {α β : Type} {m : M σ α} {f g : α → M σ β} {s : σ}
    (h : ∀ a s', m s = (.ok a, s') → f a s' = g a s') : M.bind m f s = M.bind m g s := by
  unfold M.bind
  rcases hm : m s with ⟨r, s1⟩
  cases r with
  | ok a => exact h a s1 hm
  | error e => rfl

theorem insertLeaves_length {cfg : Config N σ V} {vm : AMap (Arr N) V} : ∀ {ks : List (Arr N)}
    {s s' : σ} {nodes : List (Arr N)}, insertLeaves cfg vm ks s = (.ok nodes, s') →
      nodes.length = ks.length
  | [], s, s', nodes, h => by cases h; rfl
  | k :: ks, s, s', nodes, h => by
    rw [insertLeaves_cons] at h
    obtain ⟨b, s1, -, h⟩ := bind_ok h
    obtain ⟨l, s2, -, h⟩ := bind_ok h
    obtain ⟨rest, s3, h3, h⟩ := bind_ok h
    cases h
    simp [insertLeaves_length h3]

theorem insertLeaves_congr (cfg : Config N σ V) {vm vm' : AMap (Arr N) V}
    (h : ∀ k, vm.get? k = vm'.get? k) : ∀ ks : List (Arr N),
      insertLeaves cfg vm ks = insertLeaves cfg vm' ks
  | [] => rfl
  | k :: ks => by
    rw [insertLeaves_cons, insertLeaves_cons, insertLeaves_congr cfg h ks]
    unfold encodedOf
    rw [h k]

/-! ## Sorting -/

theorem sortKeys_perm_eq {ks ks' : List (Arr N)} (h : ks.Perm ks') : sortKeys ks = sortKeys ks' :=
  List.Perm.eq_of_pairwise (fun _ _ _ _ => Arr.le_antisymm) (sortKeys_sorted ks)
    (sortKeys_sorted ks') ((sortKeys_perm ks).trans (h.trans (sortKeys_perm ks').symm))

/-! ## insert_one -/

theorem insert_single (cfg : Config N σ V) (prev : Option (Arr N)) (k : Arr N) (v : V) :
    insert cfg prev [k] [v] = insertOne cfg prev k v := by
  funext s
  unfold insert insertOne
  simp only [List.length_singleton, ne_eq, not_true_eq_false, if_false, List.isEmpty_cons,
    Bool.or_self, Bool.false_eq_true, M.bind_eq]
  have hs : sortKeys [k] = [k] := rfl
  have hv : valueMap [k] [v] = AMap.empty.insert k v := rfl
  rw [hs, hv]
  refine bind_congr ?_
  intro nodes s1 h
  have hl := insertLeaves_length h
  match nodes, hl with
  | [l], _ => rfl

/-! ## Duplicate keys -/

theorem createTree_dup (hN : 0 < N) (cfg : Config N σ V) {refs : List (TreeRef N)}
    (h : ¬ (refs.map (·.key)).Nodup) (s : σ) :
    createTree cfg refs s = (.error (.exception "Attempted to insert item with duplicate keys"), s) := by
  match refs, h with
  | [], h => exact absurd List.nodup_nil h
  | [a], h => exact absurd (List.nodup_singleton _) h
  | a :: b :: rest, h =>
    unfold createTree
    simp only [M.bind_eq]
    rw [generateTreeRefQueue_err hN]
    · rfl
    · intro hch
      have h1 := strict_of_chain (sortRefs_sorted (a :: b :: rest)) hch
      have h2 : ((sortRefs (a :: b :: rest)).map (·.key)).Nodup :=
        h1.imp (fun hab => Arr.ne_of_lt hab)
      exact h (((sortRefs_perm (a :: b :: rest)).map (·.key)).nodup_iff.1 h2)

theorem insert_dup (hN : 0 < N) (cfg : Config N σ V) {prev : Option (Arr N)} {keys : List (Arr N)}
    {values : List V} (h : ¬ keys.Nodup) {s s' : σ} {r : Arr N} :
    insert cfg prev keys values s ≠ (.ok r, s') := by
  intro hrun
  unfold insert at hrun
  split at hrun
  · cases hrun
  split at hrun
  · cases hrun
  simp only [M.bind_eq] at hrun
  obtain ⟨nodes, s1, h1, hrun⟩ := bind_ok hrun
  obtain ⟨pn, s2, hrun⟩ : ∃ pn s2,
      createTree cfg (leafRefs (sortKeys keys) nodes ++ pn) s2 = (.ok r, s') := by
    cases prev with
    | none => exact ⟨[], s1, hrun⟩
    | some root =>
      obtain ⟨pn, s2, -, hrun⟩ := bind_ok hrun
      exact ⟨pn, s2, hrun⟩
  have hl := insertLeaves_length h1
  rw [createTree_dup hN] at hrun
  · cases hrun
  · rw [List.map_append]
    intro hnd
    have := hnd.of_append_left
    have hkeys : (leafRefs (sortKeys keys) nodes).map (·.key) = sortKeys keys := by
      unfold leafRefs
      rw [List.map_map]
      have : ((fun x : TreeRef N => x.key) ∘ fun lk : Arr N × Arr N => (⟨lk.2, lk.1, 1, 1⟩ : TreeRef N)) =
        Prod.snd := rfl
      rw [this, List.map_snd_zip (by omega)]
    rw [hkeys] at this
    exact h ((sortKeys_perm keys).nodup_iff.1 this)

/-! ## Unknown previous root -/

theorem triple_leafBody_trivial {cfg : Config N σ V} {C : GContract cfg.db} {Ex : Err → Prop}
    (k : Arr N) (b : List UInt8) : Triple C Ex (fun _ => True) (leafBody cfg k b)
      (fun r _ => r = (Trie.leaf k b).loc cfg.hasher ∧ True) (fun _ => True) := by
  unfold leafBody
  simp only [M.bind_eq, M.pure_eq]
  apply triple_bind (R := fun _ _ => True)
    (triple_dbGet (fun _ _ => trivial) (fun _ _ => trivial))
  intro od
  apply triple_bind (R := fun _ _ => True)
    (triple_dbGet (fun _ _ => trivial) (fun _ _ => trivial))
  intro ol
  apply triple_bind (R := fun _ _ => True)
    (triple_insert (fun _ _ _ _ => trivial) (fun _ _ _ _ _ => trivial))
  intro _
  apply triple_bind (R := fun _ _ => True)
    (triple_insert (fun _ _ _ _ => trivial) (fun _ _ _ _ _ => trivial))
  intro _
  exact triple_pure (fun _ _ => ⟨rfl, trivial⟩)

theorem insert_unknown {cfg : Config N σ V} (C : DbContract cfg.db) {keys : List (Arr N)}
    {values : List V} {r : Arr N} {s : σ} (hr : ∀ n, C.view s r = some n → ∃ d, n.variant = .data d)
    (hleaf : ∀ e ∈ encodedPairs cfg keys values, (Trie.leaf e.1 e.2).loc cfg.hasher ≠ r) {r' : Arr N}
    {s' : σ} : insert cfg (some r) keys values s ≠ (.ok r', s') := by
  intro hrun
  by_cases hlen : keys.length = values.length
  · by_cases hne : keys = []
    · subst hne
      unfold insert at hrun
      simp only [List.isEmpty_nil, Bool.true_or, if_true] at hrun
      split at hrun <;> cases hrun
    · have := insert_rootless (cfg := cfg) (C := C.toG) (Ex := fun _ => True) (E := fun _ => True)
        (JL := fun _ _ => True) (Q := fun _ _ => False) hlen hne (f := encOf cfg keys values) (r := r)
        (fun _ => trivial) (fun k hk => (encodedOf_cases cfg hlen hk).imp (·.1)
          (fun ⟨v, _, e, _, h⟩ => ⟨e, h, trivial⟩))
        (fun _ k hk _ => triple_leafBody_trivial k _) (fun _ _ _ => trivial) (by
          intro k hk he
          rcases encodedOf_cases cfg hlen hk with ⟨-, hp⟩ | ⟨v, hv, e, h1, h2⟩
          · exact hleaf _ hp
          · rw [h2] at he; cases he) s ⟨trivial, hr⟩
      rw [hrun] at this
      exact this.2
  · unfold insert at hrun
    rw [if_pos hlen] at hrun
    cases hrun

/-! ## One at a time -/

theorem assign_single (M : Contents N V) (k : Arr N) (v : V) (x : Arr N) :
    M.assign [k] [v] x = if k = x then some v else M x := by
  unfold Contents.assign
  by_cases h : k = x <;> simp [h]

theorem foldl_assign_not_mem (pairs : List (Arr N × V)) {x : Arr N} : ∀ (M : Contents N V),
    x ∉ pairs.map (·.1) → pairs.foldl (fun M e => M.assign [e.1] [e.2]) M x = M x := by
  induction pairs with
  | nil => intros; rfl
  | cons e l ih =>
    intro M h
    simp only [List.map_cons, List.mem_cons, not_or] at h
    rw [List.foldl_cons, ih _ h.2, assign_single, if_neg (fun h' => h.1 h'.symm)]

theorem foldl_assign_mem {pairs : List (Arr N × V)} : ∀ (M : Contents N V),
    (pairs.map (·.1)).Nodup → ∀ {e}, e ∈ pairs →
      pairs.foldl (fun M e => M.assign [e.1] [e.2]) M e.1 = some e.2 := by
  induction pairs with
  | nil => intro M _ e he; cases he
  | cons a l ih =>
    intro M hnd e he
    rw [List.map_cons, List.nodup_cons] at hnd
    rw [List.foldl_cons]
    rcases List.mem_cons.1 he with rfl | he
    · rw [foldl_assign_not_mem l _ hnd.1, assign_single, if_pos rfl]
    · exact ih _ hnd.2 he

theorem foldl_assign_eq (M : Contents N V) {keys : List (Arr N)} {values : List V}
    (hlen : keys.length = values.length) (hnd : keys.Nodup) {pairs : List (Arr N × V)}
    (hp : pairs.Perm (keys.zip values)) :
    pairs.foldl (fun M e => M.assign [e.1] [e.2]) M = M.assign keys values := by
  funext x
  have hk : (pairs.map (·.1)).Perm keys := by
    have := hp.map (·.1)
    rwa [zip_keys hlen] at this
  by_cases hx : x ∈ keys
  · have hx' : x ∈ pairs.map (·.1) := hk.mem_iff.2 hx
    obtain ⟨e, he, rfl⟩ := List.mem_map.1 hx'
    rw [foldl_assign_mem M (hk.nodup_iff.2 hnd) he, assign_mem M hlen hnd (hp.mem_iff.1 he)]
  · rw [foldl_assign_not_mem _ _ (fun h => hx (hk.mem_iff.1 h)), assign_not_mem M values hx]

theorem foldl_assign_ne_none : ∀ (pairs : List (Arr N × V)) (M : Contents N V) (x : Arr N),
    M x ≠ none → pairs.foldl (fun M e => M.assign [e.1] [e.2]) M x ≠ none
  | [], _, _, h => h
  | e :: pairs, M, x, h => by
    rw [List.foldl_cons]
    refine foldl_assign_ne_none pairs _ x ?_
    rw [assign_single]
    split
    · simp
    · exact h

theorem Inserts.each {cfg : Config N σ V} {C : DbContract cfg.db} (hc : Sane cfg) :
    ∀ {pairs : List (Arr N × V)} {prev : Option (Arr N)} {M : Contents N V} {H : List (HIn N)}
      {R : List (Arr N)} {L : Ledger N V} {s : σ}, Inserts cfg C H R L s → C.alive s →
      L.Prev prev M → HeightBelow (pairs.foldl (fun M e => M.assign [e.1] [e.2]) M) (cfg.depth + 1) →
      (∀ e ∈ pairs, ∃ b, cfg.encode e.2 = .ok b) →
      CollisionFree cfg.hasher (Among (hashedByEach cfg prev pairs s ++ H)) →
      ∃ last s' R' L', insertEach cfg prev pairs s = (.ok last, s') ∧ C.alive s' ∧
        Inserts cfg C (hashedByEach cfg prev pairs s ++ H) R' L' s' ∧
        L'.Prev last (pairs.foldl (fun M e => M.assign [e.1] [e.2]) M)
  | [], prev, M, H, R, L, s, h, hs, hp, _, _, _ => ⟨prev, s, R, L, rfl, hs, h, hp⟩
  | (k, v) :: rest, prev, M, H, R, L, s, h, hs, hp, hd, henc, hcf => by
    have hcf1 : CollisionFree cfg.hasher (Among (hashedBy cfg prev [k] [v] s ++ H)) := by
      refine hcf.mono ?_
      intro i hi
      unfold hashedByEach
      split
      · rw [Among, List.append_assoc]
        exact List.mem_append_right _ hi
      · exact hi
    obtain ⟨r, s1, hrun, hs1, h1⟩ := h.insert_ok hc hs hcf1 hp (hd.subset (foldl_assign_ne_none _ M))
      (handled_single hc k) rfl
      (List.cons_ne_nil _ _) (List.nodup_singleton k) (by
        intro w hw
        rw [List.mem_singleton] at hw
        subst hw
        exact henc _ List.mem_cons_self)
    rw [insert_single] at hrun
    have he : hashedByEach cfg prev ((k, v) :: rest) s ++ H =
        hashedByEach cfg (some r) rest s1 ++ (hashedBy cfg prev [k] [v] s ++ H) := by
      rw [hashedByEach, hrun]
      simp only [List.append_assoc]
    rw [he] at hcf ⊢
    obtain ⟨last, s', R', L', g1, g2, g3, g4⟩ := Inserts.each hc h1 hs1 (prev := some r)
      (M := M.assign [k] [v]) List.mem_cons_self hd
      (fun e h => henc e (List.mem_cons_of_mem _ h)) hcf
    refine ⟨last, s', R', L', ?_, g2, g3, g4⟩
    rw [insertEach]
    rw [MerkleBit.M.bind_eq]
    unfold MerkleBit.M.bind
    rw [hrun]
    exact g1

/-! ## Permuted requests -/

theorem getLoop_congr (cfg : Config N σ V) (s : σ) (ks : List (Arr N)) : ∀ (fuel : Nat)
    (q : List (TreeCell N)) (m m' : AMap (Arr N) (Option V)), (∀ k, m.get? k = m'.get? k) →
    (∃ r r', getLoop cfg s ks fuel q m = .ok r ∧ getLoop cfg s ks fuel q m' = .ok r' ∧
      ∀ k, r.get? k = r'.get? k) ∨
    (∃ e, getLoop cfg s ks fuel q m = .error e ∧ getLoop cfg s ks fuel q m' = .error e)
  | fuel, [], m, m', h => .inl ⟨m, m', by simp [getLoop], by simp [getLoop], h⟩
  | 0, c :: q, m, m', _ => .inr ⟨_, rfl, rfl⟩
  | fuel + 1, c :: q, m, m', h => by
    unfold getLoop
    split
    · exact .inr ⟨_, rfl, rfl⟩
    · split
      · split
        · exact .inr ⟨_, rfl, rfl⟩
        · split
          · exact .inr ⟨_, rfl, rfl⟩
          · split
            · exact getLoop_congr cfg s ks fuel q m m' h
            · split
              · exact .inr ⟨_, rfl, rfl⟩
              · split
                · exact .inr ⟨_, rfl, rfl⟩
                · split
                  · exact .inr ⟨_, rfl, rfl⟩
                  · exact getLoop_congr cfg s ks fuel _ m m' h
      · split
        · exact .inr ⟨_, rfl, rfl⟩
        · split
          · split
            · exact .inr ⟨_, rfl, rfl⟩
            · split
              · refine getLoop_congr cfg s ks fuel q _ _ ?_
                intro k
                rw [AMap.get?_insert, AMap.get?_insert, h k]
              · exact getLoop_congr cfg s ks fuel q m m' h
          · exact .inr ⟨_, rfl, rfl⟩
        · exact .inr ⟨_, rfl, rfl⟩
      · exact .inr ⟨_, rfl, rfl⟩

/-! ## Values that do not encode -/

theorem insertLeaves_encodes {cfg : Config N σ V} {vm : AMap (Arr N) V} : ∀ {ks : List (Arr N)}
    {s s' : σ} {nodes : List (Arr N)}, insertLeaves cfg vm ks s = (.ok nodes, s') →
      ∀ k ∈ ks, ∃ b, encodedOf cfg vm k = .ok b
  | [], s, s', nodes, _, k, hk => by cases hk
  | k :: ks, s, s', nodes, h, k', hk' => by
    rw [insertLeaves_cons] at h
    obtain ⟨b, s1, h1, h⟩ := bind_ok h
    obtain ⟨l, s2, -, h⟩ := bind_ok h
    obtain ⟨rest, s3, h3, h⟩ := bind_ok h
    rcases List.mem_cons.1 hk' with rfl | hk'
    · unfold M.lift at h1
      exact ⟨b, (Prod.ext_iff.1 h1).1⟩
    · exact insertLeaves_encodes h3 k' hk'

theorem valueMap_nodup {keys : List (Arr N)} {values : List V} (h : keys.length = values.length)
    (hnd : keys.Nodup) (k : Arr N) : (valueMap keys values).get? k =
      ((keys.zip values).find? (fun e => e.1 = k)).map (·.2) := by
  rw [valueMap_get, find?_reverse (by rwa [zip_keys h])]

theorem insert_unencodable (hN : 0 < N) (cfg : Config N σ V) {prev : Option (Arr N)}
    {keys : List (Arr N)} {values : List V} {v : V} (hv : v ∈ values) {e : Err}
    (he : cfg.encode v = .error e) {s s' : σ} {r : Arr N} :
    insert cfg prev keys values s ≠ (.ok r, s') := by
  by_cases hnd : keys.Nodup
  · intro hrun
    unfold insert at hrun
    split at hrun
    · cases hrun
    next hlen =>
    simp only [ne_eq, not_not] at hlen
    split at hrun
    · cases hrun
    simp only [M.bind_eq] at hrun
    obtain ⟨nodes, s1, h1, -⟩ := bind_ok hrun
    have hzip : (keys.zip values).map (·.2) = values := List.map_snd_zip (by omega)
    rw [← hzip] at hv
    obtain ⟨p, hp, rfl⟩ := List.mem_map.1 hv
    have hpk : p.1 ∈ keys := (List.of_mem_zip hp).1
    obtain ⟨b, hb⟩ := insertLeaves_encodes h1 p.1 ((sortKeys_perm keys).mem_iff.2 hpk)
    unfold encodedOf at hb
    obtain ⟨w, h2, h3⟩ := valueMap_mem hlen hpk
    have hnd' : ((keys.zip values).map (·.1)).Nodup := by rw [zip_keys hlen]; exact hnd
    have := List.inj_on_of_nodup_map hnd' hp h3 rfl
    rw [h2] at hb
    dsimp only at hb
    have hw : w = p.2 := by rw [this]
    rw [hw, he] at hb
    cases hb
  · exact insert_dup hN cfg hnd

end MerkleBit
