import Verif.Spec.Storage
import Verif.Proof.Uses
/-!
# What a database holds after strict histories
-/

namespace MerkleBit
open Trie
variable {N : Nat} {σ V : Type}

/-! ## The view is determined by the roots -/

/-- Exact reference counts determine a view. -/
theorem Acct.view_eq {Hs : Hasher N} {U : HIn N → Prop} (hU : CollisionFree Hs U) {v v' : View N}
    {R R' : List (Arr N)} (h : Acct Hs U True v R) (h' : Acct Hs U True v' R') (hp : R.Perm R') :
    v = v' := by
  have hrefs : ∀ x, refsOf v x = refsOf v' x := fun x => by
    rw [h.eq trivial, h'.eq trivial, load_perm hp]
  funext x
  have hx := hrefs x
  cases hv : v x with
  | none =>
    cases hv' : v' x with
    | none => rfl
    | some n' =>
      have := (h'.honest x n' hv').1
      simp only [refsOf, hv, hv'] at hx
      omega
  | some n =>
    cases hv' : v' x with
    | none =>
      have := (h.honest x n hv).1
      simp only [refsOf, hv, hv'] at hx
      omega
    | some n' =>
      simp only [refsOf, hv, hv'] at hx
      have := (h.honest x n hv).2.unique hU (h'.honest x n' hv').2
      cases n; cases n'
      simp_all

open Classical in
/-- The root prescribed for contents. -/
noncomputable def rootFor (cfg : Config N σ V) (M : Contents N V) : Arr N :=
  if h : ∃ T : Trie N, T.WF ∧ Represents cfg T M then (Classical.choose h).loc cfg.hasher
  else (Trie.leaf ⟨List.replicate N 0, by simp⟩ []).loc cfg.hasher

theorem rootFor_eq {cfg : Config N σ V} {M : Contents N V} {T : Trie N} (hT : T.WF)
    (hM : Represents cfg T M) : rootFor cfg M = T.loc cfg.hasher := by
  have h : ∃ T : Trie N, T.WF ∧ Represents cfg T M := ⟨T, hT, hM⟩
  unfold rootFor
  rw [dif_pos h, Represents.unique (Classical.choose_spec h).1 hT (Classical.choose_spec h).2 hM]

theorem rootFor_ledger {cfg : Config N σ V} {U : HIn N → Prop} {L : Ledger N V}
    (hL : ∀ e ∈ L, ∃ T, Accounted cfg U e T) : L.map Prod.fst = (L.map Prod.snd).map (rootFor cfg) := by
  rw [List.map_map]
  apply List.map_congr_left
  intro e he
  obtain ⟨T, hT⟩ := hL e he
  simp only [Function.comp]
  rw [rootFor_eq hT.wf hT.rep, hT.loc]

theorem Represents.congr {σ' : Type} {cfg : Config N σ V} {cfg' : Config N σ' V}
    (henc : cfg'.encode = cfg.encode) {T : Trie N} {M : Contents N V} (h : Represents cfg' T M) :
    Represents cfg T M := by
  intro k
  have := h k
  unfold Encodes at this ⊢
  rwa [henc] at this

/-- The view is a function of the contents of the live versions. -/
theorem uses_canonical {σ' : Type} {cfg : Config N σ V} {C : DbContract cfg.db} {cfg' : Config N σ' V}
    {C' : DbContract cfg'.db} {H H' : List (HIn N)} {L L' : Ledger N V} {s : σ} {s' : σ'}
    (hc : Sane cfg) (hc' : Sane cfg') (hhash : cfg'.hasher = cfg.hasher)
    (henc : cfg'.encode = cfg.encode) (h : Uses cfg C True H L s) (h' : Uses cfg' C' True H' L' s')
    (hcf : CollisionFree cfg.hasher (Among (H ++ H')))
    (hp : (L.map Prod.snd).Perm (L'.map Prod.snd)) : C.view s = C'.view s' := by
  obtain ⟨hL, ha⟩ := uses_acct hc.pos hc.pp hc.codec h (Among (H ++ H')) hcf
    (fun _ hi => List.mem_append_left _ hi)
  obtain ⟨hL', ha'⟩ := uses_acct hc'.pos hc'.pp hc'.codec h' (Among (H ++ H')) (by rwa [hhash])
    (fun _ hi => List.mem_append_right _ hi)
  have hL2 : ∀ e ∈ L', ∃ T, Accounted cfg (Among (H ++ H')) e T := by
    intro e he
    obtain ⟨T, h1, h2, h3, h4⟩ := hL' e he
    exact ⟨T, h1, by rw [← hhash]; exact h2, by rw [← hhash]; exact h3, h4.congr henc⟩
  rw [hhash] at ha'
  refine Acct.view_eq hcf ha ha' ?_
  rw [rootFor_ledger hL, rootFor_ledger hL2]
  exact hp.map _

/-! ## Nodes of a trie -/

namespace Trie

/-- The locations of the nodes of a trie. -/
def locs (H : Hasher N) (t : Trie N) : List (Arr N) := (t.inputs H).map (HIn.hash H)

theorem inputs_length (H : Hasher N) (t : Trie N) : (t.inputs H).length + 1 = 3 * t.size := by
  induction t with
  | leaf k v => simp [inputs, size, entries]
  | node l r ihl ihr =>
    rw [size_node]
    simp only [inputs, List.length_cons, List.length_append]
    omega

theorem mem_inputs {H : Hasher N} {i : HIn N} : ∀ {t : Trie N}, i ∈ t.inputs H ↔
    (∃ e ∈ t.entries, i = .data e.1 e.2 ∨ i = .leaf e.1 (dataLoc H e.1 e.2)) ∨
      ∃ a b : Trie N, (node a b).Sub t ∧ i = .branch (a.loc H) (b.loc H)
  | leaf k v => by
    simp only [inputs, List.mem_cons, List.not_mem_nil, or_false, entries, exists_eq_left, Sub,
      reduceCtorEq, false_and, exists_false]
  | node l r => by
    simp only [inputs, List.mem_cons, List.mem_append, entries, mem_inputs (t := l),
      mem_inputs (t := r), Sub]
    constructor
    · rintro (rfl | (⟨e, he, h⟩ | ⟨a, b, hs, rfl⟩) | (⟨e, he, h⟩ | ⟨a, b, hs, rfl⟩))
      · exact .inr ⟨l, r, .inl rfl, rfl⟩
      · exact .inl ⟨e, .inl he, h⟩
      · exact .inr ⟨a, b, .inr (.inl hs), rfl⟩
      · exact .inl ⟨e, .inr he, h⟩
      · exact .inr ⟨a, b, .inr (.inr hs), rfl⟩
    · rintro (⟨e, he | he, h⟩ | ⟨a, b, (hs | hs | hs), rfl⟩)
      · exact .inr (.inl (.inl ⟨e, he, h⟩))
      · exact .inr (.inr (.inl ⟨e, he, h⟩))
      · cases hs; exact .inl rfl
      · exact .inr (.inl (.inr ⟨a, b, hs, rfl⟩))
      · exact .inr (.inr (.inr ⟨a, b, hs, rfl⟩))

theorem Sub.locs {H : Hasher N} {u t : Trie N} (h : u.Sub t) {x : Arr N} (hx : x ∈ u.locs H) : x ∈ t.locs H := by
  obtain ⟨i, hi, rfl⟩ := List.mem_map.1 hx
  exact List.mem_map_of_mem (h.inputs i hi)

theorem Sub.size_le {u t : Trie N} (h : u.Sub t) : u.size ≤ t.size := h.entries.length_le

theorem inputs_nodup {H : Hasher N} {U : HIn N → Prop} (hU : CollisionFree H U) : ∀ {t : Trie N},
    t.WF → (∀ i ∈ t.inputs H, U i) → (t.inputs H).Nodup
  | leaf k v, _, _ => by simp [inputs]
  | node l r, hwf, hin => by
    have hl : ∀ i ∈ l.inputs H, U i := fun i hi => hin i (by simp [inputs, hi])
    have hr : ∀ i ∈ r.inputs H, U i := fun i hi => hin i (by simp [inputs, hi])
    have hdisj : ∀ k, k ∈ l.keys → k ∈ r.keys → False := by
      intro k h1 h2
      have := hwf.sorted
      rw [keys_node] at this
      have := (List.pairwise_append.1 this).2.2 k h1 k h2
      exact Arr.ne_of_lt this rfl
    simp only [inputs, List.nodup_cons, List.mem_append, List.nodup_append]
    refine ⟨?_, inputs_nodup hU hwf.1 hl, inputs_nodup hU hwf.2.1 hr, ?_⟩
    · have key : ∀ w : Trie N, (∀ i ∈ w.inputs H, U i) →
          HIn.branch (l.loc H) (r.loc H) ∈ w.inputs H → l.size + r.size ≤ w.size := by
        intro w hw hm
        rcases mem_inputs.1 hm with ⟨e, -, h | h⟩ | ⟨a, b, hs, h⟩
        · cases h
        · cases h
        · injection h with h1 h2
          have e1 := eq_of_loc hU hl (fun i hi => hw i (hs.inputs i (by simp [inputs, hi]))) h1
          have e2 := eq_of_loc hU hr (fun i hi => hw i (hs.inputs i (by simp [inputs, hi]))) h2
          have := hs.size_le
          rw [size_node, ← e1, ← e2] at this
          exact this
      have h1 := l.size_pos
      have h2 := r.size_pos
      rintro (h | h)
      · have := key l hl h; omega
      · have := key r hr h; omega
    · rintro i hi j hj rfl
      rcases mem_inputs.1 hi with ⟨e, he, h⟩ | ⟨a, b, hs, h⟩ <;>
        rcases mem_inputs.1 hj with ⟨e', he', h'⟩ | ⟨a', b', hs', h'⟩
      · have : e.1 = e'.1 := by
          rcases h with h | h <;> rcases h' with h' | h' <;> rw [h] at h' <;> injection h'
        exact hdisj e.1 (List.mem_map_of_mem he) (by rw [this]; exact List.mem_map_of_mem he')
      · rcases h with h | h <;> rw [h] at h' <;> cases h'
      · rcases h' with h' | h' <;> rw [h] at h' <;> cases h'
      · rw [h] at h'
        injection h' with h1 h2
        have e1 := eq_of_loc hU (fun i hi => hl i (hs.inputs i (by simp [inputs, hi])))
          (fun i hi => hr i (hs'.inputs i (by simp [inputs, hi]))) h1
        refine hdisj a.key ?_ ?_
        · exact (hs.entries.map _).subset (show a.key ∈ (node a b).keys by simp [keys_node, a.key_mem])
        · rw [e1]
          exact (hs'.entries.map _).subset (show a'.key ∈ (node a' b').keys by simp [keys_node, a'.key_mem])

end Trie

/-- What is reachable from a tree are its nodes. -/
theorem reach_locs {Hs : Hasher N} {U : HIn N → Prop} (hU : CollisionFree Hs U) : ∀ {t : Trie N},
    TreeOk Hs U t → ∀ x, Reach (childrenOf Hs U) [t.loc Hs] x ↔ x ∈ t.locs Hs
  | .leaf k v, ht, x => by
    have hd : U (.data k v) := ht.2 _ (by simp [Trie.inputs])
    rw [Reach.single, childrenOf_tree hU ht.1 ht.2]
    simp only [Trie.variant, Variant.children, Reach.single, childrenOf_data hU hd, Reach.nil]
    simp only [Trie.locs, Trie.inputs, List.map_cons, List.map_nil, List.mem_cons, List.not_mem_nil,
      or_false, Trie.loc, Trie.dataLoc, Reach.nil]
    exact or_comm
  | .node l r, ht, x => by
    rw [Reach.single, childrenOf_tree hU ht.1 ht.2]
    simp only [Trie.variant, Variant.children]
    rw [Reach.cons, reach_locs hU (ht.sub (Trie.Sub.left l r)), reach_locs hU (ht.sub (Trie.Sub.right l r))]
    simp only [Trie.locs, Trie.inputs, List.map_cons, List.map_append, List.mem_cons, List.mem_append,
      Trie.loc]

end MerkleBit

/-! ## What is new in a version -/

namespace MerkleBit
open Trie
variable {N : Nat} {σ V : Type}

namespace Trie

/-- The branches above the leaf of `k`. -/
def above (k : Arr N) : Trie N → List (Trie N)
  | leaf _ _ => []
  | node l r => node l r :: (if k ∈ l.keys then l.above k else r.above k)

theorem above_length (k : Arr N) (t : Trie N) : (t.above k).length ≤ t.height := by
  induction t with
  | leaf => simp [above]
  | node l r ihl ihr =>
    simp only [above, List.length_cons, height]
    split <;> omega

theorem mem_above {k : Arr N} {a b : Trie N} (hk : k ∈ (node a b).keys) : ∀ {t : Trie N}, t.WF →
    (node a b).Sub t → node a b ∈ t.above k
  | leaf _ _, _, hs => by simp [Sub] at hs
  | node l r, hwf, hs => by
    simp only [above, List.mem_cons]
    rcases hs with hs | hs | hs
    · exact .inl hs
    · have : k ∈ l.keys := (hs.entries.map _).subset hk
      rw [if_pos this]
      exact .inr (mem_above hk hwf.1 hs)
    · have hr : k ∈ r.keys := (hs.entries.map _).subset hk
      have : k ∉ l.keys := by
        intro hl
        have := hwf.sorted
        rw [keys_node] at this
        exact Arr.ne_of_lt ((List.pairwise_append.1 this).2.2 k hl k hr) rfl
      rw [if_neg this]
      exact .inr (mem_above hk hwf.2.1 hs)

theorem Sub.of_entry {k : Arr N} {v : List UInt8} : ∀ {t : Trie N}, (k, v) ∈ t.entries →
    (leaf k v).Sub t
  | leaf k' v', h => by
    simp only [Trie.entries, List.mem_singleton] at h
    cases h
    exact Sub.refl _
  | node l r, h => by
    simp only [Trie.entries, List.mem_append] at h
    rcases h with h | h
    · exact .inr (.inl (of_entry h))
    · exact .inr (.inr (of_entry h))

end Trie

/-- A branch of the new version without keys of the batch is a branch of the old version. -/
theorem sub_of_untouched {cfg : Config N σ V} {T T' : Trie N} (hT : T.WF) (hT' : T'.WF)
    {M : Contents N V} {keys : List (Arr N)} {values : List V} (hlen : keys.length = values.length)
    (hM : Represents cfg T M) (hM' : Represents cfg T' (M.assign keys values)) {u : Trie N}
    (hs : u.Sub T') (hno : ∀ k ∈ keys, k ∉ u.keys) : u.Sub T := by
  have hu := hs.wf hT'
  have hcut := Sub.cuts hT' hs
  have hin : ∀ k ∈ keys, k ∈ T'.keys := by
    intro k hk
    have h1 := hM' k
    obtain ⟨v, hv⟩ : ∃ v, (M.assign keys values) k = some v := by
      unfold Contents.assign
      cases hf : (keys.zip values).find? (fun e => e.1 = k) with
      | some e => exact ⟨_, rfl⟩
      | none =>
        rw [List.find?_eq_none] at hf
        rw [← zip_keys hlen] at hk
        obtain ⟨e, he, rfl⟩ := List.mem_map.1 hk
        exact absurd (by simp) (hf e he)
    rw [hv] at h1
    obtain ⟨b, -, h2⟩ := h1
    exact mem_keys.2 ⟨b, (lookup_eq_some_iff hT').1 h2⟩
  refine Cuts.sub hu hT ?_
  rintro ⟨x, v⟩
  rw [hcut]
  have hx : u.split ≤ firstDiff u.key x → T'.lookup x = T.lookup x := by
    intro hd
    have hk : x ∉ keys := by
      intro hk
      obtain ⟨b, hb⟩ := mem_keys.1 (hin x hk)
      exact hno x hk (mem_keys.2 ⟨b, (hcut (x, b)).2 ⟨hb, hd⟩⟩)
    have h1 := hM x
    have h2 := hM' x
    rw [assign_not_mem M values hk] at h2
    cases hm : M x with
    | none => rw [hm] at h1 h2; rw [show T.lookup x = none from h1, show T'.lookup x = none from h2]
    | some w =>
      rw [hm] at h1 h2
      obtain ⟨b, h3, h4⟩ := h1
      obtain ⟨b', h5, h6⟩ := h2
      rw [h3] at h5
      cases h5
      rw [h4, h6]
  constructor
  · rintro ⟨h1, h2⟩
    rw [← lookup_eq_some_iff hT', hx h2, lookup_eq_some_iff hT] at h1
    exact ⟨h1, h2⟩
  · rintro ⟨h1, h2⟩
    rw [← lookup_eq_some_iff hT, ← hx h2, lookup_eq_some_iff hT'] at h1
    exact ⟨h1, h2⟩

/-- The locations that are new in a version. -/
def newLocs (Hs : Hasher N) (T' : Trie N) (keys : List (Arr N)) : List (Arr N) :=
  keys.flatMap fun k => (match T'.lookup k with
    | some v => [(HIn.data k v).hash Hs, (Trie.leaf k v).loc Hs]
    | none => []) ++ (T'.above k).map (Trie.loc Hs)

theorem newLocs_length (Hs : Hasher N) {T' : Trie N} (hT' : T'.WF) (keys : List (Arr N)) :
    (newLocs Hs T' keys).length ≤ keys.length * (8 * N + 2) := by
  unfold newLocs
  have := hT'.height_le
  induction keys with
  | nil => simp
  | cons k ks ih =>
    simp only [List.flatMap_cons, List.length_append, List.length_cons, List.length_map]
    have h1 := above_length k T'
    have h2 : ((match T'.lookup k with
      | some v => [(HIn.data k v).hash Hs, (Trie.leaf k v).loc Hs]
      | none => []) : List (Arr N)).length ≤ 2 := by split <;> simp
    rw [Nat.succ_mul]
    omega

theorem mem_newLocs {Hs : Hasher N} {T' : Trie N} (hT' : T'.WF) {keys : List (Arr N)}
    {k : Arr N} (hk : k ∈ keys) {x : Arr N}
    (h : (∃ v, (k, v) ∈ T'.entries ∧ (x = (HIn.data k v).hash Hs ∨ x = (Trie.leaf k v).loc Hs)) ∨
      ∃ a b : Trie N, (node a b).Sub T' ∧ k ∈ (node a b).keys ∧ x = (node a b).loc Hs) :
    x ∈ newLocs Hs T' keys := by
  refine List.mem_flatMap.2 ⟨k, hk, List.mem_append.2 ?_⟩
  rcases h with ⟨v, hv, h⟩ | ⟨a, b, hs, hkab, rfl⟩
  · left
    rw [(lookup_eq_some_iff hT').2 hv]
    simpa using h
  · right
    exact List.mem_map_of_mem (mem_above hkab hT' hs)

/-- Everything in a version is new or in the version before. -/
theorem locs_subset {cfg : Config N σ V} {T' : Trie N} (hT' : T'.WF)
    {M : Contents N V} {keys : List (Arr N)} {values : List V} (hlen : keys.length = values.length)
    (hM' : Represents cfg T' (M.assign keys values))
    (hM : M = Contents.empty ∨ ∃ T : Trie N, T.WF ∧ Represents cfg T M) {x : Arr N}
    (hx : x ∈ T'.locs cfg.hasher) :
    x ∈ newLocs cfg.hasher T' keys ∨
      ∃ T : Trie N, T.WF ∧ Represents cfg T M ∧ x ∈ T.locs cfg.hasher := by
  by_cases hnew : x ∈ newLocs cfg.hasher T' keys
  · exact .inl hnew
  right
  obtain ⟨i, hi, rfl⟩ := List.mem_map.1 hx
  -- a subtree of the new version that holds `i` at its root and no key of the batch
  have hsub : ∃ u : Trie N, u.Sub T' ∧ (∀ k ∈ keys, k ∉ u.keys) ∧ i ∈ u.inputs cfg.hasher := by
    rcases mem_inputs.1 hi with ⟨⟨k, v⟩, he, h⟩ | ⟨a, b, hs, rfl⟩
    · refine ⟨.leaf k v, Sub.of_entry he, ?_, by rcases h with rfl | rfl <;> simp [inputs]⟩
      intro k' hk' hmem
      simp only [Trie.keys, Trie.entries, List.map_cons, List.map_nil, List.mem_singleton] at hmem
      subst hmem
      refine hnew (mem_newLocs hT' hk' (.inl ⟨v, he, ?_⟩))
      rcases h with rfl | rfl
      · exact .inl rfl
      · exact .inr rfl
    · refine ⟨node a b, hs, ?_, by simp [inputs]⟩
      intro k hk hmem
      exact hnew (mem_newLocs hT' hk (.inr ⟨a, b, hs, hmem, rfl⟩))
  obtain ⟨u, hs, hno, hiu⟩ := hsub
  rcases hM with rfl | ⟨T, hT, hM⟩
  · exfalso
    obtain ⟨v, hv⟩ := mem_keys.1 u.key_mem
    have h1 := hM' u.key
    rw [assign_not_mem _ _ (fun hk => hno _ hk u.key_mem),
      (lookup_eq_some_iff hT').2 (hs.entries.subset hv)] at h1
    simp [Contents.empty, Encodes] at h1
  · exact ⟨T, hT, hM, List.mem_map_of_mem
      ((sub_of_untouched hT hT' hlen hM hM' hs hno).inputs i hiu)⟩

end MerkleBit
