import Verif.Spec.Lineage
import Verif.Proof.Inclusion
import Verif.Proof.Live
/-! # All returned roots -/

namespace MerkleBit
variable {N : Nat} {σ V : Type}

open Trie

/-! ## Nothing is dropped but keys of the batch -/

theorem trav_keeps {pp : PartitionPoint N} {ks0 : List (Arr N)} : ∀ (t : Trie N) (ks : List (Arr N)),
    ∀ e ∈ t.entries, e.1 ∈ ks0 ∨ e ∈ (trav pp ks0 t ks).flatMap Trie.entries
  | .leaf k v, ks, e, he => by
    simp only [entries, List.mem_singleton] at he
    subst he
    unfold trav
    by_cases h : k ∈ ks0
    · exact .inl h
    · right; simp [h, entries]
  | .node l r, ks, e, he => by
    unfold trav
    split
    · right; simpa using he
    · dsimp only
      rw [List.flatMap_append, List.mem_append]
      simp only [entries, List.mem_append] at he
      rcases he with he | he
      · split
        · right; left; simpa using he
        · rcases trav_keeps l _ e he with h | h
          · exact .inl h
          · exact .inr (.inl h)
      · by_cases hr : (halves pp (firstDiff l.key r.key) (descs l.key (firstDiff l.key r.key) ks)).2 = []
        · rw [if_pos hr]
          right; right; simpa using he
        · rw [if_neg hr]
          rcases trav_keeps r _ e he with h | h
          · exact .inl h
          · exact .inr (.inr h)

theorem trav_size {pp : PartitionPoint N} {ks0 : List (Arr N)} : ∀ (t : Trie N) (ks : List (Arr N)),
    ((trav pp ks0 t ks).flatMap Trie.entries).length ≤ t.size
  | .leaf k v, ks => by
    unfold trav
    split <;> simp [size, entries]
  | .node l r, ks => by
    unfold trav
    split
    · simp [size]
    · dsimp only
      rw [List.flatMap_append, List.length_append]
      have h1 : ∀ ks', ((if ks' = [] then [l] else trav pp ks0 l ks').flatMap Trie.entries).length ≤ l.size := by
        intro ks'
        split
        · simp [size]
        · exact trav_size l ks'
      have h2 : ∀ ks', ((if ks' = [] then [r] else trav pp ks0 r ks').flatMap Trie.entries).length ≤ r.size := by
        intro ks'
        split
        · simp [size]
        · exact trav_size r ks'
      have := Nat.add_le_add
        (h1 (halves pp (firstDiff l.key r.key) (descs l.key (firstDiff l.key r.key) ks)).1)
        (h2 (halves pp (firstDiff l.key r.key) (descs l.key (firstDiff l.key r.key) ks)).2)
      simpa [size, entries] using this

/-! ## Reading along a path -/

section
variable {cfg : Config N σ V} {C : DbContract cfg.db}

theorem readOne_path {k : Arr N} {u : Trie N} {t : Trie N} {n : Nat} (h : PathTo k u t n) :
    ∀ d, d + n ≤ cfg.depth → readOne cfg k t d = readOne cfg k u (d + n) := by
  induction h with
  | here => intro d _; rfl
  | @left l r n h1 h2 _ ih =>
    intro d hd
    rw [readOne, if_neg (by omega), if_neg (by omega), if_neg (by simp [h2]), ih _ (by omega)]
    congr 1; omega
  | @right l r n h1 h2 _ ih =>
    intro d hd
    rw [readOne, if_neg (by omega), if_neg (by omega), if_pos h2, ih _ (by omega)]
    congr 1; omega

/-- A key that is not in the tree is not read. -/
theorem readOne_absent {k : Arr N} : ∀ (t : Trie N) (d : Nat), k ∉ t.keys →
    readOne cfg k t d = .ok none ∨ readOne cfg k t d = .error (.exception "Depth limit exceeded")
  | .leaf k' b, d, h => by
    have hk : k' ≠ k := by rintro rfl; exact h (by simp [keys, entries])
    unfold readOne
    split
    · exact .inr rfl
    · exact .inl rfl
  | .node l r, d, h => by
    rw [keys_node, List.mem_append, not_or] at h
    unfold readOne
    split
    · exact .inr rfl
    · split
      · exact .inl rfl
      · split
        · exact readOne_absent r _ h.2
        · exact readOne_absent l _ h.1

/-- `generate_inclusion_proof` succeeds where `get_one` does. -/
theorem readProof_of_readOne {k : Arr N} {v : V} : ∀ (t : Trie N) (d : Nat),
    readOne cfg k t d = .ok (some v) → ∃ b rest, (k, b) ∈ t.entries ∧ cfg.decode b = .ok v ∧
      readProof cfg k t d = .ok ((dataLoc cfg.hasher k b, false) ::
        ((Trie.leaf k b).loc cfg.hasher, false) :: rest) ∧
      foldProof cfg.hasher N ((Trie.leaf k b).loc cfg.hasher) rest = t.loc cfg.hasher
  | .leaf k' b, d, h => by
    unfold readOne at h
    split at h
    · cases h
    · next h1 =>
      split at h
      · cases h
      · next hk =>
        simp only [ne_eq, Decidable.not_not] at hk
        subst hk
        split at h
        · cases h
        · next h2 =>
          cases hb : cfg.decode b with
          | error e => rw [hb] at h; cases h
          | ok x =>
            rw [hb] at h
            cases h
            refine ⟨b, [], by simp [entries], hb, ?_, rfl⟩
            unfold readProof
            rw [if_neg h1, if_neg (by simp), if_neg h2]
  | .node l r, d, h => by
    unfold readOne at h
    unfold readProof
    split at h
    · cases h
    · next h1 =>
      split at h
      · cases h
      · next h2 =>
        rw [if_neg h1, if_neg h2]
        split at h
        · next h3 =>
          rw [if_pos h3]
          obtain ⟨b, rest, k1, k2, k3, k4⟩ := readProof_of_readOne r _ h
          refine ⟨b, rest ++ [(l.loc cfg.hasher, false)], by simp [entries, k1], k2, ?_, ?_⟩
          · rw [k3]; rfl
          · rw [foldProof_append, k4]; rfl
        · next h3 =>
          rw [if_neg h3]
          obtain ⟨b, rest, k1, k2, k3, k4⟩ := readProof_of_readOne l _ h
          refine ⟨b, rest ++ [(r.loc cfg.hasher, true)], by simp [entries, k1], k2, ?_, ?_⟩
          · rw [k3]; rfl
          · rw [foldProof_append, k4]; rfl

/-- A generated proof is for a pair of the tree and hashes to its root. -/
theorem readProof_ok {k : Arr N} : ∀ (t : Trie N) (d : Nat) {p : List (Arr N × Bool)},
    readProof cfg k t d = .ok p → ∃ b rest, (k, b) ∈ t.entries ∧
      p = (dataLoc cfg.hasher k b, false) :: ((Trie.leaf k b).loc cfg.hasher, false) :: rest ∧
      foldProof cfg.hasher N ((Trie.leaf k b).loc cfg.hasher) rest = t.loc cfg.hasher ∧
      ((∃ v, cfg.decode b = .ok v ∧ readOne cfg k t d = .ok (some v)) ∨
        ∃ e, cfg.decode b = .error e)
  | .leaf k' b, d, p, h => by
    unfold readProof at h
    unfold readOne
    split at h
    · cases h
    · next h1 =>
      split at h
      · cases h
      · next hk =>
        simp only [ne_eq, Decidable.not_not] at hk
        subst hk
        split at h
        · cases h
        · next h2 =>
          cases h
          refine ⟨b, [], by simp [entries], rfl, rfl, ?_⟩
          rw [if_neg h1, if_neg (by simp), if_neg h2]
          cases hb : cfg.decode b with
          | ok x => exact .inl ⟨x, rfl, rfl⟩
          | error e => exact .inr ⟨e, rfl⟩
  | .node l r, d, p, h => by
    unfold readProof at h
    unfold readOne
    split at h
    · cases h
    · next h1 =>
      split at h
      · cases h
      · next h2 =>
        rw [if_neg h1, if_neg h2]
        split at h
        · next h3 =>
          rw [if_pos h3]
          cases hr : readProof cfg k r (d + 1) with
          | error e => rw [hr] at h; cases h
          | ok q =>
            rw [hr] at h
            cases h
            obtain ⟨b, rest, k1, rfl, k3, k4⟩ := readProof_ok r _ hr
            exact ⟨b, rest ++ [(l.loc cfg.hasher, false)], by simp [entries, k1], rfl,
              by rw [foldProof_append, k3]; rfl, k4⟩
        · next h3 =>
          rw [if_neg h3]
          cases hr : readProof cfg k l (d + 1) with
          | error e => rw [hr] at h; cases h
          | ok q =>
            rw [hr] at h
            cases h
            obtain ⟨b, rest, k1, rfl, k3, k4⟩ := readProof_ok l _ hr
            exact ⟨b, rest ++ [(r.loc cfg.hasher, true)], by simp [entries, k1], rfl,
              by rw [foldProof_append, k3]; rfl, k4⟩

/-- What hashes to the root is a pair of the tree. -/
theorem fold_mem {H : Hasher N} {U : HIn N → Prop} (hU : CollisionFree H U) {k : Arr N}
    {v : List UInt8} (hk : ∀ i ∈ (Trie.leaf k v).inputs H, U i) :
    ∀ (p : List (Arr N × Bool)) {t : Trie N}, (∀ i ∈ t.inputs H, U i) →
      (∀ i ∈ foldInputs H ((Trie.leaf k v).loc H) p, U i) →
      foldProof H N ((Trie.leaf k v).loc H) p = t.loc H → (k, v) ∈ t.entries := by
  intro p
  induction p using List.reverseRecOn with
  | nil =>
    intro t ht _ h
    have := eq_of_loc hU hk ht h
    subst this
    simp [entries]
  | append_singleton p e ih =>
    intro t ht hp h
    rw [foldInputs_append] at hp
    rw [foldProof_append] at h
    obtain ⟨x, b⟩ := e
    generalize hc : foldProof H N ((Trie.leaf k v).loc H) p = c at hp h
    have hp1 : ∀ i ∈ foldInputs H ((Trie.leaf k v).loc H) p, U i :=
      fun i hi => hp i (List.mem_append_left _ hi)
    cases b with
    | true =>
      have hin : U (.branch c x) := hp _ (List.mem_append_right _ (by simp [foldInputs]))
      have := hU _ _ hin (ht _ (rootIn_mem H t)) (h.trans (loc_eq H t))
      cases t with
      | leaf k' v' => simp [rootIn] at this
      | node l r =>
        simp only [rootIn, HIn.branch.injEq] at this
        obtain ⟨rfl, rfl⟩ := this
        have h1 := ih (fun i hi => ht i (by simp [inputs, hi])) hp1 hc
        simp [entries, h1]
    | false =>
      have hin : U (.branch x c) := hp _ (List.mem_append_right _ (by simp [foldInputs]))
      have := hU _ _ hin (ht _ (rootIn_mem H t)) (h.trans (loc_eq H t))
      cases t with
      | leaf k' v' => simp [rootIn] at this
      | node l r =>
        simp only [rootIn, HIn.branch.injEq] at this
        obtain ⟨rfl, rfl⟩ := this
        have h1 := ih (fun i hi => ht i (by simp [inputs, hi])) hp1 hc
        simp [entries, h1]

/-! ## `get` -/

theorem visit_mem {pp : PartitionPoint N} : ∀ (t : Trie N) (ks : List (Arr N)),
    ∀ e ∈ visit pp t ks, e ∈ t.entries
  | .leaf k v, _, e, he => by simpa [visit, entries] using he
  | .node l r, ks, e, he => by
    unfold visit at he
    split at he
    · simp at he
    · dsimp only at he
      rw [List.mem_append] at he
      simp only [entries, List.mem_append]
      rcases he with he | he
      · left
        split at he
        · simp at he
        · exact visit_mem l _ e he
      · right
        split at he
        · simp at he
        · exact visit_mem r _ e he

theorem descs_one_nil (hN : 0 < N) {k b : Arr N} {i : Nat} (hi : i ≤ 8 * N) (h : ¬ i ≤ firstDiff k b) :
    descs b i [k] = [] := by
  obtain ⟨m, h1, h2⟩ := descs_single hN k b hi
  unfold descs
  rw [h1]
  dsimp only
  rw [h2, if_neg h]

/-- A `get` of one key answers what `get_one` answers. -/
theorem readMany_single (hN : 0 < N) (hpp : cfg.pp.Lawful) {k : Arr N} {o : Option V} :
    ∀ (t : Trie N) (d : Nat), t.Norm → (∀ e ∈ t.entries, ∃ x, cfg.decode e.2 = .ok x) →
      readOne cfg k t d = .ok o → ∀ m : AMap (Arr N) (Option V), m.get? k = some none →
      ∃ m', readMany cfg [k] t [k] d m = .ok m' ∧ m'.get? k = some o
  | .leaf k' b, d, _, hdec, h, m, hm => by
    obtain ⟨x, hx⟩ := hdec (k', b) (by simp [entries])
    unfold readOne at h
    unfold readMany
    split at h
    · cases h
    · next h1 =>
      rw [if_neg h1, hx]
      dsimp only
      split at h
      · next hk =>
        cases h
        rw [if_neg (by simpa using hk)]
        exact ⟨m, rfl, hm⟩
      · next hk =>
        simp only [ne_eq, Decidable.not_not] at hk
        subst hk
        split at h
        · cases h
        · rw [hx] at h
          cases h
          rw [if_pos (by simp)]
          exact ⟨_, rfl, by simp [AMap.get?_insert]⟩
  | .node l r, d, hn, hdec, h, m, hm => by
    have hsp : firstDiff l.key r.key < 8 * N := (Arr.lt_bits hn.2.2).1
    unfold readOne at h
    unfold readMany
    split at h
    · cases h
    · next h1 =>
      rw [if_neg h1]
      split at h
      · next h2 =>
        cases h
        rw [descs_one_nil hN (by omega) (by omega), if_pos rfl]
        exact ⟨m, rfl, hm⟩
      · next h2 =>
        rw [descs_one hN (by omega) (by omega), if_neg (by simp), halves_single hpp hsp]
        split at h
        · next h3 =>
          rw [if_pos h3]
          simp only [if_true, List.cons_ne_nil, if_false]
          exact readMany_single hN hpp r _ hn.2.1 (fun e he => hdec e (by simp [entries, he])) h m hm
        · next h3 =>
          rw [if_neg h3]
          simp only [if_true, List.cons_ne_nil, if_false]
          obtain ⟨m', h4, h5⟩ :=
            readMany_single hN hpp l _ hn.1 (fun e he => hdec e (by simp [entries, he])) h m hm
          rw [h4]
          exact ⟨m', rfl, h5⟩

/-! ## The invariant -/

/-- The tree under `r` holds keys and values of the lineage, and all its keys; it has no more pairs. -/
def Holds (cfg : Config N σ V) (v : View N) (r : Arr N) (ℓ : Lineage N V) : Prop :=
  ∃ T : Trie N, T.loc cfg.hasher = r ∧ T.Norm ∧ Stored cfg.hasher v T ∧
    (∀ e ∈ T.entries, ∃ x, (e.1, x) ∈ ℓ ∧ cfg.encode x = .ok e.2) ∧
    (∀ e ∈ ℓ, e.1 ∈ T.keys) ∧ T.size ≤ ℓ.length

theorem Holds.mono {v v' : View N} (h : v.Ext v') {r : Arr N} {ℓ : Lineage N V}
    (hr : Holds cfg v r ℓ) : Holds cfg v' r ℓ := by
  obtain ⟨T, h1, h2, h3, h4⟩ := hr
  exact ⟨T, h1, h2, h3.mono h, h4⟩

variable {U : HIn N → Prop}

/-- The batch in a tree put together from it and other trees. -/
theorem assembled_pairs {pt : Option (Trie N)} {keys : List (Arr N)}
    {values : List V} {ts : List (Trie N)} {T : Trie N} (hlen : keys.length = values.length)
    (hall : ∀ k ∈ keys, encodedOf cfg (valueMap keys values) k = .ok (encOf cfg keys values k))
    (hp : ts.Perm (blocksOf cfg.pp (sortKeys keys) (encOf cfg keys values) pt))
    (hasm : Assembled ts T) :
    keys.Nodup ∧ (∀ e ∈ keys.zip values, cfg.encode e.2 = .ok (encOf cfg keys values e.1)) ∧
    (∀ e ∈ keys.zip values, Trie.leaf e.1 (encOf cfg keys values e.1) ∈ ts) ∧
    ∀ e ∈ keys.zip values, ∃ b, cfg.encode e.2 = .ok b ∧ ∃ n ≤ 8 * N, PathTo e.1 (.leaf e.1 b) T n := by
  have hleaf : (leaves (sortKeys keys) (encOf cfg keys values)).map Trie.key = sortKeys keys := by
    simp [leaves, Function.comp_def, Trie.key]
  have hnd : keys.Nodup := by
    have h1 : (ts.map Trie.key).Nodup := hasm.sorted.imp Arr.ne_of_lt
    have h2 := ((hp.map _).nodup_iff).1 h1
    have h3 : ((leaves (sortKeys keys) (encOf cfg keys values)).map Trie.key).Nodup := by
      cases pt with
      | none => exact h2
      | some T =>
        simp only [blocksOf, List.map_append] at h2
        exact h2.of_append_left
    rw [hleaf] at h3
    exact (sortKeys_perm keys).nodup_iff.1 h3
  -- the encoding of an assigned value
  have henc : ∀ e ∈ keys.zip values, cfg.encode e.2 = .ok (encOf cfg keys values e.1) := by
    intro e he
    have h3 := hall e.1 (List.of_mem_zip he).1
    have hf : (keys.zip values).find? (fun x => x.1 = e.1) = some e := by
      rcases hf : (keys.zip values).find? (fun x => x.1 = e.1) with _ | x
      · rw [List.find?_eq_none] at hf
        exact absurd (by simp) (hf e he)
      · have h4 := List.find?_some hf
        have h5 := List.mem_of_find?_eq_some hf
        simp only [decide_eq_true_eq] at h4
        have : ((keys.zip values).map Prod.fst).Nodup := by rw [zip_keys hlen]; exact hnd
        rw [hf, List.inj_on_of_nodup_map this h5 he h4]
    have h4 : (valueMap keys values).get? e.1 = some e.2 := by
      rw [valueMap_get, find?_reverse (by rw [zip_keys hlen]; exact hnd), hf]
      rfl
    unfold encodedOf at h3
    rw [h4] at h3
    exact h3
  have hleafmem : ∀ e ∈ keys.zip values,
      Trie.leaf e.1 (encOf cfg keys values e.1) ∈ ts := by
    intro e he
    rw [hp.mem_iff]
    have : Trie.leaf e.1 (encOf cfg keys values e.1) ∈
        leaves (sortKeys keys) (encOf cfg keys values) :=
      List.mem_map.2 ⟨e.1, (sortKeys_perm keys).mem_iff.2 (List.of_mem_zip he).1, rfl⟩
    cases pt with
    | none => exact this
    | some T => exact List.mem_append_left _ this
  exact ⟨hnd, henc, hleafmem, fun e he => ⟨_, henc e he, hasm.path _ (hleafmem e he)⟩⟩

/-- A tree put together from a batch and parts of a tree with a known lineage. -/
theorem assembled_lineage {pt : Option (Trie N)} {ℓ : Lineage N V} {keys : List (Arr N)}
    {values : List V} {ts : List (Trie N)} {T : Trie N} (hlen : keys.length = values.length)
    (hall : ∀ k ∈ keys, encodedOf cfg (valueMap keys values) k = .ok (encOf cfg keys values k))
    (hpt : ∀ P, pt = some P → (∀ e ∈ P.entries, ∃ x, (e.1, x) ∈ ℓ ∧ cfg.encode x = .ok e.2) ∧
      P.size ≤ ℓ.length)
    (hkeys : ∀ e ∈ ℓ, ∃ P, pt = some P ∧ e.1 ∈ P.keys)
    (hp : ts.Perm (blocksOf cfg.pp (sortKeys keys) (encOf cfg keys values) pt))
    (hasm : Assembled ts T) :
    keys.Nodup ∧
    (∀ e ∈ T.entries, ∃ x, (e.1, x) ∈ keys.zip values ++ ℓ ∧ cfg.encode x = .ok e.2) ∧
    (∀ e ∈ keys.zip values ++ ℓ, e.1 ∈ T.keys) ∧ T.size ≤ (keys.zip values ++ ℓ).length ∧
    ∀ e ∈ keys.zip values, ∃ b, cfg.encode e.2 = .ok b ∧ ∃ n ≤ 8 * N, PathTo e.1 (.leaf e.1 b) T n := by
  obtain ⟨hnd, henc, hleafmem, -⟩ := assembled_pairs hlen hall hp hasm
  refine ⟨hnd, ?_, ?_, ?_, ?_⟩
  · intro e he
    rw [assembled_entries hp hasm] at he
    obtain ⟨u, hu, heu⟩ := List.mem_flatMap.1 he
    have hl : u ∈ leaves (sortKeys keys) (encOf cfg keys values) →
        ∃ x, (e.1, x) ∈ keys.zip values ++ ℓ ∧ cfg.encode x = .ok e.2 := by
      intro hu
      obtain ⟨k, hk, rfl⟩ := List.mem_map.1 hu
      simp only [Trie.entries, List.mem_singleton] at heu
      subst heu
      rw [(sortKeys_perm keys).mem_iff, ← zip_keys hlen] at hk
      obtain ⟨x, hx, rfl⟩ := List.mem_map.1 hk
      exact ⟨x.2, List.mem_append_left _ hx, henc x hx⟩
    cases pt with
    | none => exact hl hu
    | some P =>
      simp only [blocksOf, List.mem_append] at hu
      rcases hu with hu | hu
      · exact hl hu
      · obtain ⟨x, h1, h2⟩ := (hpt P rfl).1 e ((trav_sub P _ u hu).entries.subset heu)
        exact ⟨x, List.mem_append_right _ h1, h2⟩
  · intro e he
    have hk : e.1 ∈ keys → e.1 ∈ T.keys := by
      intro hk
      rw [← zip_keys hlen] at hk
      obtain ⟨x, hx, hxe⟩ := List.mem_map.1 hk
      have := (hasm.sub _ (hleafmem x hx)).entries.subset
        (show (x.1, encOf cfg keys values x.1) ∈ _ by simp [Trie.entries])
      rw [← hxe]
      exact List.mem_map_of_mem (f := Prod.fst) this
    rcases List.mem_append.1 he with he | he
    · exact hk (List.of_mem_zip he).1
    · obtain ⟨P, rfl, hP⟩ := hkeys e he
      obtain ⟨x, hx, hxe⟩ := List.mem_map.1 hP
      rcases trav_keeps (pp := cfg.pp) (ks0 := sortKeys keys) P (sortKeys keys) x hx with h | h
      · exact hk ((sortKeys_perm keys).mem_iff.1 (hxe ▸ h))
      · rw [← hxe]
        refine List.mem_map_of_mem (f := Prod.fst) ((assembled_entries hp hasm x).2 ?_)
        simp only [blocksOf, List.flatMap_append, List.mem_append]
        exact .inr h
  · rw [size, hasm.entries, (hp.flatMap_right _).length_eq, List.length_append]
    have h1 : ((leaves (sortKeys keys) (encOf cfg keys values)).flatMap Trie.entries).length =
        (keys.zip values).length := by
      rw [List.length_zip, ← hlen, Nat.min_self, ← (sortKeys_perm keys).length_eq]
      simp [leaves, List.flatMap_map, entries]
    cases pt with
    | none => simp only [blocksOf, h1]; omega
    | some P =>
      have h2 := trav_size (pp := cfg.pp) (ks0 := sortKeys keys) P (sortKeys keys)
      have h3 := (hpt P rfl).2
      simp only [blocksOf, List.flatMap_append, List.length_append, h1]
      omega
  · intro e he
    exact ⟨_, henc e he, hasm.path _ (hleafmem e he)⟩

/-- An insert on top of a root with a known lineage. -/
theorem insert_holds (hN : 0 < N) (hpp : cfg.pp.Lawful) (hU : CollisionFree cfg.hasher U)
    {s0 : σ} {prev : Option (Arr N)} {ℓ : Lineage N V} {keys : List (Arr N)} {values : List V}
    (hin : ∀ i ∈ hashedBy cfg prev keys values s0, U i) (hsound : Sound C U s0)
    (hprev : match prev with
      | none => ℓ = []
      | some r => Holds cfg (C.view s0) r ℓ) :
    Ends C (fun _ => True) (insert cfg prev keys values) s0
      (fun r s => keys.Nodup ∧ Holds cfg (C.view s) r (keys.zip values ++ ℓ) ∧
        (∃ T : Trie N, T.loc cfg.hasher = r ∧ T.Norm ∧ Stored cfg.hasher (C.view s) T ∧
          ∀ e ∈ keys.zip values, ∃ b, cfg.encode e.2 = .ok b ∧
            ∃ n ≤ 8 * N, PathTo e.1 (.leaf e.1 b) T n) ∧
        Inv C.toG U (C.view s0) s) (Inv C.toG U (C.view s0)) := by
  have start := hsound.inv
  by_cases hlen : keys.length = values.length
  swap
  · unfold insert Ends
    rw [if_pos hlen]
    exact ⟨.inl ⟨trivial, id⟩, start⟩
  by_cases hne : keys = []
  · unfold insert Ends
    rw [if_neg (by simpa using hlen), if_pos (by simp [hne])]
    exact ⟨.inl ⟨trivial, id⟩, start⟩
  obtain ⟨pt, rfl, hpt, hkeys⟩ : ∃ pt : Option (Trie N), prev = pt.map (·.loc cfg.hasher) ∧
      (∀ T, pt = some T → T.Norm ∧ Stored cfg.hasher (C.view s0) T ∧
        (∀ e ∈ T.entries, ∃ x, (e.1, x) ∈ ℓ ∧ cfg.encode x = .ok e.2) ∧ T.size ≤ ℓ.length) ∧
      ∀ e ∈ ℓ, ∃ T, pt = some T ∧ e.1 ∈ T.keys := by
    cases prev with
    | none =>
      simp only at hprev
      subst hprev
      exact ⟨none, rfl, by simp, by simp⟩
    | some r =>
      obtain ⟨T, rfl, h2, h3, h4, h5, h6⟩ := hprev
      exact ⟨some T, rfl, by rintro _ ⟨⟩; exact ⟨h2, h3, h4, h6⟩, fun e he => ⟨T, rfl, h5 e he⟩⟩
  have hptU : ∀ T, pt = some T → ∀ i ∈ T.inputs cfg.hasher, U i :=
    fun T hT => ((hpt T hT).2.1.honest hU hsound.view).2
  refine ends_of_guard (C := C) hin (triple_conseq (insert_blocks (cfg := gcfg U cfg)
    (C := C.guard U) (v0 := C.view s0) (Ex := fun _ => True)
    (f := encOf cfg keys values) (prev := pt) hN hpp hU (guardDb_guards U cfg.db) hlen hne
    ?_ ?_ ?_ (fun _ => trivial)) (fun _ h => h) ?_ (fun _ h => h.plain)) start.guard
  · intro k hk
    rcases encodedOf_cases cfg hlen hk with ⟨h1, _⟩ | ⟨v, hv, e, h1, h2⟩
    · exact .inl h1
    · exact .inr ⟨e, h2, trivial⟩
  · intro k hk hok
    rcases encodedOf_cases cfg hlen hk with ⟨_, h⟩ | ⟨v, _, e, _, h⟩
    · exact hin _ (mem_hashedBy h _ (by simp [Trie.inputs]))
    · exact absurd (hok.symm.trans h) (by simp)
  · intro T hT
    exact ⟨(hpt T hT).1, .inl (hpt T hT).2.1, hptU T hT, .inr trivial⟩
  · rintro r s ⟨hall, ts, T, hp, hasm, rfl, hi, hst, -⟩
    obtain ⟨hnd, h1, h2, h3, h4⟩ := assembled_lineage (cfg := cfg) (pt := pt) (ℓ := ℓ) hlen hall
      (fun P hP => (hpt P hP).2.2) hkeys hp hasm
    have hn := assembled_norm (fun T hT => (hpt T hT).1) hp hasm
    exact ⟨hnd, ⟨T, rfl, hn, hst, h1, h2, h3⟩, ⟨T, rfl, hn, hst, h4⟩, hi.plain⟩

/-- The invariant of histories with lineages. -/
theorem roots_inv (hN : 0 < N) (hpp : cfg.pp.Lawful) {H : List (HIn N)} {L : Lineages N V} {s : σ}
    (h : Roots cfg C H L s) : CollisionFree cfg.hasher (Among H) →
    Sound C (Among H) s ∧ ∀ e ∈ L, Holds cfg (C.view s) e.1 e.2 := by
  induction h with
  | start h1 h2 =>
    intro _
    refine ⟨⟨?_, ?_, ?_, ?_, ?_⟩, by simp⟩
    · exact (congrArg (Honest cfg.hasher _) h1).mpr (Honest.empty _ _)
    · exact (congrArg (Honest cfg.hasher _) h2).mpr (Honest.empty _ _)
    · exact (congrArg (View.Ext _) h1).mpr (View.Ext.refl _)
    · exact (congrArg Closed h1).mpr Closed.empty
    · rw [settled_of_pending_empty (C := C.toG) h2]
      exact (congrArg Closed h1).mpr Closed.empty
  | @anyAt d H L s s' prev keys values res _ hrun ih =>
    intro hU
    have hsub : ∀ i, Among H i → Among (hashedBy (cfg.withDepth d) prev keys values s ++ H) i :=
      fun i hi => List.mem_append_right _ hi
    obtain ⟨hs, hL⟩ := ih (hU.mono hsub)
    have := insert_any (cfg := cfg.withDepth d) (C := C) hN hpp hU prev keys values (s := s)
      (fun i hi => List.mem_append_left _ hi) ((hs.inv.mono hsub).toDepth d)
    unfold Ends at this
    rw [hrun] at this
    cases res with
    | ok r =>
      obtain ⟨-, -, -, hi⟩ := this
      replace hi := hi.ofDepth
      exact ⟨hi.sound, fun e he => (hL e he).mono hi.ext⟩
    | error e =>
      have hi := this.2.ofDepth
      exact ⟨hi.sound, fun e he => (hL e he).mono hi.ext⟩
  | @extendAt d H L s s' prev ℓ keys values r _ hprev hrun ih =>
    intro hU
    have hsub : ∀ i, Among H i → Among (hashedBy (cfg.withDepth d) prev keys values s ++ H) i :=
      fun i hi => List.mem_append_right _ hi
    obtain ⟨hs, hL⟩ := ih (hU.mono hsub)
    have := insert_holds (cfg := cfg.withDepth d) (C := C) hN hpp hU (s0 := s) (ℓ := ℓ) (keys := keys) (values := values)
      (fun i hi => List.mem_append_left _ hi) ((hs.inv.mono hsub).toDepth d).sound (by
        cases prev with
        | none => exact hprev
        | some r => exact hL _ hprev)
    unfold Ends at this
    rw [hrun] at this
    obtain ⟨-, -, hv, -, hi⟩ := this
    replace hi := hi.ofDepth
    refine ⟨hi.sound, ?_⟩
    intro e he
    rcases List.mem_cons.1 he with rfl | he
    · exact hv
    · exact (hL e he).mono hi.ext
  | @crashAt d H L s s' n n' prev keys values e _ hrun ih =>
    intro hU
    have hsub : ∀ i, Among H i → Among (hashedBy (cfg.withDepth d).crash prev keys values (s, n) ++ H) i :=
      fun i hi => List.mem_append_right _ hi
    obtain ⟨hs, hL⟩ := ih (hU.mono hsub)
    have := insert_any (cfg := (cfg.withDepth d).crash) (C := C.crash) hN hpp hU prev keys values (s := (s, n))
      (fun i hi => List.mem_append_left _ hi) ((hs.inv.mono hsub).toDepth d).toCrash
    unfold Ends at this
    rw [hrun] at this
    have hi := (Inv.ofCrash (cfg := cfg.withDepth d) (C := C) this.2).ofDepth
    exact ⟨hi.sound, fun e he => (hL e he).mono hi.ext⟩
  | @reopen H L s s' _ h1 h2 ih =>
    intro hU
    obtain ⟨hs, hL⟩ := ih hU
    refine ⟨hs.same h1 (.inr h2), ?_⟩
    rw [h1]; exact hL

end
end MerkleBit
