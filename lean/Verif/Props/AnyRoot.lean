import Verif.Spec.AnyRoot
import Verif.Props.Reference
import Verif.Props.Leftover
/-!
# C91: what is read under any root whatsoever
-/

namespace MerkleBit
open Trie
variable {N : Nat} {σ V : Type} {cfg : Config N σ V} {C : DbContract cfg.db} {H : List (HIn N)} {L : Ledger N V} {s : σ}

/-- A version reads as its contents. -/
theorem version_reads (hc : Sane cfg) (hroom : cfg.Room) (hs : C.alive s) {r : Arr N} {P : Contents N V}
    (hd : HeightBelow P cfg.depth) (hv : IsVersion cfg (C.view s) r P) : Tells cfg s r P where
  one k := (version_getOne (C := C) hc.pos hc.codec hd hv k).alive hs
  many keys hclear := by
    obtain ⟨m, h1, h2, -, h4⟩ := version_get (C := C) hc.pos hc.pp hc.codec hd.succ hv keys
    refine ⟨m, h1.alive hs, fun k => ?_⟩
    split
    · next hk => exact (h4 k hk).2 (.inr (handled_of_clear hc hclear k hk))
    · next hk => exact h2 k hk
  proved k v hk := by
    obtain ⟨p, h1, h2⟩ := version_proof (C := C) hc.pos hd hv hk
    exact ⟨p, (generateInclusionProof_room hroom).trans (h1.alive hs), h2⟩
  unproved k hk := by
    obtain ⟨msg, hm⟩ := version_no_proof (C := C) hc.pos hv hk
    exact ⟨msg, (generateInclusionProof_room hroom).trans hm⟩

/-- Where nothing is stored nothing is read. -/
theorem nothing_reads (hroom : cfg.Room) (hs : C.alive s) {r : Arr N} (hr : C.view s r = none) :
    Tells cfg s r (Contents.empty (V := V)) := by
  obtain ⟨h1, h2, h3⟩ := C45_unknown_root_reads_nothing (cfg := cfg) C hs hr
  exact ⟨h1, fun keys _ => h2 keys, fun _ _ h => (by cases h), fun k _ => h3 hroom k⟩

/-- Under the place of data all reads are refused. -/
theorem data_reads (hroom : cfg.Room) (hs : C.alive s) {r : Arr N} {n : Node N} {d : Data} (hr : C.view s r = some n)
    (hn : n.variant = .data d) : ReadsFail cfg s r where
  one k := ⟨"Corrupt Merkle Tree", by simp [getOne, getOneLoop, alive_get hs, hr, hn]⟩
  many keys hk := ⟨"Corrupt merkle tree: Found data node while traversing tree", by
    simp [get, hk, alive_get hs, hr, traversalFuel, getLoop, hn]⟩
  unproved k := ⟨"Corrupt Merkle Tree", (generateInclusionProof_room hroom).trans (by
    simp [inclusionProof, proofLoop, alive_get hs, hr, hn])⟩

/-- What is known of a database with live versions and references that are left over. -/
structure Inventory (cfg : Config N σ V) (C : DbContract cfg.db) (U : HIn N → Prop) (L : Ledger N V) (P : List (Item N))
    (s : σ) : Prop where
  versions : ∀ e ∈ L, ∃ T, Accounted cfg U e T
  left : ∀ i ∈ P, i.Ok cfg.hasher U ∧ ∀ l r, i ≠ .tree (.node l r)
  acct : Acct cfg.hasher U True (C.view s) (L.map Prod.fst ++ P.map (Item.loc cfg.hasher))
  leaf : ∀ k b, .tree (.leaf k b) ∈ P → .data k b ∈ P
  value : ∀ k b, .data k b ∈ P → ∃ v, cfg.encode v = .ok b

theorem Uses.holdsIn (hc : Sane cfg) {U : HIn N → Prop} (h : Uses cfg C True H L s) (hcf : CollisionFree cfg.hasher U)
    (hH : ∀ i ∈ H, U i) : Inventory cfg C U L [] s := by
  obtain ⟨hacc, ha⟩ := uses_acct hc.pos hc.pp hc.codec h U hcf hH
  exact ⟨hacc, by simp, by simpa using ha, by simp, by simp⟩

theorem Uses.holds (hc : Sane cfg) (h : Uses cfg C True H L s) (hcf : CollisionFree cfg.hasher (Among H)) :
    Inventory cfg C (Among H) L [] s := h.holdsIn hc hcf (fun _ hi => hi)

theorem left_value {shows : Bool} {P : List (Item N)} {M : Contents N V} {keys : List (Arr N)} {values : List V} {k : Arr N}
    {b : List UInt8} (h : .data k b ∈ leftBy cfg shows L P M keys values) : ∃ v, cfg.encode v = .ok b := by
  unfold leftBy at h
  obtain ⟨e, he, h⟩ := List.mem_flatMap.1 h
  obtain ⟨v, -, hv⟩ := encodedPairs_encode (k := e.1) (b := e.2) he
  rcases List.mem_append.1 h with h | h
  · split at h
    · simp only [List.mem_singleton, Item.data.injEq] at h
      exact ⟨v, h.2 ▸ hv⟩
    · cases h
  · split at h
    · simp at h
    · cases h

theorem Keeps.value {shows : Bool} {P : List (Item N)} (h : Keeps cfg C shows H L P s) {k : Arr N} {b : List UInt8}
    (hk : .data k b ∈ P) : ∃ v, cfg.encode v = .ok b := by
  induction h with
  | start => simp at hk
  | insertAt _ _ _ ih =>
    rcases List.mem_append.1 hk with hk | hk
    · exact left_value hk
    · exact ih hk
  | remove _ _ ih => exact ih hk
  | reopen _ _ _ ih => exact ih hk

theorem Keeps.holdsIn {shows : Bool} {P : List (Item N)} {U : HIn N → Prop} (hc : Sane cfg) (hsh : WritesShow C shows)
    (h : Keeps cfg C shows H L P s) (hcf : CollisionFree cfg.hasher U) (hH : ∀ i ∈ H, U i) : Inventory cfg C U L P s := by
  obtain ⟨h1, h2, h3, -⟩ := keeps_acct hc.pos hc.pp hc.codec hsh h U hcf hH
  exact ⟨h1, h2, h3, fun _ _ hk => (h.leaf hk).1, fun _ _ hk => h.value hk⟩

theorem Keeps.holds {shows : Bool} {P : List (Item N)} (hc : Sane cfg) (hsh : WritesShow C shows)
    (h : Keeps cfg C shows H L P s) (hcf : CollisionFree cfg.hasher (Among H)) : Inventory cfg C (Among H) L P s :=
  h.holdsIn hc hsh hcf (fun _ hi => hi)

variable {U : HIn N → Prop} {P : List (Item N)}

theorem Inventory.stored (h : Inventory cfg C U L P s) (hcf : CollisionFree cfg.hasher U) {e : Arr N × Contents N V} (he : e ∈ L)
    {T : Trie N} (hT : Accounted cfg U e T) : Stored cfg.hasher (C.view s) T :=
  h.acct.stored hcf hT.wf.norm hT.inputs (.root (by
    rw [hT.loc]; exact List.mem_append_left _ (List.mem_map_of_mem he)))

/-- What is stored belongs to a live version, the data of one of its pairs or a part of it, or is left over. -/
theorem Inventory.place (h : Inventory cfg C U L P s) (hcf : CollisionFree cfg.hasher U) {x : Arr N} (hx : C.view s x ≠ none) :
    (∃ e ∈ L, ∃ T, Accounted cfg U e T ∧
      ((∃ k b, (k, b) ∈ T.entries ∧ x = dataLoc cfg.hasher k b) ∨ ∃ u : Trie N, u.Sub T ∧ x = u.loc cfg.hasher)) ∨
    (∃ k b, .data k b ∈ P ∧ x = dataLoc cfg.hasher k b) ∨
    ∃ k b, .tree (.leaf k b) ∈ P ∧ x = (Trie.leaf k b).loc cfg.hasher := by
  obtain ⟨n, hn⟩ := Option.ne_none_iff_exists'.1 hx
  have hreach : Reach (childrenOf cfg.hasher U) (L.map Prod.fst ++ P.map (Item.loc cfg.hasher)) x := by
    refine load_pos.1 ?_
    rw [← h.acct.eq trivial x, refsOf_some hn]
    exact (h.acct.honest x n hn).1
  rcases Reach.append.1 hreach with hreach | hreach
  · left
    have hone : ∃ e ∈ L, Reach (childrenOf cfg.hasher U) [e.1] x := by
      clear * - hreach
      induction hreach with
      | root hx =>
        obtain ⟨e, he, rfl⟩ := List.mem_map.1 hx
        exact ⟨e, he, .root List.mem_cons_self⟩
      | child _ hxy ih =>
        obtain ⟨e, he, h⟩ := ih
        exact ⟨e, he, .child h hxy⟩
    obtain ⟨e, he, hr⟩ := hone
    obtain ⟨T, hT⟩ := h.versions e he
    rw [← hT.loc, reach_locs hcf hT.ok] at hr
    obtain ⟨i, hi, rfl⟩ := List.mem_map.1 hr
    refine ⟨e, he, T, hT, ?_⟩
    rcases mem_inputs.1 hi with ⟨p, hp, rfl | rfl⟩ | ⟨a, b, hab, rfl⟩
    · exact .inl ⟨p.1, p.2, hp, rfl⟩
    · exact .inr ⟨.leaf p.1 p.2, Sub.of_entry hp, rfl⟩
    · exact .inr ⟨.node a b, hab, rfl⟩
  · right
    obtain ⟨i, hi, hr⟩ : ∃ i ∈ P, Reach (childrenOf cfg.hasher U) [i.loc cfg.hasher] x := by
      clear * - hreach
      induction hreach with
      | root hx =>
        obtain ⟨e, he, rfl⟩ := List.mem_map.1 hx
        exact ⟨e, he, .root List.mem_cons_self⟩
      | child _ hxy ih =>
        obtain ⟨e, he, h⟩ := ih
        exact ⟨e, he, .child h hxy⟩
    cases i with
    | data k b =>
      rw [Reach.single] at hr
      rcases hr with rfl | hr
      · exact .inl ⟨k, b, hi, rfl⟩
      · rw [Item.loc, childrenOf_data hcf (h.left _ hi).1] at hr
        exact absurd hr Reach.nil
    | tree t => cases t with
      | node l r => exact absurd rfl ((h.left _ hi).2 l r)
      | leaf k b =>
        rw [Item.loc, reach_locs hcf (h.left _ hi).1] at hr
        obtain ⟨i, hi', rfl⟩ := List.mem_map.1 hr
        rcases mem_inputs.1 hi' with ⟨p, hp, rfl | rfl⟩ | ⟨a, c, hab, rfl⟩
        · cases List.mem_singleton.1 hp
          exact .inl ⟨k, b, h.leaf _ _ hi, rfl⟩
        · cases List.mem_singleton.1 hp
          exact .inr ⟨k, b, hi, rfl⟩
        · unfold Trie.Sub at hab
          cases hab

/-- Data that is left over is stored. -/
theorem Inventory.data (h : Inventory cfg C U L P s) (hcf : CollisionFree cfg.hasher U) {k : Arr N} {b : List UInt8}
    (hk : .data k b ∈ P) : ∃ n, C.view s (dataLoc cfg.hasher k b) = some n ∧ n.variant = .data ⟨b⟩ := by
  have hr : Reach (childrenOf cfg.hasher U) (L.map Prod.fst ++ P.map (Item.loc cfg.hasher)) (dataLoc cfg.hasher k b) :=
    .root (List.mem_append_right _ (List.mem_map_of_mem (f := Item.loc cfg.hasher) hk))
  have := load_pos.2 hr
  rw [← h.acct.eq trivial] at this
  cases hx : C.view s (dataLoc cfg.hasher k b) with
  | none => simp [refsOf, hx] at this
  | some n => exact ⟨n, rfl, (h.acct.honest _ n hx).2.unique hcf (h.left _ hk).1.belongs⟩

/-- A leaf that is left over is a version with one pair. -/
theorem Inventory.single (h : Inventory cfg C U L P s) (hcf : CollisionFree cfg.hasher U) {k : Arr N} {b : List UInt8}
    (hk : .tree (.leaf k b) ∈ P) {v : V} (hv : cfg.encode v = .ok b) :
    IsVersion cfg (C.view s) ((Trie.leaf k b).loc cfg.hasher) (Contents.empty.set k v) := by
  refine ⟨.leaf k b, trivial, rfl, h.acct.stored hcf trivial (h.left _ hk).1.2
    (.root (List.mem_append_right _ (List.mem_map_of_mem (f := Item.loc cfg.hasher) hk))), ?_⟩
  intro k'
  unfold Contents.set
  split
  · next he =>
    subst he
    exact ⟨b, hv, by simp [lookup, entries]⟩
  · next he =>
    show (Trie.leaf k b).lookup k' = none
    simp [lookup, entries, Ne.symm he]

/-- The data of a pair of a stored trie is stored. -/
theorem stored_data {T : Trie N} (hst : Stored cfg.hasher (C.view s) T) {k : Arr N} {b : List UInt8}
    (h : (k, b) ∈ T.entries) : ∃ n, C.view s (dataLoc cfg.hasher k b) = some n ∧ n.variant = .data ⟨b⟩ := by
  obtain ⟨-, refs, h⟩ := hst.sub (Sub.of_entry h)
  exact ⟨_, h, rfl⟩

/-- The pairs of a trie are those of the contents. -/
theorem entry_value {T : Trie N} (hwf : T.WF) {M : Contents N V} (hM : Represents cfg T M) {k : Arr N} {b : List UInt8}
    (h : (k, b) ∈ T.entries) : ∃ v, M k = some v ∧ cfg.encode v = .ok b := by
  have := hM k
  rw [(lookup_eq_some_iff hwf).2 h] at this
  cases hk : M k with
  | none => rw [hk] at this; cases this
  | some v =>
    rw [hk] at this
    obtain ⟨b', hb, he⟩ := this
    exact ⟨v, rfl, by rw [hb, Option.some.inj he]⟩

/-- A subtree holds a part of the contents. -/
theorem sub_part {T u : Trie N} (hwf : T.WF) (hu : u.Sub T) {M : Contents N V} (hM : Represents cfg T M) :
    ∃ P : Contents N V, P.PartOf M ∧ P ≠ Contents.empty ∧ Represents cfg u P := by
  have hrep : Represents cfg u (fun k' => if u.split ≤ firstDiff u.key k' then M k' else none) := by
    intro k'
    have hcut := fun v => Sub.cuts hwf hu (k', v)
    dsimp only
    split
    · next hd =>
      have : u.lookup k' = T.lookup k' := by
        apply Option.ext
        intro v
        rw [lookup_eq_some_iff (hu.wf hwf), lookup_eq_some_iff hwf, hcut v]
        exact ⟨fun h => h.1, fun h => ⟨h, hd⟩⟩
      rw [this]
      exact hM k'
    · next hd =>
      show u.lookup k' = none
      cases hl : u.lookup k' with
      | none => rfl
      | some v => exact absurd ((hcut v).1 ((lookup_eq_some_iff (hu.wf hwf)).1 hl)).2 hd
  refine ⟨_, ⟨u.key, u.split, fun _ => rfl⟩, fun he => ?_, hrep⟩
  exact hrep.mem.1 u.key_mem (congrFun he u.key)

/-- A part of the contents is held by a subtree. -/
theorem part_sub {T : Trie N} (hwf : T.WF) {M P : Contents N V} (hM : Represents cfg T M) (hP : P.PartOf M)
    (hne : P ≠ Contents.empty) : ∃ u : Trie N, u.Sub T ∧ Represents cfg u P := by
  obtain ⟨k, d, hp⟩ := hP
  have hent : ∀ k' b, (k', b) ∈ T.entries.filter (fun e => decide (d ≤ firstDiff k e.1)) ↔
      (k', b) ∈ T.entries ∧ d ≤ firstDiff k k' := by
    intro k' b
    simp [List.mem_filter]
  obtain ⟨k0, hk0⟩ : ∃ k0, P k0 ≠ none := by
    by_contra hno
    push Not at hno
    exact hne (funext hno)
  obtain ⟨u, huwf, -, hperm, -⟩ := sparse_trie cfg.hasher (8 * N) (Nat.le_refl _)
    (pairs := T.entries.filter (fun e => decide (d ≤ firstDiff k e.1)))
    ((show T.keys.Nodup from hwf.sorted.imp (fun {a b} h => by rintro rfl; exact Arr.lt_irrefl _ h)).sublist
      (List.filter_sublist.map _))
    (by
      intro he
      rw [hp k0] at hk0
      split at hk0
      · next hd =>
        obtain ⟨v, hv⟩ := Option.ne_none_iff_exists'.1 hk0
        obtain ⟨b, hb, -⟩ := hM.entry hwf hv
        have := (hent k0 b).2 ⟨hb, hd⟩
        rw [he] at this
        cases this
      · exact hk0 rfl)
    (fun _ _ _ _ => by omega)
  have hrep : Represents cfg u P := by
    intro k'
    rw [hp k']
    split
    · next hd =>
      have : u.lookup k' = T.lookup k' := by
        apply Option.ext
        intro v
        rw [lookup_eq_some_iff huwf, lookup_eq_some_iff hwf, ← hperm.mem_iff, hent]
        exact ⟨fun h => h.1, fun h => ⟨h, hd⟩⟩
      rw [this]
      exact hM k'
    · next hd =>
      show u.lookup k' = none
      cases hl : u.lookup k' with
      | none => rfl
      | some v => exact absurd ((hent k' v).1 (hperm.mem_iff.2 ((lookup_eq_some_iff huwf).1 hl))).2 hd
  exact ⟨u, sub_of_partOf huwf hwf hrep hM ⟨k, d, hp⟩, hrep⟩

theorem part_height {M P : Contents N V} {d : Nat} (hd : HeightBelow M d) (hP : P.PartOf M) : HeightBelow P d := by
  obtain ⟨k, j, hp⟩ := hP
  refine hd.subset fun k' hk' => ?_
  rw [hp k'] at hk'
  split at hk'
  · exact hk'
  · exact absurd rfl hk'

theorem single_height {d : Nat} (hd : 0 < d) {k : Arr N} {v : V} : HeightBelow (Contents.empty.set k v) d := by
  have honly : ∀ k', (Contents.empty.set k v) k' ≠ none → k' = k := by
    intro k' hk'
    by_contra hne
    exact hk' (by simp [Contents.set, hne, Contents.empty])
  intro k1 hk1 ps _ hps
  cases ps with
  | nil => exact hd
  | cons p ps =>
    obtain ⟨k2, hk2, hne, -⟩ := hps p List.mem_cons_self
    exact absurd ((honly k2 hk2).trans (honly k1 hk1).symm) hne

theorem height_pos {M : Contents N V} {d : Nat} (h : HeightBelow M d) (hne : M ≠ Contents.empty) : 0 < d := by
  obtain ⟨k0, hk0⟩ : ∃ k0, M k0 ≠ none := by
    by_contra hno
    push Not at hno
    exact hne (funext hno)
  exact h k0 hk0 [] List.nodup_nil (by simp)

/-- The part of a live version, or the pair of a leaf that is left over, that bytes stand for. -/
theorem Inventory.cases (hroom : cfg.Room) (h : Inventory cfg C U L P s) (hs : C.alive s)
    (hcf : CollisionFree cfg.hasher U) (r : Arr N) :
    Tells cfg s r (Contents.empty (V := V)) ∨
    (∃ e ∈ L, ∃ Q : Contents N V, Q.PartOf e.2 ∧ Q ≠ Contents.empty ∧ IsVersion cfg (C.view s) r Q) ∨
    (∃ k v b, .tree (.leaf k b) ∈ P ∧ cfg.encode v = .ok b ∧ IsVersion cfg (C.view s) r (Contents.empty.set k v)) ∨
    ∃ k v b, ((∃ e ∈ L, e.2 k = some v) ∨ .data k b ∈ P) ∧ cfg.encode v = .ok b ∧
      (HIn.data k b).hash cfg.hasher = r ∧ ReadsFail cfg s r := by
  by_cases hx : C.view s r = none
  · exact .inl (nothing_reads hroom hs hx)
  right
  rcases h.place hcf hx with ⟨e, he, T, hT, ⟨k, b, hkb, rfl⟩ | ⟨u, hu, rfl⟩⟩ | ⟨k, b, hk, rfl⟩ | ⟨k, b, hk, rfl⟩
  · obtain ⟨v, hv, hb⟩ := entry_value hT.wf hT.rep hkb
    obtain ⟨n, hn, hn'⟩ := stored_data (h.stored hcf he hT) hkb
    exact .inr (.inr ⟨k, v, b, .inl ⟨e, he, hv⟩, hb, rfl, data_reads hroom hs hn hn'⟩)
  · obtain ⟨Q, hQ, hne, hrep⟩ := sub_part hT.wf hu hT.rep
    exact .inl ⟨e, he, Q, hQ, hne, u, hu.wf hT.wf, rfl, (h.stored hcf he hT).sub hu, hrep⟩
  · obtain ⟨v, hv⟩ := h.value k b hk
    obtain ⟨n, hn, hn'⟩ := h.data hcf hk
    exact .inr (.inr ⟨k, v, b, .inr hk, hv, rfl, data_reads hroom hs hn hn'⟩)
  · obtain ⟨v, hv⟩ := h.value k b (h.leaf k b hk)
    exact .inr (.inl ⟨k, v, b, hk, hv, h.single hcf hk hv⟩)

/-- Versions are determined by what is read from them. -/
theorem Inventory.unique (hc : Sane cfg) (hroom : cfg.Room) (h : Inventory cfg C U L P s) (hs : C.alive s)
    (hcf : CollisionFree cfg.hasher U) (hd : ∀ e ∈ L, HeightBelow e.2 cfg.depth) (hpos : 0 < cfg.depth)
    {r r' : Arr N} {Q : Contents N V} (hv : IsVersion cfg (C.view s) r Q)
    (hne : Q ≠ Contents.empty) (hr' : ∀ k, getOne cfg s r' k = .ok (Q k)) : r' = r := by
  obtain ⟨k0, hk0⟩ : ∃ k0, Q k0 ≠ none := by
    by_contra hno
    push Not at hno
    exact hne (funext hno)
  have key : ∀ Q', HeightBelow Q' cfg.depth → IsVersion cfg (C.view s) r' Q' → r' = r := by
    intro Q' hd' hv'
    have : Q' = Q := funext fun k => by
      have := (version_reads hc hroom hs hd' hv').one k
      rw [hr' k] at this
      exact (Except.ok.inj this).symm
    subst this
    obtain ⟨u, hu, rfl, -, hrep⟩ := hv
    obtain ⟨u', hu', rfl, -, hrep'⟩ := hv'
    rw [hrep'.unique hu' hu hrep]
  rcases h.cases hroom hs hcf r' with h1 | ⟨e, he, Q', hQ', -, h1⟩ | ⟨k, v, b, -, -, h1⟩ | ⟨_, _, _, -, -, -, h1⟩
  · have := h1.one k0
    rw [hr' k0] at this
    exact absurd (Except.ok.inj this) hk0
  · exact key Q' (part_height (hd e he) hQ') h1
  · exact key _ (single_height hpos) h1
  · obtain ⟨msg, hm⟩ := h1.one k0
    rw [hr' k0] at hm
    cases hm

/-- Every part of a live version has a root. -/
theorem Inventory.part (h : Inventory cfg C U L P s) (hcf : CollisionFree cfg.hasher U) {e : Arr N × Contents N V} (he : e ∈ L)
    {Q : Contents N V} (hQ : Q.PartOf e.2) (hne : Q ≠ Contents.empty) : ∃ r, IsVersion cfg (C.view s) r Q := by
  obtain ⟨T, hT⟩ := h.versions e he
  obtain ⟨u, hu, hrep⟩ := part_sub hT.wf hT.rep hQ hne
  exact ⟨_, u, hu.wf hT.wf, rfl, (h.stored hcf he hT).sub hu, hrep⟩

/-- The data of the pairs of live versions is stored. -/
theorem Inventory.fails (hroom : cfg.Room) (h : Inventory cfg C U L P s) (hs : C.alive s) (hcf : CollisionFree cfg.hasher U)
    {e : Arr N × Contents N V} (he : e ∈ L) {k : Arr N} {v : V} {b : List UInt8} (hk : e.2 k = some v)
    (hb : cfg.encode v = .ok b) : ReadsFail cfg s ((HIn.data k b).hash cfg.hasher) := by
  obtain ⟨T, hT⟩ := h.versions e he
  obtain ⟨b', hkb, hb'⟩ := Represents.entry hT.wf hT.rep hk
  rw [hb] at hb'
  cases hb'
  obtain ⟨n, hn, hn'⟩ := stored_data (h.stored hcf he hT) hkb
  exact data_reads hroom hs hn hn'

/-- C91: whatever bytes are given as the root, reads are answered from a map: from one that is empty, or from the part of
a live version under a common prefix; but all reads are refused if the bytes are the hash of the data of a pair of a live
version. -/
theorem C91_every_root (hc : Sane cfg) (hroom : cfg.Room) (h : Uses cfg C True H L s) (hs : C.alive s)
    (hcf : CollisionFree cfg.hasher (Among H)) (hd : ∀ e ∈ L, HeightBelow e.2 cfg.depth) (r : Arr N) :
    Tells cfg s r (Contents.empty (V := V)) ∨
    (∃ e ∈ L, ∃ Q : Contents N V, Q.PartOf e.2 ∧ Q ≠ Contents.empty ∧ Tells cfg s r Q) ∨
    ∃ e ∈ L, ∃ k v b, e.2 k = some v ∧ cfg.encode v = .ok b ∧ (HIn.data k b).hash cfg.hasher = r ∧ ReadsFail cfg s r := by
  rcases (h.holds hc hcf).cases hroom hs hcf r with h1 | ⟨e, he, Q, hQ, hne, h1⟩ | ⟨_, _, _, hk, -⟩ |
    ⟨k, v, b, ⟨e, he, hv⟩ | hk, h1⟩
  · exact .inl h1
  · exact .inr (.inl ⟨e, he, Q, hQ, hne, version_reads hc hroom hs (part_height (hd e he) hQ) h1⟩)
  · cases hk
  · exact .inr (.inr ⟨e, he, k, v, b, hv, h1⟩)
  · cases hk

/-- C91: every part of a live version has exactly one root under which it is read, that of its sparse Merkle tree. -/
theorem C91_every_part (hc : Sane cfg) (hroom : cfg.Room) (h : Uses cfg C True H L s) (hs : C.alive s)
    (hcf : CollisionFree cfg.hasher (Among H)) (hd : ∀ e ∈ L, HeightBelow e.2 cfg.depth) {e : Arr N × Contents N V}
    (he : e ∈ L) {Q : Contents N V} (hQ : Q.PartOf e.2) (hne : Q ≠ Contents.empty) :
    ∃ r, Tells cfg s r Q ∧ (∀ pairs, Lists cfg.encode Q pairs → sparseRoot cfg.hasher pairs = some r) ∧
      ∀ r', (∀ k, getOne cfg s r' k = .ok (Q k)) → r' = r := by
  obtain ⟨r, hv⟩ := (h.holds hc hcf).part hcf he hQ hne
  exact ⟨r, version_reads hc hroom hs (part_height (hd e he) hQ) hv, fun pairs hp => version_sparse_root hv hp,
    fun r' hr' => (h.holds hc hcf).unique hc hroom hs hcf hd (height_pos (part_height (hd e he) hQ) hne) hv hne hr'⟩

/-- C91: the root of a part of a live version can be extended like a live version: the batch is put into the part, and the
result is one more live version (so that everything that is shown of histories applies to it and to the others). -/
theorem C91_parts_extend (hc : Sane cfg) (hroom : cfg.Room) (h : Uses cfg C True H L s) (hs : C.alive s)
    (hp : C.pending s = View.empty N) (hd : ∀ e ∈ L, HeightBelow e.2 cfg.depth) {e : Arr N × Contents N V} (he : e ∈ L)
    {Q : Contents N V} (hQ : Q.PartOf e.2) (hne : Q ≠ Contents.empty) {r : Arr N}
    (hr : ∀ k, getOne cfg s r k = .ok (Q k)) {keys : List (Arr N)} {values : List V}
    (hcf : CollisionFree cfg.hasher (Among (hashedBy cfg (some r) keys values s ++ H)))
    (hlen : keys.length = values.length) (hkeys : keys ≠ []) (hnd : keys.Nodup) (hclear : Clear Q keys)
    (hnew : ∀ e ∈ L, ∀ p ∈ keys.zip values, e.2 p.1 ≠ some p.2) (henc : ∀ v ∈ values, ∃ b, cfg.encode v = .ok b) :
    ∃ r' s', insert cfg (some r) keys values s = (.ok r', s') ∧ C.alive s' ∧ C.pending s' = View.empty N ∧
      Uses cfg C True (hashedBy cfg (some r) keys values s ++ H) ((r', Q.assign keys values) :: L) s' := by
  have hcf0 : CollisionFree cfg.hasher (Among H) := hcf.mono fun i hi => List.mem_append_right _ hi
  obtain ⟨r0, hv⟩ := (h.holds hc hcf0).part hcf0 he hQ hne
  cases (h.holds hc hcf0).unique hc hroom hs hcf0 hd (height_pos (part_height (hd e he) hQ) hne) hv hne hr
  exact C47_live_roots_accept_partial hc h hs hcf (careful_of_base hp (.inr ⟨e, he, hQ, hv⟩) hlen hnd
    (noStraddle_of_clear hclear) hnew) hlen hkeys henc (part_height (hd e he) hQ).succ

/-- C91: the hash of the data of a pair of a live version is never read as a root. -/
theorem C91_data (hc : Sane cfg) (hroom : cfg.Room) (h : Uses cfg C True H L s) (hs : C.alive s)
    (hcf : CollisionFree cfg.hasher (Among H)) {e : Arr N × Contents N V} (he : e ∈ L) {k : Arr N} {v : V}
    {b : List UInt8} (hk : e.2 k = some v) (hb : cfg.encode v = .ok b) :
    ReadsFail cfg s ((HIn.data k b).hash cfg.hasher) :=
  (h.holds hc hcf).fails hroom hs hcf he hk hb

/-- C91: where single pairs are inserted again, what was left over (C87) is read as well: the pair of a leaf under the root
of its own, and no reads under the hash of data. -/
theorem C91_every_root_again {shows : Bool} (hc : Sane cfg) (hroom : cfg.Room) (hsh : WritesShow C shows)
    (h : Keeps cfg C shows H L P s) (hs : C.alive s)
    (hcf : CollisionFree cfg.hasher (Among H)) (hd : ∀ e ∈ L, HeightBelow e.2 cfg.depth) (hpos : 0 < cfg.depth) (r : Arr N) :
    Tells cfg s r (Contents.empty (V := V)) ∨
    (∃ e ∈ L, ∃ Q : Contents N V, Q.PartOf e.2 ∧ Q ≠ Contents.empty ∧ Tells cfg s r Q) ∨
    (∃ k v b, .tree (.leaf k b) ∈ P ∧ cfg.encode v = .ok b ∧ Tells cfg s r (Contents.empty.set k v)) ∨
    ∃ k v b, ((∃ e ∈ L, e.2 k = some v) ∨ .data k b ∈ P) ∧ cfg.encode v = .ok b ∧
      (HIn.data k b).hash cfg.hasher = r ∧ ReadsFail cfg s r := by
  rcases (h.holds hc hsh hcf).cases hroom hs hcf r with h1 | ⟨e, he, Q, hQ, hne, h1⟩ | ⟨k, v, b, hk, hb, h1⟩ | h1
  · exact .inl h1
  · exact .inr (.inl ⟨e, he, Q, hQ, hne, version_reads hc hroom hs (part_height (hd e he) hQ) h1⟩)
  · exact .inr (.inr (.inl ⟨k, v, b, hk, hb, version_reads hc hroom hs (single_height hpos) h1⟩))
  · exact .inr (.inr (.inr h1))

/-- C91: every part of a live version has exactly one root there too, every leaf that is left over is read under the root
of its pair, and all data that is left over is refused. -/
theorem C91_every_part_again {shows : Bool} (hc : Sane cfg) (hroom : cfg.Room) (hsh : WritesShow C shows)
    (h : Keeps cfg C shows H L P s) (hs : C.alive s)
    (hcf : CollisionFree cfg.hasher (Among H)) (hd : ∀ e ∈ L, HeightBelow e.2 cfg.depth) (hpos : 0 < cfg.depth) :
    (∀ e ∈ L, ∀ Q : Contents N V, Q.PartOf e.2 → Q ≠ Contents.empty → ∃ r, Tells cfg s r Q ∧
      (∀ pairs, Lists cfg.encode Q pairs → sparseRoot cfg.hasher pairs = some r) ∧
      ∀ r', (∀ k, getOne cfg s r' k = .ok (Q k)) → r' = r) ∧
    (∀ k v b, .tree (.leaf k b) ∈ P → cfg.encode v = .ok b →
      Tells cfg s (pairHash cfg.hasher k b) (Contents.empty.set k v)) ∧
    (∀ e ∈ L, ∀ k v b, e.2 k = some v → cfg.encode v = .ok b → ReadsFail cfg s ((HIn.data k b).hash cfg.hasher)) ∧
    ∀ k b, .data k b ∈ P → ReadsFail cfg s ((HIn.data k b).hash cfg.hasher) := by
  have hh := h.holds hc hsh hcf
  refine ⟨fun e he Q hQ hne => ?_, fun k v b hk hv => ?_, fun e he k v b hk hb => hh.fails hroom hs hcf he hk hb,
    fun k b hk => ?_⟩
  · obtain ⟨r, hv⟩ := hh.part hcf he hQ hne
    exact ⟨r, version_reads hc hroom hs (part_height (hd e he) hQ) hv, fun pairs hp => version_sparse_root hv hp,
      fun r' hr' => hh.unique hc hroom hs hcf hd hpos hv hne hr'⟩
  · exact version_reads hc hroom hs (single_height hpos) (hh.single hcf hk hv)
  · obtain ⟨n, hn, hn'⟩ := hh.data hcf hk
    exact data_reads hroom hs hn hn'

theorem mapOf_filter {pairs : List (Arr N × V)} (hnd : (pairs.map Prod.fst).Nodup) (p : Arr N → Prop) [DecidablePred p]
    (k : Arr N) : mapOf (pairs.filter fun e => p e.1) k = if p k then mapOf pairs k else none := by
  apply Option.ext
  intro v
  rw [mapOf_mem (hnd.sublist (List.filter_sublist.map _))]
  split
  · next hp => rw [mapOf_mem hnd]; simp [List.mem_filter, hp]
  · next hp => simp [List.mem_filter, hp]

namespace Toy

/-- The first version is removed: whatever is given as a root. -/
example (r : Arr 2) := C91_every_root sane room use3 (alive _) free2 (fun _ _ => deep _) r

/-- The keys of the second version that begin with the bits of the key 1 up to the tenth. -/
def someKeys : Contents 2 (List UInt8) := fun k => if 10 ≤ firstDiff (key 1) k then M2 k else none

/-- They have a root of their own. -/
example : ∃ r, r ≠ r2 ∧ Tells Toy.cfg t2 r someKeys ∧ ∀ r', (∀ k, getOne Toy.cfg t2 r' k = .ok (someKeys k)) → r' = r := by
  obtain ⟨r, h1, -, h3⟩ := C91_every_part sane room use3 (alive _) free2 (fun _ _ => deep _) List.mem_cons_self
    (Q := someKeys) ⟨key 1, 10, fun _ => rfl⟩ (fun h => by have := congrFun h (key 1); revert this; decide +kernel)
  refine ⟨r, ?_, h1, h3⟩
  rintro rfl
  have := h1.one (key 0x8000)
  revert this
  decide +kernel

/-- Their pairs and their root. -/
def somePairs : List (Arr 2 × List UInt8) :=
  (putPairs (putPairs [] (ks1.zip vs1)) (ks2.zip vs2)).filter fun e => 10 ≤ firstDiff (key 1) e.1
@[inherit_doc somePairs]
def someRoot : Arr 2 := (sparseRoot Toy.cfg.hasher (encoded Toy.cfg.encode somePairs)).getD (key 0)

theorem someKeys_pairs : someKeys = mapOf somePairs := by
  funext k
  have h := mapOf_filter (pairs := putPairs (putPairs [] (ks1.zip vs1)) (ks2.zip vs2)) (by decide +kernel)
    (fun k' => 10 ≤ firstDiff (key 1) k') k
  rw [mapOf_put (keys := ks2) (values := vs2) rfl, mapOf_put (keys := ks1) (values := vs1) rfl] at h
  exact h.symm

/-- The part is extended by a key, and its key 1 gets another value. -/
example : ∃ r' s', insert Toy.cfg (some someRoot) [key 1, key 3] [[11], [31]] t2 = (.ok r', s') ∧ Toy.C.alive s' ∧
    Toy.C.pending s' = View.empty 2 ∧ Uses Toy.cfg Toy.C True
      (hashedBy Toy.cfg (some someRoot) [key 1, key 3] [[11], [31]] t2 ++ H2)
      [(r', someKeys.assign [key 1, key 3] [[11], [31]]), (r2, M2)] s' := by
  have hpart : someKeys.PartOf M2 := ⟨key 1, 10, fun _ => rfl⟩
  have hne : someKeys ≠ Contents.empty := fun h => by have := congrFun h (key 1); revert this; decide +kernel
  obtain ⟨r, h1, h2, -⟩ := C91_every_part sane room use3 (alive _) free2 (fun _ _ => deep _) List.mem_cons_self hpart hne
  have hpr : Proper Toy.cfg.encode somePairs := ⟨by decide +kernel, fun e _ => ⟨e.2, rfl⟩⟩
  have hroot := h2 _ (someKeys_pairs ▸ hpr.lists)
  have hr : r = someRoot := by unfold someRoot; rw [hroot]; rfl
  subst hr
  exact C91_parts_extend sane room use3 (alive _) rfl (fun _ _ => deep _) List.mem_cons_self hpart hne h1.one
    (collisionFree_of_check (by decide +kernel)) rfl (by simp) (by decide +kernel)
    (someKeys_pairs ▸ clear_of_check (by decide +kernel)) (by decide +kernel) (fun v _ => ⟨v, rfl⟩)

/-- The data of a pair. -/
example : ReadsFail Toy.cfg t2 ((HIn.data (key 1) [10]).hash Toy.cfg.hasher) :=
  C91_data sane room use3 (alive _) free2 List.mem_cons_self (k := key 1) (v := [10]) (by decide +kernel) rfl

/-- The removed root. -/
example : Tells Toy.cfg t2 r1 (Contents.empty (V := List UInt8)) :=
  nothing_reads (C := Toy.C) room (alive _) (by decide +kernel)

/-- Both versions are removed; key 1 was inserted twice, so its leaf is left over and the pair can still be read, under
the root of the pair and under no other. -/
example : Tells Toy.cfg lo4.2 (pairHash Toy.cfg.hasher (key 1) [10]) (Contents.empty.set (key 1) [10]) ∧
    ReadsFail Toy.cfg lo4.2 ((HIn.data (key 1) [10]).hash Toy.cfg.hasher) :=
  have h := C91_every_part_again sane room hash_writesShow lo_gone (alive _) lo_free (by simp) (by decide)
  ⟨h.2.1 (key 1) [10] [10] (by simp [loLeft]) rfl, h.2.2.2 (key 1) [10] (by simp [loLeft])⟩

example (r : Arr 2) : Tells Toy.cfg lo4.2 r (Contents.empty (V := List UInt8)) ∨
    Tells Toy.cfg lo4.2 r (Contents.empty.set (key 1) [10]) ∨ ReadsFail Toy.cfg lo4.2 r := by
  rcases C91_every_root_again sane room hash_writesShow lo_gone (alive _) lo_free (by simp) (by decide) r with
    h | ⟨e, he, -⟩ | ⟨k, v, b, hk, hb, h⟩ | ⟨k, v, b, -, -, -, h⟩
  · exact .inl h
  · cases he
  · simp only [loLeft, List.mem_cons, Item.tree.injEq, Trie.leaf.injEq, reduceCtorEq, List.not_mem_nil, or_false, false_or] at hk
    obtain ⟨rfl, rfl⟩ := hk
    cases hb
    exact .inr (.inl h)
  · exact .inr (.inr h)

end Toy

end MerkleBit
