import Verif.Proof.Opened
import Verif.Proof.Insert
/-! # What `insert` leaves in the database -/

namespace MerkleBit
variable {N : Nat} {σ V : Type}

section
variable {cfg : Config N σ V} {C : GContract cfg.db} {U : HIn N → Prop} {v0 : View N}
  {Ex : Err → Prop}

theorem nextRefs_pos (o : Option (Node N)) : 0 < nextRefs o := by
  cases o <;> simp [nextRefs]

/-- The leaf phase keeps the block invariant. -/
theorem blocks_leafBody (hU : CollisionFree cfg.hasher U) (hg : Guards U cfg.db) {k : Arr N}
    {v : List UInt8} (hk : U (.data k v)) (K : List (Trie N)) :
    Triple C Ex (Blocks C U v0 K) (leafBody cfg k v)
      (fun r s => r = (Trie.leaf k v).loc cfg.hasher ∧ Blocks C U v0 (K ++ [.leaf k v]) s)
      (Inv C U v0) := by
  have hd : Belongs cfg.hasher U (Trie.dataLoc cfg.hasher k v) (.data ⟨v⟩) :=
    belongs_data hk
  unfold leafBody
  simp only [M.bind_eq, M.pure_eq]
  apply triple_bind (R := fun _ => Blocks C U v0 K)
    (triple_dbGet (fun _ h => h) (fun _ h => h.1))
  intro od
  apply triple_bind (R := fun _ => Blocks C U v0 K)
    (triple_dbGet (fun _ h => h) (fun _ h => h.1))
  intro ol
  apply triple_bind (R := fun _ s => Blocks C U v0 K s ∧
    View.Has (C.settled s) (Trie.dataLoc cfg.hasher k v) (.data ⟨v⟩))
  · apply triple_insert
    · rintro s s' ⟨h1, h2⟩ hw
      have hext := h1.wrote_settled hU hd hw
      exact ⟨⟨h1.wrote hU (nextRefs_pos _) hd (by simp [Variant.children]) hw, fun t ht => (h2 t ht).mono hext⟩, has_wrote hw⟩
    · rintro s s' ⟨h1, h2⟩ e1 e2
      exact h1.same e1 (.inl e2)
  · intro _
    apply triple_bind (R := fun _ s => Blocks C U v0 (K ++ [.leaf k v]) s)
    · apply triple_insert_guard hg
      · rintro s s' ⟨⟨h1, h2⟩, h3⟩ hin hw
        have hl := belongs_of_inputs (H := cfg.hasher) (t := .leaf k v) (U := U) trivial (by
          intro i hi
          simp only [Trie.inputs, List.mem_cons, List.not_mem_nil, or_false] at hi
          rcases hi with rfl | rfl
          · exact hk
          · exact hin _ rfl)
        have hext := h1.wrote_settled hU hl hw
        refine ⟨h1.wrote hU (nextRefs_pos _) hl (by
          obtain ⟨refs, h⟩ := h3
          simp [Trie.variant, Variant.children, h]) hw, fun t ht => ?_⟩
        rw [List.mem_append, List.mem_singleton] at ht
        rcases ht with ht | rfl
        · exact (h2 t ht).mono hext
        · exact ⟨has_wrote hw, hext _ _ h3⟩
      · rintro s s' ⟨⟨h1, h2⟩, h3⟩ e1 e2
        exact h1.same e1 (.inl e2)
    · intro _
      exact triple_pure (fun s hs => ⟨rfl, hs⟩)

theorem assembled_norm {pp : PartitionPoint N} {keys : List (Arr N)} {f : Arr N → List UInt8}
    {prev : Option (Trie N)} (hprev : ∀ T, prev = some T → T.Norm)
    {ts : List (Trie N)} {T' : Trie N} (hp : ts.Perm (blocksOf pp (sortKeys keys) f prev))
    (hasm : Assembled ts T') : T'.Norm := by
  have hln : ∀ u ∈ leaves (sortKeys keys) f, u.Norm := by
    intro u hu
    simp only [leaves, List.mem_map] at hu
    obtain ⟨k, _, rfl⟩ := hu
    trivial
  apply hasm.norm
  intro u hu
  rw [hp.mem_iff] at hu
  cases prev with
  | none => exact hln u hu
  | some T =>
    simp only [blocksOf, List.mem_append] at hu
    rcases hu with hu | hu
    · exact hln u hu
    · exact (trav_sub T _ u hu).norm (hprev T rfl)

/-- Outcome of an insert on top of `prev`, stated with the blocks it is assembled from. -/
theorem insert_blocks (hN : 0 < N) (hpp : cfg.pp.Lawful) (hU : CollisionFree cfg.hasher U)
    (hg : Guards U cfg.db)
    {keys : List (Arr N)} {values : List V}
    (hlen : keys.length = values.length) (hne : keys ≠ []) {f : Arr N → List UInt8}
    {prev : Option (Trie N)}
    (henc : ∀ k ∈ keys, encodedOf cfg (valueMap keys values) k = .ok (f k) ∨
        ∃ e, encodedOf cfg (valueMap keys values) k = .error e ∧ Ex e)
    (hleafU : ∀ k ∈ keys, encodedOf cfg (valueMap keys values) k = .ok (f k) → U (.data k (f k)))
    (hprev : ∀ T, prev = some T → T.Norm ∧
      (Stored cfg.hasher v0 T ∨ ∀ msg, Ex (.exception msg)) ∧
      (∀ i ∈ T.inputs cfg.hasher, U i) ∧
      (T.height ≤ cfg.depth ∨ Ex (.exception "Depth of merkle tree exceeded")))
    (hdup : ¬ ((blocksOf cfg.pp (sortKeys keys) f prev).map Trie.key).Nodup →
      Ex (.exception "Attempted to insert item with duplicate keys")) :
    Triple C Ex (Inv C U v0) (insert cfg (prev.map (·.loc cfg.hasher)) keys values)
      (fun r s => (∀ k ∈ keys, encodedOf cfg (valueMap keys values) k = .ok (f k)) ∧
        ∃ ts' T', ts'.Perm (blocksOf cfg.pp (sortKeys keys) f prev) ∧ Assembled ts' T' ∧
          r = T'.loc cfg.hasher ∧ Inv C U v0 s ∧ Stored cfg.hasher (C.view s) T' ∧
          C.pending s = View.empty N)
      (Inv C U v0) := by
  have hmk : ((sortKeys keys).map (fun k => (k, f k))).map (fun e => Trie.leaf e.1 e.2) =
      leaves (sortKeys keys) f := by
    simp [leaves, Function.comp_def]
  apply insert_rule hN hpp hlen hne henc
    (JL := fun done s => Blocks C U v0 (done.map (fun e => Trie.leaf e.1 e.2)) s)
    (JT := fun K op s => (∀ T ∈ prev, Stored cfg.hasher (C.view s) T ∨
        ∀ msg, Ex (.exception msg)) ∧
      Blocks C U v0 (leaves (sortKeys keys) f ++ K) s)
    (Fact := fun t _ s => Stored cfg.hasher (C.view s) t) (JM := Blocks C U v0)
  · intro s hs
    exact ⟨hs, by simp⟩
  · intro done k hk _ hkf
    refine triple_conseq (blocks_leafBody hU hg (hleafU k hk hkf) (done.map (fun e => Trie.leaf e.1 e.2)))
      (fun _ h => h) ?_ (fun _ h => h)
    rintro r s ⟨h1, h2⟩
    exact ⟨h1, by simpa using h2⟩
  · intro done s hs
    exact hs.1
  · rintro rfl s hs
    refine ⟨by simp, ?_⟩
    rw [hmk] at hs
    simpa using hs
  · rintro - T rfl
    obtain ⟨h1, h2, h3, h4⟩ := hprev T rfl
    refine ⟨h1, h4, ?_, ?_⟩
    · intro s hs
      rw [hmk] at hs
      refine ⟨?_, by simpa using hs⟩
      intro T' hT'
      cases hT'
      exact h2.imp (fun h => h.mono hs.1.ext) id
    · have := blocks_travStep (C := C) (v0 := v0) hU
        (R := trav cfg.pp (sortKeys keys) T (sortKeys keys))
        (keyMap := keyMapOf (sortKeys keys)
          ((sortKeys keys).map (fun k => (Trie.leaf k (f k)).loc cfg.hasher)))
        (Ex := Ex) (leaves (sortKeys keys) f) h1 h3
      simpa using this
  · intro _ h
    exact ⟨hdup h, fun K s hs => hs.2.1⟩
  · exact blocks_flushStep hU
  · intro hall ts' T' hp hasm
    refine ⟨blocks_mergeStep hU hg (assembled_norm (fun T hT => (hprev T hT).1) hp hasm), ?_⟩
    intro K s hK hs
    exact ⟨hs.2.1, fun t ht => hs.2.2 t (hK.mem_iff.1 ht)⟩
  · intro ts' T' hall hp hasm s hs hpend
    refine ⟨hall, ts', T', hp, hasm, rfl, hs.1, ?_, hpend⟩
    have := hs.2 T' (by simp)
    rwa [settled_of_pending_empty hpend] at this

end

/-! ## The shape of the result -/

/-- Contents after a batch: byte strings. -/
def assignB (M : Arr N → Option (List UInt8)) (ks : List (Arr N)) (f : Arr N → List UInt8)
    (k : Arr N) : Option (List UInt8) := if k ∈ ks then some (f k) else M k

/-- Contents of an optional trie. -/
def lookupO (prev : Option (Trie N)) (k : Arr N) : Option (List UInt8) := prev.bind (·.lookup k)

open Trie in
theorem leaves_apart {ks : List (Arr N)} (h : ks.Nodup) (f : Arr N → List UInt8) :
    (leaves ks f).Pairwise Apart := by
  unfold leaves
  rw [List.pairwise_map]
  refine h.imp ?_
  intro a b hab
  have := firstDiff_lt_iff.2 hab
  exact ⟨this, this⟩

/-- What is needed of a batch on top of a tree. -/
def BatchOk (pp : PartitionPoint N) (ks : List (Arr N)) (prev : Option (Trie N)) : Prop :=
  ∀ T, prev = some T → T.WF ∧ ∀ k ∈ ks, Opened pp k T (sortKeys ks)

/-- What is needed for the reference counts. -/
def BatchFine (ks : List (Arr N)) (prev : Option (Trie N)) : Prop :=
  ∀ T, prev = some T → T.WF ∧ StraddleFree (sortKeys ks) 0 T

theorem BatchFine.ok (hN : 0 < N) {pp : PartitionPoint N} (hpp : pp.Lawful) {ks : List (Arr N)}
    {prev : Option (Trie N)} (h : BatchFine ks prev) : BatchOk pp ks prev := fun T hT =>
  ⟨(h T hT).1, fun k hk => opened_of_straddleFree hN hpp (sortKeys_sorted ks) (h T hT).1 (h T hT).2
    ((sortKeys_perm ks).mem_iff.2 hk)⟩

theorem filter_zero (ks : List (Arr N)) (b : Arr N) :
    ks.filter (fun k => decide (0 ≤ firstDiff k b)) = ks := by
  apply List.filter_eq_self.2
  simp

theorem blocksOf_eq (hN : 0 < N) {pp : PartitionPoint N} (hpp : pp.Lawful) {ks : List (Arr N)}
    (hne : ks ≠ []) (f : Arr N → List UInt8) {T : Trie N} (hwf : T.WF)
    (hsf : StraddleFree (sortKeys ks) 0 T) :
    blocksOf pp (sortKeys ks) f (some T) = leaves (sortKeys ks) f ++ keep T (sortKeys ks) := by
  have h := trav_eq_keep hN hpp (sortKeys_sorted ks) T 0 hwf (Nat.zero_le _) hsf (by
    rw [filter_zero]
    intro h
    have := (sortKeys_perm ks).length_eq
    rw [h] at this
    exact hne (List.length_eq_zero_iff.1 this.symm))
  rw [filter_zero] at h
  simp only [blocksOf, h]

open Trie in
theorem blocks_ok (hN : 0 < N) {pp : PartitionPoint N} (hpp : pp.Lawful) {ks : List (Arr N)}
    (hne : ks ≠ []) (hnd : ks.Nodup) (f : Arr N → List UInt8) {prev : Option (Trie N)}
    (hok : BatchOk pp ks prev) :
    (blocksOf pp (sortKeys ks) f prev).Pairwise Apart ∧
    (∀ u ∈ blocksOf pp (sortKeys ks) f prev, u.WF) ∧
    (∀ k v, (k, v) ∈ (blocksOf pp (sortKeys ks) f prev).flatMap entries ↔
      assignB (lookupO prev) ks f k = some v) := by
  have hmem : ∀ k, k ∈ sortKeys ks ↔ k ∈ ks := fun k => (sortKeys_perm ks).mem_iff
  have hnd' : (sortKeys ks).Nodup := (sortKeys_perm ks).nodup_iff.2 hnd
  have hlv : ∀ k v, (k, v) ∈ (leaves (sortKeys ks) f).flatMap entries ↔ (k ∈ ks ∧ v = f k) := by
    intro k v
    simp only [leaves, List.mem_flatMap, List.mem_map]
    constructor
    · rintro ⟨t, ⟨k', hk', rfl⟩, h⟩
      simp only [entries, List.mem_singleton, Prod.mk.injEq] at h
      obtain ⟨rfl, rfl⟩ := h
      exact ⟨(hmem _).1 hk', rfl⟩
    · rintro ⟨h, rfl⟩
      exact ⟨_, ⟨k, (hmem _).2 h, rfl⟩, by simp [entries]⟩
  have hlw : ∀ u ∈ leaves (sortKeys ks) f, u.WF := by
    intro u hu
    simp only [leaves, List.mem_map] at hu
    obtain ⟨k, _, rfl⟩ := hu
    trivial
  cases prev with
  | none =>
    refine ⟨leaves_apart hnd' f, hlw, ?_⟩
    intro k v
    have := hlv k v
    simp only [blocksOf]
    rw [this]
    simp only [assignB, lookupO, Option.bind_none]
    split
    · next h => simp [h, eq_comm]
    · next h => simp [h]
  | some T =>
    obtain ⟨hwf, hop⟩ := hok T rfl
    have hne' : sortKeys ks ≠ [] := fun h => by
      obtain ⟨k, hk⟩ := List.exists_mem_of_ne_nil _ hne
      rw [← hmem, h] at hk
      simp at hk
    have hfar : ∀ u ∈ trav pp (sortKeys ks) T (sortKeys ks), ∀ k ∈ ks, firstDiff k u.key < u.split :=
      fun u hu k hk => (trav_far_iff hN hpp ((hmem k).2 hk) hwf (sortKeys_sorted ks) hne').2 (hop k hk) u hu
    simp only [blocksOf]
    refine ⟨?_, ?_, ?_⟩
    · rw [List.pairwise_append]
      refine ⟨leaves_apart hnd' f, trav_apart hwf, ?_⟩
      intro a ha b hb
      simp only [leaves, List.mem_map] at ha
      obtain ⟨k, hk, rfl⟩ := ha
      have h1 := hfar b hb k ((hmem k).1 hk)
      refine ⟨?_, h1⟩
      have := split_le b
      simp only [split, key]
      omega
    · intro u hu
      rw [List.mem_append] at hu
      rcases hu with hu | hu
      · exact hlw u hu
      · exact (trav_sub T _ u hu).wf hwf
    · intro k v
      have hin : (k, v) ∈ (trav pp (sortKeys ks) T (sortKeys ks)).flatMap entries ↔
          (k, v) ∈ T.entries ∧ k ∉ ks := by
        constructor
        · intro h
          obtain ⟨u, hu, he⟩ := List.mem_flatMap.1 h
          have hs := trav_sub T _ u hu
          refine ⟨hs.entries.subset he, fun hk => ?_⟩
          have h1 := (hs.wf hwf).agree k (List.mem_map_of_mem (f := Prod.fst) he)
          have h2 := hfar u hu k hk
          omega
        · rintro ⟨he, hk⟩
          exact trav_others (e := (k, v)) (by rw [hmem]; exact hk) he
      rw [List.flatMap_append, List.mem_append, hlv, hin]
      simp only [assignB, lookupO, Option.bind_some]
      split
      · next h => simp [h, eq_comm]
      · next h => simp [h, lookup_eq_some_iff hwf]

open Trie in
theorem apart_keys {ts : List (Trie N)} (h : ts.Pairwise Apart) : (ts.map key).Nodup := by
  unfold List.Nodup
  rw [List.pairwise_map]
  refine h.imp ?_
  intro a b hab heq
  have := hab.1
  rw [heq, firstDiff_self] at this
  have := split_le a
  omega

open Trie in
theorem assembled_wf {ts bs : List (Trie N)} {T : Trie N} (hp : ts.Perm bs) (hasm : Assembled ts T)
    (h1 : bs.Pairwise Apart) (h2 : ∀ u ∈ bs, u.WF) : T.WF := by
  refine hasm.wf (fun u hu => h2 u (hp.mem_iff.1 hu)) ?_
  have : ts.Pairwise Apart := (hp.pairwise_iff (fun h => h.symm)).2 h1
  exact this.isChain

open Trie in
theorem assembled_entries {ts bs : List (Trie N)} {T : Trie N} (hp : ts.Perm bs)
    (hasm : Assembled ts T) (e : Arr N × List UInt8) :
    e ∈ T.entries ↔ e ∈ bs.flatMap entries := by
  rw [hasm.entries]
  exact (hp.flatMap_right _).mem_iff

open Trie in
/-- The tree assembled from a batch that opens what it has to is the compact trie of the updated contents. -/
theorem assembled_batch (hN : 0 < N) {pp : PartitionPoint N} (hpp : pp.Lawful) {ks : List (Arr N)}
    (hne : ks ≠ []) (hnd : ks.Nodup) {f : Arr N → List UInt8} {prev : Option (Trie N)}
    (hok : BatchOk pp ks prev) {ts : List (Trie N)} {T : Trie N}
    (hp : ts.Perm (blocksOf pp (sortKeys ks) f prev)) (hasm : Assembled ts T) :
    T.WF ∧ ∀ k, T.lookup k = assignB (lookupO prev) ks f k := by
  obtain ⟨h1, h2, h3⟩ := blocks_ok hN hpp hne hnd f hok
  have hwf := assembled_wf hp hasm h1 h2
  refine ⟨hwf, fun k => ?_⟩
  apply Option.ext
  intro v
  rw [lookup_eq_some_iff hwf, assembled_entries hp hasm, h3]

end MerkleBit
