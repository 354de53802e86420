import Verif.Proof.Damage
/-! # Inserts into databases that may have lost nodes -/

namespace MerkleBit
variable {N : Nat} {σ V : Type}

section
variable {cfg : Config N σ V} {C : GContract cfg.db} {U : HIn N → Prop} {v0 : View N}
  {Ex : Err → Prop}

theorem Placed.wrote_settled (hU : CollisionFree cfg.hasher U) {s s' : σ} (h : Placed C U v0 s)
    {x : Arr N} {n : Node N} (hb : Belongs cfg.hasher U x n.variant)
    (hw : Wrote C s s' x n) : (C.settled s).Ext (C.settled s') := by
  rw [settled_of_wrote hw]
  exact Ext.put hU h.settled hb

theorem Placed.wrote_view (hU : CollisionFree cfg.hasher U) {s s' : σ} (h : Placed C U v0 s)
    {x : Arr N} {n : Node N} (hb : Belongs cfg.hasher U x n.variant)
    (hw : Wrote C s s' x n) : (C.view s).Ext (C.view s') := by
  rcases hw with ⟨_, h1, h2⟩ | ⟨h1, h2⟩
  · rw [h1]; exact Ext.put hU h.view hb
  · rw [h1]; exact View.Ext.refl _

theorem Placed.stored_settled (hU : CollisionFree cfg.hasher U) {s : σ} (h : Placed C U v0 s)
    {t : Trie N} (ht : Stored cfg.hasher (C.view s) t) : Stored cfg.hasher (C.settled s) t :=
  ht.mono (Ext.overlay hU h.view h.pending)

/-- Everything is in its place, and the subtrees `K` will be in the database once the queue is
confirmed. -/
def Kept (C : GContract cfg.db) (U : HIn N → Prop) (v0 : View N) (K : List (Trie N)) (s : σ) :
    Prop := Placed C U v0 s ∧ ∀ t ∈ K, Stored cfg.hasher (C.settled s) t

theorem kept_mergeStep (hU : CollisionFree cfg.hasher U) (hg : Guards U cfg.db) {T : Trie N}
    (hT : T.Norm) : MergeStep C Ex (Kept C U v0) T (Placed C U v0) := by
  intro pre post a b _ hsub
  apply triple_insert_guard hg
  · rintro s s' ⟨hi, hK⟩ hin hw
    have hb := belongs_of_inputs (H := cfg.hasher) (t := .node a b) (U := U) (hsub.norm hT) (by
      intro i hii
      simp only [Trie.inputs, List.mem_cons, List.mem_append] at hii
      rcases hii with rfl | hii | hii
      · exact hin _ rfl
      · exact ((hK a (by simp)).honest hU hi.settled).2 i hii
      · exact ((hK b (by simp)).honest hU hi.settled).2 i hii)
    refine ⟨hi.wrote hU (by simp) hb hw, ?_⟩
    have hext := hi.wrote_settled hU hb hw
    intro t ht
    simp only [List.mem_append, List.mem_cons] at ht
    have hold : ∀ t ∈ pre ++ a :: b :: post, Stored cfg.hasher (C.settled s') t :=
      fun t ht => (hK t ht).mono hext
    rcases ht with ht | rfl | ht
    · exact hold t (by simp [ht])
    · exact ⟨has_wrote hw, hold a (by simp), hold b (by simp)⟩
    · exact hold t (by simp [ht])
  · rintro s s' ⟨hi, hK⟩ h1 h2
    exact hi.same h1 (.inl h2)

theorem kept_flushStep (hU : CollisionFree cfg.hasher U) :
    FlushStep C Ex (Kept C U v0) (Placed C U v0) := by
  intro ts
  apply triple_batchWrite
  · rintro s s' ⟨hi, hK⟩ h1 h2
    refine ⟨⟨hi.flushed hU h1 h2, ?_⟩, h2⟩
    rw [settled_flushed h1 h2]
    exact hK
  · rintro s s' ⟨hi, hK⟩ h1 h2
    exact hi.same h1 h2

theorem kept_travStep (hU : CollisionFree cfg.hasher U) {T : Trie N} {R : List (Trie N)}
    {keyMap : AMap (Arr N) (Arr N)} (L : List (Trie N)) (hn : T.Norm)
    (hT : ∀ i ∈ T.inputs cfg.hasher, U i) (hst : Stored cfg.hasher v0 T) :
    TravStep cfg C Ex T R keyMap (fun K _ s => Kept C U v0 (L ++ K) s)
      (fun _ _ _ => True) (Placed C U v0) := by
  have hb : ∀ t : Trie N, t.Sub T → Belongs cfg.hasher U (t.loc cfg.hasher) (t.variant cfg.hasher) :=
    fun t hs => belongs_of_inputs (hs.norm hn) (fun i hi => hT i (hs.inputs i hi))
  constructor
  · rintro K K' op op' s hK _ ⟨h2, h3⟩
    exact ⟨h2, fun t ht => h3 t (((hK.append_left L).mem_iff).2 ht)⟩
  · rintro K op t s ⟨h2, h3⟩ hsub
    left
    obtain ⟨refs, h⟩ := ((hst.mono h2.ext).sub hsub).root
    exact ⟨_, h, rfl, trivial⟩
  · rintro K op l r n s _ _ _ h; exact h
  · rintro K op k v loc n s _ _ _ _ h; exact h
  · intro K op t n cells hsub _ _ hv
    apply triple_insert
    · rintro s s' ⟨⟨h2, h3⟩, -, -⟩ hw
      have hext := h2.wrote_settled hU (hb t hsub) hw
      refine ⟨⟨h2.wrote hU (Nat.succ_pos _) (hb t hsub) hw, ?_⟩, fun _ _ => trivial⟩
      intro u hu
      simp only [List.mem_append, List.mem_cons] at hu
      rcases hu with hu | rfl | hu
      · exact (h3 u (by simp [hu])).mono hext
      · exact (h2.stored_settled hU ((hst.mono h2.ext).sub hsub)).mono hext
      · exact (h3 u (by simp [hu])).mono hext
    · rintro s s' ⟨⟨h2, h3⟩, -, -⟩ e1 e2
      exact h2.same e1 (.inl e2)
  · intro K op k v n cells hsub _ _ hv
    apply triple_insert
    · rintro s s' ⟨⟨h2, h3⟩, -, -⟩ hw
      have hext := h2.wrote_settled hU (hb _ hsub) hw
      exact ⟨⟨h2.wrote hU (Nat.succ_pos _) (hb _ hsub) hw,
        fun u hu => (h3 u hu).mono hext⟩, fun _ _ => trivial⟩
    · rintro s s' ⟨⟨h2, h3⟩, -, -⟩ e1 e2
      exact h2.same e1 (.inl e2)
  · rintro K op s ⟨h2, h3⟩
    exact h2

theorem kept_leafBody (hU : CollisionFree cfg.hasher U) {k : Arr N}
    {v : List UInt8} (hk : ∀ i ∈ (Trie.leaf k v).inputs cfg.hasher, U i) (K : List (Trie N)) :
    Triple C Ex (Kept C U v0 K) (leafBody cfg k v)
      (fun r s => r = (Trie.leaf k v).loc cfg.hasher ∧ Kept C U v0 (K ++ [.leaf k v]) s)
      (Placed C U v0) := by
  have hd : Belongs cfg.hasher U (Trie.dataLoc cfg.hasher k v) (.data ⟨v⟩) :=
    belongs_data (hk _ (by simp [Trie.inputs]))
  have hl := belongs_of_inputs (H := cfg.hasher) (t := .leaf k v) (U := U) trivial hk
  unfold leafBody
  simp only [M.bind_eq, M.pure_eq]
  apply triple_bind (R := fun _ => Kept C U v0 K)
    (triple_dbGet (fun _ h => h) (fun _ h => h.1))
  intro od
  apply triple_bind (R := fun _ => Kept C U v0 K)
    (triple_dbGet (fun _ h => h) (fun _ h => h.1))
  intro ol
  apply triple_bind (R := fun _ s => Kept C U v0 K s ∧
    View.Has (C.settled s) (Trie.dataLoc cfg.hasher k v) (.data ⟨v⟩))
  · apply triple_insert
    · rintro s s' ⟨h1, h2⟩ hw
      have hext := h1.wrote_settled hU hd hw
      exact ⟨⟨h1.wrote hU (nextRefs_pos _) hd hw, fun t ht => (h2 t ht).mono hext⟩, has_wrote hw⟩
    · rintro s s' ⟨h1, h2⟩ e1 e2
      exact h1.same e1 (.inl e2)
  · intro _
    apply triple_bind (R := fun _ s => Kept C U v0 (K ++ [.leaf k v]) s)
    · apply triple_insert
      · rintro s s' ⟨⟨h1, h2⟩, h3⟩ hw
        have hext := h1.wrote_settled hU hl hw
        refine ⟨h1.wrote hU (nextRefs_pos _) hl hw, ?_⟩
        intro t ht
        rw [List.mem_append, List.mem_singleton] at ht
        rcases ht with ht | rfl
        · exact (h2 t ht).mono hext
        · exact ⟨has_wrote hw, hext _ _ h3⟩
      · rintro s s' ⟨⟨h1, h2⟩, -⟩ e1 e2
        exact h1.same e1 (.inl e2)
    · intro _
      exact triple_pure (fun s hs => ⟨rfl, hs⟩)

end

section
variable {cfg : Config N σ V} {C : DbContract cfg.db} {U : HIn N → Prop} {v0 : View N}

/-- The trie of a previous-root argument, of which nothing need be stored. -/
def PrevTrie (cfg : Config N σ V) (U : HIn N → Prop) (pt : Option (Trie N))
    (prev : Option (Arr N)) (M : Contents N V) : Prop :=
  prev = pt.map (·.loc cfg.hasher) ∧
    (∀ T, pt = some T → T.WF ∧ (∀ i ∈ T.inputs cfg.hasher, U i) ∧ Represents cfg T M) ∧
    ∀ k, Encodes cfg (M k) (lookupO pt k)

theorem prevTrie_none : PrevTrie cfg U none none Contents.empty :=
  ⟨rfl, by simp, fun k => by simp [Contents.empty, lookupO, Encodes]⟩

theorem prevTrie_some {T : Trie N} {M : Contents N V} (hwf : T.WF)
    (hi : ∀ i ∈ T.inputs cfg.hasher, U i) (hM : Represents cfg T M) :
    PrevTrie cfg U (some T) (some (T.loc cfg.hasher)) M := by
  refine ⟨rfl, ?_, fun k => by simpa [lookupO] using hM k⟩
  rintro T' h; cases h; exact ⟨hwf, hi, hM⟩

/-- An insert on top of a version whose nodes may be missing: if it succeeds, the root that is returned
is that of the updated version.  If the previous version is stored, the insert succeeds and the new
version is stored, too. -/
theorem insert_record (hN : 0 < N) (hpp : cfg.pp.Lawful) (hU : CollisionFree cfg.hasher U)
    {s0 : σ} {prev : Option (Arr N)} {M : Contents N V} {keys : List (Arr N)} {values : List V}
    (hin : ∀ i ∈ hashedBy cfg prev keys values s0, U i) (hs : Placed C.toG U v0 s0)
    {pt : Option (Trie N)} (hpt : PrevTrie cfg U pt prev M)
    (hns : prev ≠ none → Handled cfg M keys) (W : Prop)
    (hW : (∀ T, pt = some T → Stored cfg.hasher v0 T) ∨ ¬ W) :
    Ends C (fun e => InsertEx cfg values e ∧ (W → BadBatch cfg M keys values))
      (insert cfg prev keys values) s0
      (fun r s => keys.length = values.length ∧ keys ≠ [] ∧ keys.Nodup ∧
        (∃ T' : Trie N, T'.WF ∧ T'.loc cfg.hasher = r ∧ (∀ i ∈ T'.inputs cfg.hasher, U i) ∧
          Represents cfg T' (M.assign keys values) ∧ (W → Stored cfg.hasher (C.view s) T')) ∧
        Placed C.toG U v0 s ∧ C.pending s = View.empty N)
      (Placed C.toG U v0) := by
  by_cases hlen : keys.length = values.length
  swap
  · unfold insert Ends
    rw [if_pos hlen]
    exact ⟨.inl ⟨⟨.inl ⟨_, rfl⟩, fun _ => .inl hlen⟩, id⟩, hs⟩
  by_cases hne : keys = []
  · unfold insert Ends
    rw [if_neg (by simpa using hlen), if_pos (by simp [hne])]
    exact ⟨.inl ⟨⟨.inl ⟨_, rfl⟩, fun _ => .inr (.inl hne)⟩, id⟩, hs⟩
  obtain ⟨rfl, hpt, hM⟩ := hpt
  have hbatch : BatchOk cfg.pp keys pt := by
    intro T hT
    obtain ⟨h1, h2, h3⟩ := hpt T hT
    exact ⟨h1, fun k hk => hns (by simp [hT]) k hk T h1 h3⟩
  have hndup : ((blocksOf cfg.pp (sortKeys keys) (encOf cfg keys values) pt).map Trie.key).Nodup →
      keys.Nodup := by
    intro h2
    have h3 : ((leaves (sortKeys keys) (encOf cfg keys values)).map Trie.key).Nodup := by
      cases pt with
      | none => exact h2
      | some T =>
        simp only [blocksOf, List.map_append] at h2
        exact h2.of_append_left
    have h4 : (leaves (sortKeys keys) (encOf cfg keys values)).map Trie.key = sortKeys keys := by
      simp [leaves, Function.comp_def, Trie.key]
    rw [h4] at h3
    exact (sortKeys_perm keys).nodup_iff.1 h3
  have hasmNodup : ∀ ts' T', ts'.Perm (blocksOf cfg.pp (sortKeys keys) (encOf cfg keys values) pt) →
      Assembled ts' T' → keys.Nodup := fun ts' T' hp hasm =>
    hndup (((hp.map _).nodup_iff).1 (hasm.sorted.imp Arr.ne_of_lt))
  have henc : ∀ k ∈ keys, encodedOf cfg (valueMap keys values) k = .ok (encOf cfg keys values k) ∨
      ∃ e, encodedOf cfg (valueMap keys values) k = .error e ∧
        (InsertEx cfg values e ∧ (W → BadBatch cfg M keys values)) := by
    intro k hk
    rcases encodedOf_cases cfg hlen hk with ⟨h1, _⟩ | ⟨v, hv, e, h1, h2⟩
    · exact .inl h1
    · exact .inr ⟨e, h2, .inr ⟨v, hv, h1⟩, fun _ => .inr (.inr (.inr (.inl ⟨v, hv, e, h1⟩)))⟩
  have hleafU : ∀ k ∈ keys,
      encodedOf cfg (valueMap keys values) k = .ok (encOf cfg keys values k) →
      ∀ i ∈ (Trie.leaf k (encOf cfg keys values k)).inputs cfg.hasher, U i := by
    intro k hk hok i hi
    rcases encodedOf_cases cfg hlen hk with ⟨_, h⟩ | ⟨v, _, e, _, h⟩
    · exact hin i (mem_hashedBy h i hi)
    · rw [hok] at h; cases h
  have hmk : ((sortKeys keys).map (fun k => (k, encOf cfg keys values k))).map
      (fun e => Trie.leaf e.1 e.2) = leaves (sortKeys keys) (encOf cfg keys values) := by
    simp [leaves, Function.comp_def]
  have hdup : (∀ k ∈ keys,
      encodedOf cfg (valueMap keys values) k = .ok (encOf cfg keys values k)) →
      ¬ ((blocksOf cfg.pp (sortKeys keys) (encOf cfg keys values) pt).map Trie.key).Nodup →
      (InsertEx cfg values (.exception "Attempted to insert item with duplicate keys") ∧
        (W → BadBatch cfg M keys values)) := by
    intro _ hd
    refine ⟨.inl ⟨_, rfl⟩, fun _ => .inr (.inr (.inl ?_))⟩
    intro hnd
    exact hd (apart_keys (blocks_ok hN hpp hne hnd _ hbatch).1)
  have hheight : ∀ T, pt = some T → T.height ≤ cfg.depth ∨
      (InsertEx cfg values (.exception "Depth of merkle tree exceeded") ∧
        (W → BadBatch cfg M keys values)) := by
    intro T hT
    by_cases hd : HeightBelow M (cfg.depth + 1)
    · left
      have := hd.height (hpt T hT).1 (hpt T hT).2.2
      omega
    · exact .inr ⟨.inl ⟨_, rfl⟩, fun _ => .inr (.inr (.inr (.inr hd)))⟩
  rcases hW with hW | hW
  · refine ends_of_guard (C := C) hin (triple_conseq (insert_rule (cfg := gcfg U cfg)
      (C := C.guard U) (prev := pt)
      (Ex := fun e => InsertEx cfg values e ∧ (W → BadBatch cfg M keys values))
      (P := Placed (cfg := gcfg U cfg) (C.guard U) U v0)
      (Q := fun r s => keys.length = values.length ∧ keys ≠ [] ∧ keys.Nodup ∧
        (∃ T' : Trie N, T'.WF ∧ T'.loc cfg.hasher = r ∧ (∀ i ∈ T'.inputs cfg.hasher, U i) ∧
          Represents cfg T' (M.assign keys values) ∧ (W → Stored cfg.hasher (C.view s.1) T')) ∧
        Placed C.toG U v0 s.1 ∧ C.pending s.1 = View.empty N)
      (E := Placed (cfg := gcfg U cfg) (C.guard U) U v0) hN hpp hlen hne henc
      (JL := fun done s => Kept (cfg := gcfg U cfg) (C.guard U) U v0
        (done.map (fun e => Trie.leaf e.1 e.2)) s)
      (JT := fun K _ s => Kept (cfg := gcfg U cfg) (C.guard U) U v0
          (leaves (sortKeys keys) (encOf cfg keys values) ++ K) s)
      (Fact := fun _ _ _ => True)
      (JM := Kept (cfg := gcfg U cfg) (C.guard U) U v0)
      ?_ ?_ ?_ ?_ ?_ ?_ ?_ ?_ ?_) (fun _ h => h) (fun _ _ h => h) (fun _ h => h.plain)) hs.guard
    · intro s hs
      exact ⟨hs, by simp⟩
    · intro done k hk _ hok
      refine triple_conseq (kept_leafBody (cfg := gcfg U cfg) hU (hleafU k hk hok)
        (done.map (fun e => Trie.leaf e.1 e.2))) (fun _ h => h) ?_ (fun _ h => h)
      rintro r s ⟨h1, h2⟩
      exact ⟨h1, by simpa using h2⟩
    · intro done s hs
      exact hs.1
    · rintro rfl s hs
      rw [hmk] at hs
      simpa using hs
    · rintro - T rfl
      obtain ⟨h1, h2, h3⟩ := hpt T rfl
      refine ⟨h1.norm, hheight T rfl, ?_, ?_⟩
      · intro s hs
        rw [hmk] at hs
        simpa using hs
      · exact kept_travStep (cfg := gcfg U cfg) hU _ h1.norm h2 (hW T rfl)
    · intro hall hd
      exact ⟨hdup hall hd, fun K s hs => hs.1⟩
    · exact kept_flushStep (cfg := gcfg U cfg) hU
    · intro hall ts' T' hp hasm
      refine ⟨kept_mergeStep (cfg := gcfg U cfg) hU (guardDb_guards U cfg.db)
        (assembled_norm (fun T hT => (hpt T hT).1.norm) hp hasm), ?_⟩
      intro K s hK hs
      exact ⟨hs.1, fun t ht => hs.2 t (hK.mem_iff.1 ht)⟩
    · intro ts' T' hall hp hasm s hs hpend
      have hnd := hasmNodup ts' T' hp hasm
      obtain ⟨h1, h2⟩ := assembled_batch hN hpp hne hnd hbatch hp hasm
      have hst := hs.2 T' (by simp)
      have hst' : Stored cfg.hasher (C.view s.1) T' := by
        have h := settled_of_pending_empty (cfg := gcfg U cfg) (C := C.guard U) hpend
        rw [h] at hst
        exact hst
      exact ⟨hlen, hne, hnd, ⟨T', h1, rfl, (hst'.honest hU hs.1.view).2,
        represents_assign hlen hnd hM hall h2, fun _ => hst'⟩, hs.1.plain, hpend⟩
  · have hEx : ∀ msg, InsertEx cfg values (.exception msg) ∧ (W → BadBatch cfg M keys values) :=
      fun msg => ⟨.inl ⟨msg, rfl⟩, fun h => absurd h hW⟩
    refine ends_of_guard (C := C) hin (triple_conseq (insert_rule (cfg := gcfg U cfg)
      (C := C.guard U) (prev := pt)
      (Ex := fun e => InsertEx cfg values e ∧ (W → BadBatch cfg M keys values))
      (P := Placed (cfg := gcfg U cfg) (C.guard U) U v0)
      (Q := fun r s => keys.length = values.length ∧ keys ≠ [] ∧ keys.Nodup ∧
        (∃ T' : Trie N, T'.WF ∧ T'.loc cfg.hasher = r ∧ (∀ i ∈ T'.inputs cfg.hasher, U i) ∧
          Represents cfg T' (M.assign keys values) ∧ (W → Stored cfg.hasher (C.view s.1) T')) ∧
        Placed C.toG U v0 s.1 ∧ C.pending s.1 = View.empty N)
      (E := Placed (cfg := gcfg U cfg) (C.guard U) U v0) hN hpp hlen hne henc
      (JL := fun done s => Known (cfg := gcfg U cfg) (C.guard U) U v0
        (done.map (fun e => Trie.leaf e.1 e.2)) s)
      (JT := fun K _ s => Known (cfg := gcfg U cfg) (C.guard U) U v0
        (leaves (sortKeys keys) (encOf cfg keys values) ++ K) s)
      (Fact := fun _ _ _ => True)
      (JM := Known (cfg := gcfg U cfg) (C.guard U) U v0)
      ?_ ?_ ?_ ?_ ?_ ?_ ?_ ?_ ?_) (fun _ h => h) (fun _ _ h => h) (fun _ h => h.plain)) hs.guard
    · intro s hs
      exact ⟨hs, by simp⟩
    · intro done k hk _ hok
      refine triple_conseq (known_leafBody (cfg := gcfg U cfg) hU (hleafU k hk hok)
        (done.map (fun e => Trie.leaf e.1 e.2))) (fun _ h => h) ?_ (fun _ h => h)
      rintro r s ⟨h1, h2⟩
      exact ⟨h1, by simpa using h2⟩
    · intro done s hs
      exact hs.1
    · rintro rfl s hs
      rw [hmk] at hs
      simpa using hs
    · rintro - T rfl
      obtain ⟨h1, h2, h3⟩ := hpt T rfl
      refine ⟨h1.norm, hheight T rfl, ?_, ?_⟩
      · intro s hs
        rw [hmk] at hs
        simpa using hs
      · exact known_travStep (cfg := gcfg U cfg) hU hEx _ h1.norm h2
    · intro hall hd
      exact ⟨hdup hall hd, fun K s hs => hs.1⟩
    · exact known_flushStep (cfg := gcfg U cfg) hU
    · intro hall ts' T' hp hasm
      refine ⟨known_mergeStep (cfg := gcfg U cfg) hU (guardDb_guards U cfg.db)
        (assembled_norm (fun T hT => (hpt T hT).1.norm) hp hasm), ?_⟩
      intro K s hK hs
      exact ⟨hs.1, fun t ht => hs.2 t (hK.mem_iff.1 ht)⟩
    · intro ts' T' hall hp hasm s hs hpend
      have hnd := hasmNodup ts' T' hp hasm
      obtain ⟨h1, h2⟩ := assembled_batch hN hpp hne hnd hbatch hp hasm
      exact ⟨hlen, hne, hnd, ⟨T', h1, rfl, hs.2 T' (by simp),
        represents_assign hlen hnd hM hall h2, fun h => absurd h hW⟩, hs.1.plain, hpend⟩

/-! ## Histories -/

theorem Events.calls {H : List (HIn N)} {L : Ledger N V} {s : σ} (h : Events cfg C H L s) :
    Calls cfg C H s := by
  induction h with
  | start h1 h2 => exact .start h1 h2
  | insertAt _ hrun ih => exact .insertAt ih hrun
  | goodAt _ _ _ hrun ih => exact .insertAt ih hrun
  | remove _ hrun ih => exact .remove ih hrun
  | crashInsertAt _ hrun ih => exact .crashInsertAt ih hrun
  | crashRemove _ hrun ih => exact .crashRemove ih hrun
  | reopen _ h1 h2 ih => exact .reopen ih h1 h2

/-- `r` is the root prescribed for `M`, with inputs in `U`. -/
def IsRecord (cfg : Config N σ V) (U : HIn N → Prop) (r : Arr N) (M : Contents N V) : Prop :=
  ∃ T : Trie N, T.WF ∧ T.loc cfg.hasher = r ∧ (∀ i ∈ T.inputs cfg.hasher, U i) ∧
    Represents cfg T M

theorem IsRecord.mono {U' : HIn N → Prop} (h : ∀ i, U i → U' i) {r : Arr N} {M : Contents N V}
    (hr : IsRecord cfg U r M) : IsRecord cfg U' r M := by
  obtain ⟨T, h1, h2, h3, h4⟩ := hr
  exact ⟨T, h1, h2, fun i hi => h i (h3 i hi), h4⟩

theorem Ledger.Prev.trie {L : Ledger N V} (hL : ∀ e ∈ L, IsRecord cfg U e.1 e.2)
    {prev : Option (Arr N)} {M : Contents N V} (h : L.Prev prev M) :
    ∃ pt, PrevTrie cfg U pt prev M := by
  cases prev with
  | none =>
    have h : M = Contents.empty := h
    subst h
    exact ⟨none, prevTrie_none⟩
  | some r =>
    obtain ⟨T, h1, h2, h3, h4⟩ := hL _ h
    change T.loc cfg.hasher = r at h2
    subst h2
    exact ⟨some T, prevTrie_some h1 h3 h4⟩

theorem events_records (hN : 0 < N) (hpp : cfg.pp.Lawful) {H : List (HIn N)} {L : Ledger N V} {s : σ}
    (h : Events cfg C H L s) : CollisionFree cfg.hasher (Among H) →
      ∀ e ∈ L, IsRecord cfg (Among H) e.1 e.2 := by
  induction h with
  | start h1 h2 => intro _; simp
  | @insertAt d H L s s' prev keys values res _ hrun ih =>
    intro hU
    have hsub : ∀ i, Among H i → Among (hashedBy (cfg.withDepth d) prev keys values s ++ H) i :=
      fun i hi => List.mem_append_right _ hi
    exact fun e he => (ih (hU.mono hsub) e he).mono hsub
  | @goodAt d H L s s' prev M keys values r hev hprev hns hrun ih =>
    intro hU
    have hsub : ∀ i, Among H i → Among (hashedBy (cfg.withDepth d) prev keys values s ++ H) i :=
      fun i hi => List.mem_append_right _ hi
    have hL := fun e he => (ih (hU.mono hsub) e he).mono hsub
    have hi := (calls_inPlace (C := C) hN hpp hev.calls (hU.mono hsub)).mono hsub
    obtain ⟨pt, hpt⟩ := hprev.trie hL
    have := insert_record (cfg := cfg.withDepth d) (C := C) (v0 := C.view s) hN hpp hU (keys := keys) (values := values)
      (fun i hi => List.mem_append_left _ hi) ⟨hi.1, hi.2, View.Ext.refl _⟩ hpt
      (fun _ => hns) False (.inr id)
    unfold Ends at this
    rw [hrun] at this
    obtain ⟨-, -, -, -, ⟨T', h1, h2, h3, h4, -⟩, -⟩ := this
    intro e he
    rcases List.mem_cons.1 he with rfl | he
    · exact ⟨T', h1, h2, h3, h4⟩
    · exact hL e he
  | remove _ _ ih => exact ih
  | @crashInsertAt d H L s s' n n' prev keys values e _ hrun ih =>
    intro hU
    have hsub : ∀ i, Among H i → Among (hashedBy (cfg.withDepth d).crash prev keys values (s, n) ++ H) i :=
      fun i hi => List.mem_append_right _ hi
    exact fun e he => (ih (hU.mono hsub) e he).mono hsub
  | crashRemove _ _ ih => exact ih
  | reopen _ _ _ ih => exact ih

/-- The version of a ledger entry, of which nodes may be missing. -/
theorem events_remnant (hN : 0 < N) (hpp : cfg.pp.Lawful) {H : List (HIn N)} {L : Ledger N V} {s : σ}
    (h : Events cfg C H L s) (hU : CollisionFree cfg.hasher (Among H)) {r : Arr N}
    {M : Contents N V} (hr : (r, M) ∈ L) :
    ∃ T : Trie N, IsRemnant cfg (C.view s) T r M ∧ ∀ i ∈ T.inputs cfg.hasher, i ∈ H := by
  obtain ⟨T, h1, h2, h3, h4⟩ := events_records hN hpp h hU _ hr
  exact ⟨T, ⟨h1, h2, (calls_inPlace hN hpp h.calls hU).1.remains hU h1.norm h3, h4⟩, h3⟩

/-! ## Any root -/

/-- A root under which something is read is the root of a tree. -/
theorem tree_of_getOne {s : σ} (hv : Honest cfg.hasher U (C.view s)) {r k : Arr N} {x : V}
    (h : getOne cfg s r k = .ok (some x)) :
    ∃ T : Trie N, T.Norm ∧ T.loc cfg.hasher = r ∧ ∀ i ∈ T.inputs cfg.hasher, U i := by
  unfold getOne getOneLoop at h
  rw [if_neg (by omega)] at h
  cases hg : cfg.db.getNode s r with
  | error e => rw [hg] at h; cases h
  | ok o =>
    have ho := C.getNode_ok hg
    cases o with
    | none => rw [hg] at h; cases h
    | some n =>
      rcases (hv r n ho.symm).2 with ⟨k', v, _, h2, _⟩ | ⟨t, h1, h2, h3, h4⟩
      · rw [hg] at h
        simp [h2] at h
      · exact ⟨t, h1, h2.symm, h4⟩

/-- What is read under a root is what its tree prescribes. -/
theorem getOne_remains (hN : 0 < N) {s : σ} {T : Trie N} (hn : T.Norm)
    (hst : Remains cfg.hasher (C.view s) T) {k : Arr N} {x : V}
    (h : getOne cfg s (T.loc cfg.hasher) k = .ok (some x)) :
    PathStored cfg.hasher (C.view s) k T ∧ readOne cfg k T 0 = .ok (some x) := by
  refine ⟨getOneLoop_path hN s k T _ 0 hn hst h, ?_⟩
  have h' := getOneLoop_remains (C := C) hN s k T (cfg.depth + 2) 0 hn hst (by omega) (by omega)
  change Outcome C s (getOne cfg s (T.loc cfg.hasher) k) _ ∨
    (_ ∧ getOne cfg s (T.loc cfg.hasher) k = _) at h'
  rw [h] at h'
  rcases h' with (h' | ⟨-, msg, h'⟩) | h'
  · exact h'.symm
  · cases h'
  · cases h'.2

/-- If the way to a key is there, what its tree prescribes is read. -/
theorem getOne_of_path (hN : 0 < N) {s : σ} {T : Trie N} (hn : T.Norm)
    (hst : Remains cfg.hasher (C.view s) T) {k : Arr N}
    (hp : PathStored cfg.hasher (C.view s) k T) :
    Outcome C s (getOne cfg s (T.loc cfg.hasher) k) (readOne cfg k T 0) := by
  rcases getOneLoop_remains (C := C) hN s k T (cfg.depth + 2) 0 hn hst (by omega) (by omega)
    with h | h
  · exact h
  · exact absurd hp h.1

theorem tree_of_proof {s : σ} (hv : Honest cfg.hasher U (C.view s)) {r k : Arr N}
    {p : List (Arr N × Bool)} (h : inclusionProof cfg s r k = .ok p) :
    ∃ T : Trie N, T.Norm ∧ T.loc cfg.hasher = r ∧ ∀ i ∈ T.inputs cfg.hasher, U i := by
  unfold inclusionProof proofLoop at h
  rw [if_neg (by omega)] at h
  cases hg : cfg.db.getNode s r with
  | error e => rw [hg] at h; cases h
  | ok o =>
    have ho := C.getNode_ok hg
    cases o with
    | none => rw [hg] at h; cases h
    | some n =>
      rcases (hv r n ho.symm).2 with ⟨k', v, _, h2, _⟩ | ⟨t, h1, h2, h3, h4⟩
      · rw [hg] at h
        simp [h2] at h
      · exact ⟨t, h1, h2.symm, h4⟩

theorem proof_remains (hN : 0 < N) {s : σ} {T : Trie N} (hn : T.Norm)
    (hst : Remains cfg.hasher (C.view s) T) {k : Arr N} {p : List (Arr N × Bool)}
    (h : inclusionProof cfg s (T.loc cfg.hasher) k = .ok p) :
    PathStored cfg.hasher (C.view s) k T ∧ readProof cfg k T 0 = .ok p := by
  unfold inclusionProof at h
  cases hl : proofLoop cfg s k (cfg.depth + 2) [T.loc cfg.hasher] [] false 0 with
  | error e => rw [hl] at h; cases h
  | ok q =>
    rw [hl] at h
    have hp := proofLoop_path hN s k T _ 0 _ hn hst hl
    refine ⟨hp, ?_⟩
    rcases proofLoop_remains (C := C) hN s k T (cfg.depth + 2) 0 [] hn hst (by omega) (by omega)
      with (h' | ⟨-, msg, h'⟩) | h'
    · rw [hl] at h'
      cases hr : readProof cfg k T 0 with
      | error e => rw [hr] at h'; cases h'
      | ok p' =>
        rw [hr] at h'
        cases h'
        cases h
        simp
    · rw [hl] at h'; cases h'
    · exact absurd hp h'.1

theorem proof_of_path (hN : 0 < N) {s : σ} {T : Trie N} (hn : T.Norm)
    (hst : Remains cfg.hasher (C.view s) T) {k : Arr N}
    (hp : PathStored cfg.hasher (C.view s) k T) :
    Outcome C s (inclusionProof cfg s (T.loc cfg.hasher) k) (readProof cfg k T 0) := by
  unfold inclusionProof
  rcases proofLoop_remains (C := C) hN s k T (cfg.depth + 2) 0 [] hn hst (by omega) (by omega)
    with (h' | ⟨hal, msg, h'⟩) | h'
  · left
    rw [h']
    cases readProof cfg k T 0 <;> simp
  · right
    rw [h']
    exact ⟨hal, msg, rfl⟩
  · exact absurd hp h'.1

/-- What a tree prescribes does not depend on the depth limit, once it prescribes a value. -/
theorem readOne_unique {σ' : Type} {cfg' : Config N σ' V} (hdec : cfg'.decode = cfg.decode)
    {k : Arr N} {v v' : V} : ∀ (t : Trie N) (d : Nat), readOne cfg k t d = .ok (some v) →
    readOne cfg' k t d = .ok (some v') → v' = v := by
  intro t
  induction t with
  | leaf k' b =>
    intro d h h'
    unfold readOne at h h'
    rw [hdec] at h'
    split at h
    · cases h
    split at h'
    · cases h'
    split at h
    · cases h
    rename_i hk
    rw [if_neg hk] at h'
    split at h
    · cases h
    split at h'
    · cases h'
    cases hb : cfg.decode b with
    | error e => rw [hb] at h; cases h
    | ok x => rw [hb] at h h'; cases h; cases h'; rfl
  | node l r ihl ihr =>
    intro d h h'
    unfold readOne at h h'
    split at h
    · cases h
    split at h'
    · cases h'
    split at h
    · cases h
    · rename_i hk
      rw [if_neg hk] at h'
      split at h
      · rename_i hb
        rw [if_pos hb] at h'
        exact ihr _ h h'
      · rename_i hb
        rw [if_neg hb] at h'
        exact ihl _ h h'

@[inherit_doc readOne_unique]
theorem readProof_unique {σ' : Type} {cfg' : Config N σ' V} (hhash : cfg'.hasher = cfg.hasher)
    {k : Arr N} {p p' : List (Arr N × Bool)} : ∀ (t : Trie N) (d : Nat),
    readProof cfg k t d = .ok p → readProof cfg' k t d = .ok p' → p' = p := by
  intro t
  induction t generalizing p p' with
  | leaf k' b =>
    intro d h h'
    unfold readProof at h h'
    rw [hhash] at h'
    split at h
    · cases h
    split at h'
    · cases h'
    split at h
    · cases h
    rename_i hk
    rw [if_neg hk] at h'
    split at h
    · cases h
    split at h'
    · cases h'
    cases h; cases h'; rfl
  | node l r ihl ihr =>
    intro d h h'
    unfold readProof at h h'
    rw [hhash] at h'
    split at h
    · cases h
    split at h'
    · cases h'
    split at h
    · cases h
    rename_i hk
    rw [if_neg hk] at h'
    split at h
    · rename_i hb
      rw [if_pos hb] at h'
      cases e1 : readProof cfg k r (d + 1) with
      | error e => rw [e1] at h; cases h
      | ok q =>
        cases e2 : readProof cfg' k r (d + 1) with
        | error e => rw [e2] at h'; cases h'
        | ok q' =>
          rw [e1] at h; rw [e2] at h'
          cases h; cases h'
          rw [ihr _ e1 e2]
    · rename_i hb
      rw [if_neg hb] at h'
      cases e1 : readProof cfg k l (d + 1) with
      | error e => rw [e1] at h; cases h
      | ok q =>
        cases e2 : readProof cfg' k l (d + 1) with
        | error e => rw [e2] at h'; cases h'
        | ok q' =>
          rw [e1] at h; rw [e2] at h'
          cases h; cases h'
          rw [ihl _ e1 e2]

/-! ## Inserts that succeed -/

/-- In any database, an insert on top of a version that is there succeeds. -/
theorem good_insert_version (hc : Sane cfg) {U : HIn N → Prop} (hU : CollisionFree cfg.hasher U)
    {s : σ} (hi : InPlace C U s) (hs : C.alive s) {pt : Option (Trie N)} {prev : Option (Arr N)}
    {M : Contents N V} (hpt : PrevTrie cfg U pt prev M)
    (hd : HeightBelow M (cfg.depth + 1)) {keys : List (Arr N)} {values : List V}
    (hns : prev ≠ none → Handled cfg M keys)
    (hst : ∀ T, pt = some T → Stored cfg.hasher (C.view s) T)
    (hlen : keys.length = values.length) (hne : keys ≠ []) (hnd : keys.Nodup)
    (henc : ∀ v ∈ values, ∃ b, cfg.encode v = .ok b)
    (hin : ∀ i ∈ hashedBy cfg prev keys values s, U i) :
    ∃ r s', insert cfg prev keys values s = (.ok r, s') ∧ C.alive s' ∧
      C.pending s' = View.empty N ∧
      IsVersion cfg (C.view s') r (M.assign keys values) := by
  have := insert_record (C := C) (v0 := C.view s) hc.pos hc.pp hU hin
    ⟨hi.1, hi.2, View.Ext.refl _⟩ hpt hns True (.inl hst)
  unfold Ends at this
  rcases hrun : insert cfg prev keys values s with ⟨res, s'⟩
  rw [hrun] at this
  cases res with
  | error e =>
    exfalso
    rcases this.1 with ⟨⟨-, hb⟩, -⟩ | ⟨h1, -⟩
    · rcases hb trivial with hb | hb | hb | ⟨v, hv, e, he⟩ | hb
      · exact hb hlen
      · exact hne hb
      · exact hb hnd
      · obtain ⟨b, hb⟩ := henc v hv
        rw [hb] at he; cases he
      · exact hb hd
    · exact h1 hs
  | ok r =>
    obtain ⟨hs', -, -, -, ⟨T', h1, h2, -, h4, h5⟩, -, hp⟩ := this
    exact ⟨r, s', rfl, hs' hs, hp, T', h1, h2, h5 trivial, h4⟩

/-- What is readable stays readable when the database grows. -/
theorem reads_grow (hc : Sane cfg) {U : HIn N → Prop} (hU : CollisionFree cfg.hasher U) {s s' : σ}
    (hv : Honest cfg.hasher U (C.view s)) (hv' : Honest cfg.hasher U (C.view s'))
    (hext : (C.view s).Ext (C.view s')) (hs' : C.alive s') (r k : Arr N) :
    (∀ v, getOne cfg s r k = .ok (some v) → getOne cfg s' r k = .ok (some v)) ∧
    (∀ p, inclusionProof cfg s r k = .ok p →
      inclusionProof cfg s' r k = .ok p) := by
  constructor
  · intro v h1
    obtain ⟨T, hn, rfl, hi⟩ := tree_of_getOne hv h1
    obtain ⟨hp, e1⟩ := getOne_remains hc.pos hn (hv.remains hU hn hi) h1
    rcases getOne_of_path (C := C) hc.pos hn (hv'.remains hU hn hi) (hp.mono hext) with h | h
    · rw [h, e1]
    · exact absurd hs' h.1
  · intro p h1
    obtain ⟨T, hn, rfl, hi⟩ := tree_of_proof hv h1
    obtain ⟨hp, e1⟩ := proof_remains hc.pos hn (hv.remains hU hn hi) h1
    rcases proof_of_path (C := C) hc.pos hn (hv'.remains hU hn hi) (hp.mono hext) with h | h
    · rw [h, e1]
    · exact absurd hs' h.1

/-- The contents are read off the tree. -/
theorem readContents (hrt : RoundTrip cfg) {T : Trie N} (hT : T.WF) {M : Contents N V}
    (hM : Represents cfg T M) (k : Arr N) :
    (match T.lookup k with
      | none => none
      | some b => (cfg.decode b).toOption) = M k := by
  cases hl : T.lookup k with
  | none =>
    have h1 := hM k
    rw [hl] at h1
    cases hMk : M k with
    | none => rfl
    | some v => rw [hMk] at h1; obtain ⟨b, _, h2⟩ := h1; cases h2
  | some b =>
    obtain ⟨v, h1, h2, _⟩ := hM.decode hT hrt ((Trie.lookup_eq_some_iff hT).1 hl)
    simp only [h2, h1]
    rfl

end
end MerkleBit
