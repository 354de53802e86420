import Verif.Proof.Reached
import Verif.Spec.Whole
/-!
# Leaves and their data
-/

namespace MerkleBit
variable {N : Nat} {σ V : Type}

theorem View.Whole.overlay {v p : View N} (h : v.Whole) (hp : ∀ (x : Arr N) (n : Node N) (l : Leaf N),
    p x = some n → n.variant = .leaf l → v.overlay p l.data ≠ none) : (v.overlay p).Whole := by
  intro x n l hx hl
  unfold View.overlay at hx
  cases hpx : p x with
  | some m =>
    rw [hpx] at hx
    cases hx
    exact hp x _ l hpx hl
  | none =>
    rw [hpx] at hx
    have := h x n l hx hl
    unfold View.overlay
    cases p l.data <;> simp [this]

theorem View.Whole.empty : (View.empty N).Whole := by rintro x n l ⟨⟩

theorem View.overlay_none (v : View N) : v.overlay (View.empty N) = v := by
  funext x; simp [View.overlay, View.empty]

section
variable {db : Database N σ} {C : GContract db}

theorem settled_ne {s : σ} {x : Arr N} (h : C.view s x ≠ none) : C.settled s x ≠ none := by
  unfold GContract.settled View.overlay
  cases C.pending s x <;> simp [h]

theorem View.put_kept {v : View N} {x y : Arr N} {n : Node N} (h : v y ≠ none) : (v.put x n) y ≠ none := by
  unfold View.put
  split
  · simp
  · exact h

theorem Wrote.view_ne {s s' : σ} {x y : Arr N} {n : Node N} (hw : Wrote C s s' x n)
    (h : C.view s y ≠ none) : C.view s' y ≠ none := by
  rcases hw with ⟨_, h1, _⟩ | ⟨h1, _⟩
  · rw [h1]; exact View.put_kept h
  · rw [h1]; exact h

theorem Wrote.settled_eq {s s' : σ} {x : Arr N} {n : Node N} (hw : Wrote C s s' x n) :
    C.settled s' = (C.settled s).put x n := by
  unfold GContract.settled
  rcases hw with ⟨h0, h1, h2⟩ | ⟨h1, h2⟩
  · rw [h0, h1, h2, View.overlay_none, View.overlay_none]
  · rw [h1, h2]
    funext y
    unfold View.overlay View.put
    split <;> simp

theorem Wrote.settled_here {s s' : σ} {x : Arr N} {n : Node N} (hw : Wrote C s s' x n) :
    C.settled s' x ≠ none := by
  rw [hw.settled_eq]
  simp [View.put]

theorem View.Whole.put {v : View N} (h : v.Whole) {x : Arr N} {n : Node N}
    (hl : ∀ l, n.variant = .leaf l → v l.data ≠ none) : (v.put x n).Whole := by
  intro y m l hy hm
  apply View.put_kept
  unfold View.put at hy
  split at hy
  · cases hy
    exact hl l hm
  · exact h y m l hy hm

end

section
variable {cfg : Config N σ V} {C : GContract cfg.db} {U : HIn N → Prop} {v0 : View N}
  {Ex : Err → Prop}

/-- Everything is in its place, and leaves have their data. -/
structure PlacedW (C : GContract cfg.db) (U : HIn N → Prop) (v0 : View N) (s : σ) : Prop where
  placed : Placed C U v0 s
  whole : (C.view s).Whole
  wholeS : (C.settled s).Whole

theorem PlacedW.wrote (hU : CollisionFree cfg.hasher U) {s s' : σ} (h : PlacedW C U v0 s) {x : Arr N}
    {n : Node N} (hn : 0 < n.references) (hb : Belongs cfg.hasher U x n.variant)
    (hl : ∀ l, n.variant = .leaf l → C.settled s l.data ≠ none)
    (hw : Wrote C s s' x n) : PlacedW C U v0 s' := by
  refine ⟨h.placed.wrote hU hn hb hw, ?_, ?_⟩
  · rcases hw with ⟨h0, h1, h2⟩ | ⟨h1, h2⟩
    · rw [h1]
      refine h.whole.put fun l hv => ?_
      have := hl l hv
      unfold GContract.settled at this
      rwa [h0, View.overlay_none] at this
    · rw [h1]; exact h.whole
  · rw [hw.settled_eq]
    exact h.wholeS.put hl

theorem PlacedW.flushed (hU : CollisionFree cfg.hasher U) {s s' : σ} (h : PlacedW C U v0 s)
    (h1 : C.view s' = C.settled s) (h2 : C.pending s' = View.empty N) : PlacedW C U v0 s' := by
  refine ⟨h.placed.flushed hU h1 h2, ?_, ?_⟩
  · rw [h1]; exact h.wholeS
  · unfold GContract.settled
    rw [h2, View.overlay_none, h1]
    exact h.wholeS

theorem PlacedW.same {s s' : σ} (h : PlacedW C U v0 s) (h1 : C.view s' = C.view s)
    (h2 : C.pending s' = C.pending s ∨ C.pending s' = View.empty N) : PlacedW C U v0 s' := by
  refine ⟨h.placed.same h1 h2, by rw [h1]; exact h.whole, ?_⟩
  unfold GContract.settled
  rcases h2 with h2 | h2
  · rw [h1, h2]; exact h.wholeS
  · rw [h2, View.overlay_none, h1]; exact h.whole

/-- The subtrees `K` have known inputs. -/
def KnownW (C : GContract cfg.db) (U : HIn N → Prop) (v0 : View N) (K : List (Trie N)) (s : σ) :
    Prop := PlacedW C U v0 s ∧ ∀ t ∈ K, ∀ i ∈ t.inputs cfg.hasher, U i

theorem knownW_mergeStep (hU : CollisionFree cfg.hasher U) (hg : Guards U cfg.db) {T : Trie N}
    (hT : T.Norm) : MergeStep C Ex (KnownW C U v0) T (PlacedW C U v0) := by
  intro pre post a b _ hsub
  apply triple_insert_guard hg
  · rintro s s' ⟨hi, hK⟩ hin hw
    have hnew : ∀ i ∈ (Trie.node a b).inputs cfg.hasher, U i := by
      intro i hii
      simp only [Trie.inputs, List.mem_cons, List.mem_append] at hii
      rcases hii with rfl | hii | hii
      · exact hin _ rfl
      · exact hK a (by simp) i hii
      · exact hK b (by simp) i hii
    refine ⟨hi.wrote hU (by simp) (belongs_of_inputs (hsub.norm hT) hnew) (by simp [Trie.variant]) hw, ?_⟩
    intro t ht
    simp only [List.mem_append, List.mem_cons] at ht
    rcases ht with ht | rfl | ht
    · exact hK t (by simp [ht])
    · exact hnew
    · exact hK t (by simp [ht])
  · rintro s s' ⟨hi, hK⟩ h1 h2
    exact hi.same h1 (.inl h2)

theorem knownW_flushStep (hU : CollisionFree cfg.hasher U) :
    FlushStep C Ex (KnownW C U v0) (PlacedW C U v0) := by
  intro ts
  apply triple_batchWrite
  · rintro s s' ⟨hi, hK⟩ h1 h2
    exact ⟨⟨hi.flushed hU h1 h2, hK⟩, h2⟩
  · rintro s s' ⟨hi, hK⟩ h1 h2
    exact hi.same h1 h2

theorem knownW_travStep (hU : CollisionFree cfg.hasher U) {T : Trie N} {R : List (Trie N)}
    {keyMap : AMap (Arr N) (Arr N)} (hEx : ∀ msg, Ex (.exception msg)) (L : List (Trie N))
    (hn : T.Norm) (hT : ∀ i ∈ T.inputs cfg.hasher, U i) :
    TravStep cfg C Ex T R keyMap (fun K _ s => KnownW C U v0 (L ++ K) s)
      (fun t _ s => ∀ l, t.variant cfg.hasher = .leaf l → C.view s l.data ≠ none) (PlacedW C U v0) := by
  have hi : ∀ t : Trie N, t.Sub T → ∀ i ∈ t.inputs cfg.hasher, U i :=
    fun t hs i hi => hT i (hs.inputs i hi)
  have hb : ∀ t : Trie N, t.Sub T → Belongs cfg.hasher U (t.loc cfg.hasher) (t.variant cfg.hasher) :=
    fun t hs => belongs_of_inputs (hs.norm hn) (hi t hs)
  constructor
  · rintro K K' op op' s hK _ ⟨h2, h3⟩
    exact ⟨h2, fun t ht => h3 t (((hK.append_left L).mem_iff).2 ht)⟩
  · rintro K op t s ⟨h2, h3⟩ hsub
    cases hv : C.view s (t.loc cfg.hasher) with
    | none => exact .inr ⟨rfl, hEx⟩
    | some n =>
      have hvar := (h2.placed.view _ _ hv).2.unique hU (hb t hsub)
      exact .inl ⟨n, rfl, hvar, fun l hl => h2.whole _ n l hv (hvar.trans hl)⟩
  · rintro K op l r n s _ _ _ h; exact h
  · rintro K op k v loc n s _ _ _ _ h; exact h
  · intro K op t n cells hsub _ _ hv
    apply triple_insert
    · rintro s s' ⟨⟨h2, h3⟩, hf, hcells⟩ hw
      refine ⟨⟨h2.wrote hU (Nat.succ_pos _) (hb t hsub) (fun l hl => settled_ne (hf l hl)) hw, ?_⟩,
        fun c hc l hl => hw.view_ne (hcells c hc l hl)⟩
      intro u hu
      simp only [List.mem_append, List.mem_cons] at hu
      rcases hu with hu | rfl | hu
      · exact h3 u (by simp [hu])
      · exact hi u hsub
      · exact h3 u (by simp [hu])
    · rintro s s' ⟨⟨h2, h3⟩, -, -⟩ e1 e2
      exact h2.same e1 (.inl e2)
  · intro K op k v n cells hsub _ _ hv
    apply triple_insert
    · rintro s s' ⟨⟨h2, h3⟩, hf, hcells⟩ hw
      exact ⟨⟨h2.wrote hU (Nat.succ_pos _) (hb _ hsub) (fun l hl => settled_ne (hf l hl)) hw, h3⟩,
        fun c hc l hl => hw.view_ne (hcells c hc l hl)⟩
    · rintro s s' ⟨⟨h2, h3⟩, -, -⟩ e1 e2
      exact h2.same e1 (.inl e2)
  · rintro K op s ⟨h2, h3⟩
    exact h2

theorem knownW_leafBody (hU : CollisionFree cfg.hasher U) {k : Arr N}
    {v : List UInt8} (hk : ∀ i ∈ (Trie.leaf k v).inputs cfg.hasher, U i) (K : List (Trie N)) :
    Triple C Ex (KnownW C U v0 K) (leafBody cfg k v)
      (fun r s => r = (Trie.leaf k v).loc cfg.hasher ∧ KnownW C U v0 (K ++ [.leaf k v]) s)
      (PlacedW C U v0) := by
  have hd : Belongs cfg.hasher U (Trie.dataLoc cfg.hasher k v) (.data ⟨v⟩) :=
    belongs_data (hk _ (by simp [Trie.inputs]))
  have hl := belongs_of_inputs (H := cfg.hasher) (t := .leaf k v) (U := U) trivial hk
  unfold leafBody
  simp only [M.bind_eq, M.pure_eq]
  apply triple_bind (R := fun _ => KnownW C U v0 K)
    (triple_dbGet (fun _ h => h) (fun _ h => h.1))
  intro od
  apply triple_bind (R := fun _ => KnownW C U v0 K)
    (triple_dbGet (fun _ h => h) (fun _ h => h.1))
  intro ol
  apply triple_bind (R := fun _ s => KnownW C U v0 K s ∧ C.settled s (Trie.dataLoc cfg.hasher k v) ≠ none)
  · apply triple_insert
    · rintro s s' ⟨h1, h2⟩ hw
      exact ⟨⟨h1.wrote hU (by cases od <;> simp [nextRefs]) hd (by simp) hw, h2⟩, hw.settled_here⟩
    · rintro s s' ⟨h1, h2⟩ e1 e2
      exact h1.same e1 (.inl e2)
  · intro _
    apply triple_bind (R := fun _ s => KnownW C U v0 (K ++ [.leaf k v]) s)
    · apply triple_insert
      · rintro s s' ⟨⟨h1, h2⟩, h3⟩ hw
        refine ⟨h1.wrote hU (by cases ol <;> simp [nextRefs]) hl ?_ hw, ?_⟩
        · rintro l ⟨⟩
          exact h3
        intro t ht
        rw [List.mem_append, List.mem_singleton] at ht
        rcases ht with ht | rfl
        · exact h2 t ht
        · exact hk
      · rintro s s' ⟨⟨h1, h2⟩, -⟩ e1 e2
        exact h1.same e1 (.inl e2)
    · intro _
      exact triple_pure (fun s hs => ⟨rfl, hs⟩)

end

section
variable {cfg : Config N σ V} {C : DbContract cfg.db} {U : HIn N → Prop} {v0 : View N}

theorem PlacedW.guard {s : σ} {b : Bool} (h : PlacedW C.toG U v0 s) :
    PlacedW (cfg := gcfg U cfg) (C.guard U) U v0 (s, b) := ⟨⟨h.placed.view, h.placed.pending, h.placed.ext⟩, h.whole, h.wholeS⟩

theorem PlacedW.plain {s : σ × Bool} (h : PlacedW (cfg := gcfg U cfg) (C.guard U) U v0 s) :
    PlacedW C.toG U v0 s.1 := ⟨⟨h.placed.view, h.placed.pending, h.placed.ext⟩, h.whole, h.wholeS⟩

/-- Any call of `insert` keeps everything in its place. -/
theorem insert_placedW (hN : 0 < N) (hpp : cfg.pp.Lawful) (hU : CollisionFree cfg.hasher U)
    (prevRoot : Option (Arr N)) (keys : List (Arr N)) (values : List V) {s : σ}
    (hin : ∀ i ∈ hashedBy cfg prevRoot keys values s, U i) (hs : PlacedW C.toG U v0 s) :
    Ends C (InsertEx cfg values) (insert cfg prevRoot keys values) s
      (fun _ s' => PlacedW C.toG U v0 s') (PlacedW C.toG U v0) := by
  have hEx : ∀ msg, InsertEx cfg values (.exception msg) := fun msg => .inl ⟨msg, rfl⟩
  by_cases hlen : keys.length = values.length
  swap
  · unfold insert Ends
    rw [if_pos hlen]
    exact ⟨.inl ⟨hEx _, id⟩, hs⟩
  by_cases hne : keys = []
  · unfold insert Ends
    rw [if_neg (by simpa using hlen), if_pos (by simp [hne])]
    exact ⟨.inl ⟨hEx _, id⟩, hs⟩
  have henc : ∀ k ∈ keys, encodedOf cfg (valueMap keys values) k = .ok (encOf cfg keys values k) ∨
      ∃ e, encodedOf cfg (valueMap keys values) k = .error e ∧ InsertEx cfg values e := by
    intro k hk
    rcases encodedOf_cases cfg hlen hk with ⟨h1, _⟩ | ⟨v, hv, e, h1, h2⟩
    · exact .inl h1
    · exact .inr ⟨e, h2, .inr ⟨v, hv, h1⟩⟩
  have hleafU : ∀ k ∈ keys,
      encodedOf cfg (valueMap keys values) k = .ok (encOf cfg keys values k) →
      ∀ i ∈ (Trie.leaf k (encOf cfg keys values k)).inputs cfg.hasher, U i := by
    intro k hk hok i hi
    rcases encodedOf_cases cfg hlen hk with ⟨_, h⟩ | ⟨v, _, e, _, h⟩
    · exact hin i (mem_hashedBy h i hi)
    · rw [hok] at h; cases h
  have hleaf : ∀ (done : List (Arr N × List UInt8)), ∀ k ∈ keys,
      encodedOf (gcfg U cfg) (valueMap keys values) k = .ok (encOf cfg keys values k) →
      Triple (C.guard U) (InsertEx cfg values)
        (KnownW (cfg := gcfg U cfg) (C.guard U) U v0 (done.map (fun e => Trie.leaf e.1 e.2)))
        (leafBody (gcfg U cfg) k (encOf cfg keys values k))
        (fun r s => r = (Trie.leaf k (encOf cfg keys values k)).loc cfg.hasher ∧
          KnownW (cfg := gcfg U cfg) (C.guard U) U v0
            ((done ++ [(k, encOf cfg keys values k)]).map (fun e => Trie.leaf e.1 e.2)) s)
        (PlacedW (cfg := gcfg U cfg) (C.guard U) U v0) := by
    intro done k hk hok
    refine triple_conseq (knownW_leafBody (cfg := gcfg U cfg) hU (hleafU k hk hok)
      (done.map (fun e => Trie.leaf e.1 e.2))) (fun _ h => h) ?_ (fun _ h => h)
    rintro r s ⟨h1, h2⟩
    exact ⟨h1, by simpa using h2⟩
  have hmk : ((sortKeys keys).map (fun k => (k, encOf cfg keys values k))).map
      (fun e => Trie.leaf e.1 e.2) = leaves (sortKeys keys) (encOf cfg keys values) := by
    simp [leaves, Function.comp_def]
  have key : ∀ prev : Option (Trie N), prevRoot = prev.map (·.loc cfg.hasher) →
      (∀ T, prev = some T → T.Norm ∧ ∀ i ∈ T.inputs cfg.hasher, U i) →
      Ends C (InsertEx cfg values) (insert cfg prevRoot keys values) s
        (fun _ s' => PlacedW C.toG U v0 s') (PlacedW C.toG U v0) := by
    rintro prev rfl hprev
    refine ends_of_guard (C := C) hin (triple_conseq (insert_rule (cfg := gcfg U cfg)
      (C := C.guard U) (Ex := InsertEx cfg values) (prev := prev)
      (P := PlacedW (cfg := gcfg U cfg) (C.guard U) U v0)
      (Q := fun _ => PlacedW (cfg := gcfg U cfg) (C.guard U) U v0)
      (E := PlacedW (cfg := gcfg U cfg) (C.guard U) U v0) hN hpp hlen hne henc
      (JL := fun done s => KnownW (cfg := gcfg U cfg) (C.guard U) U v0
        (done.map (fun e => Trie.leaf e.1 e.2)) s)
      (JT := fun K _ s => KnownW (cfg := gcfg U cfg) (C.guard U) U v0
        (leaves (sortKeys keys) (encOf cfg keys values) ++ K) s)
      (Fact := fun t _ s => ∀ l, t.variant cfg.hasher = .leaf l → (C.guard U).view s l.data ≠ none)
      (JM := KnownW (cfg := gcfg U cfg) (C.guard U) U v0)
      ?_ (fun done k hk _ => hleaf done k hk) ?_ ?_ ?_ ?_ ?_ ?_ ?_) (fun _ h => h) (fun _ _ h => h.plain) (fun _ h => h.plain))
      hs.guard
    · intro s hs
      exact ⟨hs, by simp⟩
    · intro done s hs
      exact hs.1
    · rintro rfl s hs
      rw [hmk] at hs
      simpa using hs
    · rintro - T rfl
      obtain ⟨h1, h2⟩ := hprev T rfl
      refine ⟨h1, .inr (hEx _), ?_, ?_⟩
      · intro s hs
        rw [hmk] at hs
        simpa using hs
      · exact knownW_travStep (cfg := gcfg U cfg) hU hEx _ h1 h2
    · intro _ _
      exact ⟨hEx _, fun K s hs => hs.1⟩
    · exact knownW_flushStep (cfg := gcfg U cfg) hU
    · intro hall ts' T' hp hasm
      refine ⟨knownW_mergeStep (cfg := gcfg U cfg) hU (guardDb_guards U cfg.db)
        (assembled_norm (fun T hT => (hprev T hT).1) hp hasm), ?_⟩
      intro K s hK hs
      exact ⟨hs.1, fun t ht => hs.2 t (hK.mem_iff.1 ht)⟩
    · intro ts' T' _ _ _ s hs _
      exact hs.1
  cases prevRoot with
  | none => exact key none rfl (by simp)
  | some r =>
    by_cases hr : ∃ t : Trie N, t.loc cfg.hasher = r ∧ t.Norm ∧
        ∀ i ∈ t.inputs cfg.hasher, U i
    · obtain ⟨t, rfl, hn, ht⟩ := hr
      exact key (some t) rfl (fun T hT => by cases hT; exact ⟨hn, ht⟩)
    · have hdata : ∀ n, C.view s r = some n → ∃ d, n.variant = .data d := by
        intro n hn
        rcases (hs.placed.view r n hn).2 with ⟨k, v, _, h, _⟩ | ⟨t, hnorm, h, _, h3⟩
        · exact ⟨_, h⟩
        · exact absurd ⟨t, h.symm, hnorm, h3⟩ hr
      exact ends_of_guard (C := C) hin (triple_conseq (insert_rootless (cfg := gcfg U cfg)
        (C := C.guard U) (Ex := InsertEx cfg values) hlen hne
        (f := encOf cfg keys values) hEx henc
        (JL := fun done s => KnownW (cfg := gcfg U cfg) (C.guard U) U v0
          (done.map (fun e => Trie.leaf e.1 e.2)) s)
        (E := PlacedW (cfg := gcfg U cfg) (C.guard U) U v0) hleaf (fun _ _ h => h.1)
        (fun k hk hok h => hr ⟨_, h, trivial, hleafU k hk hok⟩)
        (Q := fun _ => PlacedW (cfg := gcfg U cfg) (C.guard U) U v0))
        (P' := fun s' => s' = (s, false))
        (by rintro _ rfl; exact ⟨⟨hs.guard, by simp⟩, hdata⟩)
        (fun _ _ h => h.plain) (fun _ h => h.plain)) rfl

end

/-! ## Removes -/

section
variable {cfg : Config N σ V} {C : DbContract cfg.db} {U : HIn N → Prop}

theorem View.NoData.del {v : View N} {d : Arr N} (h : v.NoData d) (x : Arr N) : (v.del x).NoData d := by
  intro y n l hy hl
  unfold View.del at hy
  split at hy
  · cases hy
  · exact h y n l hy hl

theorem View.NoData.put {v : View N} {d : Arr N} (h : v.NoData d) {x : Arr N} {n n' : Node N}
    (hx : v x = some n) (hv : n'.variant = n.variant) : (v.put x n').NoData d := by
  intro y m l hy hl
  unfold View.put at hy
  split at hy
  · next hyx =>
    subst hyx
    cases hy
    exact h y n l hx (hv ▸ hl)
  · exact h y m l hy hl

/-- A leaf in its place. -/
theorem Honest.leaf {H : Hasher N} {v : View N} (hv : Honest H U v) {x : Arr N} {n : Node N} {l : Leaf N}
    (hx : v x = some n) (hl : n.variant = .leaf l) :
    ∃ k b, x = (Trie.leaf k b).loc H ∧ l.data = Trie.dataLoc H k b ∧ U (.data k b) := by
  rcases (hv x n hx).2 with ⟨k, b, _, h2, _⟩ | ⟨t, _, h2, h3, h4⟩
  · rw [hl] at h2; cases h2
  · cases t with
    | leaf k b =>
      rw [hl] at h3
      cases h3
      exact ⟨k, b, h2, rfl, h4 _ (by simp [Trie.inputs])⟩
    | node a b => rw [hl] at h3; cases h3

/-- Where a tree is stored there is no data. -/
theorem Honest.noData (hU : CollisionFree cfg.hasher U) {v : View N} (hv : Honest cfg.hasher U v)
    {t : Trie N} (ht : ∀ i ∈ t.inputs cfg.hasher, U i) : v.NoData (t.loc cfg.hasher) := by
  intro x n l hx hl he
  obtain ⟨k, b, _, h2, h3⟩ := hv.leaf hx hl
  rw [h2, Trie.loc_eq] at he
  have := hU _ _ h3 (ht _ (Trie.rootIn_mem _ t)) he
  cases t <;> simp [Trie.rootIn] at this

/-- What holds while a tree is being removed. -/
structure Thin (C : DbContract cfg.db) (U : HIn N → Prop) (nodes : List (Arr N)) (s : σ) : Prop where
  view : Honest cfg.hasher U (C.view s)
  pending : Honest cfg.hasher U (C.pending s)
  whole : (C.view s).Whole
  firm : ∀ x m, C.pending s x = some m → ∃ n, C.view s x = some n ∧ 1 < n.references
  free : ∀ d ∈ nodes, (C.view s).NoData d

theorem Thin.settled (hU : CollisionFree cfg.hasher U) {nodes : List (Arr N)} {s : σ}
    (h : Thin C U nodes s) : (C.settled s).Whole := by
  refine h.whole.overlay fun x m l hx hl => ?_
  obtain ⟨n, hn, _⟩ := h.firm x m hx
  have hv := (h.view x n hn).2.unique hU (h.pending x m hx).2
  exact settled_ne (C := C.toG) (h.whole x n l hn (hv.trans hl))

theorem removeLoop_thin (hU : CollisionFree cfg.hasher U) {Ex : Err → Prop} (hfuel : Ex .outOfFuel) :
    ∀ (fuel : Nat) (nodes : List (Arr N)),
    Triple C.toG Ex (Thin C U nodes) (removeLoop cfg fuel nodes) (fun _ => Thin C U [])
      (Thin C U [])
  | 0, [] => triple_pure (fun _ h => h)
  | _ + 1, [] => triple_pure (fun _ h => h)
  | 0, _ :: _ => triple_throw hfuel (fun _ h => ⟨h.view, h.pending, h.whole, h.firm, by simp⟩)
  | fuel + 1, x :: nodes => by
    have hE : ∀ s, Thin C U (x :: nodes) s → Thin C U [] s :=
      fun s h => ⟨h.view, h.pending, h.whole, h.firm, by simp⟩
    rw [removeLoop]
    simp only [M.bind_eq]
    apply triple_bind (R := fun o s => Thin C U (x :: nodes) s ∧ C.toG.view s x = o)
      (triple_dbGet (fun s h => ⟨h, rfl⟩) (fun s h => hE s h))
    intro o
    cases o with
    | none =>
      exact triple_conseq (removeLoop_thin hU hfuel fuel nodes)
        (fun _ h => ⟨h.1.view, h.1.pending, h.1.whole, h.1.firm, fun d hd => h.1.free d (by simp [hd])⟩)
        (fun _ _ h => h) (fun _ h => h)
    | some n =>
      dsimp only
      have hrm : n.references - 1 = 0 → ∀ more : List (Arr N),
          (∀ s, Thin C U (x :: nodes) s → C.view s x = some n →
            ∀ d ∈ more, ((C.view s).del x).NoData d) →
          Triple C.toG Ex
          (fun s => Thin C U (x :: nodes) s ∧ C.toG.view s x = some n)
          ((cfg.db.remove x).bind (fun _ => removeLoop cfg fuel (nodes ++ more)))
          (fun _ => Thin C U []) (Thin C U []) := by
        intro h1 more hmore
        apply triple_bind (R := fun _ => Thin C U (nodes ++ more))
        · apply triple_remove
          · rintro s s' ⟨h, hx⟩ e1 e2
            change C.view s' = (C.view s).del x at e1
            change C.pending s' = C.pending s at e2
            change C.view s x = some n at hx
            refine ⟨?_, ?_, ?_, ?_, ?_⟩
            · rw [e1]; exact h.view.del
            · rw [e2]; exact h.pending
            · rw [e1]
              intro y m l hy hl
              have hnd := h.free x (by simp)
              unfold View.del at hy ⊢
              split at hy
              · cases hy
              · rw [if_neg (hnd y m l hy hl)]
                exact h.whole y m l hy hl
            · rw [e1, e2]
              intro y m hy
              obtain ⟨n', hn', h2⟩ := h.firm y m hy
              refine ⟨n', ?_, h2⟩
              unfold View.del
              rw [if_neg, hn']
              rintro rfl
              rw [hx] at hn'
              cases hn'
              omega
            · rw [e1]
              intro d hd
              rcases List.mem_append.1 hd with hd | hd
              · exact (h.free d (by simp [hd])).del x
              · exact hmore s h hx d hd
          · rintro s s' ⟨h, -⟩ e1 e2
            change C.view s' = C.view s at e1
            change C.pending s' = C.pending s at e2
            exact ⟨e1 ▸ h.view, e2 ▸ h.pending, e1 ▸ h.whole, by rw [e1, e2]; exact h.firm, by simp⟩
        · intro _
          exact removeLoop_thin hU hfuel fuel (nodes ++ more)
      split
      · next hz =>
        cases hv : n.variant with
        | branch b =>
          refine hrm hz [b.zero, b.one] fun s h hx d hd => ?_
          rcases (h.view x n hx).2 with ⟨_, _, _, h2, _⟩ | ⟨t, _, _, h3, h4⟩
          · rw [hv] at h2; cases h2
          · cases t with
            | leaf k b => rw [hv] at h3; cases h3
            | node l r =>
              rw [hv] at h3
              cases h3
              simp only [List.mem_cons, List.not_mem_nil, or_false] at hd
              rcases hd with rfl | rfl
              · exact (h.view.noData hU fun i hi => h4 i (by simp [Trie.inputs, hi])).del x
              · exact (h.view.noData hU fun i hi => h4 i (by simp [Trie.inputs, hi])).del x
        | leaf l =>
          refine hrm hz [l.data] fun s h hx d hd => ?_
          rw [List.mem_singleton] at hd
          subst hd
          intro y m l' hy hl' he
          unfold View.del at hy
          split at hy
          · cases hy
          · next hyx =>
            obtain ⟨k, b, h1, h2, h3⟩ := h.view.leaf hx hv
            obtain ⟨k', b', h1', h2', h3'⟩ := h.view.leaf hy hl'
            rw [h2, h2'] at he
            cases hU _ _ h3' h3 he
            exact hyx (h1'.trans h1.symm)
        | data d =>
          have := hrm hz [] (by simp)
          simpa using this
      · next hpos =>
        apply triple_bind (R := fun _ => Thin C U nodes)
        · apply triple_insert
          · rintro s s' ⟨h, hx⟩ hw
            change C.view s x = some n at hx
            have hb := (h.view x n hx).2
            have hpos' : 0 < n.references - 1 := Nat.pos_of_ne_zero hpos
            rcases hw with ⟨e0, e1, e2⟩ | ⟨e1, e2⟩
            · change C.view s' = (C.view s).put x _ at e1
              change C.pending s' = View.empty N at e2
              refine ⟨?_, ?_, ?_, ?_, ?_⟩
              · rw [e1]; exact h.view.put hpos' hb
              · rw [e2]; exact Honest.empty _ _
              · rw [e1]; exact h.whole.put fun l hl => h.whole x n l hx hl
              · rw [e2]; rintro y m ⟨⟩
              · rw [e1]
                exact fun d hd => (h.free d (by simp [hd])).put hx rfl
            · change C.view s' = C.view s at e1
              change C.pending s' = (C.pending s).put x _ at e2
              refine ⟨?_, ?_, ?_, ?_, ?_⟩
              · rw [e1]; exact h.view
              · rw [e2]; exact h.pending.put hpos' hb
              · rw [e1]; exact h.whole
              · rw [e1, e2]
                intro y m hy
                unfold View.put at hy
                split at hy
                · next hyx => subst hyx; exact ⟨n, hx, by omega⟩
                · exact h.firm y m hy
              · rw [e1]
                exact fun d hd => h.free d (by simp [hd])
          · rintro s s' ⟨h, -⟩ e1 e2
            change C.view s' = C.view s at e1
            change C.pending s' = C.pending s at e2
            exact ⟨e1 ▸ h.view, e2 ▸ h.pending, e1 ▸ h.whole, by rw [e1, e2]; exact h.firm, by simp⟩
        · intro _
          exact removeLoop_thin hU hfuel fuel nodes

/-- A remove that is not of the data of a leaf leaves leaves with their data. -/
theorem remove_whole (hU : CollisionFree cfg.hasher U) {r : Arr N} {s s' : σ} {res : Res Unit}
    (hs : InPlace C U s) (hp : C.pending s = View.empty N) (hw : (C.view s).Whole)
    (hr : (C.view s).NoData r) (hrun : remove cfg r s = (res, s')) :
    (C.view s').Whole ∧ (C.settled s').Whole := by
  have : Triple C.toG (fun _ => True) (Thin C U [r]) (remove cfg r)
      (fun _ s => (C.view s).Whole ∧ (C.settled s).Whole)
      (fun s => (C.view s).Whole ∧ (C.settled s).Whole) := by
    unfold remove
    simp only [M.bind_eq]
    apply triple_bind (triple_conseq (removeLoop_thin hU trivial _ _) (fun _ h => h) (fun _ _ h => h)
      (fun _ h => ⟨h.whole, h.settled hU⟩))
    intro _
    apply triple_batchWrite
    · intro s s' h e1 e2
      change C.view s' = C.settled s at e1
      change C.pending s' = View.empty N at e2
      refine ⟨e1 ▸ h.settled hU, ?_⟩
      unfold DbContract.settled
      rw [e2, View.overlay_none, e1]
      exact h.settled hU
    · intro s s' h e1 e2
      change C.view s' = C.view s at e1
      refine ⟨e1 ▸ h.whole, ?_⟩
      unfold DbContract.settled
      rcases e2 with e2 | e2
      · change C.pending s' = C.pending s at e2
        rw [e1, e2]; exact h.settled hU
      · change C.pending s' = View.empty N at e2
        rw [e2, View.overlay_none, e1]; exact h.whole
  have := this s ⟨hs.1, hs.2, hw, by rw [hp]; rintro x m ⟨⟩, by simpa using hr⟩
  rw [hrun] at this
  cases res with
  | ok a => exact this.2
  | error e =>
    rcases this with h | h
    · cases h
    · exact h.2

theorem Gentle.events {H : List (HIn N)} {L : Ledger N V} {s : σ} (h : Gentle cfg C H L s) :
    Events cfg C H L s := by
  induction h with
  | start h1 h2 => exact .start h1 h2
  | insertAt _ h1 ih => exact .insertAt ih h1
  | goodAt _ h1 h2 h3 ih => exact .goodAt ih h1 h2 h3
  | remove _ _ _ h1 ih => exact .remove ih h1
  | crashInsertAt _ h1 ih => exact .crashInsertAt ih h1
  | crashRemove _ _ _ h1 ih => exact .crashRemove ih h1
  | reopen _ h1 h2 ih => exact .reopen ih h1 h2

theorem Gentle.whole (hN : 0 < N) (hpp : cfg.pp.Lawful) {H : List (HIn N)} {L : Ledger N V} {s : σ}
    (h : Gentle cfg C H L s) : CollisionFree cfg.hasher (Among H) →
      (C.view s).Whole ∧ (C.settled s).Whole := by
  have hins : ∀ {d : Nat} {H : List (HIn N)} {L : Ledger N V} {s s' : σ} {prev : Option (Arr N)}
      {keys : List (Arr N)} {values : List V} {res : Res (Arr N)},
      Gentle cfg C H L s → MerkleBit.insert (cfg.withDepth d) prev keys values s = (res, s') →
      (CollisionFree cfg.hasher (Among H) → (C.view s).Whole ∧ (C.settled s).Whole) →
      CollisionFree cfg.hasher (Among (hashedBy (cfg.withDepth d) prev keys values s ++ H)) →
      (C.view s').Whole ∧ (C.settled s').Whole := by
    intro d H L s s' prev keys values res hev hrun ih hU
    have hsub : ∀ i, Among H i → Among (hashedBy (cfg.withDepth d) prev keys values s ++ H) i :=
      fun i hi => List.mem_append_right _ hi
    have hi := (calls_inPlace (C := C) hN hpp hev.events.calls (hU.mono hsub)).mono hsub
    obtain ⟨h1, h2⟩ := ih (hU.mono hsub)
    have := insert_placedW (cfg := cfg.withDepth d) (C := C) (v0 := C.view s) hN hpp hU prev keys values
      (s := s) (fun i hi => List.mem_append_left _ hi) ⟨⟨hi.1, hi.2, View.Ext.refl _⟩, h1, h2⟩
    unfold Ends at this
    rw [hrun] at this
    cases res with
    | ok r => exact ⟨this.2.whole, this.2.wholeS⟩
    | error e => exact ⟨this.2.whole, this.2.wholeS⟩
  induction h with
  | start h1 h2 =>
    intro _
    unfold DbContract.settled
    rw [h1, h2, View.overlay_none]
    exact ⟨View.Whole.empty, View.Whole.empty⟩
  | insertAt hev h1 ih => exact hins hev h1 ih
  | goodAt hev _ _ h3 ih => exact hins hev h3 ih
  | remove hev hp hr hrun ih =>
    intro hU
    exact remove_whole hU (calls_inPlace hN hpp hev.events.calls hU) hp (ih hU).1 hr hrun
  | @crashInsertAt d H L s s' n n' prev keys values e hev hrun ih =>
    intro hU
    have hsub : ∀ i, Among H i → Among (hashedBy (cfg.withDepth d).crash prev keys values (s, n) ++ H) i :=
      fun i hi => List.mem_append_right _ hi
    have hi := (calls_inPlace (C := C) hN hpp hev.events.calls (hU.mono hsub)).mono hsub
    obtain ⟨h1, h2⟩ := ih (hU.mono hsub)
    have := insert_placedW (cfg := (cfg.withDepth d).crash) (C := C.crash) (v0 := C.view s) hN hpp hU prev
      keys values (s := (s, n)) (fun i hi => List.mem_append_left _ hi)
      ⟨⟨hi.1, hi.2, View.Ext.refl _⟩, h1, h2⟩
    unfold Ends at this
    rw [hrun] at this
    exact ⟨this.2.whole, this.2.wholeS⟩
  | @crashRemove H L s s' n n' r e hev hp hr hrun ih =>
    intro hU
    exact remove_whole (cfg := cfg.crash) (C := C.crash) (U := Among H) hU (s := (s, n))
      (calls_inPlace hN hpp hev.events.calls hU) hp (ih hU).1 hr hrun
  | @reopen H L s s' _ h1 h2 ih =>
    intro hU
    unfold DbContract.settled
    rw [h1, h2, View.overlay_none]
    exact ⟨(ih hU).1, (ih hU).1⟩

end
end MerkleBit
