import Verif.Spec.Calls
import Verif.Proof.History
/-! # Content addressing, for inserts and removes -/

namespace MerkleBit
variable {N : Nat} {σ V : Type}

section
variable {cfg : Config N σ V} {C : GContract cfg.db} {U : HIn N → Prop} {v0 : View N}
  {Ex : Err → Prop}

/-- Everything is in its place; what the view held keeps its contents. -/
structure Placed (C : GContract cfg.db) (U : HIn N → Prop) (v0 : View N) (s : σ) : Prop where
  view : Honest cfg.hasher U (C.view s)
  pending : Honest cfg.hasher U (C.pending s)
  ext : v0.Ext (C.view s)

theorem Placed.settled {s : σ} (h : Placed C U v0 s) : Honest cfg.hasher U (C.settled s) :=
  h.view.overlay h.pending

theorem Placed.wrote (hU : CollisionFree cfg.hasher U) {s s' : σ} (h : Placed C U v0 s) {x : Arr N}
    {n : Node N} (hn : 0 < n.references) (hb : Belongs cfg.hasher U x n.variant)
    (hw : Wrote C s s' x n) : Placed C U v0 s' := by
  rcases hw with ⟨h0, h1, h2⟩ | ⟨h1, h2⟩
  · refine ⟨?_, ?_, ?_⟩
    · rw [h1]; exact h.view.put hn hb
    · rw [h2]; exact Honest.empty _ _
    · rw [h1]; exact h.ext.trans (Ext.put hU h.view hb)
  · refine ⟨?_, ?_, ?_⟩
    · rw [h1]; exact h.view
    · rw [h2]; exact h.pending.put hn hb
    · rw [h1]; exact h.ext

theorem Placed.flushed (hU : CollisionFree cfg.hasher U) {s s' : σ} (h : Placed C U v0 s)
    (h1 : C.view s' = C.settled s) (h2 : C.pending s' = View.empty N) : Placed C U v0 s' := by
  refine ⟨?_, ?_, ?_⟩
  · rw [h1]; exact h.settled
  · rw [h2]; exact Honest.empty _ _
  · rw [h1]; exact h.ext.trans (Ext.overlay hU h.view h.pending)

theorem Placed.same {s s' : σ} (h : Placed C U v0 s) (h1 : C.view s' = C.view s)
    (h2 : C.pending s' = C.pending s ∨ C.pending s' = View.empty N) : Placed C U v0 s' := by
  refine ⟨h1 ▸ h.view, ?_, h1 ▸ h.ext⟩
  rcases h2 with h2 | h2
  · rw [h2]; exact h.pending
  · rw [h2]; exact Honest.empty _ _

/-- The subtrees `K` have known inputs. -/
def Known (C : GContract cfg.db) (U : HIn N → Prop) (v0 : View N) (K : List (Trie N)) (s : σ) :
    Prop := Placed C U v0 s ∧ ∀ t ∈ K, ∀ i ∈ t.inputs cfg.hasher, U i

theorem known_mergeStep (hU : CollisionFree cfg.hasher U) (hg : Guards U cfg.db) {T : Trie N}
    (hT : T.Norm) : MergeStep C Ex (Known C U v0) T (Placed C U v0) := by
  intro pre post a b _ hsub
  apply triple_insert_guard hg
  · rintro s s' ⟨hi, hK⟩ hin hw
    have hnew : ∀ i ∈ (Trie.node a b).inputs cfg.hasher, U i := by
      intro i hii
      simp only [Trie.inputs, List.mem_cons, List.mem_append] at hii
      rcases hii with rfl | hii | hii
      · exact hin _ rfl
      · exact hK a (by simp) i hii
      · exact hK b (by simp) i hii
    refine ⟨hi.wrote hU (by simp) (belongs_of_inputs (hsub.norm hT) hnew) hw, ?_⟩
    intro t ht
    simp only [List.mem_append, List.mem_cons] at ht
    rcases ht with ht | rfl | ht
    · exact hK t (by simp [ht])
    · exact hnew
    · exact hK t (by simp [ht])
  · rintro s s' ⟨hi, hK⟩ h1 h2
    exact hi.same h1 (.inl h2)

theorem known_flushStep (hU : CollisionFree cfg.hasher U) :
    FlushStep C Ex (Known C U v0) (Placed C U v0) := by
  intro ts
  apply triple_batchWrite
  · rintro s s' ⟨hi, hK⟩ h1 h2
    exact ⟨⟨hi.flushed hU h1 h2, hK⟩, h2⟩
  · rintro s s' ⟨hi, hK⟩ h1 h2
    exact hi.same h1 h2

theorem known_travStep (hU : CollisionFree cfg.hasher U) {T : Trie N} {R : List (Trie N)}
    {keyMap : AMap (Arr N) (Arr N)} (hEx : ∀ msg, Ex (.exception msg)) (L : List (Trie N))
    (hn : T.Norm) (hT : ∀ i ∈ T.inputs cfg.hasher, U i) :
    TravStep cfg C Ex T R keyMap (fun K _ s => Known C U v0 (L ++ K) s)
      (fun _ _ _ => True) (Placed C U v0) := by
  have hi : ∀ t : Trie N, t.Sub T → ∀ i ∈ t.inputs cfg.hasher, U i :=
    fun t hs i hi => hT i (hs.inputs i hi)
  have hb : ∀ t : Trie N, t.Sub T → Belongs cfg.hasher U (t.loc cfg.hasher) (t.variant cfg.hasher) :=
    fun t hs => belongs_of_inputs (hs.norm hn) (hi t hs)
  constructor
  · rintro K K' op op' s hK _ ⟨h2, h3⟩
    exact ⟨h2, fun t ht => h3 t (((hK.append_left L).mem_iff).2 ht)⟩
  · rintro K op t s ⟨h2, h3⟩ hsub
    cases hv : C.view s (t.loc cfg.hasher) with
    | none => exact .inr ⟨rfl, hEx⟩
    | some n => exact .inl ⟨n, rfl, (h2.view _ _ hv).2.unique hU (hb t hsub), trivial⟩
  · rintro K op l r n s _ _ _ h; exact h
  · rintro K op k v loc n s _ _ _ _ h; exact h
  · intro K op t n cells hsub _ _ hv
    apply triple_insert
    · rintro s s' ⟨⟨h2, h3⟩, -, -⟩ hw
      refine ⟨⟨h2.wrote hU (Nat.succ_pos _) (hb t hsub) hw, ?_⟩, fun _ _ => trivial⟩
      intro u hu
      simp only [List.mem_append, List.mem_cons] at hu
      rcases hu with hu | rfl | hu
      · exact h3 u (by simp [hu])
      · exact hi u hsub
      · exact h3 u (by simp [hu])
    · rintro s s' ⟨⟨h2, h3⟩, -, -⟩ e1 e2
      exact h2.same e1 (.inl e2)
  · intro K op k v n cells hsub _ _ hv
    apply triple_insert
    · rintro s s' ⟨⟨h2, h3⟩, -, -⟩ hw
      exact ⟨⟨h2.wrote hU (Nat.succ_pos _) (hb _ hsub) hw, h3⟩, fun _ _ => trivial⟩
    · rintro s s' ⟨⟨h2, h3⟩, -, -⟩ e1 e2
      exact h2.same e1 (.inl e2)
  · rintro K op s ⟨h2, h3⟩
    exact h2

theorem known_leafBody (hU : CollisionFree cfg.hasher U) {k : Arr N}
    {v : List UInt8} (hk : ∀ i ∈ (Trie.leaf k v).inputs cfg.hasher, U i) (K : List (Trie N)) :
    Triple C Ex (Known C U v0 K) (leafBody cfg k v)
      (fun r s => r = (Trie.leaf k v).loc cfg.hasher ∧ Known C U v0 (K ++ [.leaf k v]) s)
      (Placed C U v0) := by
  have hd : Belongs cfg.hasher U (Trie.dataLoc cfg.hasher k v) (.data ⟨v⟩) :=
    belongs_data (hk _ (by simp [Trie.inputs]))
  have hl := belongs_of_inputs (H := cfg.hasher) (t := .leaf k v) (U := U) trivial hk
  unfold leafBody
  simp only [M.bind_eq, M.pure_eq]
  apply triple_bind (R := fun _ => Known C U v0 K)
    (triple_dbGet (fun _ h => h) (fun _ h => h.1))
  intro od
  apply triple_bind (R := fun _ => Known C U v0 K)
    (triple_dbGet (fun _ h => h) (fun _ h => h.1))
  intro ol
  apply triple_bind (R := fun _ => Known C U v0 K)
  · apply triple_insert
    · rintro s s' ⟨h1, h2⟩ hw
      exact ⟨h1.wrote hU (by cases od <;> simp [nextRefs]) hd hw, h2⟩
    · rintro s s' ⟨h1, h2⟩ e1 e2
      exact h1.same e1 (.inl e2)
  · intro _
    apply triple_bind (R := fun _ s => Known C U v0 (K ++ [.leaf k v]) s)
    · apply triple_insert
      · rintro s s' ⟨h1, h2⟩ hw
        refine ⟨h1.wrote hU (by cases ol <;> simp [nextRefs]) hl hw, ?_⟩
        intro t ht
        rw [List.mem_append, List.mem_singleton] at ht
        rcases ht with ht | rfl
        · exact h2 t ht
        · exact hk
      · rintro s s' ⟨h1, h2⟩ e1 e2
        exact h1.same e1 (.inl e2)
    · intro _
      exact triple_pure (fun s hs => ⟨rfl, hs⟩)

end

section
variable {cfg : Config N σ V} {C : DbContract cfg.db} {U : HIn N → Prop} {v0 : View N}

theorem Placed.guard {s : σ} {b : Bool} (h : Placed C.toG U v0 s) :
    Placed (cfg := gcfg U cfg) (C.guard U) U v0 (s, b) := ⟨h.view, h.pending, h.ext⟩

theorem Placed.plain {s : σ × Bool} (h : Placed (cfg := gcfg U cfg) (C.guard U) U v0 s) :
    Placed C.toG U v0 s.1 := ⟨h.view, h.pending, h.ext⟩

/-- Any call of `insert` keeps everything in its place. -/
theorem insert_placed (hN : 0 < N) (hpp : cfg.pp.Lawful) (hU : CollisionFree cfg.hasher U)
    (prevRoot : Option (Arr N)) (keys : List (Arr N)) (values : List V) {s : σ}
    (hin : ∀ i ∈ hashedBy cfg prevRoot keys values s, U i) (hs : Placed C.toG U v0 s) :
    Ends C (InsertEx cfg values) (insert cfg prevRoot keys values) s
      (fun _ s' => Placed C.toG U v0 s') (Placed C.toG U v0) := by
  have hEx : ∀ msg, InsertEx cfg values (.exception msg) := fun msg => .inl ⟨msg, rfl⟩
  by_cases hlen : keys.length = values.length
  swap
  · unfold insert Ends
    rw [if_pos hlen]
    exact ⟨.inl ⟨hEx _, id⟩, hs⟩
  by_cases hne : keys = []
  · unfold insert Ends
    rw [if_neg (by simpa using hlen), if_pos (by simp [hne])]
    exact ⟨.inl ⟨hEx _, id⟩, hs⟩
  have henc : ∀ k ∈ keys, encodedOf cfg (valueMap keys values) k = .ok (encOf cfg keys values k) ∨
      ∃ e, encodedOf cfg (valueMap keys values) k = .error e ∧ InsertEx cfg values e := by
    intro k hk
    rcases encodedOf_cases cfg hlen hk with ⟨h1, _⟩ | ⟨v, hv, e, h1, h2⟩
    · exact .inl h1
    · exact .inr ⟨e, h2, .inr ⟨v, hv, h1⟩⟩
  have hleafU : ∀ k ∈ keys,
      encodedOf cfg (valueMap keys values) k = .ok (encOf cfg keys values k) →
      ∀ i ∈ (Trie.leaf k (encOf cfg keys values k)).inputs cfg.hasher, U i := by
    intro k hk hok i hi
    rcases encodedOf_cases cfg hlen hk with ⟨_, h⟩ | ⟨v, _, e, _, h⟩
    · exact hin i (mem_hashedBy h i hi)
    · rw [hok] at h; cases h
  have hleaf : ∀ (done : List (Arr N × List UInt8)), ∀ k ∈ keys,
      encodedOf (gcfg U cfg) (valueMap keys values) k = .ok (encOf cfg keys values k) →
      Triple (C.guard U) (InsertEx cfg values)
        (Known (cfg := gcfg U cfg) (C.guard U) U v0 (done.map (fun e => Trie.leaf e.1 e.2)))
        (leafBody (gcfg U cfg) k (encOf cfg keys values k))
        (fun r s => r = (Trie.leaf k (encOf cfg keys values k)).loc cfg.hasher ∧
          Known (cfg := gcfg U cfg) (C.guard U) U v0
            ((done ++ [(k, encOf cfg keys values k)]).map (fun e => Trie.leaf e.1 e.2)) s)
        (Placed (cfg := gcfg U cfg) (C.guard U) U v0) := by
    intro done k hk hok
    refine triple_conseq (known_leafBody (cfg := gcfg U cfg) hU (hleafU k hk hok)
      (done.map (fun e => Trie.leaf e.1 e.2))) (fun _ h => h) ?_ (fun _ h => h)
    rintro r s ⟨h1, h2⟩
    exact ⟨h1, by simpa using h2⟩
  have hmk : ((sortKeys keys).map (fun k => (k, encOf cfg keys values k))).map
      (fun e => Trie.leaf e.1 e.2) = leaves (sortKeys keys) (encOf cfg keys values) := by
    simp [leaves, Function.comp_def]
  have key : ∀ prev : Option (Trie N), prevRoot = prev.map (·.loc cfg.hasher) →
      (∀ T, prev = some T → T.Norm ∧ ∀ i ∈ T.inputs cfg.hasher, U i) →
      Ends C (InsertEx cfg values) (insert cfg prevRoot keys values) s
        (fun _ s' => Placed C.toG U v0 s') (Placed C.toG U v0) := by
    rintro prev rfl hprev
    refine ends_of_guard (C := C) hin (triple_conseq (insert_rule (cfg := gcfg U cfg)
      (C := C.guard U) (Ex := InsertEx cfg values) (prev := prev)
      (P := Placed (cfg := gcfg U cfg) (C.guard U) U v0)
      (Q := fun _ => Placed (cfg := gcfg U cfg) (C.guard U) U v0)
      (E := Placed (cfg := gcfg U cfg) (C.guard U) U v0) hN hpp hlen hne henc
      (JL := fun done s => Known (cfg := gcfg U cfg) (C.guard U) U v0
        (done.map (fun e => Trie.leaf e.1 e.2)) s)
      (JT := fun K _ s => Known (cfg := gcfg U cfg) (C.guard U) U v0
        (leaves (sortKeys keys) (encOf cfg keys values) ++ K) s)
      (Fact := fun _ _ _ => True)
      (JM := Known (cfg := gcfg U cfg) (C.guard U) U v0)
      ?_ (fun done k hk _ => hleaf done k hk) ?_ ?_ ?_ ?_ ?_ ?_ ?_) (fun _ h => h) (fun _ _ h => h.plain) (fun _ h => h.plain))
      hs.guard
    · intro s hs
      exact ⟨hs, by simp⟩
    · intro done s hs
      exact hs.1
    · rintro rfl s hs
      rw [hmk] at hs
      simpa using hs
    · rintro - T rfl
      obtain ⟨h1, h2⟩ := hprev T rfl
      refine ⟨h1, .inr (hEx _), ?_, ?_⟩
      · intro s hs
        rw [hmk] at hs
        simpa using hs
      · exact known_travStep (cfg := gcfg U cfg) hU hEx _ h1 h2
    · intro _ _
      exact ⟨hEx _, fun K s hs => hs.1⟩
    · exact known_flushStep (cfg := gcfg U cfg) hU
    · intro hall ts' T' hp hasm
      refine ⟨known_mergeStep (cfg := gcfg U cfg) hU (guardDb_guards U cfg.db)
        (assembled_norm (fun T hT => (hprev T hT).1) hp hasm), ?_⟩
      intro K s hK hs
      exact ⟨hs.1, fun t ht => hs.2 t (hK.mem_iff.1 ht)⟩
    · intro ts' T' _ _ _ s hs _
      exact hs.1
  cases prevRoot with
  | none => exact key none rfl (by simp)
  | some r =>
    by_cases hr : ∃ t : Trie N, t.loc cfg.hasher = r ∧ t.Norm ∧
        ∀ i ∈ t.inputs cfg.hasher, U i
    · obtain ⟨t, rfl, hn, ht⟩ := hr
      exact key (some t) rfl (fun T hT => by cases hT; exact ⟨hn, ht⟩)
    · have hdata : ∀ n, C.view s r = some n → ∃ d, n.variant = .data d := by
        intro n hn
        rcases (hs.view r n hn).2 with ⟨k, v, _, h, _⟩ | ⟨t, hnorm, h, _, h3⟩
        · exact ⟨_, h⟩
        · exact absurd ⟨t, h.symm, hnorm, h3⟩ hr
      exact ends_of_guard (C := C) hin (triple_conseq (insert_rootless (cfg := gcfg U cfg)
        (C := C.guard U) (Ex := InsertEx cfg values) hlen hne
        (f := encOf cfg keys values) hEx henc
        (JL := fun done s => Known (cfg := gcfg U cfg) (C.guard U) U v0
          (done.map (fun e => Trie.leaf e.1 e.2)) s)
        (E := Placed (cfg := gcfg U cfg) (C.guard U) U v0) hleaf (fun _ _ h => h.1)
        (fun k hk hok h => hr ⟨_, h, trivial, hleafU k hk hok⟩)
        (Q := fun _ => Placed (cfg := gcfg U cfg) (C.guard U) U v0))
        (P' := fun s' => s' = (s, false))
        (by rintro _ rfl; exact ⟨⟨hs.guard, by simp⟩, hdata⟩)
        (fun _ _ h => h.plain) (fun _ h => h.plain)) rfl

end

/-! ## Removes -/

section
variable {cfg : Config N σ V} {C : DbContract cfg.db} {U : HIn N → Prop}
  {v0 : Arr N → Variant N → Prop}

/-- A view holds nothing but `A`, up to reference counts. -/
def View.Sub (v : View N) (A : Arr N → Variant N → Prop) : Prop := ∀ x c, View.Has v x c → A x c

/-- Everything is in its place, and nothing was added to `v0`. -/
structure Shrunk (C : GContract cfg.db) (U : HIn N → Prop) (v0 : Arr N → Variant N → Prop) (s : σ) :
    Prop where
  view : Honest cfg.hasher U (C.view s)
  pending : Honest cfg.hasher U (C.pending s)
  sub : (C.view s).Sub v0
  subP : (C.pending s).Sub v0

theorem removeLoop_shrunk {Ex : Err → Prop} (hfuel : Ex .outOfFuel) : ∀ (fuel : Nat)
    (nodes : List (Arr N)),
    Triple C.toG Ex (Shrunk C.toG U v0) (removeLoop cfg fuel nodes) (fun _ => Shrunk C.toG U v0)
      (Shrunk C.toG U v0)
  | 0, [] => triple_pure (fun _ h => h)
  | _ + 1, [] => triple_pure (fun _ h => h)
  | 0, _ :: _ => triple_throw hfuel (fun _ h => h)
  | fuel + 1, x :: nodes => by
    rw [removeLoop]
    simp only [M.bind_eq]
    apply triple_bind (R := fun o s => Shrunk C.toG U v0 s ∧ C.toG.view s x = o)
      (triple_dbGet (fun s h => ⟨h, rfl⟩) (fun _ h => h))
    intro o
    cases o with
    | none =>
      exact triple_conseq (removeLoop_shrunk hfuel fuel nodes) (fun _ h => h.1)
        (fun _ _ h => h) (fun _ h => h)
    | some n =>
      dsimp only
      have hrm : ∀ ns, Triple C.toG Ex
          (fun s => Shrunk C.toG U v0 s ∧ C.toG.view s x = some n)
          ((cfg.db.remove x).bind (fun _ => removeLoop cfg fuel ns))
          (fun _ => Shrunk C.toG U v0) (Shrunk C.toG U v0) := by
        intro ns
        apply triple_bind (R := fun _ => Shrunk C.toG U v0)
        · apply triple_remove
          · rintro s s' ⟨⟨h1, h2, h3, h4⟩, -⟩ e1 e2
            refine ⟨?_, ?_, ?_, ?_⟩
            · rw [e1]; exact h1.del
            · rw [e2]; exact h2
            · rw [e1]
              rintro y c ⟨rf, hy⟩
              unfold View.del at hy
              split at hy
              · cases hy
              · exact h3 y c ⟨rf, hy⟩
            · rw [e2]; exact h4
          · rintro s s' ⟨⟨h1, h2, h3, h4⟩, -⟩ e1 e2
            exact ⟨e1 ▸ h1, e2 ▸ h2, e1 ▸ h3, e2 ▸ h4⟩
        · intro _
          exact removeLoop_shrunk hfuel fuel ns
      split
      · generalize n.variant = v
        cases v with
        | branch b => exact hrm _
        | leaf l => exact hrm _
        | data d => exact hrm _
      · next hpos =>
        apply triple_bind (R := fun _ => Shrunk C.toG U v0)
        · apply triple_insert
          · rintro s s' ⟨⟨h1, h2, h3, h4⟩, hx⟩ hw
            have hb := (h1 x n hx).2
            have hpos' : 0 < n.references - 1 := Nat.pos_of_ne_zero hpos
            have hsub : ∀ v : View N, v.Sub v0 →
                (v.put x ⟨n.references - 1, n.variant⟩).Sub v0 := by
              rintro v hv y c ⟨rf, hy⟩
              unfold View.put at hy
              split at hy
              · next hyx =>
                subst hyx
                cases hy
                exact h3 y n.variant ⟨n.references, hx⟩
              · exact hv y c ⟨rf, hy⟩
            rcases hw with ⟨e0, e1, e2⟩ | ⟨e1, e2⟩
            · refine ⟨?_, ?_, ?_, ?_⟩
              · rw [e1]; exact h1.put hpos' hb
              · rw [e2]; exact Honest.empty _ _
              · rw [e1]; exact hsub _ h3
              · rw [e2]
                rintro y c ⟨rf, hy⟩
                cases hy
            · refine ⟨?_, ?_, ?_, ?_⟩
              · rw [e1]; exact h1
              · rw [e2]; exact h2.put hpos' hb
              · rw [e1]; exact h3
              · rw [e2]; exact hsub _ h4
          · rintro s s' ⟨⟨h1, h2, h3, h4⟩, -⟩ e1 e2
            exact ⟨e1 ▸ h1, e2 ▸ h2, e1 ▸ h3, e2 ▸ h4⟩
        · intro _
          exact removeLoop_shrunk hfuel fuel nodes

/-- Any call of `remove` keeps everything in its place and adds nothing. -/
theorem remove_shrunk (r : Arr N) {s s' : σ} {res : Res Unit} (hs : Shrunk C.toG U v0 s)
    (hrun : remove cfg r s = (res, s')) : Shrunk C.toG U v0 s' := by
  have : Triple C.toG (fun _ => True) (Shrunk C.toG U v0) (remove cfg r)
      (fun _ => Shrunk C.toG U v0) (Shrunk C.toG U v0) := by
    unfold remove
    simp only [M.bind_eq]
    apply triple_bind (removeLoop_shrunk trivial _ _)
    intro _
    apply triple_batchWrite
    · rintro s s' ⟨h1, h2, h3, h4⟩ e1 e2
      refine ⟨?_, ?_, ?_, ?_⟩
      · rw [e1]; exact h1.overlay h2
      · rw [e2]; exact Honest.empty _ _
      · rw [e1]
        rintro y c ⟨rf, hy⟩
        unfold GContract.settled View.overlay at hy
        cases hp : C.toG.pending s y with
        | none => rw [hp] at hy; exact h3 y c ⟨rf, by simpa using hy⟩
        | some m => rw [hp] at hy; exact h4 y c ⟨rf, by simpa [hp] using hy⟩
      · rw [e2]
        rintro y c ⟨rf, hy⟩
        cases hy
    · rintro s s' ⟨h1, h2, h3, h4⟩ e1 e2
      refine ⟨e1 ▸ h1, ?_, e1 ▸ h3, ?_⟩
      · rcases e2 with e2 | e2
        · exact e2 ▸ h2
        · rw [e2]; exact Honest.empty _ _
      · rcases e2 with e2 | e2
        · exact e2 ▸ h4
        · rw [e2]
          rintro y c ⟨rf, hy⟩
          cases hy
  have := this s hs
  rw [hrun] at this
  cases res with
  | ok a => exact this.2
  | error e =>
    rcases this with h | h
    · cases h
    · exact h.2

/-! ## Histories -/

/-- What holds in every history. -/
def InPlace (C : DbContract cfg.db) (U : HIn N → Prop) (s : σ) : Prop :=
  Honest cfg.hasher U (C.view s) ∧ Honest cfg.hasher U (C.pending s)

theorem InPlace.mono {U' : HIn N → Prop} (h : ∀ i, U i → U' i) {s : σ} (hs : InPlace C U s) :
    InPlace C U' s := ⟨hs.1.mono h, hs.2.mono h⟩

theorem calls_inPlace (hN : 0 < N) (hpp : cfg.pp.Lawful) {H : List (HIn N)} {s : σ}
    (h : Calls cfg C H s) : CollisionFree cfg.hasher (Among H) → InPlace C (Among H) s := by
  induction h with
  | start h1 h2 =>
    intro _
    unfold InPlace
    rw [h1, h2]
    exact ⟨Honest.empty _ _, Honest.empty _ _⟩
  | @insertAt d H s s' prev keys values res _ hrun ih =>
    intro hU
    have hsub : ∀ i, Among H i → Among (hashedBy (cfg.withDepth d) prev keys values s ++ H) i :=
      fun i hi => List.mem_append_right _ hi
    have hi := (ih (hU.mono hsub)).mono hsub
    have := insert_placed (cfg := cfg.withDepth d) (C := C) hN hpp hU prev keys values (s := s)
      (fun i hi => List.mem_append_left _ hi) ⟨hi.1, hi.2, View.Ext.refl _⟩
    unfold Ends at this
    rw [hrun] at this
    cases res with
    | ok r => exact ⟨this.2.view, this.2.pending⟩
    | error e => exact ⟨this.2.view, this.2.pending⟩
  | @remove H s s' r res _ hrun ih =>
    intro hU
    have hi := ih hU
    have := remove_shrunk (C := C) (v0 := fun _ _ => True) r
      ⟨hi.1, hi.2, fun _ _ _ => trivial, fun _ _ _ => trivial⟩ hrun
    exact ⟨this.view, this.pending⟩
  | @crashInsertAt d H s s' n n' prev keys values e _ hrun ih =>
    intro hU
    have hsub : ∀ i, Among H i → Among (hashedBy (cfg.withDepth d).crash prev keys values (s, n) ++ H) i :=
      fun i hi => List.mem_append_right _ hi
    have hi := (ih (hU.mono hsub)).mono hsub
    have := insert_placed (cfg := (cfg.withDepth d).crash) (C := C.crash) hN hpp hU prev keys values (s := (s, n))
      (fun i hi => List.mem_append_left _ hi) ⟨hi.1, hi.2, View.Ext.refl _⟩
    unfold Ends at this
    rw [hrun] at this
    exact ⟨this.2.view, this.2.pending⟩
  | @crashRemove H s s' n n' r e _ hrun ih =>
    intro hU
    have hi := ih hU
    have := remove_shrunk (cfg := cfg.crash) (C := C.crash) (U := Among H)
      (v0 := fun _ _ => True) (s := (s, n)) r
      ⟨hi.1, hi.2, fun _ _ _ => trivial, fun _ _ _ => trivial⟩ hrun
    exact ⟨this.view, this.pending⟩
  | @reopen H s s' _ h1 h2 ih =>
    intro hU
    obtain ⟨hi, -⟩ := ih hU
    unfold InPlace
    rw [h1, h2]
    exact ⟨hi, Honest.empty _ _⟩

end
end MerkleBit
