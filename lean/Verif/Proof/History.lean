import Verif.Spec.History
import Verif.Proof.InsertContent
import Verif.Proof.Read
import Verif.Proof.Heights
/-! # Histories of inserts -/

namespace MerkleBit
variable {N : Nat} {σ V : Type}

/-! ## The value map -/

theorem valueMap_foldl (l : List (Arr N × V)) (k : Arr N) : ∀ m : AMap (Arr N) V,
    (l.foldl (fun m kv => m.insert kv.1 kv.2) m).get? k =
      ((l.reverse.find? (fun e => e.1 = k)).map (·.2)).or (m.get? k) := by
  induction l with
  | nil => intro m; simp
  | cons a l ih =>
    intro m
    rw [List.foldl_cons, ih, AMap.get?_insert, List.reverse_cons, List.find?_append]
    cases h : l.reverse.find? (fun e => e.1 = k) with
    | some e => simp
    | none =>
      by_cases hk : k = a.1
      · simp [hk]
      · have : ¬ a.1 = k := fun h => hk h.symm
        simp [hk, this]

theorem find?_reverse {l : List (Arr N × V)} (h : (l.map (·.1)).Nodup) (k : Arr N) :
    l.reverse.find? (fun e => e.1 = k) = l.find? (fun e => e.1 = k) := by
  induction l with
  | nil => rfl
  | cons a l ih =>
    rw [List.map_cons, List.nodup_cons] at h
    rw [List.reverse_cons, List.find?_append, ih h.2, List.find?_cons]
    by_cases hk : a.1 = k
    · have : l.find? (fun e => e.1 = k) = none := by
        rw [List.find?_eq_none]
        intro e he
        simp only [decide_eq_true_eq]
        intro hek
        exact h.1 (by rw [hk, ← hek]; exact List.mem_map_of_mem he)
      simp [this, hk]
    · simp only [hk, decide_false]
      cases h : l.find? (fun e => e.1 = k) <;> simp [hk, h]

theorem zip_keys {keys : List (Arr N)} {values : List V} (h : keys.length = values.length) :
    (keys.zip values).map (·.1) = keys := by
  rw [List.map_fst_zip (by omega)]

theorem valueMap_get (keys : List (Arr N)) (values : List V) (k : Arr N) :
    (valueMap keys values).get? k =
      ((keys.zip values).reverse.find? (fun e => e.1 = k)).map (·.2) := by
  unfold valueMap
  rw [valueMap_foldl]
  simp

theorem valueMap_mem {keys : List (Arr N)} {values : List V} (h : keys.length = values.length)
    {k : Arr N} (hk : k ∈ keys) :
    ∃ v, (valueMap keys values).get? k = some v ∧ (k, v) ∈ keys.zip values := by
  rw [valueMap_get]
  cases hf : (keys.zip values).reverse.find? (fun e => e.1 = k) with
  | none =>
    rw [List.find?_eq_none] at hf
    rw [← zip_keys h] at hk
    obtain ⟨e, he, rfl⟩ := List.mem_map.1 hk
    exact absurd (by simp) (hf e (List.mem_reverse.2 he))
  | some e =>
    have h1 := List.find?_some hf
    have h2 := List.mem_of_find?_eq_some hf
    simp only [decide_eq_true_eq] at h1
    subst h1
    exact ⟨e.2, rfl, List.mem_reverse.1 h2⟩

/-- The encoded value of a key of the batch, `[]` if it has none. -/
def encOf (cfg : Config N σ V) (keys : List (Arr N)) (values : List V) (k : Arr N) : List UInt8 :=
  match encodedOf cfg (valueMap keys values) k with
  | .ok b => b
  | .error _ => []

/-- Errors `insert` may return. -/
def InsertEx (cfg : Config N σ V) (values : List V) (e : Err) : Prop :=
  e.IsException ∨ ∃ v ∈ values, cfg.encode v = .error e

theorem encodedOf_cases (cfg : Config N σ V) {keys : List (Arr N)} {values : List V}
    (h : keys.length = values.length) {k : Arr N} (hk : k ∈ keys) :
    (encodedOf cfg (valueMap keys values) k = .ok (encOf cfg keys values k) ∧
      (k, encOf cfg keys values k) ∈ encodedPairs cfg keys values) ∨
    ∃ v ∈ values, ∃ e, cfg.encode v = .error e ∧ encodedOf cfg (valueMap keys values) k = .error e := by
  obtain ⟨v, h1, h2⟩ := valueMap_mem h hk
  unfold encOf encodedOf
  rw [h1]
  dsimp only
  cases he : cfg.encode v with
  | ok b =>
    left
    refine ⟨rfl, ?_⟩
    unfold encodedPairs
    rw [List.mem_filterMap]
    exact ⟨(k, v), h2, by simp [he]⟩
  | error e => exact .inr ⟨v, (List.of_mem_zip h2).2, e, he, rfl⟩

/-! ## More inputs -/

theorem CollisionFree.mono {H : Hasher N} {U U' : HIn N → Prop} (h : ∀ i, U i → U' i)
    (hc : CollisionFree H U') : CollisionFree H U :=
  fun i j hi hj => hc i j (h i hi) (h j hj)

theorem Belongs.mono {H : Hasher N} {U U' : HIn N → Prop} (h : ∀ i, U i → U' i) {x : Arr N}
    {c : Variant N} (hb : Belongs H U x c) : Belongs H U' x c := by
  rcases hb with ⟨k, v, h1, h2, h3⟩ | ⟨t, hn, h1, h2, h3⟩
  · exact .inl ⟨k, v, h1, h2, h _ h3⟩
  · exact .inr ⟨t, hn, h1, h2, fun i hi => h i (h3 i hi)⟩

theorem Honest.mono {H : Hasher N} {U U' : HIn N → Prop} (h : ∀ i, U i → U' i) {v : View N}
    (hb : Honest H U v) : Honest H U' v :=
  fun x n hx => ⟨(hb x n hx).1, (hb x n hx).2.mono h⟩

/-! ## Any insert keeps everything -/

section
variable {cfg : Config N σ V} {C : DbContract cfg.db} {U : HIn N → Prop} {v0 : View N}

theorem Inv.mono {U' : HIn N → Prop} (h : ∀ i, U i → U' i) {C : GContract cfg.db} {s : σ}
    (hs : Inv C U v0 s) : Inv C U' v0 s :=
  ⟨hs.view.mono h, hs.pending.mono h, hs.ext, hs.closed, hs.closedS⟩

/-- How a run from `s` ends. -/
def Ends {db : Database N σ} {α : Type} (C : DbContract db) (Ex : Err → Prop) (m : M σ α) (s : σ)
    (Q : α → σ → Prop) (E : σ → Prop) : Prop :=
  match m s with
  | (.ok a, s') => (C.alive s → C.alive s') ∧ Q a s'
  | (.error e, s') =>
    ((Ex e ∧ (C.alive s → C.alive s')) ∨ (¬ C.alive s ∧ e.IsException)) ∧ E s'

/-- From the guarded database to the plain one. -/
theorem ends_of_guard {Ex : Err → Prop} {prev : Option (Arr N)} {keys : List (Arr N)}
    {values : List V} {s : σ} (hin : ∀ i ∈ hashedBy cfg prev keys values s, U i)
    {P : σ × Bool → Prop} {Q : Arr N → σ → Prop} {E : σ → Prop}
    (h : Triple (C.guard U) Ex P (insert (gcfg U cfg) prev keys values) (fun r s => Q r s.1)
      (fun s => E s.1)) (hs : P (s, false)) : Ends C Ex (insert cfg prev keys values) s Q E := by
  have h := h (s, false) hs
  rw [insert_guarded hin] at h
  unfold Ends
  rcases hm : insert cfg prev keys values s with ⟨r, s'⟩
  rw [hm] at h
  cases r with
  | ok a => exact h
  | error e =>
    rcases h with h | h
    · cases h
    · exact h

/-- Invariant of the database alone. -/
def Sound (C : DbContract cfg.db) (U : HIn N → Prop) (s : σ) : Prop :=
  Inv C.toG U (View.empty N) s

theorem Inv.sound {s : σ} (h : Inv C.toG U v0 s) : Sound C U s :=
  ⟨h.view, h.pending, fun x c hx => (by obtain ⟨_, hx⟩ := hx; cases hx), h.closed, h.closedS⟩

theorem Sound.inv {s : σ} (h : Sound C U s) : Inv C.toG U (C.view s) s :=
  ⟨h.view, h.pending, View.Ext.refl _, h.closed, h.closedS⟩

theorem Inv.guard {s : σ} {b : Bool} (h : Inv C.toG U v0 s) :
    Inv (cfg := gcfg U cfg) (C.guard U) U v0 (s, b) :=
  ⟨h.view, h.pending, h.ext, h.closed, h.closedS⟩

theorem Inv.plain {s : σ × Bool} (h : Inv (cfg := gcfg U cfg) (C.guard U) U v0 s) :
    Inv C.toG U v0 s.1 :=
  ⟨h.view, h.pending, h.ext, h.closed, h.closedS⟩

/-- The root of some tree that is completely stored. -/
def HasTree (cfg : Config N σ V) (v : View N) (r : Arr N) : Prop :=
  ∃ T : Trie N, T.loc cfg.hasher = r ∧ T.Norm ∧ Stored cfg.hasher v T

theorem mem_hashedBy {prev : Option (Arr N)} {keys : List (Arr N)} {values : List V} {s : σ}
    {e : Arr N × List UInt8} (he : e ∈ encodedPairs cfg keys values) :
    ∀ i ∈ (Trie.leaf e.1 e.2).inputs cfg.hasher, i ∈ hashedBy cfg prev keys values s := by
  intro i hi
  unfold hashedBy
  exact List.mem_append_left _ (List.mem_flatMap.2 ⟨e, he, hi⟩)

/-- Any call of `insert`, with any arguments, keeps the database sound and what it holds; it succeeds
only without duplicate keys, and then returns the root of a stored tree. -/
theorem insert_any (hN : 0 < N) (hpp : cfg.pp.Lawful) (hU : CollisionFree cfg.hasher U)
    (prevRoot : Option (Arr N)) (keys : List (Arr N)) (values : List V) {s : σ}
    (hin : ∀ i ∈ hashedBy cfg prevRoot keys values s, U i) (hs : Inv C.toG U v0 s) :
    Ends C (InsertEx cfg values) (insert cfg prevRoot keys values) s
      (fun r s' => keys.Nodup ∧ HasTree cfg (C.view s') r ∧ Inv C.toG U v0 s')
      (Inv C.toG U v0) := by
  have hEx : ∀ msg, InsertEx cfg values (.exception msg) := fun msg => .inl ⟨msg, rfl⟩
  by_cases hlen : keys.length = values.length
  swap
  · unfold insert Ends
    rw [if_pos hlen]
    exact ⟨.inl ⟨hEx _, id⟩, hs⟩
  by_cases hne : keys = []
  · unfold insert Ends
    rw [if_neg (by simpa using hlen), if_pos (by simp [hne])]
    exact ⟨.inl ⟨hEx _, id⟩, hs⟩
  have henc : ∀ k ∈ keys, encodedOf cfg (valueMap keys values) k = .ok (encOf cfg keys values k) ∨
      ∃ e, encodedOf cfg (valueMap keys values) k = .error e ∧ InsertEx cfg values e := by
    intro k hk
    rcases encodedOf_cases cfg hlen hk with ⟨h1, _⟩ | ⟨v, hv, e, h1, h2⟩
    · exact .inl h1
    · exact .inr ⟨e, h2, .inr ⟨v, hv, h1⟩⟩
  have hleafU : ∀ k ∈ keys,
      encodedOf cfg (valueMap keys values) k = .ok (encOf cfg keys values k) →
      ∀ i ∈ (Trie.leaf k (encOf cfg keys values k)).inputs cfg.hasher, U i := by
    intro k hk hok i hi
    rcases encodedOf_cases cfg hlen hk with ⟨_, h⟩ | ⟨v, _, e, _, h⟩
    · exact hin i (mem_hashedBy h i hi)
    · rw [hok] at h; cases h
  have hdataU : ∀ k ∈ keys,
      encodedOf cfg (valueMap keys values) k = .ok (encOf cfg keys values k) →
      U (.data k (encOf cfg keys values k)) :=
    fun k hk hok => hleafU k hk hok _ (by simp [Trie.inputs])
  -- the keys of the blocks are strictly sorted, so the batch has no duplicates
  have hasmNodup : ∀ {prev : Option (Trie N)}, ∀ ts' T',
      ts'.Perm (blocksOf cfg.pp (sortKeys keys) (encOf cfg keys values) prev) →
      Assembled ts' T' → keys.Nodup := by
    intro prev ts' T' hp hasm
    have h1 : (ts'.map Trie.key).Nodup := hasm.sorted.imp Arr.ne_of_lt
    have h2 : ((blocksOf cfg.pp (sortKeys keys) (encOf cfg keys values) prev).map Trie.key).Nodup :=
      ((hp.map _).nodup_iff).1 h1
    have h3 : ((leaves (sortKeys keys) (encOf cfg keys values)).map Trie.key).Nodup := by
      cases prev with
      | none => exact h2
      | some T =>
        simp only [blocksOf, List.map_append] at h2
        exact h2.of_append_left
    have h4 : (leaves (sortKeys keys) (encOf cfg keys values)).map Trie.key = sortKeys keys := by
      simp [leaves, Function.comp_def, Trie.key]
    rw [h4] at h3
    exact (sortKeys_perm keys).nodup_iff.1 h3
  have key : ∀ prev : Option (Trie N), prevRoot = prev.map (·.loc cfg.hasher) →
      (∀ T, prev = some T → T.Norm ∧ ∀ i ∈ T.inputs cfg.hasher, U i) →
      Ends C (InsertEx cfg values) (insert cfg prevRoot keys values) s
        (fun r s' => keys.Nodup ∧ HasTree cfg (C.view s') r ∧ Inv C.toG U v0 s')
        (Inv C.toG U v0) := by
    rintro prev rfl hprev
    refine ends_of_guard (C := C) hin (triple_conseq (insert_blocks (cfg := gcfg U cfg)
      (C := C.guard U) (v0 := v0)
      (f := encOf cfg keys values) (prev := prev) hN hpp hU (guardDb_guards U cfg.db) hlen
      hne henc hdataU (fun T hT => ⟨(hprev T hT).1, .inr hEx, (hprev T hT).2, .inr (hEx _)⟩)
      (fun _ => hEx _)) (fun _ h => h) ?_ (fun _ h => h.plain)) hs.guard
    rintro r s ⟨hall, ts', T', hp, hasm, rfl, hi, hst, -⟩
    exact ⟨hasmNodup ts' T' hp hasm,
      ⟨T', rfl, assembled_norm (fun T hT => (hprev T hT).1) hp hasm, hst⟩, hi.plain⟩
  cases prevRoot with
  | none => exact key none rfl (by simp)
  | some r =>
    by_cases hr : ∃ t : Trie N, t.loc cfg.hasher = r ∧ t.Norm ∧
        ∀ i ∈ t.inputs cfg.hasher, U i
    · obtain ⟨t, rfl, hn, ht⟩ := hr
      exact key (some t) rfl (fun T hT => by cases hT; exact ⟨hn, ht⟩)
    · -- the root is unknown or a data node
      have hdata : ∀ n, C.view s r = some n → ∃ d, n.variant = .data d := by
        intro n hn
        rcases (hs.view r n hn).2 with ⟨k, v, _, h, _⟩ | ⟨t, hnorm, h, _, h3⟩
        · exact ⟨_, h⟩
        · exact absurd ⟨t, h.symm, hnorm, h3⟩ hr
      refine ends_of_guard (C := C) hin (triple_conseq (insert_rootless (cfg := gcfg U cfg)
        (C := C.guard U) (Ex := InsertEx cfg values) hlen hne
        (f := encOf cfg keys values) hEx henc
        (JL := fun done s => Blocks (cfg := gcfg U cfg) (C.guard U) U v0 (done.map (fun e => Trie.leaf e.1 e.2)) s)
        (E := Inv (cfg := gcfg U cfg) (C.guard U) U v0)
        (fun done k hk hok => ?_) (fun _ _ h => h.1)
        (fun k hk hok h => hr ⟨_, h, trivial, hleafU k hk hok⟩)
        (Q := fun r s => keys.Nodup ∧ HasTree cfg (C.view s.1) r ∧ Inv C.toG U v0 s.1))
        (P' := fun s' => s' = (s, false)) (by rintro _ rfl; exact ⟨⟨hs.guard, by simp⟩, hdata⟩)
        (fun _ _ h => h) (fun _ h => h.plain)) rfl
      refine triple_conseq (blocks_leafBody (cfg := gcfg U cfg) hU (guardDb_guards U cfg.db) (hdataU k hk hok)
        (done.map (fun e => Trie.leaf e.1 e.2))) (fun _ h => h) ?_ (fun _ h => h)
      rintro r s ⟨h1, h2⟩
      exact ⟨h1, by simpa using h2⟩

/-! ## Inserts on top of a version -/

/-- Reasons for which an insert on top of a version may be refused. -/
def BadBatch (cfg : Config N σ V) (M : Contents N V) (keys : List (Arr N)) (values : List V) :
    Prop :=
  keys.length ≠ values.length ∨ keys = [] ∨ ¬ keys.Nodup ∨
    (∃ v ∈ values, ∃ e, cfg.encode v = .error e) ∨ ¬ HeightBelow M (cfg.depth + 1)

/-- The previous-root argument stands for `M`. -/
def PrevIs (cfg : Config N σ V) (v : View N) : Option (Arr N) → Contents N V → Prop
  | none, M => M = Contents.empty
  | some r, M => IsVersion cfg v r M

theorem PrevIs.trie {v : View N} {prev : Option (Arr N)} {M : Contents N V}
    (h : PrevIs cfg v prev M) : ∃ pt : Option (Trie N), prev = pt.map (·.loc cfg.hasher) ∧
      (∀ T, pt = some T → T.WF ∧ Stored cfg.hasher v T ∧ Represents cfg T M) ∧
      ∀ k, Encodes cfg (M k) (lookupO pt k) := by
  cases prev with
  | none =>
    simp only [PrevIs] at h
    subst h
    exact ⟨none, rfl, by simp, fun k => by simp [Contents.empty, lookupO, Encodes]⟩
  | some r =>
    obtain ⟨T, h1, rfl, h3, h4⟩ := h
    refine ⟨some T, rfl, ?_, fun k => by simpa [lookupO] using h4 k⟩
    rintro T' h; cases h; exact ⟨h1, h3, h4⟩

/-- The contents of the tree assembled from a batch. -/
theorem represents_assign {keys : List (Arr N)} {values : List V}
    (hlen : keys.length = values.length) (hnd : keys.Nodup) {M : Contents N V}
    {pt : Option (Trie N)}
    (hM : ∀ k, Encodes cfg (M k) (lookupO pt k))
    (hall : ∀ k ∈ keys, encodedOf cfg (valueMap keys values) k = .ok (encOf cfg keys values k))
    {T : Trie N} (hT : ∀ k, T.lookup k = assignB (lookupO pt) keys (encOf cfg keys values) k) :
    Represents cfg T (M.assign keys values) := by
  intro k
  have hM := hM k
  unfold Contents.assign
  rw [hT k]
  unfold assignB
  cases hf : (keys.zip values).find? (fun e => e.1 = k) with
  | none =>
    have hk : k ∉ keys := by
      intro hk
      rw [← zip_keys hlen] at hk
      obtain ⟨e, he, rfl⟩ := List.mem_map.1 hk
      rw [List.find?_eq_none] at hf
      exact absurd (by simp) (hf e he)
    rw [if_neg hk]
    exact hM
  | some e =>
    have h1 := List.find?_some hf
    have h2 := List.mem_of_find?_eq_some hf
    simp only [decide_eq_true_eq] at h1
    subst h1
    have hk : e.1 ∈ keys := (List.of_mem_zip h2).1
    rw [if_pos hk]
    refine ⟨encOf cfg keys values e.1, ?_, rfl⟩
    have h3 := hall e.1 hk
    have h4 : (valueMap keys values).get? e.1 = some e.2 := by
      rw [valueMap_get, find?_reverse (by rw [zip_keys hlen]; exact hnd), hf]
      rfl
    unfold encodedOf at h3
    rw [h4] at h3
    exact h3

/-- An insert on top of a version creates the updated version. -/
theorem insert_version (hN : 0 < N) (hpp : cfg.pp.Lawful) (hU : CollisionFree cfg.hasher U)
    {s0 : σ} {prev : Option (Arr N)} {M : Contents N V} {keys : List (Arr N)} {values : List V}
    (hin : ∀ i ∈ hashedBy cfg prev keys values s0, U i)
    (hsound : Sound C U s0) (hprev : PrevIs cfg (C.view s0) prev M)
    (hns : prev ≠ none → Handled cfg M keys) :
    Ends C (fun e => InsertEx cfg values e ∧ BadBatch cfg M keys values)
      (insert cfg prev keys values) s0
      (fun r s => keys.length = values.length ∧ keys ≠ [] ∧ keys.Nodup ∧
        IsVersion cfg (C.view s) r (M.assign keys values) ∧
        Inv C.toG U (C.view s0) s ∧ C.pending s = View.empty N)
      (Inv C.toG U (C.view s0)) := by
  have start := hsound.inv
  by_cases hlen : keys.length = values.length
  swap
  · unfold insert Ends
    rw [if_pos hlen]
    exact ⟨.inl ⟨⟨.inl ⟨_, rfl⟩, .inl hlen⟩, id⟩, start⟩
  by_cases hne : keys = []
  · unfold insert Ends
    rw [if_neg (by simpa using hlen), if_pos (by simp [hne])]
    exact ⟨.inl ⟨⟨.inl ⟨_, rfl⟩, .inr (.inl hne)⟩, id⟩, start⟩
  obtain ⟨pt, rfl, hpt, hM⟩ := hprev.trie
  have hptU : ∀ T, pt = some T → ∀ i ∈ T.inputs cfg.hasher, U i :=
    fun T hT => ((hpt T hT).2.1.honest hU hsound.view).2
  have hbatch : BatchOk cfg.pp keys pt := by
    intro T hT
    obtain ⟨h1, h2, h3⟩ := hpt T hT
    exact ⟨h1, fun k hk => hns (by simp [hT]) k hk T h1 h3⟩
  have hndup : ((blocksOf cfg.pp (sortKeys keys) (encOf cfg keys values) pt).map Trie.key).Nodup →
      keys.Nodup := by
    intro h2
    have h3 : ((leaves (sortKeys keys) (encOf cfg keys values)).map Trie.key).Nodup := by
      cases pt with
      | none => exact h2
      | some T =>
        simp only [blocksOf, List.map_append] at h2
        exact h2.of_append_left
    have h4 : (leaves (sortKeys keys) (encOf cfg keys values)).map Trie.key = sortKeys keys := by
      simp [leaves, Function.comp_def, Trie.key]
    rw [h4] at h3
    exact (sortKeys_perm keys).nodup_iff.1 h3
  have hasmNodup : ∀ ts' T', ts'.Perm (blocksOf cfg.pp (sortKeys keys) (encOf cfg keys values) pt) →
      Assembled ts' T' → keys.Nodup := fun ts' T' hp hasm =>
    hndup (((hp.map _).nodup_iff).1 (hasm.sorted.imp Arr.ne_of_lt))
  refine ends_of_guard (C := C) hin (triple_conseq (insert_blocks (cfg := gcfg U cfg)
    (C := C.guard U) (v0 := C.view s0)
    (f := encOf cfg keys values) (prev := pt) hN hpp hU (guardDb_guards U cfg.db) hlen hne
    ?_ ?_ ?_ ?_) (fun _ h => h) ?_ (fun _ h => h.plain)) start.guard
  · intro k hk
    rcases encodedOf_cases cfg hlen hk with ⟨h1, _⟩ | ⟨v, hv, e, h1, h2⟩
    · exact .inl h1
    · exact .inr ⟨e, h2, .inr ⟨v, hv, h1⟩, .inr (.inr (.inr (.inl ⟨v, hv, e, h1⟩)))⟩
  · intro k hk hok
    rcases encodedOf_cases cfg hlen hk with ⟨_, h⟩ | ⟨v, _, e, _, h⟩
    · exact hin _ (mem_hashedBy h _ (by simp [Trie.inputs]))
    · exact absurd (hok.symm.trans h) (by simp)
  · intro T hT
    obtain ⟨h1, h2, h3⟩ := hpt T hT
    refine ⟨h1.norm, .inl h2, hptU T hT, ?_⟩
    by_cases hd : HeightBelow M (cfg.depth + 1)
    · left
      have := hd.height h1 h3
      change T.height ≤ cfg.depth
      omega
    · exact .inr ⟨.inl ⟨_, rfl⟩, .inr (.inr (.inr (.inr hd)))⟩
  · intro hd
    refine ⟨.inl ⟨_, rfl⟩, .inr (.inr (.inl ?_))⟩
    intro hnd
    exact hd (apart_keys (blocks_ok hN hpp hne hnd _ hbatch).1)
  · rintro r s ⟨hall, ts', T', hp, hasm, rfl, hi, hst, hpend⟩
    have hnd := hasmNodup ts' T' hp hasm
    obtain ⟨h1, h2⟩ := assembled_batch hN hpp hne hnd hbatch hp hasm
    exact ⟨hlen, hne, hnd, ⟨T', h1, rfl, hst, represents_assign hlen hnd hM hall h2⟩, hi.plain, hpend⟩

/-! ## Crashes -/

/-- The contract of a database that may die. -/
def DbContract.crash {db : Database N σ} (C : DbContract db) : DbContract (crashDb db) where
  view s := C.view s.1
  pending s := C.pending s.1
  alive _ := False
  getNode_ok h := C.getNode_ok h
  getNode_err h := ⟨id, (C.getNode_err h).2⟩
  insert_ok := by
    rintro ⟨s, _ | m⟩ ⟨s', m'⟩ x n h
    · cases h
    · rcases hr : db.insert x n s with ⟨r, s1⟩
      simp only [crashDb, hr, Prod.mk.injEq] at h
      obtain ⟨rfl, rfl, rfl⟩ := h
      exact ⟨id, (C.insert_ok hr).2⟩
  insert_err := by
    rintro ⟨s, _ | m⟩ ⟨s', m'⟩ x n e h
    · simp only [crashDb, Prod.mk.injEq, Except.error.injEq] at h
      obtain ⟨rfl, rfl, rfl⟩ := h
      exact ⟨id, ⟨_, rfl⟩, rfl, rfl⟩
    · rcases hr : db.insert x n s with ⟨r, s1⟩
      simp only [crashDb, hr, Prod.mk.injEq] at h
      obtain ⟨rfl, rfl, rfl⟩ := h
      exact ⟨id, (C.insert_err hr).2⟩
  remove_ok := by
    rintro ⟨s, _ | m⟩ ⟨s', m'⟩ x h
    · cases h
    · rcases hr : db.remove x s with ⟨r, s1⟩
      simp only [crashDb, hr, Prod.mk.injEq] at h
      obtain ⟨rfl, rfl, rfl⟩ := h
      exact ⟨id, (C.remove_ok hr).2⟩
  remove_err := by
    rintro ⟨s, _ | m⟩ ⟨s', m'⟩ x e h
    · simp only [crashDb, Prod.mk.injEq, Except.error.injEq] at h
      obtain ⟨rfl, rfl, rfl⟩ := h
      exact ⟨id, ⟨_, rfl⟩, rfl, rfl⟩
    · rcases hr : db.remove x s with ⟨r, s1⟩
      simp only [crashDb, hr, Prod.mk.injEq] at h
      obtain ⟨rfl, rfl, rfl⟩ := h
      exact ⟨id, (C.remove_err hr).2⟩
  batchWrite_ok := by
    rintro ⟨s, _ | m⟩ ⟨s', m'⟩ h
    · cases h
    · rcases hr : db.batchWrite s with ⟨r, s1⟩
      simp only [crashDb, hr, Prod.mk.injEq] at h
      obtain ⟨rfl, rfl, rfl⟩ := h
      exact ⟨id, (C.batchWrite_ok hr).2⟩
  batchWrite_err := by
    rintro ⟨s, _ | m⟩ ⟨s', m'⟩ e h
    · simp only [crashDb, Prod.mk.injEq, Except.error.injEq] at h
      obtain ⟨rfl, rfl, rfl⟩ := h
      exact ⟨id, ⟨_, rfl⟩, rfl, .inl rfl⟩
    · rcases hr : db.batchWrite s with ⟨r, s1⟩
      simp only [crashDb, hr, Prod.mk.injEq] at h
      obtain ⟨rfl, rfl, rfl⟩ := h
      exact ⟨id, (C.batchWrite_err hr).2⟩

theorem Inv.toCrash {s : σ} {n : Nat} (h : Inv C.toG U v0 s) :
    Inv (cfg := cfg.crash) C.crash.toG U v0 (s, n) :=
  ⟨h.view, h.pending, h.ext, h.closed, h.closedS⟩

theorem Inv.ofCrash {s : σ} {n : Nat} (h : Inv (cfg := cfg.crash) C.crash.toG U v0 (s, n)) :
    Inv C.toG U v0 s :=
  ⟨h.view, h.pending, h.ext, h.closed, h.closedS⟩

theorem Inv.toDepth (d : Nat) {s : σ} (h : Inv C.toG U v0 s) :
    Inv (cfg := cfg.withDepth d) C.toG U v0 s :=
  ⟨h.view, h.pending, h.ext, h.closed, h.closedS⟩

theorem Inv.ofDepth {d : Nat} {s : σ} (h : Inv (cfg := cfg.withDepth d) C.toG U v0 s) :
    Inv C.toG U v0 s :=
  ⟨h.view, h.pending, h.ext, h.closed, h.closedS⟩

/-! ## Histories -/

theorem IsVersion.mono {v v' : View N} (h : v.Ext v') {r : Arr N} {M : Contents N V}
    (hv : IsVersion cfg v r M) : IsVersion cfg v' r M := by
  obtain ⟨T, h1, h2, h3, h4⟩ := hv
  exact ⟨T, h1, h2, h3.mono h, h4⟩

theorem Ledger.Prev.prevIs {L : Ledger N V} {v : View N}
    (hL : ∀ e ∈ L, IsVersion cfg v e.1 e.2) {prev : Option (Arr N)} {M : Contents N V}
    (h : L.Prev prev M) : PrevIs cfg v prev M := by
  cases prev with
  | none => exact h
  | some r => exact hL _ h

theorem HasTree.mono {v v' : View N} (h : v.Ext v') {r : Arr N} (hr : HasTree cfg v r) :
    HasTree cfg v' r := by
  obtain ⟨T, h1, h2, h3⟩ := hr
  exact ⟨T, h1, h2, h3.mono h⟩

/-- The invariant of histories of inserts. -/
theorem inserts_inv (hN : 0 < N) (hpp : cfg.pp.Lawful) {H : List (HIn N)}
    {R : List (Arr N)} {L : Ledger N V} {s : σ} (h : Inserts cfg C H R L s) :
    CollisionFree cfg.hasher (Among H) →
    Sound C (Among H) s ∧ (∀ e ∈ L, IsVersion cfg (C.view s) e.1 e.2) ∧
      ∀ r ∈ R, HasTree cfg (C.view s) r := by
  induction h with
  | start h1 h2 =>
    intro _
    refine ⟨⟨?_, ?_, ?_, ?_, ?_⟩, by simp, by simp⟩
    · exact (congrArg (Honest cfg.hasher _) h1).mpr (Honest.empty _ _)
    · exact (congrArg (Honest cfg.hasher _) h2).mpr (Honest.empty _ _)
    · exact (congrArg (View.Ext _) h1).mpr (View.Ext.refl _)
    · exact (congrArg Closed h1).mpr Closed.empty
    · rw [settled_of_pending_empty (C := C.toG) h2]
      exact (congrArg Closed h1).mpr Closed.empty
  | @anyAt d H R L s s' prev keys values res _ hrun ih =>
    intro hU
    have hsub : ∀ i, Among H i → Among (hashedBy (cfg.withDepth d) prev keys values s ++ H) i :=
      fun i hi => List.mem_append_right _ hi
    obtain ⟨hs, hL, hR⟩ := ih (hU.mono hsub)
    have := insert_any (cfg := cfg.withDepth d) (C := C) hN hpp hU prev keys values (s := s)
      (fun i hi => List.mem_append_left _ hi) ((hs.inv.mono hsub).toDepth d)
    unfold Ends at this
    rw [hrun] at this
    cases res with
    | ok r =>
      obtain ⟨-, -, ht, hi⟩ := this
      replace hi := hi.ofDepth
      refine ⟨hi.sound, fun e he => (hL e he).mono hi.ext, ?_⟩
      intro x hx
      simp only [returned, List.singleton_append, List.mem_cons] at hx
      rcases hx with rfl | hx
      · exact ht
      · exact (hR x hx).mono hi.ext
    | error e =>
      have hi := this.2.ofDepth
      exact ⟨hi.sound, fun e he => (hL e he).mono hi.ext, fun x hx => (hR x hx).mono hi.ext⟩
  | @goodAt d H R L s s' prev M keys values r _ hprev hns hrun ih =>
    intro hU
    have hsub : ∀ i, Among H i → Among (hashedBy (cfg.withDepth d) prev keys values s ++ H) i :=
      fun i hi => List.mem_append_right _ hi
    obtain ⟨hs, hL, hR⟩ := ih (hU.mono hsub)
    have := insert_version (cfg := cfg.withDepth d) (C := C) hN hpp hU (s0 := s) (keys := keys) (values := values)
      (fun i hi => List.mem_append_left _ hi)
      ((hs.inv.mono hsub).toDepth d).sound (hprev.prevIs hL) (fun _ => hns)
    unfold Ends at this
    rw [hrun] at this
    obtain ⟨-, -, -, -, hv, hi, -⟩ := this
    replace hi := hi.ofDepth
    refine ⟨hi.sound, ?_, ?_⟩
    · intro e he
      rcases List.mem_cons.1 he with rfl | he
      · exact hv
      · exact (hL e he).mono hi.ext
    · intro x hx
      rcases List.mem_cons.1 hx with rfl | hx
      · obtain ⟨T, h1, h2, h3, -⟩ := hv
        exact ⟨T, h2, h1.norm, h3⟩
      · exact (hR x hx).mono hi.ext
  | @crashAt d H R L s s' n n' prev keys values e _ hrun ih =>
    intro hU
    have hsub : ∀ i, Among H i → Among (hashedBy (cfg.withDepth d).crash prev keys values (s, n) ++ H) i :=
      fun i hi => List.mem_append_right _ hi
    obtain ⟨hs, hL, hR⟩ := ih (hU.mono hsub)
    have := insert_any (cfg := (cfg.withDepth d).crash) (C := C.crash) hN hpp hU prev keys values (s := (s, n))
      (fun i hi => List.mem_append_left _ hi) ((hs.inv.mono hsub).toDepth d).toCrash
    unfold Ends at this
    rw [hrun] at this
    have hi := (Inv.ofCrash (cfg := cfg.withDepth d) (C := C) this.2).ofDepth
    exact ⟨hi.sound, fun e he => (hL e he).mono hi.ext, fun x hx => (hR x hx).mono hi.ext⟩
  | @reopen H R L s s' _ h1 h2 ih =>
    intro hU
    obtain ⟨hs, hL, hR⟩ := ih hU
    refine ⟨hs.same h1 (.inr h2), ?_, ?_⟩
    · rw [h1]; exact hL
    · rw [h1]; exact hR

end
end MerkleBit
