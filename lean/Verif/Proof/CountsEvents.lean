import Verif.Proof.CountsInsert
import Verif.Proof.Repair
import Verif.Proof.Backends
/-!
# Reference counts in histories of calls
-/

namespace MerkleBit
variable {N : Nat} {σ V : Type} {cfg : Config N σ V} {C : DbContract cfg.db} {U : HIn N → Prop}

theorem mem_encodedPairs {keys : List (Arr N)} {values : List V} (hlen : keys.length = values.length)
    (hnd : keys.Nodup)
    (hall : ∀ k ∈ keys, encodedOf cfg (valueMap keys values) k = .ok (encOf cfg keys values k))
    (e : Arr N × List UInt8) :
    e ∈ keys.map (fun k => (k, encOf cfg keys values k)) ↔ e ∈ encodedPairs cfg keys values := by
  have hin : ∀ k ∈ keys, (k, encOf cfg keys values k) ∈ encodedPairs cfg keys values := by
    intro k hk
    rcases encodedOf_cases cfg hlen hk with ⟨_, h⟩ | ⟨v, _, x, _, h⟩
    · exact h
    · rw [hall k hk] at h; cases h
  constructor
  · intro he
    obtain ⟨k, hk, rfl⟩ := List.mem_map.1 he
    exact hin k hk
  · obtain ⟨k, b⟩ := e
    intro he
    obtain ⟨v, hv, hb⟩ := encodedPairs_encode he
    have hk := (List.of_mem_zip hv).1
    obtain ⟨v', hv', hb'⟩ := encodedPairs_encode (hin k hk)
    have hnd' : ((keys.zip values).map (·.1)).Nodup := by rw [zip_keys hlen]; exact hnd
    cases List.inj_on_of_nodup_map hnd' hv hv' rfl
    rw [hb] at hb'
    cases hb'
    exact List.mem_map_of_mem (f := fun k => (k, encOf cfg keys values k)) hk

theorem afterInsert_congr {again : Nat} {prev : Option (Trie N)} {kept : List (Trie N)}
    {es es' : List (Arr N × List UInt8)} {T : Trie N} {c : Item N → Nat}
    (h : ∀ e, e ∈ es ↔ e ∈ es') :
    afterInsert again prev kept es T c = afterInsert again prev kept es' T c := by
  funext i
  cases i with
  | data k v => simp only [afterInsert, h]
  | tree t => cases t <;> simp only [afterInsert, h]

/-- The counts after an insert, and the parts of which the new version is made. -/
theorem insert_tally_parts (hN : 0 < N) (hpp : cfg.pp.Lawful) (hU : CollisionFree cfg.hasher U) {shows : Bool}
    (hsh : WritesShow C shows)
    {s s' : σ} {prev : Option (Arr N)} {M : Contents N V} {keys : List (Arr N)} {values : List V}
    (hin : ∀ i ∈ hashedBy cfg prev keys values s, U i) (hs : InPlace C U s)
    (hp : C.pending s = View.empty N)
    {pt : Option (Trie N)} (hpt : PrevTrie cfg U pt prev M)
    (hns : prev ≠ none → Handled cfg M keys) {r : Arr N}
    (hrun : insert cfg prev keys values s = (.ok r, s')) :
    C.pending s' = View.empty N ∧ keys.length = values.length ∧ keys ≠ [] ∧ keys.Nodup ∧
    BatchOk cfg.pp keys pt ∧
    (∀ k ∈ keys, encodedOf cfg (valueMap keys values) k = .ok (encOf cfg keys values k)) ∧
    ∃ T' : Trie N, (∃ ts : List (Trie N), Assembled ts T' ∧
        ts.Perm (blocksOf cfg.pp (sortKeys keys) (encOf cfg keys values) pt)) ∧ T'.WF ∧ T'.loc cfg.hasher = r ∧ (∀ i ∈ T'.inputs cfg.hasher, U i) ∧
      Represents cfg T' (M.assign keys values) ∧
      ∀ i : Item N, i.Ok cfg.hasher U → countsOf cfg.hasher (C.view s') i =
        afterInsert (againOf shows) pt (keptOf cfg.pp keys pt) (encodedPairs cfg keys values) T'
          (countsOf cfg.hasher (C.view s)) i := by
  have hrec := insert_record (C := C) (v0 := C.view s) hN hpp hU hin ⟨hs.1, hs.2, View.Ext.refl _⟩ hpt hns
    False (.inr id)
  unfold Ends at hrec
  rw [hrun] at hrec
  obtain ⟨-, hlen, hne, hnd, ⟨T', h1, h2, h3, h4, -⟩, -, hpend⟩ := hrec
  obtain ⟨rfl, hpt, hM⟩ := hpt
  have hbatch : BatchOk cfg.pp keys pt := by
    intro T hT
    obtain ⟨h1, h2, h3⟩ := hpt T hT
    exact ⟨h1, fun k hk => hns (by simp [hT]) k hk T h1 h3⟩
  have hI := insert_counts (cfg := gcfg U cfg) (C := C.guard U) (shows := shows)
    (v0 := C.view s) (f := encOf cfg keys values) (prev := pt) hN hpp hU (hsh.guard U)
    (guardDb_guards U cfg.db) hs.1 hlen hne hnd
    (fun k hk => by
      rcases encodedOf_cases cfg hlen hk with ⟨h, _⟩ | ⟨v, _, e, _, h⟩
      · exact .inl h
      · exact .inr ⟨e, h⟩)
    (fun k hk hok => by
      refine ⟨trivial, fun i hi => ?_⟩
      rcases encodedOf_cases cfg hlen hk with ⟨_, h⟩ | ⟨v, _, e, _, h⟩
      · exact hin i (mem_hashedBy h i hi)
      · have hok : encodedOf cfg (valueMap keys values) k = _ := hok
        rw [h] at hok; cases hok)
    (fun T hT => ⟨(hpt T hT).1.norm, (hpt T hT).2.1⟩) hbatch
  have hcnt := ends_of_guard (C := C) hin (Ex := fun _ => True)
    (P := fun s0 => C.view s0.1 = C.view s ∧ C.pending s0.1 = View.empty N)
    (Q := fun r s1 => (∀ k ∈ keys, encodedOf cfg (valueMap keys values) k = .ok (encOf cfg keys values k)) ∧
        ∃ (ts : List (Trie N)) (T : Trie N), ts.Perm (blocksOf cfg.pp (sortKeys keys) (encOf cfg keys values) pt) ∧ Assembled ts T ∧
          r = T.loc cfg.hasher ∧
          (∀ i : Item N, i.Ok cfg.hasher U → countsOf cfg.hasher (C.view s1) i =
            afterInsert (againOf shows) pt (keptOf cfg.pp keys pt)
              (keys.map (fun k => (k, encOf cfg keys values k))) T
              (countsOf cfg.hasher (C.view s)) i) ∧
          C.pending s1 = View.empty N)
    (E := fun _ => True)
    (triple_conseq hI (fun _ h => h) (fun _ _ h => h) (fun _ h => h)) ⟨rfl, hp⟩
  unfold Ends at hcnt
  rw [hrun] at hcnt
  obtain ⟨-, hall, ts, T, hperm, hasm, -, hc, -⟩ := hcnt
  obtain ⟨e1, e2⟩ := assembled_batch hN hpp hne hnd hbatch hperm hasm
  have := Represents.unique e1 h1 (represents_assign hlen hnd hM hall e2) h4
  subst this
  refine ⟨hpend, hlen, hne, hnd, hbatch, hall, T, ⟨ts, hasm, hperm⟩, h1, h2, h3, h4, ?_⟩
  intro i hi
  rw [hc i hi, afterInsert_congr (mem_encodedPairs hlen hnd hall)]

theorem insert_tally (hN : 0 < N) (hpp : cfg.pp.Lawful) (hU : CollisionFree cfg.hasher U) {shows : Bool}
    (hsh : WritesShow C shows)
    {s s' : σ} {prev : Option (Arr N)} {M : Contents N V} {keys : List (Arr N)} {values : List V}
    (hin : ∀ i ∈ hashedBy cfg prev keys values s, U i) (hs : InPlace C U s)
    (hp : C.pending s = View.empty N)
    {pt : Option (Trie N)} (hpt : PrevTrie cfg U pt prev M)
    (hns : prev ≠ none → Handled cfg M keys) {r : Arr N}
    (hrun : insert cfg prev keys values s = (.ok r, s')) :
    C.pending s' = View.empty N ∧
    ∃ T' : Trie N, T'.WF ∧ T'.loc cfg.hasher = r ∧ (∀ i ∈ T'.inputs cfg.hasher, U i) ∧
      Represents cfg T' (M.assign keys values) ∧
      ∀ i : Item N, i.Ok cfg.hasher U → countsOf cfg.hasher (C.view s') i =
        afterInsert (againOf shows) pt (keptOf cfg.pp keys pt) (encodedPairs cfg keys values) T'
          (countsOf cfg.hasher (C.view s)) i := by
  obtain ⟨h1, -, -, -, -, -, T', -, h⟩ := insert_tally_parts hN hpp hU hsh hin hs hp hpt hns hrun
  exact ⟨h1, T', h⟩

theorem remove_tally (hU : CollisionFree cfg.hasher U) {T : Trie N} (hT : T.WF)
    (hin : ∀ i ∈ T.inputs cfg.hasher, U i) {s s' : σ} (hs : InPlace C U s)
    (hp : C.pending s = View.empty N) (hrun : remove cfg (T.loc cfg.hasher) s = (.ok (), s')) :
    C.pending s' = View.empty N ∧ ∀ i : Item N, i.Ok cfg.hasher U →
      (GivenUp (countsOf cfg.hasher (C.view s)) (.tree T) i →
        countsOf cfg.hasher (C.view s') i = countsOf cfg.hasher (C.view s) i - 1) ∧
      (¬ GivenUp (countsOf cfg.hasher (C.view s)) (.tree T) i →
        countsOf cfg.hasher (C.view s') i = countsOf cfg.hasher (C.view s) i) := by
  have := remove_counts (C := C.toG) hU hT hin hs.1 s ⟨rfl, hp⟩
  rw [hrun] at this
  exact ⟨this.2.2, this.2.1⟩

/-- What is stored has a positive count. -/
theorem Honest.has_iff (hU : CollisionFree cfg.hasher U) {v : View N} (hv : Honest cfg.hasher U v)
    {i : Item N} {x : Arr N} {w : Variant N} (hx : i.loc cfg.hasher = x)
    (hb : Belongs cfg.hasher U x w) : View.Has v x w ↔ 0 < countsOf cfg.hasher v i := by
  unfold countsOf
  rw [hx]
  cases h : v x with
  | none => simp [View.Has, h]
  | some n =>
    obtain ⟨h1, h2⟩ := hv x n h
    simp only [h1, iff_true]
    cases n with
    | mk refs var =>
      cases h2.unique hU hb
      exact ⟨refs, h⟩

theorem pathStored_iff (hU : CollisionFree cfg.hasher U) {v : View N} (hv : Honest cfg.hasher U v)
    (k : Arr N) : ∀ {T : Trie N}, T.Norm → (∀ i ∈ T.inputs cfg.hasher, U i) →
      (PathStored cfg.hasher v k T ↔ ∀ i ∈ way k T, 0 < countsOf cfg.hasher v i)
  | .leaf k' val, hn, hi => by
    simp only [PathStored, way, List.mem_cons, List.not_mem_nil, or_false, forall_eq_or_imp, forall_eq]
    rw [hv.has_iff hU (i := .tree (.leaf k' val)) (x := (Trie.leaf k' val).loc cfg.hasher) rfl
        (.inr ⟨_, hn, rfl, rfl, hi⟩),
      hv.has_iff hU (i := .data k' val) (x := Trie.dataLoc cfg.hasher k' val) rfl
        (.inl ⟨k', val, rfl, rfl, hi _ (by simp [Trie.inputs])⟩)]
  | .node l r, hn, hi => by
    have hl : ∀ i ∈ l.inputs cfg.hasher, U i := fun i h => hi i (by simp [Trie.inputs, h])
    have hr : ∀ i ∈ r.inputs cfg.hasher, U i := fun i h => hi i (by simp [Trie.inputs, h])
    simp only [PathStored, way, List.forall_mem_cons]
    rw [hv.has_iff hU (i := .tree (.node l r)) (x := (Trie.node l r).loc cfg.hasher) rfl
      (.inr ⟨_, hn, rfl, rfl, hi⟩)]
    split
    · rw [pathStored_iff hU hv k hn.2.1 hr]
    · rw [pathStored_iff hU hv k hn.1 hl]

theorem way_ok (k : Arr N) : ∀ {T : Trie N}, T.Norm → (∀ i ∈ T.inputs cfg.hasher, U i) →
    ∀ i ∈ way k T, i.Ok cfg.hasher U
  | .leaf k' val, hn, hi => by
    simp only [way, List.mem_cons, List.not_mem_nil, or_false, forall_eq_or_imp, forall_eq]
    exact ⟨⟨hn, hi⟩, hi _ (by simp [Trie.inputs])⟩
  | .node l r, hn, hi => by
    have hl : ∀ i ∈ l.inputs cfg.hasher, U i := fun i h => hi i (by simp [Trie.inputs, h])
    have hr : ∀ i ∈ r.inputs cfg.hasher, U i := fun i h => hi i (by simp [Trie.inputs, h])
    simp only [way, List.forall_mem_cons]
    refine ⟨⟨hn, hi⟩, ?_⟩
    split
    · exact way_ok k hn.2.1 hr
    · exact way_ok k hn.1 hl

theorem hash_writesShow : WritesShow (hashContract N) true := by
  intro s s' x n _
  rw [if_pos rfl]
  exact fun _ => rfl

theorem rocks_writesShow {codec : NodeCodec N} (hc : LawfulCodec codec) (env : RocksEnv N) :
    WritesShow (rocksContract hc env) false := by
  intro s s' x n h
  rw [if_neg (by simp)]
  simp only [rocksDatabase] at h
  split at h
  · cases h
  · split at h <;> cases h <;> rfl

end MerkleBit
