import Verif.Proof.Content
import Verif.Proof.AMap
/-! # What `insert` does, given what its steps do -/

namespace MerkleBit
variable {N : Nat} {σ V : Type}

/-- Encoded value of a key of the batch. -/
def encodedOf (cfg : Config N σ V) (values : AMap (Arr N) V) (k : Arr N) : Res (List UInt8) :=
  match values.get? k with
  | some v => cfg.encode v
  | none => .error (.panic "HashMap index: key not found")

/-- One iteration of `insert_leaves`. -/
def leafBody (cfg : Config N σ V) (k : Arr N) (value : List UInt8) : M σ (Arr N) := do
  let oldData ← dbGet cfg (Trie.dataLoc cfg.hasher k value)
  let oldLeaf ← dbGet cfg ((Trie.leaf k value).loc cfg.hasher)
  cfg.db.insert (Trie.dataLoc cfg.hasher k value) ⟨nextRefs oldData, .data ⟨value⟩⟩
  cfg.db.insert ((Trie.leaf k value).loc cfg.hasher)
    ⟨nextRefs oldLeaf, (Trie.leaf k value).variant cfg.hasher⟩
  pure ((Trie.leaf k value).loc cfg.hasher)

theorem insertLeaves_cons (cfg : Config N σ V) (values : AMap (Arr N) V) (k : Arr N)
    (ks : List (Arr N)) : insertLeaves cfg values (k :: ks) =
      (M.lift (encodedOf cfg values k)).bind (fun value =>
        (leafBody cfg k value).bind (fun l => (insertLeaves cfg values ks).bind (fun rest =>
          M.pure (l :: rest)))) := by
  rw [insertLeaves]
  unfold leafBody encodedOf
  simp only [M.bind_eq, M.pure_eq, M.bind_assoc, M.pure_bind]
  have h : k.bytes.length = N := k.len
  simp only [Trie.dataLoc, Trie.loc, Trie.variant, HIn.hash, h]
  rfl

section
variable {cfg : Config N σ V} {C : GContract cfg.db} {Ex : Err → Prop} {E : σ → Prop}
  {JL : List (Arr N × List UInt8) → σ → Prop}

theorem insertLeaves_rule {values : AMap (Arr N) V} {f : Arr N → List UInt8} {all : List (Arr N)} :
    ∀ (ks : List (Arr N)) (done : List (Arr N × List UInt8)), all = done.map Prod.fst ++ ks →
      (∀ k ∈ ks, encodedOf cfg values k = .ok (f k) ∨
        ∃ e, encodedOf cfg values k = .error e ∧ Ex e) →
      (∀ done, ∀ k ∈ ks, (∃ rest, all = done.map Prod.fst ++ k :: rest) →
        encodedOf cfg values k = .ok (f k) →
        Triple C Ex (JL done) (leafBody cfg k (f k))
        (fun r s => r = (Trie.leaf k (f k)).loc cfg.hasher ∧ JL (done ++ [(k, f k)]) s) E) →
      (∀ done s, JL done s → E s) →
      Triple C Ex (JL done) (insertLeaves cfg values ks)
        (fun r s => (∀ k ∈ ks, encodedOf cfg values k = .ok (f k)) ∧
          r = ks.map (fun k => (Trie.leaf k (f k)).loc cfg.hasher) ∧
          JL (done ++ ks.map (fun k => (k, f k))) s) E
  | [], done, _, _, _, _ => by
    apply triple_pure
    intro s hs
    exact ⟨by simp, rfl, by simpa using hs⟩
  | k :: ks, done, hsplit, henc, hstep, hE => by
    rw [insertLeaves_cons]
    rcases henc k (by simp) with h | ⟨e, h, hex⟩
    · rw [h, M.lift_ok_bind]
      apply triple_bind (hstep done k (by simp) ⟨ks, hsplit⟩ h)
      intro r
      apply triple_pre
      rintro rfl
      apply triple_bind (insertLeaves_rule ks _ (by simp [hsplit]) (fun k hk => henc k (by simp [hk]))
        (fun done k hk => hstep done k (by simp [hk])) hE)
      intro rest
      apply triple_pure
      rintro s ⟨h1, rfl, h3⟩
      refine ⟨?_, by simp, by simpa using h3⟩
      intro k' hk'
      rcases List.mem_cons.1 hk' with rfl | hk'
      · exact h
      · exact h1 k' hk'
    · rw [h, M.lift_error_bind]
      exact triple_throw hex (hE done)

theorem keyMapOf_get (ks : List (Arr N)) (g : Arr N → Arr N) (k : Arr N) :
    (keyMapOf ks (ks.map g)).get? k = if k ∈ ks then some (g k) else none := by
  have key : ∀ (l : List (Arr N)) (m : AMap (Arr N) (Arr N)),
      (((l.map g).zip l).foldl (fun m lk => m.insert lk.2 lk.1) m).get? k =
        if k ∈ l then some (g k) else m.get? k := by
    intro l
    induction l with
    | nil => intro m; simp
    | cons a l ih =>
      intro m
      simp only [List.map_cons, List.zip_cons_cons, List.foldl_cons, ih, AMap.get?_insert,
        List.mem_cons]
      by_cases h1 : k ∈ l
      · simp [h1]
      · by_cases h2 : k = a
        · simp [h2]
        · simp [h1, h2]
  have := key ks AMap.empty
  unfold keyMapOf
  rw [this]
  split
  · rfl
  · simp [AMap.get?, AMap.empty]

theorem leafRefs_rep (H : Hasher N) (f : Arr N → List UInt8) (ks : List (Arr N)) :
    List.Forall₂ (RefRep H) (leafRefs ks (ks.map (fun k => (Trie.leaf k (f k)).loc H)))
      (ks.map (fun k => Trie.leaf k (f k))) := by
  unfold leafRefs
  induction ks with
  | nil => exact .nil
  | cons a ks ih => exact .cons ⟨rfl, rfl, rfl, rfl⟩ ih

/-- The leaves of a batch. -/
def leaves (ks : List (Arr N)) (f : Arr N → List UInt8) : List (Trie N) :=
  ks.map (fun k => Trie.leaf k (f k))

/-- The subtrees an insert on top of `prev` starts from. -/
def blocksOf (pp : PartitionPoint N) (ks : List (Arr N)) (f : Arr N → List UInt8) :
    Option (Trie N) → List (Trie N)
  | none => leaves ks f
  | some T => leaves ks f ++ trav pp ks T ks

theorem sortKeys_perm (ks : List (Arr N)) : (sortKeys ks).Perm ks := List.perm_insertionSort _ _

instance : IsTrans (Arr N) Arr.le := ⟨fun _ _ _ h1 h2 => Arr.le_trans h1 h2⟩

theorem sortKeys_sorted (ks : List (Arr N)) : (sortKeys ks).Pairwise Arr.le :=
  List.pairwise_insertionSort Arr.le ks

/-- `insert`, on no previous root or on a previous root that is the root of a stored tree. -/
theorem insert_rule (hN : 0 < N) (hpp : cfg.pp.Lawful) {keys : List (Arr N)} {values : List V}
    (hlen : keys.length = values.length) (hne : keys ≠ []) {f : Arr N → List UInt8}
    {prev : Option (Trie N)} {P : σ → Prop} {Q : Arr N → σ → Prop}
    {JT : List (Trie N) → List (Trie N) → σ → Prop} {Fact : Trie N → Node N → σ → Prop}
    {JM : List (Trie N) → σ → Prop}
    (henc : ∀ k ∈ keys, encodedOf cfg (valueMap keys values) k = .ok (f k) ∨
        ∃ e, encodedOf cfg (valueMap keys values) k = .error e ∧ Ex e)
    -- leaves
    (hP : ∀ s, P s → JL [] s)
    (hleaf : ∀ done, ∀ k ∈ keys, (∃ rest, sortKeys keys = done.map Prod.fst ++ k :: rest) →
      encodedOf cfg (valueMap keys values) k = .ok (f k) →
      Triple C Ex (JL done) (leafBody cfg k (f k))
        (fun r s => r = (Trie.leaf k (f k)).loc cfg.hasher ∧ JL (done ++ [(k, f k)]) s) E)
    (hLE : ∀ done s, JL done s → E s)
    -- traversal
    (hnone : prev = none → ∀ s, JL ((sortKeys keys).map (fun k => (k, f k))) s → JT [] [] s)
    (hsome : (∀ k ∈ keys, encodedOf cfg (valueMap keys values) k = .ok (f k)) →
      ∀ T, prev = some T → T.Norm ∧
      (T.height ≤ cfg.depth ∨ Ex (.exception "Depth of merkle tree exceeded")) ∧
      (∀ s, JL ((sortKeys keys).map (fun k => (k, f k))) s → JT [] [T] s) ∧
      TravStep cfg C Ex T (trav cfg.pp (sortKeys keys) T (sortKeys keys))
        (keyMapOf (sortKeys keys) ((sortKeys keys).map (fun k => (Trie.leaf k (f k)).loc cfg.hasher)))
        JT Fact E)
    -- merges
    (hdup : (∀ k ∈ keys, encodedOf cfg (valueMap keys values) k = .ok (f k)) →
      ¬ ((blocksOf cfg.pp (sortKeys keys) f prev).map Trie.key).Nodup →
      Ex (.exception "Attempted to insert item with duplicate keys") ∧ ∀ K s, JT K [] s → E s)
    (hflush : FlushStep C Ex JM E)
    (hmerge : (∀ k ∈ keys, encodedOf cfg (valueMap keys values) k = .ok (f k)) →
      ∀ ts' T', ts'.Perm (blocksOf cfg.pp (sortKeys keys) f prev) → Assembled ts' T' →
      MergeStep C Ex JM T' E ∧ ∀ K s, ts'.Perm (leaves (sortKeys keys) f ++ K) → JT K [] s → JM ts' s)
    (hQ : ∀ ts' T', (∀ k ∈ keys, encodedOf cfg (valueMap keys values) k = .ok (f k)) →
      ts'.Perm (blocksOf cfg.pp (sortKeys keys) f prev) → Assembled ts' T' →
      ∀ s, JM [T'] s → C.pending s = View.empty N → Q (T'.loc cfg.hasher) s) :
    Triple C Ex P (insert cfg (prev.map (·.loc cfg.hasher)) keys values) Q E := by
  unfold insert
  rw [if_neg (by simpa using hlen)]
  have hv : values ≠ [] := by
    rintro rfl
    exact hne (List.length_eq_zero_iff.1 (by simpa using hlen))
  rw [if_neg (by simp [hne, hv])]
  simp only [M.bind_eq, M.pure_eq]
  have hmem : ∀ k, k ∈ sortKeys keys ↔ k ∈ keys := fun k => (sortKeys_perm keys).mem_iff
  have hne' : sortKeys keys ≠ [] := by
    intro h
    have := (sortKeys_perm keys).length_eq
    rw [h] at this
    exact hne (List.length_eq_zero_iff.1 this.symm)
  apply triple_bind (triple_conseq (insertLeaves_rule (f := f) (sortKeys keys) [] rfl
    (fun k hk => henc k ((hmem k).1 hk)) (fun done k hk => hleaf done k ((hmem k).1 hk)) hLE)
    hP (fun _ _ h => h) (fun _ h => h))
  intro nodes
  apply triple_pre
  intro hall
  apply triple_pre
  rintro rfl
  simp only [List.nil_append]
  have hall' : ∀ k ∈ keys, encodedOf cfg (valueMap keys values) k = .ok (f k) :=
    fun k hk => hall k ((hmem k).2 hk)
  -- after the traversal
  have finish : ∀ (pn : List (TreeRef N)) (K : List (Trie N)),
      List.Forall₂ (RefRep cfg.hasher) pn K →
      (leaves (sortKeys keys) f ++ K).Perm (blocksOf cfg.pp (sortKeys keys) f prev) →
      Triple C Ex (JT K []) (createTree cfg (leafRefs (sortKeys keys)
        ((sortKeys keys).map (fun k => (Trie.leaf k (f k)).loc cfg.hasher)) ++ pn)) Q E := by
    intro pn K hpn hperm
    refine createTree_rule hN (ts := leaves (sortKeys keys) f ++ K) ?_
      (List.rel_append (leafRefs_rep cfg.hasher f (sortKeys keys)) hpn) ?_ hflush ?_ ?_
    · obtain ⟨a, l, hl⟩ := List.exists_cons_of_ne_nil hne'
      rw [hl]; simp [leafRefs]
    · intro hnd
      obtain ⟨h1, h2⟩ := hdup hall' (fun h => hnd (((hperm.map _).nodup_iff).2 h))
      exact ⟨h1, h2 K⟩
    · intro ts' T' hp hasm
      obtain ⟨h1, h2⟩ := hmerge hall' ts' T' (hp.trans hperm) hasm
      exact ⟨h1, fun s hs => h2 K s hp hs⟩
    · intro ts' T' hp hasm s h1 h2
      exact hQ ts' T' hall' (hp.trans hperm) hasm s h1 h2
  cases prev with
  | none =>
    simp only [Option.map_none]
    rw [M.pure_bind]
    exact triple_conseq (finish [] [] .nil (by simp [blocksOf])) (hnone rfl) (fun _ _ h => h)
      (fun _ h => h)
  | some T =>
    obtain ⟨hnorm, hdep, hJ, hstep⟩ := hsome hall' T rfl
    simp only [Option.map_some]
    apply triple_bind (R := fun r s => ∃ K, List.Forall₂ (RefRep cfg.hasher) r K ∧
      K.Perm (trav cfg.pp (sortKeys keys) T (sortKeys keys)) ∧ JT K [] s)
    · unfold generateTreerefs
      simp only [M.bind_eq]
      refine triple_conseq (P := fun s => JT [] [T] s ∧ True) ?_ (fun s hs => ⟨hJ s hs, trivial⟩)
        (fun _ _ h => h) (fun _ h => h)
      apply hstep.readBind [] [] T (Trie.Sub.refl T)
      case hnone =>
        intro hm
        exact triple_throw (hm _) (fun s hs => hstep.fail hs.1)
      case hsome =>
        intro n hn
        dsimp only
        refine triple_conseq (traverseTree_rule hN hpp (ks0 := sortKeys keys) ?_ hdep hnorm hstep
          _ [(⟨T.loc cfg.hasher, sortKeys keys, n, 0⟩, T)] [] [] ?_ .nil ?_ ?_ ?_)
          (fun s hs => ⟨hs.1, ?_⟩) ?_ (fun _ h => h)
        · intro k
          rw [keyMapOf_get]
          split
          · next h => simp [h]
          · next h => simp [h]
        · intro c hc
          simp only [List.mem_singleton] at hc
          subst hc
          exact ⟨rfl, hn, hne', Trie.Sub.refl T, by simp⟩
        · simp [weight, traversalFuel]
        · intro u hu
          simpa [travAll] using hu
        · intro _ c hc u hu _
          simp only [List.mem_singleton] at hc
          subst hc
          exact hu
        · intro c hc
          simp only [List.mem_singleton] at hc
          subst hc
          exact hs.2.1
        · rintro r s ⟨K', h1, h2, h3⟩
          exact ⟨K', h1, by simpa [travAll] using h2, h3⟩
    · intro pn
      apply triple_exists
      intro K
      apply triple_pre
      intro h1
      apply triple_pre
      intro h2
      exact finish pn K h1 (h2.append_left _)

/-- `insert` on a previous root that is not in the database (or is a data node) and that is not a
leaf written by the call itself: the traversal fails. -/
theorem insert_rootless {keys : List (Arr N)} {values : List V}
    (hlen : keys.length = values.length) (hne : keys ≠ []) {f : Arr N → List UInt8} {r : Arr N}
    {Q : Arr N → σ → Prop} (hEx : ∀ msg, Ex (.exception msg))
    (henc : ∀ k ∈ keys, encodedOf cfg (valueMap keys values) k = .ok (f k) ∨
        ∃ e, encodedOf cfg (valueMap keys values) k = .error e ∧ Ex e)
    (hleaf : ∀ done, ∀ k ∈ keys, encodedOf cfg (valueMap keys values) k = .ok (f k) →
      Triple C Ex (JL done) (leafBody cfg k (f k))
        (fun r s => r = (Trie.leaf k (f k)).loc cfg.hasher ∧ JL (done ++ [(k, f k)]) s) E)
    (hLE : ∀ done s, JL done s → E s)
    (hr : ∀ k ∈ keys, encodedOf cfg (valueMap keys values) k = .ok (f k) →
      (Trie.leaf k (f k)).loc cfg.hasher ≠ r) :
    Triple C Ex (fun s => JL [] s ∧ ∀ n, C.view s r = some n → ∃ d, n.variant = .data d)
      (insert cfg (some r) keys values) Q E := by
  unfold insert
  rw [if_neg (by simpa using hlen), if_neg (by
    have : values ≠ [] := by
      rintro rfl
      exact hne (List.length_eq_zero_iff.1 (by simpa using hlen))
    simp [hne, this])]
  simp only [M.bind_eq]
  have hmem : ∀ k, k ∈ sortKeys keys ↔ k ∈ keys := fun k => (sortKeys_perm keys).mem_iff
  apply triple_bind (triple_conseq (insertLeaves_rule
    (JL := fun done s => JL done s ∧ ∀ n, C.view s r = some n → ∃ d, n.variant = .data d)
    (f := f) (sortKeys keys) [] rfl
    (fun k hk => henc k ((hmem k).1 hk)) ?_ (fun done s h => hLE done s h.1))
    (fun s hs => hs) (fun _ _ h => h.2.2) (fun _ h => h))
  · intro nodes
    unfold generateTreerefs
    simp only [M.bind_eq]
    rw [M.bind_assoc]
    apply triple_bind (R := fun o s => E s ∧ ∀ n, o = some n → ∃ d, n.variant = .data d)
    · apply triple_dbGet
      · exact fun s hs => ⟨hLE _ s hs.1, hs.2⟩
      · exact fun s hs => hLE _ s hs.1
    · intro o s hs
      have fin : ∀ {msg : String}, Triple C Ex E
          (M.throw (.exception msg) : M σ (Arr N)) Q E :=
        fun {msg} => triple_throw (hEx msg) (fun _ h => h)
      cases o with
      | none => exact fin s hs.1
      | some n =>
        obtain ⟨d, hd⟩ := hs.2 n rfl
        unfold traversalFuel traverseTree
        simp only [Nat.not_lt_zero, gt_iff_lt, if_false, hd, M.throw_bind]
        exact fin s hs.1
  · intro done k hk _ hok
    have hk := (hmem k).1 hk
    refine triple_and (hleaf done k hk hok) ?_
    have hne' := hr k hk hok
    unfold leafBody
    simp only [M.bind_eq, M.pure_eq]
    apply triple_bind (R := fun _ s => ∀ n, C.view s r = some n → ∃ d, n.variant = .data d)
      (triple_dbGet (fun _ h => h) (fun _ _ => trivial))
    intro od
    apply triple_bind (R := fun _ s => ∀ n, C.view s r = some n → ∃ d, n.variant = .data d)
      (triple_dbGet (fun _ h => h) (fun _ _ => trivial))
    intro ol
    apply triple_bind (R := fun _ s => ∀ n, C.view s r = some n → ∃ d, n.variant = .data d)
    · apply triple_insert
      · rintro s s' h2 hw n hn
        rcases hw with ⟨-, hw, _⟩ | ⟨hw, _⟩
        · rw [hw, View.put] at hn
          split at hn
          · cases hn; exact ⟨_, rfl⟩
          · exact h2 n hn
        · rw [hw] at hn; exact h2 n hn
      · exact fun _ _ _ _ _ => trivial
    · intro _
      apply triple_bind (R := fun _ s => ∀ n, C.view s r = some n → ∃ d, n.variant = .data d)
      · apply triple_insert
        · rintro s s' h2 hw n hn
          rcases hw with ⟨-, hw, _⟩ | ⟨hw, _⟩
          · rw [hw, View.put, if_neg (Ne.symm hne')] at hn
            exact h2 n hn
          · rw [hw] at hn; exact h2 n hn
        · exact fun _ _ _ _ _ => trivial
      · intro _
        exact triple_pure (fun s hs => hs)

end
end MerkleBit
