import Verif.Proof.MachineLock
import Verif.Proof.Trace
import Verif.Proof.Calls
import Verif.Spec.Machine
/-! # Counters of the machine's width: `insert` and the reads -/

namespace MerkleBit
variable {N : Nat} {σ V α β : Type} {cfg : Config N σ V} {A : Arith}

/-! ## The traversal -/

section
variable {C : DbContract cfg.db} {U : HIn N → Prop} {v0 : View N} {K : Nat}

/-- Everything is in its place, and no branch counts more than `K` leaves. -/
def Tame (C : DbContract cfg.db) (U : HIn N → Prop) (v0 : View N) (K : Nat) (s : σ) : Prop :=
  Placed C.toG U v0 s ∧ CountsBelow C K s

theorem CountsBelow.wrote {s s' : σ} {x : Arr N} {n : Node N} (h : CountsBelow C K s)
    (hw : Wrote C.toG s s' x n) (hn : ∀ b, n.variant = .branch b → b.count ≤ K) :
    CountsBelow C K s' := by
  intro y m hm
  rcases hw with ⟨-, h2, h3⟩ | ⟨h2, h3⟩
  · change C.view s' = _ at h2
    change C.pending s' = _ at h3
    rw [h2, h3] at hm
    rcases hm with hm | hm
    · unfold View.put at hm
      split at hm
      · cases hm; exact hn
      · exact h y m (.inl hm)
    · cases hm
  · change C.view s' = _ at h2
    change C.pending s' = _ at h3
    rw [h2, h3] at hm
    rcases hm with hm | hm
    · exact h y m (.inl hm)
    · unfold View.put at hm
      split at hm
      · cases hm; exact hn
      · exact h y m (.inr hm)

theorem CountsBelow.same {s s' : σ} (h : CountsBelow C K s) (h1 : C.view s' = C.view s)
    (h2 : C.pending s' = C.pending s) : CountsBelow C K s' := by
  intro y m hm
  rw [h1, h2] at hm
  exact h y m hm

theorem tame_travStep (hU : CollisionFree cfg.hasher U) {T : Trie N} {R : List (Trie N)}
    {keyMap : AMap (Arr N) (Arr N)} (hn : T.Norm) (hT : ∀ i ∈ T.inputs cfg.hasher, U i)
    (hK : T.size ≤ K) :
    TravStep cfg C.toG (fun _ => True) T R keyMap (fun _ _ s => Tame C U v0 K s)
      (fun _ _ _ => True) (Tame C U v0 K) := by
  have hb : ∀ t : Trie N, t.Sub T → Belongs cfg.hasher U (t.loc cfg.hasher) (t.variant cfg.hasher) :=
    fun t hs => belongs_of_inputs (hs.norm hn) (fun i hi => hT i (hs.inputs i hi))
  have hc : ∀ t : Trie N, t.Sub T → ∀ b, t.variant cfg.hasher = .branch b → b.count ≤ K := by
    intro t hs b hb
    cases t with
    | leaf k v => cases hb
    | node l r =>
      simp only [Trie.variant, Variant.branch.injEq] at hb
      subst hb
      exact Nat.le_trans hs.entries.length_le hK
  have hins : ∀ (t : Trie N) (n : Node N) (P' : σ → Prop), t.Sub T →
      Triple C.toG (fun _ => True) (fun s => Tame C U v0 K s ∧ P' s)
        (cfg.db.insert (t.loc cfg.hasher) ⟨n.references + 1, t.variant cfg.hasher⟩)
        (fun _ => Tame C U v0 K) (Tame C U v0 K) := by
    intro t n P' hsub
    apply triple_insert
    · rintro s s' ⟨⟨h1, h2⟩, -⟩ hw
      exact ⟨h1.wrote hU (Nat.succ_pos _) (hb t hsub) hw, h2.wrote hw (hc t hsub)⟩
    · rintro s s' ⟨⟨h1, h2⟩, -⟩ e1 e2
      exact ⟨h1.same e1 (.inl e2), h2.same e1 e2⟩
  constructor
  · rintro K K' op op' s _ _ h; exact h
  · rintro K op t s ⟨h2, -⟩ hsub
    cases hv : C.toG.view s (t.loc cfg.hasher) with
    | none => exact .inr ⟨rfl, fun _ => trivial⟩
    | some n => exact .inl ⟨n, rfl, (h2.view _ _ hv).2.unique hU (hb t hsub), trivial⟩
  · rintro K op l r n s _ _ _ h; exact h
  · rintro K op k v loc n s _ _ _ _ h; exact h
  · intro K op t n cells hsub _ _ hv
    exact triple_conseq (hins t n _ hsub) (fun _ h => h) (fun _ _ h => ⟨h, fun _ _ => trivial⟩)
      (fun _ h => h)
  · intro K op k v n cells hsub _ _ hv
    exact triple_conseq (hins _ n _ hsub) (fun _ h => h) (fun _ _ h => ⟨h, fun _ _ => trivial⟩)
      (fun _ h => h)
  · rintro K op s h
    exact h

/-- The references a traversal hands on: what they count fits into the previous tree. -/
def RefsFit (K : Nat) (refs : List (TreeRef N)) : Prop :=
  (refs.map TreeRef.nodeCount).sum ≤ K ∧ ∀ r ∈ refs, r.count = 1 ∧ 1 ≤ r.nodeCount

theorem refsFit_of_rep {H : Hasher N} {refs : List (TreeRef N)} {ts : List (Trie N)}
    (h : List.Forall₂ (RefRep H) refs ts) (hK : (ts.flatMap Trie.entries).length ≤ K) :
    RefsFit K refs := by
  have key : (refs.map TreeRef.nodeCount).sum = (ts.flatMap Trie.entries).length ∧
      ∀ r ∈ refs, r.count = 1 ∧ 1 ≤ r.nodeCount := by
    clear hK
    induction h with
    | nil => simp
    | @cons r t refs ts h1 _ ih =>
      obtain ⟨-, -, h2, h3⟩ := h1
      have := t.size_pos'
      refine ⟨by simp [ih.1, h2, Trie.size], fun x hx => ?_⟩
      rcases List.mem_cons.1 hx with rfl | hx
      · exact ⟨h3, by omega⟩
      · exact ih.2 x hx
  exact ⟨key.1 ▸ hK, key.2⟩

theorem tame_generate (hN : 0 < N) (hpp : cfg.pp.Lawful) (hU : CollisionFree cfg.hasher U)
    (hK : 1 ≤ K) (r : Arr N) {ks : List (Arr N)} (hks : ks ≠ []) {km : AMap (Arr N) (Arr N)}
    (hkm : ∀ k, km.get? k = none ↔ k ∉ ks) :
    Triple C.toG (fun _ => True) (Tame C U v0 K) (generateTreerefs cfg r ks km)
      (fun refs s => RefsFit K refs ∧ Tame C U v0 K s) (Tame C U v0 K) := by
  intro s hs
  unfold generateTreerefs
  simp only [M.bind_eq]
  have throws : ∀ (e : Err), (M.throw e : M σ (List (TreeRef N))) s = (.error e, s) := fun _ => rfl
  unfold M.bind
  have e1 : dbGet cfg r s = (cfg.db.getNode s r, s) := rfl
  rw [e1]
  cases hg : cfg.db.getNode s r with
  | error e => exact .inr ⟨.inl ⟨trivial, id⟩, hs⟩
  | ok o =>
    have hv := (C.getNode_ok hg).symm
    cases o with
    | none => exact .inr ⟨.inl ⟨trivial, id⟩, hs⟩
    | some n =>
      dsimp only
      rcases (hs.1.view r n hv).2 with ⟨k, v, -, h, -⟩ | ⟨T, hn, rfl, hvar, hT⟩
      · have : traverseTree cfg km (traversalFuel cfg ks.length) [] [⟨r, ks, n, 0⟩] =
            M.throw (.exception "Corrupt merkle tree: Found data node while traversing tree") := by
          unfold traversalFuel traverseTree
          simp only [Nat.not_lt_zero, gt_iff_lt, if_false, h]
        rw [this]
        exact .inr ⟨.inl ⟨trivial, id⟩, hs⟩
      · have hsz : T.size ≤ K := by
          cases T with
          | leaf k v => simpa [Trie.size, Trie.entries] using hK
          | node a b => exact hs.2 _ n (.inl hv) _ hvar
        have := traverseTree_rule hN hpp (ks0 := ks) hkm (.inr trivial) hn
          (tame_travStep (v0 := v0) (C := C) (R := trav cfg.pp ks T ks) (keyMap := km) hU hn hT hsz)
          (traversalFuel cfg ks.length) [(⟨T.loc cfg.hasher, ks, n, 0⟩, T)] [] []
          (by
            intro c hc
            simp only [List.mem_singleton] at hc
            subst hc
            exact ⟨rfl, hvar, hks, Trie.Sub.refl T, by simp⟩)
          .nil (by simp [weight, traversalFuel])
          (by
            intro u hu
            simpa [travAll] using hu)
          (by
            intro _ c hc u hu _
            simp only [List.mem_singleton] at hc
            subst hc
            exact hu)
        refine triple_conseq this (P' := fun s' => s' = s) ?_ ?_ (fun _ h => h) s rfl
        · rintro _ rfl
          exact ⟨hs, fun _ _ => trivial⟩
        · rintro refs s' ⟨K', h1, h2, h3⟩
          refine ⟨refsFit_of_rep h1 ?_, h3⟩
          have : K'.Perm (trav cfg.pp ks T ks) := by simpa [travAll] using h2
          rw [(this.flatMap_right _).length_eq]
          exact Nat.le_trans (trav_size T ks) hsz

/-! ## Before `create_tree` -/

/-- `insert` up to `create_tree` (src/merkle_bit.rs:196-218). -/
def batchRefs (cfg : Config N σ V) (prev : Option (Arr N)) (vm : AMap (Arr N) V) (ks : List (Arr N)) :
    M σ (List (TreeRef N)) :=
  M.bind (insertLeaves cfg vm ks) (fun nodes =>
    M.bind (match prev with
      | some root => generateTreerefs cfg root ks (keyMapOf ks nodes)
      | none => M.pure []) (fun pn => M.pure (leafRefs ks nodes ++ pn)))

/-- The same with machine arithmetic. -/
def batchRefsA (A : Arith) (cfg : Config N σ V) (prev : Option (Arr N)) (vm : AMap (Arr N) V)
    (ks : List (Arr N)) : M σ (List (TreeRef N)) :=
  M.bind (Machine.insertLeaves A cfg vm ks) (fun nodes =>
    M.bind (match prev with
      | some root => Machine.generateTreerefs A cfg root ks (keyMapOf ks nodes)
      | none => M.pure []) (fun pn => M.pure (leafRefs ks nodes ++ pn)))

theorem insert_eq_batchRefs {τ : Type} (cfg : Config N τ V) (prev : Option (Arr N)) {keys : List (Arr N)}
    {values : List V} (h1 : keys.length = values.length) (h2 : keys ≠ []) :
    insert cfg prev keys values =
      M.bind (batchRefs cfg prev (valueMap keys values) (sortKeys keys)) (createTree cfg) := by
  have hv : values ≠ [] := by
    rintro rfl
    exact h2 (List.length_eq_zero_iff.1 (by simpa using h1))
  unfold insert batchRefs
  rw [if_neg (by simpa using h1), if_neg (by simp [h2, hv])]
  simp only [M.bind_eq, M.pure_eq, M.bind_assoc, M.pure_bind]
  cases prev <;> rfl

theorem insertA_eq_batchRefs (cfg : Config N σ V) (prev : Option (Arr N)) {keys : List (Arr N)}
    {values : List V} (h1 : keys.length = values.length) (h2 : keys ≠ []) :
    Machine.insert A cfg prev keys values =
      M.bind (batchRefsA A cfg prev (valueMap keys values) (sortKeys keys)) (Machine.createTree A cfg) := by
  have hv : values ≠ [] := by
    rintro rfl
    exact h2 (List.length_eq_zero_iff.1 (by simpa using h1))
  unfold Machine.insert batchRefsA
  rw [if_neg (by simpa using h1), if_neg (by simp [h2, hv])]
  simp only [M.bind_eq, M.pure_eq, M.bind_assoc, M.pure_bind]
  cases prev <;> rfl

theorem lock_batchRefs {B : Nat} (hd : cfg.depth + 1 < 2 ^ 64) (prev : Option (Arr N))
    (vm : AMap (Arr N) V) (ks : List (Arr N)) :
    Lock C B (fun _ => True) (batchRefs cfg.counted prev vm ks) (batchRefs cfg prev vm ks)
      (batchRefsA A cfg prev vm ks) (fun _ _ => True) := by
  unfold batchRefs batchRefsA
  refine lock_bind (lock_insertLeaves vm ks) (fun nodes => ?_)
  refine lock_bind (R := fun _ _ => True) ?_ (fun pn => lock_pure (fun _ _ => trivial))
  cases prev with
  | none => exact lock_pure (fun _ _ => trivial)
  | some r => exact lock_generate hd r ks _

/-- The references an insert starts from. -/
theorem tame_batchRefs (hN : 0 < N) (hpp : cfg.pp.Lawful) (hU : CollisionFree cfg.hasher U) (hK : 1 ≤ K)
    (prev : Option (Arr N)) {keys : List (Arr N)} {values : List V} {s : σ}
    (hlen : keys.length = values.length) (hne : keys ≠ [])
    (hin : ∀ i ∈ hashedBy cfg prev keys values s, U i) (hs : Tame C U v0 K s) :
    CountsBelow C K (batchRefs cfg prev (valueMap keys values) (sortKeys keys) s).2 ∧
    ∀ refs, (batchRefs cfg prev (valueMap keys values) (sortKeys keys) s).1 = .ok refs →
      RefsFit (K + keys.length) refs := by
  have hmem : ∀ k, k ∈ sortKeys keys ↔ k ∈ keys := fun k => (sortKeys_perm keys).mem_iff
  have hne' : sortKeys keys ≠ [] := by
    intro h
    have := (sortKeys_perm keys).length_eq
    rw [h] at this
    exact hne (List.length_eq_zero_iff.1 this.symm)
  have henc : ∀ k ∈ sortKeys keys,
      encodedOf cfg (valueMap keys values) k = .ok (encOf cfg keys values k) ∨
      ∃ e, encodedOf cfg (valueMap keys values) k = .error e ∧ True := by
    intro k hk
    rcases encodedOf_cases cfg hlen ((hmem k).1 hk) with ⟨h1, _⟩ | ⟨v, hv, e, h1, h2⟩
    · exact .inl h1
    · exact .inr ⟨e, h2, trivial⟩
  have hleafU : ∀ k ∈ sortKeys keys,
      encodedOf cfg (valueMap keys values) k = .ok (encOf cfg keys values k) →
      ∀ i ∈ (Trie.leaf k (encOf cfg keys values k)).inputs cfg.hasher, U i := by
    intro k hk hok i hi
    rcases encodedOf_cases cfg hlen ((hmem k).1 hk) with ⟨_, h⟩ | ⟨v, _, e, _, h⟩
    · exact hin i (mem_hashedBy h i hi)
    · rw [hok] at h; cases h
  have hleaves := insertLeaves_rule (cfg := cfg) (C := C.toG) (Ex := fun _ => True)
    (JL := fun _ => Tame C U v0 K) (E := Tame C U v0 K) (values := valueMap keys values)
    (f := encOf cfg keys values) (sortKeys keys) [] rfl henc
    (by
      intro done k hk _ hok
      have hi := hleafU k hk hok
      have hd : Belongs cfg.hasher U (Trie.dataLoc cfg.hasher k (encOf cfg keys values k))
          (.data ⟨encOf cfg keys values k⟩) := belongs_data (hi _ (by simp [Trie.inputs]))
      have hl := belongs_of_inputs (H := cfg.hasher) (t := .leaf k (encOf cfg keys values k)) (U := U)
        trivial hi
      have hins : ∀ (x : Arr N) (n : Node N), 0 < n.references → Belongs cfg.hasher U x n.variant →
          (∀ b, n.variant ≠ .branch b) →
          Triple C.toG (fun _ => True) (Tame C U v0 K) (cfg.db.insert x n)
            (fun _ => Tame C U v0 K) (Tame C U v0 K) := by
        intro x n hpos hb hnb
        apply triple_insert
        · rintro s s' ⟨h1, h2⟩ hw
          exact ⟨h1.wrote hU hpos hb hw, h2.wrote hw (fun b hb => absurd hb (hnb b))⟩
        · rintro s s' ⟨h1, h2⟩ e1 e2
          exact ⟨h1.same e1 (.inl e2), h2.same e1 e2⟩
      have hnext : ∀ o : Option (Node N), 0 < nextRefs o := by
        intro o
        cases o <;> simp [nextRefs]
      unfold leafBody
      simp only [M.bind_eq, M.pure_eq]
      apply triple_bind (R := fun _ => Tame C U v0 K) (triple_dbGet (fun _ h => h) (fun _ h => h))
      intro od
      apply triple_bind (R := fun _ => Tame C U v0 K) (triple_dbGet (fun _ h => h) (fun _ h => h))
      intro ol
      apply triple_bind (hins _ _ (hnext od) hd (by rintro b ⟨⟩))
      intro _
      apply triple_bind (hins _ _ (hnext ol) hl (by rintro b ⟨⟩))
      intro _
      exact triple_pure (fun s h => ⟨rfl, h⟩))
    (fun _ _ h => h)
  have hrule : Triple C.toG (fun _ => True) (Tame C U v0 K)
      (batchRefs cfg prev (valueMap keys values) (sortKeys keys))
      (fun refs s => RefsFit (K + keys.length) refs ∧ Tame C U v0 K s) (Tame C U v0 K) := by
    unfold batchRefs
    apply triple_bind hleaves
    intro nodes
    apply triple_pre
    intro _
    apply triple_pre
    rintro rfl
    apply triple_bind (R := fun pn s => RefsFit K pn ∧ Tame C U v0 K s)
    · cases prev with
      | none => exact triple_pure (fun s h => ⟨⟨by simp, by simp⟩, h⟩)
      | some r =>
        refine tame_generate hN hpp hU hK r hne' ?_
        intro k
        rw [keyMapOf_get]
        split
        · next h => simp [h]
        · next h => simp [h]
    · intro pn
      apply triple_pure
      rintro s ⟨⟨h1, h2⟩, h3⟩
      refine ⟨⟨?_, fun r hr => ?_⟩, h3⟩
      · have e : ((leafRefs (sortKeys keys) ((sortKeys keys).map
            (fun k => (Trie.leaf k (encOf cfg keys values k)).loc cfg.hasher))).map
              TreeRef.nodeCount).sum = keys.length := by
          rw [← (sortKeys_perm keys).length_eq]
          unfold leafRefs
          generalize sortKeys keys = l
          induction l with
          | nil => rfl
          | cons a l ih => simp only [List.map_cons, List.zip_cons_cons, List.sum_cons, ih,
              List.length_cons]; omega
        rw [List.map_append, List.sum_append, e]
        omega
      · rcases List.mem_append.1 hr with hr | hr
        · unfold leafRefs at hr
          obtain ⟨x, -, rfl⟩ := List.mem_map.1 hr
          exact ⟨rfl, Nat.le_refl _⟩
        · exact h2 r hr
  have := hrule s hs
  rcases hm : batchRefs cfg prev (valueMap keys values) (sortKeys keys) s with ⟨res, s'⟩
  rw [hm] at this
  cases res with
  | ok refs => exact ⟨this.2.2.2, fun x hx => by cases hx; exact this.2.1⟩
  | error e =>
    rcases this with h | h
    · exact h.elim
    · exact ⟨h.2.2, fun x hx => by cases hx⟩

/-! ## `insert` -/

/-- The number of references an insert starts from, on any database. -/
theorem batchRefs_length (prev : Option (Arr N)) (vm : AMap (Arr N) V) {ks : List (Arr N)} (hks : ks ≠ [])
    {s s' : σ} {refs : List (TreeRef N)} (h : batchRefs cfg prev vm ks s = (.ok refs, s')) :
    refs.length ≤ cfg.treeRefs prev ks.length := by
  unfold batchRefs at h
  obtain ⟨nodes, s1, h1, h⟩ := bind_ok h
  obtain ⟨pn, s2, h2, h⟩ := bind_ok h
  cases h
  have hl : nodes.length = ks.length :=
    (costs_insertLeaves (cfg := cfg) (K := countMeter cfg.db) vm ks 0 0 s (s, 0) trivial
      ⟨rfl, Nat.le_refl _⟩).2.2.2 nodes (by rw [h1])
  have hr : (leafRefs ks nodes).length = ks.length := by simp [leafRefs, hl]
  rw [List.length_append, hr]
  cases prev with
  | none =>
    cases h2
    simp [Config.treeRefs]
  | some r =>
    have := (costs_generate (cfg := cfg) (K := countMeter cfg.db) (P := fun _ => True) hks r
      (keyMapOf ks nodes) 0 0 s1 (s1, 0) trivial ⟨rfl, Nat.le_refl _⟩).2.2.2 pn (congrArg Prod.fst h2)
    have e : ks.length * (cfg.depth + 2) = ks.length * (cfg.depth + 1) + ks.length := by ring
    simp only [Config.treeRefs]
    omega

/-- `insert` in a state where everything is in its place and the counters are small. -/
theorem insert_machine (hN : 0 < N) (hpp : cfg.pp.Lawful) (hU : CollisionFree cfg.hasher U)
    (prev : Option (Arr N)) (keys : List (Arr N)) (values : List V)
    (hT : cfg.treeRefs prev keys.length < 2 ^ 32) {s : σ} (hin : ∀ i ∈ hashedBy cfg prev keys values s, U i) (hs : Placed C.toG U v0 s) {B : Nat}
    (hrefs : RefsBelow C B s) (hB : B + cfg.writes keys.length + 1 < 2 ^ 64)
    (hcnt : CountsBelow C K s) (hK : 1 ≤ K) (hKm : K + keys.length < 2 ^ 64) :
    Machine.insert A cfg prev keys values s = insert cfg prev keys values s ∧
    CountsBelow C (K + keys.length) (insert cfg prev keys values s).2 := by
  by_cases hlen : keys.length = values.length
  swap
  · unfold Machine.insert insert
    rw [if_pos hlen, if_pos hlen]
    exact ⟨rfl, hcnt.mono (Nat.le_add_right _ _)⟩
  by_cases hne : keys = []
  · unfold Machine.insert insert
    have hv : values = [] := List.length_eq_zero_iff.1 (by simpa [hne] using hlen.symm)
    subst hne hv
    rw [if_neg (by simp), if_pos (by simp), if_neg (by simp), if_pos (by simp)]
    exact ⟨rfl, hcnt.mono (Nat.le_add_right _ _)⟩
  have hd : cfg.depth + 1 < 2 ^ 64 := by
    have h1 : 1 * (2 * cfg.depth + 5) ≤ keys.length * (2 * cfg.depth + 5) :=
      Nat.mul_le_mul_right _ (List.length_pos_of_ne_nil hne)
    unfold Config.writes at hB
    omega
  obtain ⟨h1, h2⟩ := tame_batchRefs (v0 := v0) hN hpp hU hK prev hlen hne hin ⟨hs, hcnt⟩
  obtain ⟨-, hw⟩ := counted_insert (cfg := cfg) prev keys values s
  have hlock := lock_batchRefs (C := C) (B := B) (A := A) hd prev (valueMap keys values) (sortKeys keys)
    (s, 0) (fun x n hx => by simpa using hrefs x n hx) trivial
  have hle : (batchRefs cfg.counted prev (valueMap keys values) (sortKeys keys) (s, 0)).2.2 ≤
      cfg.writes keys.length := by
    refine Nat.le_trans ?_ hw
    rw [insert_eq_batchRefs cfg.counted prev hlen hne]
    unfold M.bind
    rcases hr : batchRefs cfg.counted prev (valueMap keys values) (sortKeys keys) (s, 0) with ⟨r, st⟩
    cases r with
    | error e => exact Nat.le_refl _
    | ok refs =>
      rw [hr] at hlock
      exact (runs_createTree (C := C) (B := B) (P := fun _ => True) refs st hlock.2.1 trivial).1
  have heq := hlock.2.2.2.2 (by omega)
  dsimp only at heq
  rw [insert_eq_batchRefs cfg prev hlen hne, insertA_eq_batchRefs cfg prev hlen hne]
  unfold M.bind
  rw [heq]
  rcases hr : batchRefs cfg prev (valueMap keys values) (sortKeys keys) s with ⟨r, s'⟩
  rw [hr] at h1 h2
  cases r with
  | error e => exact ⟨rfl, h1.mono (Nat.le_add_right _ _)⟩
  | ok refs =>
    have hfit := h2 refs rfl
    have hne' : sortKeys keys ≠ [] := fun h => hne (List.length_eq_zero_iff.1
      (by rw [← (sortKeys_perm keys).length_eq, h]; rfl))
    have hlen32 := batchRefs_length prev _ hne' hr
    rw [(sortKeys_perm keys).length_eq] at hlen32
    have := fits_createTree (cfg := cfg) (C := C) (A := A) hN hKm (fun r hr => (hfit.2 r hr).1)
      (Nat.lt_of_le_of_lt hlen32 hT) hfit.1
    refine ⟨?_, this.2.1 s' (h1.mono (Nat.le_add_right _ _))⟩
    dsimp only
    rw [this.1]

/-- `insert_one` is `insert` of one pair. -/
theorem insertOneA_eq (cfg : Config N σ V) (prev : Option (Arr N)) (k : Arr N) (v : V) :
    Machine.insertOne A cfg prev k v = Machine.insert A cfg prev [k] [v] := by
  symm
  funext s
  unfold Machine.insert Machine.insertOne
  simp only [List.length_singleton, ne_eq, not_true_eq_false, if_false, List.isEmpty_cons,
    Bool.or_self, Bool.false_eq_true, M.bind_eq]
  have hs : sortKeys [k] = [k] := rfl
  have hv : valueMap [k] [v] = AMap.empty.insert k v := rfl
  rw [hs, hv]
  refine bind_congr ?_
  intro nodes s1 h
  have hl : ∃ l, nodes = [l] := by
    unfold Machine.insertLeaves Machine.insertLeaves at h
    simp only [M.bind_eq] at h
    obtain ⟨_, _, -, h⟩ := bind_ok h
    obtain ⟨_, _, -, h⟩ := bind_ok h
    obtain ⟨_, _, -, h⟩ := bind_ok h
    obtain ⟨_, _, -, h⟩ := bind_ok h
    obtain ⟨_, _, -, h⟩ := bind_ok h
    obtain ⟨_, _, -, h⟩ := bind_ok h
    obtain ⟨_, _, -, h⟩ := bind_ok h
    obtain ⟨_, _, h', h⟩ := bind_ok h
    cases h'
    cases h
    exact ⟨_, rfl⟩
  obtain ⟨l, rfl⟩ := hl
  rfl

/-! ## `remove` -/

theorem counts_remove {x : Arr N} {s : σ} (hs : CountsBelow C K s) :
    CountsBelow C K (cfg.db.remove x s).2 := by
  intro y m hm
  refine hs y m ?_
  rcases hi : cfg.db.remove x s with ⟨r, s'⟩
  rw [hi] at hm
  dsimp only at hm
  cases r with
  | ok _ =>
    obtain ⟨-, h2, h3⟩ := C.remove_ok hi
    rw [h2, h3] at hm
    rcases hm with hm | hm
    · unfold View.del at hm
      split at hm
      · cases hm
      · exact .inl hm
    · exact .inr hm
  | error e =>
    obtain ⟨-, -, h2, h3⟩ := C.remove_err hi
    rw [h2, h3] at hm
    exact hm

theorem counts_bind {m : M σ α} {f : α → M σ β} (h1 : ∀ s, CountsBelow C K s → CountsBelow C K (m s).2)
    (h2 : ∀ a s, CountsBelow C K s → CountsBelow C K (f a s).2) (s : σ) (hs : CountsBelow C K s) :
    CountsBelow C K (M.bind m f s).2 := by
  have := h1 s hs
  unfold M.bind
  rcases hm : m s with ⟨r, s'⟩
  rw [hm] at this
  cases r with
  | error e => exact this
  | ok a => exact h2 a s' this

theorem counts_removeLoop : ∀ fuel nodes (s : σ), CountsBelow C K s →
    CountsBelow C K (removeLoop cfg fuel nodes s).2
  | _, [], s, hs => by unfold removeLoop; exact hs
  | 0, _ :: _, s, hs => by unfold removeLoop; exact hs
  | fuel + 1, location :: nodes, s, hs => by
    have next : ∀ (m : M σ Unit) nodes', (∀ s, CountsBelow C K s → CountsBelow C K (m s).2) →
        CountsBelow C K (M.bind m (fun _ => removeLoop cfg fuel nodes') s).2 :=
      fun m nodes' hm => counts_bind hm (fun _ s hs => counts_removeLoop fuel nodes' s hs) s hs
    unfold removeLoop
    cases hg : cfg.db.getNode s location with
    | error e =>
      have : dbGet cfg location s = (.error e, s) := by unfold dbGet M.read; simp only [hg]
      simp only [M.bind_eq]
      unfold M.bind
      rw [this]
      exact hs
    | ok o =>
      have : dbGet cfg location s = (.ok o, s) := by unfold dbGet M.read; simp only [hg]
      have hv := C.getNode_ok hg
      simp only [M.bind_eq]
      rw [M.bind, this]
      cases o with
      | none => exact counts_removeLoop fuel _ s hs
      | some node =>
        dsimp only
        have hb : ∀ b, node.variant = .branch b → b.count ≤ K := hs location node (.inl hv.symm)
        split
        · cases node.variant with
          | branch b => exact next _ _ (fun s hs => counts_remove hs)
          | leaf l => exact next _ _ (fun s hs => counts_remove hs)
          | data d => exact next _ _ (fun s hs => counts_remove hs)
        · exact next _ _ (fun s hs => counts_insert hb hs)

theorem counts_removeCall (r : Arr N) {s : σ} (hs : CountsBelow C K s) :
    CountsBelow C K (remove cfg r s).2 := by
  unfold remove
  exact counts_bind (fun s hs => counts_removeLoop _ _ s hs) (fun _ s hs => counts_flush hs) s hs

end

/-! ## Reading -/

section
variable {s : σ} (hd : cfg.depth + 1 < 2 ^ 64)
include hd

theorem pushCellA_eq {queue : List (TreeCell N)} {depth : Nat} (h : depth ≤ cfg.depth)
    (location : Arr N) (ks : List (Arr N)) :
    Machine.pushCellIfNode A cfg s queue depth location ks =
      pushCellIfNode cfg s queue depth location ks := by
  unfold Machine.pushCellIfNode pushCellIfNode
  rw [A.exact (by omega)]
  rfl

theorem getLoopA_eq (keys : List (Arr N)) : ∀ fuel queue leafMap,
    Machine.getLoop A cfg s keys fuel queue leafMap = getLoop cfg s keys fuel queue leafMap
  | _, [], _ => by unfold Machine.getLoop getLoop; rfl
  | 0, _ :: _, _ => by unfold Machine.getLoop getLoop; rfl
  | fuel + 1, cell :: queue, leafMap => by
    unfold Machine.getLoop getLoop
    by_cases h : cell.depth > cfg.depth
    · rw [if_pos h, if_pos h]
    · rw [if_neg h, if_neg h]
      simp only [pushCellA_eq hd (Nat.not_lt.1 h), getLoopA_eq keys fuel]
      rfl

theorem getA_eq (r : Arr N) (keys : List (Arr N)) : Machine.get A cfg s r keys = get cfg s r keys := by
  unfold Machine.get get
  simp only [getLoopA_eq hd]
  rfl

theorem getOneLoopA_eq (key : Arr N) : ∀ fuel nodes found depth,
    Machine.getOneLoop A cfg s key fuel nodes found depth = getOneLoop cfg s key fuel nodes found depth
  | _, [], _, _ => by unfold Machine.getOneLoop getOneLoop; rfl
  | 0, _ :: _, _, _ => by unfold Machine.getOneLoop getOneLoop; rfl
  | fuel + 1, x :: nodes, found, depth => by
    unfold Machine.getOneLoop getOneLoop
    by_cases h : depth > cfg.depth
    · rw [if_pos h, if_pos h]
    · rw [if_neg h, if_neg h, A.exact (by omega)]
      simp only [getOneLoopA_eq key fuel]
      rfl

theorem getOneA_eq (r k : Arr N) : Machine.getOne A cfg s r k = getOne cfg s r k := by
  unfold Machine.getOne getOne
  exact getOneLoopA_eq hd _ _ _ _ _

theorem proofLoopA_eq (key : Arr N) : ∀ fuel nodes proof found depth,
    Machine.proofLoop A cfg s key fuel nodes proof found depth =
      proofLoop cfg s key fuel nodes proof found depth
  | _, [], _, _, _ => by unfold Machine.proofLoop proofLoop; rfl
  | 0, _ :: _, _, _, _ => by unfold Machine.proofLoop proofLoop; rfl
  | fuel + 1, x :: nodes, proof, found, depth => by
    unfold Machine.proofLoop proofLoop
    by_cases h : depth > cfg.depth
    · rw [if_pos h, if_pos h]
    · rw [if_neg h, if_neg h, A.exact (by omega)]
      simp only [proofLoopA_eq key fuel]
      rfl

theorem generateInclusionProofA_eq (r k : Arr N) :
    Machine.generateInclusionProof A cfg s r k = generateInclusionProof cfg s r k := by
  unfold Machine.generateInclusionProof generateInclusionProof
  simp only [proofLoopA_eq hd]
  rfl

end
end MerkleBit
