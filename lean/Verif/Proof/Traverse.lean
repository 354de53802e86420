import Verif.Proof.CreateTree
import Verif.Proof.Trav
/-! # What `traverse_tree` does, given what one step does -/

namespace MerkleBit
variable {N : Nat} {σ V : Type}

section
variable (cfg : Config N σ V) (C : GContract cfg.db) (Ex : Err → Prop)

/-- The steps of a traversal of `T`.  `J K op s`: the subtrees `K` have been kept and the subtrees
`op` are still to be examined.  `Fact t n s`: the node `n` was read for `t`.  Only subtrees in `R`
are kept. -/
structure TravStep (T : Trie N) (R : List (Trie N)) (keyMap : AMap (Arr N) (Arr N))
    (J : List (Trie N) → List (Trie N) → σ → Prop) (Fact : Trie N → Node N → σ → Prop)
    (E : σ → Prop) : Prop where
  perm : ∀ {K K' op op' s}, K.Perm K' → op.Perm op' → J K op s → J K' op' s
  read : ∀ {K op t s}, J K (t :: op) s → t.Sub T →
    (∃ n, C.view s (t.loc cfg.hasher) = some n ∧ n.variant = t.variant cfg.hasher ∧ Fact t n s) ∨
    (C.view s (t.loc cfg.hasher) = none ∧ ∀ msg, Ex (.exception msg))
  split : ∀ {K op l r n s}, (Trie.node l r).Sub T → (T.keys.Nodup → .node l r ∉ R) →
    Fact (.node l r) n s → J K (.node l r :: op) s → J K (l :: r :: op) s
  drop : ∀ {K op k v loc n s}, (Trie.leaf k v).Sub T → keyMap.get? k = some loc →
    loc ≠ (Trie.leaf k v).loc cfg.hasher → Fact (.leaf k v) n s → J K (.leaf k v :: op) s → J K op s
  bump : ∀ (K op : List (Trie N)) (t : Trie N) (n : Node N) (cells : List (Trie N × Node N)),
    t.Sub T → t ∈ R → (∀ c ∈ cells, c.1 ∈ op) →
    n.variant = t.variant cfg.hasher →
    Triple C Ex (fun s => J K (t :: op) s ∧ Fact t n s ∧ ∀ c ∈ cells, Fact c.1 c.2 s)
      (cfg.db.insert (t.loc cfg.hasher) ⟨n.references + 1, t.variant cfg.hasher⟩)
      (fun _ s => J (t :: K) op s ∧ ∀ c ∈ cells, Fact c.1 c.2 s) E
  same : ∀ (K op : List (Trie N)) (k : Arr N) (v : List UInt8) (n : Node N)
    (cells : List (Trie N × Node N)),
    (Trie.leaf k v).Sub T → keyMap.get? k = some ((Trie.leaf k v).loc cfg.hasher) →
    (∀ c ∈ cells, c.1 ∈ op) → n.variant = (Trie.leaf k v).variant cfg.hasher →
    Triple C Ex (fun s => J K (.leaf k v :: op) s ∧ Fact (.leaf k v) n s ∧
        ∀ c ∈ cells, Fact c.1 c.2 s)
      (cfg.db.insert ((Trie.leaf k v).loc cfg.hasher)
        ⟨n.references + 1, (Trie.leaf k v).variant cfg.hasher⟩)
      (fun _ s => J K op s ∧ ∀ c ∈ cells, Fact c.1 c.2 s) E
  fail : ∀ {K op s}, J K op s → E s

/-- A cell of the queue belongs to a subtree of `T`. -/
structure CellRep (T : Trie N) (c : TreeCell N) (t : Trie N) : Prop where
  location : c.location = t.loc cfg.hasher
  variant : c.node.variant = t.variant cfg.hasher
  keys : c.keys ≠ []
  sub : t.Sub T
  depth : c.depth + t.height ≤ T.height

/-- Loop iterations left for a queue. -/
def weight (D : Nat) (q : List (TreeCell N)) : Nat :=
  (q.map (fun c => c.keys.length * (D + 2 - c.depth))).sum

end

section
variable {cfg : Config N σ V} {C : GContract cfg.db} {Ex : Err → Prop} {T : Trie N}
  {R : List (Trie N)}
  {keyMap : AMap (Arr N) (Arr N)} {J : List (Trie N) → List (Trie N) → σ → Prop}
  {Fact : Trie N → Node N → σ → Prop} {E : σ → Prop}

theorem TravStep.readBind {α : Type} (h : TravStep cfg C Ex T R keyMap J Fact E)
    (K op : List (Trie N)) (t : Trie N) (hsub : t.Sub T) {P' : σ → Prop}
    {f : Option (Node N) → M σ α} {Q : α → σ → Prop}
    (hsome : ∀ n, n.variant = t.variant cfg.hasher →
      Triple C Ex (fun s => J K (t :: op) s ∧ Fact t n s ∧ P' s) (f (some n)) Q E)
    (hnone : (∀ msg, Ex (.exception msg)) →
      Triple C Ex (fun s => J K (t :: op) s ∧ P' s) (f none) Q E) :
    Triple C Ex (fun s => J K (t :: op) s ∧ P' s)
      ((dbGet cfg (t.loc cfg.hasher)).bind f) Q E := by
  apply triple_bind (R := fun r s => (∃ n, r = some n ∧ n.variant = t.variant cfg.hasher ∧
    J K (t :: op) s ∧ Fact t n s ∧ P' s) ∨ (r = none ∧ (∀ msg, Ex (.exception msg)) ∧
    J K (t :: op) s ∧ P' s))
  · apply triple_dbGet
    · rintro s ⟨h1, h2⟩
      rcases h.read h1 hsub with ⟨n, h3, h4, h5⟩ | ⟨h3, h4⟩
      · exact .inl ⟨n, h3, h4, h1, h5, h2⟩
      · exact .inr ⟨h3, h4, h1, h2⟩
    · rintro s ⟨h1, h2⟩; exact h.fail h1
  · intro r s hs
    rcases hs with ⟨n, rfl, hv, hs⟩ | ⟨rfl, hm, hs⟩
    · exact hsome n hv s hs
    · exact hnone hm s hs

theorem insertLeaf_bump (h : TravStep cfg C Ex T R keyMap J Fact E) (K op : List (Trie N))
    (k : Arr N) (v : List UInt8) (cells : List (Trie N × Node N))
    (hsub : (Trie.leaf k v).Sub T) (hR : .leaf k v ∈ R) (hcells : ∀ c ∈ cells, c.1 ∈ op) :
    Triple C Ex (fun s => J K (.leaf k v :: op) s ∧ ∀ c ∈ cells, Fact c.1 c.2 s)
      (insertLeaf cfg ((Trie.leaf k v).loc cfg.hasher))
      (fun _ s => J (.leaf k v :: K) op s ∧ ∀ c ∈ cells, Fact c.1 c.2 s) E := by
  unfold insertLeaf
  simp only [M.bind_eq]
  apply h.readBind K op _ hsub
  case hnone =>
    intro hm
    exact triple_throw (hm _) (fun s hs => h.fail hs.1)
  case hsome =>
    intro n hv
    dsimp only
    rw [hv]
    exact h.bump K op _ n cells hsub hR hcells hv

theorem insertLeaf_same (h : TravStep cfg C Ex T R keyMap J Fact E) (K op : List (Trie N))
    (k : Arr N) (v : List UInt8) (cells : List (Trie N × Node N))
    (hsub : (Trie.leaf k v).Sub T)
    (hk : keyMap.get? k = some ((Trie.leaf k v).loc cfg.hasher)) (hcells : ∀ c ∈ cells, c.1 ∈ op) :
    Triple C Ex (fun s => J K (.leaf k v :: op) s ∧ ∀ c ∈ cells, Fact c.1 c.2 s)
      (insertLeaf cfg ((Trie.leaf k v).loc cfg.hasher))
      (fun _ s => J K op s ∧ ∀ c ∈ cells, Fact c.1 c.2 s) E := by
  unfold insertLeaf
  simp only [M.bind_eq]
  apply h.readBind K op _ hsub
  case hnone =>
    intro hm
    exact triple_throw (hm _) (fun s hs => h.fail hs.1)
  case hsome =>
    intro n hv
    dsimp only
    rw [hv]
    exact h.same K op k v n cells hsub hk hcells hv

/-- `split_nodes` on a child. -/
theorem splitNodes_rule (h : TravStep cfg C Ex T R keyMap J Fact E) (K op : List (Trie N))
    (t : Trie N) (ks : List (Arr N)) (d : Nat) (cells : List (Trie N × Node N))
    (hsub : t.Sub T) (hR : ks = [] → t ∈ R)
    (hcells : ∀ c ∈ cells, c.1 ∈ op) :
    Triple C Ex (fun s => J K (t :: op) s ∧ ∀ c ∈ cells, Fact c.1 c.2 s)
      (splitNodes cfg d (t.loc cfg.hasher) ks)
      (fun r s => (ks = [] ∧ ∃ ref, r = .ref ref ∧ RefRep cfg.hasher ref t ∧ J (t :: K) op s ∧
            ∀ c ∈ cells, Fact c.1 c.2 s) ∨
          (ks ≠ [] ∧ ∃ n, r = .cell ⟨t.loc cfg.hasher, ks, n, d + 1⟩ ∧
            n.variant = t.variant cfg.hasher ∧ J K (t :: op) s ∧ Fact t n s ∧
            ∀ c ∈ cells, Fact c.1 c.2 s)) E := by
  unfold splitNodes
  simp only [M.bind_eq, M.pure_eq]
  apply h.readBind K op _ hsub
  case hnone =>
    intro hm
    exact triple_throw (hm _) (fun s hs => h.fail hs.1)
  case hsome =>
    intro n hv
    dsimp only
    by_cases hnil : ks = []
    · rw [if_pos (by simp [hnil])]
      rw [hv]
      have hb := h.bump K op t n cells hsub (hR hnil) hcells hv
      cases t with
      | leaf k v =>
        simp only [Trie.variant] at hb ⊢
        apply triple_bind hb
        intro _
        apply triple_pure
        rintro s ⟨h1, h2⟩
        exact .inl ⟨hnil, _, rfl, ⟨rfl, rfl, rfl, rfl⟩, h1, h2⟩
      | node l r =>
        simp only [Trie.variant] at hb ⊢
        apply triple_bind hb
        intro _
        apply triple_pure
        rintro s ⟨h1, h2⟩
        exact .inl ⟨hnil, _, rfl, ⟨rfl, rfl, rfl, rfl⟩, h1, h2⟩
    · rw [if_neg (by simpa using hnil)]
      apply triple_pure
      rintro s hs
      exact .inr ⟨hnil, n, rfl, hv, hs⟩

theorem weight_cons (D : Nat) (c : TreeCell N) (q : List (TreeCell N)) :
    weight D (c :: q) = c.keys.length * (D + 2 - c.depth) + weight D q := by
  simp [weight]

/-- What a queue of cells contributes to the kept subtrees. -/
def travAll (pp : PartitionPoint N) (ks0 : List (Arr N)) (cs : List (TreeCell N × Trie N)) :
    List (Trie N) := cs.flatMap (fun c => trav pp ks0 c.2 c.1.keys)

theorem Trie.Sub.nodup {u t : Trie N} (h : u.Sub t) (hn : t.keys.Nodup) : u.keys.Nodup :=
  (h.entries.map Prod.fst).nodup hn

theorem sides_disjoint {l r u : Trie N} (hn : (Trie.node l r).keys.Nodup) (h1 : u.Sub l) :
    ¬ u.Sub r := by
  intro h2
  rw [Trie.keys_node, List.nodup_append] at hn
  exact hn.2.2 _ (Sub.key_mem h1) _ (Sub.key_mem h2) rfl

theorem Trie.length_entries_pos : ∀ t : Trie N, 0 < t.entries.length
  | .leaf _ _ => by simp [Trie.entries]
  | .node l r => by
    have := l.length_entries_pos
    simp only [Trie.entries, List.length_append]
    omega

theorem not_sub_left {l r : Trie N} : ¬ (Trie.node l r).Sub l := by
  intro h
  have := h.entries.length_le
  have h2 : 0 < r.entries.length := r.length_entries_pos
  simp only [Trie.entries, List.length_append] at this
  omega

theorem not_sub_right {l r : Trie N} : ¬ (Trie.node l r).Sub r := by
  intro h
  have := h.entries.length_le
  have h2 : 0 < l.entries.length := l.length_entries_pos
  simp only [Trie.entries, List.length_append] at this
  omega

theorem traverseTree_rule (hN : 0 < N) (hpp : cfg.pp.Lawful) {ks0 : List (Arr N)}
    (hkm : ∀ k, keyMap.get? k = none ↔ k ∉ ks0)
    (hdep : T.height ≤ cfg.depth ∨ Ex (.exception "Depth of merkle tree exceeded"))
    (hnorm : T.Norm)
    (h : TravStep cfg C Ex T R keyMap J Fact E) :
    ∀ (fuel : Nat) (cs : List (TreeCell N × Trie N)) (pn : List (TreeRef N)) (K : List (Trie N)),
      (∀ c ∈ cs, CellRep cfg T c.1 c.2) → List.Forall₂ (RefRep cfg.hasher) pn K →
      weight cfg.depth (cs.map (·.1)) < fuel →
      (∀ u ∈ travAll cfg.pp ks0 cs, u ∈ R) →
      (T.keys.Nodup → ∀ c ∈ cs, ∀ u ∈ R, u.Sub c.2 → u ∈ trav cfg.pp ks0 c.2 c.1.keys) →
      Triple C Ex (fun s => J K (cs.map (·.2)) s ∧ ∀ c ∈ cs, Fact c.2 c.1.node s)
        (traverseTree cfg keyMap fuel pn (cs.map (·.1)))
        (fun r s => ∃ K', List.Forall₂ (RefRep cfg.hasher) r K' ∧
          K'.Perm (K ++ travAll cfg.pp ks0 cs) ∧ J K' [] s) E
  | fuel, [], pn, K, _, hpn, _, _, _ => by
    have : traverseTree cfg keyMap fuel pn [] = M.pure pn := by cases fuel <;> rfl
    simp only [List.map_nil, this]
    apply triple_pure
    rintro s ⟨h1, -⟩
    exact ⟨K, hpn, by simp [travAll], h1⟩
  | 0, _ :: _, _, _, _, _, hw, _, _ => absurd hw (by omega)
  | fuel + 1, (c, t) :: cs, pn, K, hcs, hpn, hw, hR, hRx => by
    have hRx' := fun hn c hc => hRx hn c (List.mem_cons_of_mem _ hc)
    obtain ⟨hloc, hvar, hkeys, hsub, hdepth⟩ := hcs (c, t) (by simp)
    have hcs' : ∀ c ∈ cs, CellRep cfg T c.1 c.2 := fun c hc => hcs c (by simp [hc])
    have hwc : 0 < c.keys.length := List.length_pos_of_ne_nil hkeys
    simp only at hloc hvar hkeys hsub hdepth
    simp only [List.map_cons, weight_cons] at hw ⊢
    have hcellsmem : ∀ c ∈ cs.map (fun c => (c.2, c.1.node)), c.1 ∈ cs.map (·.2) := by
      intro c hc
      obtain ⟨c', h1, rfl⟩ := List.mem_map.1 hc
      exact List.mem_map.2 ⟨c', h1, rfl⟩
    have hcells : ∀ s, (∀ c ∈ cs, Fact c.2 c.1.node s) ↔
        ∀ c ∈ cs.map (fun c => (c.2, c.1.node)), Fact c.1 c.2 s := by
      intro s
      simp only [List.mem_map, forall_exists_index, and_imp, forall_apply_eq_imp_iff₂]
    have hRt : ∀ u ∈ trav cfg.pp ks0 t c.keys, u ∈ R := fun u hu =>
      hR u (by simp [travAll, hu])
    have hR' : ∀ u ∈ travAll cfg.pp ks0 cs, u ∈ R := fun u hu => hR u (by
      simp only [travAll, List.flatMap_cons, List.mem_append] at hu ⊢; exact .inr hu)
    by_cases hd : c.depth > cfg.depth
    · unfold traverseTree
      rw [if_pos hd]
      rcases hdep with hdep | hdep
      · omega
      · apply triple_throw hdep
        rintro s ⟨h1, -⟩
        exact h.fail h1
    · have hlen : 1 ≤ c.keys.length * (cfg.depth + 2 - c.depth) := Nat.mul_pos hwc (by omega)
      have hrec := traverseTree_rule hN hpp hkm hdep hnorm h fuel cs
      unfold traverseTree
      rw [if_neg hd, hvar]
      cases t with
      | leaf k v =>
        simp only [Trie.variant]
        by_cases hk : k ∈ ks0
        · have htr : travAll cfg.pp ks0 ((c, .leaf k v) :: cs) = travAll cfg.pp ks0 cs := by
            simp [travAll, trav, hk]
          rw [htr]
          cases hg : keyMap.get? k with
          | none => exact absurd hk ((hkm k).1 hg)
          | some loc =>
            dsimp only
            by_cases hl : loc = c.location
            · rw [if_pos hl, hloc]
              simp only [M.bind_eq]
              have hb := insertLeaf_same h K (cs.map (·.2)) k v
                (cs.map (fun c => (c.2, c.1.node))) hsub (by rw [hg, hl, hloc]) hcellsmem
              apply triple_bind (triple_conseq hb (fun s hs => ⟨hs.1, (hcells s).1
                (fun c hc => hs.2 c (by simp [hc]))⟩) (fun _ _ h => h) (fun _ h => h))
              intro _
              exact triple_conseq (hrec pn K hcs' hpn (by omega) hR' hRx')
                (fun s hs => ⟨hs.1, (hcells s).2 hs.2⟩) (fun _ _ h => h) (fun _ h => h)
            · rw [if_neg hl]
              refine triple_conseq (hrec pn K hcs' hpn (by omega) hR' hRx')
                (fun s hs => ⟨?_, fun c hc => hs.2 c (by simp [hc])⟩) (fun _ _ h => h) (fun _ h => h)
              exact h.drop hsub hg (by rw [← hloc]; exact hl) (hs.2 (c, .leaf k v) (by simp)) hs.1
        · rw [(hkm k).2 hk]
          dsimp only
          simp only [M.bind_eq]
          rw [hloc]
          have hb := insertLeaf_bump h K (cs.map (·.2)) k v
            (cs.map (fun c => (c.2, c.1.node))) hsub (hRt _ (by simp [trav, hk])) hcellsmem
          apply triple_bind (triple_conseq hb (fun s hs => ⟨hs.1, (hcells s).1
            (fun c hc => hs.2 c (by simp [hc]))⟩) (fun _ _ h => h) (fun _ h => h))
          intro _
          refine triple_conseq (hrec _ (K ++ [.leaf k v]) hcs'
            (List.rel_append hpn (.cons ⟨rfl, rfl, rfl, rfl⟩ .nil)) (by omega) hR' hRx')
            (fun s hs => ⟨h.perm (List.perm_append_singleton _ _).symm (List.Perm.refl _) hs.1, (hcells s).2 hs.2⟩)
            ?_ (fun _ h => h)
          rintro r s ⟨K', h1, h2, h3⟩
          refine ⟨K', h1, ?_, h3⟩
          simpa [travAll, trav, hk] using h2
      | node l r =>
        have hnn := hsub.norm hnorm
        have h8 := (Arr.lt_bits hnn.2.2).1
        simp only [Trie.variant]
        obtain ⟨m, hm, hcd, hinf⟩ := descs_ok hN hkeys (b := l.key) (s := firstDiff l.key r.key)
          (by omega)
        rw [hm]
        have hdesc : (if m < firstDiff l.key r.key then
            checkDescendants c.keys (firstDiff l.key r.key) l.key m
            else .ok c.keys) = .ok (descs l.key (firstDiff l.key r.key) c.keys) := by
          split
          · exact hcd
          · rw [checkDescendants_all (by omega)] at hcd
            exact hcd
        simp only [M.bind_eq, M.lift_ok_bind]
        rw [hdesc, M.lift_ok_bind]
        have hcond : (m < firstDiff l.key r.key ∧
            (descs l.key (firstDiff l.key r.key) c.keys).isEmpty = true) ↔
            descs l.key (firstDiff l.key r.key) c.keys = [] := by
          constructor
          · rintro ⟨-, h2⟩; simpa using h2
          · intro h2
            refine ⟨?_, by simp [h2]⟩
            by_contra hc
            rw [checkDescendants_all (by omega), h2] at hcd
            exact hkeys (Except.ok.inj hcd)
        by_cases hnil : descs l.key (firstDiff l.key r.key) c.keys = []
        · rw [if_pos (hcond.2 hnil), hloc]
          have hb := h.bump K (cs.map (·.2)) (.node l r) c.node
            (cs.map (fun c => (c.2, c.1.node))) hsub (hRt _ (by simp [trav, hnil])) hcellsmem hvar
          simp only [Trie.variant] at hb
          apply triple_bind (triple_conseq hb (fun s hs => ⟨hs.1, hs.2 (c, .node l r) (by simp),
            (hcells s).1 (fun c hc => hs.2 c (by simp [hc]))⟩) (fun _ _ h => h) (fun _ h => h))
          intro _
          refine triple_conseq (hrec _ (K ++ [.node l r]) hcs'
            (List.rel_append hpn (.cons ⟨rfl, rfl, rfl, rfl⟩ .nil)) (by omega) hR' hRx')
            (fun s hs => ⟨h.perm (List.perm_append_singleton _ _).symm (List.Perm.refl _) hs.1, (hcells s).2 hs.2⟩)
            ?_ (fun _ h => h)
          rintro r s ⟨K', h1, h2, h3⟩
          refine ⟨K', h1, ?_, h3⟩
          simpa [travAll, trav, hnil] using h2
        · rw [if_neg (fun hc => hnil (hcond.1 hc))]
          obtain ⟨hsp, happ⟩ := halves_ok hpp h8 (descs l.key (firstDiff l.key r.key) c.keys)
          rw [hsp, M.lift_ok_bind]
          generalize hhv : halves cfg.pp (firstDiff l.key r.key)
            (descs l.key (firstDiff l.key r.key) c.keys) = hv at happ
          obtain ⟨zs, os⟩ := hv
          simp only at happ ⊢
          have htrav : trav cfg.pp ks0 (.node l r) c.keys =
              (if zs = [] then [l] else trav cfg.pp ks0 l zs) ++
              (if os = [] then [r] else trav cfg.pp ks0 r os) := by
            rw [trav, if_neg hnil]
            dsimp only
            rw [hhv]
          have hlen2 : zs.length + os.length ≤ c.keys.length := by
            obtain ⟨pre, post, hk⟩ := hinf
            have h1 := congrArg List.length hk
            have h2 := congrArg List.length happ
            simp only [List.length_append] at h1 h2
            omega
          have hsl : l.Sub T := (Trie.Sub.left l r).trans hsub
          have hsr : r.Sub T := (Trie.Sub.right l r).trans hsub
          have hdl : c.depth + 1 + l.height ≤ T.height := by
            simp only [Trie.height] at hdepth; omega
          have hdr : c.depth + 1 + r.height ≤ T.height := by
            simp only [Trie.height] at hdepth; omega
          have hmul : (zs.length + os.length) * (cfg.depth + 2 - (c.depth + 1)) + c.keys.length ≤
              c.keys.length * (cfg.depth + 2 - c.depth) := by
            have h1 : cfg.depth + 2 - c.depth = (cfg.depth + 2 - (c.depth + 1)) + 1 := by omega
            rw [h1, Nat.mul_add, Nat.mul_one]
            exact Nat.add_le_add_right (Nat.mul_le_mul_right _ hlen2) _
          rw [Nat.add_mul] at hmul
          have hrec := fun cs pn K h1 h2 h3 h4 h5 =>
            traverseTree_rule hN hpp hkm hdep hnorm h fuel cs pn K h1 h2 h3 h4 h5
          -- what is kept below a child is kept by its cell
          have hside : T.keys.Nodup → (∀ u ∈ R, u.Sub l → zs ≠ [] → u ∈ trav cfg.pp ks0 l zs) ∧
              ∀ u ∈ R, u.Sub r → os ≠ [] → u ∈ trav cfg.pp ks0 r os := by
            intro hn
            have hdis := fun {u} => sides_disjoint (u := u) (hsub.nodup hn)
            constructor
            · intro u hu hul hz
              have := hRx hn (c, .node l r) (by simp) u hu (hul.trans (Trie.Sub.left l r))
              simp only [htrav, if_neg hz, List.mem_append] at this
              rcases this with this | this
              · exact this
              · refine absurd ?_ (hdis hul)
                split at this
                · rw [List.mem_singleton.1 this]; exact Trie.Sub.refl r
                · exact trav_sub _ _ u this
            · intro u hu hur hz
              have := hRx hn (c, .node l r) (by simp) u hu (hur.trans (Trie.Sub.right l r))
              simp only [htrav, if_neg hz, List.mem_append] at this
              rcases this with this | this
              · refine absurd hur (hdis ?_)
                split at this
                · rw [List.mem_singleton.1 this]; exact Trie.Sub.refl l
                · exact trav_sub _ _ u this
              · exact this
          have hopen : T.keys.Nodup → .node l r ∉ R := by
            intro hn hu
            have := hRx hn (c, .node l r) (by simp) _ hu (Trie.Sub.refl _)
            simp only [htrav, List.mem_append] at this
            rcases this with this | this
            · split at this
              · exact not_sub_left (by rw [List.mem_singleton.1 this]; exact Trie.Sub.refl l)
              · exact not_sub_left (trav_sub _ _ _ this)
            · split at this
              · exact not_sub_right (by rw [List.mem_singleton.1 this]; exact Trie.Sub.refl r)
              · exact not_sub_right (trav_sub _ _ _ this)
          -- the right child
          apply triple_bind (triple_conseq (splitNodes_rule h K (l :: cs.map (·.2)) r os c.depth
            (cs.map (fun c => (c.2, c.1.node))) hsr
            (fun ho => hRt _ (by rw [htrav]; simp [ho]))
            (fun c hc => List.mem_cons_of_mem _ (hcellsmem c hc)))
            (fun s hs => ⟨h.perm (List.Perm.refl _) (List.Perm.swap _ _ _) (h.split hsub hopen
                (hs.2 (c, .node l r) (by simp)) hs.1),
              (hcells s).1 (fun c hc => hs.2 c (by simp [hc]))⟩) (fun _ _ h => h) (fun _ h => h))
          intro one
          -- the left child, after the right child was kept or queued
          have left : ∀ (pn1 : List (TreeRef N)) (K1 : List (Trie N))
              (cs1 : List (TreeCell N × Trie N)),
              (∀ c ∈ cs1, CellRep cfg T c.1 c.2) → List.Forall₂ (RefRep cfg.hasher) pn1 K1 →
              zs.length * (cfg.depth + 2 - (c.depth + 1)) +
                weight cfg.depth (cs1.map (·.1)) < fuel →
              (∀ u ∈ travAll cfg.pp ks0 cs1, u ∈ R) →
              (T.keys.Nodup → ∀ c ∈ cs1, ∀ u ∈ R, u.Sub c.2 → u ∈ trav cfg.pp ks0 c.2 c.1.keys) →
              Triple C Ex (fun s => J K1 (l :: cs1.map (·.2)) s ∧ ∀ c ∈ cs1, Fact c.2 c.1.node s)
                ((splitNodes cfg c.depth (l.loc cfg.hasher) zs).bind (fun zero =>
                  traverseTree cfg keyMap fuel (pushSplit pn1 (cs1.map (·.1)) zero).1
                    (pushSplit pn1 (cs1.map (·.1)) zero).2))
                (fun r s => ∃ K', List.Forall₂ (RefRep cfg.hasher) r K' ∧
                  K'.Perm (K1 ++ ((if zs = [] then [l] else trav cfg.pp ks0 l zs) ++
                    travAll cfg.pp ks0 cs1)) ∧ J K' [] s) E := by
            intro pn1 K1 cs1 hcs1 hpn1 hw1 hR1 hRx1
            have hcm1 : ∀ c ∈ cs1.map (fun c => (c.2, c.1.node)), c.1 ∈ cs1.map (·.2) := by
              intro c hc
              obtain ⟨c', h1, rfl⟩ := List.mem_map.1 hc
              exact List.mem_map.2 ⟨c', h1, rfl⟩
            have hc1 : ∀ s, (∀ c ∈ cs1, Fact c.2 c.1.node s) ↔
                ∀ c ∈ cs1.map (fun c => (c.2, c.1.node)), Fact c.1 c.2 s := by
              intro s
              simp only [List.mem_map, forall_exists_index, and_imp, forall_apply_eq_imp_iff₂]
            apply triple_bind (triple_conseq (splitNodes_rule h K1 (cs1.map (·.2)) l zs c.depth
              (cs1.map (fun c => (c.2, c.1.node))) hsl
              (fun ho => hRt _ (by rw [htrav]; simp [ho])) hcm1)
              (fun s hs => ⟨hs.1, (hc1 s).1 hs.2⟩) (fun _ _ h => h) (fun _ h => h))
            intro zero s hs
            rcases hs with ⟨hz, ref, rfl, href, hj, hf⟩ | ⟨hz, n, rfl, hn, hj, hf, hf'⟩
            · refine triple_conseq (hrec cs1 (pn1 ++ [ref]) (K1 ++ [l]) hcs1
                (List.rel_append hpn1 (.cons href .nil)) (by omega) hR1 hRx1) (fun s hs => hs) ?_
                (fun _ h => h) s ⟨h.perm (List.perm_append_singleton _ _).symm (List.Perm.refl _) hj,
                  (hc1 s).2 hf⟩
              rintro r s ⟨K', h1, h2, h3⟩
              exact ⟨K', h1, by simpa [hz] using h2, h3⟩
            · refine triple_conseq (hrec ((⟨l.loc cfg.hasher, zs, n, c.depth + 1⟩, l) :: cs1) pn1 K1
                ?_ hpn1 (by simp only [List.map_cons, weight_cons]; omega) ?_ ?_) (fun s hs => hs) ?_
                (fun _ h => h) s ⟨hj, ?_⟩
              · intro c' hc'
                rcases List.mem_cons.1 hc' with rfl | hc'
                · exact ⟨rfl, hn, hz, hsl, hdl⟩
                · exact hcs1 c' hc'
              · intro u hu
                simp only [travAll, List.flatMap_cons, List.mem_append] at hu
                rcases hu with hu | hu
                · exact hRt u (by rw [htrav]; simp [hz, hu])
                · exact hR1 u hu
              · intro hn c' hc' u hu hs
                rcases List.mem_cons.1 hc' with rfl | hc'
                · exact (hside hn).1 u hu hs hz
                · exact hRx1 hn c' hc' u hu hs
              · rintro r s ⟨K', h1, h2, h3⟩
                exact ⟨K', h1, by simpa [hz, travAll] using h2, h3⟩
              · intro c' hc'
                rcases List.mem_cons.1 hc' with rfl | hc'
                · exact hf
                · exact (hc1 s).2 hf' c' hc'
          intro s hs
          rcases hs with ⟨hz, ref, rfl, href, hj, hf⟩ | ⟨hz, n, rfl, hn, hj, hf, hf'⟩
          · refine triple_conseq (left (pn ++ [ref]) (K ++ [r]) cs hcs'
              (List.rel_append hpn (.cons href .nil)) (by omega) hR' hRx') (fun s hs => hs) ?_
              (fun _ h => h) s ⟨h.perm (List.perm_append_singleton _ _).symm (List.Perm.refl _) hj,
                (hcells s).2 hf⟩
            rintro rr s ⟨K', h1, h2, h3⟩
            refine ⟨K', h1, h2.trans ?_, h3⟩
            simp only [travAll, List.flatMap_cons, htrav]
            rw [if_pos hz, List.append_assoc, List.append_assoc, List.perm_append_left_iff,
              ← List.append_assoc, ← List.append_assoc, List.perm_append_right_iff]
            exact List.perm_append_comm
          · refine triple_conseq (left pn K ((⟨r.loc cfg.hasher, os, n, c.depth + 1⟩, r) :: cs) ?_ hpn
              (by simp only [List.map_cons, weight_cons]; omega) ?_ ?_) (fun s hs => hs) ?_
              (fun _ h => h) s ⟨h.perm (List.Perm.refl _) (List.Perm.swap _ _ _) hj, ?_⟩
            · intro c' hc'
              rcases List.mem_cons.1 hc' with rfl | hc'
              · exact ⟨rfl, hn, hz, hsr, hdr⟩
              · exact hcs' c' hc'
            · intro u hu
              simp only [travAll, List.flatMap_cons, List.mem_append] at hu
              rcases hu with hu | hu
              · exact hRt u (by rw [htrav]; simp [hz, hu])
              · exact hR' u hu
            · intro hn c' hc' u hu hs
              rcases List.mem_cons.1 hc' with rfl | hc'
              · exact (hside hn).2 u hu hs hz
              · exact hRx' hn c' hc' u hu hs
            · rintro rr s ⟨K', h1, h2, h3⟩
              refine ⟨K', h1, h2.trans ?_, h3⟩
              simp only [travAll, List.flatMap_cons, htrav]
              rw [if_neg hz, List.append_assoc]
            · intro c' hc'
              rcases List.mem_cons.1 hc' with rfl | hc'
              · exact hf
              · exact (hcells s).2 hf' c' hc'

end
end MerkleBit
