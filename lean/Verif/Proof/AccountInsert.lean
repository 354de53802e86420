import Verif.Proof.AccountRemove
/-! # Reference counts during `insert` -/

namespace MerkleBit
variable {N : Nat} {σ V : Type}

section
variable {H : Hasher N} {U : HIn N → Prop}

/-- A tree whose hash inputs are all in `U`. -/
def TreeOk (H : Hasher N) (U : HIn N → Prop) (t : Trie N) : Prop :=
  t.Norm ∧ ∀ i ∈ t.inputs H, U i

theorem TreeOk.sub {t u : Trie N} (h : TreeOk H U t) (hs : u.Sub t) : TreeOk H U u :=
  ⟨hs.norm h.1, fun i hi => h.2 i (hs.inputs i hi)⟩

theorem TreeOk.ne_data (hU : CollisionFree H U) {t : Trie N} (h : TreeOk H U t) {k : Arr N}
    {v : List UInt8} (hk : U (.data k v)) : t.loc H ≠ Trie.dataLoc H k v := by
  intro he
  have := Item.eq_of_loc hU (i := .tree t) (j := .data k v) h hk he
  cases this

theorem TreeOk.inj (hU : CollisionFree H U) {t u : Trie N} (h : TreeOk H U t) (h' : TreeOk H U u)
    (he : t.loc H = u.loc H) : t = u := Trie.eq_of_loc hU h.2 h'.2 he

/-- Subtrees of reachable trees are reachable. -/
theorem reach_sub (hU : CollisionFree H U) {R : List (Arr N)} {u : Trie N} : ∀ {t : Trie N},
    TreeOk H U t → Reach (childrenOf H U) R (t.loc H) → u.Sub t →
      Reach (childrenOf H U) R (u.loc H)
  | .leaf k v, _, hr, hs => by
    unfold Trie.Sub at hs
    exact hs ▸ hr
  | .node l r, ht, hr, hs => by
    rcases hs with rfl | hs | hs
    · exact hr
    · refine reach_sub hU (ht.sub (Trie.Sub.left l r)) (.child hr ?_) hs
      rw [childrenOf_tree hU ht.1 ht.2]
      simp [Trie.variant, Variant.children]
    · refine reach_sub hU (ht.sub (Trie.Sub.right l r)) (.child hr ?_) hs
      rw [childrenOf_tree hU ht.1 ht.2]
      simp [Trie.variant, Variant.children]

/-- Only subtrees are reachable from trees. -/
theorem reach_tree (hU : CollisionFree H U) {ts : List (Trie N)} (hts : ∀ t ∈ ts, TreeOk H U t)
    {u : Trie N} (hu : TreeOk H U u)
    (hr : Reach (childrenOf H U) (ts.map (Trie.loc H)) (u.loc H)) : ∃ t ∈ ts, u.Sub t := by
  have key : ∀ x, Reach (childrenOf H U) (ts.map (Trie.loc H)) x →
      (∃ t ∈ ts, ∃ w : Trie N, w.Sub t ∧ x = w.loc H) ∨
      ∃ k v, U (.data k v) ∧ x = Trie.dataLoc H k v := by
    intro x hx
    induction hx with
    | root hx =>
      obtain ⟨t, ht, rfl⟩ := List.mem_map.1 hx
      exact .inl ⟨t, ht, t, Trie.Sub.refl t, rfl⟩
    | child _ hy ih =>
      rcases ih with ⟨t, ht, w, hw, rfl⟩ | ⟨k, v, hk, rfl⟩
      · have hwok := (hts t ht).sub hw
        rw [childrenOf_tree hU hwok.1 hwok.2] at hy
        cases w with
        | leaf k v =>
          simp only [Trie.variant, Variant.children, List.mem_singleton] at hy
          exact .inr ⟨k, v, hwok.2 _ (by simp [Trie.inputs]), hy⟩
        | node l r =>
          simp only [Trie.variant, Variant.children, List.mem_cons, List.not_mem_nil,
            or_false] at hy
          rcases hy with rfl | rfl
          · exact .inl ⟨t, ht, l, (Trie.Sub.left l r).trans hw, rfl⟩
          · exact .inl ⟨t, ht, r, (Trie.Sub.right l r).trans hw, rfl⟩
      · rw [childrenOf_data hU hk] at hy
        simp at hy
  rcases key _ hr with ⟨t, ht, w, hw, he⟩ | ⟨k, v, hk, he⟩
  · have := hu.inj hU ((hts t ht).sub hw) he
    exact ⟨t, ht, this ▸ hw⟩
  · exact absurd he (hu.ne_data hU hk)

/-- Trees with a common subtree have a common key. -/
theorem not_mem_of_nodup {a : Trie N} {l : List (Trie N)}
    (h : ((a :: l).flatMap Trie.keys).Nodup) : a ∉ l := by
  intro ha
  rw [List.flatMap_cons, List.nodup_append] at h
  exact h.2.2 _ a.key_mem _ (List.mem_flatMap.2 ⟨a, ha, a.key_mem⟩) rfl

end

section
variable {cfg : Config N σ V} {C : GContract cfg.db} {U : HIn N → Prop} {ex : Prop}
  {live roots : List (Arr N)} {W : Arr N → Prop} {Ex : Err → Prop}

/-- The invariant of the insert: `roots` are the subtrees to be linked, `live` the roots that are live,
`W` what was written so far, `own` what was queued. -/
structure Filled (C : GContract cfg.db) (U : HIn N → Prop) (ex : Prop) (live roots : List (Arr N))
    (W : Arr N → Prop) (own : View N) (s : σ) : Prop where
  mine : Own C U ex own s
  view : Acct cfg.hasher U False (C.view s) live
  all : Acct cfg.hasher U ex ((C.view s).overlay own) (roots ++ live)
  pend : ∀ x, own x ≠ none → W x
  near : ∀ x n m, own x = some n → C.view s x = some m → n.references ≤ m.references + 1

/-- The invariant of the insert. -/
def Filling (C : GContract cfg.db) (U : HIn N → Prop) (ex : Prop) (live roots : List (Arr N))
    (W : Arr N → Prop) (s : σ) : Prop := ∃ own, Filled C U ex live roots W own s

theorem Filling.view {s : σ} (h : Filling C U ex live roots W s) :
    Acct cfg.hasher U False (C.view s) live := by
  obtain ⟨own, h⟩ := h
  exact h.view

theorem Filling.conseq {s : σ} {roots' : List (Arr N)} {W' : Arr N → Prop}
    (h : Filling C U ex live roots W s) (hr : (roots ++ live).Perm (roots' ++ live)) (hW : ∀ x, W x → W' x) :
    Filling C U ex live roots' W' s := by
  obtain ⟨own, h⟩ := h
  exact ⟨own, h.mine, h.view, h.all.perm hr, fun x hx => hW x (h.pend x hx), h.near⟩

theorem Filled.wrote {own : View N} {s s' : σ} {x : Arr N} {n : Node N} {roots' : List (Arr N)}
    {W' : Arr N → Prop} (h : Filled C U ex live roots W own s) (hw : Wrote C s s' x n)
    (hall : Acct cfg.hasher U ex (((C.view s).overlay own).put x n) (roots' ++ live))
    (hnear : ∀ m, C.view s x = some m → n.references ≤ m.references + 1)
    (hW : ∀ y, W y → W' y) (hx : W' x) : Filling C U ex live roots' W' s' := by
  obtain ⟨own', h1, h2, h3, h4⟩ := h.mine.wrote hw
  refine ⟨own', h1, ?_, h2 ▸ hall, ?_, ?_⟩
  · rcases h3 with e | e
    · rw [e]; exact h.view
    · rw [e]; exact hall.forget
  · intro y hy
    obtain ⟨p, hp⟩ := Option.ne_none_iff_exists'.1 hy
    rcases (h4 y p hp).2 with ⟨rfl, -⟩ | hp
    · exact hx
    · exact hW y (h.pend y (by rw [hp]; simp))
  · intro y p m hp hm
    obtain ⟨e, h4⟩ := h4 y p hp
    rw [e] at hm
    rcases h4 with ⟨rfl, rfl⟩ | hp
    · exact hnear m hm
    · exact h.near y p m hp hm

theorem Filled.clean {own : View N} {s : σ} {x : Arr N} (h : Filled C U ex live roots W own s) (hx : ¬ W x) :
    ((C.view s).overlay own) x = C.view s x := by
  have : own x = none := by
    by_contra hne
    exact hx (h.pend x hne)
  unfold View.overlay
  rw [this]
  rfl

theorem refsOf_congr {v v' : View N} {x : Arr N} (h : v x = v' x) : refsOf v x = refsOf v' x := by
  unfold refsOf; rw [h]

theorem view_wrote_ne {s s' : σ} {x y : Arr N} {n : Node N} (hw : Wrote C s s' x n) (hy : y ≠ x) :
    C.view s' y = C.view s y := by
  rcases hw with ⟨_, e1, _⟩ | ⟨e1, _⟩
  · rw [e1, View.put, if_neg hy]
  · rw [e1]

theorem nextRefs_near (o : Option (Node N)) (m : Node N) (h : o = some m) :
    nextRefs o ≤ m.references + 1 := by
  subst h; exact Nat.le_refl _

/-- One leaf. -/
theorem fill_leafBody (hU : CollisionFree cfg.hasher U) {k : Arr N} {v : List UInt8}
    (hl : ∀ i ∈ (Trie.leaf k v).inputs cfg.hasher, U i)
    (hd : ¬ W (Trie.dataLoc cfg.hasher k v)) (hlW : ¬ W ((Trie.leaf k v).loc cfg.hasher))
    (hex : ex → ¬ Reach (childrenOf cfg.hasher U) (roots ++ live)
      ((Trie.leaf k v).loc cfg.hasher)) :
    Triple C Ex (Filling C U ex live roots W) (leafBody cfg k v)
      (fun r s => r = (Trie.leaf k v).loc cfg.hasher ∧
        Filling C U ex live ((Trie.leaf k v).loc cfg.hasher :: roots)
          (fun x => W x ∨ x = Trie.dataLoc cfg.hasher k v ∨ x = (Trie.leaf k v).loc cfg.hasher) s)
      (fun s => Acct cfg.hasher U False (C.view s) live) := by
  have hdU : U (.data k v) := hl _ (by simp [Trie.inputs])
  have hok : TreeOk cfg.hasher U (.leaf k v) := ⟨trivial, hl⟩
  have hne : (Trie.leaf k v).loc cfg.hasher ≠ Trie.dataLoc cfg.hasher k v := hok.ne_data hU hdU
  unfold leafBody
  simp only [M.bind_eq, M.pure_eq]
  apply triple_bind (R := fun od s => Filling C U ex live roots W s ∧
      od = C.view s (Trie.dataLoc cfg.hasher k v))
    (triple_dbGet (fun _ h => ⟨h, rfl⟩) (fun _ h => h.view))
  intro od
  apply triple_bind (R := fun ol s => (Filling C U ex live roots W s ∧
      od = C.view s (Trie.dataLoc cfg.hasher k v)) ∧
      ol = C.view s ((Trie.leaf k v).loc cfg.hasher))
    (triple_dbGet (fun _ h => ⟨h, rfl⟩) (fun _ h => h.1.view))
  intro ol
  apply triple_bind (R := fun _ s => Filling C U ex live (Trie.dataLoc cfg.hasher k v :: roots)
      (fun x => W x ∨ x = Trie.dataLoc cfg.hasher k v) s ∧
      ol = C.view s ((Trie.leaf k v).loc cfg.hasher))
  · apply triple_insert
    · rintro s s' ⟨⟨⟨own, h⟩, h1⟩, h2⟩ hw
      refine ⟨h.wrote hw ?_ (fun m hm => nextRefs_near od m (h1.trans hm)) (fun y hy => .inl hy)
        (.inr rfl), ?_⟩
      · rw [List.cons_append]
        refine h.all.sink hU (childrenOf_data hU hdU) (belongs_data hdU) ?_
        dsimp only
        rw [h1, ← h.clean hd, nextRefs_eq]
      · rw [h2, view_wrote_ne hw hne]
    · rintro s s' ⟨⟨h, h1⟩, h2⟩ e1 e2
      rw [e1]; exact h.view
  · intro _
    apply triple_bind (R := fun _ s => Filling C U ex live ((Trie.leaf k v).loc cfg.hasher :: roots)
          (fun x => W x ∨ x = Trie.dataLoc cfg.hasher k v ∨ x = (Trie.leaf k v).loc cfg.hasher) s)
    · apply triple_insert
      · rintro s s' ⟨⟨own, h⟩, h2⟩ hw
        refine h.wrote hw ?_ (fun m hm => nextRefs_near ol m (h2.trans hm)) (fun y hy => ?_)
          (.inr (.inr rfl))
        · rw [List.cons_append]
          have hall := h.all
          rw [List.cons_append] at hall
          refine hall.leaf hU ?_ (belongs_of_inputs hok.1 hok.2) ?_ hex
          · rw [childrenOf_tree hU hok.1 hok.2]; rfl
          · dsimp only
            rw [h2, ← h.clean (fun hc => hc.elim hlW hne), nextRefs_eq]
        · rcases hy with hy | hy
          · exact .inl hy
          · exact .inr (.inl hy)
      · rintro s s' ⟨h, h2⟩ e1 e2
        rw [e1]; exact h.view
    · intro _
      exact triple_pure (fun s hs => ⟨rfl, hs⟩)

/-- Locations written by the leaf phase. -/
def LeafW (H : Hasher N) (es : List (Arr N × List UInt8)) (x : Arr N) : Prop :=
  ∃ e ∈ es, x = Trie.dataLoc H e.1 e.2 ∨ x = (Trie.leaf e.1 e.2).loc H

/-- The traversal. -/
theorem fill_travStep (hU : CollisionFree cfg.hasher U) {T : Trie N} {R : List (Trie N)}
    {es : List (Arr N × List UInt8)} {keyMap : AMap (Arr N) (Arr N)} {L : List (Arr N)}
    (hT : TreeOk cfg.hasher U T) (hlive : Reach (childrenOf cfg.hasher U) live (T.loc cfg.hasher))
    (hes : ∀ e ∈ es, TreeOk cfg.hasher U (.leaf e.1 e.2))
    (hR : ∀ t ∈ R, ∀ e ∈ es, t ≠ .leaf e.1 e.2)
    (hkm : ∀ k loc, keyMap.get? k = some loc →
      ∃ v, (k, v) ∈ es ∧ loc = (Trie.leaf k v).loc cfg.hasher)
    (hex : ex → ∀ e ∈ es, ¬ (Trie.leaf e.1 e.2).Sub T) :
    TravStep cfg C Ex T R keyMap
      (fun K op s => Filling C U ex live (K.map (Trie.loc cfg.hasher) ++ L)
          (fun x => LeafW cfg.hasher es x ∨ x ∈ K.map (Trie.loc cfg.hasher)) s ∧
        ((op ++ K).flatMap Trie.keys).Nodup ∧ ∀ t ∈ op ++ K, t.Sub T)
      (fun t n s => C.view s (t.loc cfg.hasher) = some n)
      (fun s => Acct cfg.hasher U False (C.view s) live) := by
  have hreach : ∀ {t : Trie N} {Q : List (Arr N)}, t.Sub T →
      Reach (childrenOf cfg.hasher U) (Q ++ live) (t.loc cfg.hasher) := fun hs =>
    reach_sub hU hT (hlive.subset fun _ h => List.mem_append_right _ h) hs
  constructor
  · rintro K K' op op' s hK hop ⟨h1, h2, h3⟩
    refine ⟨h1.conseq (((hK.map _).append_right _).append_right _) ?_, ?_, ?_⟩
    · rintro x (h | h)
      · exact .inl h
      · exact .inr ((hK.map _).mem_iff.1 h)
    · exact (((hop.append hK).flatMap_right _).nodup_iff).1 h2
    · intro t ht
      exact h3 t ((hop.append hK).mem_iff.2 ht)
  · rintro K op t s ⟨h1, h2, h3⟩ hsub
    left
    have hok := hT.sub hsub
    obtain ⟨refs, hv⟩ := h1.view.has hU (x := t.loc cfg.hasher) (by
      have := hreach (Q := []) hsub
      simpa using this) (belongs_of_inputs hok.1 hok.2)
    exact ⟨_, hv, rfl, hv⟩
  · rintro K op l r n s hsub - - ⟨h1, h2, h3⟩
    refine ⟨h1, ?_, ?_⟩
    · simpa [Trie.keys_node] using h2
    · intro t ht
      simp only [List.cons_append, List.mem_cons] at ht
      rcases ht with rfl | rfl | ht
      · exact (Trie.Sub.left _ _).trans hsub
      · exact (Trie.Sub.right _ _).trans hsub
      · exact h3 t (List.mem_cons_of_mem _ ht)
  · rintro K op k v loc n s hsub _ _ - ⟨h1, h2, h3⟩
    refine ⟨h1, ?_, fun t ht => h3 t (List.mem_cons_of_mem _ ht)⟩
    rw [List.cons_append, List.flatMap_cons] at h2
    exact h2.of_append_right
  · intro K op t n cells hsub htR hcells hv
    have hok := hT.sub hsub
    apply triple_insert
    · rintro s s' ⟨⟨⟨own, h1⟩, h2, h3⟩, hf, hfs⟩ hw
      have hnW : ¬ (LeafW cfg.hasher es (t.loc cfg.hasher) ∨
          t.loc cfg.hasher ∈ K.map (Trie.loc cfg.hasher)) := by
        rintro (⟨e, he, hl | hl⟩ | hK)
        · exact hok.ne_data hU ((hes e he).2 _ (by simp [Trie.inputs])) hl
        · exact hR t htR e he (hok.inj hU (hes e he) hl)
        · obtain ⟨u, hu, he⟩ := List.mem_map.1 hK
          have := (hT.sub (h3 u (by simp [hu]))).inj hU hok he
          subst this
          exact not_mem_of_nodup h2 (List.mem_append_right _ hu)
      refine ⟨⟨h1.wrote hw ?_ ?_ ?_ ?_, ?_, ?_⟩, ?_⟩
      · rw [List.map_cons, List.cons_append, List.cons_append]
        refine h1.all.bump (hreach hsub) (belongs_of_inputs hok.1 hok.2) ?_
        dsimp only
        rw [refsOf_some ((h1.clean hnW).trans hf)]
      · intro m hm
        rw [hf] at hm; cases hm
        exact Nat.le_refl _
      · rintro y (hy | hy)
        · exact .inl hy
        · exact .inr (by rw [List.map_cons]; exact List.mem_cons_of_mem _ hy)
      · exact .inr (by simp)
      · refine (List.Perm.nodup_iff ?_).1 h2
        apply List.Perm.flatMap_right
        exact List.perm_middle.symm
      · intro u hu
        exact h3 u (List.perm_middle.mem_iff.1 hu)
      · intro c hc
        rw [view_wrote_ne hw]
        · exact hfs c hc
        · intro he
          have hc1 := hcells c hc
          have := (hT.sub (h3 c.1 (by simp [hc1]))).inj hU hok he
          rw [this] at hc1
          exact not_mem_of_nodup h2 (List.mem_append_left _ hc1)
    · rintro s s' ⟨⟨h1, h2, h3⟩, -, -⟩ e1 e2
      rw [e1]; exact h1.view
  · intro K op k v n cells hsub hkey hcells hv
    have hok := hT.sub hsub
    obtain ⟨v', hmem, hloc⟩ := hkm _ _ hkey
    have hvv : v' = v := by
      have := hok.inj hU (hes _ hmem) hloc
      cases this; rfl
    subst hvv
    apply triple_insert
    · rintro s s' ⟨⟨⟨own, h1⟩, h2, h3⟩, hf, hfs⟩ hw
      have hWx : LeafW cfg.hasher es ((Trie.leaf k v').loc cfg.hasher) := ⟨_, hmem, .inr rfl⟩
      refine ⟨⟨h1.wrote hw ?_ ?_ (fun _ hy => hy) (.inl hWx), ?_, ?_⟩, ?_⟩
      · refine h1.all.touch (belongs_of_inputs hok.1 hok.2) (Nat.succ_pos _) ?_
          (fun he => hex he _ hmem hsub)
        dsimp only
        cases hp : own ((Trie.leaf k v').loc cfg.hasher) with
        | none =>
          rw [refsOf_some (n := n) (by unfold View.overlay; rw [hp]; exact hf)]; omega
        | some p =>
          rw [refsOf_some (n := p) (by unfold View.overlay; rw [hp]; rfl)]
          exact h1.near _ _ _ hp hf
      · intro m hm
        rw [hf] at hm; cases hm
        exact Nat.le_refl _
      · rw [List.cons_append, List.flatMap_cons] at h2
        exact h2.of_append_right
      · exact fun t ht => h3 t (List.mem_cons_of_mem _ ht)
      · intro c hc
        rw [view_wrote_ne hw]
        · exact hfs c hc
        · intro he
          have hc1 := hcells c hc
          have := (hT.sub (h3 c.1 (by simp [hc1]))).inj hU hok he
          rw [this] at hc1
          exact not_mem_of_nodup h2 (List.mem_append_left _ hc1)
    · rintro s s' ⟨⟨h1, h2, h3⟩, -, -⟩ e1 e2
      rw [e1]; exact h1.view
  · rintro K op s ⟨h1, -, -⟩
    exact h1.view

/-- Merging while linking up `blocks`. -/
def Linking (C : GContract cfg.db) (U : HIn N → Prop) (ex : Prop) (Ls blocks : List (Trie N))
    (ts : List (Trie N)) (s : σ) : Prop :=
  Filling C U ex (Ls.map (Trie.loc cfg.hasher)) (ts.map (Trie.loc cfg.hasher)) (fun _ => True) s ∧
    (ts.flatMap Trie.keys).Nodup ∧ (∀ b ∈ blocks, ∃ t ∈ ts, b.Sub t) ∧
    ∀ t ∈ ts, TreeOk cfg.hasher U t

theorem link_mergeStep (hU : CollisionFree cfg.hasher U) (hg : Guards U cfg.db) {T : Trie N}
    (hT : T.Norm) {Ls blocks : List (Trie N)} (hLs : ∀ L ∈ Ls, TreeOk cfg.hasher U L)
    (hfresh : ∀ a b, (Trie.node a b).Sub T → (∀ u ∈ blocks, ¬ (Trie.node a b).Sub u) →
      ∀ L ∈ Ls, ¬ (Trie.node a b).Sub L) :
    MergeStep C Ex (Linking C U ex Ls blocks) T
      (fun s => Acct cfg.hasher U False (C.view s) (Ls.map (Trie.loc cfg.hasher))) := by
  intro pre post a b _ hsub
  apply triple_insert_guard hg
  · rintro s s' ⟨⟨own, h1⟩, h2, h3, h4⟩ hin hw
    have hok : TreeOk cfg.hasher U (.node a b) := by
      refine ⟨hsub.norm hT, ?_⟩
      intro i hii
      simp only [Trie.inputs, List.mem_cons, List.mem_append] at hii
      rcases hii with rfl | hii | hii
      · exact hin _ rfl
      · exact (h4 a (by simp)).2 i hii
      · exact (h4 b (by simp)).2 i hii
    -- the keys of `a` and `b` are nowhere else
    have hperm : (pre ++ a :: b :: post).Perm (a :: b :: (pre ++ post)) :=
      List.perm_middle.trans (List.perm_middle.cons a)
    have h2' := ((hperm.flatMap_right Trie.keys).nodup_iff).1 h2
    have hnotsub : ∀ t ∈ pre ++ a :: b :: post, ¬ (Trie.node a b).Sub t := by
      intro t ht hs
      have ha : a.key ∈ t.keys := Sub.key_mem ((Trie.Sub.left a b).trans hs)
      have hb : b.key ∈ t.keys := Sub.key_mem ((Trie.Sub.right a b).trans hs)
      simp only [List.flatMap_cons] at h2'
      rw [List.nodup_append] at h2'
      obtain ⟨-, h5, h6⟩ := h2'
      rcases List.mem_cons.1 (hperm.mem_iff.1 ht) with rfl | ht
      · exact h6 _ hb _ (List.mem_append_left _ b.key_mem) rfl
      · refine h6 _ a.key_mem _ ?_ rfl
        rcases List.mem_cons.1 ht with rfl | ht
        · exact List.mem_append_left _ ha
        · exact List.mem_append_right _ (List.mem_flatMap.2 ⟨t, ht, ha⟩)
    have hnr : ¬ Reach (childrenOf cfg.hasher U)
        ((pre ++ post).map (Trie.loc cfg.hasher) ++ Ls.map (Trie.loc cfg.hasher))
        ((Trie.node a b).loc cfg.hasher) := by
      rw [← List.map_append]
      intro hr
      obtain ⟨t, ht, hs⟩ := reach_tree hU (by
        intro t ht
        rcases List.mem_append.1 ht with ht | ht
        · exact h4 t (by
            rcases List.mem_append.1 ht with ht | ht <;> simp [ht])
        · exact hLs t ht) hok hr
      rcases List.mem_append.1 ht with ht | ht
      · exact hnotsub t (by rcases List.mem_append.1 ht with ht | ht <;> simp [ht]) hs
      · refine hfresh a b hsub (fun u hu hsu => ?_) t ht hs
        obtain ⟨w, hw, huw⟩ := h3 u hu
        exact hnotsub w hw (hsu.trans huw)
    refine ⟨h1.wrote hw ?_ (fun m _ => by dsimp only; omega) (fun _ _ => trivial) trivial, ?_, ?_, ?_⟩
    · have hall := h1.all.perm (Q := [a.loc cfg.hasher, b.loc cfg.hasher] ++
        ((pre ++ post).map (Trie.loc cfg.hasher) ++ Ls.map (Trie.loc cfg.hasher))) (by
          rw [← List.append_assoc]
          exact (hperm.map (Trie.loc cfg.hasher)).append_right _)
      refine (hall.merge hU (by rw [childrenOf_tree hU hok.1 hok.2]; rfl)
        (belongs_of_inputs hok.1 hok.2) rfl hnr).perm ?_
      rw [← List.cons_append, ← List.map_cons]
      exact ((List.perm_middle.symm).map (Trie.loc cfg.hasher)).append_right _
    · simp only [List.flatMap_append, List.flatMap_cons, Trie.keys_node, List.append_assoc] at h2 ⊢
      exact h2
    · intro u hu
      obtain ⟨t, ht, hs⟩ := h3 u hu
      simp only [List.mem_append, List.mem_cons] at ht
      rcases ht with ht | rfl | rfl | ht
      · exact ⟨t, by simp [ht], hs⟩
      · exact ⟨.node t b, by simp, hs.trans (Trie.Sub.left t b)⟩
      · exact ⟨.node a t, by simp, hs.trans (Trie.Sub.right a t)⟩
      · exact ⟨t, by simp [ht], hs⟩
    · intro t ht
      simp only [List.mem_append, List.mem_cons] at ht
      rcases ht with ht | rfl | ht
      · exact h4 t (by simp [ht])
      · exact hok
      · exact h4 t (by simp [ht])
  · rintro s s' ⟨h1, -, -⟩ e1 e2
    rw [e1]; exact h1.view

theorem link_flushStep {Ls blocks : List (Trie N)} :
    FlushStep C Ex (Linking C U ex Ls blocks)
      (fun s => Acct cfg.hasher U False (C.view s) (Ls.map (Trie.loc cfg.hasher))) := by
  intro ts
  apply triple_batchWrite
  · rintro s s' ⟨⟨own, h1⟩, h2, h3, h4⟩ e1 e2
    have hall := h1.mine.flush h1.all
    refine ⟨⟨⟨View.empty N, ⟨fun x n h => (by cases h), fun x n h => ?_⟩, ?_, ?_, fun _ _ => trivial,
      fun x n m h => (by cases h)⟩, h2, h3, h4⟩, e2⟩
    · rw [e2] at h; cases h
    · rw [e1]; exact hall.forget
    · rw [overlay_empty, e1]; exact hall
  · rintro s s' ⟨h1, -⟩ e1 e2
    rw [e1]; exact h1.view

/-- `insert` on top of a live version: the counts cover the live roots whatever happens; on success
the new root is covered as well, exactly so if the counts were exact and no pair was known. -/
theorem insert_acct (hN : 0 < N) (hpp : cfg.pp.Lawful) (hU : CollisionFree cfg.hasher U)
    (hg : Guards U cfg.db) {keys : List (Arr N)} {values : List V}
    (hlen : keys.length = values.length) (hne : keys ≠ []) (hnd : keys.Nodup)
    {f : Arr N → List UInt8} {prev : Option (Trie N)}
    (henc : ∀ k ∈ keys, encodedOf cfg (valueMap keys values) k = .ok (f k) ∨
        ∃ e, encodedOf cfg (valueMap keys values) k = .error e ∧ Ex e)
    (hdepth : ∀ T, prev = some T → T.height ≤ cfg.depth ∨
      Ex (.exception "Depth of merkle tree exceeded"))
    (hleafU : ∀ k ∈ keys, encodedOf cfg (valueMap keys values) k = .ok (f k) →
      TreeOk cfg.hasher U (.leaf k (f k)))
    {Ls : List (Trie N)} (hLs : ∀ L ∈ Ls, TreeOk cfg.hasher U L)
    (hprev : ∀ T, prev = some T → ∃ L ∈ Ls, T.Sub L) (hbatch : BatchOk cfg.pp keys prev)
    (hfresh : (∀ k ∈ keys, encodedOf cfg (valueMap keys values) k = .ok (f k)) → ∀ ts T,
      ts.Perm (blocksOf cfg.pp (sortKeys keys) f prev) → Assembled ts T →
      ∀ a b, (Trie.node a b).Sub T →
        (∀ u ∈ blocksOf cfg.pp (sortKeys keys) f prev, ¬ (Trie.node a b).Sub u) →
        ∀ L ∈ Ls, ¬ (Trie.node a b).Sub L)
    (hex : ex → ∀ k ∈ keys, encodedOf cfg (valueMap keys values) k = .ok (f k) →
      ∀ L ∈ Ls, ¬ (Trie.leaf k (f k)).Sub L) :
    Triple C Ex
      (fun s => Acct cfg.hasher U ex (C.view s) (Ls.map (Trie.loc cfg.hasher)) ∧
        Own C U ex (View.empty N) s)
      (insert cfg (prev.map (·.loc cfg.hasher)) keys values)
      (fun r s => (∀ k ∈ keys, encodedOf cfg (valueMap keys values) k = .ok (f k)) ∧
        ∃ ts T, ts.Perm (blocksOf cfg.pp (sortKeys keys) f prev) ∧ Assembled ts T ∧
          r = T.loc cfg.hasher ∧ TreeOk cfg.hasher U T ∧
          Acct cfg.hasher U ex (C.view s) (T.loc cfg.hasher :: Ls.map (Trie.loc cfg.hasher)) ∧
          C.pending s = View.empty N)
      (fun s => Acct cfg.hasher U False (C.view s) (Ls.map (Trie.loc cfg.hasher))) := by
  have hmem : ∀ k, k ∈ sortKeys keys ↔ k ∈ keys := fun k => (sortKeys_perm keys).mem_iff
  have hnd' : (sortKeys keys).Nodup := (sortKeys_perm keys).nodup_iff.2 hnd
  have hmk : ((sortKeys keys).map (fun k => (k, f k))).map
      (fun e => (Trie.leaf e.1 e.2).loc cfg.hasher) =
      (leaves (sortKeys keys) f).map (Trie.loc cfg.hasher) := by
    simp [leaves, Function.comp_def]
  apply insert_rule hN hpp hlen hne
    (JL := fun done s => (∀ e ∈ done, e.1 ∈ keys ∧ e.2 = f e.1 ∧
        TreeOk cfg.hasher U (.leaf e.1 e.2)) ∧
      Filling C U ex (Ls.map (Trie.loc cfg.hasher))
        (done.map (fun e => (Trie.leaf e.1 e.2).loc cfg.hasher)) (LeafW cfg.hasher done) s)
    (JT := fun K op s => Filling C U ex (Ls.map (Trie.loc cfg.hasher))
        (K.map (Trie.loc cfg.hasher) ++ (leaves (sortKeys keys) f).map (Trie.loc cfg.hasher))
        (fun x => LeafW cfg.hasher ((sortKeys keys).map (fun k => (k, f k))) x ∨
          x ∈ K.map (Trie.loc cfg.hasher)) s ∧
      ((op ++ K).flatMap Trie.keys).Nodup ∧ ∀ t ∈ op ++ K, ∀ T ∈ prev, t.Sub T)
    (Fact := fun t n s => C.view s (t.loc cfg.hasher) = some n)
    (JM := Linking C U ex Ls (blocksOf cfg.pp (sortKeys keys) f prev))
    (henc := henc)
  · -- start
    rintro s ⟨h1, h2⟩
    refine ⟨by simp, View.empty N, h2, h1.weak, ?_, fun x hx => absurd rfl hx, fun x n m hn => (by cases hn)⟩
    rw [overlay_empty]; exact h1
  · -- one leaf
    rintro done k hk ⟨rest, hsplit⟩ hok
    apply triple_pre
    intro hdone
    have hkd : ∀ e ∈ done, e.1 ≠ k := by
      intro e he hek
      have h := hnd'
      rw [hsplit, List.nodup_append] at h
      exact h.2.2 e.1 (List.mem_map_of_mem he) k (by simp) hek
    have hleaf := hleafU k hk hok
    have hneW : ∀ e ∈ done, (Trie.leaf k (f k)).loc cfg.hasher ≠
        (Trie.leaf e.1 e.2).loc cfg.hasher := by
      intro e he heq
      have := hleaf.inj hU (hdone e he).2.2 heq
      exact hkd e he (Trie.leaf.inj this).1.symm
    refine triple_conseq (fill_leafBody hU hleaf.2 ?_ ?_ ?_) (fun _ h => h) ?_ (fun _ h => h)
    · rintro ⟨e, he, h | h⟩
      · have h1 : U (.data k (f k)) := hleaf.2 _ (by simp [Trie.inputs])
        have h2 : U (.data e.1 e.2) := (hdone e he).2.2.2 _ (by simp [Trie.inputs])
        have := hU _ _ h1 h2 h
        exact hkd e he (HIn.data.inj this).1.symm
      · exact (hdone e he).2.2.ne_data hU (hleaf.2 _ (by simp [Trie.inputs])) h.symm
    · rintro ⟨e, he, h | h⟩
      · exact hleaf.ne_data hU ((hdone e he).2.2.2 _ (by simp [Trie.inputs])) h
      · exact hneW e he h
    · intro he hr
      have hr' : Reach (childrenOf cfg.hasher U)
          ((done.map (fun e => Trie.leaf e.1 e.2) ++ Ls).map (Trie.loc cfg.hasher))
          ((Trie.leaf k (f k)).loc cfg.hasher) := by
        simpa [Function.comp_def] using hr
      obtain ⟨t, ht, hs⟩ := reach_tree hU (by
        intro t ht
        rcases List.mem_append.1 ht with ht | ht
        · obtain ⟨e, hee, rfl⟩ := List.mem_map.1 ht
          exact (hdone e hee).2.2
        · exact hLs t ht) hleaf hr'
      rcases List.mem_append.1 ht with ht | ht
      · obtain ⟨e, hee, rfl⟩ := List.mem_map.1 ht
        unfold Trie.Sub at hs
        exact hkd e hee (Trie.leaf.inj hs).1.symm
      · exact hex he k hk hok t ht hs
    · rintro r s ⟨h1, h2⟩
      refine ⟨h1, ?_, h2.conseq ?_ ?_⟩
      · intro e he
        rcases List.mem_append.1 he with he | he
        · exact hdone e he
        · simp only [List.mem_singleton] at he
          subst he
          exact ⟨hk, rfl, hleaf⟩
      · rw [List.map_append]
        apply List.Perm.append_right
        exact (List.perm_append_comm (l₁ := [(Trie.leaf k (f k)).loc cfg.hasher]))
      · rintro x (⟨e, he, h⟩ | h)
        · exact ⟨e, List.mem_append_left _ he, h⟩
        · exact ⟨(k, f k), by simp, h⟩
  · exact fun done s h => h.2.view
  · -- no previous root
    rintro rfl s ⟨hd, h⟩
    rw [hmk] at h
    refine ⟨h.conseq (by simp) (fun x hx => .inl hx), by simp, by simp⟩
  · -- a previous root
    rintro hall T rfl
    obtain ⟨T0, hTL, hT0⟩ := hprev T rfl
    have hTok := (hLs T0 hTL).sub hT0
    obtain ⟨hTwf, hsf⟩ := hbatch T rfl
    refine ⟨hTok.1, hdepth T rfl, ?_, ?_⟩
    · rintro s ⟨hd, h⟩
      rw [hmk] at h
      refine ⟨h.conseq (by simp) (fun x hx => .inl hx), ?_, ?_⟩
      · have : T.keys.Nodup := hTwf.sorted.imp Arr.ne_of_lt
        simpa using this
      · intro t ht T' hT'
        simp only [List.append_nil, List.mem_singleton] at ht
        cases hT'
        subst ht
        exact Trie.Sub.refl _
    · have hne' : sortKeys keys ≠ [] := fun h => by
        obtain ⟨k, hk⟩ := List.exists_mem_of_ne_nil _ hne
        rw [← hmem, h] at hk
        simp at hk
      have := fill_travStep (C := C) (ex := ex) (Ex := Ex) hU
        (live := Ls.map (Trie.loc cfg.hasher))
        (R := trav cfg.pp (sortKeys keys) T (sortKeys keys))
        (es := (sortKeys keys).map (fun k => (k, f k)))
        (keyMap := keyMapOf (sortKeys keys)
          ((sortKeys keys).map (fun k => (Trie.leaf k (f k)).loc cfg.hasher)))
        (L := (leaves (sortKeys keys) f).map (Trie.loc cfg.hasher)) hTok
        (reach_sub hU (hLs T0 hTL) (.root (List.mem_map_of_mem hTL)) hT0) ?_ ?_ ?_ ?_
      · simpa using this
      · intro e he
        obtain ⟨k, hk, rfl⟩ := List.mem_map.1 he
        exact hleafU k ((hmem k).1 hk) (hall k ((hmem k).1 hk))
      · intro t ht e he heq
        obtain ⟨k, hk, rfl⟩ := List.mem_map.1 he
        have := (trav_far_iff hN hpp hk hTwf (sortKeys_sorted keys) hne').2
          (hsf k ((hmem k).1 hk)) t ht
        rw [heq] at this
        simp [Trie.key, Trie.split, firstDiff_self] at this
      · intro k loc hk
        rw [keyMapOf_get] at hk
        split at hk
        · next h =>
          cases hk
          exact ⟨f k, List.mem_map_of_mem (f := fun k => (k, f k)) h, rfl⟩
        · cases hk
      · intro he e hee
        obtain ⟨k, hk, rfl⟩ := List.mem_map.1 hee
        exact fun hs => hex he k ((hmem k).1 hk) (hall k ((hmem k).1 hk)) T0 hTL (hs.trans hT0)
  · exact fun _ hd => absurd (apart_keys (blocks_ok hN hpp hne hnd f hbatch).1) hd
  · exact link_flushStep
  · -- merges
    intro hall ts' T' hp hasm
    have hbs := blocks_ok hN hpp hne hnd f hbatch
    have hTwf := assembled_wf hp hasm hbs.1 hbs.2.1
    refine ⟨link_mergeStep hU hg hTwf.norm hLs (hfresh hall ts' T' hp hasm), ?_⟩
    rintro K s hK ⟨h1, h2, h3⟩
    refine ⟨h1.conseq ?_ (fun _ _ => trivial), ?_, ?_, ?_⟩
    · refine List.Perm.append_right _ ?_
      refine List.Perm.trans ?_ (hK.map (Trie.loc cfg.hasher)).symm
      rw [List.map_append]
      exact List.perm_append_comm
    · have : T'.keys.Nodup := hTwf.sorted.imp Arr.ne_of_lt
      unfold Trie.keys at this
      rw [hasm.entries, List.map_flatMap] at this
      exact this
    · intro b hb
      exact ⟨b, hp.mem_iff.2 hb, Trie.Sub.refl b⟩
    · intro t ht
      rcases List.mem_append.1 (hK.mem_iff.1 ht) with ht | ht
      · unfold leaves at ht
        obtain ⟨k, hk, rfl⟩ := List.mem_map.1 ht
        exact hleafU k ((hmem k).1 hk) (hall k ((hmem k).1 hk))
      · cases hpv : prev with
        | none =>
          have := h3 t (by simp [ht])
          have hb := hp.mem_iff.1 (hK.mem_iff.2 (List.mem_append_right _ ht))
          rw [hpv] at hb
          simp only [blocksOf, leaves] at hb
          obtain ⟨k, hk, rfl⟩ := List.mem_map.1 hb
          exact hleafU k ((hmem k).1 hk) (hall k ((hmem k).1 hk))
        | some T =>
          obtain ⟨T0, hTL, hT0⟩ := hprev T hpv
          exact ((hLs T0 hTL).sub hT0).sub (h3 t (by simp [ht]) T hpv)
  · -- end
    rintro ts' T' hall hp hasm s ⟨⟨own, h1⟩, -, -, h4⟩ hpend
    refine ⟨hall, ts', T', hp, hasm, rfl, h4 T' (by simp), ?_, hpend⟩
    have := h1.all
    rwa [h1.mine.nothing hpend, overlay_empty] at this

end
end MerkleBit
