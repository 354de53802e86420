import Verif.Proof.Batches
import Verif.Proof.Live
/-!
# The same call on two databases

Two runs of the same program on two databases, in lockstep.  Reads that steer the program only see
nodes of the previous tree, which both databases hold; reference counts may differ.
-/

namespace MerkleBit
variable {N : Nat} {σ τ V α β γ δ : Type}

/-- Two programs started in related states end with related results, or with the same error in
states related by `E`. -/
def Same (E P : σ → τ → Prop) (m : M σ α) (m' : M τ β) (R : α → β → Prop) (Q : σ → τ → Prop) :
    Prop :=
  ∀ s t, P s t → (∃ a b s' t', m s = (.ok a, s') ∧ m' t = (.ok b, t') ∧ R a b ∧ Q s' t') ∨
    ∃ e s' t', m s = (.error e, s') ∧ m' t = (.error e, t') ∧ E s' t'

variable {E P Q Q' : σ → τ → Prop} {R : α → β → Prop} {R' : γ → δ → Prop}

theorem same_pure {a : α} {b : β} (h : R a b) : Same E P (M.pure a) (M.pure b) R P :=
  fun s t hp => .inl ⟨a, b, s, t, rfl, rfl, h, hp⟩

theorem same_throw {e : Err} (h : ∀ s t, P s t → E s t := by
      (intro s t h; first | exact h | exact ⟨h.1, h.2.1⟩)) :
    Same E P (M.throw e : M σ α) (M.throw e : M τ β) R Q :=
  fun s t hp => .inr ⟨e, s, t, rfl, rfl, h s t hp⟩

theorem same_bind {m : M σ α} {m' : M τ β} {f : α → M σ γ} {f' : β → M τ δ}
    (h1 : Same E P m m' R Q) (h2 : ∀ a b, R a b → Same E Q (f a) (f' b) R' Q') :
    Same E P (M.bind m f) (M.bind m' f') R' Q' := by
  intro s t hp
  rcases h1 s t hp with ⟨a, b, s', t', e1, e2, hr, hq⟩ | ⟨e, s', t', e1, e2, hE⟩
  · rcases h2 a b hr s' t' hq with ⟨c, d, s2, t2, e3, e4, h⟩ | ⟨e, s2, t2, e3, e4, hE⟩
    · exact .inl ⟨c, d, s2, t2, by simp only [M.bind, e1, e3], by simp only [M.bind, e2, e4], h⟩
    · exact .inr ⟨e, s2, t2, by simp only [M.bind, e1, e3], by simp only [M.bind, e2, e4], hE⟩
  · exact .inr ⟨e, s', t', by simp only [M.bind, e1], by simp only [M.bind, e2], hE⟩

theorem same_lift {r : Res α} {f : α → M σ γ} {f' : α → M τ δ}
    (h : ∀ a, r = .ok a → Same E P (f a) (f' a) R' Q')
    (he : ∀ s t, P s t → E s t := by (intro s t h; first | exact h | exact ⟨h.1, h.2.1⟩)) :
    Same E P (M.bind (M.lift r) f) (M.bind (M.lift r) f') R' Q' := by
  cases r with
  | ok a => exact h a rfl
  | error e => exact same_throw he

theorem same_weaken {m : M σ α} {m' : M τ β} {P' : σ → τ → Prop} (h : Same E P m m' R Q)
    (hp : ∀ s t, P' s t → P s t) (hq : ∀ s t, Q s t → Q' s t) : Same E P' m m' R Q' := by
  intro s t hs
  rcases h s t (hp s t hs) with ⟨a, b, s', t', e1, e2, hr, h⟩ | h
  · exact .inl ⟨a, b, s', t', e1, e2, hr, hq _ _ h⟩
  · exact .inr h

/-! ## A database on which no call fails -/

theorem alive_get {db : Database N σ} {C : DbContract db} {s : σ} (hs : C.alive s) (x : Arr N) :
    db.getNode s x = .ok (C.view s x) := by
  cases hg : db.getNode s x with
  | ok r => rw [C.getNode_ok hg]
  | error e => exact absurd hs (C.getNode_err hg).1

theorem alive_put {db : Database N σ} {C : DbContract db} {s : σ} (hs : C.alive s) (x : Arr N)
    (n : Node N) : ∃ s', db.insert x n s = (.ok (), s') ∧ C.alive s' ∧
      (C.view s' = (C.view s).put x n ∨ C.view s' = C.view s) := by
  rcases hi : db.insert x n s with ⟨r, s'⟩
  cases r with
  | ok u =>
    obtain ⟨h1, h2⟩ := C.insert_ok hi
    exact ⟨s', rfl, h1 hs, h2.imp (·.2.1) (·.1)⟩
  | error e => exact absurd hs (C.insert_err hi).1

theorem alive_flush {db : Database N σ} {C : DbContract db} {s : σ} (hs : C.alive s) :
    ∃ s', db.batchWrite s = (.ok (), s') ∧ C.alive s' := by
  rcases hi : db.batchWrite s with ⟨r, s'⟩
  cases r with
  | ok u => exact ⟨s', rfl, (C.batchWrite_ok hi).1 hs⟩
  | error e => exact absurd hs (C.batchWrite_err hi).1

section
variable {cfg : Config N σ V} {db' : Database N τ} {C : DbContract cfg.db} {C' : DbContract db'}

/-- Both databases work. -/
def BothAlive (C : DbContract cfg.db) (C' : DbContract db') (s : σ) (t : τ) : Prop :=
  C.alive s ∧ C'.alive t

/-- Both databases work and hold the same tree. -/
def BothHold (C : DbContract cfg.db) (C' : DbContract db') (T : Trie N) (s : σ) (t : τ) : Prop :=
  C.alive s ∧ C'.alive t ∧ Stored cfg.hasher (C.view s) T ∧ Stored cfg.hasher (C'.view t) T

theorem ext_put_same {v : View N} {x : Arr N} {n : Node N} (h : View.Has v x n.variant) :
    v.Ext (v.put x n) := by
  rintro y c ⟨r, hy⟩
  obtain ⟨r', h⟩ := h
  unfold View.Has View.put
  by_cases hyx : y = x
  · subst hyx
    rw [h] at hy
    cases hy
    exact ⟨n.references, by simp⟩
  · exact ⟨r, by simp [hyx, hy]⟩

/-- Writing a node over one with the same contents. -/
theorem same_rewrite {T : Trie N} {x : Arr N} {r r' : Nat} {c : Variant N}
    (h : ∀ s t, BothHold C C' T s t → View.Has (C.view s) x c ∧ View.Has (C'.view t) x c) :
    Same (BothAlive C C') (BothHold C C' T) (cfg.db.insert x ⟨r, c⟩) (db'.insert x ⟨r', c⟩)
      (fun _ _ => True) (BothHold C C' T) := by
  intro s t hp
  obtain ⟨h1, h2⟩ := h s t hp
  obtain ⟨a1, a2, a3, a4⟩ := hp
  obtain ⟨s', e1, b1, w1⟩ := alive_put a1 x ⟨r, c⟩
  obtain ⟨t', e2, b2, w2⟩ := alive_put a2 x ⟨r', c⟩
  refine .inl ⟨(), (), s', t', e1, e2, trivial, b1, b2, ?_, ?_⟩
  · rcases w1 with w | w
    · rw [w]; exact a3.mono (ext_put_same h1)
    · rw [w]; exact a3
  · rcases w2 with w | w
    · rw [w]; exact a4.mono (ext_put_same h2)
    · rw [w]; exact a4

theorem BothHold.has {T u : Trie N} (hu : u.Sub T) {s : σ} {t : τ} (h : BothHold C C' T s t) :
    View.Has (C.view s) (u.loc cfg.hasher) (u.variant cfg.hasher) ∧
      View.Has (C'.view t) (u.loc cfg.hasher) (u.variant cfg.hasher) :=
  ⟨(h.2.2.1.sub hu).root, (h.2.2.2.sub hu).root⟩

/-- Reading a node of the tree. -/
theorem same_read {T u : Trie N} (hu : u.Sub T) :
    Same (BothAlive C C') (BothHold C C' T) (dbGet cfg (u.loc cfg.hasher))
      (dbGet (cfg.withDb db') (u.loc cfg.hasher))
      (fun a b => ∃ r r', a = some ⟨r, u.variant cfg.hasher⟩ ∧ b = some ⟨r', u.variant cfg.hasher⟩)
      (BothHold C C' T) := by
  intro s t hp
  obtain ⟨⟨r, h1⟩, ⟨r', h2⟩⟩ := hp.has hu
  refine .inl ⟨_, _, s, t, ?_, ?_, ⟨r, r', rfl, rfl⟩, hp⟩
  · simp only [dbGet, M.read, alive_get hp.1, h1]
  · simp only [dbGet, M.read, Config.withDb, alive_get hp.2.1, h2]

theorem same_insertLeaf {T u : Trie N} (hu : u.Sub T) :
    Same (BothAlive C C') (BothHold C C' T) (insertLeaf cfg (u.loc cfg.hasher))
      (insertLeaf (cfg.withDb db') (u.loc cfg.hasher)) (fun _ _ => True) (BothHold C C' T) := by
  unfold insertLeaf
  simp only [M.bind_eq]
  apply same_bind (same_read hu)
  rintro _ _ ⟨r, r', rfl, rfl⟩
  exact same_rewrite (fun s t h => h.has hu)

/-- Cells for the same subtree. -/
structure CellRel (cfg : Config N σ V) (T : Trie N) (c c' : TreeCell N) : Prop where
  sub : ∃ u : Trie N, u.Sub T ∧ c.location = u.loc cfg.hasher ∧
    c.node.variant = u.variant cfg.hasher ∧ c'.node.variant = u.variant cfg.hasher
  location : c'.location = c.location
  keys : c'.keys = c.keys
  depth : c'.depth = c.depth

/-- Results of `split_nodes` for the same subtree. -/
def SplitRel (cfg : Config N σ V) (T : Trie N) : SplitNodeType N → SplitNodeType N → Prop
  | .ref r, .ref r' => r = r'
  | .cell c, .cell c' => CellRel cfg T c c'
  | _, _ => False

theorem same_splitNodes {T u : Trie N} (hu : u.Sub T) (d : Nat) (ks : List (Arr N)) :
    Same (BothAlive C C') (BothHold C C' T) (splitNodes cfg d (u.loc cfg.hasher) ks)
      (splitNodes (cfg.withDb db') d (u.loc cfg.hasher) ks) (SplitRel cfg T) (BothHold C C' T) := by
  unfold splitNodes
  simp only [M.bind_eq, M.pure_eq]
  apply same_bind (same_read hu)
  rintro _ _ ⟨r, r', rfl, rfl⟩
  dsimp only
  by_cases hk : ks.isEmpty
  · rw [if_pos hk, if_pos hk]
    cases hv : u.variant cfg.hasher with
    | branch b =>
      dsimp only
      refine same_bind (same_rewrite (fun s t h => hv ▸ h.has hu)) (fun _ _ _ => same_pure ?_)
      exact rfl
    | leaf l =>
      dsimp only
      refine same_bind (same_rewrite (fun s t h => hv ▸ h.has hu)) (fun _ _ _ => same_pure ?_)
      exact rfl
    | data d => exact same_throw
  · rw [if_neg hk, if_neg hk]
    exact same_pure ⟨⟨u, hu, rfl, rfl, rfl⟩, rfl, rfl, rfl⟩

theorem pushSplit_rel {T : Trie N} {pn : List (TreeRef N)} {q q' : List (TreeCell N)}
    {x x' : SplitNodeType N} (h : SplitRel cfg T x x') (hq : List.Forall₂ (CellRel cfg T) q q') :
    (pushSplit pn q' x').1 = (pushSplit pn q x).1 ∧
      List.Forall₂ (CellRel cfg T) (pushSplit pn q x).2 (pushSplit pn q' x').2 := by
  cases x <;> cases x' <;> simp only [SplitRel] at h
  · subst h; exact ⟨rfl, hq⟩
  · exact ⟨rfl, .cons h hq⟩

theorem same_traverseTree {T : Trie N} (keyMap : AMap (Arr N) (Arr N)) : ∀ (fuel : Nat)
    (pn : List (TreeRef N)) (q q' : List (TreeCell N)), List.Forall₂ (CellRel cfg T) q q' →
    Same (BothAlive C C') (BothHold C C' T) (traverseTree cfg keyMap fuel pn q)
      (traverseTree (cfg.withDb db') keyMap fuel pn q') (fun a b => a = b) (BothHold C C' T) := by
  intro fuel
  induction fuel with
  | zero =>
    intro pn q q' hq
    cases hq with
    | nil => simp only [traverseTree, M.pure_eq]; exact same_pure rfl
    | cons _ _ => simp only [traverseTree]; exact same_throw
  | succ fuel ih =>
    intro pn q q' hq
    cases hq with
    | nil => simp only [traverseTree, M.pure_eq]; exact same_pure rfl
    | @cons c c' q q' hc hq =>
      obtain ⟨⟨u, hu, hl, hv, hv'⟩, hl', hk', hd'⟩ := hc
      rw [traverseTree, traverseTree, hd']
      have hcd : (cfg.withDb db').depth = cfg.depth := rfl
      rw [hcd]
      by_cases hdep : c.depth > cfg.depth
      · rw [if_pos hdep, if_pos hdep]; exact same_throw
      rw [if_neg hdep, if_neg hdep, hv, hv', hl', hl, hk']
      cases huv : u.variant cfg.hasher with
      | data d => exact same_throw
      | leaf l =>
        dsimp only
        cases hkm : keyMap.get? l.key with
        | none =>
          simp only [M.bind_eq]
          exact same_bind (same_insertLeaf hu) (fun _ _ _ => ih _ _ _ hq)
        | some loc =>
          dsimp only
          by_cases hloc : loc = u.loc cfg.hasher
          · rw [if_pos hloc, if_pos hloc]
            simp only [M.bind_eq]
            exact same_bind (same_insertLeaf hu) (fun _ _ _ => ih _ _ _ hq)
          · rw [if_neg hloc, if_neg hloc]
            exact ih _ _ _ hq
      | branch b =>
        have hnode : ∃ l r, u = .node l r := by
          cases u with
          | leaf k v => simp [Trie.variant] at huv
          | node l r => exact ⟨l, r, rfl⟩
        obtain ⟨l, r, rfl⟩ := hnode
        have hb : b.zero = l.loc cfg.hasher ∧ b.one = r.loc cfg.hasher := by
          simp only [Trie.variant, Variant.branch.injEq] at huv
          subst huv
          exact ⟨rfl, rfl⟩
        simp only [M.bind_eq, hl', hl]
        refine same_lift (fun m hm => same_lift (fun desc hdesc => ?_))
        by_cases hcond : m < b.splitIndex ∧ desc.isEmpty
        · rw [if_pos hcond, if_pos hcond]
          exact same_bind (same_rewrite (fun s t h => huv ▸ h.has hu)) (fun _ _ _ => ih _ _ _ hq)
        · rw [if_neg hcond, if_neg hcond]
          have hpp : (cfg.withDb db').pp = cfg.pp := rfl
          rw [hpp]
          refine same_lift (fun zo hzo => ?_)
          obtain ⟨zeros, ones⟩ := zo
          dsimp only
          rw [hb.1, hb.2]
          refine same_bind (same_splitNodes ((Trie.Sub.right l r).trans hu) _ _)
            (fun one one' h1 => ?_)
          obtain ⟨p1, p2⟩ := pushSplit_rel (pn := pn) h1 hq
          refine same_bind (same_splitNodes ((Trie.Sub.left l r).trans hu) _ _)
            (fun zero zero' h2 => ?_)
          obtain ⟨p3, p4⟩ := pushSplit_rel (pn := (pushSplit pn q one).1) h2 p2
          rw [p1, p3]
          exact ih _ _ _ p4

/-! ## Building the tree reads nothing -/

theorem same_put (x : Arr N) (n n' : Node N) : Same (BothAlive C C') (BothAlive C C') (cfg.db.insert x n)
    (db'.insert x n') (fun _ _ => True) (BothAlive C C') := by
  intro s t hp
  obtain ⟨s', e1, b1, _⟩ := alive_put hp.1 x n
  obtain ⟨t', e2, b2, _⟩ := alive_put hp.2 x n'
  exact .inl ⟨(), (), s', t', e1, e2, trivial, b1, b2⟩

theorem same_flush : Same (BothAlive C C') (BothAlive C C') cfg.db.batchWrite db'.batchWrite (fun _ _ => True)
    (BothAlive C C') := by
  intro s t hp
  obtain ⟨s', e1, b1⟩ := alive_flush hp.1
  obtain ⟨t', e2, b2⟩ := alive_flush hp.2
  exact .inl ⟨(), (), s', t', e1, e2, trivial, b1, b2⟩

theorem same_mergeLoop : ∀ (level : List QueueItem) (refs : List (TreeRef N)) (root : Arr N),
    Same (BothAlive C C') (BothAlive C C') (mergeLoop cfg level refs root)
      (mergeLoop (cfg.withDb db') level refs root) (fun a b => a = b) (BothAlive C C')
  | [], refs, root => by simp only [mergeLoop, M.pure_eq]; exact same_pure rfl
  | (i, p, nx) :: level, refs, root => by
    simp only [mergeLoop, M.bind_eq]
    refine same_lift (fun a _ => same_lift (fun x _ => ?_))
    obtain ⟨lp, lc⟩ := x
    refine same_lift (fun b _ => ?_)
    exact same_bind (same_put _ _ _) (fun _ _ _ => same_mergeLoop level _ _)

theorem same_levelsLoop : ∀ (is : List Nat) (q : AMap Nat (List QueueItem))
    (refs : List (TreeRef N)) (root : Option (Arr N)),
    Same (BothAlive C C') (BothAlive C C') (levelsLoop cfg is q refs root)
      (levelsLoop (cfg.withDb db') is q refs root) (fun a b => a = b) (BothAlive C C')
  | [], q, refs, root => by simp only [levelsLoop, M.pure_eq]; exact same_pure rfl
  | i :: is, q, refs, root => by
    rw [levelsLoop, levelsLoop]
    cases q.get? i with
    | none => exact same_throw
    | some level =>
      simp only [mergeNodes, M.bind_eq, M.pure_eq]
      refine same_bind (R := fun a b => a = b) (same_bind (same_mergeLoop level refs _)
        (fun a b hab => same_bind same_flush (fun _ _ _ => same_pure hab))) ?_
      rintro a _ rfl
      obtain ⟨refs', root'⟩ := a
      exact same_levelsLoop is _ _ _

theorem same_createTree (refs : List (TreeRef N)) :
    Same (BothAlive C C') (BothAlive C C') (createTree cfg refs) (createTree (cfg.withDb db') refs)
      (fun a b => a = b) (BothAlive C C') := by
  unfold createTree
  split
  · exact same_throw
  · simp only [M.bind_eq, M.pure_eq]
    exact same_bind same_flush (fun _ _ _ => same_pure rfl)
  · simp only [M.bind_eq, M.pure_eq]
    refine same_lift (fun x _ => ?_)
    obtain ⟨q, bits⟩ := x
    refine same_bind (same_levelsLoop _ _ _ _) ?_
    rintro o _ rfl
    cases o with
    | none => exact same_throw
    | some r => exact same_pure rfl

/-! ## Writing the leaves -/

/-- The contents of a data node or leaf demanded by its hash input. -/
def HIn.Contains : HIn N → Variant N → Prop
  | .data _ v, c => c = .data ⟨v⟩
  | .leaf k d, c => c = .leaf ⟨k, d⟩
  | .branch _ _, _ => False

theorem stored_put {H : Hasher N} {U : HIn N → Prop} (hU : CollisionFree H U) {v : View N}
    {j : HIn N} (hj : U j) {n : Node N} (hn : j.Contains n.variant) : ∀ {T : Trie N},
    Stored H v T → (∀ i ∈ T.inputs H, U i) → Stored H (v.put (j.hash H) n) T := by
  have key : ∀ (i : HIn N) (c : Variant N), U i → (∀ c', i = j → i.Contains c' → c = c') →
      View.Has v (i.hash H) c → View.Has (v.put (j.hash H) n) (i.hash H) c := by
    rintro i c hi hc ⟨r, hr⟩
    unfold View.Has View.put
    by_cases he : i.hash H = j.hash H
    · have hij := hU i j hi hj he
      rw [if_pos he, hc n.variant hij (hij ▸ hn)]
      exact ⟨n.references, rfl⟩
    · rw [if_neg he]; exact ⟨r, hr⟩
  intro T
  induction T with
  | leaf k b =>
    rintro ⟨h1, h2⟩ hi
    refine ⟨key (.leaf k _) _ (hi _ (by simp [Trie.inputs])) ?_ h1,
      key (.data k b) _ (hi _ (by simp [Trie.inputs])) ?_ h2⟩
    · rintro c' _ h; exact h.symm
    · rintro c' _ h; exact h.symm
  | node l r ihl ihr =>
    rintro ⟨h1, h2, h3⟩ hi
    refine ⟨key (.branch _ _) _ (hi _ (by simp [Trie.inputs])) ?_ h1,
      ihl h2 (fun i h => hi i (by simp [Trie.inputs, h])),
      ihr h3 (fun i h => hi i (by simp [Trie.inputs, h]))⟩
    rintro c' _ h; exact absurd h id

/-- Both databases work and hold the previous tree, if there is one. -/
def BothPrev (C : DbContract cfg.db) (C' : DbContract db') (pt : Option (Trie N)) (s : σ) (t : τ) :
    Prop := C.alive s ∧ C'.alive t ∧
  ∀ T, pt = some T → Stored cfg.hasher (C.view s) T ∧ Stored cfg.hasher (C'.view t) T

theorem same_writeLeaf {U : HIn N → Prop} (hU : CollisionFree cfg.hasher U)
    {pt : Option (Trie N)} (hpt : ∀ T, pt = some T → ∀ i ∈ T.inputs cfg.hasher, U i) {j : HIn N}
    (hj : U j) {n n' : Node N} (hn : j.Contains n.variant) (hn' : j.Contains n'.variant) :
    Same (BothAlive C C') (BothPrev C C' pt) (cfg.db.insert (j.hash cfg.hasher) n)
      (db'.insert (j.hash cfg.hasher) n') (fun _ _ => True) (BothPrev C C' pt) := by
  rintro s t ⟨a1, a2, a3⟩
  obtain ⟨s', e1, b1, w1⟩ := alive_put a1 (j.hash cfg.hasher) n
  obtain ⟨t', e2, b2, w2⟩ := alive_put a2 (j.hash cfg.hasher) n'
  refine .inl ⟨(), (), s', t', e1, e2, trivial, b1, b2, fun T hT => ⟨?_, ?_⟩⟩
  · rcases w1 with w | w
    · rw [w]; exact stored_put hU hj hn (a3 T hT).1 (hpt T hT)
    · rw [w]; exact (a3 T hT).1
  · rcases w2 with w | w
    · rw [w]; exact stored_put hU hj hn' (a3 T hT).2 (hpt T hT)
    · rw [w]; exact (a3 T hT).2

theorem same_get {pt : Option (Trie N)} (x : Arr N) : Same (BothAlive C C') (BothPrev C C' pt) (dbGet cfg x)
    (dbGet (cfg.withDb db') x) (fun _ _ => True) (BothPrev C C' pt) := by
  intro s t hp
  refine .inl ⟨C.view s x, C'.view t x, s, t, ?_, ?_, trivial, hp⟩
  · simp only [dbGet, M.read, alive_get hp.1]
  · simp only [dbGet, M.read, Config.withDb, alive_get hp.2.1]

theorem same_insertLeaves {U : HIn N → Prop} (hU : CollisionFree cfg.hasher U)
    {pt : Option (Trie N)} (hpt : ∀ T, pt = some T → ∀ i ∈ T.inputs cfg.hasher, U i)
    (values : AMap (Arr N) V) : ∀ (ks : List (Arr N)),
    (∀ k ∈ ks, ∀ b, encodedOf cfg values k = .ok b →
      ∀ i ∈ (Trie.leaf k b).inputs cfg.hasher, U i) →
    Same (BothAlive C C') (BothPrev C C' pt) (insertLeaves cfg values ks)
      (insertLeaves (cfg.withDb db') values ks) (fun a b => a = b) (BothPrev C C' pt)
  | [], _ => by simp only [insertLeaves, M.pure_eq]; exact same_pure rfl
  | k :: ks, hk => by
    rw [insertLeaves_cons, insertLeaves_cons]
    have henc : encodedOf (cfg.withDb db') values k = encodedOf cfg values k := rfl
    rw [henc]
    refine same_lift (fun b hb => ?_)
    have hin := hk k (by simp) b hb
    have hd : U (.data k b) := hin _ (by simp [Trie.inputs])
    have hl : U (.leaf k (Trie.dataLoc cfg.hasher k b)) := hin _ (by simp [Trie.inputs])
    unfold leafBody
    simp only [M.bind_eq, M.pure_eq]
    refine same_bind (R := fun a b => a = b) (Q := BothPrev C C' pt) ?_ ?_
    · refine same_bind (same_get _) (fun _ _ _ => same_bind (same_get _) (fun _ _ _ => ?_))
      refine same_bind (same_writeLeaf hU hpt hd ?_ ?_) (fun _ _ _ =>
        same_bind (same_writeLeaf hU hpt hl ?_ ?_) (fun _ _ _ => same_pure rfl))
      all_goals exact rfl
    · rintro l _ rfl
      refine same_bind (same_insertLeaves hU hpt values ks (fun k' hk' => hk k' (by simp [hk']))) ?_
      rintro rest _ rfl
      exact same_pure rfl

/-- `insert` on two databases that hold the previous tree: the same outcome. -/
theorem insert_same {U : HIn N → Prop} (hU : CollisionFree cfg.hasher U) {pt : Option (Trie N)}
    (hpt : ∀ T, pt = some T → ∀ i ∈ T.inputs cfg.hasher, U i) (keys : List (Arr N))
    (values : List V)
    (hin : ∀ e ∈ encodedPairs cfg keys values, ∀ i ∈ (Trie.leaf e.1 e.2).inputs cfg.hasher, U i) :
    Same (BothAlive C C') (BothPrev C C' pt) (insert cfg (pt.map (·.loc cfg.hasher)) keys values)
      (insert (cfg.withDb db') (pt.map (·.loc cfg.hasher)) keys values) (fun a b => a = b)
      (BothAlive C C') := by
  unfold insert
  by_cases hlen : keys.length = values.length
  swap
  · rw [if_pos hlen, if_pos hlen]; exact same_throw
  rw [if_neg (c := keys.length ≠ values.length) (by simpa using hlen),
    if_neg (c := keys.length ≠ values.length) (by simpa using hlen)]
  by_cases hem : (keys.isEmpty || values.isEmpty) = true
  · rw [if_pos hem, if_pos hem]; exact same_throw
  rw [if_neg hem, if_neg hem]
  simp only [M.bind_eq]
  refine same_bind (same_insertLeaves hU hpt _ _ ?_) ?_
  · intro k hk b hb
    have hk' : k ∈ keys := (sortKeys_perm keys).mem_iff.1 hk
    rcases encodedOf_cases cfg hlen hk' with ⟨h1, h2⟩ | ⟨_, _, e, _, h⟩
    · rw [hb] at h1
      cases h1
      exact hin _ h2
    · rw [hb] at h; cases h
  · rintro nodes _ rfl
    cases pt with
    | none =>
      simp only [Option.map_none]
      refine same_bind (R := fun a b => a = b) (Q := BothAlive C C')
        (same_weaken (same_pure rfl) (fun s t h => h) (fun s t h => ⟨h.1, h.2.1⟩)) ?_
      rintro pn _ rfl
      exact same_createTree _
    | some T =>
      simp only [Option.map_some]
      refine same_bind (R := fun a b => a = b) (Q := BothAlive C C')
        (same_weaken (P := BothHold C C' T) (Q := BothHold C C' T) ?_
          (fun s t h => ⟨h.1, h.2.1, (h.2.2 T rfl).1, (h.2.2 T rfl).2⟩)
          (fun s t h => ⟨h.1, h.2.1⟩)) ?_
      · unfold generateTreerefs
        simp only [M.bind_eq]
        refine same_bind (same_read (Trie.Sub.refl T)) ?_
        rintro _ _ ⟨r, r', rfl, rfl⟩
        exact same_traverseTree _ _ _ _ _
          (.cons ⟨⟨T, Trie.Sub.refl T, rfl, rfl, rfl⟩, rfl, rfl, rfl⟩ .nil)
      · rintro pn _ rfl
        exact same_createTree _

end
end MerkleBit
