import Verif.Proof.Lifted
import Verif.Proof.CountsEvents
import Verif.Proof.Ahead
import Verif.Proof.Sessions
import Verif.Spec.Refused
/-! # What an insert that is refused leaves behind -/

namespace MerkleBit
variable {N : Nat} {σ V : Type}

/-- From `v0` to `v` counts only went up, no branch is new, and where a leaf is new its data node is counted
more often than before. -/
structure Rise (v0 v : View N) : Prop where
  up : ∀ x, refsOf v0 x ≤ refsOf v x
  branch : ∀ x n b, v0 x = none → v x = some n → n.variant ≠ .branch b
  leaf : ∀ x n l, v0 x = none → v x = some n → n.variant = .leaf l → refsOf v0 l.data < refsOf v l.data

theorem Rise.refl (v : View N) : Rise v v :=
  ⟨fun _ => Nat.le_refl _, fun _ _ _ h1 h2 => (by rw [h1] at h2; cases h2),
    fun _ _ _ h1 h2 => (by rw [h1] at h2; cases h2)⟩

/-- Writing a node. -/
theorem Rise.put {v0 v : View N} (h : Rise v0 v) {x : Arr N} {n : Node N} (hn : refsOf v0 x < n.references)
    (hb : ∀ b, v0 x = none → n.variant ≠ .branch b)
    (hl : ∀ l, v0 x = none → n.variant = .leaf l → l.data = x ∨ refsOf v0 l.data < refsOf v l.data) :
    Rise v0 (v.put x n) := by
  have hput : ∀ y m, v.put x n y = some m → (y = x ∧ m = n) ∨ (y ≠ x ∧ v y = some m) := by
    intro y m hy
    unfold View.put at hy
    by_cases hyx : y = x
    · rw [if_pos hyx] at hy; cases hy; exact .inl ⟨hyx, rfl⟩
    · rw [if_neg hyx] at hy; exact .inr ⟨hyx, hy⟩
  have hlt : ∀ y, refsOf v0 y < refsOf v y → refsOf v0 y < refsOf (v.put x n) y := by
    intro y hy
    rw [refsOf_put]
    split
    · next e => rw [e]; exact hn
    · exact hy
  refine ⟨fun y => ?_, fun y m b h0 hy => ?_, fun y m l h0 hy hm => ?_⟩
  · rw [refsOf_put]
    split
    · next e => rw [e]; exact hn.le
    · exact h.up y
  · rcases hput y m hy with ⟨rfl, rfl⟩ | ⟨-, hy⟩
    · exact hb b h0
    · exact h.branch y m b h0 hy
  · rcases hput y m hy with ⟨rfl, rfl⟩ | ⟨-, hy⟩
    · rcases hl l h0 hm with e | h1
      · rw [refsOf_put, if_pos e, e]; exact hn
      · exact hlt _ h1
    · exact hlt _ (h.leaf y m l h0 hy hm)

/-- Writing a node again. -/
theorem Rise.again {v0 v : View N} (h : Rise v0 v) {x : Arr N} {n n' : Node N} (hx : v x = some n')
    (hv : n'.variant = n.variant) (hn : refsOf v0 x < n.references) : Rise v0 (v.put x n) :=
  h.put hn (fun b h0 => hv ▸ h.branch x n' b h0 hx) (fun l h0 hl => .inr (h.leaf x n' l h0 hx (hv.trans hl)))

section
variable {cfg : Config N σ V} {C : DbContract cfg.db} {v0 : View N}

/-- Nothing is queued, and what is stored only rose. -/
def Risen (C : DbContract cfg.db) (v0 : View N) (s : σ) : Prop :=
  C.pending s = View.empty N ∧ Rise v0 (C.view s)

/-- What a cell of the queue holds is stored, up to the count. -/
def HeldCell (C : DbContract cfg.db) (v0 : View N) (c : TreeCell N) (s : σ) : Prop :=
  ∃ n, C.view s c.location = some n ∧ n.variant = c.node.variant ∧ refsOf v0 c.location ≤ c.node.references

/-- The invariant of the traversal. -/
def RisenWith (C : DbContract cfg.db) (v0 : View N) (q : List (TreeCell N)) (s : σ) : Prop :=
  Risen C v0 s ∧ ∀ c ∈ q, HeldCell C v0 c s

theorem shown_insert (hw : WritesShow C true) {s s' : σ} {x : Arr N} {n : Node N}
    (hp : C.pending s = View.empty N) (h : cfg.db.insert x n s = (.ok (), s')) :
    C.pending s' = View.empty N ∧ C.view s' = (C.view s).put x n := by
  have h1 : C.pending s' = View.empty N := hw s s' x n h hp
  refine ⟨h1, ?_⟩
  have h2 := settled_of_wrote (C := C.toG) (C.insert_ok h).2
  have e : ∀ t, C.pending t = View.empty N → C.toG.settled t = C.view t :=
    fun t ht => settled_of_pending_empty (C := C.toG) ht
  rw [e s' h1, e s hp] at h2
  exact h2

theorem triple_rise (hw : WritesShow C true) {P : σ → Prop} {Q : Unit → σ → Prop} {x : Arr N} {n : Node N}
    {E : σ → Prop} (hP : ∀ s, P s → C.pending s = View.empty N)
    (h : ∀ s s', P s → C.pending s' = View.empty N → C.view s' = (C.view s).put x n → Q () s')
    (hE : ∀ s s', P s → C.view s' = C.view s → C.pending s' = C.pending s → E s') :
    Triple C.toG (fun _ => True) P (cfg.db.insert x n) Q E := by
  intro s hs
  rcases hi : cfg.db.insert x n s with ⟨r, s'⟩
  cases r with
  | ok u =>
    obtain ⟨h1, h2⟩ := shown_insert hw (hP s hs) hi
    exact ⟨(C.insert_ok hi).1, h s s' hs h1 h2⟩
  | error e =>
    have := C.insert_err hi
    exact .inr ⟨.inr ⟨this.1, this.2.1⟩, hE s s' hs this.2.2.1 this.2.2.2⟩

theorem Risen.of_eq {s s' : σ} (h : Risen C v0 s) (h1 : C.view s' = C.view s)
    (h2 : C.pending s' = C.pending s) : Risen C v0 s' := by
  unfold Risen
  rw [h1, h2]
  exact h

theorem RisenWith.again {q : List (TreeCell N)} {s s' : σ} (h : RisenWith C v0 q s) {x : Arr N} {n n' : Node N}
    (hx : C.view s x = some n') (hv : n'.variant = n.variant) (hn : refsOf v0 x < n.references)
    (h1 : C.pending s' = View.empty N) (h2 : C.view s' = (C.view s).put x n) : RisenWith C v0 q s' := by
  refine ⟨⟨h1, h2 ▸ h.1.2.again hx hv hn⟩, fun c hc => ?_⟩
  obtain ⟨m, e1, e2, e3⟩ := h.2 c hc
  by_cases hcx : c.location = x
  · refine ⟨n, ?_, ?_, e3⟩
    · rw [h2, hcx]; simp [View.put]
    · rw [hcx, hx] at e1; cases e1; exact hv ▸ e2
  · exact ⟨m, by rw [h2]; simpa [View.put, hcx] using e1, e2, e3⟩

theorem risen_insertLeaf (hw : WritesShow C true) (q : List (TreeCell N)) (x : Arr N) :
    Triple C.toG (fun _ => True) (RisenWith C v0 q) (insertLeaf cfg x) (fun _ => RisenWith C v0 q)
      (Risen C v0) := by
  unfold insertLeaf
  simp only [M.bind_eq]
  refine triple_bind (R := fun o s => RisenWith C v0 q s ∧ C.view s x = o)
    (triple_dbGet (fun s h => ⟨h, rfl⟩) (fun s h => h.1)) ?_
  intro o
  cases o with
  | none => exact triple_throw trivial fun s h => h.1.1
  | some n =>
    refine triple_rise hw (fun s h => h.1.1.1) (fun s s' h h1 h2 => ?_) (fun s s' h h1 h2 => h.1.1.of_eq h1 h2)
    refine h.1.again (n := ⟨n.references + 1, n.variant⟩) h.2 rfl ?_ h1 h2
    have := h.1.1.2.up x
    unfold refsOf at this ⊢
    rw [h.2] at this
    exact Nat.lt_succ_of_le this

theorem risen_splitNodes (hw : WritesShow C true) (q : List (TreeCell N)) (depth : Nat) (x : Arr N)
    (ks : List (Arr N)) :
    Triple C.toG (fun _ => True) (RisenWith C v0 q) (splitNodes cfg depth x ks)
      (fun r => RisenWith C v0 (pushed r ++ q)) (Risen C v0) := by
  unfold splitNodes
  simp only [M.bind_eq, M.pure_eq]
  refine triple_bind (R := fun o s => RisenWith C v0 q s ∧ C.view s x = o)
    (triple_dbGet (fun s h => ⟨h, rfl⟩) (fun s h => h.1)) ?_
  intro o
  have hup : ∀ {n : Node N} {s : σ}, RisenWith C v0 q s ∧ C.view s x = some n → refsOf v0 x ≤ n.references := by
    intro n s h
    have := h.1.1.2.up x
    unfold refsOf at this ⊢
    rw [h.2] at this
    exact this
  cases o with
  | none => exact triple_throw trivial fun s h => h.1.1
  | some n =>
    dsimp only
    split
    · have wr : ∀ (var : Variant N) (r : TreeRef N), n.variant = var →
          Triple C.toG (fun _ => True) (fun s => RisenWith C v0 q s ∧ C.view s x = some n)
          (M.bind (cfg.db.insert x ⟨n.references + 1, var⟩) fun _ => M.pure (.ref r))
          (fun r => RisenWith C v0 (pushed r ++ q)) (Risen C v0) := by
        intro var r hv
        refine triple_bind (R := fun _ => RisenWith C v0 q)
          (triple_rise hw (fun s h => h.1.1.1) (fun s s' h h1 h2 => ?_)
            (fun s s' h h1 h2 => h.1.1.of_eq h1 h2)) (fun _ => triple_pure fun s h => h)
        exact h.1.again h.2 hv (Nat.lt_succ_of_le (hup h)) h1 h2
      split
      · next b hv => exact wr _ _ hv
      · next l hv => exact wr _ _ hv
      · exact triple_throw trivial fun s h => h.1.1
    · refine triple_pure fun s h => ⟨h.1.1, fun c hc => ?_⟩
      rcases List.mem_append.1 hc with hc | hc
      · cases List.mem_singleton.1 hc
        exact ⟨n, h.2, rfl, hup h⟩
      · exact h.1.2 c hc

theorem risen_traverseTree (hw : WritesShow C true) (km : AMap (Arr N) (Arr N)) : ∀ fuel ps q,
    Triple C.toG (fun _ => True) (RisenWith C v0 q) (traverseTree cfg km fuel ps q) (fun _ => Risen C v0)
      (Risen C v0) := by
  intro fuel
  induction fuel with
  | zero =>
    intro ps q
    cases q with
    | nil => exact triple_pure fun s h => h.1
    | cons c q => exact triple_throw trivial fun s h => h.1
  | succ fuel ih =>
    intro ps q
    cases q with
    | nil => exact triple_pure fun s h => h.1
    | cons c q =>
      have hq : ∀ s, RisenWith C v0 (c :: q) s → RisenWith C v0 q s :=
        fun s h => ⟨h.1, fun c hc => h.2 c (List.mem_cons_of_mem _ hc)⟩
      unfold traverseTree
      simp only [M.bind_eq]
      split
      · exact triple_throw trivial fun s h => h.1
      split
      · next n hv =>
        split
        · split
          · exact triple_bind (triple_conseq (risen_insertLeaf hw q _) hq (fun _ _ h => h) (fun _ h => h))
              fun _ => ih _ _
          · exact triple_conseq (ih _ _) hq (fun _ _ h => h) (fun _ h => h)
        · exact triple_bind (triple_conseq (risen_insertLeaf hw q _) hq (fun _ _ h => h) (fun _ h => h))
              fun _ => ih _ _
      · exact triple_throw trivial fun s h => h.1
      · next b hv =>
        refine triple_bind (risen_lift (fun s h => h.1) _) fun msi => ?_
        refine triple_bind (risen_lift (fun s h => h.1) _) fun ds => ?_
        split
        · refine triple_bind (R := fun _ => RisenWith C v0 q)
            (triple_rise hw (fun s h => h.1.1) (fun s s' h h1 h2 => ?_)
              (fun s s' h h1 h2 => h.1.of_eq h1 h2)) (fun _ => ih _ _)
          obtain ⟨n, e1, e2, e3⟩ := h.2 c List.mem_cons_self
          exact (hq s h).again e1 (e2.trans hv) (Nat.lt_succ_of_le e3) h1 h2
        · refine triple_bind (risen_lift (fun s h => h.1) _) fun zo => ?_
          obtain ⟨zeros, ones⟩ := zo
          dsimp only
          refine triple_bind (triple_conseq (risen_splitNodes hw q _ _ _) hq (fun _ _ h => h) (fun _ h => h))
            fun one => ?_
          refine triple_bind (risen_splitNodes hw _ _ _ _) fun zero => ?_
          refine triple_conseq (ih _ _) (fun s h => ?_) (fun _ _ h => h) (fun _ h => h)
          rw [pushSplit_snd, pushSplit_snd]
          exact h

theorem risen_insertLeaves (hw : WritesShow C true) (vm : AMap (Arr N) V) : ∀ ks : List (Arr N),
    Triple C.toG (fun _ => True) (Risen C v0) (insertLeaves cfg vm ks) (fun _ => Risen C v0) (Risen C v0)
  | [] => triple_pure fun _ h => h
  | k :: ks => by
    unfold insertLeaves
    simp only [M.bind_eq, M.pure_eq]
    refine triple_bind (risen_lift (fun s h => h) _) fun value => ?_
    generalize hd : cfg.hasher.hash3 k.bytes.length tagD k.bytes value = d
    generalize hl : cfg.hasher.hash3 k.bytes.length tagL k.bytes d.bytes = x
    refine triple_bind (R := fun o s => Risen C v0 s ∧ C.view s d = o)
      (triple_dbGet (fun s h => ⟨h, rfl⟩) (fun s h => h)) fun od => ?_
    refine triple_bind (R := fun o s => (Risen C v0 s ∧ C.view s d = od) ∧ C.view s x = o)
      (triple_dbGet (fun s h => ⟨h, rfl⟩) (fun s h => h.1)) fun ol => ?_
    have hnext : ∀ {s : σ} {y : Arr N} {o : Option (Node N)}, Risen C v0 s → C.view s y = o →
        refsOf v0 y < nextRefs o := by
      intro s y o h e
      rw [← e, nextRefs_eq]
      exact Nat.lt_succ_of_le (h.2.up y)
    refine triple_bind (R := fun _ s => Risen C v0 s ∧ refsOf v0 d < refsOf (C.view s) d ∧
        refsOf v0 x < nextRefs ol)
      (triple_rise hw (fun s h => h.1.1.1) (fun s s' h h1 h2 => ?_)
        (fun s s' h h1 h2 => h.1.1.of_eq h1 h2)) fun _ => ?_
    · refine ⟨⟨h1, h2 ▸ h.1.1.2.put (hnext h.1.1 h.1.2) (fun b _ => by simp) (fun l _ h => by cases h)⟩, ?_,
        hnext h.1.1 h.2⟩
      rw [h2, refsOf_put, if_pos rfl]
      exact hnext h.1.1 h.1.2
    refine triple_bind (R := fun _ => Risen C v0)
      (triple_rise hw (fun s h => h.1.1) (fun s s' h h1 h2 => ?_)
        (fun s s' h h1 h2 => h.1.of_eq h1 h2)) fun _ => ?_
    · refine ⟨h1, h2 ▸ h.1.2.put h.2.2 (fun b _ => by simp) (fun l _ hl => ?_)⟩
      cases hl
      exact .inr h.2.1
    refine triple_bind (risen_insertLeaves hw vm ks) fun rest => triple_pure fun _ h => h

/-- The batch before the new tree is built. -/
theorem risen_batchRefs (hw : WritesShow C true) (prev : Option (Arr N)) (vm : AMap (Arr N) V)
    (ks : List (Arr N)) :
    Triple C.toG (fun _ => True) (Risen C v0) (batchRefs cfg prev vm ks) (fun _ => Risen C v0) (Risen C v0) := by
  unfold batchRefs
  refine triple_bind (risen_insertLeaves hw vm ks) fun nodes => ?_
  refine triple_bind (R := fun _ => Risen C v0) ?_ fun pn => triple_pure fun _ h => h
  cases prev with
  | none => exact triple_pure fun _ h => h
  | some root =>
    unfold generateTreerefs
    simp only [M.bind_eq]
    refine triple_bind (R := fun o s => Risen C v0 s ∧ C.view s root = o)
      (triple_dbGet (fun s h => ⟨h, rfl⟩) (fun s h => h)) fun o => ?_
    cases o with
    | none => exact triple_throw trivial fun s h => h.1
    | some n =>
      refine triple_conseq (risen_traverseTree hw _ _ _ _) (fun s h => ⟨h.1, fun c hc => ?_⟩)
        (fun _ _ h => h) (fun _ h => h)
      cases List.mem_singleton.1 hc
      refine ⟨n, h.2, rfl, ?_⟩
      have := h.1.2.up root
      unfold refsOf at this ⊢
      rw [h.2] at this
      exact this

/-- A refused insert on a database that shows writes at once. -/
theorem refused_rise (hN : 0 < N) (hw : WritesShow C true) {prev : Option (Arr N)} {keys : List (Arr N)}
    {values : List V} {s s' : σ} {e : Err} (hs : C.alive s) (hp : C.pending s = View.empty N)
    (hrun : insert cfg prev keys values s = (.error e, s')) :
    C.pending s' = View.empty N ∧ Rise (C.view s) (C.view s') := by
  have h := risen_batchRefs (v0 := C.view s) hw prev (valueMap keys values) (sortKeys keys) s ⟨hp, .refl _⟩
  rcases hb : batchRefs cfg prev (valueMap keys values) (sortKeys keys) s with ⟨res, s1⟩
  rw [hb] at h
  have hal : C.alive s1 ∧ Risen C (C.view s) s1 := by
    cases res with
    | ok a => exact ⟨h.1 hs, h.2⟩
    | error e' =>
      rcases h with h | ⟨h | h, h'⟩
      · exact h.elim
      · exact ⟨h.2 hs, h'⟩
      · exact absurd hs h.1
  rcases refused_where (C := C) hN hs (by rw [hb]; exact hal.1) hrun with rfl | h
  · exact ⟨hp, .refl _⟩
  · rw [hb] at h
    subst h
    exact hal.2

variable {U : HIn N → Prop}

/-- What a refused insert does to a database keeps it ahead of another. -/
theorem Ahead.rise (hU : CollisionFree cfg.hasher U) {v v' : View N} {c : Item N → Nat}
    (h : Ahead (Item.Ok cfg.hasher U) c (countsOf cfg.hasher v)) (hv : Honest cfg.hasher U v)
    (hv' : Honest cfg.hasher U v') (hr : Rise v v') :
    Ahead (Item.Ok cfg.hasher U) c (countsOf cfg.hasher v') := by
  have hup : ∀ i : Item N, countsOf cfg.hasher v i ≤ countsOf cfg.hasher v' i := fun i => hr.up _
  -- a parent that is new is a leaf
  have new : ∀ q : Item N, q.Ok cfg.hasher U → countsOf cfg.hasher v q = 0 → 0 < countsOf cfg.hasher v' q →
      ∀ j ∈ q.children, countsOf cfg.hasher v j < countsOf cfg.hasher v' j := by
    intro q hq h0 h1 j hj
    have hb := hq.belongs
    have hnone : v (q.loc cfg.hasher) = none := by
      cases hx : v (q.loc cfg.hasher) with
      | none => rfl
      | some n =>
        have := (hv _ n hx).1
        rw [countsOf_eq] at h0
        unfold refsOf at h0
        rw [hx] at h0
        exact absurd h0 (Nat.ne_of_gt this)
    obtain ⟨refs, hx⟩ := (hv'.has_iff hU rfl hb).2 h1
    cases q with
    | data k w => simp [Item.children] at hj
    | tree t =>
      cases t with
      | leaf k w =>
        simp only [Item.children, List.mem_singleton] at hj
        subst hj
        exact hr.leaf _ _ _ hnone hx rfl
      | node l r => exact absurd rfl (hr.branch _ _ _ hnone hx)
  intro j hj h0 X hX hXs
  by_cases hold : ∀ q ∈ X, 0 < countsOf cfg.hasher v q
  · exact Nat.le_trans (h j hj h0 X hX fun q hq => ⟨(hXs q hq).1, (hXs q hq).2.1, hold q hq, (hXs q hq).2.2.2⟩)
      (hup j)
  push Not at hold
  obtain ⟨q, hq, hq0⟩ := hold
  obtain ⟨h1, h2, h3, h4⟩ := hXs q hq
  have hlt := new q h1 (by omega) h3 j h4
  -- a leaf is the only parent of its data node
  have hone : X = [q] := by
    have hall : ∀ p ∈ X, p = q := by
      intro p hp
      have hp4 := (hXs p hp).2.2.2
      obtain ⟨refs, hx⟩ := (hv'.has_iff hU rfl h1.belongs).2 h3
      cases q with
      | data k w => simp [Item.children] at h4
      | tree t =>
        cases t with
        | node l r =>
          refine absurd rfl (hr.branch _ _ _ ?_ hx)
          cases hx : v ((Item.tree (.node l r)).loc cfg.hasher) with
          | none => rfl
          | some n =>
            have := (hv _ n hx).1
            rw [countsOf_eq] at hq0
            unfold refsOf at hq0
            rw [hx] at hq0
            exact absurd hq0 (Nat.not_le_of_gt this)
        | leaf k w =>
          simp only [Item.children, List.mem_singleton] at h4
          subst h4
          cases p with
          | data k w => simp [Item.children] at hp4
          | tree u =>
            cases u with
            | leaf k' w' =>
              simp only [Item.children, List.mem_singleton, Item.data.injEq] at hp4
              rw [hp4.1, hp4.2]
            | node l r => simp [Item.children] at hp4
    cases X with
    | nil => cases hq
    | cons a X =>
      cases X with
      | nil => rw [hall a List.mem_cons_self]
      | cons b X =>
        have e1 := hall a List.mem_cons_self
        have e2 := hall b (by simp)
        rw [e1, e2] at hX
        simp at hX
  subst hone
  have := h.le hj h0
  simp only [List.length_singleton]
  omega

/-- The two runs. -/
theorem alongside_ahead (hc : Sane cfg) (hw : WritesShow C true) {H0 : List (HIn N)} {L : Ledger N V} {s0 : σ}
    (h0 : Events cfg C H0 L s0) (hp0 : C.pending s0 = View.empty N) (hs0 : C.alive s0)
    (hU : CollisionFree cfg.hasher U) {H : List (HIn N)} {s t : σ} (h : Alongside cfg L s0 H s t) :
    (∀ i ∈ H ++ H0, U i) →
    Events cfg C H0 L s ∧ C.pending s = View.empty N ∧ C.alive s ∧
    Events cfg C (H ++ H0) L t ∧ C.pending t = View.empty N ∧ C.alive t ∧
    Ahead (Item.Ok cfg.hasher U) (countsOf cfg.hasher (C.view s)) (countsOf cfg.hasher (C.view t)) := by
  induction h with
  | start =>
    intro _
    refine ⟨h0, hp0, hs0, h0, hp0, hs0, fun j _ _ X _ hX => ?_⟩
    cases X with
    | nil => simp
    | cons q X =>
      obtain ⟨-, h1, h2, -⟩ := hX q List.mem_cons_self
      omega
  | @remove H s s' t t' r M _ hr hrs hrt ih =>
    intro hin
    obtain ⟨e1, p1, a1, e2, p2, a2, hA⟩ := ih hin
    have hin0 : ∀ i, Among H0 i → U i := fun i hi => hin i (List.mem_append_right _ hi)
    obtain ⟨T, hT, rfl, hTU, -⟩ := (events_records hc.pos hc.pp e2 (hU.mono hin) _ hr).mono hin
    obtain ⟨q1, f1⟩ := remove_tally hU hT hTU
      ((calls_inPlace hc.pos hc.pp e1.calls (hU.mono hin0)).mono hin0) p1 hrs
    obtain ⟨q2, f2⟩ := remove_tally hU hT hTU ((calls_inPlace hc.pos hc.pp e2.calls (hU.mono hin)).mono hin) p2 hrt
    have al : ∀ {s s' : σ}, C.alive s → remove cfg (T.loc cfg.hasher) s = (.ok (), s') → C.alive s' := by
      intro s s' hs hr
      obtain ⟨s'', h1, h2⟩ := remove_alive hs (T.loc cfg.hasher)
      rw [hr] at h1
      cases h1
      exact h2
    refine ⟨e1.remove hrs, q1, al a1 hrs, e2.remove hrt, q2, al a2 hrt, ?_⟩
    exact hA.givenUp (T := .tree T) (fun i hi => hi.children) ⟨hT.norm, hTU⟩
      (hT.sorted.imp fun h => Arr.ne_of_lt h) f1 f2
  | @refused H s t t' prev keys values e _ hrun ih =>
    intro hin
    rw [List.append_assoc] at hin ⊢
    have hin0 : ∀ i ∈ H ++ H0, U i := fun i hi => hin i (List.mem_append_right _ hi)
    obtain ⟨e1, p1, a1, e2, p2, a2, hA⟩ := ih hin0
    obtain ⟨p3, hrise⟩ := refused_rise hc.pos hw a2 p2 hrun
    have e3 := e2.insert hrun
    have a3 : C.alive t' := by
      have := insert_alive (C := C) a2 prev keys values
      rwa [hrun] at this
    refine ⟨e1, p1, a1, e3, p3, a3, ?_⟩
    exact hA.rise hU ((calls_inPlace hc.pos hc.pp e2.calls (hU.mono hin0)).mono hin0).1
      ((calls_inPlace hc.pos hc.pp e3.calls (hU.mono hin)).mono hin).1 hrise

/-! ## Queued writes -/

theorem quiet_insert (hw : WritesShow C false) {x : Arr N} {n : Node N} {v0 : View N} :
    Triple C.toG (fun _ => True) (fun s => C.view s = v0) (cfg.db.insert x n) (fun _ s => C.view s = v0)
      (fun s => C.view s = v0) := by
  intro s hs
  rcases hi : cfg.db.insert x n s with ⟨r, s'⟩
  cases r with
  | ok u => exact ⟨(C.insert_ok hi).1, (show C.view s' = C.view s from hw s s' x n hi).trans hs⟩
  | error e =>
    have := C.insert_err hi
    exact .inr ⟨.inr ⟨this.1, this.2.1⟩, this.2.2.1.trans hs⟩

theorem quiet_dbGet {x : Arr N} {v0 : View N} :
    Triple C.toG (fun _ => True) (fun s => C.view s = v0) (dbGet cfg x) (fun _ s => C.view s = v0)
      (fun s => C.view s = v0) :=
  triple_dbGet (fun _ h => h) (fun _ h => h)

theorem quiet_splitNodes (hw : WritesShow C false) (depth : Nat) (x : Arr N) (ks : List (Arr N)) :
    Triple C.toG (fun _ => True) (fun s => C.view s = v0) (splitNodes cfg depth x ks)
      (fun _ s => C.view s = v0) (fun s => C.view s = v0) := by
  unfold splitNodes
  simp only [M.bind_eq, M.pure_eq]
  refine triple_bind quiet_dbGet fun o => ?_
  cases o with
  | none => exact triple_throw trivial fun _ h => h
  | some n =>
    dsimp only
    split
    · split
      · exact triple_bind (quiet_insert hw) fun _ => triple_pure fun _ h => h
      · exact triple_bind (quiet_insert hw) fun _ => triple_pure fun _ h => h
      · exact triple_throw trivial fun _ h => h
    · exact triple_pure fun _ h => h

theorem quiet_insertLeaf (hw : WritesShow C false) (x : Arr N) :
    Triple C.toG (fun _ => True) (fun s => C.view s = v0) (insertLeaf cfg x)
      (fun _ s => C.view s = v0) (fun s => C.view s = v0) := by
  unfold insertLeaf
  simp only [M.bind_eq]
  refine triple_bind quiet_dbGet fun o => ?_
  cases o with
  | none => exact triple_throw trivial fun _ h => h
  | some n => exact quiet_insert hw

theorem quiet_traverseTree (hw : WritesShow C false) (km : AMap (Arr N) (Arr N)) : ∀ fuel ps q,
    Triple C.toG (fun _ => True) (fun s => C.view s = v0) (traverseTree cfg km fuel ps q)
      (fun _ s => C.view s = v0) (fun s => C.view s = v0) := by
  intro fuel
  induction fuel with
  | zero =>
    intro ps q
    cases q with
    | nil => exact triple_pure fun s h => h
    | cons c q => exact triple_throw trivial fun s h => h
  | succ fuel ih =>
    intro ps q
    cases q with
    | nil => exact triple_pure fun s h => h
    | cons c q =>
      unfold traverseTree
      simp only [M.bind_eq]
      split
      · exact triple_throw trivial fun s h => h
      split
      · split
        · split
          · exact triple_bind (quiet_insertLeaf hw _) fun _ => ih _ _
          · exact ih _ _
        · exact triple_bind (quiet_insertLeaf hw _) fun _ => ih _ _
      · exact triple_throw trivial fun s h => h
      · refine triple_bind (risen_lift (fun s h => h) _) fun msi => ?_
        refine triple_bind (risen_lift (fun s h => h) _) fun ds => ?_
        split
        · exact triple_bind (quiet_insert hw) fun _ => ih _ _
        · refine triple_bind (risen_lift (fun s h => h) _) fun zo => ?_
          exact triple_bind (quiet_splitNodes hw _ _ _) fun one =>
            triple_bind (quiet_splitNodes hw _ _ _) fun zero => ih _ _

theorem quiet_insertLeaves (hw : WritesShow C false) (vm : AMap (Arr N) V) : ∀ ks : List (Arr N),
    Triple C.toG (fun _ => True) (fun s => C.view s = v0) (insertLeaves cfg vm ks)
      (fun _ s => C.view s = v0) (fun s => C.view s = v0)
  | [] => triple_pure fun _ h => h
  | k :: ks => by
    unfold insertLeaves
    simp only [M.bind_eq, M.pure_eq]
    exact triple_bind (risen_lift (fun s h => h) _) fun value => triple_bind quiet_dbGet fun _ =>
      triple_bind quiet_dbGet fun _ => triple_bind (quiet_insert hw) fun _ =>
      triple_bind (quiet_insert hw) fun _ => triple_bind (quiet_insertLeaves hw vm ks) fun _ =>
      triple_pure fun _ h => h

/-- A refused insert on a database that queues writes shows nothing. -/
theorem refused_quiet (hN : 0 < N) (hw : WritesShow C false) {prev : Option (Arr N)} {keys : List (Arr N)}
    {values : List V} {s s' : σ} {e : Err} (hs : C.alive s)
    (hrun : insert cfg prev keys values s = (.error e, s')) : C.view s' = C.view s := by
  have h : Triple C.toG (fun _ => True) (fun t => C.view t = C.view s)
      (batchRefs cfg prev (valueMap keys values) (sortKeys keys)) (fun _ t => C.view t = C.view s)
      (fun t => C.view t = C.view s) := by
    unfold batchRefs
    refine triple_bind (quiet_insertLeaves hw _ _) fun nodes => ?_
    refine triple_bind (R := fun _ t => C.view t = C.view s) ?_ fun pn => triple_pure fun _ h => h
    cases prev with
    | none => exact triple_pure fun _ h => h
    | some root =>
      unfold generateTreerefs
      simp only [M.bind_eq]
      refine triple_bind quiet_dbGet fun o => ?_
      cases o with
      | none => exact triple_throw trivial fun s h => h
      | some n => exact quiet_traverseTree hw _ _ _ _
  replace h := h s rfl
  rcases hb : batchRefs cfg prev (valueMap keys values) (sortKeys keys) s with ⟨res, s1⟩
  rw [hb] at h
  have hal : C.alive s1 ∧ C.view s1 = C.view s := by
    cases res with
    | ok a => exact ⟨h.1 hs, h.2⟩
    | error e' =>
      rcases h with h | ⟨h | h, h'⟩
      · exact h.elim
      · exact ⟨h.2 hs, h'⟩
      · exact absurd hs h.1
  rcases refused_where (C := C) hN hs (by rw [hb]; exact hal.1) hrun with rfl | h
  · rfl
  · rw [hb] at h
    subst h
    exact hal.2

end
end MerkleBit
