import Verif.Proof.MachineLarge
import Verif.Proof.Calls
import Verif.Proof.Account
/-! # An insert that is refused takes no count away -/

namespace MerkleBit
variable {N : Nat} {σ V : Type}

section
variable {cfg : Config N σ V} {C : DbContract cfg.db} {b : Prop} {v0 : View N}

/-- Where an insert on a working database can be refused: before anything is done, or before the new tree is
built. -/
theorem refused_where (hN : 0 < N) {prev : Option (Arr N)} {keys : List (Arr N)} {values : List V} {s s' : σ}
    {e : Err} (hs : C.alive s) (hal : C.alive (batchRefs cfg prev (valueMap keys values) (sortKeys keys) s).2)
    (hrun : insert cfg prev keys values s = (.error e, s')) :
    s' = s ∨ s' = (batchRefs cfg prev (valueMap keys values) (sortKeys keys) s).2 := by
  by_cases h1 : keys.length = values.length
  swap
  · left
    unfold insert at hrun
    rw [if_pos h1] at hrun
    cases hrun
    rfl
  by_cases h2 : keys = []
  · left
    unfold insert at hrun
    rw [if_neg (by simpa using h1), if_pos (by simp [h2])] at hrun
    cases hrun
    rfl
  right
  rw [insert_eq_batchRefs cfg prev h1 h2] at hrun
  unfold M.bind at hrun
  rcases hb : batchRefs cfg prev (valueMap keys values) (sortKeys keys) s with ⟨res, s1⟩
  rw [hb] at hrun hal
  cases res with
  | error e' => cases hrun; rfl
  | ok refs =>
    dsimp only at hrun hal
    obtain ⟨h3, h4⟩ := batchRefs_count hb
    by_cases hnd : (refs.map (·.key)).Nodup
    · obtain ⟨a, s2, e2, -, -⟩ := works_createTree (C := C) h4 (by
        rintro rfl
        rw [(sortKeys_perm keys).length_eq] at h3
        exact h2 (List.length_eq_zero_iff.1 (by simpa using h3))) hnd s1 hal
      rw [e2] at hrun
      cases hrun
    · rw [createTree_dup hN cfg hnd] at hrun
      cases hrun
      rfl

theorem risen_lift {α : Type} {P : σ → Prop} {E : σ → Prop} (hE : ∀ s, P s → E s) (x : Res α) :
    Triple C.toG (fun _ => True) P (M.lift x) (fun _ => P) E := by
  cases x with
  | ok a => exact triple_pure fun _ h => h
  | error e => exact triple_throw trivial hE

/-- A cell is pushed, a reference is not. -/
def pushed : SplitNodeType N → List (TreeCell N)
  | .ref _ => []
  | .cell c => [c]

theorem pushSplit_snd (ps : List (TreeRef N)) (q : List (TreeCell N)) (r : SplitNodeType N) :
    (pushSplit ps q r).2 = pushed r ++ q := by
  cases r <;> rfl

/-- No count is below that of `v0`, neither of what is stored nor, if `b`, of what is queued. -/
def Lifted (C : DbContract cfg.db) (b : Prop) (v0 : View N) (s : σ) : Prop :=
  (∀ x, refsOf v0 x ≤ refsOf (C.view s) x) ∧
    (b → ∀ x n, C.pending s x = some n → refsOf v0 x ≤ n.references)

theorem Lifted.of_eq {s s' : σ} (h : Lifted C b v0 s) (h1 : C.view s' = C.view s)
    (h2 : C.pending s' = C.pending s) : Lifted C b v0 s' := by
  unfold Lifted
  rw [h1, h2]
  exact h

theorem Lifted.get {s : σ} {x : Arr N} {n : Node N} (h : Lifted C b v0 s) (hx : C.view s x = some n) :
    refsOf v0 x ≤ n.references := by
  have := h.1 x
  unfold refsOf at this ⊢
  rw [hx] at this
  exact this

theorem Lifted.wrote {s s' : σ} {x : Arr N} {n : Node N} (h : Lifted C b v0 s) (hw : Wrote C.toG s s' x n)
    (hn : refsOf v0 x ≤ n.references) : Lifted C b v0 s' := by
  rcases hw with ⟨_, e1, e2⟩ | ⟨e1, e2⟩
  · refine ⟨fun y => ?_, fun hb y m hy => ?_⟩
    · change _ ≤ refsOf (C.toG.view s') y
      rw [e1, refsOf_put]
      split
      · next e => rw [e]; exact hn
      · exact h.1 y
    · change C.toG.pending s' y = _ at hy
      rw [e2] at hy
      cases hy
  · refine ⟨fun y => ?_, fun hb y m hy => ?_⟩
    · change _ ≤ refsOf (C.toG.view s') y
      rw [e1]
      exact h.1 y
    · change C.toG.pending s' y = _ at hy
      rw [e2] at hy
      unfold View.put at hy
      by_cases hyx : y = x
      · rw [if_pos hyx] at hy
        cases hy
        rw [hyx]
        exact hn
      · rw [if_neg hyx] at hy
        exact h.2 hb y m hy

theorem lifted_dbGet {x : Arr N} : Triple C.toG (fun _ => True) (Lifted C b v0) (dbGet cfg x)
    (fun o s => (∀ n, o = some n → refsOf v0 x ≤ n.references) ∧ Lifted C b v0 s) (Lifted C b v0) :=
  triple_dbGet (fun _ h => ⟨fun _ hn => h.get hn, h⟩) (fun _ h => h)

theorem lifted_insert {x : Arr N} {n : Node N} (hn : refsOf v0 x ≤ n.references) :
    Triple C.toG (fun _ => True) (Lifted C b v0) (cfg.db.insert x n) (fun _ => Lifted C b v0) (Lifted C b v0) :=
  triple_insert (C := C.toG) (fun _ _ h hw => h.wrote hw hn) (fun _ _ h h1 h2 => h.of_eq h1 h2)

theorem lifted_insertLeaf (x : Arr N) :
    Triple C.toG (fun _ => True) (Lifted C b v0) (insertLeaf cfg x) (fun _ => Lifted C b v0) (Lifted C b v0) := by
  unfold insertLeaf
  simp only [M.bind_eq]
  refine triple_bind lifted_dbGet fun o => ?_
  cases o with
  | none => exact triple_throw trivial fun s h => h.2
  | some n =>
    apply triple_pre
    intro hn
    exact lifted_insert (Nat.le_succ_of_le (hn n rfl))

/-- The cells of the queue have counts no less than those of `v0`. -/
def LiftedCells (v0 : View N) (q : List (TreeCell N)) : Prop :=
  ∀ c ∈ q, refsOf v0 c.location ≤ c.node.references

theorem lifted_splitNodes (depth : Nat) (x : Arr N) (ks : List (Arr N)) :
    Triple C.toG (fun _ => True) (Lifted C b v0) (splitNodes cfg depth x ks)
      (fun r s => LiftedCells v0 (pushed r) ∧ Lifted C b v0 s) (Lifted C b v0) := by
  unfold splitNodes
  simp only [M.bind_eq, M.pure_eq]
  refine triple_bind lifted_dbGet fun o => ?_
  cases o with
  | none => exact triple_throw trivial fun s h => h.2
  | some n =>
    apply triple_pre
    intro hn
    dsimp only
    split
    · have wr : ∀ (var : Variant N) (r : TreeRef N),
          Triple C.toG (fun _ => True) (Lifted C b v0)
          (M.bind (cfg.db.insert x ⟨n.references + 1, var⟩) fun _ => M.pure (.ref r))
          (fun r s => LiftedCells v0 (pushed r) ∧ Lifted C b v0 s) (Lifted C b v0) := fun var r =>
        triple_bind (lifted_insert (Nat.le_succ_of_le (hn n rfl)))
          fun _ => triple_pure fun s h => ⟨fun c hc => (by cases hc), h⟩
      split
      · exact wr _ _
      · exact wr _ _
      · exact triple_throw trivial fun s h => h
    · refine triple_pure fun s h => ⟨fun c hc => ?_, h⟩
      cases List.mem_singleton.1 hc
      exact hn n rfl

theorem lifted_traverseTree (km : AMap (Arr N) (Arr N)) : ∀ fuel ps q, LiftedCells v0 q →
    Triple C.toG (fun _ => True) (Lifted C b v0) (traverseTree cfg km fuel ps q) (fun _ => Lifted C b v0)
      (Lifted C b v0) := by
  intro fuel
  induction fuel with
  | zero =>
    intro ps q _
    cases q with
    | nil => exact triple_pure fun s h => h
    | cons c q => exact triple_throw trivial fun s h => h
  | succ fuel ih =>
    intro ps q hq
    cases q with
    | nil => exact triple_pure fun s h => h
    | cons c q =>
      have hc := hq c List.mem_cons_self
      have hq' : LiftedCells v0 q := fun c hc => hq c (List.mem_cons_of_mem _ hc)
      unfold traverseTree
      simp only [M.bind_eq]
      split
      · exact triple_throw trivial fun s h => h
      split
      · split
        · split
          · exact triple_bind (lifted_insertLeaf _) fun _ => ih _ _ hq'
          · exact ih _ _ hq'
        · exact triple_bind (lifted_insertLeaf _) fun _ => ih _ _ hq'
      · exact triple_throw trivial fun s h => h
      · refine triple_bind (risen_lift (fun s h => h) _) fun msi => ?_
        refine triple_bind (risen_lift (fun s h => h) _) fun ds => ?_
        split
        · exact triple_bind (lifted_insert (Nat.le_succ_of_le hc)) fun _ => ih _ _ hq'
        · refine triple_bind (risen_lift (fun s h => h) _) fun zo => ?_
          obtain ⟨zeros, ones⟩ := zo
          dsimp only
          refine triple_bind (lifted_splitNodes _ _ _) fun one => ?_
          apply triple_pre
          intro h1
          refine triple_bind (lifted_splitNodes _ _ _) fun zero => ?_
          apply triple_pre
          intro h2
          apply ih
          rw [pushSplit_snd, pushSplit_snd]
          intro c hc
          rcases List.mem_append.1 hc with hc | hc
          · exact h2 c hc
          · rcases List.mem_append.1 hc with hc | hc
            · exact h1 c hc
            · exact hq' c hc

theorem lifted_insertLeaves (vm : AMap (Arr N) V) : ∀ ks : List (Arr N),
    Triple C.toG (fun _ => True) (Lifted C b v0) (insertLeaves cfg vm ks) (fun _ => Lifted C b v0) (Lifted C b v0)
  | [] => triple_pure fun _ h => h
  | k :: ks => by
    unfold insertLeaves
    simp only [M.bind_eq, M.pure_eq]
    have hnext : ∀ {x : Arr N} {o : Option (Node N)} {s : σ}, Lifted C b v0 s → C.view s x = o →
        refsOf v0 x ≤ nextRefs o := by
      intro x o s h e
      rw [← e, nextRefs_eq]
      exact Nat.le_succ_of_le (h.1 x)
    refine triple_bind (risen_lift (fun s h => h) _) fun value => ?_
    generalize hd : cfg.hasher.hash3 k.bytes.length tagD k.bytes value = d
    generalize hl : cfg.hasher.hash3 k.bytes.length tagL k.bytes d.bytes = x
    refine triple_bind (R := fun o s => refsOf v0 d ≤ nextRefs o ∧ Lifted C b v0 s)
      (triple_dbGet (fun s h => ⟨hnext h rfl, h⟩) (fun s h => h)) fun od => ?_
    apply triple_pre
    intro hod
    refine triple_bind (R := fun o s => refsOf v0 x ≤ nextRefs o ∧ Lifted C b v0 s)
      (triple_dbGet (fun s h => ⟨hnext h rfl, h⟩) (fun s h => h)) fun ol => ?_
    apply triple_pre
    intro hol
    exact triple_bind (lifted_insert hod) fun _ => triple_bind (lifted_insert hol) fun _ =>
      triple_bind (lifted_insertLeaves vm ks) fun rest => triple_pure fun _ h => h

/-- The batch before the new tree is built. -/
theorem lifted_batchRefs (prev : Option (Arr N)) (vm : AMap (Arr N) V) (ks : List (Arr N)) :
    Triple C.toG (fun _ => True) (Lifted C b v0) (batchRefs cfg prev vm ks) (fun _ => Lifted C b v0)
      (Lifted C b v0) := by
  unfold batchRefs
  refine triple_bind (lifted_insertLeaves vm ks) fun nodes => ?_
  refine triple_bind (R := fun _ => Lifted C b v0) ?_ fun pn => triple_pure fun _ h => h
  cases prev with
  | none => exact triple_pure fun _ h => h
  | some root =>
    unfold generateTreerefs
    simp only [M.bind_eq]
    refine triple_bind lifted_dbGet fun o => ?_
    cases o with
    | none => exact triple_throw trivial fun s h => h.2
    | some n =>
      apply triple_pre
      intro hn
      apply lifted_traverseTree
      intro c hc
      cases List.mem_singleton.1 hc
      exact hn n rfl

/-- A refused insert takes no count away. -/
theorem refused_lifted (hN : 0 < N) {prev : Option (Arr N)} {keys : List (Arr N)}
    {values : List V} {s s' : σ} {e : Err} (hs : C.alive s) (h0 : Lifted C b v0 s)
    (hrun : insert cfg prev keys values s = (.error e, s')) : Lifted C b v0 s' := by
  have h := lifted_batchRefs (cfg := cfg) (C := C) (b := b) (v0 := v0) prev (valueMap keys values) (sortKeys keys) s h0
  rcases hb : batchRefs cfg prev (valueMap keys values) (sortKeys keys) s with ⟨res, s1⟩
  rw [hb] at h
  have hal : C.alive s1 ∧ Lifted C b v0 s1 := by
    cases res with
    | ok a => exact ⟨h.1 hs, h.2⟩
    | error e' =>
      rcases h with h | ⟨h | h, h'⟩
      · exact h.elim
      · exact ⟨h.2 hs, h'⟩
      · exact absurd hs h.1
  rcases refused_where (C := C) hN hs (by rw [hb]; exact hal.1) hrun with rfl | h
  · exact h0
  · rw [hb] at h
    subst h
    exact hal.2

/-- A refused insert takes no count away from what is stored. -/
theorem refused_lifted_view (hN : 0 < N) {prev : Option (Arr N)} {keys : List (Arr N)}
    {values : List V} {s s' : σ} {e : Err} (hs : C.alive s)
    (hrun : insert cfg prev keys values s = (.error e, s')) (x : Arr N) :
    refsOf (C.view s) x ≤ refsOf (C.view s') x := by
  exact (refused_lifted (b := False) (v0 := C.view s) hN hs ⟨fun _ => Nat.le_refl _, fun h => h.elim⟩ hrun).1 x

end
end MerkleBit
