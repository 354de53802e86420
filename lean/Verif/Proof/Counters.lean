import Verif.Proof.Reads
import Verif.Proof.History
/-! # How large counters get -/

namespace MerkleBit
variable {N : Nat} {σ V α β : Type} {cfg : Config N σ V}

/-- Every stored or queued node has between `1` and `B + k c` references, where `c` is the number of
writes. -/
def RefsUpTo {db : Database N σ} (C : DbContract db) (B k : Nat) (st : σ × Nat) : Prop :=
  ∀ x n, C.view st.1 x = some n ∨ C.pending st.1 x = some n →
    1 ≤ n.references ∧ n.references ≤ B + k * st.2

section
variable {C : DbContract cfg.db} {B k : Nat}

/-- A program on the counting database keeps the references in bounds; `P` and `R` speak of the counter. -/
def Runs (C : DbContract cfg.db) (B k : Nat) (P : Nat → Prop) (m : M (σ × Nat) α)
    (R : α → Nat → Prop) : Prop :=
  ∀ st, RefsUpTo C B k st → P st.2 → st.2 ≤ (m st).2.2 ∧ RefsUpTo C B k (m st).2 ∧
    ∀ v, (m st).1 = .ok v → R v (m st).2.2

variable {P : Nat → Prop} {R : α → Nat → Prop}

theorem runs_pure {a : α} (h : ∀ c, P c → R a c) : Runs C B k P (M.pure a) R :=
  fun st hI hP => ⟨Nat.le_refl _, hI, fun v hv => by cases hv; exact h _ hP⟩

theorem runs_throw {e : Err} : Runs C B k P (M.throw e : M (σ × Nat) α) R :=
  fun st hI _ => ⟨Nat.le_refl _, hI, fun v hv => by cases hv⟩

theorem runs_bind {m : M (σ × Nat) α} {f : α → M (σ × Nat) β} {R' : β → Nat → Prop}
    (h1 : Runs C B k P m R) (h2 : ∀ a, Runs C B k (R a) (f a) R') : Runs C B k P (M.bind m f) R' := by
  intro st hI hP
  obtain ⟨a1, a2, a3⟩ := h1 st hI hP
  unfold M.bind
  rcases hm : m st with ⟨r, st'⟩
  rw [hm] at a1 a2 a3
  cases r with
  | error e => exact ⟨a1, a2, fun v hv => by cases hv⟩
  | ok a =>
    obtain ⟨b1, b2, b3⟩ := h2 a st' a2 (a3 a rfl)
    exact ⟨Nat.le_trans a1 b1, b2, b3⟩

theorem runs_conseq {m : M (σ × Nat) α} {P' : Nat → Prop} {R' : α → Nat → Prop} (h : Runs C B k P m R)
    (hP : ∀ c, P' c → P c) (hR : ∀ a c, R a c → R' a c) : Runs C B k P' m R' :=
  fun st hI h0 => ⟨(h st hI (hP _ h0)).1, (h st hI (hP _ h0)).2.1,
    fun v hv => hR _ _ ((h st hI (hP _ h0)).2.2 v hv)⟩

/-- What holds of the counter and of larger ones stays true. -/
theorem runs_frame {m : M (σ × Nat) α} {F : Nat → Prop} (hF : ∀ c c', c ≤ c' → F c → F c')
    (h : Runs C B k P m R) : Runs C B k (fun c => P c ∧ F c) m (fun a c => R a c ∧ F c) := by
  intro st hI h0
  obtain ⟨a1, a2, a3⟩ := h st hI h0.1
  exact ⟨a1, a2, fun v hv => ⟨a3 v hv, hF _ _ a1 h0.2⟩⟩

theorem runs_lift {r : Res α} (h : ∀ a c, r = .ok a → P c → R a c) : Runs C B k P (M.lift r) R := by
  intro st hI hP
  cases r with
  | ok a => exact ⟨Nat.le_refl _, hI, fun v hv => by cases hv; exact h _ _ rfl hP⟩
  | error e => exact ⟨Nat.le_refl _, hI, fun v hv => by cases hv⟩

theorem runs_dbGet {x : Arr N} : Runs C B k P (dbGet cfg.counted x)
    (fun o c => P c ∧ ∀ n, o = some n → 1 ≤ n.references ∧ n.references ≤ B + k * c) := by
  intro st hI hP
  refine ⟨Nat.le_refl _, hI, fun v hv => ⟨hP, ?_⟩⟩
  rintro n rfl
  exact hI x n (.inl (C.getNode_ok (s := st.1) hv).symm)

theorem runs_insert {x : Arr N} {n : Node N}
    (h : ∀ c, P c → 1 ≤ n.references ∧ n.references ≤ B + k * (c + 1)) :
    Runs C B k P (cfg.counted.db.insert x n) (fun _ _ => True) := by
  rintro ⟨s, c⟩ hI hP
  have hn := h c hP
  refine ⟨Nat.le_succ _, ?_, fun _ _ => trivial⟩
  have old : ∀ y m, C.view s y = some m ∨ C.pending s y = some m →
      1 ≤ m.references ∧ m.references ≤ B + k * (c + 1) := by
    intro y m hm
    have := hI y m hm
    have h2 : k * c ≤ k * (c + 1) := Nat.mul_le_mul_left _ (Nat.le_succ _)
    simp only at this
    omega
  intro y m hm
  show 1 ≤ m.references ∧ m.references ≤ B + k * (c + 1)
  change C.view (cfg.db.insert x n s).2 y = some m ∨ C.pending (cfg.db.insert x n s).2 y = some m at hm
  rcases hi : cfg.db.insert x n s with ⟨r, s'⟩
  rw [hi] at hm
  dsimp only at hm
  cases r with
  | ok _ =>
    rcases (C.insert_ok hi).2 with ⟨-, h2, h3⟩ | ⟨h2, h3⟩
    · rw [h2, h3] at hm
      rcases hm with hm | hm
      · unfold View.put at hm
        split at hm
        · cases hm; exact hn
        · exact old y m (.inl hm)
      · cases hm
    · rw [h2, h3] at hm
      rcases hm with hm | hm
      · exact old y m (.inl hm)
      · unfold View.put at hm
        split at hm
        · cases hm; exact hn
        · exact old y m (.inr hm)
  | error e =>
    obtain ⟨-, -, h2, h3⟩ := C.insert_err hi
    rw [h2, h3] at hm
    exact old y m hm

theorem runs_remove {x : Arr N} :
    Runs C B k P (cfg.counted.db.remove x) (fun _ _ => True) := by
  rintro ⟨s, c⟩ hI hP
  refine ⟨Nat.le_succ _, ?_, fun _ _ => trivial⟩
  have old : ∀ y m, C.view s y = some m ∨ C.pending s y = some m →
      1 ≤ m.references ∧ m.references ≤ B + k * (c + 1) := by
    intro y m hm
    have := hI y m hm
    have h2 : k * c ≤ k * (c + 1) := Nat.mul_le_mul_left _ (Nat.le_succ _)
    simp only at this
    omega
  intro y m hm
  show 1 ≤ m.references ∧ m.references ≤ B + k * (c + 1)
  change C.view (cfg.db.remove x s).2 y = some m ∨ C.pending (cfg.db.remove x s).2 y = some m at hm
  rcases hi : cfg.db.remove x s with ⟨r, s'⟩
  rw [hi] at hm
  dsimp only at hm
  cases r with
  | ok _ =>
    obtain ⟨-, h2, h3⟩ := C.remove_ok hi
    rw [h2, h3] at hm
    rcases hm with hm | hm
    · unfold View.del at hm
      split at hm
      · cases hm
      · exact old y m (.inl hm)
    · exact old y m (.inr hm)
  | error e =>
    obtain ⟨-, -, h2, h3⟩ := C.remove_err hi
    rw [h2, h3] at hm
    exact old y m hm

theorem runs_flush : Runs C B k P cfg.counted.db.batchWrite (fun _ c => P c) := by
  rintro ⟨s, c⟩ hI hP
  refine ⟨Nat.le_refl _, ?_, fun _ _ => hP⟩
  intro y m hm
  change C.view (cfg.db.batchWrite s).2 y = some m ∨ C.pending (cfg.db.batchWrite s).2 y = some m at hm
  show 1 ≤ m.references ∧ m.references ≤ B + k * c
  refine hI y m ?_
  rcases hi : cfg.db.batchWrite s with ⟨r, s'⟩
  rw [hi] at hm
  dsimp only at hm
  cases r with
  | ok _ =>
    obtain ⟨-, h2, h3⟩ := C.batchWrite_ok hi
    rw [h2, h3] at hm
    rcases hm with hm | hm
    · unfold View.overlay at hm
      cases hp : C.pending s y with
      | none => rw [hp] at hm; exact .inl hm
      | some n => rw [hp] at hm; exact .inr (by simpa using hm)
    · cases hm
  | error e =>
    obtain ⟨-, -, h2, h3⟩ := C.batchWrite_err hi
    rw [h2] at hm
    rcases hm with hm | hm
    · exact .inl hm
    · rcases h3 with h3 | h3
      · rw [h3] at hm; exact .inr hm
      · rw [h3] at hm; cases hm

/-! ## `remove` -/

theorem runs_removeLoop : ∀ fuel nodes,
    Runs C B 0 (fun _ => True) (removeLoop cfg.counted fuel nodes) (fun _ _ => True)
  | _, [] => by unfold removeLoop; exact runs_pure (fun _ _ => trivial)
  | 0, _ :: _ => by unfold removeLoop; exact runs_throw
  | fuel + 1, location :: nodes => by
    unfold removeLoop
    refine runs_bind runs_dbGet (fun o => ?_)
    have next : ∀ nodes' (P : Nat → Prop),
        Runs C B 0 P (removeLoop cfg.counted fuel nodes') (fun _ _ => True) :=
      fun nodes' P => runs_conseq (runs_removeLoop fuel nodes') (fun _ _ => trivial) (fun _ _ h => h)
    cases o with
    | none => exact next _ _
    | some node =>
      dsimp only
      split
      · split
        · exact runs_bind runs_remove (fun _ => next _ _)
        · exact runs_bind runs_remove (fun _ => next _ _)
        · exact runs_bind runs_remove (fun _ => next _ _)
      · next h0 =>
        refine runs_bind (runs_insert ?_) (fun _ => next _ _)
        rintro c ⟨-, h⟩
        have := h node rfl
        simp only [Nat.zero_mul] at this ⊢
        omega

theorem runs_removeCall (r : Arr N) :
    Runs C B 0 (fun _ => True) (remove cfg.counted r) (fun _ _ => True) := by
  unfold remove
  exact runs_bind (runs_removeLoop _ _) (fun _ => runs_conseq runs_flush (fun _ h => h) (fun _ _ h => h))

/-! ## `insert` -/

/-- The nodes in the queue of a traversal. -/
def CellsUpTo (B : Nat) (q : List (TreeCell N)) (c : Nat) : Prop :=
  ∀ x ∈ q, x.node.references ≤ B + 1 * c

theorem CellsUpTo.mono {q : List (TreeCell N)} (c c' : Nat) (h : c ≤ c') (hq : CellsUpTo B q c) :
    CellsUpTo B q c' := fun x hx => by have := hq x hx; omega

/-- The node a split yields for further traversal. -/
def SplitUpTo (B : Nat) : SplitNodeType N → Nat → Prop
  | .ref _, _ => True
  | .cell x, c => x.node.references ≤ B + 1 * c

theorem runs_insertLeaf (x : Arr N) :
    Runs C B 1 P (insertLeaf cfg.counted x) (fun _ _ => True) := by
  unfold insertLeaf
  refine runs_bind runs_dbGet (fun o => ?_)
  cases o with
  | none => exact runs_throw
  | some l =>
    refine runs_insert ?_
    rintro c ⟨-, h⟩
    have := h l rfl
    simp only
    omega

theorem runs_splitNodes (d : Nat) (x : Arr N) (ks : List (Arr N)) :
    Runs C B 1 P (splitNodes cfg.counted d x ks)
      (SplitUpTo B) := by
  unfold splitNodes
  refine runs_bind runs_dbGet (fun o => ?_)
  cases o with
  | none => exact runs_throw
  | some node =>
    dsimp only
    have step : ∀ v (r : TreeRef N), Runs C B 1
        (fun c => P c ∧ ∀ n, some node = some n → 1 ≤ n.references ∧ n.references ≤ B + 1 * c)
        (M.bind (cfg.counted.db.insert x ⟨node.references + 1, v⟩)
          (fun _ => M.pure (SplitNodeType.ref r)))
        (SplitUpTo B) := by
      intro v r
      refine runs_bind (runs_insert ?_) (fun _ => runs_pure (fun _ _ => trivial))
      rintro c ⟨-, h⟩
      have := h node rfl
      simp only
      omega
    split
    · split
      · exact step _ _
      · exact step _ _
      · exact runs_throw
    · exact runs_pure (fun c h => (h.2 node rfl).2)

theorem runs_traverse (km : AMap (Arr N) (Arr N)) : ∀ fuel pn q,
    Runs C B 1 (CellsUpTo B q) (traverseTree cfg.counted km fuel pn q) (fun _ _ => True)
  | _, pn, [] => by unfold traverseTree; exact runs_pure (fun _ _ => trivial)
  | 0, pn, _ :: _ => by unfold traverseTree; exact runs_throw
  | fuel + 1, pn, cell :: q => by
    have tail : ∀ c, CellsUpTo B (cell :: q) c → CellsUpTo B q c :=
      fun c h x hx => h x (List.mem_cons_of_mem _ hx)
    have leaf : ∀ pn', Runs C B 1 (CellsUpTo B (cell :: q))
        (M.bind (insertLeaf cfg.counted cell.location) (fun _ => traverseTree cfg.counted km fuel pn' q))
        (fun _ _ => True) := by
      intro pn'
      refine runs_bind (runs_conseq (runs_frame (F := CellsUpTo B q) CellsUpTo.mono
        (runs_insertLeaf (P := fun _ => True) cell.location)) (fun c h => ⟨trivial, tail c h⟩)
        (fun _ _ h => h)) (fun _ => ?_)
      exact runs_conseq (runs_traverse km fuel pn' q) (fun _ h => h.2) (fun _ _ h => h)
    unfold traverseTree
    split
    · exact runs_throw
    · split
      · split
        · split
          · exact leaf _
          · exact runs_conseq (runs_traverse km fuel pn q) tail (fun _ _ h => h)
        · exact leaf _
      · exact runs_throw
      · refine runs_bind (runs_lift (R := fun _ => CellsUpTo B (cell :: q)) (fun _ _ _ h => h)) (fun msi => ?_)
        refine runs_bind (runs_lift (R := fun _ => CellsUpTo B (cell :: q)) (fun _ _ _ h => h)) (fun ds => ?_)
        dsimp only
        split
        · refine runs_bind (runs_conseq (runs_frame (F := CellsUpTo B q) CellsUpTo.mono
            (runs_insert (P := CellsUpTo B (cell :: q)) ?_)) (fun c h => ⟨h, tail c h⟩) (fun _ _ h => h))
            (fun _ => ?_)
          · intro c h
            have := h cell List.mem_cons_self
            simp only
            omega
          · exact runs_conseq (runs_traverse km fuel _ q) (fun _ h => h.2) (fun _ _ h => h)
        · refine runs_bind (runs_lift (R := fun _ => CellsUpTo B q) (fun _ _ _ h => tail _ h)) (fun zo => ?_)
          obtain ⟨zs, os⟩ := zo
          have push : ∀ {t : SplitNodeType N} {pn' : List (TreeRef N)} {q' : List (TreeCell N)} {c : Nat},
              SplitUpTo B t c → CellsUpTo B q' c →
              CellsUpTo B (pushSplit pn' q' t).2 c := by
            intro t pn' q' c ht hq
            cases t with
            | ref r => exact hq
            | cell x =>
              intro y hy
              rcases List.mem_cons.1 hy with rfl | hy
              · exact ht
              · exact hq y hy
          refine runs_bind (runs_conseq (runs_frame (F := CellsUpTo B q) CellsUpTo.mono
            (runs_splitNodes (P := fun _ => True) _ _ _)) (fun c h => ⟨trivial, h⟩) (fun _ _ h => h))
            (fun one => ?_)
          refine runs_bind (runs_conseq (runs_frame (F := CellsUpTo B (pushSplit pn q one).2)
            CellsUpTo.mono (runs_splitNodes (P := fun _ => True) _ _ _))
            (fun c h => ⟨trivial, push h.1 h.2⟩) (fun _ _ h => h)) (fun zero => ?_)
          exact runs_conseq (runs_traverse km fuel _ _) (fun c h => push h.1 h.2) (fun _ _ h => h)

theorem runs_generate (r : Arr N) (ks : List (Arr N)) (km : AMap (Arr N) (Arr N)) :
    Runs C B 1 P (generateTreerefs cfg.counted r ks km) (fun _ _ => True) := by
  unfold generateTreerefs
  refine runs_bind runs_dbGet (fun o => ?_)
  cases o with
  | none => exact runs_throw
  | some n =>
    refine runs_conseq (runs_traverse km _ _ _) ?_ (fun _ _ h => h)
    rintro c ⟨-, h⟩ x hx
    rw [List.mem_singleton] at hx
    subst hx
    exact (h n rfl).2

theorem runs_insertLeaves (vs : AMap (Arr N) V) : ∀ ks,
    Runs C B 1 (fun _ => True) (insertLeaves cfg.counted vs ks) (fun _ _ => True)
  | [] => by unfold insertLeaves; exact runs_pure (fun _ _ => trivial)
  | key :: ks => by
    unfold insertLeaves
    refine runs_bind (runs_lift (R := fun _ _ => True) (fun _ _ _ h => h)) (fun value => ?_)
    dsimp only
    have hnext : ∀ (o : Option (Node N)) c, (∀ n, o = some n → 1 ≤ n.references ∧ n.references ≤ B + 1 * c) →
        1 ≤ nextRefs o ∧ nextRefs o ≤ B + 1 * (c + 1) := by
      intro o c h
      cases o with
      | none => simp only [nextRefs]; omega
      | some n => have := h n rfl; simp only [nextRefs]; omega
    refine runs_bind runs_dbGet (fun oldData => ?_)
    refine runs_bind runs_dbGet (fun oldLeaf => ?_)
    refine runs_bind (runs_conseq (runs_frame (F := fun c => ∀ n, oldLeaf = some n →
        n.references ≤ B + 1 * c) (fun c c' hc h n hn => by have := h n hn; omega)
      (runs_insert (P := fun c => ∀ n, oldData = some n → 1 ≤ n.references ∧ n.references ≤ B + 1 * c) ?_))
      ?_ (fun _ _ h => h)) (fun _ => ?_)
    · exact fun c h => hnext _ _ h
    · exact fun c h => ⟨h.1.2, fun n hn => (h.2 n hn).2⟩
    · refine runs_bind (runs_insert ?_) (fun _ => ?_)
      · rintro c ⟨-, h⟩
        cases oldLeaf with
        | none => simp only [nextRefs]; omega
        | some n => have := h n rfl; simp only [nextRefs]; omega
      · exact runs_bind (runs_insertLeaves vs ks) (fun _ => runs_pure (fun _ _ => trivial))

theorem runs_mergeLoop : ∀ level refs root,
    Runs C B 1 (fun _ => True) (mergeLoop cfg.counted level refs root) (fun _ _ => True)
  | [], refs, root => by unfold mergeLoop; exact runs_pure (fun _ _ => trivial)
  | it :: level, refs, root => by
    obtain ⟨i, p, np⟩ := it
    unfold mergeLoop
    refine runs_bind (runs_lift (R := fun _ _ => True) (fun _ _ _ h => h)) (fun a => ?_)
    refine runs_bind (runs_lift (R := fun _ _ => True) (fun _ _ _ h => h)) (fun b => ?_)
    obtain ⟨lp, lc⟩ := b
    refine runs_bind (runs_lift (R := fun _ _ => True) (fun _ _ _ h => h)) (fun d => ?_)
    dsimp only
    refine runs_bind (runs_insert ?_) (fun _ => runs_mergeLoop level _ _)
    intro c _
    simp only
    omega

theorem runs_levelsLoop : ∀ idx q refs root,
    Runs C B 1 (fun _ => True) (levelsLoop cfg.counted idx q refs root) (fun _ _ => True)
  | [], q, refs, root => by unfold levelsLoop; exact runs_pure (fun _ _ => trivial)
  | i :: idx, q, refs, root => by
    unfold levelsLoop
    split
    · refine runs_bind (R := fun _ _ => True) ?_ (fun a => runs_levelsLoop idx _ _ _)
      unfold mergeNodes
      exact runs_bind (runs_mergeLoop _ _ _) (fun _ => runs_bind runs_flush (fun _ => runs_pure (fun _ _ => trivial)))
    · exact runs_throw

theorem runs_createTree (refs : List (TreeRef N)) :
    Runs C B 1 P (createTree cfg.counted refs) (fun _ _ => True) := by
  unfold createTree
  split
  · exact runs_throw
  · exact runs_bind runs_flush (fun _ => runs_pure (fun _ _ => trivial))
  · dsimp only
    refine runs_bind (runs_lift (R := fun _ _ => True) (fun _ _ _ _ => trivial)) (fun qb => ?_)
    obtain ⟨q, bits⟩ := qb
    refine runs_bind (runs_levelsLoop _ _ _ _) (fun o => ?_)
    cases o with
    | none => exact runs_throw
    | some r => exact runs_pure (fun _ _ => trivial)

theorem runs_insertCall (prev : Option (Arr N)) (keys : List (Arr N)) (values : List V) :
    Runs C B 1 (fun _ => True) (insert cfg.counted prev keys values) (fun _ _ => True) := by
  unfold insert
  split
  · exact runs_throw
  split
  · exact runs_throw
  · dsimp only
    refine runs_bind (runs_insertLeaves _ _) (fun nodes => ?_)
    cases prev with
    | none => exact runs_createTree _
    | some r => exact runs_bind (runs_generate _ _ _) (fun _ => runs_createTree _)

end

/-! ## Without the counter -/

theorem removeLoop_counted : ∀ fuel nodes (s : σ) (c : Nat), ∃ c',
    removeLoop cfg.counted fuel nodes (s, c) =
      ((removeLoop cfg fuel nodes s).1, ((removeLoop cfg fuel nodes s).2, c'))
  | _, [], s, c => by unfold removeLoop; exact ⟨c, rfl⟩
  | 0, _ :: _, s, c => by unfold removeLoop; exact ⟨c, rfl⟩
  | fuel + 1, x :: nodes, s, c => by
    have after : ∀ (m : M σ Unit) (m' : M (σ × Nat) Unit) nodes',
        m' (s, c) = ((m s).1, ((m s).2, c + 1)) → ∃ c',
        M.bind m' (fun _ => removeLoop cfg.counted fuel nodes') (s, c) =
          ((M.bind m (fun _ => removeLoop cfg fuel nodes') s).1,
            ((M.bind m (fun _ => removeLoop cfg fuel nodes') s).2, c')) := by
      intro m m' nodes' h
      unfold M.bind
      rw [h]
      rcases hm : m s with ⟨r, s'⟩
      cases r with
      | error e => exact ⟨_, rfl⟩
      | ok _ => exact removeLoop_counted fuel nodes' s' (c + 1)
    have start : ∀ {β : Type} (m : M σ β) (m' : M (σ × Nat) β) (x : Res β), m s = (x, s) →
        m' (s, c) = (x, (s, c)) → m' (s, c) = ((m s).1, ((m s).2, c)) := by
      intro β m m' x h1 h2
      rw [h1, h2]
    unfold removeLoop
    simp only [M.bind_eq]
    have e1 : dbGet cfg.counted x (s, c) = ((cfg.db.getNode s x), (s, c)) := rfl
    have e2 : dbGet cfg x s = ((cfg.db.getNode s x), s) := rfl
    rw [M.bind, M.bind, e1, e2]
    cases cfg.db.getNode s x with
    | error e => exact ⟨c, rfl⟩
    | ok o =>
      cases o with
      | none => exact removeLoop_counted fuel nodes s c
      | some node =>
        dsimp only
        by_cases h0 : node.references - 1 = 0
        · rw [if_pos h0, if_pos h0]
          cases node.variant with
          | branch b => exact after _ _ _ rfl
          | leaf l => exact after _ _ _ rfl
          | data d => exact after _ _ _ rfl
        · rw [if_neg h0, if_neg h0]
          exact after _ _ _ rfl

theorem remove_counted (r : Arr N) (s : σ) (c : Nat) : ∃ c',
    remove cfg.counted r (s, c) = ((remove cfg r s).1, ((remove cfg r s).2, c')) := by
  unfold remove
  simp only [M.bind_eq]
  obtain ⟨c', h⟩ := removeLoop_counted (cfg := cfg) (removeFuel N) [r] s c
  rw [M.bind, M.bind, h]
  rcases removeLoop cfg (removeFuel N) [r] s with ⟨a, s'⟩
  cases a with
  | error e => exact ⟨c', rfl⟩
  | ok _ => exact ⟨c', rfl⟩

/-- Every stored or queued node has between 1 and `B` references. -/
def RefsBelow {db : Database N σ} (C : DbContract db) (B : Nat) (s : σ) : Prop :=
  ∀ x n, C.view s x = some n ∨ C.pending s x = some n → 1 ≤ n.references ∧ n.references ≤ B

theorem counted_insert (prev : Option (Arr N)) (keys : List (Arr N)) (values : List V) (s : σ) :
    (insert cfg.counted prev keys values (s, 0)).2.1 = (insert cfg prev keys values s).2 ∧
    (insert cfg.counted prev keys values (s, 0)).2.2 ≤ cfg.writes keys.length := by
  have h1 := costs_insert (K := countMeter cfg.db) (P := fun _ => True) (cfg := cfg) prev keys values
    0 0 s (s, 0) trivial ⟨rfl, Nat.le_refl _⟩
  obtain ⟨-, ⟨h3, h4⟩, -⟩ := h1
  refine ⟨h3, ?_⟩
  have hb : newWrites cfg prev keys.length + oldWrites cfg prev keys.length ≤ cfg.writes keys.length := by
    unfold Config.writes
    have e : keys.length * (2 * cfg.depth + 5) =
        keys.length * (cfg.depth + 4) + keys.length * (cfg.depth + 1) := by
      rw [← Nat.mul_add]; congr 1; omega
    cases prev with
    | none =>
      simp only [newWrites, oldWrites]
      have : keys.length * 4 ≤ keys.length * (cfg.depth + 4) := Nat.mul_le_mul_left _ (by omega)
      omega
    | some r => simp only [newWrites, oldWrites]; omega
  change (insert cfg.counted prev keys values (s, 0)).2.2 ≤ _ at h4
  omega

theorem refs_insert (C : DbContract cfg.db) {B : Nat} {s : σ} (h : RefsBelow C B s)
    (prev : Option (Arr N)) (keys : List (Arr N)) (values : List V) :
    RefsBelow C (B + cfg.writes keys.length) (insert cfg prev keys values s).2 := by
  obtain ⟨h3, h4⟩ := counted_insert (cfg := cfg) prev keys values s
  have h2 := runs_insertCall (C := C) (B := B) prev keys values (s, 0)
    (fun x n hx => by simpa using h x n hx) trivial
  intro x n hx
  rw [← h3] at hx
  have := h2.2.1 x n hx
  refine ⟨this.1, Nat.le_trans this.2 ?_⟩
  simp only [Nat.one_mul]
  omega

theorem refs_remove (C : DbContract cfg.db) {B : Nat} {s : σ} (h : RefsBelow C B s) (r : Arr N) :
    RefsBelow C B (remove cfg r s).2 := by
  obtain ⟨c', h1⟩ := remove_counted (cfg := cfg) r s 0
  have h2 := runs_removeCall (C := C) (B := B) r (s, 0) (fun x n hx => by simpa using h x n hx) trivial
  intro x n hx
  have := h2.2.1 x n (by rw [h1]; exact hx)
  simpa using this

end MerkleBit
