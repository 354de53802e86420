import Verif.Proof.MachineMerge
import Verif.Proof.Counters
/-! # Counters of the machine's width: `insert_leaves` and `traverse_tree` -/

namespace MerkleBit
variable {N : Nat} {σ V α β : Type} {cfg : Config N σ V} {A : Arith}

section
variable {C : DbContract cfg.db} {B : Nat}

/-- A program `m` on the counting database (as in `Runs`), the same program `m0` without the counter, and
`mA` with machine arithmetic.  The latter two agree unless there are too many writes. -/
def Lock (C : DbContract cfg.db) (B : Nat) (P : Nat → Prop) (m : M (σ × Nat) α) (m0 mA : M σ α)
    (R : α → Nat → Prop) : Prop :=
  ∀ st, RefsUpTo C B 1 st → P st.2 → st.2 ≤ (m st).2.2 ∧ RefsUpTo C B 1 (m st).2 ∧
    (∀ v, (m st).1 = .ok v → R v (m st).2.2) ∧ m0 st.1 = ((m st).1, (m st).2.1) ∧
    (B + (m st).2.2 + 1 < 2 ^ 64 → mA st.1 = m0 st.1)

variable {P : Nat → Prop} {R : α → Nat → Prop}

/-- Without additions. -/
theorem lock_of_runs {m : M (σ × Nat) α} {m0 : M σ α} (h : Runs C B 1 P m R)
    (h0 : ∀ st, m0 st.1 = ((m st).1, (m st).2.1)) : Lock C B P m m0 m0 R :=
  fun st hI hP => ⟨(h st hI hP).1, (h st hI hP).2.1, (h st hI hP).2.2, h0 st, fun _ => rfl⟩

theorem lock_pure {a : α} (h : ∀ c, P c → R a c) : Lock C B P (M.pure a) (M.pure a) (M.pure a) R :=
  lock_of_runs (runs_pure h) (fun _ => rfl)

theorem lock_throw {e : Err} : Lock C B P (M.throw e : M (σ × Nat) α) (M.throw e) (M.throw e) R :=
  lock_of_runs runs_throw (fun _ => rfl)

theorem lock_lift {r : Res α} (h : ∀ a c, r = .ok a → P c → R a c) :
    Lock C B P (M.lift r) (M.lift r) (M.lift r) R :=
  lock_of_runs (runs_lift h) (fun _ => rfl)

theorem lock_dbGet {x : Arr N} : Lock C B P (dbGet cfg.counted x) (dbGet cfg x) (dbGet cfg x)
    (fun o c => P c ∧ ∀ n, o = some n → 1 ≤ n.references ∧ n.references ≤ B + 1 * c) :=
  lock_of_runs runs_dbGet (fun _ => rfl)

theorem lock_insert {x : Arr N} {n : Node N}
    (h : ∀ c, P c → 1 ≤ n.references ∧ n.references ≤ B + 1 * (c + 1)) :
    Lock C B P (cfg.counted.db.insert x n) (cfg.db.insert x n) (cfg.db.insert x n) (fun _ _ => True) :=
  lock_of_runs (runs_insert h) (fun _ => rfl)

theorem lock_bind {m : M (σ × Nat) α} {m0 mA : M σ α} {f : α → M (σ × Nat) β} {f0 fA : α → M σ β}
    {R' : β → Nat → Prop} (h1 : Lock C B P m m0 mA R)
    (h2 : ∀ a, Lock C B (R a) (f a) (f0 a) (fA a) R') :
    Lock C B P (M.bind m f) (M.bind m0 f0) (M.bind mA fA) R' := by
  intro st hI hP
  obtain ⟨a1, a2, a3, a4, a5⟩ := h1 st hI hP
  unfold M.bind
  rcases hm : m st with ⟨r, st'⟩
  rw [hm] at a1 a2 a3 a4 a5
  cases r with
  | error e =>
    refine ⟨a1, a2, fun v hv => (by cases hv), by rw [a4], fun h => ?_⟩
    rw [a5 h, a4]
  | ok a =>
    obtain ⟨b1, b2, b3, b4, b5⟩ := h2 a st' a2 (a3 a rfl)
    refine ⟨Nat.le_trans a1 b1, b2, b3, ?_, fun h => ?_⟩
    · rw [a4]; exact b4
    · have h' : B + ((f a) st').2.2 + 1 < 2 ^ 64 := h
      rw [a5 (by dsimp only at b1 ⊢; omega), a4]
      exact b5 h'

theorem lock_conseq {m : M (σ × Nat) α} {m0 mA : M σ α} {P' : Nat → Prop} {R' : α → Nat → Prop}
    (h : Lock C B P m m0 mA R) (hP : ∀ c, P' c → P c) (hR : ∀ a c, R a c → R' a c) :
    Lock C B P' m m0 mA R' := by
  intro st hI h0
  obtain ⟨a1, a2, a3, a4⟩ := h st hI (hP _ h0)
  exact ⟨a1, a2, fun v hv => hR _ _ (a3 v hv), a4⟩

theorem lock_frame {m : M (σ × Nat) α} {m0 mA : M σ α} {F : Nat → Prop}
    (hF : ∀ c c', c ≤ c' → F c → F c') (h : Lock C B P m m0 mA R) :
    Lock C B (fun c => P c ∧ F c) m m0 mA (fun a c => R a c ∧ F c) := by
  intro st hI h0
  obtain ⟨a1, a2, a3, a4⟩ := h st hI h0.1
  exact ⟨a1, a2, fun v hv => ⟨a3 v hv, hF _ _ a1 h0.2⟩, a4⟩

/-- A sum that fits as long as there are not too many writes. -/
theorem lock_add {r : Res β} {a : β} {m : M (σ × Nat) α} {m0 : M σ α} {fA : β → M σ α}
    (hr : ∀ c, P c → B + c + 1 < 2 ^ 64 → r = .ok a) (h : Lock C B P m m0 (fA a) R) :
    Lock C B P m m0 (M.bind (M.lift r) fA) R := by
  intro st hI hP
  obtain ⟨a1, a2, a3, a4, a5⟩ := h st hI hP
  refine ⟨a1, a2, a3, a4, fun hb => ?_⟩
  rw [hr st.2 hP (by omega), M.lift_ok_bind]
  exact a5 hb

theorem lock_insertLeaf (x : Arr N) :
    Lock C B P (insertLeaf cfg.counted x) (insertLeaf cfg x) (Machine.insertLeaf A cfg x)
      (fun _ _ => True) := by
  unfold insertLeaf Machine.insertLeaf
  refine lock_bind lock_dbGet (fun o => ?_)
  cases o with
  | none => exact lock_throw
  | some l =>
    refine lock_add (a := l.references + 1) ?_ (lock_insert ?_)
    · rintro c ⟨-, h⟩ hb
      have := h l rfl
      exact A.exact (by omega)
    · rintro c ⟨-, h⟩
      have := h l rfl
      simp only
      omega

theorem lock_splitNodes (d : Nat) (hd : d + 1 < 2 ^ 64) (x : Arr N) (ks : List (Arr N)) :
    Lock C B P (splitNodes cfg.counted d x ks) (splitNodes cfg d x ks)
      (Machine.splitNodes A cfg d x ks) (SplitUpTo B) := by
  unfold splitNodes Machine.splitNodes
  refine lock_bind lock_dbGet (fun o => ?_)
  cases o with
  | none => exact lock_throw
  | some node =>
    dsimp only
    have step : ∀ v (r : TreeRef N), Lock C B
        (fun c => P c ∧ ∀ n, some node = some n → 1 ≤ n.references ∧ n.references ≤ B + 1 * c)
        (M.bind (cfg.counted.db.insert x ⟨node.references + 1, v⟩)
          (fun _ => M.pure (SplitNodeType.ref r)))
        (M.bind (cfg.db.insert x ⟨node.references + 1, v⟩)
          (fun _ => M.pure (SplitNodeType.ref r)))
        (M.bind (cfg.db.insert x ⟨node.references + 1, v⟩)
          (fun _ => M.pure (SplitNodeType.ref r)))
        (SplitUpTo B) := by
      intro v r
      refine lock_bind (lock_insert ?_) (fun _ => lock_pure (fun _ _ => trivial))
      rintro c ⟨-, h⟩
      have := h node rfl
      simp only
      omega
    by_cases hk : ks.isEmpty = true
    · rw [if_pos hk, if_pos hk, if_pos hk]
      refine lock_add (a := node.references + 1) ?_ ?_
      · rintro c ⟨-, h⟩ hb
        have := h node rfl
        exact A.exact (by omega)
      · cases node.variant with
        | branch b => exact step _ _
        | leaf l => exact step _ _
        | data d => exact lock_throw
    · rw [if_neg hk, if_neg hk, if_neg hk]
      simp only [M.bind_eq]
      rw [A.exact hd, M.lift_ok_bind]
      exact lock_pure (fun c h => (h.2 node rfl).2)

theorem lock_traverse (hd : cfg.depth + 1 < 2 ^ 64) (km : AMap (Arr N) (Arr N)) : ∀ fuel pn q,
    Lock C B (CellsUpTo B q) (traverseTree cfg.counted km fuel pn q) (traverseTree cfg km fuel pn q)
      (Machine.traverseTree A cfg km fuel pn q) (fun _ _ => True)
  | _, pn, [] => by
    unfold traverseTree Machine.traverseTree
    exact lock_pure (fun _ _ => trivial)
  | 0, pn, _ :: _ => by unfold traverseTree Machine.traverseTree; exact lock_throw
  | fuel + 1, pn, cell :: q => by
    have tail : ∀ c, CellsUpTo B (cell :: q) c → CellsUpTo B q c :=
      fun c h x hx => h x (List.mem_cons_of_mem _ hx)
    have leaf : ∀ pn', Lock C B (CellsUpTo B (cell :: q))
        (M.bind (insertLeaf cfg.counted cell.location) (fun _ => traverseTree cfg.counted km fuel pn' q))
        (M.bind (insertLeaf cfg cell.location) (fun _ => traverseTree cfg km fuel pn' q))
        (M.bind (Machine.insertLeaf A cfg cell.location)
          (fun _ => Machine.traverseTree A cfg km fuel pn' q))
        (fun _ _ => True) := by
      intro pn'
      refine lock_bind (lock_conseq (lock_frame (F := CellsUpTo B q) CellsUpTo.mono
        (lock_insertLeaf (P := fun _ => True) cell.location)) (fun c h => ⟨trivial, tail c h⟩)
        (fun _ _ h => h)) (fun _ => ?_)
      exact lock_conseq (lock_traverse hd km fuel pn' q) (fun _ h => h.2) (fun _ _ h => h)
    unfold traverseTree Machine.traverseTree
    by_cases hdep : cell.depth > cfg.depth
    · have : cell.depth > cfg.counted.depth := hdep
      rw [if_pos hdep, if_pos this, if_pos hdep]
      exact lock_throw
    · have hdep' : ¬ cell.depth > cfg.counted.depth := hdep
      rw [if_neg hdep, if_neg hdep', if_neg hdep]
      cases cell.node.variant with
      | leaf n =>
        dsimp only
        cases hg : km.get? n.key with
        | some loc =>
          dsimp only
          by_cases hl : loc = cell.location
          · rw [if_pos hl, if_pos hl, if_pos hl]
            exact leaf _
          · rw [if_neg hl, if_neg hl, if_neg hl]
            exact lock_conseq (lock_traverse hd km fuel pn q) tail (fun _ _ h => h)
        | none => exact leaf _
      | data d => exact lock_throw
      | branch b =>
        dsimp only
        refine lock_bind (lock_lift (R := fun _ => CellsUpTo B (cell :: q)) (fun _ _ _ h => h))
          (fun msi => ?_)
        refine lock_bind (lock_lift (R := fun _ => CellsUpTo B (cell :: q)) (fun _ _ _ h => h))
          (fun ds => ?_)
        by_cases hs : msi < b.splitIndex ∧ ds.isEmpty = true
        · rw [if_pos hs, if_pos hs, if_pos hs]
          refine lock_add (a := cell.node.references + 1) ?_ ?_
          · intro c h hb
            have := h cell List.mem_cons_self
            exact A.exact (by omega)
          refine lock_bind (lock_conseq (lock_frame (F := CellsUpTo B q) CellsUpTo.mono
            (lock_insert (P := CellsUpTo B (cell :: q)) ?_)) (fun c h => ⟨h, tail c h⟩) (fun _ _ h => h))
            (fun _ => ?_)
          · intro c h
            have := h cell List.mem_cons_self
            simp only
            omega
          · exact lock_conseq (lock_traverse hd km fuel _ q) (fun _ h => h.2) (fun _ _ h => h)
        · rw [if_neg hs, if_neg hs, if_neg hs]
          refine lock_bind (lock_lift (R := fun _ => CellsUpTo B q) (fun _ _ _ h => tail _ h))
            (fun zo => ?_)
          obtain ⟨zs, os⟩ := zo
          have push : ∀ {t : SplitNodeType N} {pn' : List (TreeRef N)} {q' : List (TreeCell N)} {c : Nat},
              SplitUpTo B t c → CellsUpTo B q' c →
              CellsUpTo B (pushSplit pn' q' t).2 c := by
            intro t pn' q' c ht hq
            cases t with
            | ref r => exact hq
            | cell x =>
              intro y hy
              rcases List.mem_cons.1 hy with rfl | hy
              · exact ht
              · exact hq y hy
          have hd' : cell.depth + 1 < 2 ^ 64 := by omega
          refine lock_bind (lock_conseq (lock_frame (F := CellsUpTo B q) CellsUpTo.mono
            (lock_splitNodes (P := fun _ => True) _ hd' _ _)) (fun c h => ⟨trivial, h⟩)
            (fun _ _ h => h)) (fun one => ?_)
          refine lock_bind (lock_conseq (lock_frame (F := CellsUpTo B (pushSplit pn q one).2)
            CellsUpTo.mono (lock_splitNodes (P := fun _ => True) _ hd' _ _))
            (fun c h => ⟨trivial, push h.1 h.2⟩) (fun _ _ h => h)) (fun zero => ?_)
          exact lock_conseq (lock_traverse hd km fuel _ _) (fun c h => push h.1 h.2) (fun _ _ h => h)

theorem lock_generate (hd : cfg.depth + 1 < 2 ^ 64) (r : Arr N) (ks : List (Arr N))
    (km : AMap (Arr N) (Arr N)) :
    Lock C B P (generateTreerefs cfg.counted r ks km) (generateTreerefs cfg r ks km)
      (Machine.generateTreerefs A cfg r ks km) (fun _ _ => True) := by
  unfold generateTreerefs Machine.generateTreerefs
  refine lock_bind lock_dbGet (fun o => ?_)
  cases o with
  | none => exact lock_throw
  | some n =>
    refine lock_conseq (lock_traverse hd km _ _ _) ?_ (fun _ _ h => h)
    rintro c ⟨-, h⟩ x hx
    rw [List.mem_singleton] at hx
    subst hx
    exact (h n rfl).2

theorem lock_insertLeaves (vs : AMap (Arr N) V) : ∀ ks,
    Lock C B (fun _ => True) (insertLeaves cfg.counted vs ks) (insertLeaves cfg vs ks)
      (Machine.insertLeaves A cfg vs ks) (fun _ _ => True)
  | [] => by
    unfold insertLeaves Machine.insertLeaves
    exact lock_pure (fun _ _ => trivial)
  | key :: ks => by
    unfold insertLeaves Machine.insertLeaves
    refine lock_bind (lock_lift (R := fun _ _ => True) (fun _ _ _ h => h)) (fun value => ?_)
    dsimp only
    have hadd : ∀ (o : Option (Node N)) c,
        (∀ n, o = some n → 1 ≤ n.references ∧ n.references ≤ B + 1 * c) → B + c + 1 < 2 ^ 64 →
        Machine.nextRefs A o = .ok (nextRefs o) := by
      intro o c h hb
      cases o with
      | none => rfl
      | some n => have := h n rfl; exact A.exact (by omega)
    have hnext : ∀ (o : Option (Node N)) c, (∀ n, o = some n → 1 ≤ n.references ∧ n.references ≤ B + 1 * c) →
        1 ≤ nextRefs o ∧ nextRefs o ≤ B + 1 * (c + 1) := by
      intro o c h
      cases o with
      | none => simp only [nextRefs]; omega
      | some n => have := h n rfl; simp only [nextRefs]; omega
    refine lock_bind lock_dbGet (fun oldData => ?_)
    refine lock_add (a := nextRefs oldData) (fun c h => hadd _ _ h.2) ?_
    refine lock_bind lock_dbGet (fun oldLeaf => ?_)
    refine lock_add (a := nextRefs oldLeaf) (fun c h => hadd _ _ h.2) ?_
    refine lock_bind (lock_conseq (lock_frame (F := fun c => ∀ n, oldLeaf = some n →
        n.references ≤ B + 1 * c) (fun c c' hc h n hn => by have := h n hn; omega)
      (lock_insert (P := fun c => ∀ n, oldData = some n → 1 ≤ n.references ∧ n.references ≤ B + 1 * c) ?_))
      ?_ (fun _ _ h => h)) (fun _ => ?_)
    · exact fun c h => hnext _ _ h
    · exact fun c h => ⟨h.1.2, fun n hn => (h.2 n hn).2⟩
    · refine lock_bind (lock_insert ?_) (fun _ => ?_)
      · rintro c ⟨-, h⟩
        cases oldLeaf with
        | none => simp only [nextRefs]; omega
        | some n => have := h n rfl; simp only [nextRefs]; omega
      · exact lock_bind (lock_insertLeaves vs ks) (fun _ => lock_pure (fun _ _ => trivial))

end
end MerkleBit
