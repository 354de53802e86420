import Verif.Spec.AllOrNothing
import Verif.Proof.Touched
/-!
# Reads do not look at reference counts, and what a removal does first
-/

namespace MerkleBit
variable {N : Nat} {σ V : Type} {cfg : Config N σ V} {C : DbContract cfg.db} {s s' : σ}

/-- The same nodes up to reference counts. -/
def SameNodes (v v' : View N) : Prop := ∀ x, (v' x).map Node.variant = (v x).map Node.variant

theorem SameNodes.refl (v : View N) : SameNodes v v := fun _ => rfl

theorem SameNodes.none {v v' : View N} (h : SameNodes v v') {x : Arr N} (hx : v x = none) : v' x = none := by
  have := h x
  rw [hx] at this
  simpa using this

theorem SameNodes.some {v v' : View N} (h : SameNodes v v') {x : Arr N} {n : Node N} (hx : v x = some n) :
    ∃ n', v' x = some n' ∧ n'.variant = n.variant := by
  have := h x
  rw [hx] at this
  simpa using this

theorem getOneLoop_counts (hs : C.alive s) (hs' : C.alive s') (h : SameNodes (C.view s) (C.view s')) (key : Arr N) :
    ∀ fuel nodes found depth, getOneLoop cfg s' key fuel nodes found depth = getOneLoop cfg s key fuel nodes found depth := by
  intro fuel
  induction fuel with
  | zero => intro nodes found depth; cases nodes <;> simp [getOneLoop]
  | succ fuel ih =>
    intro nodes found depth
    cases nodes with
    | nil => simp [getOneLoop]
    | cons x nodes =>
      cases hx : C.view s x with
      | none => simp only [getOneLoop, alive_get hs, alive_get hs', hx, h.none hx, ih]
      | some n =>
        obtain ⟨n', hn', hv⟩ := h.some hx
        simp only [getOneLoop, alive_get hs, alive_get hs', hx, hn', hv, ih]

theorem proofLoop_counts (hs : C.alive s) (hs' : C.alive s') (h : SameNodes (C.view s) (C.view s')) (key : Arr N) :
    ∀ fuel nodes proof found depth,
      proofLoop cfg s' key fuel nodes proof found depth = proofLoop cfg s key fuel nodes proof found depth := by
  intro fuel
  induction fuel with
  | zero => intro nodes proof found depth; cases nodes <;> simp [proofLoop]
  | succ fuel ih =>
    intro nodes proof found depth
    cases nodes with
    | nil => simp [proofLoop]
    | cons x nodes =>
      cases hx : C.view s x with
      | none => simp only [proofLoop, alive_get hs, alive_get hs', hx, h.none hx]
      | some n =>
        obtain ⟨n', hn', hv⟩ := h.some hx
        simp only [proofLoop, alive_get hs, alive_get hs', hx, hn', hv, ih]

/-- Cells that differ at most in the counts of their nodes. -/
def CellSim (c c' : TreeCell N) : Prop :=
  c'.keys = c.keys ∧ c'.depth = c.depth ∧ c'.node.variant = c.node.variant

theorem pushCell_counts (hs : C.alive s) (hs' : C.alive s') (h : SameNodes (C.view s) (C.view s'))
    {q q' : List (TreeCell N)} (hq : List.Forall₂ CellSim q q') (d : Nat) (x : Arr N) (ks : List (Arr N)) :
    ∃ p p', pushCellIfNode cfg s q d x ks = .ok p ∧ pushCellIfNode cfg s' q' d x ks = .ok p' ∧
      List.Forall₂ CellSim p p' := by
  unfold pushCellIfNode
  rw [alive_get hs, alive_get hs']
  cases hx : C.view s x with
  | none => rw [h.none hx]; exact ⟨_, _, rfl, rfl, hq⟩
  | some n =>
    obtain ⟨n', hn', hv⟩ := h.some hx
    rw [hn']
    dsimp only
    split
    · exact ⟨_, _, rfl, rfl, .cons ⟨rfl, rfl, hv⟩ hq⟩
    · exact ⟨_, _, rfl, rfl, hq⟩

theorem getLoop_counts (hs : C.alive s) (hs' : C.alive s') (h : SameNodes (C.view s) (C.view s')) (keys : List (Arr N)) :
    ∀ fuel q q' m, List.Forall₂ CellSim q q' → getLoop cfg s' keys fuel q' m = getLoop cfg s keys fuel q m := by
  intro fuel
  induction fuel with
  | zero => intro q q' m hq; cases hq <;> simp [getLoop]
  | succ fuel ih =>
    intro q q' m hq
    cases hq with
    | nil => simp [getLoop]
    | @cons c c' q q' hc hq =>
      obtain ⟨h1, h2, h3⟩ := hc
      by_cases hd : c.depth > cfg.depth
      · simp [getLoop, h2, hd]
      cases hv : c.node.variant with
      | data d => simp [getLoop, h2, hd, h3, hv]
      | leaf n =>
        cases hx : C.view s n.data with
        | none => simp [getLoop, h2, hd, h3, hv, alive_get hs, alive_get hs', hx, h.none hx]
        | some d =>
          obtain ⟨d', hd', hvd⟩ := h.some hx
          simp only [getLoop, h2, if_neg hd, h3, hv, alive_get hs, alive_get hs', hx, hd', hvd, ih q q' _ hq]
      | branch b =>
        simp only [getLoop, h1, h2, if_neg hd, h3, hv]
        cases calcMinSplitIndex c.keys b.key with
        | error e => rfl
        | ok msi =>
          dsimp only
          cases checkDescendants c.keys b.splitIndex b.key msi with
          | error e => rfl
          | ok ds =>
            dsimp only
            split
            · exact ih q q' m hq
            · cases splitPairs cfg.pp ds b.splitIndex with
              | error e => rfl
              | ok zo =>
                dsimp only
                obtain ⟨p, p', e1, e2, hp⟩ := pushCell_counts (cfg := cfg) hs hs' h hq c.depth b.one zo.2
                obtain ⟨o, o', e3, e4, ho⟩ := pushCell_counts (cfg := cfg) hs hs' h hp c.depth b.zero zo.1
                rw [e1, e2]
                dsimp only
                rw [e3, e4]
                exact ih o o' m ho

/-- Reads do not look at reference counts, whatever is stored. -/
theorem readsSame_of_sameNodes (hs : C.alive s) (hs' : C.alive s') (h : SameNodes (C.view s) (C.view s')) (x : Arr N) :
    ReadsSame cfg s s' x where
  one k := getOneLoop_counts hs hs' h k _ _ _ _
  many keys := by
    unfold get
    by_cases hk : keys.isEmpty
    · rw [if_pos hk, if_pos hk]
    rw [if_neg hk, if_neg hk, alive_get hs, alive_get hs']
    dsimp only
    cases hx : C.view s x with
    | none => rw [h.none hx]
    | some n =>
      obtain ⟨n', hn', hv⟩ := h.some hx
      rw [hn']
      exact getLoop_counts hs hs' h _ _ _ _ _ (.cons ⟨rfl, rfl, hv⟩ .nil)
  proofs k := generateInclusionProof_congr rfl (by
    unfold inclusionProof
    rw [proofLoop_counts hs hs' h])

theorem flush_same {v : View N} (h : SameNodes v (C.view s)) (h' : SameNodes v (C.settled s)) :
    SameNodes v (C.view (cfg.db.batchWrite s).2) := by
  rcases hi : cfg.db.batchWrite s with ⟨r, s'⟩
  cases r with
  | error e => obtain ⟨-, -, h1, -⟩ := C.batchWrite_err hi; rw [h1]; exact h
  | ok u => obtain ⟨-, h1, -⟩ := C.batchWrite_ok hi; rw [h1]; exact h'

/-- The first turn of a removal's loop. -/
theorem removeLoop_first {r : Arr N} {n : Node N} (hg : cfg.db.getNode s r = .ok (some n)) (fuel : Nat) :
    (n.references - 1 = 0 ∧ removeLoop cfg (fuel + 1) [r] s =
        M.bind (cfg.db.remove r) (fun _ => removeLoop cfg fuel n.variant.children) s) ∨
      (n.references - 1 ≠ 0 ∧ removeLoop cfg (fuel + 1) [r] s =
        M.bind (cfg.db.insert r ⟨n.references - 1, n.variant⟩) (fun _ => removeLoop cfg fuel []) s) := by
  rw [removeLoop]
  change (_ ∧ M.bind (dbGet cfg r) _ s = _) ∨ (_ ∧ M.bind (dbGet cfg r) _ s = _)
  have hb : ∀ K : Option (Node N) → M σ Unit, M.bind (dbGet cfg r) K s = K (some n) s := by
    intro K
    unfold M.bind dbGet M.read
    dsimp only
    rw [hg]
  rw [hb]
  dsimp only
  by_cases hz : n.references - 1 = 0
  · left
    refine ⟨hz, ?_⟩
    rw [if_pos hz]
    cases hvar : n.variant <;> rfl
  · right
    refine ⟨hz, ?_⟩
    rw [if_neg hz, show removeLoop cfg fuel [] = pure () by unfold removeLoop; rfl]
    rfl

/-- The first thing a removal does decides: it deletes its root, or nothing but counts changes. -/
theorem remove_first (hp : C.pending s = View.empty N) (r : Arr N) :
    C.view (remove cfg r s).2 r = none ∨ SameNodes (C.view s) (C.view (remove cfg r s).2) := by
  have hset : C.settled s = C.view s := by
    funext y; simp [DbContract.settled, View.overlay, hp, View.empty]
  have hnil : ∀ t, removeLoop cfg (2 * 256 ^ N) [] t = (.ok (), t) := by
    intro t; unfold removeLoop; rfl
  change C.view (M.bind (removeLoop cfg (2 * 256 ^ N + 1) [r]) (fun _ => cfg.db.batchWrite) s).2 r = none ∨
    SameNodes (C.view s) (C.view (M.bind (removeLoop cfg (2 * 256 ^ N + 1) [r]) (fun _ => cfg.db.batchWrite) s).2)
  unfold M.bind
  cases hg : cfg.db.getNode s r with
  | error e =>
    have hl : removeLoop cfg (2 * 256 ^ N + 1) [r] s = (.error e, s) := by
      rw [removeLoop]
      change M.bind (dbGet cfg r) _ s = _
      unfold M.bind dbGet M.read
      dsimp only
      rw [hg]
    rw [hl]
    exact .inr (.refl _)
  | ok o =>
    have hv := C.getNode_ok hg
    cases o with
    | none =>
      right
      have hl : removeLoop cfg (2 * 256 ^ N + 1) [r] s = (.ok (), s) := by
        rw [removeLoop]
        change M.bind (dbGet cfg r) _ s = _
        unfold M.bind dbGet M.read
        dsimp only
        rw [hg]
        exact hnil s
      rw [hl]
      exact flush_same (.refl _) (by rw [hset]; exact .refl _)
    | some n =>
      rcases removeLoop_first (cfg := cfg) hg (2 * 256 ^ N) with ⟨-, e⟩ | ⟨-, e⟩
      · rw [e]
        unfold M.bind
        rcases hr : cfg.db.remove r s with ⟨res, s1⟩
        cases res with
        | error e =>
          right
          obtain ⟨-, -, h1, -⟩ := C.remove_err hr
          dsimp only
          rw [h1]
          exact .refl _
        | ok u =>
          left
          obtain ⟨-, h1, h2⟩ := C.remove_ok hr
          have h0 : Within C (C.view s1) (fun _ => True) s1 := by
            refine ⟨fun y hy => absurd trivial hy, fun y m hm => ?_⟩
            rcases hm with hm | hm
            · exact ⟨m, hm, rfl, Nat.le_refl _⟩
            · rw [h2, hp] at hm; cases hm
          have hw := removeLoop_within (fun _ _ _ _ _ _ => trivial) (2 * 256 ^ N) n.variant.children s1
            (fun _ _ => trivial) h0
          have hfin : ∀ t, Within C (C.view s1) (fun _ => True) t → C.view t r = none := by
            intro t ht
            by_contra hne
            obtain ⟨m, hm⟩ := Option.ne_none_iff_exists'.1 hne
            obtain ⟨m0, hm0, -⟩ := ht.sub r m (.inl hm)
            rw [h1] at hm0
            simp [View.del] at hm0
          dsimp only
          rcases hl : removeLoop cfg (2 * 256 ^ N) n.variant.children s1 with ⟨res, t⟩
          rw [hl] at hw
          cases res with
          | error e => exact hfin t hw
          | ok u => exact hfin _ hw.flush
      · right
        rw [e]
        have hput : SameNodes (C.view s) ((C.view s).put r ⟨n.references - 1, n.variant⟩) := by
          intro y
          unfold View.put
          split
          · next hy => subst hy; rw [← hv]; rfl
          · rfl
        unfold M.bind
        rcases hi : cfg.db.insert r ⟨n.references - 1, n.variant⟩ s with ⟨res, s1⟩
        cases res with
        | error e =>
          obtain ⟨-, -, h1, -⟩ := C.insert_err hi
          dsimp only
          rw [h1]
          exact .refl _
        | ok u =>
          dsimp only
          rw [hnil]
          obtain ⟨-, ⟨-, h1, h2⟩ | ⟨h1, h2⟩⟩ := C.insert_ok hi
          · refine flush_same (by rw [h1]; exact hput) ?_
            have : C.settled s1 = C.view s1 := by
              funext y; simp [DbContract.settled, View.overlay, h2, View.empty]
            rw [this, h1]
            exact hput
          · refine flush_same (by rw [h1]; exact .refl _) ?_
            have : C.settled s1 = (C.view s).put r ⟨n.references - 1, n.variant⟩ := by
              funext y
              simp only [DbContract.settled, View.overlay, h1, h2, hp, View.put, View.empty]
              split <;> simp
            rw [this]
            exact hput

/-- The same however the removal ends. -/
theorem ends_first (hp : C.pending s = View.empty N) {r : Arr N} (hrun : RemoveEnds cfg r s s') :
    C.view s' r = none ∨ SameNodes (C.view s) (C.view s') := by
  rcases hrun with hrun | ⟨e, hrun⟩ | ⟨e, n, n', hrun⟩
  · have := remove_first (C := C) (cfg := cfg) hp r
    rwa [hrun] at this
  · have := remove_first (C := C) (cfg := cfg) hp r
    rwa [hrun] at this
  · have := remove_first (C := C.crash) (cfg := cfg.crash) (s := (s, n)) hp r
    rw [hrun] at this
    exact this

end MerkleBit
