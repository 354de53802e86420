import Verif.Proof.Counters
import Verif.Props.Structure
import Verif.Props.Lineage
import Verif.Props.Cost
/-!
# C56: counters stay small

The counters of the code are 64-bit numbers, those of the model natural numbers.  These theorems bound the
counters of the model, so that the two agree as long as fewer than `2 ^ 64` writes are asked for and fewer
than `2 ^ 64` pairs are inserted on the way to a root.
-/

namespace MerkleBit
variable {N : Nat} {σ V : Type} {cfg : Config N σ V} {C : DbContract cfg.db}

theorem Spent.refs {b : Nat} {s : σ} (h : Spent cfg C b s) : RefsBelow C b s := by
  induction h with
  | start h1 h2 =>
    intro x n hx
    rw [h1, h2] at hx
    rcases hx with hx | hx <;> cases hx
  | @insert b s s' prev keys values res _ hrun ih =>
    have := refs_insert C ih prev keys values
    rw [hrun] at this
    exact this
  | @remove b s s' r res _ hrun ih =>
    have := refs_remove C ih r
    rw [hrun] at this
    exact this
  | @crashInsert b s s' n n' prev keys values e _ hrun ih =>
    have := refs_insert (cfg := cfg.crash) C.crash (s := (s, n)) (B := b) ih prev keys values
    rw [hrun] at this
    exact this
  | @crashRemove b s s' n n' r e _ hrun ih =>
    have := refs_remove (cfg := cfg.crash) C.crash (s := (s, n)) (B := b) ih r
    rw [hrun] at this
    exact this
  | reopen _ h1 h2 ih =>
    intro x n hx
    rw [h1, h2] at hx
    rcases hx with hx | hx
    · exact ih x n (.inl hx)
    · cases hx

/-- C56, reference counts: after any calls, with any arguments and outcomes and with crashes, every stored
node has at least one reference and no more than writes were asked for. -/
theorem C56_references {b : Nat} {s : σ} (h : Spent cfg C b s) {x : Arr N} {n : Node N}
    (hn : C.view s x = some n) : 1 ≤ n.references ∧ n.references ≤ b :=
  h.refs x n (.inl hn)

/-- C56, one call: an insert of `m` pairs raises no count by more than `m (2 depth + 5) + 1`, a removal
raises none, from any state whatsoever. -/
theorem C56_references_step (C : DbContract cfg.db) {B : Nat} {s : σ}
    (h : ∀ x n, C.view s x = some n ∨ C.pending s x = some n → 1 ≤ n.references ∧ n.references ≤ B)
    (x : Arr N) (n : Node N) :
    (∀ prev keys values, C.view (insert cfg prev keys values s).2 x = some n →
      1 ≤ n.references ∧ n.references ≤ B + (keys.length * (2 * cfg.depth + 5) + 1)) ∧
    (∀ r, C.view (remove cfg r s).2 x = some n → 1 ≤ n.references ∧ n.references ≤ B) :=
  ⟨fun prev keys values hx => refs_insert C h prev keys values x n (.inl hx),
    fun r hx => refs_remove C h r x n (.inl hx)⟩

/-- The concrete history: a node of the third state. -/
example : Spent Toy.cfg Toy.C (0 + Toy.cfg.writes 3 + Toy.cfg.writes 2) Toy.s2 ∧
    ∃ n, Toy.C.view Toy.s2 (Toy.key 0x7D01) = some n ∧ n.references = 2 := by
  refine ⟨.insert (.insert (.start (s := Toy.db0) rfl rfl) Toy.run1) Toy.run2, ?_⟩
  have h : ((Toy.C.view Toy.s2 (Toy.key 0x7D01)).map (·.references)) = some 2 := by decide +kernel
  cases hx : Toy.C.view Toy.s2 (Toy.key 0x7D01) with
  | none => rw [hx] at h; cases h
  | some n => rw [hx] at h; exact ⟨n, rfl, by simpa using h⟩

/-- C56, branch counts: under every root ever returned, no branch counts more leaves than pairs were inserted
on the way to the root. -/
theorem C56_counts (hc : Sane cfg) {H : List (HIn N)} {L : Lineages N V} {s : σ} (h : Roots cfg C H L s)
    (hcf : CollisionFree cfg.hasher (Among H)) {r x : Arr N} {ℓ : Lineage N V} (hr : (r, ℓ) ∈ L)
    (hx : Reaches (C.view s) r x) {n : Node N} {b : Branch N} (hn : C.view s x = some n)
    (hb : n.variant = .branch b) : b.count ≤ ℓ.length := by
  obtain ⟨T, rfl, -, hst, -, -, hsz⟩ := h.holds hc hcf hr
  obtain ⟨l, r, hsub, rfl, hv⟩ := hst.reaches hx rfl (b := b) ⟨n.references, by rw [hn, ← hb]⟩
  simp only [Trie.variant, Variant.branch.injEq] at hv
  subst hv
  refine Nat.le_trans ?_ hsz
  have := hsub.entries.length_le
  simpa [Trie.size, Trie.entries] using this

/-- A root built by a straddling batch: its branch counts more leaves than there are keys, and no more than
pairs were inserted. -/
example : ∃ n b, Toy.C.view (Toy.c2s 2) (Toy.key 15028) = some n ∧ n.variant = .branch b ∧
    b.count = 8 ∧ b.count ≤ (Toy.cℓ 2).length := by
  have h : ((Toy.C.view (Toy.c2s 2) (Toy.key 15028)).bind (fun n => match n.variant with
      | .branch b => some b.count
      | _ => none)) = some 8 := by decide +kernel
  cases hn : Toy.C.view (Toy.c2s 2) (Toy.key 15028) with
  | none => rw [hn] at h; cases h
  | some n =>
    rw [hn] at h
    cases hb : n.variant with
    | branch b =>
      simp only [Option.bind_some, hb, Option.some.injEq] at h
      exact ⟨n, b, rfl, hb, h, C56_counts Toy.sane (Toy.cHist 2 (Toy.key 15028) (by decide +kernel))
        (collisionFree_of_check (by decide +kernel)) List.mem_cons_self (.refl _) hn hb⟩
    | leaf l => simp [hb] at h
    | data d => simp [hb] at h

end MerkleBit
