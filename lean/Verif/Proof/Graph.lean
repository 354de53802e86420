import Mathlib.Data.Fintype.BigOperators
import Mathlib.Algebra.Order.BigOperators.Group.Finset
import Mathlib.Data.List.Count
/-!
# Counting references in a finite graph

`ch x` are the places node `x` points at, `R` is a list of roots.  `load R x` is the number of
pointers at `x` that come from nodes reachable from the roots, plus the number of times `x` is a root.
-/

namespace MerkleBit

/-- Reachable from the roots `R`. -/
inductive Reach {α : Type} (ch : α → List α) (R : List α) : α → Prop
  | root {x : α} : x ∈ R → Reach ch R x
  | child {x y : α} : Reach ch R y → x ∈ ch y → Reach ch R x

namespace Reach
variable {α : Type} {ch : α → List α} {R R' : List α} {x y : α}

theorem mono (h : ∀ z ∈ R, Reach ch R' z) (hx : Reach ch R x) : Reach ch R' x := by
  induction hx with
  | root hx => exact h _ hx
  | child _ hxy ih => exact .child ih hxy

theorem subset (h : R ⊆ R') (hx : Reach ch R x) : Reach ch R' x :=
  hx.mono (fun _ hz => .root (h hz))

theorem append : Reach ch (R ++ R') x ↔ Reach ch R x ∨ Reach ch R' x := by
  constructor
  · intro h
    induction h with
    | root hx => exact (List.mem_append.1 hx).imp .root .root
    | child _ hxy ih => exact ih.imp (.child · hxy) (.child · hxy)
  · rintro (h | h)
    · exact h.subset (List.subset_append_left _ _)
    · exact h.subset (List.subset_append_right _ _)

theorem cons : Reach ch (x :: R) y ↔ Reach ch [x] y ∨ Reach ch R y := by
  rw [show x :: R = [x] ++ R from rfl, append]

theorem nil : ¬ Reach ch [] x := by
  intro h
  induction h with
  | root hx => simp at hx
  | child _ _ ih => exact ih

theorem single : Reach ch [x] y ↔ y = x ∨ Reach ch (ch x) y := by
  constructor
  · intro h
    induction h with
    | root hx => exact .inl (by simpa using hx)
    | child _ hxy ih =>
      rcases ih with rfl | ih
      · exact .inr (.root hxy)
      · exact .inr (.child ih hxy)
  · rintro (rfl | h)
    · exact .root (by simp)
    · exact h.mono (fun z hz => .child (.root (by simp)) hz)

/-- Replacing a reachable root by nothing. -/
theorem cons_of (h : Reach ch R x) : Reach ch (x :: R) y ↔ Reach ch R y := by
  constructor
  · intro hy
    refine hy.mono (fun z hz => ?_)
    rcases List.mem_cons.1 hz with rfl | hz
    · exact h
    · exact .root hz
  · exact fun hy => hy.subset (List.subset_cons_self _ _)

end Reach

section
variable {α : Type} [Fintype α] [DecidableEq α] (ch : α → List α)

open Classical in
/-- Pointers at `x` from nodes reachable from `R`. -/
noncomputable def inR (R : List α) (x : α) : Nat :=
  ∑ y : α, if Reach ch R y then (ch y).count x else 0

/-- Pointers at `x` from reachable nodes, plus occurrences of `x` as a root. -/
noncomputable def load (R : List α) (x : α) : Nat := inR ch R x + R.count x

variable {ch} {R R' Q : List α} {x y : α}

theorem inR_congr (h : ∀ z, Reach ch R z ↔ Reach ch R' z) : inR ch R = inR ch R' := by
  have : Reach ch R = Reach ch R' := funext (fun z => propext (h z))
  funext x
  unfold inR
  rw [this]

theorem inR_mono (h : ∀ z, Reach ch R z → Reach ch R' z) : inR ch R x ≤ inR ch R' x := by
  unfold inR
  apply Finset.sum_le_sum
  intro z _
  by_cases hz : Reach ch R z
  · simp [hz, h z hz]
  · simp [hz]

theorem inR_pos (hy : Reach ch R y) (hx : x ∈ ch y) : 0 < inR ch R x := by
  classical
  unfold inR
  refine Finset.sum_pos' (fun _ _ => Nat.zero_le _) ⟨y, Finset.mem_univ _, ?_⟩
  simp [hy, List.count_pos_iff, hx]

theorem inR_exists (h : inR ch R x ≠ 0) : ∃ y, Reach ch R y ∧ x ∈ ch y := by
  classical
  unfold inR at h
  obtain ⟨y, -, hy⟩ := Finset.exists_ne_zero_of_sum_ne_zero h
  by_cases hr : Reach ch R y
  · rw [if_pos hr] at hy
    exact ⟨y, hr, List.count_pos_iff.1 (Nat.pos_of_ne_zero hy)⟩
  · simp [hr] at hy

/-- Nodes with a load are the reachable ones. -/
theorem load_pos : 0 < load ch R x ↔ Reach ch R x := by
  constructor
  · intro h
    unfold load at h
    by_cases hc : x ∈ R
    · exact .root hc
    · rw [List.count_eq_zero.2 hc] at h
      obtain ⟨y, h1, h2⟩ := inR_exists (ch := ch) (R := R) (x := x) (by omega)
      exact .child h1 h2
  · intro h
    unfold load
    cases h with
    | root hx => have := List.count_pos_iff.2 hx; omega
    | child hy hx => have := inR_pos hy hx; omega

theorem load_zero (h : ¬ Reach ch R x) : load ch R x = 0 := by
  have := mt load_pos.1 h
  omega

theorem load_perm (h : R.Perm R') : load ch R = load ch R' := by
  have hr : ∀ z, Reach ch R z ↔ Reach ch R' z :=
    fun z => ⟨fun hz => hz.subset h.subset, fun hz => hz.subset h.symm.subset⟩
  funext x
  unfold load
  rw [inR_congr hr, h.count_eq]

/-- One root less. -/
theorem load_tail : load ch Q y + (if y = x then 1 else 0) ≤ load ch (x :: Q) y := by
  unfold load
  have h1 : inR ch Q y ≤ inR ch (x :: Q) y :=
    inR_mono (fun z hz => hz.subset (List.subset_cons_self _ _))
  rw [List.count_cons]
  by_cases hy : y = x
  · subst hy; simp; omega
  · have : ¬ x = y := fun h => hy h.symm
    simp [hy, this]; omega

theorem load_append_le : load ch Q y ≤ load ch (R ++ Q) y := by
  induction R with
  | nil => exact Nat.le_refl _
  | cons a R ih =>
    have := load_tail (ch := ch) (Q := R ++ Q) (x := a) (y := y)
    rw [List.cons_append]
    omega

/-- A reachable node becomes a root once more. -/
theorem load_again (h : Reach ch R x) :
    load ch (x :: R) y = load ch R y + (if y = x then 1 else 0) := by
  unfold load
  rw [inR_congr (R := x :: R) (R' := R) (fun z => Reach.cons_of h), List.count_cons]
  by_cases hy : y = x
  · subst hy; simp; omega
  · have : ¬ x = y := fun h => hy h.symm
    simp [hy, this]

variable (hr : ∃ rank : α → Nat, ∀ x, ∀ y ∈ ch x, rank y < rank x)
include hr

omit [Fintype α] [DecidableEq α] in
theorem not_reach_self : ¬ Reach ch (ch x) x := by
  obtain ⟨rank, hr⟩ := hr
  have key : ∀ z, Reach ch (ch x) z → rank z < rank x := by
    intro z hz
    induction hz with
    | root h => exact hr _ _ h
    | child _ h ih => have := hr _ _ h; omega
  exact fun h => Nat.lt_irrefl _ (key x h)

omit [Fintype α] [DecidableEq α] in
theorem reach_open (h : ¬ Reach ch Q x) :
    Reach ch (ch x ++ Q) y ↔ Reach ch (x :: Q) y ∧ y ≠ x := by
  rw [Reach.append, Reach.cons, Reach.single]
  constructor
  · rintro (hy | hy)
    · exact ⟨.inl (.inr hy), by rintro rfl; exact not_reach_self hr hy⟩
    · exact ⟨.inr hy, by rintro rfl; exact h hy⟩
  · rintro ⟨(rfl | hy) | hy, hne⟩
    · exact absurd rfl hne
    · exact .inl hy
    · exact .inr hy

/-- A root that is reachable in no other way may be replaced by its children. -/
theorem load_open (h : ¬ Reach ch Q x) :
    load ch (ch x ++ Q) y = if y = x then 0 else load ch (x :: Q) y := by
  classical
  by_cases hy : y = x
  · subst hy
    rw [if_pos rfl]
    exact load_zero (fun hh => ((reach_open hr h).1 hh).2 rfl)
  · rw [if_neg hy]
    unfold load
    rw [List.count_append, List.count_cons]
    have h1 : ¬ x = y := fun h => hy h.symm
    have h2 : inR ch (x :: Q) y = inR ch (ch x ++ Q) y + (ch x).count y := by
      unfold inR
      rw [← Finset.add_sum_erase _ _ (Finset.mem_univ x),
        ← Finset.add_sum_erase (a := x) (s := Finset.univ)
          (f := fun z => if Reach ch (ch x ++ Q) z then (ch z).count y else 0) (Finset.mem_univ x)]
      have e1 : Reach ch (x :: Q) x := .root (by simp)
      have e2 : ¬ Reach ch (ch x ++ Q) x := fun hh => ((reach_open hr h).1 hh).2 rfl
      rw [if_pos e1, if_neg e2]
      have e3 : ∀ z ∈ Finset.univ.erase x, (if Reach ch (x :: Q) z then (ch z).count y else 0) =
          (if Reach ch (ch x ++ Q) z then (ch z).count y else 0) := by
        intro z hz
        have := Finset.ne_of_mem_erase hz
        simp only [reach_open hr h (y := z), this, ne_eq, not_false_eq_true, and_true]
      rw [Finset.sum_congr rfl e3]
      omega
    have h3 : (x == y) = false := by simpa using h1
    simp only [h3]
    simp
    omega

theorem load_new (h : ¬ Reach ch Q x) : load ch (x :: Q) x = 1 := by
  unfold load
  have h1 : inR ch (x :: Q) x = 0 := by
    by_contra hne
    obtain ⟨y, hy, hx⟩ := inR_exists hne
    rw [Reach.cons, Reach.single] at hy
    rcases hy with (rfl | hy) | hy
    · exact not_reach_self hr (.root hx)
    · exact not_reach_self hr (.child hy hx)
    · exact h (.child hy hx)
  have h2 : x ∉ Q := fun hq => h (.root hq)
  rw [h1, List.count_cons_self, List.count_eq_zero.2 h2]

/-- A node that points nowhere becomes a root (once more). -/
theorem load_sink (h : ch x = []) :
    load ch (x :: R) y = load ch R y + (if y = x then 1 else 0) := by
  by_cases hx : Reach ch R x
  · exact load_again hx
  · have h1 := load_open hr hx (y := y)
    rw [h, List.nil_append] at h1
    by_cases hy : y = x
    · subst hy
      rw [load_new hr hx, load_zero hx]; simp
    · simp only [hy, if_false] at h1 ⊢
      omega

end
end MerkleBit
