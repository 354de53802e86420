import Verif.Model.Prelude
import Mathlib.Data.List.Basic
/-! # Laws of the `HashMap` model -/

namespace MerkleBit.AMap
variable {κ ν : Type} [DecidableEq κ]

@[simp] theorem get?_empty (k : κ) : (AMap.empty : AMap κ ν).get? k = none := rfl

theorem find?_filter_ne {l : List (κ × ν)} {k x : κ} (h : x ≠ k) :
    (l.filter (fun e => ¬ e.1 = k)).find? (fun e => e.1 = x) = l.find? (fun e => e.1 = x) := by
  induction l with
  | nil => rfl
  | cons e l ih =>
    by_cases hk : e.1 = k
    · have : ¬ k = x := fun h' => h h'.symm
      rw [List.filter_cons_of_neg (by simp [hk]), ih, List.find?_cons_of_neg (by simp [hk, this])]
    · rw [List.filter_cons_of_pos (by simp [hk])]
      by_cases hx : e.1 = x
      · rw [List.find?_cons_of_pos (by simp [hx]), List.find?_cons_of_pos (by simp [hx])]
      · rw [List.find?_cons_of_neg (by simp [hx]), List.find?_cons_of_neg (by simp [hx]), ih]

theorem get?_erase (m : AMap κ ν) (k x : κ) :
    (m.erase k).get? x = if x = k then none else m.get? x := by
  unfold get? erase
  split
  · subst x
    simp
  · rw [find?_filter_ne ‹_›]

theorem get?_insert (m : AMap κ ν) (k x : κ) (v : ν) :
    (m.insert k v).get? x = if x = k then some v else m.get? x := by
  unfold get? insert
  split
  · subst x; simp
  · have : ¬ k = x := fun h => ‹¬ x = k› h.symm
    simp only
    rw [List.find?_cons_of_neg (by simp [this])]
    have := get?_erase m k x
    unfold get? at this
    rw [this, if_neg ‹_›]

end MerkleBit.AMap
