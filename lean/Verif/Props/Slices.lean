import Verif.Model.Slices
import Verif.Props.Calls
/-!
# C46: repeating a call with the same buffers

`getInPlace` and `insertInPlace` are `get` and `insert` together with what they leave in the caller's
slice of keys (`Model/Slices.lean`).
-/

namespace MerkleBit
variable {N : Nat} {σ V : Type} {cfg : Config N σ V}

/-- C46: whatever happens, the slice left behind by `get` or `insert` holds the same keys. -/
theorem C46_slice_permuted (s : σ) (r : Arr N) (prev : Option (Arr N)) (keys : List (Arr N))
    (values : List V) :
    (getInPlace cfg s r keys).2.Perm keys ∧ (insertInPlace cfg prev keys values s).2.Perm keys := by
  have h : (sortKeys keys).Perm keys := List.perm_insertionSort _ _
  constructor
  · simp only [getInPlace, getKeysAfter]
    split
    · exact .refl _
    · exact h
  · simp only [insertInPlace, insertKeysAfter]
    repeat' split
    all_goals first | exact .refl _ | exact h

/-- C46 for `get`: repeating the call with the slice left behind gives the same answers (or the same
error). -/
theorem C46_repeated_get (s : σ) (r : Arr N) (keys : List (Arr N)) :
    (∃ m m', (getInPlace cfg s r keys).1 = .ok m ∧
      (getInPlace cfg s r (getInPlace cfg s r keys).2).1 = .ok m' ∧ ∀ k, m.get? k = m'.get? k) ∨
    (∃ e, (getInPlace cfg s r keys).1 = .error e ∧
      (getInPlace cfg s r (getInPlace cfg s r keys).2).1 = .error e) :=
  C34_get_order_irrelevant cfg s r ((C46_slice_permuted s r none keys ([] : List V)).1.symm)

/-- C46 for `insert`, for keys in ascending order: the slice left behind is the slice passed in, so that
the call can be repeated.  Missing for the full C46: unsorted keys, for which it is false
(`C46_false`). -/
theorem C46_repeated_insert_partial (s : σ) (prev : Option (Arr N)) {keys : List (Arr N)}
    (values : List V) (hsorted : keys.Pairwise (fun a b => ¬ Arr.lt b a)) :
    (insertInPlace cfg prev keys values s).2 = keys := by
  have h : sortKeys keys = keys := List.Pairwise.insertionSort_eq hsorted
  simp only [insertInPlace, insertKeysAfter, h, ite_self]

/-- The provision is met by the keys of the first version of `Toy`. -/
example : Toy.ks1.Pairwise (fun a b => ¬ Arr.lt b a) := by decide

/-- C46 is false: an accepted `insert`, repeated with the same two buffers, is accepted again, and
what was stored at a key is replaced by the value of another key. -/
theorem C46_false : ∃ (keys keys' : List (Arr 2)) (values : List (List UInt8)) (r r' : Arr 2)
    (s s' : HashDB 2) (k : Arr 2),
    insertInPlace Toy.cfg none keys values Toy.db0 = ((.ok r, s), keys') ∧
    insert Toy.cfg (some r) keys' values s = (.ok r', s') ∧
    getOne Toy.cfg s r k = .ok (some [10]) ∧ (k, [10]) ∈ keys.zip values ∧
    getOne Toy.cfg s' r' k = .ok (some [20]) ∧ Sane Toy.cfg ∧
    CollisionFree Toy.cfg.hasher (Among (hashedBy Toy.cfg (some r) keys' values s ++
      hashedBy Toy.cfg none keys values Toy.db0)) :=
  ⟨[Toy.key 2, Toy.key 1], [Toy.key 1, Toy.key 2], [[20], [10]], Toy.key 59708, Toy.key 64978,
    (insert Toy.cfg none [Toy.key 2, Toy.key 1] [[20], [10]] Toy.db0).2,
    (insert Toy.cfg (some (Toy.key 59708)) [Toy.key 1, Toy.key 2] [[20], [10]]
      (insert Toy.cfg none [Toy.key 2, Toy.key 1] [[20], [10]] Toy.db0).2).2,
    Toy.key 1, Prod.ext (Prod.ext (by decide +kernel) rfl) (by decide +kernel),
    Prod.ext (by decide +kernel) rfl, by decide +kernel, by decide, by decide +kernel,
    Toy.sane, collisionFree_of_check (by decide +kernel)⟩

end MerkleBit
