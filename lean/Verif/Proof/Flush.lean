import Verif.Model.MerkleBit
/-!
# Successful calls end by confirming the queued writes
-/

namespace MerkleBit
variable {N : Nat} {σ V α β : Type}

/-- Where `m` succeeds, it ends in a state with property `F`. -/
def EndsIn (F : σ → Prop) (m : M σ α) : Prop := ∀ s a, (m s).1 = .ok a → F (m s).2

variable {F : σ → Prop}

theorem EndsIn.throw (e : Err) : EndsIn F (M.throw e : M σ α) := fun _ _ h => by cases h

theorem EndsIn.bind {m : M σ α} {f : α → M σ β} (hf : ∀ a, EndsIn F (f a)) :
    EndsIn F (m >>= f) := by
  intro s b
  show (M.bind m f s).1 = _ → F (M.bind m f s).2
  unfold M.bind
  rcases m s with ⟨r, s'⟩
  cases r with
  | error e => exact fun h => by cases h
  | ok a => exact hf a s' b

variable {cfg : Config N σ V} (hF : ∀ s a, (cfg.db.batchWrite s).1 = .ok a → F (cfg.db.batchWrite s).2)
include hF

theorem endsIn_flush (a : α) : EndsIn F (do cfg.db.batchWrite; pure a) := by
  intro s b
  show (M.bind cfg.db.batchWrite _ s).1 = _ → F (M.bind cfg.db.batchWrite _ s).2
  unfold M.bind
  have := hF s
  rcases hm : cfg.db.batchWrite s with ⟨r, s'⟩
  rw [hm] at this
  cases r with
  | error e => exact fun h => by cases h
  | ok u => exact fun _ => this u rfl

/-- `levelsLoop` from a state with the property, or with at least one level to do. -/
theorem levelsLoop_endsIn : ∀ (is : List Nat) (q : AMap Nat (List QueueItem))
    (refs : List (TreeRef N)) (root : Option (Arr N)) (s : σ) (r : Arr N),
    (root ≠ none → F s) → (levelsLoop cfg is q refs root s).1 = .ok (some r) →
      F (levelsLoop cfg is q refs root s).2 := by
  intro is
  induction is with
  | nil =>
    intro q refs root s r hs h
    cases h
    exact hs (by simp)
  | cons i is ih =>
    intro q refs root s r hs
    unfold levelsLoop
    cases q.get? i with
    | none => exact fun h => by cases h
    | some level =>
      show (M.bind (mergeNodes cfg refs _) _ s).1 = _ → F (M.bind (mergeNodes cfg refs _) _ s).2
      unfold M.bind
      have hmerge : ∀ level, EndsIn F (mergeNodes cfg refs level) := by
        intro level
        unfold mergeNodes
        exact EndsIn.bind fun a => endsIn_flush hF a
      have := hmerge level s
      rcases hm : mergeNodes cfg refs level s with ⟨res, s'⟩
      rw [hm] at this
      cases res with
      | error e => exact fun h => by cases h
      | ok a =>
        obtain ⟨refs', root'⟩ := a
        exact ih _ _ _ s' r (fun _ => this _ rfl)

theorem createTree_endsIn (refs : List (TreeRef N)) : EndsIn F (createTree cfg refs) := by
  unfold createTree
  split
  · exact EndsIn.throw _
  · exact endsIn_flush hF _
  · refine EndsIn.bind fun qb => ?_
    obtain ⟨q, bits⟩ := qb
    intro s r
    show (M.bind (levelsLoop cfg _ _ _ _) _ s).1 = _ → F (M.bind (levelsLoop cfg _ _ _ _) _ s).2
    unfold M.bind
    have := fun r => levelsLoop_endsIn hF (sortIndices bits) q (sortRefs refs) none s r
      (fun h => absurd rfl h)
    rcases hm : levelsLoop cfg (sortIndices bits) q (sortRefs refs) none s with ⟨res, s'⟩
    rw [hm] at this
    rcases res with e | o
    · exact fun h => by cases h
    · cases o with
      | none => exact fun h => by cases h
      | some r' => exact fun _ => this r' rfl

theorem insert_endsIn (prev : Option (Arr N)) (keys : List (Arr N)) (values : List V) :
    EndsIn F (insert cfg prev keys values) := by
  unfold insert
  split
  · exact EndsIn.throw _
  · split
    · exact EndsIn.throw _
    · refine EndsIn.bind fun _ => ?_
      cases prev <;> exact EndsIn.bind fun _ => createTree_endsIn hF _

theorem insertOne_endsIn (prev : Option (Arr N)) (key : Arr N) (value : V) :
    EndsIn F (insertOne cfg prev key value) := by
  unfold insertOne
  refine EndsIn.bind fun nodes => ?_
  split
  · exact EndsIn.throw _
  · cases prev <;> exact EndsIn.bind fun _ => createTree_endsIn hF _

theorem remove_endsIn (r : Arr N) : EndsIn F (remove cfg r) := by
  unfold remove
  exact EndsIn.bind fun _ => hF

end MerkleBit
