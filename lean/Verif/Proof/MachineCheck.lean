import Verif.Proof.Machine
/-! # Counters of the machine's width with overflow checks, in any state -/

namespace MerkleBit
variable {N : Nat} {σ V α β : Type} {cfg : Config N σ V} {A : Arith}
namespace Overflow

/-- What a sum that does not fit becomes. -/
abbrev err : Err := .panic "attempt to add with overflow"

/-- The second result is the first one, or `ov` and it is the overflow panic. -/
def Or (ov : Prop) (x y : Res α) : Prop := y = x ∨ ov ∧ y = .error err

/-- The same for programs. -/
def OrM (ov : Prop) (m mA : M σ α) : Prop := ∀ s, mA s = m s ∨ ov ∧ (mA s).1 = .error err

variable {ov : Prop}

theorem Or.refl (x : Res α) : Or ov x x := .inl rfl
theorem OrM.refl (m : M σ α) : OrM ov m m := fun _ => .inl rfl

/-- Sums are exact, or `ov` and they overflow with a panic. -/
def Adds (ov : Prop) (A : Arith) : Prop :=
  ∀ a b, Or ov (.ok (a + b)) (A.add a b) ∧ Or ov (.ok (a + b)) (A.add32 a b)

theorem adds_checked : Adds True .checked := by
  intro a b
  constructor
  · by_cases h : a + b < 2 ^ 64
    · exact .inl (if_pos h)
    · exact .inr ⟨trivial, if_neg h⟩
  · by_cases h : a + b < 2 ^ 32
    · exact .inl (if_pos h)
    · exact .inr ⟨trivial, if_neg h⟩

theorem adds_unbounded : Adds False .unbounded := fun _ _ => ⟨.inl rfl, .inl rfl⟩

theorem Or.lift {x y : Res α} (h : Or ov x y) : OrM (σ := σ) ov (M.lift x) (M.lift y) := by
  intro s
  rcases h with rfl | ⟨hp, rfl⟩
  · exact .inl rfl
  · exact .inr ⟨hp, rfl⟩

theorem OrM.bind {m mA : M σ α} {f fA : α → M σ β} (h1 : OrM ov m mA) (h2 : ∀ a, OrM ov (f a) (fA a)) :
    OrM ov (M.bind m f) (M.bind mA fA) := by
  intro s
  unfold M.bind
  rcases h1 s with h | ⟨hp, h⟩
  · rw [h]
    rcases m s with ⟨r, s'⟩
    cases r with
    | error e => exact .inl rfl
    | ok a => exact h2 a s'
  · right
    rcases hm : mA s with ⟨r, s'⟩
    rw [hm] at h
    dsimp only at h
    subst h
    exact ⟨hp, rfl⟩

section
variable (hA : Adds ov A)
include hA

/-- `let c ← A.add a b; f c` for `f (a + b)`. -/
theorem OrM.sum {a b : Nat} {m : M σ α} {fA : Nat → M σ α} (h : OrM ov m (fA (a + b))) :
    OrM ov m (M.bind (M.lift (A.add a b)) fA) := by
  rcases (hA a b).1 with h' | ⟨hp, h'⟩
  · rw [h']; exact h
  · rw [h']; exact fun s => .inr ⟨hp, rfl⟩

/-- The same for `u32`. -/
theorem OrM.sum32 {a b : Nat} {m : M σ α} {fA : Nat → M σ α} (h : OrM ov m (fA (a + b))) :
    OrM ov m (M.bind (M.lift (A.add32 a b)) fA) := by
  rcases (hA a b).2 with h' | ⟨hp, h'⟩
  · rw [h']; exact h
  · rw [h']; exact fun s => .inr ⟨hp, rfl⟩

/-! ## Writing -/

theorem insertLeaf (x : Arr N) : OrM ov (MerkleBit.insertLeaf cfg x) (Machine.insertLeaf A cfg x) := by
  unfold MerkleBit.insertLeaf Machine.insertLeaf
  refine (OrM.refl _).bind fun o => ?_
  cases o with
  | none => exact .refl _
  | some l => exact .sum hA (.refl _)

theorem splitNodes (d : Nat) (x : Arr N) (ks : List (Arr N)) :
    OrM ov (MerkleBit.splitNodes cfg d x ks) (Machine.splitNodes A cfg d x ks) := by
  unfold MerkleBit.splitNodes Machine.splitNodes
  refine (OrM.refl _).bind fun o => ?_
  cases o with
  | none => exact .refl _
  | some l =>
    dsimp only
    split
    · exact .sum hA (.refl _)
    · exact .sum hA (.refl _)

theorem traverseTree (keyMap : AMap (Arr N) (Arr N)) : ∀ fuel p q,
    OrM ov (MerkleBit.traverseTree cfg keyMap fuel p q) (Machine.traverseTree A cfg keyMap fuel p q)
  | _, _, [] => by unfold MerkleBit.traverseTree Machine.traverseTree; exact .refl _
  | 0, _, _ :: _ => by unfold MerkleBit.traverseTree Machine.traverseTree; exact .refl _
  | fuel + 1, p, cell :: q => by
    have ih := traverseTree keyMap fuel
    unfold MerkleBit.traverseTree Machine.traverseTree
    split
    · exact .refl _
    · cases cell.node.variant with
      | leaf n =>
        dsimp only
        cases keyMap.get? n.key with
        | none => exact (insertLeaf hA _).bind fun _ => ih _ _
        | some loc =>
          dsimp only
          split
          · exact (insertLeaf hA _).bind fun _ => ih _ _
          · exact ih _ _
      | data d => exact .refl _
      | branch b =>
        refine (OrM.refl _).bind fun m => (OrM.refl _).bind fun ds => ?_
        split
        · exact .sum hA ((OrM.refl _).bind fun _ => ih _ _)
        · refine (OrM.refl _).bind fun zo => ?_
          obtain ⟨zeros, ones⟩ := zo
          exact (splitNodes hA _ _ _).bind fun _ => (splitNodes hA _ _ _).bind fun _ => ih _ _

theorem generateTreerefs (r : Arr N) (ks : List (Arr N)) (km : AMap (Arr N) (Arr N)) :
    OrM ov (MerkleBit.generateTreerefs cfg r ks km) (Machine.generateTreerefs A cfg r ks km) := by
  unfold MerkleBit.generateTreerefs Machine.generateTreerefs
  refine (OrM.refl _).bind fun o => ?_
  cases o with
  | none => exact .refl _
  | some n => exact traverseTree hA _ _ _ _

theorem nextRefs (o : Option (Node N)) :
    Or ov (.ok (MerkleBit.nextRefs o)) (Machine.nextRefs A o) := by
  cases o with
  | none => exact .refl _
  | some n => exact (hA _ _).1

theorem insertLeaves (vm : AMap (Arr N) V) : ∀ ks,
    OrM ov (MerkleBit.insertLeaves cfg vm ks) (Machine.insertLeaves A cfg vm ks)
  | [] => by unfold MerkleBit.insertLeaves Machine.insertLeaves; exact .refl _
  | k :: ks => by
    have ih := insertLeaves vm ks
    unfold MerkleBit.insertLeaves Machine.insertLeaves
    refine (OrM.refl _).bind fun b => (OrM.refl _).bind fun od => ?_
    rcases nextRefs hA od with h | ⟨hp, h⟩
    · rw [h]
      refine (OrM.refl _).bind fun ol => ?_
      rcases nextRefs hA ol with h | ⟨hp, h⟩
      · rw [h]
        exact (OrM.refl _).bind fun _ => (OrM.refl _).bind fun _ => ih.bind fun _ => .refl _
      · rw [h]; exact fun s => .inr ⟨hp, rfl⟩
    · rw [h]; exact fun s => .inr ⟨hp, rfl⟩

theorem lookaheadLoop (refs : List (TreeRef N)) (p : Nat) : ∀ fuel count,
    Or ov (MerkleBit.lookaheadLoop refs p fuel count) (Machine.lookaheadLoop A refs p fuel count)
  | 0, _ => .refl _
  | fuel + 1, count => by
    have ih := lookaheadLoop refs p fuel
    unfold MerkleBit.lookaheadLoop Machine.lookaheadLoop
    rcases (hA p count).1 with h | ⟨hp, h⟩
    · rw [h]
      dsimp only
      cases refAt refs (p + count) with
      | error e => exact .refl _
      | ok r =>
        dsimp only
        split
        · exact ih _
        · exact .refl _
    · rw [h]; exact .inr ⟨hp, rfl⟩

theorem lookahead (refs : List (TreeRef N)) (p n : Nat) :
    Or ov (MerkleBit.lookahead refs p n) (Machine.lookahead A refs p n) := by
  unfold MerkleBit.lookahead Machine.lookahead
  cases refAt refs n with
  | error e => exact .refl _
  | ok r =>
    dsimp only
    split
    · exact lookaheadLoop hA _ _ _ _
    · exact .refl _

theorem mergeLoop : ∀ level (refs : List (TreeRef N)) root,
    OrM ov (MerkleBit.mergeLoop cfg level refs root) (Machine.mergeLoop A cfg level refs root)
  | [], _, _ => by unfold MerkleBit.mergeLoop Machine.mergeLoop; exact .refl _
  | (i, p, n) :: level, refs, root => by
    have ih := mergeLoop level
    unfold MerkleBit.mergeLoop Machine.mergeLoop
    refine (OrM.refl _).bind fun t => (lookahead hA _ _ _).lift.bind fun l => ?_
    obtain ⟨lp, lc⟩ := l
    refine (OrM.refl _).bind fun u => .sum hA ((OrM.refl _).bind fun _ => .sum32 hA (ih _ _))

theorem mergeNodes (refs : List (TreeRef N)) (level : List QueueItem) :
    OrM ov (MerkleBit.mergeNodes cfg refs level) (Machine.mergeNodes A cfg refs level) := by
  unfold MerkleBit.mergeNodes Machine.mergeNodes
  exact (mergeLoop hA _ _ _).bind fun _ => .refl _

theorem levelsLoop : ∀ indices q (refs : List (TreeRef N)) root,
    OrM ov (MerkleBit.levelsLoop cfg indices q refs root)
      (Machine.levelsLoop A cfg indices q refs root)
  | [], _, _, _ => by unfold MerkleBit.levelsLoop Machine.levelsLoop; exact .refl _
  | i :: indices, q, refs, root => by
    have ih := levelsLoop indices
    unfold MerkleBit.levelsLoop Machine.levelsLoop
    cases q.get? i with
    | none => exact .refl _
    | some level =>
      refine (mergeNodes hA _ _).bind fun r => ?_
      obtain ⟨refs', root'⟩ := r
      exact ih _ _ _

theorem createTree : ∀ refs : List (TreeRef N),
    OrM ov (MerkleBit.createTree cfg refs) (Machine.createTree A cfg refs)
  | [] => .refl _
  | [_] => .refl _
  | _ :: _ :: _ => by
    unfold MerkleBit.createTree Machine.createTree
    refine (OrM.refl _).bind fun r => ?_
    obtain ⟨q, bits⟩ := r
    refine (levelsLoop hA _ _ _ _).bind fun o => ?_
    cases o <;> exact .refl _

theorem insert (prev : Option (Arr N)) (keys : List (Arr N)) (values : List V) :
    OrM ov (MerkleBit.insert cfg prev keys values) (Machine.insert A cfg prev keys values) := by
  unfold MerkleBit.insert Machine.insert
  split
  · exact .refl _
  · split
    · exact .refl _
    · refine (insertLeaves hA _ _).bind fun nodes => ?_
      cases prev with
      | none => exact (OrM.refl _).bind fun _ => createTree hA _
      | some r => exact (generateTreerefs hA _ _ _).bind fun _ => createTree hA _

end
end Overflow
end MerkleBit
