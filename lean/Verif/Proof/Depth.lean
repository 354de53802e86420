import Verif.Proof.Termination
import Verif.Spec.History
/-!
# The depth limit only limits

Two trees that differ only in their depth limit, `d` and a larger `d'`: a call under `d` ends with
the error of the limit, or does exactly what it does under `d'`.
-/

namespace MerkleBit
variable {N : Nat} {σ V : Type}

namespace Depth

/-- `x` ends with the error `msg`, or runs out of fuel, or equals `y`. -/
def Cut {α : Type} (msg : String) (x y : Res α) : Prop :=
  x = .error (.exception msg) ∨ x = .error .outOfFuel ∨ x = y

/-- `Cut` for computations with a state: from every state. -/
def CutM {α : Type} (msg : String) (x y : M σ α) : Prop :=
  ∀ s, (x s).1 = .error (.exception msg) ∨ (x s).1 = .error .outOfFuel ∨ x s = y s

variable {α β : Type} {msg : String}

theorem CutM.refl (x : M σ α) : CutM msg x x := fun _ => .inr (.inr rfl)

theorem CutM.of_eq {x y : M σ α} (h : x = y) : CutM msg x y := h ▸ CutM.refl _

theorem CutM.bind {x y : M σ α} {f g : α → M σ β} (h : CutM msg x y)
    (hf : ∀ a, CutM msg (f a) (g a)) : CutM msg (x >>= f) (y >>= g) := by
  intro s
  show (M.bind x f s).1 = _ ∨ (M.bind x f s).1 = _ ∨ M.bind x f s = M.bind y g s
  unfold M.bind
  rcases h s with h | h | h
  · left
    rcases hx : x s with ⟨r, s'⟩
    rw [hx] at h
    dsimp only at h
    subst h
    rfl
  · right; left
    rcases hx : x s with ⟨r, s'⟩
    rw [hx] at h
    dsimp only at h
    subst h
    rfl
  · rw [← h]
    rcases hx : x s with ⟨r, s'⟩
    cases r with
    | error e => exact .inr (.inr rfl)
    | ok a => exact hf a s'

/-! ## Calls that never look at the limit -/

variable (cfg : Config N σ V) (d : Nat)

theorem insertLeaf_eq (x : Arr N) : insertLeaf (cfg.withDepth d) x = insertLeaf cfg x := rfl

theorem splitNodes_eq (n : Nat) (x : Arr N) (l : List (Arr N)) :
    splitNodes (cfg.withDepth d) n x l = splitNodes cfg n x l := rfl

theorem pushCell_eq (s : σ) (q : List (TreeCell N)) (n : Nat) (x : Arr N) (l : List (Arr N)) :
    pushCellIfNode (cfg.withDepth d) s q n x l = pushCellIfNode cfg s q n x l := rfl

theorem insertLeaves_eq (values : AMap (Arr N) V) (ks : List (Arr N)) :
    insertLeaves (cfg.withDepth d) values ks = insertLeaves cfg values ks := by
  induction ks with
  | nil => rfl
  | cons k ks ih =>
    rw [insertLeaves, insertLeaves, ih]
    rfl

theorem mergeLoop_eq (level : List QueueItem) : ∀ (refs : List (TreeRef N)) (root : Arr N),
    mergeLoop (cfg.withDepth d) level refs root = mergeLoop cfg level refs root := by
  induction level with
  | nil => intro refs root; rfl
  | cons i level ih =>
    intro refs root
    obtain ⟨a, b, c⟩ := i
    rw [mergeLoop, mergeLoop]
    simp only [ih]

theorem mergeNodes_eq (refs : List (TreeRef N)) (level : List QueueItem) :
    mergeNodes (cfg.withDepth d) refs level = mergeNodes cfg refs level := by
  unfold mergeNodes
  rw [mergeLoop_eq]

theorem levelsLoop_eq (is : List Nat) :
    ∀ (q : AMap Nat (List QueueItem)) (refs : List (TreeRef N)) (root : Option (Arr N)),
      levelsLoop (cfg.withDepth d) is q refs root = levelsLoop cfg is q refs root := by
  induction is with
  | nil => intro q refs root; rfl
  | cons i is ih =>
    intro q refs root
    rw [levelsLoop, levelsLoop]
    simp only [ih, mergeNodes_eq]

theorem createTree_eq (refs : List (TreeRef N)) :
    createTree (cfg.withDepth d) refs = createTree cfg refs := by
  unfold createTree
  split
  · rfl
  · rfl
  · simp only [levelsLoop_eq]

theorem removeLoop_eq (fuel : Nat) : ∀ q : List (Arr N),
    removeLoop (cfg.withDepth d) fuel q = removeLoop cfg fuel q := by
  induction fuel with
  | zero => intro q; cases q <;> rfl
  | succ fuel ih =>
    intro q
    cases q with
    | nil => rfl
    | cons x q =>
      rw [removeLoop, removeLoop]
      simp only [ih]
      rfl

theorem remove_eq (r : Arr N) : remove (cfg.withDepth d) r = remove cfg r := by
  unfold remove
  rw [removeLoop_eq]

/-! ## Loops that do -/

variable {cfg d}
variable {d' : Nat}

theorem getLoop_cut (h : d ≤ d') (s : σ) (keys : List (Arr N)) :
    ∀ fuel fuel' q m, fuel ≤ fuel' →
      Cut "Depth of merkle tree exceeded" (getLoop (cfg.withDepth d) s keys fuel q m)
        (getLoop (cfg.withDepth d') s keys fuel' q m) := by
  intro fuel
  induction fuel with
  | zero =>
    intro fuel' q m hf
    cases q with
    | nil => right; right; cases fuel' <;> rfl
    | cons c q => right; left; rfl
  | succ fuel ih =>
    intro fuel' q m hf
    obtain ⟨fuel', rfl⟩ : ∃ f, fuel' = f + 1 := ⟨fuel' - 1, by omega⟩
    have hf : fuel ≤ fuel' := by omega
    cases q with
    | nil => right; right; rfl
    | cons c q =>
      rw [getLoop, getLoop]
      by_cases hd : c.depth > d
      · left; exact if_pos hd
      rw [if_neg (show ¬ c.depth > (cfg.withDepth d).depth from hd),
        if_neg (show ¬ c.depth > (cfg.withDepth d').depth from fun hc => hd (lt_of_le_of_lt h hc))]
      dsimp only [Config.withDepth, pushCellIfNode]
      repeat' split
      all_goals first
        | exact ih _ _ _ hf
        | exact .inr (.inr rfl)

theorem getOneLoop_cut (h : d ≤ d') (s : σ) (key : Arr N) :
    ∀ fuel fuel' q b n, fuel ≤ fuel' →
      Cut "Depth limit exceeded" (getOneLoop (cfg.withDepth d) s key fuel q b n)
        (getOneLoop (cfg.withDepth d') s key fuel' q b n) := by
  intro fuel
  induction fuel with
  | zero =>
    intro fuel' q b n hf
    cases q with
    | nil => right; right; cases fuel' <;> rfl
    | cons c q => right; left; rfl
  | succ fuel ih =>
    intro fuel' q b n hf
    obtain ⟨fuel', rfl⟩ : ∃ f, fuel' = f + 1 := ⟨fuel' - 1, by omega⟩
    have hf : fuel ≤ fuel' := by omega
    cases q with
    | nil => right; right; rfl
    | cons c q =>
      rw [getOneLoop, getOneLoop]
      by_cases hd : n > d
      · left; exact if_pos hd
      rw [if_neg (show ¬ n > (cfg.withDepth d).depth from hd),
        if_neg (show ¬ n > (cfg.withDepth d').depth from fun hc => hd (lt_of_le_of_lt h hc))]
      dsimp only [Config.withDepth]
      repeat' split
      all_goals first
        | exact ih _ _ _ _ hf
        | exact .inr (.inr rfl)

theorem proofLoop_cut (h : d ≤ d') (s : σ) (key : Arr N) :
    ∀ fuel fuel' q p b n, fuel ≤ fuel' →
      Cut "Depth limit exceeded" (proofLoop (cfg.withDepth d) s key fuel q p b n)
        (proofLoop (cfg.withDepth d') s key fuel' q p b n) := by
  intro fuel
  induction fuel with
  | zero =>
    intro fuel' q p b n hf
    cases q with
    | nil => right; right; cases fuel' <;> rfl
    | cons c q => right; left; rfl
  | succ fuel ih =>
    intro fuel' q p b n hf
    obtain ⟨fuel', rfl⟩ : ∃ f, fuel' = f + 1 := ⟨fuel' - 1, by omega⟩
    have hf : fuel ≤ fuel' := by omega
    cases q with
    | nil => right; right; rfl
    | cons c q =>
      rw [proofLoop, proofLoop]
      by_cases hd : n > d
      · left; exact if_pos hd
      rw [if_neg (show ¬ n > (cfg.withDepth d).depth from hd),
        if_neg (show ¬ n > (cfg.withDepth d').depth from fun hc => hd (lt_of_le_of_lt h hc))]
      dsimp only [Config.withDepth]
      repeat' split
      all_goals first
        | exact ih _ _ _ _ _ hf
        | exact .inr (.inr rfl)

theorem traverseTree_cut (h : d ≤ d') (keyMap : AMap (Arr N) (Arr N)) :
    ∀ fuel fuel' p q, fuel ≤ fuel' →
      CutM "Depth of merkle tree exceeded" (traverseTree (cfg.withDepth d) keyMap fuel p q)
        (traverseTree (cfg.withDepth d') keyMap fuel' p q) := by
  intro fuel
  induction fuel with
  | zero =>
    intro fuel' p q hf
    cases q with
    | nil => exact .of_eq (by cases fuel' <;> rfl)
    | cons c q => intro s; right; left; rfl
  | succ fuel ih =>
    intro fuel' p q hf
    obtain ⟨fuel', rfl⟩ : ∃ f, fuel' = f + 1 := ⟨fuel' - 1, by omega⟩
    have hf : fuel ≤ fuel' := by omega
    cases q with
    | nil => exact .refl _
    | cons c q =>
      rw [traverseTree, traverseTree]
      by_cases hd : c.depth > d
      · intro s; left
        rw [if_pos (show c.depth > (cfg.withDepth d).depth from hd)]
        rfl
      rw [if_neg (show ¬ c.depth > (cfg.withDepth d).depth from hd),
        if_neg (show ¬ c.depth > (cfg.withDepth d').depth from fun hc => hd (lt_of_le_of_lt h hc))]
      simp only [insertLeaf_eq, splitNodes_eq]
      split
      · split
        · split
          · exact (CutM.refl _).bind fun _ => ih _ _ _ hf
          · exact ih _ _ _ hf
        · exact (CutM.refl _).bind fun _ => ih _ _ _ hf
      · exact .refl _
      · refine (CutM.refl _).bind fun m => (CutM.refl _).bind fun ds => ?_
        split
        · exact (CutM.refl _).bind fun _ => ih _ _ _ hf
        · refine (CutM.refl _).bind fun zo => ?_
          obtain ⟨zeros, ones⟩ := zo
          exact (CutM.refl _).bind fun _ => (CutM.refl _).bind fun _ => ih _ _ _ hf

theorem traversalFuel_mono (h : d ≤ d') (n : Nat) :
    traversalFuel (cfg.withDepth d) n ≤ traversalFuel (cfg.withDepth d') n := by
  unfold traversalFuel
  have : n * (d + 2) ≤ n * (d' + 2) := Nat.mul_le_mul_left _ (by omega)
  exact Nat.succ_le_succ this

theorem generateTreerefs_cut (h : d ≤ d') (root : Arr N) (keys : List (Arr N))
    (keyMap : AMap (Arr N) (Arr N)) :
    CutM "Depth of merkle tree exceeded" (generateTreerefs (cfg.withDepth d) root keys keyMap)
      (generateTreerefs (cfg.withDepth d') root keys keyMap) := by
  unfold generateTreerefs
  refine (CutM.refl _).bind fun n => ?_
  split
  · exact traverseTree_cut h keyMap _ _ _ _ (traversalFuel_mono h _)
  · exact .refl _

theorem insert_cut (h : d ≤ d') (prev : Option (Arr N)) (keys : List (Arr N)) (values : List V) :
    CutM "Depth of merkle tree exceeded" (insert (cfg.withDepth d) prev keys values)
      (insert (cfg.withDepth d') prev keys values) := by
  unfold insert
  simp only [insertLeaves_eq, createTree_eq]
  split
  · exact .refl _
  · split
    · exact .refl _
    · refine (CutM.refl _).bind fun nodes => ?_
      split
      · exact (generateTreerefs_cut h _ _ _).bind fun _ => .refl _
      · exact .refl _

theorem insertOne_cut (h : d ≤ d') (prev : Option (Arr N)) (key : Arr N) (value : V) :
    CutM "Depth of merkle tree exceeded" (insertOne (cfg.withDepth d) prev key value)
      (insertOne (cfg.withDepth d') prev key value) := by
  unfold insertOne
  simp only [insertLeaves_eq, createTree_eq]
  refine (CutM.refl _).bind fun nodes => ?_
  split
  · exact .refl _
  · split
    · exact (generateTreerefs_cut h _ _ _).bind fun _ => .refl _
    · exact .refl _

theorem get_cut (h : d ≤ d') (s : σ) (r : Arr N) (keys : List (Arr N)) :
    Cut "Depth of merkle tree exceeded" (get (cfg.withDepth d) s r keys)
      (get (cfg.withDepth d') s r keys) := by
  unfold get
  dsimp only [Config.withDepth]
  split
  · exact .inr (.inr rfl)
  · split
    · exact .inr (.inr rfl)
    · exact .inr (.inr rfl)
    · exact getLoop_cut h s _ _ _ _ _ (traversalFuel_mono h _)

theorem getOne_cut (h : d ≤ d') (s : σ) (r k : Arr N) :
    Cut "Depth limit exceeded" (getOne (cfg.withDepth d) s r k) (getOne (cfg.withDepth d') s r k) :=
  getOneLoop_cut h s k _ _ _ _ _ (Nat.add_le_add_right h 2)

theorem proof_cut (h : d ≤ d') (s : σ) (r k : Arr N) :
    Cut "Depth limit exceeded" (inclusionProof (cfg.withDepth d) s r k)
      (inclusionProof (cfg.withDepth d') s r k) := by
  unfold inclusionProof
  rcases proofLoop_cut (cfg := cfg) h s k _ _ [r] [] false 0 (Nat.add_le_add_right h 2) with
    h | h | h
  · left
    rw [show (cfg.withDepth d).depth = d from rfl, h]
  · right; left
    rw [show (cfg.withDepth d).depth = d from rfl, h]
  · right; right
    rw [show (cfg.withDepth d).depth = d from rfl, show (cfg.withDepth d').depth = d' from rfl, h]

end Depth
end MerkleBit
