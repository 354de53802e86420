import Verif.Proof.Reserve
import Verif.Proof.Insert
import Verif.Spec.Database
import Mathlib.Data.Fintype.Card
import Mathlib.Data.Fintype.Pi
import Mathlib.Data.Fintype.BigOperators
/-! # The fuel of the loops always suffices -/

namespace MerkleBit
variable {N : Nat} {σ V : Type}

/-- A result that is not the fuel marker. -/
def NoFuel {α : Type} (r : Res α) : Prop := r ≠ .error .outOfFuel

theorem noFuel_ok {α : Type} (a : α) : NoFuel (.ok a : Res α) := by simp [NoFuel]
theorem noFuel_exception {α : Type} (m : String) : NoFuel (.error (.exception m) : Res α) := by
  simp [NoFuel]
theorem noFuel_panic {α : Type} (m : String) : NoFuel (.error (.panic m) : Res α) := by
  simp [NoFuel]

/-- Errors pass through a change of the result type. -/
theorem NoFuel.cast {α β : Type} {r : Res α} {e : Err} (h : NoFuel r) (hr : r = .error e) :
    NoFuel (.error e : Res β) := by
  subst hr
  intro h'
  apply h
  cases h'
  rfl

/-! ## Utilities -/

theorem noFuel_chooseZero (k : Arr N) (i : Nat) : NoFuel (chooseZero k i) := by
  unfold chooseZero
  dsimp only
  split
  · exact noFuel_ok _
  · exact noFuel_exception _

theorem noFuel_splitPairs (pp : PartitionPoint N) (l : List (Arr N)) (i : Nat) :
    NoFuel (splitPairs pp l i) := by
  unfold splitPairs
  split
  · split
    · rename_i h; exact (noFuel_chooseZero _ _).cast h
    · exact noFuel_ok _
    · split
      · rename_i h; exact (noFuel_chooseZero _ _).cast h
      · exact noFuel_ok _
      · dsimp only
        split
        · exact noFuel_ok _
        · exact noFuel_panic _
  · exact noFuel_ok _

theorem noFuel_isDescendant (b k : List UInt8) (i : Nat) (l : List Nat) :
    NoFuel (isDescendant b k i l) := by
  induction l with
  | nil => exact noFuel_ok _
  | cons j js ih =>
    unfold isDescendant
    dsimp only
    split
    · split
      · exact ih
      · split
        · exact noFuel_ok _
        · exact ih
    · exact noFuel_panic _

theorem noFuel_descendantRange {d : Arr N → Res Bool} (hd : ∀ k, NoFuel (d k)) (len : Nat)
    (l : List (Arr N)) : ∀ i a b f, NoFuel (descendantRange d len i l a b f) := by
  induction l with
  | nil => intro i a b f; exact noFuel_ok _
  | cons k ks ih =>
    intro i a b f
    unfold descendantRange
    split
    · rename_i h; exact (hd k).cast h
    · rename_i d _
      cases d <;> cases f <;> simp only [Bool.not_true, Bool.not_false, Bool.and_true, Bool.and_false,
        Bool.false_and, Bool.true_and, if_true, if_false, Bool.false_eq_true]
      · exact ih _ _ _ _
      · exact noFuel_ok _
      · split
        · exact noFuel_ok _
        · exact ih _ _ _ _
      · split
        · exact noFuel_ok _
        · exact ih _ _ _ _

theorem noFuel_checkDescendants (l : List (Arr N)) (i : Nat) (b : Arr N) (m : Nat) :
    NoFuel (checkDescendants l i b m) := by
  unfold checkDescendants
  split
  · rename_i h
    exact (noFuel_descendantRange (fun k => noFuel_isDescendant _ _ _ _) _ _ _ _ _ _).cast h
  · unfold slice
    split
    · exact noFuel_ok _
    · exact noFuel_panic _

theorem checkDescendants_length {l r : List (Arr N)} {i m : Nat} {b : Arr N}
    (h : checkDescendants l i b m = .ok r) : r.length ≤ l.length := by
  unfold checkDescendants slice at h
  split at h
  · cases h
  · split at h
    · cases h
      simp only [List.length_drop, List.length_take]
      omega
    · cases h

theorem noFuel_minSplitLoop (d : Nat) (as : List UInt8) : ∀ i bs, NoFuel (minSplitLoop d i as bs) := by
  induction as with
  | nil => intro i bs; exact noFuel_ok _
  | cons a as ih =>
    intro i bs
    cases bs with
    | nil => exact noFuel_panic _
    | cons b bs =>
      unfold minSplitLoop
      split
      · exact ih _ _
      · exact noFuel_ok _

theorem noFuel_calcMinSplitIndex (l : List (Arr N)) (b : Arr N) : NoFuel (calcMinSplitIndex l b) := by
  unfold calcMinSplitIndex
  split
  · exact noFuel_exception _
  · split
    · exact noFuel_exception _
    · dsimp only
      split
      · exact noFuel_panic _
      · exact noFuel_minSplitLoop _ _ _ _

theorem noFuel_splitBitLoop (n : Nat) (as : List UInt8) : ∀ i bs, NoFuel (splitBitLoop n i as bs) := by
  induction as with
  | nil => intro i bs; exact noFuel_ok _
  | cons a as ih =>
    intro i bs
    cases bs with
    | nil => exact noFuel_panic _
    | cons b bs =>
      unfold splitBitLoop
      split
      · exact noFuel_exception _
      · split
        · exact ih _ _
        · exact noFuel_ok _

theorem noFuel_queueLoop (l : List (TreeRef N)) : ∀ i q bits, NoFuel (queueLoop i l q bits) := by
  induction l with
  | nil => intro i q bits; exact noFuel_ok _
  | cons a l ih =>
    intro i q bits
    cases l with
    | nil => exact noFuel_ok _
    | cons b l =>
      unfold queueLoop
      split
      · rename_i h; exact (noFuel_splitBitLoop _ _ _ _).cast h
      · exact ih _ _ _
      · exact ih _ _ _

theorem noFuel_generateTreeRefQueue (l : List (TreeRef N)) : NoFuel (generateTreeRefQueue l) := by
  unfold generateTreeRefQueue
  split
  · exact noFuel_panic _
  · exact noFuel_queueLoop _ _ _ _

theorem noFuel_refAt (l : List (TreeRef N)) (i : Nat) : NoFuel (refAt l i) := by
  unfold refAt
  split
  · exact noFuel_ok _
  · exact noFuel_panic _

theorem noFuel_lookaheadLoop (refs : List (TreeRef N)) (p : Nat) : ∀ fuel count,
    refs.length - count < fuel → NoFuel (lookaheadLoop refs p fuel count) := by
  intro fuel
  induction fuel with
  | zero => intro count h; omega
  | succ fuel ih =>
    intro count h
    unfold lookaheadLoop
    dsimp only
    split
    · rename_i h; exact (noFuel_refAt _ _).cast h
    · rename_i r hr
      split
      · rename_i hc
        apply ih
        have : p + count < refs.length := by
          unfold refAt at hr
          split at hr
          · rename_i h; exact (List.getElem?_eq_some_iff.1 h).1
          · cases hr
        omega
      · exact noFuel_ok _

theorem noFuel_lookahead (refs : List (TreeRef N)) (p q : Nat) : NoFuel (lookahead refs p q) := by
  unfold lookahead
  split
  · rename_i h; exact (noFuel_refAt _ _).cast h
  · split
    · exact noFuel_lookaheadLoop _ _ _ _ (by omega)
    · exact noFuel_ok _

/-! ## Computations -/

/-- A computation that never runs out of fuel. -/
def NF {α : Type} (m : M σ α) : Prop := ∀ s, NoFuel (m s).1

theorem nf_pure {α : Type} (a : α) : NF (pure a : M σ α) := fun _ => noFuel_ok _
theorem nf_exception {α : Type} (m : String) : NF (M.throw (.exception m) : M σ α) :=
  fun _ => noFuel_exception _
theorem nf_panic {α : Type} (m : String) : NF (M.throw (.panic m) : M σ α) :=
  fun _ => noFuel_panic _
theorem nf_lift {α : Type} {r : Res α} (h : NoFuel r) : NF (M.lift r : M σ α) := fun _ => h

theorem nf_bind {α β : Type} {m : M σ α} {f : α → M σ β} (h1 : NF m)
    (h2 : ∀ a, (∃ s, (m s).1 = .ok a) → NF (f a)) : NF (m >>= f) := by
  intro s
  change NoFuel (M.bind m f s).1
  unfold M.bind
  have h := h1 s
  rcases hm : m s with ⟨r, s'⟩
  rw [hm] at h
  cases r with
  | ok a => exact h2 a ⟨s, by rw [hm]⟩ s'
  | error e => exact h.cast rfl

/-! ## The size of a view -/

/-- Locations are functions from positions to bytes. -/
def arrEquiv : Arr N ≃ (Fin N → UInt8) where
  toFun a i := a.bytes[i.1]'(by rw [a.len]; exact i.2)
  invFun f := ⟨List.ofFn f, by simp⟩
  left_inv a := by
    obtain ⟨b, hb⟩ := a
    subst hb
    simp
  right_inv f := by funext i; simp

/-- Bytes are numbers below 256. -/
def uint8Equiv : UInt8 ≃ Fin 256 := ⟨fun b => b.toFin, fun f => ⟨⟨f⟩⟩, fun _ => rfl, fun _ => rfl⟩

noncomputable instance : Fintype UInt8 := Fintype.ofEquiv _ uint8Equiv.symm
noncomputable instance : Fintype (Arr N) := Fintype.ofEquiv _ arrEquiv.symm

theorem arr_card : Fintype.card (Arr N) = 256 ^ N := by
  rw [Fintype.card_congr arrEquiv, Fintype.card_fun, Fintype.card_congr uint8Equiv]
  simp

open Classical in
/-- How many nodes a view holds. -/
noncomputable def View.size (v : View N) : Nat :=
  (Finset.univ.filter (fun x => (v x).isSome)).card

theorem View.size_le (v : View N) : v.size ≤ 256 ^ N := by
  rw [← arr_card (N := N)]
  exact Finset.card_le_univ _

theorem View.size_put {v : View N} {x : Arr N} {n : Node N} (h : (v x).isSome) :
    (v.put x n).size = v.size := by
  unfold View.size
  congr 1
  ext y
  simp only [Finset.mem_filter, Finset.mem_univ, true_and]
  unfold View.put
  by_cases hy : y = x
  · subst hy; simp [h]
  · simp [hy]

theorem View.size_del {v : View N} {x : Arr N} (h : (v x).isSome) :
    (v.del x).size + 1 = v.size := by
  classical
  unfold View.size
  rw [← Finset.card_erase_add_one (s := Finset.univ.filter (fun y => (v y).isSome)) (a := x)
    (by simp [h])]
  congr 2
  ext y
  simp only [Finset.mem_filter, Finset.mem_univ, true_and, Finset.mem_erase]
  unfold View.del
  by_cases hy : y = x
  · simp [hy]
  · simp [hy]

section
variable {cfg : Config N σ V} (C : DbContract cfg.db)
include C

theorem noFuel_getNode (s : σ) (x : Arr N) : NoFuel (cfg.db.getNode s x) := by
  cases h : cfg.db.getNode s x with
  | ok a => exact noFuel_ok _
  | error e =>
    obtain ⟨m, rfl⟩ := (C.getNode_err h).2
    exact noFuel_exception _

theorem nf_dbGet (x : Arr N) : NF (dbGet cfg x) := fun s => noFuel_getNode C s x

theorem nf_dbInsert (x : Arr N) (n : Node N) : NF (cfg.db.insert x n) := by
  intro s
  rcases h : cfg.db.insert x n s with ⟨_ | _, s'⟩
  · obtain ⟨m, rfl⟩ := (C.insert_err h).2.1
    exact noFuel_exception _
  · exact noFuel_ok _

theorem nf_dbRemove (x : Arr N) : NF (cfg.db.remove x) := by
  intro s
  rcases h : cfg.db.remove x s with ⟨_ | _, s'⟩
  · obtain ⟨m, rfl⟩ := (C.remove_err h).2.1
    exact noFuel_exception _
  · exact noFuel_ok _

theorem nf_batchWrite : NF cfg.db.batchWrite := by
  intro s
  rcases h : cfg.db.batchWrite s with ⟨_ | _, s'⟩
  · obtain ⟨m, rfl⟩ := (C.batchWrite_err h).2.1
    exact noFuel_exception _
  · exact noFuel_ok _

/-! ### Reads -/

omit C in
theorem pushCell_cases {s : σ} {q : List (TreeCell N)} {d : Nat} {x : Arr N} {ks : List (Arr N)}
    {q' : List (TreeCell N)} (h : pushCellIfNode cfg s q d x ks = .ok q') :
    q' = q ∨ ∃ n, ks ≠ [] ∧ q' = ⟨x, ks, n, d + 1⟩ :: q := by
  unfold pushCellIfNode at h
  split at h
  · cases h
  · split at h
    · rename_i hne
      cases h
      exact .inr ⟨_, by simpa using hne, rfl⟩
    · cases h; exact .inl rfl
  · cases h; exact .inl rfl

theorem noFuel_pushCell (s : σ) (q : List (TreeCell N)) (d : Nat) (x : Arr N) (ks : List (Arr N)) :
    NoFuel (pushCellIfNode cfg s q d x ks) := by
  unfold pushCellIfNode
  split
  · rename_i h; exact (noFuel_getNode C s x).cast h
  · split
    · exact noFuel_ok _
    · exact noFuel_ok _
  · exact noFuel_ok _

/-- Cells with keys, whose weight counts the iterations. -/
def CellsOk (q : List (TreeCell N)) : Prop := ∀ c ∈ q, c.keys ≠ []

omit C in
theorem pushCell_weight {D : Nat} {q : List (TreeCell N)} {d : Nat} {x : Arr N} {ks : List (Arr N)}
    {q' : List (TreeCell N)} (hq : CellsOk q)
    (h : q' = q ∨ ∃ n, ks ≠ [] ∧ q' = ⟨x, ks, n, d + 1⟩ :: q) :
    CellsOk q' ∧ weight D q' ≤ ks.length * (D + 1 - d) + weight D q := by
  rcases h with rfl | ⟨n, hne, rfl⟩
  · exact ⟨hq, by omega⟩
  · refine ⟨?_, ?_⟩
    · intro c hc
      rcases List.mem_cons.1 hc with rfl | hc
      · exact hne
      · exact hq c hc
    · rw [weight_cons]
      dsimp only
      rw [show D + 2 - (d + 1) = D + 1 - d by omega]

omit C in
/-- Two subtrees take less than the cell they come from. -/
theorem weight_split {D d l z o : Nat} (hd : d ≤ D) (h : z + o ≤ l) (hl : 0 < l) :
    z * (D + 1 - d) + o * (D + 1 - d) < l * (D + 2 - d) := by
  rw [← Nat.add_mul]
  calc (z + o) * (D + 1 - d) ≤ l * (D + 1 - d) := Nat.mul_le_mul_right _ h
    _ < l * (D + 2 - d) := Nat.mul_lt_mul_of_pos_left (by omega) hl

theorem noFuel_getLoop (hdec : ∀ b, NoFuel (cfg.decode b)) (s : σ) (keys : List (Arr N)) :
    ∀ fuel q m, CellsOk q → weight cfg.depth q < fuel → NoFuel (getLoop cfg s keys fuel q m) := by
  intro fuel
  induction fuel with
  | zero => intro q m _ h; omega
  | succ fuel ih =>
    intro q m hq hw
    cases q with
    | nil => exact noFuel_ok _
    | cons c q =>
      rw [weight_cons] at hw
      have hc : 0 < c.keys.length := List.length_pos_of_ne_nil (hq c (by simp))
      have hq' : CellsOk q := fun c hc => hq c (by simp [hc])
      unfold getLoop
      split
      · exact noFuel_exception _
      · rename_i hd
        have hpos : 0 < c.keys.length * (cfg.depth + 2 - c.depth) := Nat.mul_pos hc (by omega)
        split
        · split
          · rename_i h; exact (noFuel_calcMinSplitIndex _ _).cast h
          · split
            · rename_i h; exact (noFuel_checkDescendants _ _ _ _).cast h
            · rename_i ds hds
              split
              · exact ih _ _ hq' (by omega)
              · split
                · rename_i h; exact (noFuel_splitPairs _ _ _).cast h
                · rename_i zs os hsp
                  split
                  · rename_i h; exact (noFuel_pushCell C _ _ _ _ _).cast h
                  · rename_i q1 hq1
                    split
                    · rename_i h; exact (noFuel_pushCell C _ _ _ _ _).cast h
                    · rename_i q2 hq2
                      obtain ⟨ho1, hw1⟩ := pushCell_weight (D := cfg.depth) hq' (pushCell_cases hq1)
                      obtain ⟨ho2, hw2⟩ := pushCell_weight (D := cfg.depth) ho1 (pushCell_cases hq2)
                      have hl : zs.length + os.length = ds.length := by
                        rw [← splitPairs_append hsp, List.length_append]
                      have := weight_split (D := cfg.depth) (d := c.depth) (l := c.keys.length)
                        (z := zs.length) (o := os.length) (by omega)
                        (by rw [hl]; exact checkDescendants_length hds) hc
                      exact ih _ _ ho2 (by omega)
        · split
          · rename_i h; exact (noFuel_getNode C _ _).cast h
          · split
            · split
              · rename_i h; exact (hdec _).cast h
              · split
                · exact ih _ _ hq' (by omega)
                · exact ih _ _ hq' (by omega)
            · exact noFuel_exception _
          · exact noFuel_exception _
        · exact noFuel_exception _

theorem noFuel_get (hdec : ∀ b, NoFuel (cfg.decode b)) (s : σ) (r : Arr N) (keys : List (Arr N)) :
    NoFuel (get cfg s r keys) := by
  unfold get
  split
  · exact noFuel_ok _
  · rename_i hne
    have hne' : keys ≠ [] := by simpa using hne
    have hlen : (sortKeys keys).length = keys.length := (sortKeys_perm keys).length_eq
    dsimp only
    split
    · rename_i h; exact (noFuel_getNode C _ _).cast h
    · exact noFuel_ok _
    · refine noFuel_getLoop C hdec s _ _ _ _ ?_ ?_
      · intro c hc
        simp only [List.mem_singleton] at hc
        subst hc
        dsimp only
        intro h
        rw [h] at hlen
        exact hne' (List.length_eq_zero_iff.1 hlen.symm)
      · simp [weight, traversalFuel, hlen]

theorem noFuel_getOneLoop (hdec : ∀ b, NoFuel (cfg.decode b)) (s : σ) (key : Arr N) :
    ∀ fuel q f d, cfg.depth + 2 - d ≤ fuel → 0 < fuel → NoFuel (getOneLoop cfg s key fuel q f d) := by
  intro fuel
  induction fuel with
  | zero => intro q f d _ h; omega
  | succ fuel ih =>
    intro q f d hw _
    cases q with
    | nil => exact noFuel_ok _
    | cons x q =>
      have hrec : ¬ d > cfg.depth → ∀ q f, NoFuel (getOneLoop cfg s key fuel q f (d + 1)) :=
        fun hd q f => ih q f (d + 1) (by omega) (by omega)
      unfold getOneLoop
      split
      · exact noFuel_exception _
      · rename_i hd
        have hrec := hrec hd
        split
        · rename_i h; exact (noFuel_getNode C _ _).cast h
        · exact hrec _ _
        · split
          · split
            · exact noFuel_exception _
            · split
              · rename_i h; exact (noFuel_calcMinSplitIndex _ _).cast h
              · split
                · rename_i h; exact (noFuel_checkDescendants _ _ _ _).cast h
                · split
                  · exact noFuel_ok _
                  · split
                    · rename_i h; exact (noFuel_chooseZero _ _).cast h
                    · exact hrec _ _
                    · exact hrec _ _
          · split
            · exact noFuel_exception _
            · split
              · exact noFuel_ok _
              · exact hrec _ _
          · split
            · exact noFuel_exception _
            · split
              · rename_i h; exact (hdec _).cast h
              · exact noFuel_ok _

theorem noFuel_getOne (hdec : ∀ b, NoFuel (cfg.decode b)) (s : σ) (r k : Arr N) :
    NoFuel (getOne cfg s r k) :=
  noFuel_getOneLoop C hdec s k _ _ _ _ (by omega) (by omega)

theorem noFuel_proofLoop (s : σ) (key : Arr N) :
    ∀ fuel q p f d, cfg.depth + 2 - d ≤ fuel → 0 < fuel →
      NoFuel (proofLoop cfg s key fuel q p f d) := by
  intro fuel
  induction fuel with
  | zero => intro q p f d _ h; omega
  | succ fuel ih =>
    intro q p f d hw _
    cases q with
    | nil => exact noFuel_ok _
    | cons x q =>
      have hrec : ¬ d > cfg.depth → ∀ q p f, NoFuel (proofLoop cfg s key fuel q p f (d + 1)) :=
        fun hd q p f => ih q p f (d + 1) (by omega) (by omega)
      unfold proofLoop
      split
      · exact noFuel_exception _
      · rename_i hd
        have hrec := hrec hd
        split
        · rename_i h; exact (noFuel_getNode C _ _).cast h
        · exact noFuel_exception _
        · split
          · split
            · exact noFuel_exception _
            · split
              · rename_i h; exact (noFuel_calcMinSplitIndex _ _).cast h
              · split
                · rename_i h; exact (noFuel_checkDescendants _ _ _ _).cast h
                · split
                  · exact noFuel_exception _
                  · split
                    · rename_i h; exact (noFuel_chooseZero _ _).cast h
                    · exact hrec _ _ _
                    · exact hrec _ _ _
          · split
            · exact noFuel_exception _
            · split
              · exact noFuel_exception _
              · exact hrec _ _ _
          · split
            · exact noFuel_exception _
            · exact hrec _ _ _

theorem noFuel_proof (s : σ) (r k : Arr N) : NoFuel (inclusionProof cfg s r k) := by
  have h := noFuel_proofLoop C s k (cfg.depth + 2) [r] [] false 0 (by omega) (by omega)
  unfold inclusionProof
  split
  · rename_i he; exact h.cast he
  · exact noFuel_ok _

theorem noFuel_generate (s : σ) (r k : Arr N) : NoFuel (generateInclusionProof cfg s r k) := by
  by_cases h : cfg.Room
  · rw [generateInclusionProof_room h]
    exact noFuel_proof C s r k
  · rw [generateInclusionProof_no_room h]
    exact noFuel_panic _

/-! ### Inserts -/

theorem nf_insertLeaf (x : Arr N) : NF (insertLeaf cfg x) := by
  unfold insertLeaf
  refine nf_bind (nf_dbGet C x) fun o _ => ?_
  cases o with
  | none => exact nf_exception _
  | some l => exact nf_dbInsert C _ _

theorem nf_splitNodes (d : Nat) (x : Arr N) (ks : List (Arr N)) : NF (splitNodes cfg d x ks) := by
  unfold splitNodes
  refine nf_bind (nf_dbGet C x) fun o _ => ?_
  cases o with
  | none => exact nf_exception _
  | some n =>
    dsimp only
    split
    · split
      · exact nf_bind (nf_dbInsert C _ _) fun _ _ => nf_pure _
      · exact nf_bind (nf_dbInsert C _ _) fun _ _ => nf_pure _
      · exact nf_exception _
    · exact nf_pure _

omit C in
theorem bind_ok_value {α β : Type} {m : M σ α} {f : α → M σ β} {s : σ} {b : β}
    (h : ((m >>= f) s).1 = .ok b) : ∃ a s', m s = (.ok a, s') ∧ (f a s').1 = .ok b := by
  change (M.bind m f s).1 = .ok b at h
  unfold M.bind at h
  rcases hm : m s with ⟨r, s'⟩
  rw [hm] at h
  cases r with
  | ok a => exact ⟨a, s', rfl, h⟩
  | error e => cases h

omit C in
theorem splitNodes_value {d : Nat} {x : Arr N} {ks : List (Arr N)} {s : σ} {r : SplitNodeType N}
    (h : (splitNodes cfg d x ks s).1 = .ok r) :
    (∃ t, r = .ref t) ∨ ∃ n, ks ≠ [] ∧ r = .cell ⟨x, ks, n, d + 1⟩ := by
  unfold splitNodes at h
  obtain ⟨o, s', -, h⟩ := bind_ok_value h
  cases o with
  | none => cases h
  | some n =>
    dsimp only at h
    split at h
    · generalize n.variant = v at h
      cases v with
      | branch b =>
        obtain ⟨_, _, -, h⟩ := bind_ok_value h
        exact .inl ⟨_, (by cases h; rfl)⟩
      | leaf l =>
        obtain ⟨_, _, -, h⟩ := bind_ok_value h
        exact .inl ⟨_, (by cases h; rfl)⟩
      | data d => cases h
    · rename_i hne
      exact .inr ⟨n, by simpa using hne, (by cases h; rfl)⟩

theorem nf_traverseTree (keyMap : AMap (Arr N) (Arr N)) :
    ∀ fuel pn q, CellsOk q → weight cfg.depth q < fuel → NF (traverseTree cfg keyMap fuel pn q) := by
  intro fuel
  induction fuel with
  | zero => intro pn q _ h; omega
  | succ fuel ih =>
    intro pn q hq hw
    cases q with
    | nil => exact nf_pure _
    | cons c q =>
      rw [weight_cons] at hw
      have hc : 0 < c.keys.length := List.length_pos_of_ne_nil (hq c (by simp))
      have hq' : CellsOk q := fun c hc => hq c (by simp [hc])
      unfold traverseTree
      split
      · exact nf_exception _
      · rename_i hd
        have hpos : 0 < c.keys.length * (cfg.depth + 2 - c.depth) := Nat.mul_pos hc (by omega)
        generalize c.node.variant = v
        cases v with
        | leaf n =>
          dsimp only
          split
          · split
            · exact nf_bind (nf_insertLeaf C _) fun _ _ => ih _ _ hq' (by omega)
            · exact ih _ _ hq' (by omega)
          · exact nf_bind (nf_insertLeaf C _) fun _ _ => ih _ _ hq' (by omega)
        | data d => exact nf_exception _
        | branch b =>
          dsimp only
          refine nf_bind (nf_lift (noFuel_calcMinSplitIndex _ _)) fun m _ => ?_
          refine nf_bind (nf_lift ?_) fun ds hds => ?_
          · split
            · exact noFuel_checkDescendants _ _ _ _
            · exact noFuel_ok _
          · have hlen : ds.length ≤ c.keys.length := by
              obtain ⟨s, hds⟩ := hds
              change (if _ then _ else _) = _ at hds
              split at hds
              · exact checkDescendants_length hds
              · cases hds; exact le_refl _
            split
            · exact nf_bind (nf_dbInsert C _ _) fun _ _ => ih _ _ hq' (by omega)
            · refine nf_bind (nf_lift (noFuel_splitPairs _ _ _)) fun zo hzo => ?_
              obtain ⟨zs, os⟩ := zo
              obtain ⟨_, hzo⟩ := hzo
              have hl : zs.length + os.length = ds.length := by
                rw [← splitPairs_append hzo, List.length_append]
              dsimp only
              refine nf_bind (nf_splitNodes C _ _ _) fun one h1 => ?_
              obtain ⟨_, h1⟩ := h1
              refine nf_bind (nf_splitNodes C _ _ _) fun zero h0 => ?_
              obtain ⟨_, h0⟩ := h0
              have push : ∀ {r : SplitNodeType N} {x ks} (pn : List (TreeRef N)) (q : List (TreeCell N)),
                  ((∃ t, r = .ref t) ∨ ∃ n, ks ≠ [] ∧ r = .cell ⟨x, ks, n, c.depth + 1⟩) →
                  (pushSplit pn q r).2 = q ∨
                    ∃ n, ks ≠ [] ∧ (pushSplit pn q r).2 = ⟨x, ks, n, c.depth + 1⟩ :: q := by
                rintro r x ks pn q (⟨t, rfl⟩ | ⟨n, hne, rfl⟩)
                · exact .inl rfl
                · exact .inr ⟨n, hne, rfl⟩
              obtain ⟨ho1, hw1⟩ := pushCell_weight (D := cfg.depth) hq'
                (push pn q (splitNodes_value h1))
              obtain ⟨ho2, hw2⟩ := pushCell_weight (D := cfg.depth) ho1
                (push (pushSplit pn q one).1 _ (splitNodes_value h0))
              have := weight_split (D := cfg.depth) (d := c.depth) (l := c.keys.length)
                (z := zs.length) (o := os.length) (by omega) (by omega) hc
              exact ih _ _ ho2 (by omega)

theorem nf_insertLeaves (henc : ∀ v, NoFuel (cfg.encode v)) (values : AMap (Arr N) V)
    (ks : List (Arr N)) : NF (insertLeaves cfg values ks) := by
  induction ks with
  | nil => exact nf_pure _
  | cons k ks ih =>
    unfold insertLeaves
    refine nf_bind (nf_lift ?_) fun v _ => ?_
    · split
      · exact henc _
      · exact noFuel_panic _
    · exact nf_bind (nf_dbGet C _) fun _ _ => nf_bind (nf_dbGet C _) fun _ _ =>
        nf_bind (nf_dbInsert C _ _) fun _ _ => nf_bind (nf_dbInsert C _ _) fun _ _ =>
        nf_bind ih fun _ _ => nf_pure _

theorem nf_mergeLoop (level : List QueueItem) : ∀ refs root, NF (mergeLoop cfg level refs root) := by
  induction level with
  | nil => intro refs root; exact nf_pure _
  | cons i level ih =>
    intro refs root
    obtain ⟨a, b, c⟩ := i
    unfold mergeLoop
    refine nf_bind (nf_lift (noFuel_refAt _ _)) fun _ _ => ?_
    refine nf_bind (nf_lift (noFuel_lookahead _ _ _)) fun x _ => ?_
    obtain ⟨p, n⟩ := x
    refine nf_bind (nf_lift (noFuel_refAt _ _)) fun _ _ => ?_
    exact nf_bind (nf_dbInsert C _ _) fun _ _ => ih _ _

theorem nf_levelsLoop (is : List Nat) : ∀ q refs root, NF (levelsLoop cfg is q refs root) := by
  induction is with
  | nil => intro q refs root; exact nf_pure _
  | cons i is ih =>
    intro q refs root
    unfold levelsLoop
    split
    · refine nf_bind ?_ fun x _ => ?_
      · unfold mergeNodes
        exact nf_bind (nf_mergeLoop C _ _ _) fun _ _ => nf_bind (nf_batchWrite C) fun _ _ => nf_pure _
      · obtain ⟨_, _⟩ := x
        exact ih _ _ _
    · exact nf_exception _

theorem nf_createTree (refs : List (TreeRef N)) : NF (createTree cfg refs) := by
  unfold createTree
  split
  · exact nf_exception _
  · exact nf_bind (nf_batchWrite C) fun _ _ => nf_pure _
  · refine nf_bind (nf_lift (noFuel_generateTreeRefQueue _)) fun x _ => ?_
    obtain ⟨q, bits⟩ := x
    refine nf_bind (nf_levelsLoop C _ _ _ _) fun o _ => ?_
    cases o with
    | none => exact nf_exception _
    | some r => exact nf_pure _

theorem nf_generateTreerefs {keys : List (Arr N)} (hne : keys ≠ []) (root : Arr N)
    (keyMap : AMap (Arr N) (Arr N)) : NF (generateTreerefs cfg root keys keyMap) := by
  unfold generateTreerefs
  refine nf_bind (nf_dbGet C _) fun o _ => ?_
  cases o with
  | none => exact nf_exception _
  | some n =>
    refine nf_traverseTree C keyMap _ _ _ ?_ ?_
    · intro c hc
      simp only [List.mem_singleton] at hc
      subst hc
      exact hne
    · simp [weight, traversalFuel]

theorem nf_insert (henc : ∀ v, NoFuel (cfg.encode v)) (prev : Option (Arr N)) (keys : List (Arr N))
    (values : List V) : NF (insert cfg prev keys values) := by
  unfold insert
  split
  · exact nf_exception _
  · split
    · exact nf_exception _
    · rename_i hne
      have hne' : sortKeys keys ≠ [] := by
        intro h
        have := (sortKeys_perm keys).length_eq
        rw [h] at this
        rw [List.length_eq_zero_iff.1 this.symm] at hne
        simp at hne
      refine nf_bind (nf_insertLeaves C henc _ _) fun nodes _ => ?_
      cases prev with
      | none => exact nf_bind (nf_pure _) fun _ _ => nf_createTree C _
      | some r => exact nf_bind (nf_generateTreerefs C hne' _ _) fun _ _ => nf_createTree C _

theorem nf_insertOne (henc : ∀ v, NoFuel (cfg.encode v)) (prev : Option (Arr N)) (key : Arr N)
    (value : V) : NF (insertOne cfg prev key value) := by
  unfold insertOne
  refine nf_bind (nf_insertLeaves C henc _ _) fun nodes _ => ?_
  cases nodes with
  | nil => exact nf_panic _
  | cons l ls =>
    cases prev with
    | none => exact nf_bind (nf_pure _) fun _ _ => nf_createTree C _
    | some r => exact nf_bind (nf_generateTreerefs C (by simp) _ _) fun _ _ => nf_createTree C _

/-! ### Removes -/

theorem removeLoop_noFuel : ∀ fuel q s, 2 * (C.view s).size + q.length ≤ fuel →
    NoFuel (removeLoop cfg fuel q s).1 := by
  intro fuel
  induction fuel with
  | zero =>
    intro q s h
    rw [List.length_eq_zero_iff.1 (by omega : q.length = 0)]
    exact noFuel_ok _
  | succ fuel ih =>
    intro q s hw
    cases q with
    | nil => exact noFuel_ok _
    | cons x q =>
      simp only [List.length_cons] at hw
      unfold removeLoop
      change NoFuel (M.bind (dbGet cfg x) _ s).1
      unfold M.bind dbGet M.read
      dsimp only
      cases hg : cfg.db.getNode s x with
      | error e => exact (noFuel_getNode C s x).cast hg
      | ok o =>
        have hv := C.getNode_ok hg
        cases o with
        | none => exact ih _ _ (by omega)
        | some n =>
          have hx : (C.view s x).isSome := by rw [← hv]; rfl
          dsimp only
          -- deleting the node and enqueueing at most two others
          have hdel : ∀ l : List (Arr N), l.length ≤ 2 →
              NoFuel (M.bind (cfg.db.remove x) (fun _ => removeLoop cfg fuel (q ++ l)) s).1 := by
            intro l hl
            unfold M.bind
            rcases hr : cfg.db.remove x s with ⟨r, s'⟩
            cases r with
            | error e =>
              have := nf_dbRemove C x s
              rw [hr] at this
              exact this.cast rfl
            | ok u =>
              dsimp only
              apply ih
              obtain ⟨-, h1, -⟩ := C.remove_ok hr
              have := View.size_del hx
              rw [h1, List.length_append]
              omega
          split
          · generalize n.variant = v
            cases v with
            | branch b => exact hdel [b.zero, b.one] (by simp)
            | leaf l => exact hdel [l.data] (by simp)
            | data d =>
              have := hdel [] (by simp)
              rw [List.append_nil] at this
              exact this
          · change NoFuel (M.bind (cfg.db.insert x _) _ s).1
            unfold M.bind
            rcases hr : cfg.db.insert x ⟨n.references - 1, n.variant⟩ s with ⟨r, s'⟩
            cases r with
            | error e =>
              have := nf_dbInsert C x ⟨n.references - 1, n.variant⟩ s
              rw [hr] at this
              exact this.cast rfl
            | ok u =>
              dsimp only
              apply ih
              obtain ⟨-, h1⟩ := C.insert_ok hr
              have : (C.view s').size = (C.view s).size := by
                rcases h1 with ⟨-, h1, -⟩ | ⟨h1, -⟩
                · rw [h1]; exact View.size_put hx
                · rw [h1]
              omega

theorem nf_remove (r : Arr N) : NF (remove cfg r) := by
  unfold remove
  refine nf_bind ?_ fun _ _ => nf_batchWrite C
  intro s
  refine removeLoop_noFuel C _ _ _ ?_
  have := View.size_le (C.view s)
  simp only [List.length_singleton]
  unfold removeFuel
  omega

end

end MerkleBit
