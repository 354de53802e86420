import Verif.Proof.Reserve
import Verif.Spec.Program
import Verif.Spec.Hashed
/-!
# Databases that cannot be told apart

If the operations of two databases give the same results from related states and lead to related
states, then so do all calls.
-/

namespace MerkleBit
variable {N : Nat} {σ τ V α β : Type}

/-- The operations of two databases agree on related states. -/
structure Matches (R : σ → τ → Prop) (db : Database N σ) (db' : Database N τ) : Prop where
  get : ∀ {s t}, R s t → ∀ x, db'.getNode t x = db.getNode s x
  insert : ∀ {s t}, R s t → ∀ x n,
    (db'.insert x n t).1 = (db.insert x n s).1 ∧ R (db.insert x n s).2 (db'.insert x n t).2
  remove : ∀ {s t}, R s t → ∀ x,
    (db'.remove x t).1 = (db.remove x s).1 ∧ R (db.remove x s).2 (db'.remove x t).2
  flush : ∀ {s t}, R s t →
    (db'.batchWrite t).1 = (db.batchWrite s).1 ∧ R (db.batchWrite s).2 (db'.batchWrite t).2

namespace Matches

/-- Two computations agree on related states. -/
def Same (R : σ → τ → Prop) (m : M σ α) (m' : M τ α) : Prop :=
  ∀ s t, R s t → (m' t).1 = (m s).1 ∧ R (m s).2 (m' t).2

variable {R : σ → τ → Prop}

theorem pure (a : α) : Same R (M.pure a : M σ α) (M.pure a) := fun _ _ h => ⟨rfl, h⟩

theorem throw (e : Err) : Same R (M.throw e : M σ α) (M.throw e) := fun _ _ h => ⟨rfl, h⟩

theorem lift (r : Res α) : Same R (M.lift r : M σ α) (M.lift r) := fun _ _ h => ⟨rfl, h⟩

theorem bind {m : M σ α} {m' : M τ α} {f : α → M σ β} {f' : α → M τ β}
    (h : Same R m m') (hf : ∀ a, Same R (f a) (f' a)) : Same R (m.bind f) (m'.bind f') := by
  intro s t hst
  unfold M.bind
  obtain ⟨h1, h2⟩ := h s t hst
  rcases hm : m s with ⟨r, s'⟩
  rcases hm' : m' t with ⟨r', t'⟩
  rw [hm, hm'] at h1 h2
  dsimp only at h1 h2
  subst h1
  cases r' with
  | error e => exact ⟨rfl, h2⟩
  | ok a => exact hf a _ _ h2

variable {cfg : Config N σ V} {db' : Database N τ} (H : Matches R cfg.db db')
include H

theorem dbGet (x : Arr N) : Same R (MerkleBit.dbGet cfg x) (MerkleBit.dbGet (cfg.withDb db') x) :=
  fun _ _ h => ⟨H.get h x, h⟩

theorem put (x : Arr N) (n : Node N) :
    Same R (cfg.db.insert x n) ((cfg.withDb db').db.insert x n) := fun _ _ h => H.insert h x n

theorem del (x : Arr N) : Same R (cfg.db.remove x) ((cfg.withDb db').db.remove x) :=
  fun _ _ h => H.remove h x

theorem batchWrite : Same R cfg.db.batchWrite (cfg.withDb db').db.batchWrite := fun _ _ h => H.flush h

theorem insertLeaf (x : Arr N) :
    Same R (MerkleBit.insertLeaf cfg x) (MerkleBit.insertLeaf (cfg.withDb db') x) := by
  unfold MerkleBit.insertLeaf
  refine bind (H.dbGet x) fun o => ?_
  cases o with
  | none => exact throw _
  | some n => exact H.put _ _

theorem splitNodes (d : Nat) (x : Arr N) (ks : List (Arr N)) :
    Same R (MerkleBit.splitNodes cfg d x ks) (MerkleBit.splitNodes (cfg.withDb db') d x ks) := by
  unfold MerkleBit.splitNodes
  refine bind (H.dbGet x) fun o => ?_
  cases o with
  | none => exact throw _
  | some n =>
    dsimp only
    split
    · split
      · exact bind (H.put _ _) fun _ => pure _
      · exact bind (H.put _ _) fun _ => pure _
      · exact throw _
    · exact pure _

theorem traverseTree (km : AMap (Arr N) (Arr N)) : ∀ (fuel : Nat) (pn : List (TreeRef N))
    (q : List (TreeCell N)), Same R (MerkleBit.traverseTree cfg km fuel pn q)
      (MerkleBit.traverseTree (cfg.withDb db') km fuel pn q)
  | _, pn, [] => by
    unfold MerkleBit.traverseTree
    exact pure _
  | 0, _, _ :: _ => by
    unfold MerkleBit.traverseTree
    exact throw _
  | fuel + 1, pn, cell :: q => by
    unfold MerkleBit.traverseTree
    by_cases hd : cell.depth > cfg.depth
    · rw [if_pos hd, if_pos (show cell.depth > (cfg.withDb db').depth from hd)]
      exact throw _
    · rw [if_neg hd, if_neg (show ¬ cell.depth > (cfg.withDb db').depth from hd)]
      split
      · split
        · split
          · exact bind (H.insertLeaf _) fun _ => traverseTree km fuel _ _
          · exact traverseTree km fuel _ _
        · exact bind (H.insertLeaf _) fun _ => traverseTree km fuel _ _
      · exact throw _
      · refine bind (lift _) fun msi => bind (lift _) fun ds => ?_
        split
        · exact bind (H.put _ _) fun _ => traverseTree km fuel _ _
        · refine bind (lift _) fun zo => ?_
          obtain ⟨zs, os⟩ := zo
          exact bind (H.splitNodes _ _ _) fun one => bind (H.splitNodes _ _ _) fun zero =>
            traverseTree km fuel _ _

theorem generateTreerefs (r : Arr N) (ks : List (Arr N)) (km : AMap (Arr N) (Arr N)) :
    Same R (MerkleBit.generateTreerefs cfg r ks km)
      (MerkleBit.generateTreerefs (cfg.withDb db') r ks km) := by
  unfold MerkleBit.generateTreerefs
  refine bind (H.dbGet r) fun o => ?_
  cases o with
  | none => exact throw _
  | some n => exact H.traverseTree _ _ _ _

theorem insertLeaves (vm : AMap (Arr N) V) : ∀ ks : List (Arr N),
    Same R (MerkleBit.insertLeaves cfg vm ks) (MerkleBit.insertLeaves (cfg.withDb db') vm ks)
  | [] => pure _
  | k :: ks => by
    unfold MerkleBit.insertLeaves
    exact bind (lift _) fun v => bind (H.dbGet _) fun od => bind (H.dbGet _) fun ol =>
      bind (H.put _ _) fun _ => bind (H.put _ _) fun _ => bind (insertLeaves vm ks) fun _ => pure _

theorem mergeLoop : ∀ (level : List QueueItem) (refs : List (TreeRef N)) (root : Arr N),
    Same R (MerkleBit.mergeLoop cfg level refs root)
      (MerkleBit.mergeLoop (cfg.withDb db') level refs root)
  | [], _, _ => pure _
  | (a, b, c) :: level, refs, root => by
    unfold MerkleBit.mergeLoop
    refine bind (lift _) fun r1 => bind (lift _) fun l => ?_
    obtain ⟨lp, lc⟩ := l
    exact bind (lift _) fun r2 => bind (H.put _ _) fun _ => mergeLoop level _ _

theorem levelsLoop : ∀ (is : List Nat) (q : AMap Nat (List QueueItem))
    (refs : List (TreeRef N)) (root : Option (Arr N)),
    Same R (MerkleBit.levelsLoop cfg is q refs root)
      (MerkleBit.levelsLoop (cfg.withDb db') is q refs root)
  | [], _, _, _ => pure _
  | i :: is, q, refs, root => by
    unfold MerkleBit.levelsLoop
    split
    · refine bind ?_ fun r => ?_
      · unfold mergeNodes
        exact bind (H.mergeLoop _ _ _) fun r => bind H.batchWrite fun _ => pure _
      · obtain ⟨refs', root'⟩ := r
        exact levelsLoop is _ _ _
    · exact throw _

theorem createTree (refs : List (TreeRef N)) :
    Same R (MerkleBit.createTree cfg refs) (MerkleBit.createTree (cfg.withDb db') refs) := by
  unfold MerkleBit.createTree
  split
  · exact throw _
  · exact bind H.batchWrite fun _ => pure _
  · refine bind (lift _) fun qb => ?_
    obtain ⟨q, bits⟩ := qb
    refine bind (H.levelsLoop _ _ _ _) fun o => ?_
    cases o with
    | none => exact throw _
    | some r => exact pure _

theorem insertCall (prev : Option (Arr N)) (keys : List (Arr N)) (values : List V) :
    Same R (MerkleBit.insert cfg prev keys values)
      (MerkleBit.insert (cfg.withDb db') prev keys values) := by
  unfold MerkleBit.insert
  split
  · exact throw _
  · split
    · exact throw _
    · refine bind (H.insertLeaves _ _) fun nodes => ?_
      cases prev with
      | none => exact bind (pure _) fun _ => H.createTree _
      | some r => exact bind (H.generateTreerefs _ _ _) fun _ => H.createTree _

theorem insertOne (prev : Option (Arr N)) (key : Arr N) (value : V) :
    Same R (MerkleBit.insertOne cfg prev key value)
      (MerkleBit.insertOne (cfg.withDb db') prev key value) := by
  unfold MerkleBit.insertOne
  refine bind (H.insertLeaves _ _) fun nodes => ?_
  split
  · exact throw _
  · cases prev with
    | none => exact bind (pure _) fun _ => H.createTree _
    | some r => exact bind (H.generateTreerefs _ _ _) fun _ => H.createTree _

theorem removeLoop : ∀ (fuel : Nat) (q : List (Arr N)),
    Same R (MerkleBit.removeLoop cfg fuel q) (MerkleBit.removeLoop (cfg.withDb db') fuel q)
  | _, [] => by
    unfold MerkleBit.removeLoop
    exact pure _
  | 0, _ :: _ => by
    unfold MerkleBit.removeLoop
    exact throw _
  | fuel + 1, x :: q => by
    unfold MerkleBit.removeLoop
    refine bind (H.dbGet x) fun o => ?_
    cases o with
    | none => exact removeLoop fuel q
    | some n =>
      dsimp only
      split
      · split
        · exact bind (H.del _) fun _ => removeLoop fuel _
        · exact bind (H.del _) fun _ => removeLoop fuel _
        · exact bind (H.del _) fun _ => removeLoop fuel _
      · exact bind (H.put _ _) fun _ => removeLoop fuel _

theorem removeCall (r : Arr N) :
    Same R (MerkleBit.remove cfg r) (MerkleBit.remove (cfg.withDb db') r) := by
  unfold MerkleBit.remove
  exact bind (H.removeLoop _ _) fun _ => H.batchWrite

end Matches

/-! ## Reads -/

section reads
variable {cfg : Config N σ V} {db' : Database N τ} {s : σ} {t : τ}
  (h : ∀ x, db'.getNode t x = cfg.db.getNode s x)
include h

theorem pushCell_same (q : List (TreeCell N)) (d : Nat) (x : Arr N) (ks : List (Arr N)) :
    pushCellIfNode (cfg.withDb db') t q d x ks = pushCellIfNode cfg s q d x ks := by
  unfold pushCellIfNode
  dsimp only [Config.withDb]
  rw [h x]

theorem getLoop_same (keys : List (Arr N)) : ∀ fuel q m,
    getLoop (cfg.withDb db') t keys fuel q m = getLoop cfg s keys fuel q m := by
  intro fuel
  induction fuel with
  | zero => intro q m; cases q <;> simp [getLoop]
  | succ fuel ih =>
    intro q m
    cases q with
    | nil => simp [getLoop]
    | cons c q =>
      unfold getLoop
      simp only [pushCell_same h, ih]
      simp only [Config.withDb, h]

theorem getOneLoop_same (key : Arr N) : ∀ fuel q b d,
    getOneLoop (cfg.withDb db') t key fuel q b d = getOneLoop cfg s key fuel q b d := by
  intro fuel
  induction fuel with
  | zero => intro q b d; cases q <;> simp [getOneLoop]
  | succ fuel ih =>
    intro q b d
    cases q with
    | nil => simp [getOneLoop]
    | cons c q =>
      unfold getOneLoop
      simp only [ih]
      simp only [Config.withDb, h]

theorem proofLoop_same (key : Arr N) : ∀ fuel q p b d,
    proofLoop (cfg.withDb db') t key fuel q p b d = proofLoop cfg s key fuel q p b d := by
  intro fuel
  induction fuel with
  | zero => intro q p b d; cases q <;> simp [proofLoop]
  | succ fuel ih =>
    intro q p b d
    cases q with
    | nil => simp [proofLoop]
    | cons c q =>
      unfold proofLoop
      simp only [ih]
      simp only [Config.withDb, h]

theorem get_same (r : Arr N) (ks : List (Arr N)) :
    get (cfg.withDb db') t r ks = get cfg s r ks := by
  unfold get
  simp only [getLoop_same h]
  simp only [Config.withDb, h]
  rfl

theorem getOne_same (r k : Arr N) : getOne (cfg.withDb db') t r k = getOne cfg s r k :=
  getOneLoop_same h _ _ _ _ _

theorem proof_same (r k : Arr N) :
    inclusionProof (cfg.withDb db') t r k = inclusionProof cfg s r k := by
  unfold inclusionProof
  rw [proofLoop_same h]
  rfl

end reads

/-! ## Programs -/

variable {R : σ → τ → Prop} {cfg : Config N σ V} {db' : Database N τ}

/-- Related states answer a request alike and stay related. -/
theorem Matches.run (H : Matches R cfg.db db') {s : σ} {t : τ} (h : R s t) (q : Request N V) :
    (q.run (cfg.withDb db') t).1 = (q.run cfg s).1 ∧
      R (q.run cfg s).2 (q.run (cfg.withDb db') t).2 := by
  cases q with
  | get r ks => exact ⟨congrArg _ (get_same (H.get h) r ks), h⟩
  | getOne r k => exact ⟨congrArg _ (getOne_same (H.get h) r k), h⟩
  | proof r k =>
    exact ⟨congrArg _ (generateInclusionProof_congr (cfg := cfg) (cfg' := cfg.withDb db') rfl
      (proof_same (H.get h) r k)), h⟩
  | insert prev ks vs =>
    obtain ⟨h1, h2⟩ := H.insertCall prev ks vs s t h
    exact ⟨congrArg _ h1, h2⟩
  | insertOne prev k v =>
    obtain ⟨h1, h2⟩ := H.insertOne prev k v s t h
    exact ⟨congrArg _ h1, h2⟩
  | remove r =>
    obtain ⟨h1, h2⟩ := H.removeCall r s t h
    exact ⟨congrArg _ h1, h2⟩

/-- Related states answer a program alike and stay related. -/
theorem Matches.runRequests (H : Matches R cfg.db db') : ∀ (qs : List (Request N V)) {s : σ} {t : τ},
    R s t → (runRequests (cfg.withDb db') qs t).1 = (runRequests cfg qs s).1 ∧
      R (runRequests cfg qs s).2 (runRequests (cfg.withDb db') qs t).2
  | [], _, _, h => ⟨rfl, h⟩
  | q :: qs, s, t, h => by
    obtain ⟨h1, h2⟩ := H.run h q
    obtain ⟨h3, h4⟩ := H.runRequests qs h2
    refine ⟨?_, h4⟩
    simp only [MerkleBit.runRequests, h1, h3]

end MerkleBit
