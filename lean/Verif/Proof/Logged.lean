import Verif.Spec.Hashed
import Verif.Proof.Hoare
/-!
# Runs on instrumented databases

A guarded database refuses nodes whose hash input is not in `U`.  A run on the plain database, the
recorded run and (if everything recorded is in `U`) the guarded run do the same.
-/

namespace MerkleBit
variable {N : Nat} {σ V α β : Type}

open Classical in
/-- A database that refuses nodes with a hash input outside `U`, and remembers having done so. -/
noncomputable def guardDb (U : HIn N → Prop) (db : Database N σ) : Database N (σ × Bool) where
  getNode s x := db.getNode s.1 x
  insert x n s :=
    if ∀ i, n.variant.input = some i → U i then
      ((db.insert x n s.1).1, ((db.insert x n s.1).2, s.2))
    else (.error .outOfFuel, (s.1, true))
  remove x s := ((db.remove x s.1).1, ((db.remove x s.1).2, s.2))
  batchWrite s := ((db.batchWrite s.1).1, ((db.batchWrite s.1).2, s.2))

/-- Successful inserts are of nodes with inputs in `U`. -/
def Guards (U : HIn N → Prop) (db : Database N σ) : Prop :=
  ∀ {s s' x n}, db.insert x n s = (.ok (), s') → ∀ i, n.variant.input = some i → U i

theorem guardDb_guards (U : HIn N → Prop) (db : Database N σ) : Guards U (guardDb U db) := by
  intro s s' x n h
  unfold guardDb at h
  dsimp only at h
  split at h
  · assumption
  · cases h

/-- The contract of the guarded database. -/
noncomputable def DbContract.guard {db : Database N σ} (C : DbContract db) (U : HIn N → Prop) :
    GContract (guardDb U db) where
  view s := C.view s.1
  pending s := C.pending s.1
  alive s := C.alive s.1
  bad s := s.2 = true
  getNode_ok h := C.getNode_ok h
  getNode_err h := C.getNode_err h
  insert_ok := by
    intro s s' x n h
    unfold guardDb at h
    dsimp only at h
    split at h
    · obtain ⟨h1, rfl⟩ := Prod.mk.inj h
      exact C.insert_ok (Prod.ext h1 rfl)
    · cases h
  insert_err := by
    intro s s' x n e h
    unfold guardDb at h
    dsimp only at h
    split at h
    · obtain ⟨h1, rfl⟩ := Prod.mk.inj h
      exact .inr (C.insert_err (Prod.ext h1 rfl))
    · cases h
      exact .inl rfl
  remove_ok := by
    intro s s' x h
    obtain ⟨h1, rfl⟩ := Prod.mk.inj h
    exact C.remove_ok (Prod.ext h1 rfl)
  remove_err := by
    intro s s' x e h
    obtain ⟨h1, rfl⟩ := Prod.mk.inj h
    exact C.remove_err (Prod.ext h1 rfl)
  batchWrite_ok := by
    intro s s' h
    obtain ⟨h1, rfl⟩ := Prod.mk.inj h
    exact C.batchWrite_ok (Prod.ext h1 rfl)
  batchWrite_err := by
    intro s s' e h
    obtain ⟨h1, rfl⟩ := Prod.mk.inj h
    exact C.batchWrite_err (Prod.ext h1 rfl)

theorem triple_insert_guard {db : Database N σ} {C : GContract db} {U : HIn N → Prop}
    (hg : Guards U db) {Ex : Err → Prop} {P E : σ → Prop} {x : Arr N} {n : Node N}
    {Q : Unit → σ → Prop}
    (h : ∀ s s', P s → (∀ i, n.variant.input = some i → U i) → Wrote C s s' x n → Q () s')
    (hE : ∀ s s', P s → C.view s' = C.view s → C.pending s' = C.pending s → E s') :
    Triple C Ex P (db.insert x n) Q E := by
  intro s hs
  rcases hi : db.insert x n s with ⟨r, s'⟩
  cases r with
  | ok u => exact ⟨(C.insert_ok hi).1, h s s' hs (hg hi) (C.insert_ok hi).2⟩
  | error e =>
    rcases C.insert_err hi with this | this
    · exact .inl this
    · exact .inr ⟨.inr ⟨this.1, this.2.1⟩, hE s s' hs this.2.2.1 this.2.2.2⟩

/-! ## The three runs -/

/-- The plain, the recorded and the guarded run agree. -/
def Sim (U : HIn N → Prop) (m : M σ α) (ml : M (σ × List (HIn N)) α) (mg : M (σ × Bool) α) : Prop :=
  ∀ s l, ∃ l', ml (s, l) = ((m s).1, ((m s).2, l' ++ l)) ∧
    ((∀ i ∈ l', U i) → mg (s, false) = ((m s).1, ((m s).2, false))) ∧ ∀ k b, HIn.data k b ∉ l'

variable {U : HIn N → Prop}

theorem sim_pure (a : α) : Sim U (M.pure a : M σ α) (M.pure a) (M.pure a) :=
  fun _ _ => ⟨[], rfl, fun _ => rfl, by simp⟩

theorem sim_throw (e : Err) : Sim U (M.throw e : M σ α) (M.throw e) (M.throw e) :=
  fun _ _ => ⟨[], rfl, fun _ => rfl, by simp⟩

theorem sim_lift (r : Res α) : Sim U (M.lift r : M σ α) (M.lift r) (M.lift r) :=
  fun _ _ => ⟨[], rfl, fun _ => rfl, by simp⟩

theorem sim_bind {m : M σ α} {ml : M (σ × List (HIn N)) α} {mg : M (σ × Bool) α}
    {f : α → M σ β} {fl : α → M (σ × List (HIn N)) β} {fg : α → M (σ × Bool) β}
    (h : Sim U m ml mg) (hf : ∀ a, Sim U (f a) (fl a) (fg a)) :
    Sim U (m.bind f) (ml.bind fl) (mg.bind fg) := by
  intro s l
  obtain ⟨l1, h1, h2, hn1⟩ := h s l
  unfold M.bind
  rw [h1]
  rcases hm : m s with ⟨r, s'⟩
  rw [hm] at h2
  cases r with
  | error e => exact ⟨l1, rfl, fun hl => by rw [h2 hl], hn1⟩
  | ok a =>
    obtain ⟨l2, h3, h4, hn2⟩ := hf a s' (l1 ++ l)
    refine ⟨l2 ++ l1, ?_, ?_, fun k b h => (List.mem_append.1 h).elim (hn2 k b) (hn1 k b)⟩
    · dsimp only
      rw [h3, List.append_assoc]
    · intro hl
      rw [h2 (fun i hi => hl i (List.mem_append_right _ hi))]
      exact h4 (fun i hi => hl i (List.mem_append_left _ hi))

section
variable (U) (cfg : Config N σ V)

/-- The tree on the recording database. -/
abbrev lcfg : Config N (σ × List (HIn N)) V := cfg.withDb (logDb cfg.db)
/-- The tree on the guarded database. -/
noncomputable abbrev gcfg : Config N (σ × Bool) V := cfg.withDb (guardDb U cfg.db)

theorem sim_insert (x : Arr N) (n : Node N) :
    Sim U (cfg.db.insert x n) ((lcfg cfg).db.insert x n) ((gcfg U cfg).db.insert x n) := by
  intro s l
  refine ⟨n.variant.input.toList, rfl, ?_, by cases n.variant <;> simp [Variant.input]⟩
  intro hl
  have : ∀ i, n.variant.input = some i → U i := fun i hi => hl i (by simp [hi])
  simp only [Config.withDb, guardDb]
  rw [if_pos this]

theorem sim_batchWrite :
    Sim U cfg.db.batchWrite (lcfg cfg).db.batchWrite (gcfg U cfg).db.batchWrite :=
  fun _ _ => ⟨[], rfl, fun _ => rfl, by simp⟩

theorem sim_dbGet (x : Arr N) : Sim U (dbGet cfg x) (dbGet (lcfg cfg) x) (dbGet (gcfg U cfg) x) :=
  fun _ _ => ⟨[], rfl, fun _ => rfl, by simp⟩

theorem sim_insertLeaf (x : Arr N) :
    Sim U (insertLeaf cfg x) (insertLeaf (lcfg cfg) x) (insertLeaf (gcfg U cfg) x) := by
  unfold insertLeaf
  apply sim_bind (sim_dbGet U cfg x)
  intro o
  cases o with
  | none => exact sim_throw _
  | some n => exact sim_insert U cfg _ _

theorem sim_splitNodes (d : Nat) (x : Arr N) (ks : List (Arr N)) :
    Sim U (splitNodes cfg d x ks) (splitNodes (lcfg cfg) d x ks) (splitNodes (gcfg U cfg) d x ks) := by
  unfold splitNodes
  apply sim_bind (sim_dbGet U cfg x)
  intro o
  cases o with
  | none => exact sim_throw _
  | some n =>
    dsimp only
    split
    · split
      · exact sim_bind (sim_insert U cfg _ _) (fun _ => sim_pure _)
      · exact sim_bind (sim_insert U cfg _ _) (fun _ => sim_pure _)
      · exact sim_throw _
    · exact sim_pure _

theorem sim_traverseTree (km : AMap (Arr N) (Arr N)) : ∀ (fuel : Nat) (pn : List (TreeRef N))
    (q : List (TreeCell N)), Sim U (traverseTree cfg km fuel pn q)
      (traverseTree (lcfg cfg) km fuel pn q) (traverseTree (gcfg U cfg) km fuel pn q)
  | _, pn, [] => by
    unfold traverseTree
    exact sim_pure _
  | 0, _, _ :: _ => by
    unfold traverseTree
    exact sim_throw _
  | fuel + 1, pn, cell :: q => by
    unfold traverseTree
    by_cases hd : cell.depth > cfg.depth
    · rw [if_pos hd, if_pos (show cell.depth > (lcfg cfg).depth from hd),
        if_pos (show cell.depth > (gcfg U cfg).depth from hd)]
      exact sim_throw _
    · rw [if_neg hd, if_neg (show ¬ cell.depth > (lcfg cfg).depth from hd),
        if_neg (show ¬ cell.depth > (gcfg U cfg).depth from hd)]
      split
      · split
        · split
          · exact sim_bind (sim_insertLeaf U cfg _) (fun _ => sim_traverseTree km fuel _ _)
          · exact sim_traverseTree km fuel _ _
        · exact sim_bind (sim_insertLeaf U cfg _) (fun _ => sim_traverseTree km fuel _ _)
      · exact sim_throw _
      · apply sim_bind (sim_lift _)
        intro msi
        apply sim_bind (sim_lift _)
        intro ds
        split
        · exact sim_bind (sim_insert U cfg _ _) (fun _ => sim_traverseTree km fuel _ _)
        · apply sim_bind (sim_lift _)
          rintro ⟨zs, os⟩
          apply sim_bind (sim_splitNodes U cfg _ _ _)
          intro one
          apply sim_bind (sim_splitNodes U cfg _ _ _)
          intro zero
          exact sim_traverseTree km fuel _ _

theorem sim_generateTreerefs (r : Arr N) (ks : List (Arr N)) (km : AMap (Arr N) (Arr N)) :
    Sim U (generateTreerefs cfg r ks km) (generateTreerefs (lcfg cfg) r ks km)
      (generateTreerefs (gcfg U cfg) r ks km) := by
  unfold generateTreerefs
  apply sim_bind (sim_dbGet U cfg r)
  intro o
  cases o with
  | none => exact sim_throw _
  | some n => exact sim_traverseTree U cfg _ _ _ _

theorem sim_insertLeaves (vm : AMap (Arr N) V) : ∀ ks : List (Arr N),
    Sim U (insertLeaves cfg vm ks) (insertLeaves (lcfg cfg) vm ks) (insertLeaves (gcfg U cfg) vm ks)
  | [] => sim_pure _
  | k :: ks => by
    unfold insertLeaves
    apply sim_bind (sim_lift _)
    intro v
    apply sim_bind (sim_dbGet U cfg _)
    intro od
    apply sim_bind (sim_dbGet U cfg _)
    intro ol
    apply sim_bind (sim_insert U cfg _ _)
    intro _
    apply sim_bind (sim_insert U cfg _ _)
    intro _
    apply sim_bind (sim_insertLeaves vm ks)
    intro rest
    exact sim_pure _

theorem sim_mergeLoop : ∀ (level : List QueueItem) (refs : List (TreeRef N)) (root : Arr N),
    Sim U (mergeLoop cfg level refs root) (mergeLoop (lcfg cfg) level refs root)
      (mergeLoop (gcfg U cfg) level refs root)
  | [], _, _ => sim_pure _
  | (a, b, c) :: level, refs, root => by
    unfold mergeLoop
    apply sim_bind (sim_lift _)
    intro r1
    apply sim_bind (sim_lift _)
    rintro ⟨lp, lc⟩
    apply sim_bind (sim_lift _)
    intro r2
    apply sim_bind (sim_insert U cfg _ _)
    intro _
    exact sim_mergeLoop level _ _

theorem sim_levelsLoop : ∀ (is : List Nat) (q : AMap Nat (List QueueItem))
    (refs : List (TreeRef N)) (root : Option (Arr N)),
    Sim U (levelsLoop cfg is q refs root) (levelsLoop (lcfg cfg) is q refs root)
      (levelsLoop (gcfg U cfg) is q refs root)
  | [], _, _, _ => sim_pure _
  | i :: is, q, refs, root => by
    unfold levelsLoop
    split
    · apply sim_bind
      · unfold mergeNodes
        apply sim_bind (sim_mergeLoop U cfg _ _ _)
        intro r
        exact sim_bind (sim_batchWrite U cfg) (fun _ => sim_pure _)
      · rintro ⟨refs', root'⟩
        exact sim_levelsLoop is _ _ _
    · exact sim_throw _

theorem sim_createTree (refs : List (TreeRef N)) :
    Sim U (createTree cfg refs) (createTree (lcfg cfg) refs) (createTree (gcfg U cfg) refs) := by
  unfold createTree
  split
  · exact sim_throw _
  · exact sim_bind (sim_batchWrite U cfg) (fun _ => sim_pure _)
  · apply sim_bind (sim_lift _)
    rintro ⟨q, bits⟩
    apply sim_bind (sim_levelsLoop U cfg _ _ _ _)
    intro o
    cases o with
    | none => exact sim_throw _
    | some r => exact sim_pure _

theorem sim_insertCall (prev : Option (Arr N)) (keys : List (Arr N)) (values : List V) :
    Sim U (insert cfg prev keys values) (insert (lcfg cfg) prev keys values)
      (insert (gcfg U cfg) prev keys values) := by
  unfold insert
  split
  · exact sim_throw _
  · split
    · exact sim_throw _
    · apply sim_bind (sim_insertLeaves U cfg _ _)
      intro nodes
      cases prev with
      | none => exact sim_bind (sim_pure _) (fun _ => sim_createTree U cfg _)
      | some r => exact sim_bind (sim_generateTreerefs U cfg _ _ _) (fun _ => sim_createTree U cfg _)

end

/-- A call that hashes only inputs in `U` runs the same on the guarded database. -/
theorem insert_guarded {cfg : Config N σ V} {prev : Option (Arr N)} {keys : List (Arr N)}
    {values : List V} {s : σ} (h : ∀ i ∈ hashedBy cfg prev keys values s, U i) :
    insert (gcfg U cfg) prev keys values (s, false) =
      ((insert cfg prev keys values s).1, ((insert cfg prev keys values s).2, false)) := by
  obtain ⟨l', h1, h2, -⟩ := sim_insertCall U cfg prev keys values s []
  apply h2
  intro i hi
  apply h
  unfold hashedBy
  rw [h1]
  simp [hi]

/-- The recording run does what the plain one does. -/
theorem insert_logged (cfg : Config N σ V) (prev : Option (Arr N)) (keys : List (Arr N))
    (values : List V) (s : σ) (l : List (HIn N)) :
    (insert (lcfg cfg) prev keys values (s, l)).1 = (insert cfg prev keys values s).1 ∧
      (insert (lcfg cfg) prev keys values (s, l)).2.1 = (insert cfg prev keys values s).2 := by
  obtain ⟨l', h1, -⟩ := sim_insertCall (fun _ => True) cfg prev keys values s l
  rw [h1]
  exact ⟨rfl, rfl⟩

/-- Data inputs of a call come from its pairs. -/
theorem hashedBy_data {cfg : Config N σ V} {prev : Option (Arr N)} {keys : List (Arr N)}
    {values : List V} {s : σ} {k : Arr N} {b : List UInt8}
    (h : HIn.data k b ∈ hashedBy cfg prev keys values s) : (k, b) ∈ encodedPairs cfg keys values := by
  obtain ⟨l', h1, -, h2⟩ := sim_insertCall (fun _ => True) cfg prev keys values s []
  unfold hashedBy at h
  rw [h1] at h
  simp only [List.append_nil, List.mem_append] at h
  rcases h with h | h
  · obtain ⟨e, he, h⟩ := List.mem_flatMap.1 h
    simp only [Trie.inputs, List.mem_cons, HIn.data.injEq, List.not_mem_nil, or_false, reduceCtorEq] at h
    obtain ⟨rfl, rfl⟩ := h
    exact he
  · exact absurd h (h2 k b)

end MerkleBit
