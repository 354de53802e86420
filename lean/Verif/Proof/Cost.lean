import Verif.Spec.Cost
import Verif.Proof.Termination
/-!
# How much `insert` writes

A `Meter` follows a run on two databases at once, and bounds something by the number of nodes written to
new places and to places where a node was read.
-/

namespace MerkleBit
variable {N : Nat} {σ σ' V α β : Type}

/-- What is followed: `I i j` after `i` writes anywhere and `j` writes to places where a node was seen. -/
structure Meter (db : Database N σ) (db' : Database N σ') where
  I : Nat → Nat → σ → σ' → Prop
  Seen : Arr N → σ → Prop
  mono : ∀ {i j i' j' s s'}, I i j s s' → i ≤ i' → j ≤ j' → I i' j' s s'
  get : ∀ {i j s s' x}, I i j s s' → db'.getNode s' x = db.getNode s x
  seen : ∀ {s x n}, db.getNode s x = .ok (some n) → Seen x s
  fresh : ∀ {i j s s' x n}, I i j s s' → (db'.insert x n s').1 = (db.insert x n s).1 ∧
    I (i + 1) j (db.insert x n s).2 (db'.insert x n s').2
  again : ∀ {i j s s' x n}, Seen x s → I i j s s' →
    I i (j + 1) (db.insert x n s).2 (db'.insert x n s').2
  flush : ∀ {i j s s'}, I i j s s' → (db'.batchWrite s').1 = (db.batchWrite s).1 ∧
    I i j (db.batchWrite s).2 (db'.batchWrite s').2
  insert_seen : ∀ {s x n y}, Seen y s → Seen y (db.insert x n s).2
  flush_seen : ∀ {s y}, Seen y s → Seen y (db.batchWrite s).2

variable {db : Database N σ} {db' : Database N σ'} (K : Meter db db')

/-- Both runs have the same result, satisfying `R`; they make at most `a` writes anywhere and `b` to places
that were seen. -/
def Costs (P : σ → Prop) (m : M σ α) (m' : M σ' α) (a b : Nat) (R : α → σ → Prop) : Prop :=
  ∀ i j s s', P s → K.I i j s s' →
    (m' s').1 = (m s).1 ∧ K.I (i + a) (j + b) (m s).2 (m' s').2 ∧
    (∀ x, K.Seen x s → K.Seen x (m s).2) ∧ ∀ v, (m s).1 = .ok v → R v (m s).2

variable {K} {P : σ → Prop}

theorem costs_pure (v : α) {R : α → σ → Prop} (h : ∀ s, P s → R v s) :
    Costs K P (M.pure v) (M.pure v) 0 0 R :=
  fun _ _ s _ hP hI => ⟨rfl, hI, fun _ h => h, fun _ hv => by cases hv; exact h s hP⟩

theorem costs_throw (e : Err) {R : α → σ → Prop} :
    Costs K P (M.throw e) (M.throw e) 0 0 R :=
  fun _ _ _ _ _ hI => ⟨rfl, hI, fun _ h => h, fun _ hv => by cases hv⟩

theorem Costs.weaken {m : M σ α} {m' : M σ' α} {a b a' b' : Nat} {R R' : α → σ → Prop} {P' : σ → Prop}
    (h : Costs K P m m' a b R) (hP : ∀ s, P' s → P s) (ha : a ≤ a') (hb : b ≤ b')
    (hR : ∀ v s, R v s → R' v s) : Costs K P' m m' a' b' R' := by
  intro i j s s' hs hI
  obtain ⟨h1, h2, h3, h4⟩ := h i j s s' (hP s hs) hI
  exact ⟨h1, K.mono h2 (by omega) (by omega), h3, fun v hv => hR _ _ (h4 v hv)⟩

/-- What was seen stays seen. -/
theorem costs_bind {m : M σ α} {m' : M σ' α} {f : α → M σ β} {f' : α → M σ' β} {a b a2 b2 : Nat}
    {R : α → σ → Prop} {Q : β → σ → Prop} {X : Arr N → Prop}
    (h : Costs K (fun s => P s ∧ ∀ x, X x → K.Seen x s) m m' a b R)
    (hf : ∀ v, Costs K (fun s => R v s ∧ ∀ x, X x → K.Seen x s) (f v) (f' v) a2 b2 Q) :
    Costs K (fun s => P s ∧ ∀ x, X x → K.Seen x s) (M.bind m f) (M.bind m' f') (a + a2) (b + b2) Q := by
  intro i j s s' hs hI
  obtain ⟨h1, h2, h3, h4⟩ := h i j s s' hs hI
  unfold M.bind
  rcases hm : m s with ⟨r, t⟩
  rcases hm' : m' s' with ⟨r', t'⟩
  rw [hm, hm'] at h1 h2
  rw [hm] at h3 h4
  dsimp only at h1 h2 h3 h4
  subst h1
  cases r' with
  | error e =>
    exact ⟨rfl, K.mono h2 (by omega) (by omega), h3, fun _ hv => by cases hv⟩
  | ok v =>
    obtain ⟨g1, g2, g3, g4⟩ := hf v _ _ t t' ⟨h4 v rfl, fun x hx => h3 x (hs.2 x hx)⟩ h2
    refine ⟨g1, ?_, fun x hx => g3 x (h3 x hx), g4⟩
    rw [← Nat.add_assoc, ← Nat.add_assoc]
    exact g2

theorem costs_bind' {m : M σ α} {m' : M σ' α} {f : α → M σ β} {f' : α → M σ' β} {a b a2 b2 : Nat}
    {R : α → σ → Prop} {Q : β → σ → Prop}
    (h : Costs K P m m' a b R) (hf : ∀ v, Costs K (R v) (f v) (f' v) a2 b2 Q) :
    Costs K P (M.bind m f) (M.bind m' f') (a + a2) (b + b2) Q := by
  have := costs_bind (K := K) (P := P) (X := fun _ => False) (a2 := a2) (b2 := b2) (R := R) (Q := Q)
    (h.weaken (fun _ h => h.1) le_rfl le_rfl (fun _ _ h => h))
    (fun v => (hf v).weaken (fun _ h => h.1) le_rfl le_rfl (fun _ _ h => h))
  exact this.weaken (fun _ h => ⟨h, by simp⟩) le_rfl le_rfl (fun _ _ h => h)

/-- A fact from the precondition. -/
theorem costs_of_pre {m : M σ α} {m' : M σ' α} {a b : Nat} {R : α → σ → Prop} {φ : Prop}
    (hφ : ∀ s, P s → φ) (h : φ → Costs K P m m' a b R) : Costs K P m m' a b R :=
  fun i j s s' hs hI => h (hφ s hs) i j s s' hs hI

theorem costs_lift (r : Res α) {R : α → σ → Prop} (h : ∀ v s, r = .ok v → P s → R v s) :
    Costs K P (M.lift r) (M.lift r) 0 0 R := by
  cases r with
  | ok v => exact costs_pure v (fun s hs => h v s rfl hs)
  | error e => exact costs_throw e

theorem costs_fresh (x : Arr N) (n : Node N) {R : Unit → σ → Prop} (h : ∀ s, R () s) :
    Costs K P (db.insert x n) (db'.insert x n) 1 0 R := by
  intro i j s s' _ hI
  exact ⟨(K.fresh hI).1, (K.fresh hI).2, fun _ hy => K.insert_seen hy, fun _ _ => h _⟩

theorem costs_again (x : Arr N) (n : Node N) {R : Unit → σ → Prop} (hP : ∀ s, P s → K.Seen x s)
    (h : ∀ s, R () s) : Costs K P (db.insert x n) (db'.insert x n) 0 1 R := by
  intro i j s s' hs hI
  exact ⟨(K.fresh hI).1, K.again (hP s hs) hI, fun _ hy => K.insert_seen hy, fun _ _ => h _⟩

theorem costs_flush {R : Unit → σ → Prop} (h : ∀ s, R () s) :
    Costs K P db.batchWrite db'.batchWrite 0 0 R := by
  intro i j s s' _ hI
  exact ⟨(K.flush hI).1, (K.flush hI).2, fun _ hy => K.flush_seen hy, fun _ _ => h _⟩

section
variable {cfg : Config N σ V} {db' : Database N σ'} {K : Meter cfg.db db'} {P : σ → Prop}

theorem costs_dbGet (x : Arr N) {R : Option (Node N) → σ → Prop}
    (h : ∀ o s, P s → (o.isSome → K.Seen x s) → R o s) :
    Costs K P (dbGet cfg x) (dbGet (cfg.withDb db') x) 0 0 R := by
  intro i j s s' hs hI
  have he := K.get (x := x) hI
  refine ⟨he, hI, fun _ h => h, ?_⟩
  intro o ho
  refine h o s hs (fun hsome => ?_)
  obtain ⟨n, rfl⟩ := Option.isSome_iff_exists.1 hsome
  exact K.seen ho

theorem costs_insertLeaf (x : Arr N) {R : Unit → σ → Prop} (h : ∀ s, R () s) :
    Costs K P (insertLeaf cfg x) (insertLeaf (cfg.withDb db') x) 0 1 R := by
  unfold insertLeaf
  refine (costs_bind' (a := 0) (b := 0) (a2 := 0) (b2 := 1)
    (costs_dbGet (R := fun o s => o.isSome → K.Seen x s) x (fun _ _ _ h => h)) ?_).weaken
    (fun _ h => h) (by simp) (by simp) (fun _ _ h => h)
  intro o
  cases o with
  | none => exact (costs_throw _).weaken (fun _ h => h) le_rfl (by simp) (fun _ _ h => h)
  | some l => exact costs_again _ _ (fun s hs => hs rfl) h

/-- What `split_nodes` returns. -/
def SplitOk (K : Meter cfg.db db') (d : Nat) (x : Arr N) (ks : List (Arr N)) :
    SplitNodeType N → σ → Prop
  | .ref _, _ => True
  | .cell c, s => ks ≠ [] ∧ c.keys = ks ∧ c.depth = d + 1 ∧ c.location = x ∧ K.Seen x s

theorem costs_splitNodes (d : Nat) (x : Arr N) (ks : List (Arr N)) :
    Costs K P (splitNodes cfg d x ks) (splitNodes (cfg.withDb db') d x ks) 0
      (if ks = [] then 1 else 0) (SplitOk K d x ks) := by
  unfold splitNodes
  refine (costs_bind' (a := 0) (b := 0) (a2 := 0) (b2 := if ks = [] then 1 else 0)
    (costs_dbGet (R := fun o s => o.isSome → K.Seen x s) x (fun _ _ _ h => h)) ?_).weaken
    (fun _ h => h) (by simp) (by simp) (fun _ _ h => h)
  intro o
  cases o with
  | none => exact (costs_throw _).weaken (fun _ h => h) le_rfl (by simp) (fun _ _ h => h)
  | some n =>
    by_cases hks : ks = []
    · subst hks
      simp only [List.isEmpty_nil, if_true]
      generalize n.variant = v
      cases v with
      | data _ => exact (costs_throw _).weaken (fun _ h => h) le_rfl (by simp) (fun _ _ h => h)
      | branch b =>
        exact costs_bind' (a := 0) (b := 1) (a2 := 0) (b2 := 0) (R := fun _ _ => True)
          (costs_again _ _ (fun s hs => hs rfl) (fun _ => trivial))
          (fun _ => costs_pure _ (fun _ _ => trivial))
      | leaf b =>
        exact costs_bind' (a := 0) (b := 1) (a2 := 0) (b2 := 0) (R := fun _ _ => True)
          (costs_again _ _ (fun s hs => hs rfl) (fun _ => trivial))
          (fun _ => costs_pure _ (fun _ _ => trivial))
    · have : ks.isEmpty = false := by simpa using hks
      simp only [this, if_neg hks]
      exact costs_pure _ (fun s hs => ⟨hks, rfl, rfl, rfl, hs rfl⟩)

/-- How many references the cells of the queue can turn into. -/
def costLoad (D : Nat) (q : List (TreeCell N)) : Nat :=
  (q.map (fun c => c.keys.length * (D + 1 - c.depth) + 1)).sum

theorem load_cons (D : Nat) (c : TreeCell N) (q : List (TreeCell N)) :
    costLoad D (c :: q) = c.keys.length * (D + 1 - c.depth) + 1 + costLoad D q := by
  simp [costLoad]

/-- The new cells, and what they and the new references come to. -/
theorem costLoad_push {D d : Nat} {x : Arr N} {ks : List (Arr N)} {r : SplitNodeType N} {s : σ}
    (h : SplitOk K d x ks r s) (pn : List (TreeRef N)) (q : List (TreeCell N)) :
    ((pushSplit pn q r).1.length + costLoad D (pushSplit pn q r).2 ≤
      pn.length + costLoad D q + ks.length * (D - d) + 1) ∧
    ((if ks = [] then 1 else 0) + costLoad D (pushSplit pn q r).2 ≤ costLoad D q + ks.length * (D - d) + 1) ∧
    (CellsOk q → CellsOk (pushSplit pn q r).2) ∧
    ((∀ y, (∃ c ∈ q, c.location = y) → K.Seen y s) →
      ∀ y, (∃ c ∈ (pushSplit pn q r).2, c.location = y) → K.Seen y s) := by
  cases r with
  | ref t =>
    refine ⟨by simp [pushSplit]; omega, ?_, fun h => h, fun h => h⟩
    simp only [pushSplit]
    split <;> omega
  | cell c =>
    obtain ⟨h0, h1, h2, h3, h4⟩ := h
    simp only [pushSplit, load_cons, h1, h2, if_neg h0]
    rw [show D + 1 - (d + 1) = D - d by omega]
    refine ⟨by omega, by omega, ?_, ?_⟩
    · intro hq c' hc'
      rcases List.mem_cons.1 hc' with rfl | hc'
      · rw [h1]; exact h0
      · exact hq c' hc'
    · rintro hq y ⟨c', hc', rfl⟩
      rcases List.mem_cons.1 hc' with rfl | hc'
      · rw [h3]; exact h4
      · exact hq _ ⟨c', hc', rfl⟩

/-- The nodes of the cells have been read. -/
def QSeen (K : Meter cfg.db db') (q : List (TreeCell N)) (s : σ) : Prop :=
  ∀ y, (∃ c ∈ q, c.location = y) → K.Seen y s

theorem costs_traverse (keyMap : AMap (Arr N) (Arr N)) : ∀ fuel pn q, CellsOk q →
    Costs K (QSeen K q) (traverseTree cfg keyMap fuel pn q) (traverseTree (cfg.withDb db') keyMap fuel pn q)
      0 (costLoad cfg.depth q) (fun v _ => v.length ≤ pn.length + costLoad cfg.depth q) := by
  intro fuel
  induction fuel with
  | zero =>
    intro pn q _
    cases q with
    | nil => exact costs_pure _ (fun _ _ => by simp)
    | cons c q => exact (costs_throw _).weaken (fun _ h => h) le_rfl (by simp) (fun _ _ h => h)
  | succ fuel ih =>
    intro pn q hq
    cases q with
    | nil => exact costs_pure _ (fun _ _ => by simp)
    | cons c q =>
      have hc : 0 < c.keys.length := List.length_pos_of_ne_nil (hq c (by simp))
      have hq' : CellsOk q := fun c hc => hq c (by simp [hc])
      have hseen : ∀ s, QSeen K (c :: q) s → QSeen K q s :=
        fun s h y ⟨c', hc', e⟩ => h y ⟨c', List.mem_cons_of_mem _ hc', e⟩
      have tail : ∀ (pn' : List (TreeRef N)), pn'.length ≤ pn.length + 1 →
          Costs K (QSeen K q) (traverseTree cfg keyMap fuel pn' q)
            (traverseTree (cfg.withDb db') keyMap fuel pn' q) 0 (costLoad cfg.depth q)
            (fun v _ => v.length ≤ pn.length + costLoad cfg.depth (c :: q)) := by
        intro pn' h
        refine (ih pn' q hq').weaken (fun _ h => h) le_rfl le_rfl (fun v _ hv => ?_)
        rw [load_cons]
        omega
      -- one write to a place that was seen, then the rest of the queue
      have step : ∀ {m : M σ Unit} {m' : M σ' Unit} (pn' : List (TreeRef N)),
          pn'.length ≤ pn.length + 1 →
          Costs K (fun s => K.Seen c.location s) m m' 0 1 (fun _ _ => True) →
          Costs K (QSeen K (c :: q)) (M.bind m (fun _ => traverseTree cfg keyMap fuel pn' q))
            (M.bind m' (fun _ => traverseTree (cfg.withDb db') keyMap fuel pn' q)) 0
            (costLoad cfg.depth (c :: q)) (fun v _ => v.length ≤ pn.length + costLoad cfg.depth (c :: q)) := by
        intro m m' pn' hpn hm
        refine (costs_bind (K := K) (P := fun s => K.Seen c.location s)
          (X := fun y => ∃ c ∈ q, c.location = y) (a2 := 0) (b2 := costLoad cfg.depth q)
          (hm.weaken (fun _ h => h.1) le_rfl le_rfl (fun _ _ h => h))
          (fun _ => (tail pn' hpn).weaken (fun _ h => h.2) le_rfl le_rfl (fun _ _ h => h))).weaken
          (fun s h => ⟨h _ ⟨c, by simp, rfl⟩, hseen s h⟩) le_rfl ?_ (fun _ _ h => h)
        rw [load_cons]
        omega
      have throws : ∀ e : Err, Costs K (QSeen K (c :: q)) (M.throw e) (M.throw e) 0
          (costLoad cfg.depth (c :: q))
          (fun (v : List (TreeRef N)) _ => v.length ≤ pn.length + costLoad cfg.depth (c :: q)) :=
        fun e => (costs_throw e).weaken (fun _ h => h) le_rfl (by simp) (fun _ _ h => h)
      rw [traverseTree, traverseTree]
      by_cases hd : c.depth > cfg.depth
      · rw [if_pos hd, if_pos (show c.depth > (cfg.withDb db').depth from hd)]
        exact throws _
      · rw [if_neg hd, if_neg (show ¬ c.depth > (cfg.withDb db').depth from hd)]
        split
        · split
          · split
            · exact step pn (by omega) (costs_insertLeaf _ (fun _ => trivial))
            · refine (tail pn (by omega)).weaken hseen le_rfl ?_ (fun _ _ h => h)
              rw [load_cons]; omega
          · exact step _ (by simp) (costs_insertLeaf _ (fun _ => trivial))
        · exact throws _
        · rename_i b _
          refine (costs_bind' (a := 0) (b := 0) (a2 := 0) (b2 := costLoad cfg.depth (c :: q))
            (R := fun _ => QSeen K (c :: q)) (costs_lift _ (fun _ _ _ h => h)) fun m => ?_).weaken
            (fun _ h => h) le_rfl (by simp) (fun _ _ h => h)
          refine (costs_bind' (a := 0) (b := 0) (a2 := 0) (b2 := costLoad cfg.depth (c :: q))
            (R := fun ds s => ds.length ≤ c.keys.length ∧ QSeen K (c :: q) s)
            (costs_lift _ (fun ds s hds h => ⟨?_, h⟩)) fun ds => ?_).weaken
            (fun _ h => h) le_rfl (by simp) (fun _ _ h => h)
          · split at hds
            · exact checkDescendants_length hds
            · cases hds; exact le_refl _
          · split
            · exact (step (m := cfg.db.insert _ _) (m' := db'.insert _ _) _ (by simp)
                (costs_again _ _ (fun _ h => h) (fun _ => trivial))).weaken
                (fun _ h => h.2) le_rfl le_rfl (fun _ _ h => h)
            · refine (costs_bind' (a := 0) (b := 0) (a2 := 0) (b2 := costLoad cfg.depth (c :: q))
                (R := fun zo s => (zo.1.length + zo.2.length ≤ c.keys.length ∧ QSeen K (c :: q) s))
                (costs_lift _ (fun zo s hzo h => ⟨?_, h.2⟩)) (fun zo => ?_)).weaken
                (fun _ h => h) le_rfl (by simp) (fun _ _ h => h)
              · have := congrArg List.length (splitPairs_append (zs := zo.1) (os := zo.2) hzo)
                rw [List.length_append] at this
                omega
              · obtain ⟨zs, os⟩ := zo
                dsimp only
                intro i j s s' hs hI
                have hsum : (zs.length + os.length) * (cfg.depth - c.depth) + 2 ≤
                    c.keys.length * (cfg.depth + 1 - c.depth) + 1 := by
                  have h1 := Nat.mul_le_mul_right (cfg.depth - c.depth) hs.1
                  have h2 : c.keys.length * (cfg.depth + 1 - c.depth) =
                      c.keys.length * (cfg.depth - c.depth) + c.keys.length := by
                    rw [show cfg.depth + 1 - c.depth = (cfg.depth - c.depth) + 1 by omega, Nat.mul_succ]
                  omega
                rw [Nat.add_mul] at hsum
                refine ((costs_bind (K := K) (P := fun _ => True)
                  (X := fun y => ∃ c ∈ q, c.location = y) (a2 := 0)
                  (b2 := costLoad cfg.depth q + os.length * (cfg.depth - c.depth) + 1 +
                    zs.length * (cfg.depth - c.depth) + 1 - (if os = [] then 1 else 0))
                  (Q := fun (v : List (TreeRef N)) _ => v.length ≤ pn.length + costLoad cfg.depth (c :: q))
                  (costs_splitNodes _ _ _) (fun one => ?_)).weaken (fun s h => ⟨trivial, h⟩) le_rfl ?_
                  (fun _ _ h => h)) i j s s' (hseen s hs.2) hI
                · intro i j s s' hs hI
                  obtain ⟨g1, g2, g3, g4⟩ := costLoad_push (D := cfg.depth) hs.1 pn q
                  refine ((costs_bind (K := K) (P := fun _ => True)
                    (X := fun y => ∃ c ∈ (pushSplit pn q one).2, c.location = y) (a2 := 0)
                    (b2 := costLoad cfg.depth (pushSplit pn q one).2 +
                      zs.length * (cfg.depth - c.depth) + 1 - (if zs = [] then 1 else 0))
                    (Q := fun (v : List (TreeRef N)) _ => v.length ≤ pn.length + costLoad cfg.depth (c :: q))
                    (costs_splitNodes _ _ _) (fun zero => ?_)).weaken (fun s h => ⟨trivial, h⟩) le_rfl ?_
                    (fun _ _ h => h)) i j s s' (g4 hs.2) hI
                  · intro i j s s' hs hI
                    obtain ⟨k1, k2, k3, k4⟩ := costLoad_push (D := cfg.depth) hs.1
                      (pushSplit pn q one).1 (pushSplit pn q one).2
                    refine (Costs.weaken (b' := costLoad cfg.depth (pushSplit pn q one).2 +
                        zs.length * (cfg.depth - c.depth) + 1 - (if zs = [] then 1 else 0))
                      (R' := fun (v : List (TreeRef N)) _ =>
                        v.length ≤ pn.length + costLoad cfg.depth (c :: q))
                      (ih (pushSplit (pushSplit pn q one).1 (pushSplit pn q one).2 zero).1 _
                        (k3 (g3 hq'))) (fun _ h => h) le_rfl ?_ ?_) i j s s' (k4 hs.2) hI
                    · omega
                    · intro v _ hv
                      rw [load_cons]
                      omega
                  · split at g2 <;> split <;> omega
                · rw [load_cons]
                  split <;> omega

theorem costs_generate {ks : List (Arr N)} (hks : ks ≠ []) (r : Arr N) (km : AMap (Arr N) (Arr N)) :
    Costs K P (generateTreerefs cfg r ks km) (generateTreerefs (cfg.withDb db') r ks km)
      0 (ks.length * (cfg.depth + 1) + 1)
      (fun v _ => v.length ≤ ks.length * (cfg.depth + 1) + 1) := by
  unfold generateTreerefs
  refine (costs_bind' (a := 0) (b := 0) (a2 := 0) (b2 := ks.length * (cfg.depth + 1) + 1)
    (costs_dbGet (R := fun o s => o.isSome → K.Seen r s) r (fun _ _ _ h => h)) ?_).weaken
    (fun _ h => h) le_rfl (by simp) (fun _ _ h => h)
  intro o
  cases o with
  | none => exact (costs_throw _).weaken (fun _ h => h) le_rfl (by simp) (fun _ _ h => h)
  | some n =>
    refine (costs_traverse (cfg := cfg) km _ _ _ ?_).weaken ?_ le_rfl ?_ ?_
    · intro c hc
      rw [List.mem_singleton] at hc
      subst hc
      exact hks
    · rintro s hs y ⟨c, hc, rfl⟩
      rw [List.mem_singleton] at hc
      subst hc
      exact hs rfl
    · simp [costLoad]
    · intro v s hv
      simpa [costLoad] using hv

theorem costs_insertLeaves (vm : AMap (Arr N) V) : ∀ ks : List (Arr N),
    Costs K (fun _ => True) (insertLeaves cfg vm ks) (insertLeaves (cfg.withDb db') vm ks) (2 * ks.length) 0
      (fun v _ => v.length = ks.length)
  | [] => costs_pure _ (fun _ _ => rfl)
  | k :: ks => by
    unfold insertLeaves
    refine (costs_bind' (a := 0) (b := 0) (a2 := 2 * (ks.length + 1)) (b2 := 0)
      (R := fun _ _ => True) (costs_lift _ (fun _ _ _ _ => trivial)) fun v => ?_).weaken
      (fun _ h => h) (by simp) le_rfl (fun _ _ h => h)
    refine (costs_bind' (a := 0) (b := 0) (a2 := 2 * (ks.length + 1)) (b2 := 0)
      (R := fun _ _ => True) (costs_dbGet _ (fun _ _ _ _ => trivial)) fun v => ?_).weaken
      (fun _ h => h) (by simp) le_rfl (fun _ _ h => h)
    refine (costs_bind' (a := 0) (b := 0) (a2 := 2 * (ks.length + 1)) (b2 := 0)
      (R := fun _ _ => True) (costs_dbGet _ (fun _ _ _ _ => trivial)) fun v => ?_).weaken
      (fun _ h => h) (by simp) le_rfl (fun _ _ h => h)
    refine (costs_bind' (a := 1) (b := 0) (a2 := 2 * ks.length + 1) (b2 := 0)
      (R := fun _ _ => True) (costs_fresh _ _ (fun _ => trivial)) fun v => ?_).weaken
      (fun _ h => h) (by omega) le_rfl (fun _ _ h => h)
    refine (costs_bind' (a := 1) (b := 0) (a2 := 2 * ks.length) (b2 := 0)
      (R := fun _ _ => True) (costs_fresh _ _ (fun _ => trivial)) fun v => ?_).weaken
      (fun _ h => h) (by omega) le_rfl (fun _ _ h => h)
    refine (costs_bind' (a := 2 * ks.length) (b := 0) (a2 := 0) (b2 := 0)
      (costs_insertLeaves vm ks) fun v => ?_)
    exact costs_pure _ (fun _ h => by simp [h])

theorem costs_mergeLoop : ∀ (level : List QueueItem) (refs : List (TreeRef N)) (root : Arr N),
    Costs K (fun _ => True) (mergeLoop cfg level refs root) (mergeLoop (cfg.withDb db') level refs root)
      level.length 0 (fun _ _ => True)
  | [], _, _ => costs_pure _ (fun _ _ => trivial)
  | (a, b, c) :: level, refs, root => by
    unfold mergeLoop
    refine (costs_bind' (a := 0) (b := 0) (a2 := level.length + 1) (b2 := 0)
      (R := fun _ _ => True) (costs_lift _ (fun _ _ _ _ => trivial)) fun r1 => ?_).weaken
      (fun _ h => h) (by simp) le_rfl (fun _ _ h => h)
    refine (costs_bind' (a := 0) (b := 0) (a2 := level.length + 1) (b2 := 0)
      (R := fun _ _ => True) (costs_lift _ (fun _ _ _ _ => trivial)) fun lp => ?_).weaken
      (fun _ h => h) (by simp) le_rfl (fun _ _ h => h)
    obtain ⟨lp, lc⟩ := lp
    refine (costs_bind' (a := 0) (b := 0) (a2 := level.length + 1) (b2 := 0)
      (R := fun _ _ => True) (costs_lift _ (fun _ _ _ _ => trivial)) fun r2 => ?_).weaken
      (fun _ h => h) (by simp) le_rfl (fun _ _ h => h)
    exact (costs_bind' (a := 1) (b := 0) (a2 := level.length) (b2 := 0)
      (R := fun _ _ => True) (costs_fresh _ _ (fun _ => trivial))
      fun _ => costs_mergeLoop level _ _).weaken
      (fun _ h => h) (by omega) le_rfl (fun _ _ h => h)

/-- The number of items in a queue of levels. -/
def items (q : AMap Nat (List QueueItem)) : Nat := (q.entries.map (fun e => e.2.length)).sum

theorem items_erase {q : AMap Nat (List QueueItem)} {i : Nat} {level : List QueueItem}
    (h : q.get? i = some level) : items (q.erase i) + level.length ≤ items q := by
  obtain ⟨l⟩ := q
  simp only [AMap.get?, Option.map_eq_some_iff] at h
  obtain ⟨e, h1, rfl⟩ := h
  simp only [items, AMap.erase]
  induction l with
  | nil => simp at h1
  | cons a l ih =>
    rw [List.find?_cons] at h1
    have mono : ((l.filter (fun e => decide (¬ e.1 = i))).map (fun e => e.2.length)).sum ≤
        (l.map (fun e => e.2.length)).sum := by
      clear h1 ih
      induction l with
      | nil => simp
      | cons b l ih =>
        rw [List.filter_cons]
        split <;> simp only [List.map_cons, List.sum_cons] <;> omega
    by_cases ha : a.1 = i
    · simp only [ha, decide_true] at h1
      cases h1
      rw [List.filter_cons_of_neg (by simp [ha])]
      simp only [List.map_cons, List.sum_cons]
      omega
    · simp only [ha, decide_false] at h1
      rw [List.filter_cons_of_pos (by simp [ha])]
      simp only [List.map_cons, List.sum_cons]
      have := ih h1
      omega

theorem items_erase_le (q : AMap Nat (List QueueItem)) (i : Nat) : items (q.erase i) ≤ items q := by
  obtain ⟨l⟩ := q
  simp only [items, AMap.erase]
  induction l with
  | nil => simp
  | cons b l ih =>
    rw [List.filter_cons]
    split <;> simp only [List.map_cons, List.sum_cons] <;> omega

theorem items_push (q : AMap Nat (List QueueItem)) (b : Nat) (x : QueueItem) :
    items (pushItem q b x) ≤ items q + 1 := by
  unfold pushItem
  split
  · next items' h =>
    have := items_erase h
    have e : items (q.insert b (items' ++ [x])) = (items' ++ [x]).length + items (q.erase b) := by
      simp [items, AMap.insert]
    rw [e]
    simp only [List.length_append, List.length_singleton]
    omega
  · have := items_erase_le q b
    have e : items (q.insert b [x]) = 1 + items (q.erase b) := by simp [items, AMap.insert]
    omega

theorem items_queueLoop : ∀ (refs : List (TreeRef N)) (i : Nat) (q : AMap Nat (List QueueItem))
    (bits : List Nat) {q' : AMap Nat (List QueueItem)} {bits' : List Nat},
    queueLoop i refs q bits = .ok (q', bits') → items q' ≤ items q + (refs.length - 1)
  | [], i, q, bits, q', bits', h => by
    simp only [queueLoop] at h; cases h; omega
  | [_], i, q, bits, q', bits', h => by
    simp only [queueLoop] at h; cases h; omega
  | l :: r :: rest, i, q, bits, q', bits', h => by
    rw [queueLoop] at h
    split at h
    · cases h
    · have := items_queueLoop (r :: rest) _ _ _ h
      simp only [List.length_cons] at this ⊢
      omega
    · have := items_queueLoop (r :: rest) _ _ _ h
      have := items_push q ‹_› (‹_›, i, i + 1)
      simp only [List.length_cons] at *
      omega

theorem costs_levelsLoop : ∀ (is : List Nat) (q : AMap Nat (List QueueItem)) (refs : List (TreeRef N))
    (root : Option (Arr N)),
    Costs K (fun _ => True) (levelsLoop cfg is q refs root) (levelsLoop (cfg.withDb db') is q refs root)
      (items q) 0 (fun _ _ => True)
  | [], q, _, _ => (costs_pure _ (fun _ _ => trivial)).weaken (fun _ h => h) (by simp) le_rfl (fun _ _ h => h)
  | i :: is, q, refs, root => by
    rw [levelsLoop, levelsLoop]
    split
    · next level h =>
      have hi := items_erase h
      refine (costs_bind' (a := level.length) (b := 0) (a2 := items (q.erase i)) (b2 := 0)
        (R := fun _ _ => True) ?_ fun x => ?_).weaken (fun _ h => h) (by omega) le_rfl (fun _ _ h => h)
      · unfold mergeNodes
        refine (costs_bind' (a := level.length) (b := 0) (a2 := 0) (b2 := 0) (costs_mergeLoop _ _ _)
          fun x => ?_)
        exact costs_bind' (a := 0) (b := 0) (a2 := 0) (b2 := 0) (R := fun _ _ => True)
          (costs_flush (fun _ => trivial)) fun _ => costs_pure _ (fun _ _ => trivial)
      · obtain ⟨a, b⟩ := x
        exact costs_levelsLoop is _ _ _
    · exact (costs_throw _).weaken (fun _ h => h) (by simp) le_rfl (fun _ _ h => h)

theorem costs_createTree (refs : List (TreeRef N)) :
    Costs K (fun _ => True) (createTree cfg refs) (createTree (cfg.withDb db') refs) (refs.length - 1) 0
      (fun _ _ => True) := by
  unfold createTree
  split
  · exact costs_throw _
  · exact costs_bind' (a := 0) (b := 0) (a2 := 0) (b2 := 0) (R := fun _ _ => True)
      (costs_flush (fun _ => trivial)) fun _ => costs_pure _ (fun _ _ => trivial)
  · refine (costs_bind' (a := 0) (b := 0) (a2 := refs.length - 1) (b2 := 0)
      (R := fun x _ => items x.1 ≤ refs.length - 1) (costs_lift _ (fun x _ hx _ => ?_))
      fun x => ?_).weaken (fun _ h => h) (by simp) le_rfl (fun _ _ h => h)
    · unfold generateTreeRefQueue at hx
      split at hx
      · cases hx
      · have := items_queueLoop _ _ _ _ hx
        rw [(sortRefs_perm _).length_eq] at this
        simpa [items, AMap.empty] using this
    · obtain ⟨q, bits⟩ := x
      refine costs_of_pre (fun _ h => h) fun hs => ?_
      refine (costs_bind' (a := items q) (b := 0) (a2 := 0) (b2 := 0) (costs_levelsLoop _ _ _ _)
        fun o => ?_).weaken (fun _ _ => trivial) hs le_rfl (fun _ _ h => h)
      cases o with
      | none => exact costs_throw _
      | some r => exact costs_pure _ (fun _ _ => trivial)

/-- Writes of `insert` to new places. -/
def newWrites (cfg : Config N σ V) (prev : Option (Arr N)) (m : Nat) : Nat :=
  match prev with
  | none => 3 * m - 1
  | some _ => m * (cfg.depth + 4)

/-- Writes of `insert` to places where a node was read. -/
def oldWrites (cfg : Config N σ V) (prev : Option (Arr N)) (m : Nat) : Nat :=
  match prev with
  | none => 0
  | some _ => m * (cfg.depth + 1) + 1

theorem costs_insert (prev : Option (Arr N)) (keys : List (Arr N)) (values : List V) :
    Costs K P (insert cfg prev keys values) (insert (cfg.withDb db') prev keys values)
      (newWrites cfg prev keys.length) (oldWrites cfg prev keys.length) (fun _ _ => True) := by
  unfold insert
  split
  · exact (costs_throw _).weaken (fun _ h => h) (by simp) (by simp) (fun _ _ h => h)
  split
  · exact (costs_throw _).weaken (fun _ h => h) (by simp) (by simp) (fun _ _ h => h)
  rename_i hne
  have hlen : (sortKeys keys).length = keys.length := (sortKeys_perm keys).length_eq
  have hpos : 0 < keys.length := by
    rcases keys with _ | ⟨k, ks⟩
    · simp at hne
    · simp
  have hne' : sortKeys keys ≠ [] := by
    intro h
    rw [h] at hlen
    simp at hlen
    omega
  have hrefs : ∀ v : List (Arr N), v.length = (sortKeys keys).length →
      (leafRefs (sortKeys keys) v).length = keys.length := by
    intro v hv
    simp [leafRefs, hv, hlen]
  cases prev with
  | none =>
    refine (costs_bind' (a := 2 * keys.length) (b := 0) (a2 := keys.length - 1) (b2 := 0)
      ((costs_insertLeaves _ _).weaken (fun _ _ => trivial) (by rw [hlen]) le_rfl (fun _ _ h => h))
      fun v => ?_).weaken (fun _ h => h) (by simp only [newWrites]; omega) le_rfl (fun _ _ h => h)
    refine costs_of_pre (fun _ h => h) fun hs => ?_
    refine (costs_bind' (a := 0) (b := 0) (a2 := keys.length - 1) (b2 := 0)
      (R := fun x _ => x = []) (costs_pure _ (fun _ _ => rfl)) fun x => ?_).weaken (fun _ h => h)
      (by omega) le_rfl (fun _ _ h => h)
    refine costs_of_pre (fun _ h => h) fun hx => ?_
    subst hx
    refine (costs_createTree _).weaken (fun _ _ => trivial) ?_ le_rfl (fun _ _ h => h)
    rw [List.append_nil, hrefs v hs]
  | some r =>
    have e : keys.length * (cfg.depth + 4) = 2 * keys.length +
        (keys.length + keys.length * (cfg.depth + 1)) := by ring
    refine (costs_bind' (a := 2 * keys.length) (b := 0)
      (a2 := keys.length + keys.length * (cfg.depth + 1)) (b2 := keys.length * (cfg.depth + 1) + 1)
      ((costs_insertLeaves _ _).weaken (fun _ _ => trivial) (by rw [hlen]) le_rfl (fun _ _ h => h))
      fun v => ?_).weaken (fun _ h => h) (by simp only [newWrites]; omega)
      (by simp [oldWrites]) (fun _ _ h => h)
    refine costs_of_pre (fun _ h => h) fun hs => ?_
    refine (costs_bind' (a := 0) (b := keys.length * (cfg.depth + 1) + 1)
      (a2 := keys.length + keys.length * (cfg.depth + 1)) (b2 := 0)
      ((costs_generate hne' _ _).weaken (fun _ h => h) le_rfl (by rw [hlen]) (fun _ _ h => h))
      fun x => ?_).weaken (fun _ h => h)
      (by omega) (by omega) (fun _ _ h => h)
    refine costs_of_pre (fun _ h => h) fun hx => ?_
    refine (costs_createTree _).weaken (fun _ _ => trivial) ?_ le_rfl (fun _ _ h => h)
    rw [List.length_append, hrefs v hs]
    rw [hlen] at hx
    omega

end

end MerkleBit
