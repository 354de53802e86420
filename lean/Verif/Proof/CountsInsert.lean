import Verif.Proof.CountsRemove
import Verif.Proof.Effect
/-! # What `insert` does to reference counts -/

namespace MerkleBit
variable {N : Nat} {σ V : Type}

open Trie in
theorem mem_subtrees {u : Trie N} : ∀ {t : Trie N}, u ∈ t.subtrees ↔ u.Sub t
  | .leaf k v => by simp [subtrees, Trie.Sub]
  | .node l r => by
    simp only [subtrees, List.mem_cons, List.mem_append, Trie.Sub, mem_subtrees]

open Trie in
/-- The subtrees taken over, as the proofs about `insert` have them. -/
theorem takenOver_trav (hN : 0 < N) {pp : PartitionPoint N} (hpp : pp.Lawful) {Q : List (Arr N)} :
    ∀ {t : Trie N} {D : List (Arr N)}, t.WF → D.Pairwise Arr.le →
      takenOver pp Q t D = if D = [] then [t] else trav pp Q t D
  | .leaf k v, D, _, _ => by
    unfold takenOver trav
    by_cases hD : D = [] <;> by_cases hk : k ∈ Q <;> simp [hD, hk]
  | .node l r, D, hwf, hD => by
    have hs := hwf.split_lt
    simp only [split] at hs
    by_cases hDe : D = []
    · subst hDe
      simp [takenOver, followers]
    · rw [if_neg hDe, trav_node hN hpp hs hD, takenOver]
      have hF : (followers l.key (firstDiff l.key r.key) D).Pairwise Arr.le := hD.filter _
      rw [takenOver_trav hN hpp (D := zeros pp l.key (firstDiff l.key r.key) D) hwf.1
          (hF.sublist (List.take_sublist _ _)),
        takenOver_trav hN hpp (D := ones pp l.key (firstDiff l.key r.key) D) hwf.2.1
          (hF.sublist (List.drop_sublist _ _))]

section
variable {cfg : Config N σ V} {C : GContract cfg.db} {U : HIn N → Prop} {Ex : Err → Prop}
  {shows : Bool} {v0 : View N}

/-- `WritesShow` for the databases of the proofs. -/
def GShows {db : Database N σ} (C : GContract db) (shows : Bool) : Prop :=
  ∀ s s' x n, db.insert x n s = (.ok (), s') →
    if shows then C.pending s = View.empty N → C.pending s' = View.empty N
    else C.view s' = C.view s

theorem WritesShow.guard {db : Database N σ} {C : DbContract db} (h : WritesShow C shows)
    (U : HIn N → Prop) : GShows (C.guard U) shows := by
  intro s s' x n hi
  unfold guardDb at hi
  dsimp only at hi
  split at hi
  · obtain ⟨h1, rfl⟩ := Prod.mk.inj hi
    exact h s.1 _ x n (Prod.ext h1 rfl)
  · cases hi

/-- What can be read of the counts: those of the start, or the current ones. -/
def Mode (C : GContract cfg.db) (shows : Bool) (v0 : View N) (s : σ) : Prop :=
  if shows then C.pending s = View.empty N else C.view s = v0

/-- The invariant of the insert: the counts are now `c`. -/
structure Raising (C : GContract cfg.db) (U : HIn N → Prop) (shows : Bool) (v0 : View N)
    (c : Item N → Nat) (s : σ) : Prop where
  honest : Honest cfg.hasher U (C.settled s)
  counted : Counted C U c s
  mode : Mode C shows v0 s

/-- The count that is read of an item whose count was `n0` at the start and is `n` now. -/
def readCount (shows : Bool) (n0 n : Nat) : Nat := if shows then n else n0

theorem Raising.view (hv0 : Honest cfg.hasher U v0) {c : Item N → Nat} {s : σ}
    (h : Raising C U shows v0 c s) : Honest cfg.hasher U (C.view s) := by
  have hm := h.mode
  unfold Mode at hm
  cases shows with
  | true => rw [← settled_of_pending_empty hm]; exact h.honest
  | false => exact (show C.view s = v0 from hm) ▸ hv0

theorem Raising.read {c : Item N → Nat} {s : σ} (h : Raising C U shows v0 c s) {i : Item N}
    (hi : i.Ok cfg.hasher U) :
    countsOf cfg.hasher (C.view s) i = readCount shows (countsOf cfg.hasher v0 i) (c i) := by
  have hm := h.mode
  unfold Mode at hm
  cases shows with
  | true => rw [← settled_of_pending_empty hm]; exact h.counted i hi
  | false => exact congrArg (countsOf cfg.hasher · i) (show C.view s = v0 from hm)

theorem triple_insert_raise (hU : CollisionFree cfg.hasher U) (hsh : GShows C shows)
    {P : σ → Prop} {i : Item N} {m : Nat} {c c' : Item N → Nat}
    (hm : 0 < m) (hc : ∀ j, c' j = if j = i then m else c j)
    (hi : (∀ x, (i.variant cfg.hasher).input = some x → U x) → i.Ok cfg.hasher U)
    (hg : Guards U cfg.db) (hP : ∀ s, P s → Raising C U shows v0 c s) :
    Triple C Ex P (cfg.db.insert (i.loc cfg.hasher) ⟨m, i.variant cfg.hasher⟩)
      (fun _ => Raising C U shows v0 c') (fun _ => True) := by
  intro s hs
  rcases hins : cfg.db.insert (i.loc cfg.hasher) ⟨m, i.variant cfg.hasher⟩ s with ⟨r, s'⟩
  cases r with
  | ok u =>
    refine ⟨(C.insert_ok hins).1, ?_⟩
    have hw := (C.insert_ok hins).2
    have h := hP s hs
    have hiok := hi (hg hins)
    refine ⟨?_, ?_, ?_⟩
    · rw [settled_of_wrote hw]
      exact h.honest.put hm hiok.belongs
    · intro j hj
      rw [countsOf_eq, settled_of_wrote hw, refsOf_put, hc]
      by_cases hji : j = i
      · subst hji; simp
      · rw [if_neg hji, if_neg (fun e => hji (Item.eq_of_loc hU hj hiok e))]
        exact h.counted j hj
    · have h1 := hsh s s' _ _ hins
      have h2 := h.mode
      unfold Mode at h2 ⊢
      cases shows with
      | true => exact h1 h2
      | false => exact (show C.view s' = C.view s from h1).trans h2
  | error e =>
    rcases C.insert_err hins with this | this
    · exact .inl this
    · exact .inr ⟨.inr ⟨this.1, this.2.1⟩, trivial⟩

/-- The counts after the leaves of `es` were written. -/
def leafCounts (es : List (Arr N × List UInt8)) (c : Item N → Nat) : Item N → Nat
  | .data k v => if (k, v) ∈ es then c (.data k v) + 1 else c (.data k v)
  | .tree (.leaf k v) =>
      if (k, v) ∈ es then c (.tree (.leaf k v)) + 1 else c (.tree (.leaf k v))
  | .tree (.node l r) => c (.tree (.node l r))

/-- One leaf. -/
theorem raise_leafBody (hU : CollisionFree cfg.hasher U) (hsh : GShows C shows)
    (hg : Guards U cfg.db) {k : Arr N} {v : List UInt8}
    (hl : ∀ i ∈ (Trie.leaf k v).inputs cfg.hasher, U i) {es : List (Arr N × List UInt8)}
    (hes : (k, v) ∉ es) :
    Triple C Ex (Raising C U shows v0 (leafCounts es (countsOf cfg.hasher v0))) (leafBody cfg k v)
      (fun r s => r = (Trie.leaf k v).loc cfg.hasher ∧
        Raising C U shows v0 (leafCounts (es ++ [(k, v)]) (countsOf cfg.hasher v0)) s)
      (fun _ => True) := by
  have hdU : U (.data k v) := hl _ (by simp [Trie.inputs])
  have hok : (Item.tree (.leaf k v)).Ok cfg.hasher U := ⟨trivial, hl⟩
  have hdok : (Item.data k v).Ok cfg.hasher U := hdU
  unfold leafBody
  simp only [M.bind_eq, M.pure_eq]
  have hrd : ∀ {s : σ}, Raising C U shows v0 (leafCounts es (countsOf cfg.hasher v0)) s →
      nextRefs (C.view s (Trie.dataLoc cfg.hasher k v)) = countsOf cfg.hasher v0 (.data k v) + 1 := by
    intro s h
    have := h.read hdok
    rw [countsOf_eq] at this
    change refsOf (C.view s) (Trie.dataLoc cfg.hasher k v) = _ at this
    rw [nextRefs_eq, this]
    simp [leafCounts, hes, readCount]
  have hrl : ∀ {s : σ}, Raising C U shows v0 (leafCounts es (countsOf cfg.hasher v0)) s →
      nextRefs (C.view s ((Trie.leaf k v).loc cfg.hasher)) =
        countsOf cfg.hasher v0 (.tree (.leaf k v)) + 1 := by
    intro s h
    have := h.read hok
    rw [countsOf_eq] at this
    change refsOf (C.view s) ((Trie.leaf k v).loc cfg.hasher) = _ at this
    rw [nextRefs_eq, this]
    simp [leafCounts, hes, readCount]
  apply triple_bind (R := fun od s => Raising C U shows v0 (leafCounts es (countsOf cfg.hasher v0)) s ∧
      nextRefs od = countsOf cfg.hasher v0 (.data k v) + 1)
    (triple_dbGet (fun _ h => ⟨h, hrd h⟩) (fun _ _ => trivial))
  intro od
  apply triple_bind (R := fun ol s => (Raising C U shows v0 (leafCounts es (countsOf cfg.hasher v0)) s ∧
      nextRefs od = countsOf cfg.hasher v0 (.data k v) + 1) ∧
      nextRefs ol = countsOf cfg.hasher v0 (.tree (.leaf k v)) + 1)
    (triple_dbGet (fun _ h => ⟨h, hrl h.1⟩) (fun _ _ => trivial))
  intro ol
  intro s0 hs0
  have hod := hs0.1.2
  have hol := hs0.2
  have hrun : Triple C Ex (Raising C U shows v0 (leafCounts es (countsOf cfg.hasher v0)))
      ((cfg.db.insert (Trie.dataLoc cfg.hasher k v) ⟨nextRefs od, .data ⟨v⟩⟩).bind fun _ =>
        (cfg.db.insert ((Trie.leaf k v).loc cfg.hasher)
          ⟨nextRefs ol, (Trie.leaf k v).variant cfg.hasher⟩).bind fun _ =>
          M.pure ((Trie.leaf k v).loc cfg.hasher))
      (fun r s => r = (Trie.leaf k v).loc cfg.hasher ∧
        Raising C U shows v0 (leafCounts (es ++ [(k, v)]) (countsOf cfg.hasher v0)) s)
      (fun _ => True) := by
    apply triple_bind (R := fun _ => Raising C U shows v0 (fun j => if j = .data k v then
      nextRefs od else leafCounts es (countsOf cfg.hasher v0) j))
      (triple_insert_raise (i := .data k v) hU hsh (nextRefs_pos _) (fun _ => rfl) (fun _ => hdok) hg
        (fun _ h => h))
    intro _
    apply triple_bind (R := fun _ => Raising C U shows v0
        (leafCounts (es ++ [(k, v)]) (countsOf cfg.hasher v0)))
      (triple_insert_raise (i := .tree (.leaf k v)) hU hsh (nextRefs_pos _) ?_ (fun _ => hok) hg
        (fun _ h => h))
    · intro _
      exact triple_pure (fun s hs => ⟨rfl, hs⟩)
    · intro j
      rw [hod, hol]
      cases j with
      | data k' v' =>
        by_cases h : (k', v') = (k, v)
        · cases h; simp [leafCounts]
        · have h' : ¬ (k' = k ∧ v' = v) := fun ⟨h1, h2⟩ => h (by rw [h1, h2])
          simp [leafCounts, h']
      | tree t =>
        cases t with
        | leaf k' v' =>
          by_cases h : (k', v') = (k, v)
          · cases h; simp [leafCounts]
          · have h' : ¬ (k' = k ∧ v' = v) := fun ⟨h1, h2⟩ => h (by rw [h1, h2])
            simp [leafCounts, h']
        | node l r => simp [leafCounts]
  exact hrun s0 hs0.1.1


/-- How often the leaf of a pair that the previous version has is counted. -/
def againOf (shows : Bool) : Nat := if shows then 2 else 1

/-- The counts during the traversal: `K` has been taken over, `op` is still open, `pe` are the pairs of
the previous version. -/
def travCounts (shows : Bool) (pe es : List (Arr N × List UInt8)) (K op : List (Trie N))
    (c : Item N → Nat) : Item N → Nat
  | .data k v => if (k, v) ∈ es then c (.data k v) + 1 else c (.data k v)
  | .tree (.leaf k v) =>
      if (k, v) ∈ es then
        c (.tree (.leaf k v)) + (if (k, v) ∈ pe ∧ k ∉ op.flatMap Trie.keys then againOf shows else 1)
      else if .leaf k v ∈ K then c (.tree (.leaf k v)) + 1 else c (.tree (.leaf k v))
  | .tree (.node l r) =>
      if .node l r ∈ K then c (.tree (.node l r)) + 1 else c (.tree (.node l r))

theorem travCounts_congr {pe es : List (Arr N × List UInt8)} {K K' op op' : List (Trie N)}
    {c : Item N → Nat} (hK : ∀ t, t ∈ K ↔ t ∈ K')
    (hop : ∀ k v, (k, v) ∈ es → (k, v) ∈ pe →
      (k ∈ op.flatMap Trie.keys ↔ k ∈ op'.flatMap Trie.keys)) :
    travCounts shows pe es K op c = travCounts shows pe es K' op' c := by
  funext i
  cases i with
  | data k v => rfl
  | tree t =>
    cases t with
    | leaf k v =>
      unfold travCounts
      by_cases he : (k, v) ∈ es
      · by_cases hp : (k, v) ∈ pe
        · simp only [he, hp, hop k v he hp, true_and, if_true]
        · simp only [he, hp, false_and, if_true, if_false]
      · simp only [he, if_false, hK]
    | node l r =>
      unfold travCounts
      simp only [hK]

theorem Trie.keys_leaf (k : Arr N) (v : List UInt8) : (Trie.leaf k v).keys = [k] := by
  simp [Trie.keys, Trie.entries]

/-- Facts that do not depend on the state. -/
theorem triple_pre' {α : Type} {P E : σ → Prop} {Q : α → σ → Prop} {m : M σ α}
    (h : (∃ s, P s) → Triple C Ex P m Q E) : Triple C Ex P m Q E :=
  fun s hs => h ⟨s, hs⟩ s hs

theorem travCounts_open {T : Trie N} {es : List (Arr N × List UInt8)} {c : Item N → Nat}
    {K op : List (Trie N)} {t : Trie N} (hn : ((t :: op ++ K).flatMap Trie.keys).Nodup) (hsub : t.Sub T) :
    travCounts shows T.entries es K (t :: op) c (.tree t) =
      travCounts shows T.entries es [] [T] c (.tree t) := by
  have htK : t ∉ K := fun h => not_mem_of_nodup hn (List.mem_append_right _ h)
  cases t with
  | leaf k v =>
    have hkT : k ∈ T.keys := Sub.key_mem hsub
    unfold travCounts
    by_cases he : (k, v) ∈ es
    · simp [he, Trie.keys_leaf, hkT]
    · simp [he, htK]
  | node l r => simp [travCounts, htK]

/-- A tree of the previous version that the insert does not find: it is not stored, and not a leaf that the
insert itself has written and can read. -/
def Unfound (H : Hasher N) (shows : Bool) (v0 : View N) (es : List (Arr N × List UInt8)) (t : Trie N) :
    Prop := countsOf H v0 (.tree t) = 0 ∧ (shows = true → ∀ e ∈ es, t ≠ .leaf e.1 e.2)

/-- What is found during the traversal. -/
theorem raise_found (hv0 : Honest cfg.hasher U v0) {T : Trie N}
    {es : List (Arr N × List UInt8)} (hT : TreeOk cfg.hasher U T) {K op : List (Trie N)} {t : Trie N} {s : σ}
    (h : Raising C U shows v0 (travCounts shows T.entries es K (t :: op) (countsOf cfg.hasher v0)) s)
    (hn : ((t :: op ++ K).flatMap Trie.keys).Nodup) (hsub : t.Sub T) :
    C.view s (t.loc cfg.hasher) = none ↔ Unfound cfg.hasher shows v0 es t := by
  have hok := hT.sub hsub
  have hr := h.read (i := .tree t) hok
  rw [travCounts_open hn hsub, countsOf_eq] at hr
  change refsOf (C.view s) (t.loc cfg.hasher) = _ at hr
  have h0 : C.view s (t.loc cfg.hasher) = none ↔ refsOf (C.view s) (t.loc cfg.hasher) = 0 := by
    cases hv : C.view s (t.loc cfg.hasher) with
    | none => simp [refsOf, hv]
    | some n =>
      have := ((h.view hv0) _ n hv).1
      rw [refsOf_some hv]
      simp only [reduceCtorEq, false_iff]
      omega
  rw [h0, hr]
  unfold Unfound
  cases t with
  | node l r =>
    cases shows <;> simp [readCount, travCounts]
  | leaf k v =>
    have hkT : k ∈ T.keys := Sub.key_mem hsub
    by_cases he : (k, v) ∈ es
    · cases shows
      · simp [readCount]
      · simp only [readCount, travCounts, he, if_true, true_implies]
        constructor
        · intro h
          simp [hkT] at h
        · rintro ⟨-, h⟩; exact absurd rfl (h _ he)
    · cases shows
      · simp [readCount]
      · simp only [readCount, travCounts, he, if_true, if_false, List.not_mem_nil, true_implies]
        constructor
        · refine fun h => ⟨h, ?_⟩
          rintro e h2 h3
          cases h3
          exact he h2
        · exact fun h => h.1

open Trie in
/-- The traversal. -/
theorem raise_travStep (hU : CollisionFree cfg.hasher U) (hsh : GShows C shows)
    (hg : Guards U cfg.db) (hv0 : Honest cfg.hasher U v0) (hEx : ∀ e, Ex e) {T : Trie N}
    {R : List (Trie N)} {es : List (Arr N × List UInt8)} {keyMap : AMap (Arr N) (Arr N)}
    (hwf : T.WF) (hT : TreeOk cfg.hasher U T)
    (hes : ∀ e ∈ es, TreeOk cfg.hasher U (.leaf e.1 e.2))
    (hR : ∀ t ∈ R, ∀ e ∈ es, e.1 ∉ t.keys)
    (hkm : ∀ k loc, keyMap.get? k = some loc →
      ∃ v, (k, v) ∈ es ∧ loc = (Trie.leaf k v).loc cfg.hasher)
    (hfun : ∀ k v v', (k, v) ∈ es → (k, v') ∈ es → v = v') :
    TravStep cfg C Ex T R keyMap
      (fun K op s => Raising C U shows v0
          (travCounts shows T.entries es K op (countsOf cfg.hasher v0)) s ∧
        ((op ++ K).flatMap Trie.keys).Nodup ∧ ∀ t ∈ op ++ K, t.Sub T)
      (fun t n _ => n.references = readCount shows (countsOf cfg.hasher v0 (.tree t))
        (travCounts shows T.entries es [] [T] (countsOf cfg.hasher v0) (.tree t)))
      (fun _ => True) := by
  have hTn : T.keys.Nodup := hwf.sorted.imp Arr.ne_of_lt
  have hval : ∀ {k : Arr N} {v v' : List UInt8}, (Trie.leaf k v).Sub T → (k, v') ∈ T.entries →
      v' = v := by
    intro k v v' h1 h2
    have h3 : (k, v) ∈ T.entries := h1.entries.subset (by simp [Trie.entries])
    have h4 := (lookup_eq_some_iff hwf).2 h3
    rw [(lookup_eq_some_iff hwf).2 h2] at h4
    exact Option.some.inj h4
  constructor
  · rintro K K' op op' s hK hop ⟨h1, h2, h3⟩
    refine ⟨?_, (((hop.append hK).flatMap_right _).nodup_iff).1 h2,
      fun t ht => h3 t ((hop.append hK).mem_iff.2 ht)⟩
    rw [← travCounts_congr (fun t => hK.mem_iff)
      (fun k v _ _ => (hop.flatMap_right Trie.keys).mem_iff)]
    exact h1
  · rintro K op t s ⟨h1, h2, h3⟩ hsub
    have hok := hT.sub hsub
    cases hv : C.view s (t.loc cfg.hasher) with
    | none => exact .inr ⟨rfl, fun _ => hEx _⟩
    | some n =>
      refine .inl ⟨n, rfl, ((h1.view hv0) _ n hv).2.unique hU (belongs_of_inputs hok.1 hok.2), ?_⟩
      have := h1.read (i := .tree t) hok
      rw [countsOf_eq] at this
      change refsOf (C.view s) (t.loc cfg.hasher) = _ at this
      rw [refsOf_some hv, travCounts_open h2 hsub] at this
      exact this
  · rintro K op l r n s hsub - - ⟨h1, h2, h3⟩
    refine ⟨?_, ?_, ?_⟩
    · rw [← travCounts_congr (fun t => Iff.rfl) (op := .node l r :: op)
        (fun k v _ _ => by simp [Trie.keys_node])]
      exact h1
    · simpa [Trie.keys_node] using h2
    · intro t ht
      simp only [List.cons_append, List.mem_cons] at ht
      rcases ht with rfl | rfl | ht
      · exact (Trie.Sub.left _ _).trans hsub
      · exact (Trie.Sub.right _ _).trans hsub
      · exact h3 t (List.mem_cons_of_mem _ ht)
  · rintro K op k v loc n s hsub hkey hloc - ⟨h1, h2, h3⟩
    refine ⟨?_, ?_, fun t ht => h3 t (List.mem_cons_of_mem _ ht)⟩
    · rw [← travCounts_congr (fun t => Iff.rfl) (op := .leaf k v :: op) (fun k' v' he hp => ?_)]
      · exact h1
      · have hne : k' ≠ k := by
          rintro rfl
          have := hval hsub hp
          subst this
          obtain ⟨v2, h4, h5⟩ := hkm _ _ hkey
          rw [hfun _ _ _ h4 he] at h5
          exact hloc h5
        simp [Trie.keys_leaf, hne]
    · rw [List.cons_append, List.flatMap_cons] at h2
      exact h2.of_append_right
  · intro K op t n cells hsub htR hcells hv
    have hok := hT.sub hsub
    apply triple_pre'
    rintro ⟨s1, ⟨h1', h2, h3⟩, hf, hfs⟩
    have hns : ∀ k v, (k, v) ∈ es → t ≠ .leaf k v := by
      rintro k v he rfl
      exact hR _ htR _ he (by simp [Trie.keys_leaf])
    have hcnt : n.references + 1 = countsOf cfg.hasher v0 (.tree t) + 1 := by
      rw [hf]
      cases t with
      | leaf k v =>
        have : (k, v) ∉ es := fun h => hns k v h rfl
        simp [travCounts, this, readCount]
      | node l r => simp [travCounts, readCount]
    refine triple_conseq (triple_insert_raise (i := .tree t) hU hsh (Nat.succ_pos _)
      (c := travCounts shows T.entries es K (t :: op) (countsOf cfg.hasher v0))
      (c' := travCounts shows T.entries es (t :: K) op (countsOf cfg.hasher v0)) ?_ (fun _ => hok) hg
      (P := fun s => Raising C U shows v0
        (travCounts shows T.entries es K (t :: op) (countsOf cfg.hasher v0)) s)
      (fun _ h => h)) (fun s h => h.1.1) ?_ (fun _ h => h)
    · intro j
      cases j with
      | data k v => simp [travCounts]
      | tree u =>
        cases u with
        | leaf k v =>
          by_cases he : (k, v) ∈ es
          · have hne : Item.tree (Trie.leaf k v) ≠ .tree t := by
              intro h
              cases h
              exact hns k v he rfl
            have hkt : k ∉ t.keys := hR t htR _ he
            rw [if_neg hne]
            simp [travCounts, he, hkt]
          · by_cases hut : Trie.leaf k v = t
            · subst hut
              rw [if_pos rfl, hcnt]
              simp [travCounts, he]
            · simp [travCounts, he, hut]
        | node l r =>
          by_cases hut : Trie.node l r = t
          · subst hut
            rw [if_pos rfl, hcnt]
            simp [travCounts]
          · simp [travCounts, hut]
    · rintro _ s hs
      refine ⟨⟨hs, ?_, ?_⟩, hfs⟩
      · refine (List.Perm.nodup_iff ?_).1 h2
        apply List.Perm.flatMap_right
        exact List.perm_middle.symm
      · intro u hu
        exact h3 u (List.perm_middle.mem_iff.1 hu)
  · intro K op k v n cells hsub hkey hcells hv
    have hok := hT.sub hsub
    obtain ⟨v', hmem, hloc⟩ := hkm _ _ hkey
    have hvv : v' = v := by
      have := hok.inj hU (hes _ hmem) hloc
      cases this; rfl
    subst hvv
    have hpe : (k, v') ∈ T.entries := hsub.entries.subset (by simp [Trie.entries])
    have hkT : k ∈ T.keys := Sub.key_mem hsub
    apply triple_pre'
    rintro ⟨s1, ⟨h1', h2, h3⟩, hf, hfs⟩
    have hcnt : n.references + 1 = countsOf cfg.hasher v0 (.tree (.leaf k v')) + againOf shows := by
      rw [hf]
      cases shows <;> simp [travCounts, hmem, hkT, readCount, againOf]
    have hkop : k ∉ op.flatMap Trie.keys := by
      rw [List.cons_append, List.flatMap_cons, List.nodup_append] at h2
      intro h
      refine h2.2.2 k (by simp [Trie.keys_leaf]) k ?_ rfl
      rw [List.flatMap_append]
      exact List.mem_append_left _ h
    refine triple_conseq (triple_insert_raise (i := .tree (.leaf k v')) hU hsh (Nat.succ_pos _)
      (c := travCounts shows T.entries es K (.leaf k v' :: op) (countsOf cfg.hasher v0))
      (c' := travCounts shows T.entries es K op (countsOf cfg.hasher v0)) ?_ (fun _ => hok) hg
      (P := fun s => Raising C U shows v0
        (travCounts shows T.entries es K (.leaf k v' :: op) (countsOf cfg.hasher v0)) s)
      (fun _ h => h)) (fun s h => h.1.1) ?_ (fun _ h => h)
    · intro j
      cases j with
      | data k v => simp [travCounts]
      | tree u =>
        cases u with
        | leaf k2 v2 =>
          by_cases heq : Trie.leaf k2 v2 = .leaf k v'
          · cases heq
            rw [if_pos rfl, hcnt]
            unfold travCounts
            dsimp only
            rw [if_pos hmem, if_pos ⟨hpe, hkop⟩]
          · rw [if_neg (fun h => heq (Item.tree.inj h))]
            by_cases hk2 : k2 = k
            · subst hk2
              have hne2 : (k2, v2) ∉ es := fun h => heq (by rw [hfun _ _ _ h hmem])
              simp [travCounts, hne2]
            · simp [travCounts, Trie.keys_leaf, hk2]
        | node l r => simp [travCounts]
    · rintro _ s hs
      refine ⟨⟨hs, ?_, fun t ht => h3 t (List.mem_cons_of_mem _ ht)⟩, hfs⟩
      rw [List.cons_append, List.flatMap_cons] at h2
      exact h2.of_append_right
  · intros; trivial

/-- The counts during the merges: branches of `ts` outside of `blocks` are new. -/
noncomputable def mergeCounts (blocks ts : List (Trie N)) (c : Item N → Nat) : Item N → Nat
  | .tree (.node l r) =>
      open Classical in
      if (∃ t ∈ ts, (Trie.node l r).Sub t) ∧ ∀ u ∈ blocks, ¬ (Trie.node l r).Sub u then 1
      else c (.tree (.node l r))
  | i => c i

/-- The counts are `c`, whatever can be read of them. -/
structure Tallied (C : GContract cfg.db) (U : HIn N → Prop) (c : Item N → Nat) (s : σ) : Prop where
  honest : Honest cfg.hasher U (C.settled s)
  counted : Counted C U c s

theorem triple_insert_tally (hU : CollisionFree cfg.hasher U)
    {P : σ → Prop} {i : Item N} {m : Nat} {c c' : Item N → Nat}
    (hm : 0 < m) (hc : ∀ j, c' j = if j = i then m else c j)
    (hi : (∀ x, (i.variant cfg.hasher).input = some x → U x) → i.Ok cfg.hasher U)
    (hg : Guards U cfg.db) (hP : ∀ s, P s → Tallied C U c s) :
    Triple C Ex P (cfg.db.insert (i.loc cfg.hasher) ⟨m, i.variant cfg.hasher⟩)
      (fun _ => Tallied C U c') (fun _ => True) := by
  apply triple_insert_guard hg
  · intro s s' hs hin hw
    have h := hP s hs
    have hiok := hi hin
    refine ⟨?_, ?_⟩
    · rw [settled_of_wrote hw]
      exact h.honest.put hm hiok.belongs
    · intro j hj
      rw [countsOf_eq, settled_of_wrote hw, refsOf_put, hc]
      by_cases hji : j = i
      · subst hji; simp
      · rw [if_neg hji, if_neg (fun e => hji (Item.eq_of_loc hU hj hiok e))]
        exact h.counted j hj
  · exact fun _ _ _ _ _ => trivial

/-- Merging while linking up `blocks`. -/
def Gathering (C : GContract cfg.db) (U : HIn N → Prop)
    (blocks : List (Trie N)) (c : Item N → Nat) (ts : List (Trie N)) (s : σ) : Prop :=
  Tallied C U (mergeCounts blocks ts c) s ∧
    (ts.flatMap Trie.keys).Nodup ∧ (∀ b ∈ blocks, ∃ t ∈ ts, b.Sub t) ∧
    ∀ t ∈ ts, TreeOk cfg.hasher U t

theorem raise_mergeStep (hU : CollisionFree cfg.hasher U)
    (hg : Guards U cfg.db) {T : Trie N} (hT : T.Norm) {blocks : List (Trie N)} {c : Item N → Nat} :
    MergeStep C Ex (Gathering C U blocks c) T (fun _ => True) := by
  intro pre post a b _ hsub
  apply triple_pre'
  rintro ⟨s1, h1', h2, h3, h4⟩
  have hperm : (pre ++ a :: b :: post).Perm (a :: b :: (pre ++ post)) :=
    List.perm_middle.trans (List.perm_middle.cons a)
  have h2' := ((hperm.flatMap_right Trie.keys).nodup_iff).1 h2
  have hnotsub : ∀ t ∈ pre ++ a :: b :: post, ¬ (Trie.node a b).Sub t := by
    intro t ht hs
    have ha : a.key ∈ t.keys := Sub.key_mem ((Trie.Sub.left a b).trans hs)
    have hb : b.key ∈ t.keys := Sub.key_mem ((Trie.Sub.right a b).trans hs)
    simp only [List.flatMap_cons] at h2'
    rw [List.nodup_append] at h2'
    obtain ⟨-, h5, h6⟩ := h2'
    rcases List.mem_cons.1 (hperm.mem_iff.1 ht) with rfl | ht
    · exact h6 _ hb _ (List.mem_append_left _ b.key_mem) rfl
    · refine h6 _ a.key_mem _ ?_ rfl
      rcases List.mem_cons.1 ht with rfl | ht
      · exact List.mem_append_left _ ha
      · exact List.mem_append_right _ (List.mem_flatMap.2 ⟨t, ht, ha⟩)
  have hnew : ∀ u ∈ blocks, ¬ (Trie.node a b).Sub u := by
    intro u hu hsu
    obtain ⟨w, hw, huw⟩ := h3 u hu
    exact hnotsub w hw (hsu.trans huw)
  have hokw : (∀ x, ((Trie.node a b).variant cfg.hasher).input = some x → U x) →
      TreeOk cfg.hasher U (.node a b) := by
    intro hin
    refine ⟨hsub.norm hT, ?_⟩
    intro i hii
    simp only [Trie.inputs, List.mem_cons, List.mem_append] at hii
    rcases hii with rfl | hii | hii
    · exact hin _ rfl
    · exact (h4 a (by simp)).2 i hii
    · exact (h4 b (by simp)).2 i hii
  have hstep := triple_insert_tally (Ex := Ex) (C := C) (i := .tree (.node a b)) (m := 1) hU Nat.one_pos
    (c := mergeCounts blocks (pre ++ a :: b :: post) c)
    (c' := mergeCounts blocks (pre ++ .node a b :: post) c) ?_ hokw hg
    (P := Tallied C U (mergeCounts blocks (pre ++ a :: b :: post) c))
    (fun _ h => h)
  · -- the write passed the guard, so the new tree is in order
    have hgd : Triple C Ex (fun _ => True)
        (cfg.db.insert ((Trie.node a b).loc cfg.hasher) ⟨1, (Trie.node a b).variant cfg.hasher⟩)
        (fun _ _ => TreeOk cfg.hasher U (.node a b)) (fun _ => True) :=
      triple_insert_guard hg (fun _ _ _ hin _ => hokw hin) (fun _ _ _ _ _ => trivial)
    intro s hs
    have r1 := hstep s hs.1
    have r2 := hgd s trivial
    rcases hins : cfg.db.insert ((Trie.node a b).loc cfg.hasher)
      ⟨1, (Trie.node a b).variant cfg.hasher⟩ s with ⟨r, s'⟩
    have hins' : cfg.db.insert ((Item.tree (Trie.node a b)).loc cfg.hasher)
      ⟨1, (Item.tree (Trie.node a b)).variant cfg.hasher⟩ s = (r, s') := hins
    rw [hins'] at r1
    rw [hins] at r2
    cases r with
    | error e => exact r1
    | ok u =>
      refine ⟨r1.1, r1.2, ?_, ?_, ?_⟩
      · simp only [List.flatMap_append, List.flatMap_cons, Trie.keys_node, List.append_assoc] at h2 ⊢
        exact h2
      · intro u hu
        obtain ⟨t, ht, hut⟩ := h3 u hu
        simp only [List.mem_append, List.mem_cons] at ht
        rcases ht with ht | rfl | rfl | ht
        · exact ⟨t, by simp [ht], hut⟩
        · exact ⟨.node t b, by simp, hut.trans (Trie.Sub.left t b)⟩
        · exact ⟨.node a t, by simp, hut.trans (Trie.Sub.right a t)⟩
        · exact ⟨t, by simp [ht], hut⟩
      · intro t ht
        simp only [List.mem_append, List.mem_cons] at ht
        rcases ht with ht | rfl | ht
        · exact h4 t (by simp [ht])
        · exact r2.2
        · exact h4 t (by simp [ht])
  · intro j
    cases j with
    | data k v => simp [mergeCounts]
    | tree u =>
      cases u with
      | leaf k v => simp [mergeCounts]
      | node l r =>
        by_cases hut : Trie.node l r = .node a b
        · rw [hut, if_pos rfl]
          unfold mergeCounts
          dsimp only
          rw [if_pos ⟨⟨.node a b, by simp, Trie.Sub.refl _⟩, hnew⟩]
        · rw [if_neg (fun h => hut (Item.tree.inj h))]
          have hiff : (∃ t ∈ pre ++ .node a b :: post, (Trie.node l r).Sub t) ↔
              ∃ t ∈ pre ++ a :: b :: post, (Trie.node l r).Sub t := by
            constructor
            · rintro ⟨t, ht, hs⟩
              simp only [List.mem_append, List.mem_cons] at ht
              rcases ht with ht | rfl | ht
              · exact ⟨t, by simp [ht], hs⟩
              · rcases hs with hs | hs | hs
                · exact absurd hs hut
                · exact ⟨a, by simp, hs⟩
                · exact ⟨b, by simp, hs⟩
              · exact ⟨t, by simp [ht], hs⟩
            · rintro ⟨t, ht, hs⟩
              simp only [List.mem_append, List.mem_cons] at ht
              rcases ht with ht | rfl | rfl | ht
              · exact ⟨t, by simp [ht], hs⟩
              · exact ⟨.node t b, by simp, hs.trans (Trie.Sub.left t b)⟩
              · exact ⟨.node a t, by simp, hs.trans (Trie.Sub.right a t)⟩
              · exact ⟨t, by simp [ht], hs⟩
          unfold mergeCounts
          dsimp only
          by_cases hc : (∃ t ∈ pre ++ a :: b :: post, (Trie.node l r).Sub t) ∧
              ∀ u ∈ blocks, ¬ (Trie.node l r).Sub u
          · rw [if_pos hc, if_pos ⟨hiff.2 hc.1, hc.2⟩]
          · rw [if_neg hc, if_neg (fun h => hc ⟨hiff.1 h.1, h.2⟩)]

theorem raise_flushStep {blocks : List (Trie N)} {c : Item N → Nat} :
    FlushStep C Ex (Gathering C U blocks c) (fun _ => True) := by
  intro ts
  apply triple_batchWrite
  · rintro s s' ⟨h1, h2⟩ e1 e2
    refine ⟨⟨?_, h2⟩, e2⟩
    have hs := settled_flushed e1 e2
    refine ⟨hs ▸ h1.honest, ?_⟩
    intro i hi
    rw [hs]
    exact h1.counted i hi
  · exact fun _ _ _ _ _ => trivial

theorem keptOf_trav (hN : 0 < N) {pp : PartitionPoint N} (hpp : pp.Lawful) {keys : List (Arr N)}
    (hne : keys ≠ []) {T : Trie N} (hwf : T.WF) :
    keptOf pp keys (some T) = trav pp (sortKeys keys) T (sortKeys keys) := by
  have hne' : sortKeys keys ≠ [] := fun h => by
    obtain ⟨k, hk⟩ := List.exists_mem_of_ne_nil _ hne
    rw [← (sortKeys_perm keys).mem_iff, h] at hk
    simp at hk
  unfold keptOf
  dsimp only
  rw [takenOver_trav hN hpp hwf (sortKeys_sorted keys), if_neg hne']

/-- The counts at the end. -/
theorem afterInsert_eq {prev : Option (Trie N)} {kept K blocks : List (Trie N)}
    {es es' : List (Arr N × List UInt8)} {T' : Trie N} {c : Item N → Nat}
    {pe : List (Arr N × List UInt8)} (hpe : ∀ e, e ∈ pe ↔ ∃ T ∈ prev, e ∈ T.entries)
    (hes : ∀ e, e ∈ es ↔ e ∈ es') (hK : ∀ t, t ∈ K ↔ t ∈ kept)
    (hb : ∀ u, u ∈ blocks ↔ (∃ e ∈ es', u = .leaf e.1 e.2) ∨ u ∈ kept) :
    mergeCounts blocks [T'] (travCounts shows pe es K [] c) =
      afterInsert (againOf shows) prev kept es' T' c := by
  funext i
  cases i with
  | data k v => simp only [mergeCounts, travCounts, afterInsert, hes]
  | tree t =>
    cases t with
    | leaf k v =>
      simp only [mergeCounts, travCounts, afterInsert, hes, hpe, hK, List.flatMap_nil,
        List.not_mem_nil, not_false_iff, and_true]
    | node l r =>
      have hnb : (∀ u ∈ blocks, ¬ (Trie.node l r).Sub u) ↔ ∀ u ∈ kept, Trie.node l r ∉ u.subtrees := by
        simp only [mem_subtrees]
        constructor
        · exact fun h u hu => h u ((hb u).2 (.inr hu))
        · intro h u hu
          rcases (hb u).1 hu with ⟨e, _, rfl⟩ | hu
          · simp [Trie.Sub]
          · exact h u hu
      unfold mergeCounts travCounts afterInsert
      dsimp only
      by_cases hk : Trie.node l r ∈ kept
      · rw [if_pos hk, if_pos ((hK _).2 hk), if_neg]
        rintro ⟨-, h⟩
        exact h _ ((hb _).2 (.inr hk)) (Trie.Sub.refl _)
      · rw [if_neg hk, if_neg (fun h => hk ((hK _).1 h))]
        by_cases hn : Trie.node l r ∈ T'.subtrees ∧ ∀ u ∈ kept, Trie.node l r ∉ u.subtrees
        · rw [if_pos hn, if_pos ⟨⟨T', by simp, mem_subtrees.1 hn.1⟩, hnb.2 hn.2⟩]
        · rw [if_neg hn, if_neg]
          rintro ⟨⟨t, ht, hs⟩, h⟩
          simp only [List.mem_singleton] at ht
          subst ht
          exact hn ⟨mem_subtrees.2 hs, hnb.1 h⟩

theorem MergeStep.and {J : List (Trie N) → σ → Prop} {T : Trie N} {E : σ → Prop} {φ : Prop}
    (h : MergeStep C Ex J T E) : MergeStep C Ex (fun ts s => φ ∧ J ts s) T E := by
  intro pre post a b h1 h2
  apply triple_pre
  intro hφ
  exact triple_conseq (h pre post a b h1 h2) (fun _ h => h) (fun _ _ h => ⟨hφ, h⟩) (fun _ h => h)

theorem FlushStep.and {J : List (Trie N) → σ → Prop} {E : σ → Prop} {φ : Prop}
    (h : FlushStep C Ex J E) : FlushStep C Ex (fun ts s => φ ∧ J ts s) E := by
  intro ts
  apply triple_pre
  intro hφ
  exact triple_conseq (h ts) (fun _ h => h) (fun _ _ h => ⟨⟨hφ, h.1⟩, h.2⟩) (fun _ h => h)

/-- `insert` on top of a version, of which nothing need be stored: what it does to all counts.  `Op` is
anything that the traversal keeps of the subtrees still to be examined. -/
theorem insert_counts_gen (hN : 0 < N) (hpp : cfg.pp.Lawful) (hU : CollisionFree cfg.hasher U)
    (hsh : GShows C shows) (hg : Guards U cfg.db) (hv0 : Honest cfg.hasher U v0)
    {keys : List (Arr N)} {values : List V}
    (hlen : keys.length = values.length) (hne : keys ≠ []) (hnd : keys.Nodup)
    {f : Arr N → List UInt8} {prev : Option (Trie N)}
    (henc : ∀ k ∈ keys, encodedOf cfg (valueMap keys values) k = .ok (f k) ∨
        ∃ e, encodedOf cfg (valueMap keys values) k = .error e ∧ Ex e)
    (hleafU : ∀ k ∈ keys, encodedOf cfg (valueMap keys values) k = .ok (f k) →
      TreeOk cfg.hasher U (.leaf k (f k)))
    (hprev : ∀ T, prev = some T → TreeOk cfg.hasher U T) (hbatch : BatchOk cfg.pp keys prev)
    (hdepth : ∀ T, prev = some T → T.height ≤ cfg.depth ∨
      Ex (.exception "Depth of merkle tree exceeded"))
    {Op : List (Trie N) → Prop} {FactX : Trie N → Prop} (hOp : Op prev.toList)
    (hlook : ∀ T, prev = some T → ∀ (J : List (Trie N) → List (Trie N) → σ → Prop)
      (Fact : Trie N → Node N → σ → Prop),
      (∀ {K op t s}, J K (t :: op) s → t.Sub T → (C.view s (t.loc cfg.hasher) = none ↔
        Unfound cfg.hasher shows v0 (keys.map (fun k => (k, f k))) t)) →
      TravStep cfg C (fun _ => True) T (trav cfg.pp (sortKeys keys) T (sortKeys keys))
        (keyMapOf (sortKeys keys)
          ((sortKeys keys).map (fun k => (Trie.leaf k (f k)).loc cfg.hasher))) J Fact (fun _ => True) →
      TravStep cfg C Ex T (trav cfg.pp (sortKeys keys) T (sortKeys keys))
        (keyMapOf (sortKeys keys)
          ((sortKeys keys).map (fun k => (Trie.leaf k (f k)).loc cfg.hasher)))
        (fun K op s => J K op s ∧ Op op) (fun t n s => Fact t n s ∧ FactX t) (fun _ => True)) :
    Triple C Ex (fun s => C.view s = v0 ∧ C.pending s = View.empty N)
      (insert cfg (prev.map (·.loc cfg.hasher)) keys values)
      (fun r s => Op [] ∧ (∀ k ∈ keys, encodedOf cfg (valueMap keys values) k = .ok (f k)) ∧
        ∃ ts T, ts.Perm (blocksOf cfg.pp (sortKeys keys) f prev) ∧ Assembled ts T ∧
          r = T.loc cfg.hasher ∧
          (∀ i : Item N, i.Ok cfg.hasher U → countsOf cfg.hasher (C.view s) i =
            afterInsert (againOf shows) prev (keptOf cfg.pp keys prev) (keys.map (fun k => (k, f k))) T
              (countsOf cfg.hasher v0) i) ∧
          C.pending s = View.empty N)
      (fun _ => True) := by
  have hmem : ∀ k, k ∈ sortKeys keys ↔ k ∈ keys := fun k => (sortKeys_perm keys).mem_iff
  have hnd' : (sortKeys keys).Nodup := (sortKeys_perm keys).nodup_iff.2 hnd
  have hne' : sortKeys keys ≠ [] := fun h => by
    obtain ⟨k, hk⟩ := List.exists_mem_of_ne_nil _ hne
    rw [← hmem, h] at hk
    simp at hk
  have hesmem : ∀ e, e ∈ (sortKeys keys).map (fun k => (k, f k)) ↔ e ∈ keys.map (fun k => (k, f k)) :=
    fun e => ((sortKeys_perm keys).map _).mem_iff
  have hbl : ∀ u, u ∈ blocksOf cfg.pp (sortKeys keys) f prev ↔
      (∃ e ∈ keys.map (fun k => (k, f k)), u = .leaf e.1 e.2) ∨ u ∈ keptOf cfg.pp keys prev := by
    intro u
    have hl : u ∈ leaves (sortKeys keys) f ↔ ∃ e ∈ keys.map (fun k => (k, f k)), u = .leaf e.1 e.2 := by
      simp only [leaves, List.mem_map, hmem]
      constructor
      · rintro ⟨k, hk, rfl⟩; exact ⟨_, ⟨k, hk, rfl⟩, rfl⟩
      · rintro ⟨e, ⟨k, hk, rfl⟩, rfl⟩; exact ⟨k, hk, rfl⟩
    cases prev with
    | none => simpa [blocksOf, keptOf] using hl
    | some T =>
      rw [keptOf_trav hN hpp hne (hbatch T rfl).1]
      simp only [blocksOf, List.mem_append, hl]
  apply insert_rule hN hpp hlen hne
    (JL := fun done s => (∀ e ∈ done, e.1 ∈ keys ∧ TreeOk cfg.hasher U (.leaf e.1 e.2)) ∧
      Raising C U shows v0 (leafCounts done (countsOf cfg.hasher v0)) s)
    (JT := fun K op s => Raising C U shows v0
        (travCounts shows (prev.toList.flatMap Trie.entries)
          ((sortKeys keys).map (fun k => (k, f k))) K op (countsOf cfg.hasher v0)) s ∧
      ((op ++ K).flatMap Trie.keys).Nodup ∧ (∀ t ∈ op ++ K, ∀ T ∈ prev, t.Sub T) ∧ Op op)
    (Fact := fun t n _ => (∀ T, prev = some T →
      n.references = readCount shows (countsOf cfg.hasher v0 (.tree t))
        (travCounts shows T.entries ((sortKeys keys).map (fun k => (k, f k))) [] [T]
          (countsOf cfg.hasher v0) (.tree t))) ∧ FactX t)
    (JM := fun ts s => Op [] ∧ Gathering C U (blocksOf cfg.pp (sortKeys keys) f prev)
      (travCounts shows (prev.toList.flatMap Trie.entries)
          ((sortKeys keys).map (fun k => (k, f k))) (keptOf cfg.pp keys prev) []
          (countsOf cfg.hasher v0)) ts s)
    (henc := henc)
  · -- start
    rintro s ⟨h1, h2⟩
    have hs : C.settled s = v0 := by rw [settled_of_pending_empty h2, h1]
    refine ⟨by simp, hs ▸ hv0, ?_, ?_⟩
    · intro i _
      rw [hs]
      cases i with
      | data k v => simp [leafCounts]
      | tree t => cases t <;> simp [leafCounts]
    · unfold Mode
      cases shows
      · exact h1
      · exact h2
  · -- one leaf
    rintro done k hk ⟨rest, hsplit⟩ hok
    apply triple_pre
    intro hdone
    have hkd : (k, f k) ∉ done := by
      intro he
      have h := hnd'
      rw [hsplit, List.nodup_append] at h
      exact h.2.2 k (List.mem_map_of_mem (f := Prod.fst) he) k (by simp) rfl
    have hleaf := hleafU k hk hok
    refine triple_conseq (raise_leafBody hU hsh hg hleaf.2 hkd) (fun _ h => h) ?_ (fun _ h => h)
    rintro r s ⟨h1, h2⟩
    refine ⟨h1, ?_, h2⟩
    intro e he
    rcases List.mem_append.1 he with he | he
    · exact hdone e he
    · simp only [List.mem_singleton] at he
      subst he
      exact ⟨hk, hleaf⟩
  · intros; trivial
  · -- no previous root
    rintro rfl s ⟨hd, h⟩
    refine ⟨?_, by simp, by simp, hOp⟩
    have : leafCounts ((sortKeys keys).map (fun k => (k, f k))) (countsOf cfg.hasher v0) =
        travCounts shows [] ((sortKeys keys).map (fun k => (k, f k))) [] []
          (countsOf cfg.hasher v0) := by
      funext i
      cases i with
      | data k v => rfl
      | tree t => cases t <;> simp [leafCounts, travCounts]
    rw [this] at h
    exact h
  · -- a previous root
    rintro hall T rfl
    have hTok := hprev T rfl
    obtain ⟨hTwf, hsf⟩ := hbatch T rfl
    refine ⟨hTok.1, hdepth T rfl, ?_, ?_⟩
    · rintro s ⟨hd, h⟩
      refine ⟨?_, ?_, ?_, hOp⟩
      · have : leafCounts ((sortKeys keys).map (fun k => (k, f k))) (countsOf cfg.hasher v0) =
            travCounts shows T.entries ((sortKeys keys).map (fun k => (k, f k))) [] [T]
              (countsOf cfg.hasher v0) := by
          funext i
          cases i with
          | data k v => rfl
          | tree t =>
            cases t with
            | node l r => simp [leafCounts, travCounts]
            | leaf k v =>
              unfold leafCounts travCounts
              dsimp only
              by_cases he : (k, v) ∈ (sortKeys keys).map (fun k => (k, f k))
              · rw [if_pos he, if_pos he, if_neg]
                rintro ⟨h1, h2⟩
                exact h2 (by
                  simp only [List.flatMap_cons, List.flatMap_nil, List.append_nil]
                  exact List.mem_map_of_mem (f := Prod.fst) h1)
              · rw [if_neg he, if_neg he]; simp
        rw [this] at h
        simpa using h
      · have : T.keys.Nodup := hTwf.sorted.imp Arr.ne_of_lt
        simpa using this
      · intro t ht T' hT'
        simp only [List.append_nil, List.mem_singleton] at ht
        cases hT'
        subst ht
        exact Trie.Sub.refl _
    · have := raise_travStep (C := C) (Ex := fun _ => True) hU hsh hg hv0 (fun _ => trivial)
        (R := trav cfg.pp (sortKeys keys) T (sortKeys keys))
        (es := (sortKeys keys).map (fun k => (k, f k)))
        (keyMap := keyMapOf (sortKeys keys)
          ((sortKeys keys).map (fun k => (Trie.leaf k (f k)).loc cfg.hasher))) hTwf hTok ?_ ?_ ?_ ?_
      · have := hlook T rfl _ _ ?_ this
        · simpa [and_assoc] using this
        · rintro K op t s ⟨h1, h2, h3⟩ hsub
          rw [raise_found hv0 hTok h1 h2 hsub]
          unfold Unfound
          simp only [hesmem]
      · intro e he
        obtain ⟨k, hk, rfl⟩ := List.mem_map.1 he
        exact hleafU k ((hmem k).1 hk) (hall k ((hmem k).1 hk))
      · intro t ht e he hkt
        obtain ⟨k, hk, rfl⟩ := List.mem_map.1 he
        have h1 := (trav_far_iff hN hpp hk hTwf (sortKeys_sorted keys) hne').2
          (hsf k ((hmem k).1 hk)) t ht
        have htwf : t.WF := by
          have hb := (blocks_ok hN hpp hne hnd f hbatch).2.1 t
          exact hb (by simp [blocksOf, ht])
        have h2 : t.split ≤ firstDiff k t.key := htwf.agree _ hkt
        omega
      · intro k loc hk
        rw [keyMapOf_get] at hk
        split at hk
        · next h =>
          cases hk
          exact ⟨f k, List.mem_map_of_mem (f := fun k => (k, f k)) h, rfl⟩
        · cases hk
      · intro k v v' h1 h2
        obtain ⟨_, _, h1⟩ := List.mem_map.1 h1
        obtain ⟨_, _, h2⟩ := List.mem_map.1 h2
        cases h1; cases h2; rfl
  · exact fun _ hd => absurd (apart_keys (blocks_ok hN hpp hne hnd f hbatch).1) hd
  · exact raise_flushStep.and
  · -- merges
    intro hall ts' T' hp hasm
    have hbs := blocks_ok hN hpp hne hnd f hbatch
    have hTwf := assembled_wf hp hasm hbs.1 hbs.2.1
    refine ⟨(raise_mergeStep hU hg hTwf.norm).and, ?_⟩
    rintro K s hK ⟨h1, h2, h3, hop⟩
    refine ⟨hop, ⟨h1.honest, ?_⟩, ?_, ?_, ?_⟩
    · have hKk : ∀ t, t ∈ K ↔ t ∈ keptOf cfg.pp keys prev := by
        intro t
        have hperm : (leaves (sortKeys keys) f ++ K).Perm
            (leaves (sortKeys keys) f ++ keptOf cfg.pp keys prev) := by
          refine hK.symm.trans (hp.trans ?_)
          cases prev with
          | none => simp [blocksOf, keptOf]
          | some T => rw [keptOf_trav hN hpp hne (hbatch T rfl).1]; exact List.Perm.refl _
        exact ((List.perm_append_left_iff _).1 hperm).mem_iff
      have e1 : mergeCounts (blocksOf cfg.pp (sortKeys keys) f prev) ts'
          (travCounts shows (prev.toList.flatMap Trie.entries)
            ((sortKeys keys).map (fun k => (k, f k))) (keptOf cfg.pp keys prev) []
            (countsOf cfg.hasher v0)) =
          travCounts shows (prev.toList.flatMap Trie.entries)
            ((sortKeys keys).map (fun k => (k, f k))) K [] (countsOf cfg.hasher v0) := by
        rw [travCounts_congr (op := []) (op' := []) hKk (fun _ _ _ _ => Iff.rfl)]
        funext i
        cases i with
        | data k v => rfl
        | tree t =>
          cases t with
          | leaf k v => rfl
          | node l r =>
            unfold mergeCounts
            dsimp only
            rw [if_neg]
            rintro ⟨⟨t, ht, hs⟩, h⟩
            exact h t (hp.mem_iff.1 ht) hs
      rw [e1]
      exact h1.counted
    · have : T'.keys.Nodup := hTwf.sorted.imp Arr.ne_of_lt
      unfold Trie.keys at this
      rw [hasm.entries, List.map_flatMap] at this
      exact this
    · intro b hb
      exact ⟨b, hp.mem_iff.2 hb, Trie.Sub.refl b⟩
    · intro t ht
      rcases (hbl t).1 (hp.mem_iff.1 ht) with ⟨e, he, rfl⟩ | ht'
      · obtain ⟨k, hk, rfl⟩ := List.mem_map.1 he
        exact hleafU k hk (hall k hk)
      · rcases List.mem_append.1 (hK.mem_iff.1 ht) with ht | ht
        · unfold leaves at ht
          obtain ⟨k, hk, rfl⟩ := List.mem_map.1 ht
          exact hleafU k ((hmem k).1 hk) (hall k ((hmem k).1 hk))
        · cases hpv : prev with
          | none => rw [hpv] at ht'; simp [keptOf] at ht'
          | some T => exact (hprev T hpv).sub (h3 t (by simp [ht]) T hpv)
  · -- end
    rintro ts' T' hall hp hasm s ⟨hop, h1, -, -, h4⟩ hpend
    refine ⟨hop, hall, ts', T', hp, hasm, rfl, ?_, hpend⟩
    intro i hi
    have := h1.counted i hi
    rw [settled_of_pending_empty hpend] at this
    rw [this, afterInsert_eq (prev := prev) (es' := keys.map (fun k => (k, f k)))
      (kept := keptOf cfg.pp keys prev) ?_ hesmem (fun _ => Iff.rfl) hbl]
    intro e
    cases prev <;> simp

/-- `insert` on top of a version, of which nothing need be stored: what it does to all counts. -/
theorem insert_counts (hN : 0 < N) (hpp : cfg.pp.Lawful) (hU : CollisionFree cfg.hasher U)
    (hsh : GShows C shows) (hg : Guards U cfg.db) (hv0 : Honest cfg.hasher U v0)
    {keys : List (Arr N)} {values : List V}
    (hlen : keys.length = values.length) (hne : keys ≠ []) (hnd : keys.Nodup)
    {f : Arr N → List UInt8} {prev : Option (Trie N)}
    (henc : ∀ k ∈ keys, encodedOf cfg (valueMap keys values) k = .ok (f k) ∨
        ∃ e, encodedOf cfg (valueMap keys values) k = .error e)
    (hleafU : ∀ k ∈ keys, encodedOf cfg (valueMap keys values) k = .ok (f k) →
      TreeOk cfg.hasher U (.leaf k (f k)))
    (hprev : ∀ T, prev = some T → TreeOk cfg.hasher U T) (hbatch : BatchOk cfg.pp keys prev) :
    Triple C (fun _ => True) (fun s => C.view s = v0 ∧ C.pending s = View.empty N)
      (insert cfg (prev.map (·.loc cfg.hasher)) keys values)
      (fun r s => (∀ k ∈ keys, encodedOf cfg (valueMap keys values) k = .ok (f k)) ∧
        ∃ ts T, ts.Perm (blocksOf cfg.pp (sortKeys keys) f prev) ∧ Assembled ts T ∧
          r = T.loc cfg.hasher ∧
          (∀ i : Item N, i.Ok cfg.hasher U → countsOf cfg.hasher (C.view s) i =
            afterInsert (againOf shows) prev (keptOf cfg.pp keys prev) (keys.map (fun k => (k, f k))) T
              (countsOf cfg.hasher v0) i) ∧
          C.pending s = View.empty N)
      (fun _ => True) :=
  triple_conseq (insert_counts_gen (Ex := fun _ => True) (Op := fun _ => True) (FactX := fun _ => True)
    hN hpp hU hsh hg hv0 hlen hne hnd
    (fun k hk => (henc k hk).imp id (fun ⟨e, he⟩ => ⟨e, he, trivial⟩)) hleafU hprev hbatch
    (fun _ _ => .inr trivial) trivial (fun T _ J Fact _ h => by simpa using h))
    (fun _ h => h) (fun _ _ h => h.2) (fun _ h => h)

end
end MerkleBit
