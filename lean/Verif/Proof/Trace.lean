import Verif.Proof.Repair
import Verif.Proof.Lineage
import Verif.Spec.Trace
/-! # Accepted inserts, whatever the state of the database and the previous root -/

namespace MerkleBit
variable {N : Nat} {σ V : Type}

/-! ## The branches above the blocks -/

/-- `T` has the subtrees `ts` side by side, and the branches above them are stored. -/
inductive Above (H : Hasher N) (v : View N) : List (Trie N) → Trie N → Prop where
  | one (t : Trie N) : Above H v [t] t
  | join (xs ys : List (Trie N)) (a b : Trie N) (ha : Above H v xs a) (hb : Above H v ys b)
      (hr : View.Has v ((Trie.node a b).loc H) ((Trie.node a b).variant H)) :
      Above H v (xs ++ ys) (.node a b)

theorem Above.mono {H : Hasher N} {v v' : View N} (h : v.Ext v') {ts : List (Trie N)} {T : Trie N}
    (ha : Above H v ts T) : Above H v' ts T := by
  induction ha with
  | one t => exact .one t
  | join xs ys a b _ _ hr iha ihb => exact .join xs ys a b iha ihb (h _ _ hr)

theorem Above.size {H : Hasher N} {v : View N} {ts : List (Trie N)} {T : Trie N}
    (ha : Above H v ts T) : (ts.map Trie.size).sum = T.size := by
  induction ha with
  | one t => simp
  | join xs ys a b _ _ _ iha ihb => simp [Trie.size_node, iha, ihb]

theorem Joins.size {ts : List (Trie N)} {T : Trie N} (h : Joins ts T) :
    (ts.map Trie.size).sum = T.size := by
  induction h with
  | one t => simp
  | join xs ys a b _ _ _ _ iha ihb => simp [Trie.size_node, iha, ihb]

theorem Joins.ne_nil {ts : List (Trie N)} {T : Trie N} (h : Joins ts T) : ts ≠ [] := by
  induction h with
  | one t => simp
  | join xs ys a b _ _ _ _ iha ihb => simp [iha]

theorem Above.ne_nil {H : Hasher N} {v : View N} {ts : List (Trie N)} {T : Trie N}
    (h : Above H v ts T) : ts ≠ [] := by
  induction h with
  | one t => simp
  | join xs ys a b _ _ _ iha ihb => simp [iha]

theorem Trie.size_pos' (t : Trie N) : 0 < t.size := by
  induction t with
  | leaf k v => simp [Trie.size, Trie.entries]
  | node l r ihl ihr => rw [Trie.size_node]; omega

theorem split_unique : ∀ {xs xs' ys ys' : List (Trie N)}, xs ++ ys = xs' ++ ys' →
    (xs.map Trie.size).sum = (xs'.map Trie.size).sum → xs = xs' ∧ ys = ys'
  | [], [], _, _, h, _ => ⟨rfl, by simpa using h⟩
  | [], x :: xs', _, _, _, hs => by
    have := x.size_pos'
    simp at hs; omega
  | x :: xs, [], _, _, _, hs => by
    have := x.size_pos'
    simp at hs; omega
  | x :: xs, x' :: xs', ys, ys', h, hs => by
    simp only [List.cons_append, List.cons.injEq] at h
    obtain ⟨rfl, h⟩ := h
    obtain ⟨rfl, rfl⟩ := split_unique h (by simpa using hs)
    exact ⟨rfl, rfl⟩

/-- The way to a stored block is stored. -/
theorem Above.path {H : Hasher N} {v : View N} {ts : List (Trie N)} {T : Trie N} (hj : Joins ts T) :
    Above H v ts T → ∀ u ∈ ts, PathStored H v u.key u → PathStored H v u.key T := by
  induction hj with
  | one t =>
    intro _ u hu h
    simp only [List.mem_singleton] at hu
    exact hu ▸ h
  | join xs ys a b ha hb hx hy iha ihb =>
    intro habove u hu h
    generalize hts : xs ++ ys = ts at habove
    generalize hT : Trie.node a b = T at habove
    cases habove with
    | one t =>
      subst hT
      have := congrArg List.length hts
      have h1 := List.length_pos_iff.2 ha.ne_nil
      have h2 := List.length_pos_iff.2 hb.ne_nil
      simp at this
      omega
    | join xs' ys' a' b' ha' hb' hr =>
      cases hT
      obtain ⟨rfl, rfl⟩ := split_unique hts (by rw [ha.size, ha'.size])
      refine ⟨hr, ?_⟩
      rcases List.mem_append.1 hu with hu | hu
      · rw [if_neg (by simp [hx u hu])]
        exact iha ha' u hu h
      · rw [if_pos (hy u hu)]
        exact ihb hb' u hu h

theorem sorted_perm_eq {ts ts' : List (Trie N)} (hp : ts.Perm ts')
    (h : (ts.map Trie.key).Pairwise Arr.lt) (h' : (ts'.map Trie.key).Pairwise Arr.lt) : ts = ts' := by
  rw [List.pairwise_map] at h h'
  exact List.Perm.eq_of_pairwise (fun a b _ _ h1 h2 => absurd (Arr.lt_trans h1 h2) (Arr.lt_irrefl _))
    h h' hp

section
variable {cfg : Config N σ V} {C : GContract cfg.db} {U : HIn N → Prop} {v0 : View N}
  {Ex : Err → Prop}

/-- Known subtrees `K`, the leaves `Ls` in the database once the queue is confirmed. -/
def Carried (C : GContract cfg.db) (U : HIn N → Prop) (v0 : View N) (Ls K : List (Trie N)) (s : σ) :
    Prop := Kept C U v0 Ls s ∧ ∀ t ∈ K, ∀ i ∈ t.inputs cfg.hasher, U i

theorem carried_travStep (hU : CollisionFree cfg.hasher U) {T : Trie N} {R : List (Trie N)}
    {keyMap : AMap (Arr N) (Arr N)} (hEx : ∀ msg, Ex (.exception msg)) (Ls : List (Trie N))
    (hn : T.Norm) (hT : ∀ i ∈ T.inputs cfg.hasher, U i) :
    TravStep cfg C Ex T R keyMap (fun K _ s => Carried C U v0 Ls K s)
      (fun _ _ _ => True) (Placed C U v0) := by
  have hi : ∀ t : Trie N, t.Sub T → ∀ i ∈ t.inputs cfg.hasher, U i :=
    fun t hs i hi => hT i (hs.inputs i hi)
  have hb : ∀ t : Trie N, t.Sub T → Belongs cfg.hasher U (t.loc cfg.hasher) (t.variant cfg.hasher) :=
    fun t hs => belongs_of_inputs (hs.norm hn) (hi t hs)
  constructor
  · rintro K K' op op' s hK _ ⟨h2, h3⟩
    exact ⟨h2, fun t ht => h3 t (hK.mem_iff.2 ht)⟩
  · rintro K op t s ⟨⟨h2, -⟩, h3⟩ hsub
    cases hv : C.view s (t.loc cfg.hasher) with
    | none => exact .inr ⟨rfl, hEx⟩
    | some n => exact .inl ⟨n, rfl, (h2.view _ _ hv).2.unique hU (hb t hsub), trivial⟩
  · rintro K op l r n s _ _ _ h; exact h
  · rintro K op k v loc n s _ _ _ _ h; exact h
  · intro K op t n cells hsub _ _ hv
    apply triple_insert
    · rintro s s' ⟨⟨⟨h2, h4⟩, h3⟩, -, -⟩ hw
      have hext := h2.wrote_settled hU (hb t hsub) hw
      refine ⟨⟨⟨h2.wrote hU (Nat.succ_pos _) (hb t hsub) hw, fun u hu => (h4 u hu).mono hext⟩, ?_⟩,
        fun _ _ => trivial⟩
      intro u hu
      rcases List.mem_cons.1 hu with rfl | hu
      · exact hi u hsub
      · exact h3 u hu
    · rintro s s' ⟨⟨⟨h2, h4⟩, h3⟩, -, -⟩ e1 e2
      exact h2.same e1 (.inl e2)
  · intro K op k v n cells hsub _ _ hv
    apply triple_insert
    · rintro s s' ⟨⟨⟨h2, h4⟩, h3⟩, -, -⟩ hw
      have hext := h2.wrote_settled hU (hb _ hsub) hw
      exact ⟨⟨⟨h2.wrote hU (Nat.succ_pos _) (hb _ hsub) hw, fun u hu => (h4 u hu).mono hext⟩, h3⟩,
        fun _ _ => trivial⟩
    · rintro s s' ⟨⟨⟨h2, h4⟩, h3⟩, -, -⟩ e1 e2
      exact h2.same e1 (.inl e2)
  · rintro K op s ⟨⟨h2, -⟩, h3⟩
    exact h2

/-- Merging: `K` was put together from the blocks `bs`; all branches put on top are there. -/
def Merging (C : GContract cfg.db) (U : HIn N → Prop) (v0 : View N) (Ls bs K : List (Trie N))
    (s : σ) : Prop :=
  Carried C U v0 Ls K s ∧ ∃ tss, List.Forall₂ (Above cfg.hasher (C.settled s)) tss K ∧
    tss.flatten.Perm bs ∧ (tss.flatten.map Trie.key).Pairwise Arr.lt

theorem forall₂_append_right {α β : Type} {R : α → β → Prop} : ∀ {l1 l2 : List β} {l : List α},
    List.Forall₂ R l (l1 ++ l2) → ∃ a b, List.Forall₂ R a l1 ∧ List.Forall₂ R b l2 ∧ l = a ++ b
  | [], _, l, h => ⟨[], l, .nil, h, rfl⟩
  | _ :: _, _, _, h => by
    obtain ⟨b, u', hb, hu, rfl⟩ := List.forall₂_cons_right_iff.1 h
    obtain ⟨x, y, h1, h2, rfl⟩ := forall₂_append_right hu
    exact ⟨b :: x, y, .cons hb h1, h2, rfl⟩

theorem merging_mergeStep (hU : CollisionFree cfg.hasher U) (hg : Guards U cfg.db) {T : Trie N}
    {Ls bs : List (Trie N)} (hT : T.Norm) :
    MergeStep C Ex (Merging C U v0 Ls bs) T (Placed C U v0) := by
  intro pre post a b _ hsub
  apply triple_insert_guard hg
  · rintro s s' ⟨⟨⟨hi, hL⟩, hK⟩, tss, htss, hperm, hsort⟩ hin hw
    have hnew : ∀ i ∈ (Trie.node a b).inputs cfg.hasher, U i := by
      intro i hii
      simp only [Trie.inputs, List.mem_cons, List.mem_append] at hii
      rcases hii with rfl | hii | hii
      · exact hin _ rfl
      · exact hK a (by simp) i hii
      · exact hK b (by simp) i hii
    have hb := belongs_of_inputs (H := cfg.hasher) (U := U) (hsub.norm hT) hnew
    have hext := hi.wrote_settled hU hb hw
    refine ⟨⟨⟨hi.wrote hU (by simp) hb hw, fun u hu => (hL u hu).mono hext⟩, ?_⟩, ?_⟩
    · intro t ht
      simp only [List.mem_append, List.mem_cons] at ht
      rcases ht with ht | rfl | ht
      · exact hK t (by simp [ht])
      · exact hnew
      · exact hK t (by simp [ht])
    · obtain ⟨xpre, xrest, h1, h2, rfl⟩ := forall₂_append_right htss
      obtain ⟨xa, _, h3, h4, rfl⟩ := List.forall₂_cons_right_iff.1 h2
      obtain ⟨xb, xpost, h5, h6, rfl⟩ := List.forall₂_cons_right_iff.1 h4
      refine ⟨xpre ++ (xa ++ xb) :: xpost, List.rel_append (h1.imp fun _ _ h => h.mono hext)
        (.cons (.join _ _ _ _ (h3.mono hext) (h5.mono hext) (has_wrote hw))
          (h6.imp fun _ _ h => h.mono hext)), ?_, ?_⟩
      · simpa using hperm
      · simpa using hsort
  · rintro s s' ⟨⟨⟨hi, -⟩, hK⟩, -⟩ h1 h2
    exact hi.same h1 (.inl h2)

theorem merging_flushStep (hU : CollisionFree cfg.hasher U) {Ls bs : List (Trie N)} :
    FlushStep C Ex (Merging C U v0 Ls bs) (Placed C U v0) := by
  intro ts
  apply triple_batchWrite
  · rintro s s' ⟨⟨⟨hi, hL⟩, hK⟩, htss⟩ h1 h2
    have e := settled_flushed h1 h2
    refine ⟨⟨⟨⟨hi.flushed hU h1 h2, ?_⟩, hK⟩, ?_⟩, h2⟩
    · rw [e]; exact hL
    · rw [e]; exact htss
  · rintro s s' ⟨⟨⟨hi, hL⟩, hK⟩, htss⟩ h1 h2
    exact hi.same h1 h2

end

section
variable {cfg : Config N σ V} {C : DbContract cfg.db} {U : HIn N → Prop} {v0 : View N}

/-- What an accepted insert has done: the previous root was that of a tree, and the returned root is that
of a tree put together from the batch and parts of the previous tree.  The ways to the keys of the batch
are stored. -/
def Built (cfg : Config N σ V) (U : HIn N → Prop) (v : View N) (prev : Option (Arr N))
    (keys : List (Arr N)) (values : List V) (r : Arr N) : Prop :=
  keys.length = values.length ∧
  (∀ k ∈ keys, encodedOf cfg (valueMap keys values) k = .ok (encOf cfg keys values k)) ∧
  ∃ (pt : Option (Trie N)) (ts : List (Trie N)) (T : Trie N),
    prev = pt.map (·.loc cfg.hasher) ∧
    (∀ P, pt = some P → P.Norm ∧ ∀ i ∈ P.inputs cfg.hasher, U i) ∧
    ts.Perm (blocksOf cfg.pp (sortKeys keys) (encOf cfg keys values) pt) ∧ Assembled ts T ∧
    T.loc cfg.hasher = r ∧ T.Norm ∧ (∀ i ∈ T.inputs cfg.hasher, U i) ∧
    ∀ k ∈ keys, PathStored cfg.hasher v k T

/-- An insert in any state, on top of any root. -/
theorem insert_built (hN : 0 < N) (hpp : cfg.pp.Lawful) (hU : CollisionFree cfg.hasher U)
    (prevRoot : Option (Arr N)) (keys : List (Arr N)) (values : List V) {s : σ}
    (hin : ∀ i ∈ hashedBy cfg prevRoot keys values s, U i) (hs : Placed C.toG U v0 s) :
    Ends C (InsertEx cfg values) (insert cfg prevRoot keys values) s
      (fun r s' => Placed C.toG U v0 s' ∧ C.pending s' = View.empty N ∧
        Built cfg U (C.view s') prevRoot keys values r)
      (Placed C.toG U v0) := by
  have hEx : ∀ msg, InsertEx cfg values (.exception msg) := fun msg => .inl ⟨msg, rfl⟩
  by_cases hlen : keys.length = values.length
  swap
  · unfold insert Ends
    rw [if_pos hlen]
    exact ⟨.inl ⟨hEx _, id⟩, hs⟩
  by_cases hne : keys = []
  · unfold insert Ends
    rw [if_neg (by simpa using hlen), if_pos (by simp [hne])]
    exact ⟨.inl ⟨hEx _, id⟩, hs⟩
  have henc : ∀ k ∈ keys, encodedOf cfg (valueMap keys values) k = .ok (encOf cfg keys values k) ∨
      ∃ e, encodedOf cfg (valueMap keys values) k = .error e ∧ InsertEx cfg values e := by
    intro k hk
    rcases encodedOf_cases cfg hlen hk with ⟨h1, _⟩ | ⟨v, hv, e, h1, h2⟩
    · exact .inl h1
    · exact .inr ⟨e, h2, .inr ⟨v, hv, h1⟩⟩
  have hleafU : ∀ k ∈ keys,
      encodedOf cfg (valueMap keys values) k = .ok (encOf cfg keys values k) →
      ∀ i ∈ (Trie.leaf k (encOf cfg keys values k)).inputs cfg.hasher, U i := by
    intro k hk hok i hi
    rcases encodedOf_cases cfg hlen hk with ⟨_, h⟩ | ⟨v, _, e, _, h⟩
    · exact hin i (mem_hashedBy h i hi)
    · rw [hok] at h; cases h
  have hleaf : ∀ (done : List (Arr N × List UInt8)), ∀ k ∈ keys,
      encodedOf (gcfg U cfg) (valueMap keys values) k = .ok (encOf cfg keys values k) →
      Triple (C.guard U) (InsertEx cfg values)
        (Kept (cfg := gcfg U cfg) (C.guard U) U v0 (done.map (fun e => Trie.leaf e.1 e.2)))
        (leafBody (gcfg U cfg) k (encOf cfg keys values k))
        (fun r s => r = (Trie.leaf k (encOf cfg keys values k)).loc cfg.hasher ∧
          Kept (cfg := gcfg U cfg) (C.guard U) U v0
            ((done ++ [(k, encOf cfg keys values k)]).map (fun e => Trie.leaf e.1 e.2)) s)
        (Placed (cfg := gcfg U cfg) (C.guard U) U v0) := by
    intro done k hk hok
    refine triple_conseq (kept_leafBody (cfg := gcfg U cfg) hU (hleafU k hk hok)
      (done.map (fun e => Trie.leaf e.1 e.2))) (fun _ h => h) ?_ (fun _ h => h)
    rintro r s ⟨h1, h2⟩
    exact ⟨h1, by simpa using h2⟩
  have hmk : ((sortKeys keys).map (fun k => (k, encOf cfg keys values k))).map
      (fun e => Trie.leaf e.1 e.2) = leaves (sortKeys keys) (encOf cfg keys values) := by
    simp [leaves, Function.comp_def]
  have hleafmem : ∀ k ∈ keys, Trie.leaf k (encOf cfg keys values k) ∈
      leaves (sortKeys keys) (encOf cfg keys values) := fun k hk =>
    List.mem_map.2 ⟨k, (sortKeys_perm keys).mem_iff.2 hk, rfl⟩
  have key : ∀ prev : Option (Trie N), prevRoot = prev.map (·.loc cfg.hasher) →
      (∀ T, prev = some T → T.Norm ∧ ∀ i ∈ T.inputs cfg.hasher, U i) →
      Ends C (InsertEx cfg values) (insert cfg prevRoot keys values) s
        (fun r s' => Placed C.toG U v0 s' ∧ C.pending s' = View.empty N ∧
          Built cfg U (C.view s') prevRoot keys values r) (Placed C.toG U v0) := by
    rintro prev rfl hprev
    refine ends_of_guard (C := C) hin (triple_conseq (insert_rule (cfg := gcfg U cfg)
      (C := C.guard U) (Ex := InsertEx cfg values) (prev := prev)
      (P := Placed (cfg := gcfg U cfg) (C.guard U) U v0)
      (Q := fun r s' => Placed C.toG U v0 s'.1 ∧ C.pending s'.1 = View.empty N ∧
        Built cfg U (C.view s'.1) (prev.map (·.loc cfg.hasher)) keys values r)
      (E := Placed (cfg := gcfg U cfg) (C.guard U) U v0) hN hpp hlen hne henc
      (JL := fun done s => Kept (cfg := gcfg U cfg) (C.guard U) U v0
        (done.map (fun e => Trie.leaf e.1 e.2)) s)
      (JT := fun K _ s => Carried (cfg := gcfg U cfg) (C.guard U) U v0
        (leaves (sortKeys keys) (encOf cfg keys values)) K s)
      (Fact := fun _ _ _ => True)
      (JM := Merging (cfg := gcfg U cfg) (C.guard U) U v0
        (leaves (sortKeys keys) (encOf cfg keys values))
        (blocksOf cfg.pp (sortKeys keys) (encOf cfg keys values) prev))
      ?_ (fun done k hk _ => hleaf done k hk) ?_ ?_ ?_ ?_ ?_ ?_ ?_) (fun _ h => h) (fun _ _ h => h)
        (fun _ h => h.plain)) hs.guard
    · intro s hs
      exact ⟨hs, by simp⟩
    · intro done s hs
      exact hs.1
    · rintro rfl s hs
      rw [hmk] at hs
      exact ⟨hs, by simp⟩
    · rintro - T rfl
      obtain ⟨h1, h2⟩ := hprev T rfl
      refine ⟨h1, .inr (hEx _), ?_, ?_⟩
      · intro s hs
        rw [hmk] at hs
        exact ⟨hs, by simp⟩
      · exact carried_travStep (cfg := gcfg U cfg) hU hEx _ h1 h2
    · intro _ _
      exact ⟨hEx _, fun K s hs => hs.1.1⟩
    · exact merging_flushStep (cfg := gcfg U cfg) hU
    · intro hall ts' T' hp hasm
      refine ⟨merging_mergeStep (cfg := gcfg U cfg) hU (guardDb_guards U cfg.db)
        (assembled_norm (fun T hT => (hprev T hT).1) hp hasm), ?_⟩
      intro K s hK hs
      refine ⟨⟨hs.1, fun t ht => ?_⟩, ts'.map (fun u => [u]), ?_, ?_, ?_⟩
      · rw [hK.mem_iff, List.mem_append] at ht
        rcases ht with ht | ht
        · obtain ⟨k, hk, rfl⟩ := List.mem_map.1 ht
          rw [(sortKeys_perm keys).mem_iff] at hk
          exact hleafU k hk (hall k hk)
        · exact hs.2 t ht
      · rw [List.forall₂_map_left_iff]
        exact List.forall₂_same.2 (fun u _ => .one u)
      · have e : (ts'.map (fun u => [u])).flatten = ts' := by simp [← List.flatMap_def]
        rw [e]; exact hp
      · simpa [← List.flatMap_def] using hasm.sorted
    · rintro ts' T' hall hp hasm s ⟨⟨⟨hpl, hL⟩, hK⟩, tss, htss, hperm, hsort⟩ hpend
      have hset := settled_of_pending_empty (cfg := gcfg U cfg) (C := C.guard U) hpend
      rw [hset] at hL htss
      refine ⟨hpl.plain, hpend, hlen, hall, prev, ts', T', rfl, hprev, hp, hasm, rfl,
        assembled_norm (fun T hT => (hprev T hT).1) hp hasm, hK T' (by simp), fun k hk => ?_⟩
      obtain ⟨ts, rfl⟩ : ∃ ts, tss = [ts] := by
        have := htss.length_eq
        exact List.length_eq_one_iff.1 this
      obtain ⟨habove, -⟩ := List.forall₂_cons.1 htss
      simp only [List.flatten_cons, List.flatten_nil, List.append_nil] at hperm hsort
      have e : ts = ts' := sorted_perm_eq (hperm.trans hp.symm) hsort hasm.sorted
      subst e
      have hmem : Trie.leaf k (encOf cfg keys values k) ∈ ts := by
        rw [hp.mem_iff]
        cases prev with
        | none => exact hleafmem k hk
        | some P => exact List.mem_append_left _ (hleafmem k hk)
      exact Above.path hasm.joins habove _ hmem (hL _ (hleafmem k hk)).path
  cases prevRoot with
  | none => exact key none rfl (by simp)
  | some r =>
    by_cases hr : ∃ t : Trie N, t.loc cfg.hasher = r ∧ t.Norm ∧
        ∀ i ∈ t.inputs cfg.hasher, U i
    · obtain ⟨t, rfl, hn, ht⟩ := hr
      exact key (some t) rfl (fun T hT => by cases hT; exact ⟨hn, ht⟩)
    · have hdata : ∀ n, C.view s r = some n → ∃ d, n.variant = .data d := by
        intro n hn
        rcases (hs.view r n hn).2 with ⟨k, v, _, h, _⟩ | ⟨t, hnorm, h, _, h3⟩
        · exact ⟨_, h⟩
        · exact absurd ⟨t, h.symm, hnorm, h3⟩ hr
      exact ends_of_guard (C := C) hin (triple_conseq (insert_rootless (cfg := gcfg U cfg)
        (C := C.guard U) (Ex := InsertEx cfg values) hlen hne
        (f := encOf cfg keys values) hEx henc
        (JL := fun done s => Kept (cfg := gcfg U cfg) (C.guard U) U v0
          (done.map (fun e => Trie.leaf e.1 e.2)) s)
        (E := Placed (cfg := gcfg U cfg) (C.guard U) U v0) hleaf (fun _ _ h => h.1)
        (fun k hk hok h => hr ⟨_, h, trivial, hleafU k hk hok⟩)
        (Q := fun _ _ => False))
        (P' := fun s' => s' = (s, false))
        (by rintro _ rfl; exact ⟨⟨hs.guard, by simp⟩, hdata⟩)
        (fun _ _ h => h.elim) (fun _ h => h.plain)) rfl

/-! ## Histories with a log and lineages -/

theorem Traces.calls {H : List (HIn N)} {P : List (Arr N × V)} {L : Lineages N V} {s : σ}
    (h : Traces cfg C H P L s) : Calls cfg C H s := by
  induction h with
  | start h1 h2 => exact .start h1 h2
  | insertAt _ hrun ih => exact .insertAt ih hrun
  | extendAt _ _ hrun ih => exact .insertAt ih hrun
  | remove _ hrun ih => exact .remove ih hrun
  | crashInsertAt _ hrun ih => exact .crashInsertAt ih hrun
  | crashRemove _ hrun ih => exact .crashRemove ih hrun
  | reopen _ h1 h2 ih => exact .reopen ih h1 h2

theorem Roots.traces {H : List (HIn N)} {L : Lineages N V} {s : σ} (h : Roots cfg C H L s) :
    ∃ P, Traces cfg C H P L s := by
  induction h with
  | start h1 h2 => exact ⟨_, .start h1 h2⟩
  | anyAt _ hrun ih => exact ⟨_, .insertAt ih.choose_spec hrun⟩
  | extendAt _ hp hrun ih => exact ⟨_, .extendAt ih.choose_spec hp hrun⟩
  | crashAt _ hrun ih => exact ⟨_, .crashInsertAt ih.choose_spec hrun⟩
  | reopen _ h1 h2 ih => exact ⟨_, .reopen ih.choose_spec h1 h2⟩

/-- Data that was hashed is the encoding of a pair in the log. -/
theorem Traces.data {H : List (HIn N)} {P : List (Arr N × V)} {L : Lineages N V} {s : σ}
    (h : Traces cfg C H P L s) {k : Arr N} {b : List UInt8} :
    HIn.data k b ∈ H → ∃ v, (k, v) ∈ P ∧ cfg.encode v = .ok b := by
  have step : ∀ {τ : Type} {cfg' : Config N τ V} {prev : Option (Arr N)} {keys : List (Arr N)}
      {values : List V} {s : τ} {H : List (HIn N)} {P : List (Arr N × V)},
      cfg'.encode = cfg.encode →
      (HIn.data k b ∈ H → ∃ v, (k, v) ∈ P ∧ cfg.encode v = .ok b) →
      HIn.data k b ∈ hashedBy cfg' prev keys values s ++ H →
      ∃ v, (k, v) ∈ keys.zip values ++ P ∧ cfg.encode v = .ok b := by
    intro τ cfg' prev keys values s H P henc ih hm
    rcases List.mem_append.1 hm with hm | hm
    · obtain ⟨v, h1, h2⟩ := encodedPairs_encode (hashedBy_data hm)
      exact ⟨v, List.mem_append_left _ h1, henc ▸ h2⟩
    · obtain ⟨v, h1, h2⟩ := ih hm
      exact ⟨v, List.mem_append_right _ h1, h2⟩
  induction h with
  | start _ _ => intro h; cases h
  | insertAt _ _ ih => exact step rfl ih
  | extendAt _ _ _ ih => exact step rfl ih
  | remove _ _ ih => exact ih
  | crashInsertAt _ _ ih => exact step rfl ih
  | crashRemove _ _ ih => exact ih
  | reopen _ _ _ ih => exact ih

theorem Calls.data {H : List (HIn N)} {s : σ} (h : Calls cfg C H s) :
    ∃ P L, Traces cfg C H P L s := by
  induction h with
  | start h1 h2 => exact ⟨_, _, .start h1 h2⟩
  | insertAt _ hrun ih => exact ⟨_, _, .insertAt ih.choose_spec.choose_spec hrun⟩
  | remove _ hrun ih => exact ⟨_, _, .remove ih.choose_spec.choose_spec hrun⟩
  | crashInsertAt _ hrun ih => exact ⟨_, _, .crashInsertAt ih.choose_spec.choose_spec hrun⟩
  | crashRemove _ hrun ih => exact ⟨_, _, .crashRemove ih.choose_spec.choose_spec hrun⟩
  | reopen _ h1 h2 ih => exact ⟨_, _, .reopen ih.choose_spec.choose_spec h1 h2⟩

/-- The entries of a tree are from a list of pairs. -/
def From (cfg : Config N σ V) (P : List (Arr N × V)) (T : Trie N) : Prop :=
  ∀ e ∈ T.entries, ∃ x, (e.1, x) ∈ P ∧ cfg.encode x = .ok e.2

theorem Trie.data_mem {H : Hasher N} {k : Arr N} {b : List UInt8} : ∀ {T : Trie N},
    (k, b) ∈ T.entries → HIn.data k b ∈ T.inputs H
  | .leaf _ _, h => by
    simp only [Trie.entries, List.mem_singleton, Prod.mk.injEq] at h
    obtain ⟨rfl, rfl⟩ := h
    simp [Trie.inputs]
  | .node l r, h => by
    simp only [Trie.entries, List.mem_append] at h
    simp only [Trie.inputs, List.mem_cons, List.mem_append]
    rcases h with h | h
    · exact .inr (.inl (Trie.data_mem h))
    · exact .inr (.inr (Trie.data_mem h))

theorem Traces.from {H : List (HIn N)} {P : List (Arr N × V)} {L : Lineages N V} {s : σ}
    (h : Traces cfg C H P L s) {T : Trie N} (hT : ∀ i ∈ T.inputs cfg.hasher, i ∈ H) :
    From cfg P T := fun _ he => h.data (hT _ (Trie.data_mem he))

/-- The tree of a root with a known lineage; nodes may be missing. -/
def Recorded (cfg : Config N σ V) (U : HIn N → Prop) (r : Arr N) (ℓ : Lineage N V) : Prop :=
  ∃ T : Trie N, T.loc cfg.hasher = r ∧ T.Norm ∧ (∀ i ∈ T.inputs cfg.hasher, U i) ∧
    From cfg ℓ T ∧ (∀ e ∈ ℓ, e.1 ∈ T.keys) ∧ T.size ≤ ℓ.length

theorem Recorded.mono {U' : HIn N → Prop} (h : ∀ i, U i → U' i) {r : Arr N} {ℓ : Lineage N V}
    (hr : Recorded cfg U r ℓ) : Recorded cfg U' r ℓ := by
  obtain ⟨T, h1, h2, h3, h4⟩ := hr
  exact ⟨T, h1, h2, fun i hi => h i (h3 i hi), h4⟩

theorem traces_recorded (hN : 0 < N) (hpp : cfg.pp.Lawful) {H : List (HIn N)}
    {P : List (Arr N × V)} {L : Lineages N V} {s : σ} (h : Traces cfg C H P L s) :
    CollisionFree cfg.hasher (Among H) → ∀ e ∈ L, Recorded cfg (Among H) e.1 e.2 := by
  induction h with
  | start h1 h2 => intro _; simp
  | @insertAt d H P L s s' prev keys values res _ hrun ih =>
    intro hU
    have hsub : ∀ i, Among H i → Among (hashedBy (cfg.withDepth d) prev keys values s ++ H) i :=
      fun i hi => List.mem_append_right _ hi
    exact fun e he => (ih (hU.mono hsub) e he).mono hsub
  | @extendAt d H P L s s' prev ℓ keys values r hev hprev hrun ih =>
    intro hU
    have hsub : ∀ i, Among H i → Among (hashedBy (cfg.withDepth d) prev keys values s ++ H) i :=
      fun i hi => List.mem_append_right _ hi
    have hL := fun e he => (ih (hU.mono hsub) e he).mono hsub
    have hi := (calls_inPlace (C := C) hN hpp hev.calls (hU.mono hsub)).mono hsub
    have := insert_built (cfg := cfg.withDepth d) (C := C) (v0 := C.view s) hN hpp hU prev keys values
      (fun i hi => List.mem_append_left _ hi) ⟨hi.1, hi.2, View.Ext.refl _⟩
    unfold Ends at this
    rw [hrun] at this
    obtain ⟨-, -, -, hlen, hall, pt, ts, T, rfl, hpt, hp, hasm, rfl, hn, hin, -⟩ := this
    have hpt' : (∀ Q, pt = some Q → From cfg ℓ Q ∧ Q.size ≤ ℓ.length) ∧
        ∀ e ∈ ℓ, ∃ Q, pt = some Q ∧ e.1 ∈ Q.keys := by
      cases pt with
      | none =>
        have : ℓ = [] := hprev
        subst this
        exact ⟨by simp, by simp⟩
      | some Q =>
        obtain ⟨Q', h1, h2, h3, h4, h5, h6⟩ := hL _ hprev
        obtain rfl : Q' = Q := Trie.eq_of_loc hU h3 (hpt Q rfl).2 h1
        exact ⟨by rintro _ ⟨⟩; exact ⟨h4, h6⟩, fun e he => ⟨Q', rfl, h5 e he⟩⟩
    obtain ⟨-, h1, h2, h3, -⟩ := assembled_lineage (cfg := cfg.withDepth d) hlen hall hpt'.1 hpt'.2
      hp hasm
    intro e he
    rcases List.mem_cons.1 he with rfl | he
    · exact ⟨T, rfl, hn, hin, h1, h2, h3⟩
    · exact hL e he
  | remove _ _ ih => exact ih
  | @crashInsertAt d H P L s s' n n' prev keys values e _ hrun ih =>
    intro hU
    have hsub : ∀ i, Among H i → Among (hashedBy (cfg.withDepth d).crash prev keys values (s, n) ++ H) i :=
      fun i hi => List.mem_append_right _ hi
    exact fun e he => (ih (hU.mono hsub) e he).mono hsub
  | crashRemove _ _ ih => exact ih
  | reopen _ _ _ ih => exact ih

/-! ## Reading a tree of which nodes may be missing -/

theorem getOne_from (hN : 0 < N) (hrt : RoundTrip cfg) {s : σ} {T : Trie N} (hn : T.Norm)
    (hst : Remains cfg.hasher (C.view s) T) {P : List (Arr N × V)} (hP : From cfg P T) {k : Arr N}
    {x : V} (h : getOne cfg s (T.loc cfg.hasher) k = .ok (some x)) : (k, x) ∈ P := by
  obtain ⟨b, h1, h2⟩ := readOne_some T 0 (getOne_remains hN hn hst h).2
  obtain ⟨y, h3, h4⟩ := hP _ h1
  have := hrt y b h4
  rw [h2] at this
  cases this
  exact h3

theorem proof_from (hN : 0 < N) (hrt : RoundTrip cfg) {s : σ} {T : Trie N} (hn : T.Norm)
    (hst : Remains cfg.hasher (C.view s) T) {P : List (Arr N × V)} (hP : From cfg P T) {k : Arr N}
    {p : List (Arr N × Bool)}
    (h : inclusionProof cfg s (T.loc cfg.hasher) k = .ok p) :
    ∃ v, (k, v) ∈ P ∧ verifyInclusionProof cfg.hasher cfg.encode (T.loc cfg.hasher) k v p = .ok () ∧
      Outcome C s (getOne cfg s (T.loc cfg.hasher) k) (.ok (some v)) := by
  obtain ⟨hpath, hr⟩ := proof_remains hN hn hst h
  obtain ⟨b, rest, h1, rfl, h3, h4⟩ := readProof_ok T 0 hr
  obtain ⟨y, h5, h6⟩ := hP _ h1
  refine ⟨y, h5, (verify_iff _ _ _ _ _ _).2 ⟨b, false, false, _, h6, rfl, h3⟩, ?_⟩
  have hy := hrt y b h6
  rcases h4 with ⟨v, h7, h8⟩ | ⟨e, h7⟩
  · rw [hy] at h7
    cases h7
    rw [← h8]
    exact getOne_of_path hN hn hst hpath
  · rw [hy] at h7; cases h7

theorem proof_of_getOne (hN : 0 < N) (hrt : RoundTrip cfg) {s : σ} {T : Trie N} (hn : T.Norm)
    (hst : Remains cfg.hasher (C.view s) T) {P : List (Arr N × V)} (hP : From cfg P T) {k : Arr N}
    {v : V} (h : getOne cfg s (T.loc cfg.hasher) k = .ok (some v)) :
    ∃ p, verifyInclusionProof cfg.hasher cfg.encode (T.loc cfg.hasher) k v p = .ok () ∧
      Outcome C s (inclusionProof cfg s (T.loc cfg.hasher) k) (.ok p) := by
  obtain ⟨hpath, hr⟩ := getOne_remains hN hn hst h
  obtain ⟨b, rest, h1, h2, h3, h4⟩ := readProof_of_readOne T 0 hr
  obtain ⟨y, -, h5⟩ := hP _ h1
  have := hrt y b h5
  rw [h2] at this
  cases this
  refine ⟨_, (verify_iff _ _ _ _ _ _).2 ⟨b, false, false, _, h5, rfl, h4⟩, ?_⟩
  rw [← h3]
  exact proof_of_path hN hn hst hpath

theorem get_from (hN : 0 < N) (hpp : cfg.pp.Lawful) (hrt : RoundTrip cfg) {s : σ} {T : Trie N}
    (hn : T.Norm) (hst : Remains cfg.hasher (C.view s) T) {P : List (Arr N × V)}
    (hP : From cfg P T) {keys : List (Arr N)} {m : AMap (Arr N) (Option V)}
    (h : get cfg s (T.loc cfg.hasher) keys = .ok m) :
    (∀ k, (m.get? k).isSome ↔ k ∈ keys) ∧ ∀ k v, m.get? k = some (some v) → (k, v) ∈ P := by
  unfold get at h
  by_cases hk : keys = []
  · subst hk
    cases h
    simp [AMap.get?, AMap.empty]
  rw [if_neg (by simpa using hk)] at h
  have hmem : ∀ k, k ∈ sortKeys keys ↔ k ∈ keys := fun k => (sortKeys_perm keys).mem_iff
  have hsne : sortKeys keys ≠ [] := by
    intro h
    obtain ⟨a, l, hl⟩ := List.exists_cons_of_ne_nil hk
    have := (hmem a).2 (by simp [hl])
    rw [h] at this
    cases this
  have hdec : ∀ e ∈ T.entries, ∃ x, cfg.decode e.2 = .ok x := by
    intro e he
    obtain ⟨v, _, h2⟩ := hP e he
    exact ⟨v, hrt _ _ h2⟩
  have hfin : ∀ m : AMap (Arr N) (Option V),
      (∀ k, m.get? k = (generateLeafMap keys : AMap (Arr N) (Option V)).get? k ∨
        (k ∈ sortKeys keys ∧ ∃ b x, (k, b) ∈ T.entries ∧
          cfg.decode b = .ok x ∧ m.get? k = some (some x))) →
      (∀ k, (m.get? k).isSome ↔ k ∈ keys) ∧ ∀ k v, m.get? k = some (some v) → (k, v) ∈ P := by
    intro m hm
    refine ⟨fun k => ?_, fun k v hv => ?_⟩
    · rcases hm k with h | ⟨h, _, _, -, -, h'⟩
      · rw [h, generateLeafMap_get]; split <;> simp [*]
      · simp [h', ← hmem, h]
    · rcases hm k with h | ⟨h, b, x, h1, h2, h3⟩
      · rw [h, generateLeafMap_get] at hv; split at hv <;> simp at hv
      · rw [h3] at hv
        cases hv
        obtain ⟨y, h4, h5⟩ := hP _ h1
        have := hrt y b h5
        rw [h2] at this
        cases this
        exact h4
  dsimp only at h
  rcases getNode_only hst.root with ⟨refs, hg, hh⟩ | ⟨hg, hh⟩ | ⟨msg, hg, hal⟩
  · rw [hg] at h
    dsimp only at h
    have := getLoop_remains (C := C) hN hpp hn hst hdec
      (sortKeys keys) (traversalFuel cfg keys.length)
      [⟨T.loc cfg.hasher, sortKeys keys, ⟨refs, T.variant cfg.hasher⟩, 0⟩]
      (generateLeafMap keys) (by
        intro c hc
        rw [List.mem_singleton] at hc
        subst hc
        exact ⟨T, Trie.Sub.refl T, rfl, hsne, by simp⟩)
    rw [h] at this
    exact hfin m this
  · rw [hg] at h
    cases h
    exact hfin _ (fun k => .inl rfl)
  · rw [hg] at h
    cases h

/-- A root for which `get` gives an answer is that of a tree, or there is nothing under it. -/
theorem tree_of_get {s : σ} (hv : Honest cfg.hasher U (C.view s)) {r : Arr N} {keys : List (Arr N)}
    {m : AMap (Arr N) (Option V)} (h : get cfg s r keys = .ok m) :
    (∃ T : Trie N, T.Norm ∧ T.loc cfg.hasher = r ∧ ∀ i ∈ T.inputs cfg.hasher, U i) ∨
    ∀ k, m.get? k = if k ∈ keys then some none else none := by
  unfold get at h
  by_cases hk : keys = []
  · subst hk
    cases h
    exact .inr (by simp [AMap.get?, AMap.empty])
  rw [if_neg (by simpa using hk)] at h
  dsimp only at h
  cases hg : cfg.db.getNode s r with
  | error e => rw [hg] at h; cases h
  | ok o =>
    have ho := C.getNode_ok hg
    cases o with
    | none =>
      rw [hg] at h
      cases h
      exact .inr fun k => generateLeafMap_get _ _
    | some n =>
      rcases (hv r n ho.symm).2 with ⟨k', v, _, h2, _⟩ | ⟨t, h1, h2, h3, h4⟩
      · rw [hg] at h
        exfalso
        dsimp only at h
        unfold traversalFuel getLoop at h
        simp [h2] at h
      · exact .inl ⟨t, h1, h2.symm, h4⟩

end
end MerkleBit
