import Verif.Proof.Account
import Verif.Spec.Counts
/-! # Reference counts during `remove` -/

namespace MerkleBit
variable {N : Nat} {σ V : Type}

namespace Item
variable {H : Hasher N} {U : HIn N → Prop}

/-- The node of an item. -/
def variant (H : Hasher N) : Item N → Variant N
  | tree t => t.variant H
  | data _ v => .data ⟨v⟩

/-- The keys below an item. -/
def keys : Item N → List (Arr N)
  | tree t => t.keys
  | data k _ => [k]

/-- An item in order, with its hash inputs in `U`. -/
def Ok (H : Hasher N) (U : HIn N → Prop) : Item N → Prop
  | tree t => t.Norm ∧ ∀ i ∈ t.inputs H, U i
  | data k v => U (.data k v)

theorem Ok.belongs {i : Item N} (h : i.Ok H U) : Belongs H U (i.loc H) (i.variant H) := by
  cases i with
  | tree t => exact belongs_of_inputs h.1 h.2
  | data k v => exact belongs_data h

theorem children_loc (i : Item N) : (i.variant H).children = i.children.map (loc H) := by
  cases i with
  | tree t => cases t <;> rfl
  | data k v => rfl

theorem Ok.children {i : Item N} (h : i.Ok H U) : ∀ j ∈ i.children, j.Ok H U := by
  intro j hj
  cases i with
  | data k v => simp [Item.children] at hj
  | tree t =>
    obtain ⟨h1, h2⟩ := h
    cases t with
    | leaf k v =>
      simp only [Item.children, List.mem_singleton] at hj
      subst hj
      exact h2 _ (by simp [Trie.inputs])
    | node l r =>
      simp only [Item.children, List.mem_cons, List.not_mem_nil, or_false] at hj
      rcases hj with rfl | rfl
      · exact ⟨h1.1, fun i hi => h2 i (by simp [Trie.inputs, hi])⟩
      · exact ⟨h1.2.1, fun i hi => h2 i (by simp [Trie.inputs, hi])⟩

theorem eq_of_loc (hU : CollisionFree H U) {i j : Item N} (hi : i.Ok H U) (hj : j.Ok H U)
    (h : i.loc H = j.loc H) : i = j := by
  have hmix : ∀ {t : Trie N} {k v}, (∀ i ∈ t.inputs H, U i) → U (.data k v) →
      t.loc H ≠ Trie.dataLoc H k v := by
    intro t k v h1 h2 h3
    rw [Trie.loc_eq] at h3
    have := hU _ _ (h1 _ (Trie.rootIn_mem H t)) h2 h3
    cases t <;> simp [Trie.rootIn] at this
  cases i with
  | tree t => cases j with
    | tree u => rw [Trie.eq_of_loc hU hi.2 hj.2 h]
    | data k v => exact absurd h (hmix hi.2 hj)
  | data k v => cases j with
    | tree u => exact absurd h.symm (hmix hj.2 hi)
    | data k' v' =>
      have := hU _ _ hi hj h
      cases this
      rfl

theorem keys_ne (i : Item N) : ∃ k, k ∈ i.keys := by
  cases i with
  | tree t => exact ⟨_, t.key_mem⟩
  | data k v => exact ⟨k, by simp [keys]⟩

theorem children_keys (i : Item N) : (i.children.flatMap keys).Sublist i.keys := by
  cases i with
  | tree t => cases t with
    | leaf k v => simp [children, keys, Trie.keys, Trie.entries]
    | node l r => simp [children, keys, Trie.keys_node]
  | data k v => simp [children, keys]

end Item

section
variable {cfg : Config N σ V} {C : GContract cfg.db} {U : HIn N → Prop} {ex : Prop}
  {live : List (Arr N)} {qs ds : List (Item N)}

theorem settled_at {s : σ} {x : Arr N} (h : C.pending s x = none) :
    C.settled s x = C.view s x := by
  unfold GContract.settled View.overlay
  rw [h]; rfl

theorem pending_of_wrote {s s' : σ} {x : Arr N} {n : Node N} (h : Wrote C s s' x n) {y : Arr N}
    (hy : C.pending s' y ≠ none) : y = x ∨ C.pending s y ≠ none := by
  rcases h with ⟨_, _, h2⟩ | ⟨_, h2⟩
  · rw [h2] at hy; exact absurd rfl hy
  · rw [h2, View.put] at hy
    by_cases hyx : y = x
    · exact .inl hyx
    · rw [if_neg hyx] at hy; exact .inr hy

theorem Acct.rise {H : Hasher N} {S S' : View N} {R : List (Arr N)} (h : Acct H U ex S R)
    (hh : Honest H U S') (hle : ∀ x, refsOf S x ≤ refsOf S' x) (he : ex → S' = S) : Acct H U ex S' R :=
  ⟨hh, fun x => Nat.le_trans (h.le x) (hle x), fun hx => he hx ▸ h.eq hx⟩

/-- `own` are writes of this call that are queued.  What else is queued has at least the counts that are
stored; if `ex`, nothing else is queued. -/
structure Own (C : GContract cfg.db) (U : HIn N → Prop) (ex : Prop) (own : View N) (s : σ) : Prop where
  sub : ∀ x n, own x = some n → C.pending s x = some n
  rest : ∀ x n, C.pending s x = some n → own x = none →
    ¬ ex ∧ refsOf (C.view s) x ≤ n.references ∧ 0 < n.references ∧ Belongs cfg.hasher U x n.variant

theorem Own.start {s : σ} (hh : Honest cfg.hasher U (C.pending s))
    (h : ∀ x n, C.pending s x = some n → ¬ ex ∧ refsOf (C.view s) x ≤ n.references) :
    Own C U ex (View.empty N) s :=
  ⟨fun x n h => (by cases h), fun x n hx _ => ⟨(h x n hx).1, (h x n hx).2, hh x n hx⟩⟩

theorem Own.nothing {own : View N} {s : σ} (h : Own C U ex own s) (hp : C.pending s = View.empty N) :
    own = View.empty N := by
  funext y
  cases ho : own y with
  | none => rfl
  | some n =>
    have := h.sub y n ho
    rw [hp] at this
    cases this

theorem overlay_empty (v : View N) : v.overlay (View.empty N) = v := by
  funext y
  simp [View.overlay, View.empty]

theorem overlay_put (v p : View N) (x : Arr N) (n : Node N) :
    v.overlay (p.put x n) = (v.overlay p).put x n := by
  funext y
  unfold View.overlay View.put
  by_cases hy : y = x <;> simp [hy]

theorem Own.wrote {own : View N} {s s' : σ} {x : Arr N} {n : Node N} (h : Own C U ex own s)
    (hw : Wrote C s s' x n) : ∃ own', Own C U ex own' s' ∧
      (C.view s').overlay own' = ((C.view s).overlay own).put x n ∧
      (C.view s' = C.view s ∨ C.view s' = ((C.view s).overlay own).put x n) ∧
      ∀ y p, own' y = some p → C.view s' = C.view s ∧ ((y = x ∧ p = n) ∨ own y = some p) := by
  rcases hw with ⟨e0, e1, e2⟩ | ⟨e1, e2⟩
  · refine ⟨View.empty N, ⟨fun y p hy => (by cases hy), fun y p hy => ?_⟩, ?_, .inr ?_, fun y p hy => (by cases hy)⟩
    · rw [e2] at hy; cases hy
    · rw [overlay_empty, e1, h.nothing e0, overlay_empty]
    · rw [e1, h.nothing e0, overlay_empty]
  · refine ⟨own.put x n, ⟨fun y p hy => ?_, fun y p hy ho => ?_⟩, ?_, .inl e1, fun y p hy => ⟨e1, ?_⟩⟩
    · rw [e2]
      unfold View.put at hy ⊢
      split at hy
      · next hyx => rw [if_pos hyx]; exact hy
      · next hyx => rw [if_neg hyx]; exact h.sub y p hy
    · rw [e2] at hy
      rw [e1]
      unfold View.put at hy ho
      by_cases hyx : y = x
      · rw [if_pos hyx] at ho; cases ho
      · rw [if_neg hyx] at hy ho
        exact h.rest y p hy ho
    · rw [e1, overlay_put]
    · unfold View.put at hy
      by_cases hyx : y = x
      · rw [if_pos hyx] at hy; cases hy; exact .inl ⟨hyx, rfl⟩
      · rw [if_neg hyx] at hy; exact .inr hy

/-- A removal shows at once. -/
theorem Own.removed {own : View N} {s s' : σ} {x : Arr N} (h : Own C U ex own s) (ho : own x = none)
    (e1 : C.view s' = (C.view s).del x) (e2 : C.pending s' = C.pending s) : Own C U ex own s' ∧
      (C.view s').overlay own = ((C.view s).overlay own).del x := by
  refine ⟨⟨fun y n hy => e2 ▸ h.sub y n hy, fun y n hy hoy => ?_⟩, ?_⟩
  · rw [e2] at hy
    obtain ⟨h1, h2, h3⟩ := h.rest y n hy hoy
    refine ⟨h1, Nat.le_trans ?_ h2, h3⟩
    rw [e1]
    unfold refsOf View.del
    by_cases hyx : y = x
    · simp [hyx]
    · simp [hyx]
  · rw [e1]
    funext y
    unfold View.overlay View.del
    by_cases hyx : y = x
    · subst hyx; simp [ho]
    · simp [hyx]

/-- The queued writes arrive. -/
theorem Own.flush {own : View N} {s : σ} {R : List (Arr N)} (h : Own C U ex own s)
    (ha : Acct cfg.hasher U ex ((C.view s).overlay own) R) : Acct cfg.hasher U ex (C.settled s) R := by
  have hcase : ∀ x, C.settled s x = ((C.view s).overlay own) x ∨
      ∃ n, C.settled s x = some n ∧ own x = none ∧ C.pending s x = some n := by
    intro x
    unfold GContract.settled View.overlay
    cases ho : own x with
    | some n => left; rw [h.sub x n ho]
    | none =>
      cases hp : C.pending s x with
      | none => left; rfl
      | some n => exact .inr ⟨n, rfl, rfl, rfl⟩
  refine ha.rise ?_ ?_ ?_
  · intro x n hx
    rcases hcase x with e | ⟨m, e, ho, hp⟩
    · exact ha.honest x n (e ▸ hx)
    · rw [e] at hx
      cases hx
      exact (h.rest x n hp ho).2.2
  · intro x
    rcases hcase x with e | ⟨m, e, ho, hp⟩
    · unfold refsOf; rw [e]
    · rw [refsOf_some e]
      have := (h.rest x m hp ho).2.1
      unfold refsOf View.overlay at *
      rw [ho]
      exact this
  · intro hx
    funext x
    rcases hcase x with e | ⟨m, e, ho, hp⟩
    · exact e
    · exact absurd hx (h.rest x m hp ho).1

/-- The invariant of the removal: the items `qs` are still to be released, the items `ds` were
released but stay, `live` are the roots that stay, and `own` is what was queued. -/
structure Freed (C : GContract cfg.db) (U : HIn N → Prop) (ex : Prop) (live : List (Arr N))
    (qs ds : List (Item N)) (own : View N) (s : σ) : Prop where
  mine : Own C U ex own s
  view : Acct cfg.hasher U False (C.view s) live
  all : Acct cfg.hasher U ex ((C.view s).overlay own) (qs.map (Item.loc cfg.hasher) ++ live)
  pend : ∀ x, own x ≠ none → x ∈ ds.map (Item.loc cfg.hasher)
  held : ∀ x, own x ≠ none → C.view s x ≠ none
  ok : ∀ i ∈ qs ++ ds, i.Ok cfg.hasher U
  nodup : ((qs ++ ds).flatMap Item.keys).Nodup

/-- The invariant of the removal. -/
def Releasing (C : GContract cfg.db) (U : HIn N → Prop) (ex : Prop) (live : List (Arr N))
    (qs ds : List (Item N)) (s : σ) : Prop := ∃ own, Freed C U ex live qs ds own s

theorem Releasing.view {s : σ} (h : Releasing C U ex live qs ds s) :
    Acct cfg.hasher U False (C.view s) live := by
  obtain ⟨own, h⟩ := h
  exact h.view

/-- Where the counts are exact, the children of what is stored are stored. -/
theorem Acct.closed {S : View N} {R : List (Arr N)} (hU : CollisionFree cfg.hasher U) (hex : ex)
    (h : Acct cfg.hasher U ex S R) : Closed S := by
  intro x n hx y hy
  have hr : Reach (childrenOf cfg.hasher U) R x := by
    by_contra hn
    have h0 := h.eq hex x
    rw [load_zero hn, refsOf_some hx] at h0
    have := (h.honest x n hx).1
    omega
  obtain ⟨m, hm⟩ := h.present (hr.child (by rwa [childrenOf_eq hU (h.honest x n hx).2]))
  rw [hm]; simp

/-- What a removal leaves that fails or is interrupted: the counts cover the live roots; and if they were exact, the children
of what is stored are stored, now and when the queue arrives. -/
def Halfway (C : GContract cfg.db) (U : HIn N → Prop) (ex : Prop) (live : List (Arr N)) (s : σ) : Prop :=
  Acct cfg.hasher U False (C.view s) live ∧
    (ex → Closed (C.view s) ∧ Closed (C.settled s) ∧ Honest cfg.hasher U (C.settled s))

theorem Releasing.halfway (hU : CollisionFree cfg.hasher U) {s : σ} (h : Releasing C U ex live qs ds s) :
    Halfway C U ex live s := by
  refine ⟨h.view, fun hex => ?_⟩
  obtain ⟨own, h⟩ := h
  have hset := h.mine.flush h.all
  have hcl := hset.closed hU hex
  have hsub : ∀ x, C.settled s x ≠ none → C.view s x ≠ none := by
    intro x hx hv
    unfold GContract.settled View.overlay at hx
    cases hp : C.pending s x with
    | none => rw [hp] at hx; exact hx hv
    | some n =>
      refine h.held x ?_ hv
      intro ho
      exact (h.mine.rest x n hp ho).1 hex
  refine ⟨fun x n hx y hy => hsub y ?_, hcl, hset.honest⟩
  have hx' : C.settled s x ≠ none := by
    unfold GContract.settled View.overlay
    cases hp : C.pending s x with
    | none => simp [hx]
    | some n => simp
  obtain ⟨m, hm⟩ := Option.ne_none_iff_exists'.1 hx'
  have hv : m.variant = n.variant := (hset.honest x m hm).2.unique hU (h.view.honest x n hx).2
  exact hcl x m hm y (hv ▸ hy)

theorem Halfway.same {s s' : σ} (h : Halfway C U ex live s) (e1 : C.view s' = C.view s)
    (e2 : C.pending s' = C.pending s ∨ C.pending s' = View.empty N) : Halfway C U ex live s' := by
  unfold Halfway GContract.settled at *
  rcases e2 with e2 | e2
  · rw [e1, e2]
    exact h
  · rw [e1, e2, overlay_empty]
    exact ⟨h.1, fun hex => ⟨(h.2 hex).1, (h.2 hex).1, h.1.honest⟩⟩

/-- The next item of the queue was not written before. -/
theorem Freed.head (hU : CollisionFree cfg.hasher U) {q : Item N} {own : View N} {s : σ}
    (h : Freed C U ex live (q :: qs) ds own s) : own (q.loc cfg.hasher) = none := by
  by_contra hne
  obtain ⟨d, hd, he⟩ := List.mem_map.1 (h.pend _ hne)
  have heq := Item.eq_of_loc hU (h.ok d (by simp [hd])) (h.ok q (by simp)) he
  subst heq
  have hn := h.nodup
  rw [List.cons_append, List.flatMap_cons, List.nodup_append] at hn
  obtain ⟨k, hk⟩ := d.keys_ne
  exact hn.2.2 k hk k (List.mem_flatMap.2 ⟨d, by simp [hd], hk⟩) rfl

theorem Freed.next (hU : CollisionFree cfg.hasher U) {q : Item N} {own : View N} {s : σ}
    (h : Freed C U ex live (q :: qs) ds own s) :
    ∃ n, C.view s (q.loc cfg.hasher) = some n ∧ n.variant = q.variant cfg.hasher ∧
      0 < n.references ∧ ((C.view s).overlay own) (q.loc cfg.hasher) = some n := by
  have hr : Reach (childrenOf cfg.hasher U) ((q :: qs).map (Item.loc cfg.hasher) ++ live)
    (q.loc cfg.hasher) := .root (by simp)
  obtain ⟨n, hn⟩ := h.all.present hr
  have hv := hn
  unfold View.overlay at hv
  rw [h.head hU] at hv
  have := h.all.honest _ _ hn
  exact ⟨n, hv, this.2.unique hU (h.ok q (by simp)).belongs, this.1, hn⟩

theorem removeLoop_acct (hU : CollisionFree cfg.hasher U) {Ex : Err → Prop} (hfuel : Ex .outOfFuel) :
    ∀ (fuel : Nat) (qs ds : List (Item N)),
    Triple C Ex (Releasing C U ex live qs ds)
      (removeLoop cfg fuel (qs.map (Item.loc cfg.hasher)))
      (fun _ s => ∃ ds', Releasing C U ex live [] ds' s)
      (Halfway C U ex live)
  | 0, [], ds => triple_pure (fun _ h => ⟨ds, h⟩)
  | _ + 1, [], ds => triple_pure (fun _ h => ⟨ds, h⟩)
  | 0, _ :: _, _ => triple_throw hfuel (fun _ h => h.halfway hU)
  | fuel + 1, q :: qs, ds => by
    rw [List.map_cons, removeLoop]
    simp only [M.bind_eq]
    apply triple_bind (R := fun o s => Releasing C U ex live (q :: qs) ds s ∧
      C.view s (q.loc cfg.hasher) = o)
      (triple_dbGet (fun s h => ⟨h, rfl⟩) (fun _ h => h.halfway hU))
    intro o
    cases o with
    | none =>
      apply triple_false
      rintro s ⟨h1, h2⟩
      obtain ⟨own, h1⟩ := h1
      obtain ⟨n, hn, _⟩ := h1.next hU
      rw [h2] at hn; cases hn
    | some n =>
      dsimp only
      intro s0 hs0
      have hvar : n.variant = q.variant cfg.hasher := by
        obtain ⟨own, h1⟩ := hs0.1
        obtain ⟨m, hm, h, _⟩ := h1.next hU
        rw [hs0.2] at hm; cases hm; exact h
      revert s0 hs0
      change Triple C Ex _ _ _ _
      have hrm : n.references - 1 = 0 → Triple C Ex
          (fun s => Releasing C U ex live (q :: qs) ds s ∧ C.view s (q.loc cfg.hasher) = some n)
          ((cfg.db.remove (q.loc cfg.hasher)).bind (fun _ => removeLoop cfg fuel
            (qs.map (Item.loc cfg.hasher) ++ (q.variant cfg.hasher).children)))
          (fun _ s => ∃ ds', Releasing C U ex live [] ds' s)
          (Halfway C U ex live) := by
        intro hz
        apply triple_bind (R := fun _ => Releasing C U ex live (qs ++ q.children) ds)
        · apply triple_remove
          · rintro s s' ⟨⟨own, h⟩, hv⟩ e1 e2
            obtain ⟨m, hm, -, hpos, hset⟩ := h.next hU
            rw [hv] at hm; cases hm
            have hone : refsOf ((C.view s).overlay own) (q.loc cfg.hasher) = 1 := by
              rw [refsOf_some hset]; omega
            obtain ⟨hmine, hset'⟩ := h.mine.removed (h.head hU) e1 e2
            have hall := h.all
            rw [List.map_cons, List.cons_append] at hall
            refine ⟨own, hmine, ?_, ?_, ?_, ?_, ?_, ?_⟩
            · rw [e1]
              exact h.view.drop (fun hr => hall.lone hone (hr.subset (List.subset_append_right _ _)))
            · rw [hset']
              refine (hall.delete hU hone).perm ?_
              rw [childrenOf_eq hU (h.ok q (by simp)).belongs, Item.children_loc, List.map_append,
                ← List.append_assoc]
              exact List.perm_append_comm.append_right _
            · exact h.pend
            · intro x hx
              rw [e1]
              unfold View.del
              split
              · next hxq => subst hxq; exact absurd (h.head hU) hx
              · exact h.held x hx
            · intro i hi
              simp only [List.mem_append] at hi
              rcases hi with (hi | hi) | hi
              · exact h.ok i (by simp [hi])
              · exact (h.ok q (by simp)).children i hi
              · exact h.ok i (by simp [hi])
            · have hn := h.nodup
              rw [List.cons_append, List.flatMap_cons] at hn
              rw [List.append_assoc, List.flatMap_append, List.flatMap_append]
              rw [List.flatMap_append] at hn
              have h1 : (q.keys ++ (qs.flatMap Item.keys ++ ds.flatMap Item.keys)).Perm
                  (qs.flatMap Item.keys ++ (q.keys ++ ds.flatMap Item.keys)) := by
                rw [← List.append_assoc, ← List.append_assoc]
                exact List.perm_append_comm.append_right _
              refine List.Nodup.sublist ?_ (h1.nodup_iff.1 hn)
              exact (List.Sublist.refl _).append (q.children_keys.append (List.Sublist.refl _))
          · rintro s s' ⟨h, hv⟩ e1 e2
            exact (h.halfway hU).same e1 (.inl e2)
        · intro _
          rw [Item.children_loc, ← List.map_append]
          exact removeLoop_acct hU hfuel fuel _ _
      split
      · next hz =>
        have := hrm hz
        rw [hvar]
        generalize q.variant cfg.hasher = v at this
        cases v with
        | branch b => exact this
        | leaf l => exact this
        | data d => simpa [Variant.children] using this
      · next hz =>
        apply triple_bind (R := fun _ => Releasing C U ex live qs (q :: ds))
        · apply triple_insert
          · rintro s s' ⟨⟨own, h⟩, hv⟩ hw
            obtain ⟨m, hm, -, hpos, hset⟩ := h.next hU
            rw [hv] at hm; cases hm
            have hall' : Acct cfg.hasher U ex (((C.view s).overlay own).put (q.loc cfg.hasher)
                { n with references := n.references - 1 }) (qs.map (Item.loc cfg.hasher) ++ live) := by
              have hall := h.all
              rw [List.map_cons, List.cons_append] at hall
              refine hall.decr hU ?_ ?_ (Nat.pos_of_ne_zero hz)
              · dsimp only; rw [hvar]; exact (h.ok q (by simp)).belongs
              · rw [refsOf_some hset]
                dsimp only
                omega
            obtain ⟨own', h1, h2, h3, h4⟩ := h.mine.wrote hw
            refine ⟨own', h1, ?_, h2 ▸ hall', ?_, ?_, ?_, ?_⟩
            · rcases h3 with e | e
              · rw [e]; exact h.view
              · rw [e]; exact hall'.forget
            · intro x hx
              obtain ⟨p, hp⟩ := Option.ne_none_iff_exists'.1 hx
              rw [List.map_cons]
              rcases (h4 x p hp).2 with ⟨rfl, -⟩ | hp
              · exact List.mem_cons_self
              · exact List.mem_cons_of_mem _ (h.pend x (by rw [hp]; simp))
            · intro x hx
              obtain ⟨p, hp⟩ := Option.ne_none_iff_exists'.1 hx
              rw [(h4 x p hp).1]
              rcases (h4 x p hp).2 with ⟨rfl, -⟩ | hp
              · rw [hv]; simp
              · exact h.held x (by rw [hp]; simp)
            · intro i hi
              apply h.ok
              simp only [List.mem_append, List.mem_cons] at hi ⊢
              tauto
            · refine (List.Perm.nodup_iff ?_).1 h.nodup
              apply List.Perm.flatMap_right
              exact List.perm_middle.symm
          · rintro s s' ⟨h, hv⟩ e1 e2
            exact (h.halfway hU).same e1 (.inl e2)
        · intro _
          exact removeLoop_acct hU hfuel fuel _ _

/-- Removing a live root: the counts cover the remaining live roots whatever happens, and exactly so
if they were exact. -/
theorem remove_halfway (hU : CollisionFree cfg.hasher U) {T : Trie N} (hT : T.WF)
    (hin : ∀ i ∈ T.inputs cfg.hasher, U i) :
    Triple C (fun _ => True)
      (fun s => Acct cfg.hasher U ex (C.view s) (T.loc cfg.hasher :: live) ∧
        Own C U ex (View.empty N) s)
      (remove cfg (T.loc cfg.hasher))
      (fun _ s => Acct cfg.hasher U ex (C.view s) live ∧ C.pending s = View.empty N)
      (Halfway C U ex live) := by
  unfold remove
  simp only [M.bind_eq]
  apply triple_bind (R := fun _ s => ∃ ds', Releasing C U ex live [] ds' s)
  · refine triple_conseq (removeLoop_acct hU (Ex := fun _ => True) trivial (removeFuel N)
      [Item.tree T] []) ?_ (fun _ _ h => h) (fun _ h => h)
    rintro s ⟨h1, h2⟩
    refine ⟨View.empty N, h2, ?_, ?_, ?_, ?_, ?_, ?_⟩
    · exact Acct.forget (R := [T.loc cfg.hasher]) h1
    · rw [overlay_empty]; exact h1
    · intro x hx; exact absurd rfl hx
    · intro x hx; exact absurd rfl hx
    · intro i hi
      simp only [List.append_nil, List.mem_singleton] at hi
      subst hi
      exact ⟨hT.norm, hin⟩
    · have hnd : T.keys.Nodup := hT.sorted.imp Arr.ne_of_lt
      simpa [Item.keys] using hnd
  · intro _
    apply triple_exists
    intro ds
    apply triple_batchWrite
    · rintro s s' ⟨own, h⟩ e1 e2
      rw [e1]
      exact ⟨h.mine.flush (by simpa using h.all), e2⟩
    · intro s s' h e1 e2
      obtain h := Releasing.halfway hU h
      exact h.same e1 e2

/-- Removing a live root, without what holds halfway. -/
theorem remove_acct (hU : CollisionFree cfg.hasher U) {T : Trie N} (hT : T.WF)
    (hin : ∀ i ∈ T.inputs cfg.hasher, U i) :
    Triple C (fun _ => True)
      (fun s => Acct cfg.hasher U ex (C.view s) (T.loc cfg.hasher :: live) ∧
        Own C U ex (View.empty N) s)
      (remove cfg (T.loc cfg.hasher))
      (fun _ s => Acct cfg.hasher U ex (C.view s) live ∧ C.pending s = View.empty N)
      (fun s => Acct cfg.hasher U False (C.view s) live) :=
  triple_conseq (remove_halfway hU hT hin) (fun _ h => h) (fun _ _ h => h) (fun _ h => h.1)

end
end MerkleBit
