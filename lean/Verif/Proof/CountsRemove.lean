import Verif.Proof.AccountInsert
/-! # What `remove` does to reference counts -/

namespace MerkleBit
variable {N : Nat} {σ V : Type}

namespace Item

/-- Pointers lead to items of smaller rank. -/
def rank : Item N → Nat
  | tree t => t.height + 1
  | data _ _ => 0

theorem rank_children {q j : Item N} (h : j ∈ q.children) : j.rank < q.rank := by
  cases q with
  | data k v => simp [children] at h
  | tree t =>
    cases t with
    | leaf k v =>
      simp only [children, List.mem_singleton] at h
      subst h
      simp [rank]
    | node l r =>
      simp only [children, List.mem_cons, List.not_mem_nil, or_false] at h
      rcases h with rfl | rfl <;> simp only [rank, Trie.height] <;> omega

theorem ok_iff {H : Hasher N} {U : HIn N → Prop} {i : Item N} :
    i.Ok H U ↔ i.Norm ∧ ∀ x ∈ i.inputs H, U x := by
  cases i <;> simp [Ok, Norm, inputs]

theorem child_keys {q j : Item N} (h : j ∈ q.children) {k : Arr N} (hk : k ∈ j.keys) : k ∈ q.keys :=
  q.children_keys.subset (List.mem_flatMap.2 ⟨j, h, hk⟩)

end Item

section
variable {c c' : Item N → Nat} {q i j : Item N} {qs : List (Item N)}

theorem countsOf_eq (H : Hasher N) (v : View N) (i : Item N) :
    countsOf H v i = refsOf v (i.loc H) := rfl

theorem GivenUp.rank (h : GivenUp c q i) : i = q ∨ i.rank < q.rank := by
  induction h with
  | here => exact .inl rfl
  | @under q j i _ hj _ ih =>
    right
    have := Item.rank_children hj
    rcases ih with rfl | h <;> omega

theorem GivenUp.keys (h : GivenUp c q i) {k : Arr N} (hk : k ∈ i.keys) : k ∈ q.keys := by
  induction h with
  | here => exact hk
  | under _ hj _ ih => exact Item.child_keys hj (ih hk)

/-- Changing the count of something that is not on the way changes nothing. -/
theorem GivenUp.congr (h : GivenUp c q i) (hc : ∀ j, GivenUp c q j → c' j = c j) : GivenUp c' q i := by
  induction h with
  | here => exact .here
  | @under q j i h1 hj _ ih =>
    exact .under ((hc q .here).trans h1) hj (ih (fun x hx => hc x (.under h1 hj hx)))

theorem givenUp_set {n : Nat} {p : Item N} (hp : ¬ GivenUp c q p)
    (hp' : ¬ GivenUp (fun x => if x = p then n else c x) q p) :
    GivenUp (fun x => if x = p then n else c x) q i ↔ GivenUp c q i := by
  constructor
  · intro h
    refine h.congr (fun j hj => ?_)
    exact (if_neg (fun e : j = p => hp' (e ▸ hj))).symm
  · intro h
    refine h.congr (fun j hj => ?_)
    exact if_neg (fun e : j = p => hp (e ▸ hj))

open Classical in
/-- The counts once the references to all items of the queue have been given up. -/
noncomputable def finish (c : Item N → Nat) (qs : List (Item N)) (i : Item N) : Nat :=
  if ∃ q ∈ qs, GivenUp c q i then c i - 1 else c i

theorem finish_congr {rs : List (Item N)} (h : (∃ q ∈ qs, GivenUp c q i) ↔ ∃ q ∈ rs, GivenUp c' q i)
    (hc : c i = c' i) : finish c qs i = finish c' rs i := by
  unfold finish
  by_cases h' : ∃ q ∈ qs, GivenUp c q i
  · rw [if_pos h', if_pos (h.1 h'), hc]
  · rw [if_neg h', if_neg (fun hh => h' (h.2 hh)), hc]

theorem finish_pos (h : ∃ q ∈ qs, GivenUp c q i) : finish c qs i = c i - 1 := by
  unfold finish; rw [if_pos h]

theorem finish_neg (h : ¬ ∃ q ∈ qs, GivenUp c q i) : finish c qs i = c i := by
  unfold finish; rw [if_neg h]

theorem not_givenUp_of_keys {p : Item N} (h : ∀ k ∈ p.keys, k ∉ q.keys) : ¬ GivenUp c q p := by
  intro hg
  obtain ⟨k, hk⟩ := p.keys_ne
  exact h k hk (hg.keys hk)

/-- The head of the queue stays. -/
theorem finish_stay (h1 : 1 < c q) (hd : ∀ p ∈ qs, ∀ k ∈ q.keys, k ∉ p.keys) :
    finish (fun x => if x = q then c q - 1 else c x) qs = finish c (q :: qs) := by
  funext i
  have hset : ∀ p ∈ qs, GivenUp (fun x => if x = q then c q - 1 else c x) p i ↔ GivenUp c p i :=
    fun p hp => givenUp_set (not_givenUp_of_keys (hd p hp)) (not_givenUp_of_keys (hd p hp))
  have hex : (∃ p ∈ qs, GivenUp (fun x => if x = q then c q - 1 else c x) p i) ↔
      ∃ p ∈ qs, GivenUp c p i :=
    ⟨fun ⟨p, hp, h⟩ => ⟨p, hp, (hset p hp).1 h⟩, fun ⟨p, hp, h⟩ => ⟨p, hp, (hset p hp).2 h⟩⟩
  by_cases hi : i = q
  · subst hi
    have hn : ¬ ∃ p ∈ qs, GivenUp c p i := by
      rintro ⟨p, hp, h⟩
      exact not_givenUp_of_keys (hd p hp) h
    rw [finish_neg (fun h => hn (hex.1 h)), finish_pos ⟨i, by simp, .here⟩, if_pos rfl]
  · have : (∃ p ∈ q :: qs, GivenUp c p i) ↔ ∃ p ∈ qs, GivenUp c p i := by
      constructor
      · rintro ⟨p, hp, h⟩
        rcases List.mem_cons.1 hp with rfl | hp
        · cases h with
          | here => exact absurd rfl hi
          | under h2 _ _ => omega
        · exact ⟨p, hp, h⟩
      · rintro ⟨p, hp, h⟩
        exact ⟨p, List.mem_cons_of_mem _ hp, h⟩
    exact finish_congr (hex.trans this.symm) (if_neg hi)

/-- The head of the queue is not stored. -/
theorem finish_missing (h0 : c q = 0) : finish c qs = finish c (q :: qs) := by
  funext i
  by_cases hi : i = q
  · subst hi
    rw [finish_pos (qs := i :: qs) ⟨i, by simp, .here⟩, finish, h0]
    simp
  · have : (∃ p ∈ q :: qs, GivenUp c p i) ↔ ∃ p ∈ qs, GivenUp c p i := by
      constructor
      · rintro ⟨p, hp, h⟩
        rcases List.mem_cons.1 hp with rfl | hp
        · cases h with
          | here => exact absurd rfl hi
          | under h2 _ _ => omega
        · exact ⟨p, hp, h⟩
      · rintro ⟨p, hp, h⟩
        exact ⟨p, List.mem_cons_of_mem _ hp, h⟩
    exact finish_congr this.symm rfl

/-- The head of the queue goes, and what it points at is given up. -/
theorem finish_gone (h1 : c q = 1) (hd : ∀ p ∈ qs, ∀ k ∈ q.keys, k ∉ p.keys) :
    finish (fun x => if x = q then 0 else c x) (qs ++ q.children) = finish c (q :: qs) := by
  funext i
  have hchild : ∀ c : Item N → Nat, ∀ p ∈ q.children, ¬ GivenUp c p q := by
    intro c p hp h
    have := Item.rank_children hp
    rcases h.rank with rfl | h <;> omega
  have hset : ∀ p ∈ qs ++ q.children,
      GivenUp (fun x => if x = q then 0 else c x) p i ↔ GivenUp c p i := by
    intro p hp
    rcases List.mem_append.1 hp with hp | hp
    · exact givenUp_set (not_givenUp_of_keys (hd p hp)) (not_givenUp_of_keys (hd p hp))
    · exact givenUp_set (hchild _ p hp) (hchild _ p hp)
  have hex : (∃ p ∈ qs ++ q.children, GivenUp (fun x => if x = q then 0 else c x) p i) ↔
      ∃ p ∈ qs ++ q.children, GivenUp c p i :=
    ⟨fun ⟨p, hp, h⟩ => ⟨p, hp, (hset p hp).1 h⟩, fun ⟨p, hp, h⟩ => ⟨p, hp, (hset p hp).2 h⟩⟩
  by_cases hi : i = q
  · subst hi
    rw [finish_pos (qs := i :: qs) ⟨i, by simp, .here⟩, finish, h1]
    simp
  · have : (∃ p ∈ q :: qs, GivenUp c p i) ↔ ∃ p ∈ qs ++ q.children, GivenUp c p i := by
      constructor
      · rintro ⟨p, hp, h⟩
        rcases List.mem_cons.1 hp with rfl | hp
        · cases h with
          | here => exact absurd rfl hi
          | @under _ j _ _ h2 h3 => exact ⟨j, List.mem_append_right _ h2, h3⟩
        · exact ⟨p, List.mem_append_left _ hp, h⟩
      · rintro ⟨p, hp, h⟩
        rcases List.mem_append.1 hp with hp | hp
        · exact ⟨p, List.mem_cons_of_mem _ hp, h⟩
        · exact ⟨q, by simp, .under h1 hp h⟩
    exact finish_congr (hex.trans this.symm) (if_neg hi)

end

section
variable {cfg : Config N σ V} {C : GContract cfg.db} {U : HIn N → Prop} {Ex : Err → Prop}
  {qs ds : List (Item N)}

/-- The counts the database will have once queued writes are confirmed. -/
def Counted (C : GContract cfg.db) (U : HIn N → Prop) (c : Item N → Nat) (s : σ) : Prop :=
  ∀ i : Item N, i.Ok cfg.hasher U → countsOf cfg.hasher (C.settled s) i = c i

/-- The invariant of the removal: the items `qs` are still to be given up, the items `ds` were
given up but stay. -/
structure GivingUp (C : GContract cfg.db) (U : HIn N → Prop) (g : Item N → Nat)
    (qs ds : List (Item N)) (s : σ) : Prop where
  honest : Honest cfg.hasher U (C.settled s)
  goal : ∃ c, Counted C U c s ∧ finish c qs = g
  pend : ∀ x, C.pending s x ≠ none → x ∈ ds.map (Item.loc cfg.hasher)
  ok : ∀ i ∈ qs ++ ds, i.Ok cfg.hasher U
  nodup : ((qs ++ ds).flatMap Item.keys).Nodup

theorem GivingUp.head (hU : CollisionFree cfg.hasher U) {g : Item N → Nat} {q : Item N} {s : σ}
    (h : GivingUp C U g (q :: qs) ds s) : C.pending s (q.loc cfg.hasher) = none := by
  by_contra hne
  obtain ⟨d, hd, he⟩ := List.mem_map.1 (h.pend _ hne)
  have heq := Item.eq_of_loc hU (h.ok d (by simp [hd])) (h.ok q (by simp)) he
  subst heq
  have hn := h.nodup
  rw [List.cons_append, List.flatMap_cons, List.nodup_append] at hn
  obtain ⟨k, hk⟩ := d.keys_ne
  exact hn.2.2 k hk k (List.mem_flatMap.2 ⟨d, by simp [hd], hk⟩) rfl

theorem GivingUp.apart {g : Item N → Nat} {q : Item N} {s : σ}
    (h : GivingUp C U g (q :: qs) ds s) : ∀ p ∈ qs, ∀ k ∈ q.keys, k ∉ p.keys := by
  intro p hp k hk hk'
  have hn := h.nodup
  rw [List.cons_append, List.flatMap_cons, List.nodup_append] at hn
  exact hn.2.2 k hk k (List.mem_flatMap.2 ⟨p, by simp [hp], hk'⟩) rfl

theorem removeLoop_counts (hU : CollisionFree cfg.hasher U) (hfuel : Ex .outOfFuel)
    {g : Item N → Nat} : ∀ (fuel : Nat) (qs ds : List (Item N)),
    Triple C Ex (GivingUp C U g qs ds) (removeLoop cfg fuel (qs.map (Item.loc cfg.hasher)))
      (fun _ s => ∃ ds', GivingUp C U g [] ds' s) (fun _ => True)
  | 0, [], ds => triple_pure (fun _ h => ⟨ds, h⟩)
  | _ + 1, [], ds => triple_pure (fun _ h => ⟨ds, h⟩)
  | 0, _ :: _, _ => triple_throw hfuel (fun _ _ => trivial)
  | fuel + 1, q :: qs, ds => by
    rw [List.map_cons, removeLoop]
    simp only [M.bind_eq]
    apply triple_bind (R := fun o s => GivingUp C U g (q :: qs) ds s ∧
      C.view s (q.loc cfg.hasher) = o)
      (triple_dbGet (fun s h => ⟨h, rfl⟩) (fun _ _ => trivial))
    intro o
    cases o with
    | none =>
      dsimp only
      refine triple_conseq (removeLoop_counts hU hfuel fuel qs ds) ?_ (fun _ _ h => h)
        (fun _ h => h)
      rintro s ⟨h, hv⟩
      refine ⟨h.honest, ?_, h.pend, fun i hi => h.ok i (by simpa using .inr (by simpa using hi)), ?_⟩
      · obtain ⟨c, hc, hg⟩ := h.goal
        refine ⟨c, hc, ?_⟩
        rw [← hg]
        apply finish_missing
        rw [← hc q (h.ok q (by simp)), countsOf_eq, refsOf, settled_at (h.head hU), hv]
      · have hn := h.nodup
        rw [List.cons_append, List.flatMap_cons, List.nodup_append] at hn
        exact hn.2.1
    | some n =>
      dsimp only
      intro s0 hs0
      have hvar : n.variant = q.variant cfg.hasher := by
        obtain ⟨h, hv⟩ := hs0
        have := h.honest _ n ((settled_at (h.head hU)).trans hv)
        exact this.2.unique hU (h.ok q (by simp)).belongs
      revert s0 hs0
      change Triple C Ex _ _ _ _
      have hcount : ∀ {s : σ}, GivingUp C U g (q :: qs) ds s → C.view s (q.loc cfg.hasher) = some n →
          ∀ c, Counted C U c s → c q = n.references := by
        intro s h hv c hc
        rw [← hc q (h.ok q (by simp)), countsOf_eq, refsOf_some ((settled_at (h.head hU)).trans hv)]
      have hpos : ∀ {s : σ}, GivingUp C U g (q :: qs) ds s → C.view s (q.loc cfg.hasher) = some n →
          0 < n.references := fun h hv => (h.honest _ n ((settled_at (h.head hU)).trans hv)).1
      have hrm : n.references - 1 = 0 → Triple C Ex
          (fun s => GivingUp C U g (q :: qs) ds s ∧ C.view s (q.loc cfg.hasher) = some n)
          ((cfg.db.remove (q.loc cfg.hasher)).bind (fun _ => removeLoop cfg fuel
            (qs.map (Item.loc cfg.hasher) ++ (q.variant cfg.hasher).children)))
          (fun _ s => ∃ ds', GivingUp C U g [] ds' s) (fun _ => True) := by
        intro hz
        apply triple_bind (R := fun _ => GivingUp C U g (qs ++ q.children) ds)
        · apply triple_remove
          · rintro s s' ⟨h, hv⟩ e1 e2
            have hnp := h.head hU
            have hset' : C.settled s' = (C.settled s).del (q.loc cfg.hasher) := by
              funext y
              unfold GContract.settled View.overlay View.del
              rw [e1, e2]
              unfold View.del
              by_cases hy : y = q.loc cfg.hasher
              · simp [hy, hnp]
              · simp [hy]
            obtain ⟨c, hc, hg⟩ := h.goal
            have hone : c q = 1 := by
              rw [hcount h hv c hc]
              have := hpos h hv
              omega
            refine ⟨?_, ⟨fun x => if x = q then 0 else c x, ?_, ?_⟩, ?_, ?_, ?_⟩
            · rw [hset']; exact h.honest.del
            · intro i hi
              rw [countsOf_eq, hset', refsOf_del]
              by_cases hiq : i = q
              · subst hiq; simp
              · rw [if_neg (fun e => hiq (Item.eq_of_loc hU hi (h.ok q (by simp)) e))]
                exact (hc i hi).trans (if_neg hiq).symm
            · rw [finish_gone hone h.apart, hg]
            · rw [e2]; exact h.pend
            · intro i hi
              simp only [List.mem_append] at hi
              rcases hi with (hi | hi) | hi
              · exact h.ok i (by simp [hi])
              · exact (h.ok q (by simp)).children i hi
              · exact h.ok i (by simp [hi])
            · have hn := h.nodup
              rw [List.cons_append, List.flatMap_cons] at hn
              rw [List.append_assoc, List.flatMap_append, List.flatMap_append]
              rw [List.flatMap_append] at hn
              have h1 : (q.keys ++ (qs.flatMap Item.keys ++ ds.flatMap Item.keys)).Perm
                  (qs.flatMap Item.keys ++ (q.keys ++ ds.flatMap Item.keys)) := by
                rw [← List.append_assoc, ← List.append_assoc]
                exact List.perm_append_comm.append_right _
              refine List.Nodup.sublist ?_ (h1.nodup_iff.1 hn)
              exact (List.Sublist.refl _).append (q.children_keys.append (List.Sublist.refl _))
          · exact fun _ _ _ _ _ => trivial
        · intro _
          rw [Item.children_loc, ← List.map_append]
          exact removeLoop_counts hU hfuel fuel _ _
      split
      · next hz =>
        have := hrm hz
        rw [hvar]
        generalize q.variant cfg.hasher = v at this
        cases v with
        | branch b => exact this
        | leaf l => exact this
        | data d => simpa [Variant.children] using this
      · next hz =>
        apply triple_bind (R := fun _ => GivingUp C U g qs (q :: ds))
        · apply triple_insert
          · rintro s s' ⟨h, hv⟩ hw
            obtain ⟨c, hc, hg⟩ := h.goal
            have hcq := hcount h hv c hc
            refine ⟨?_, ⟨fun x => if x = q then c q - 1 else c x, ?_, ?_⟩, ?_, ?_, ?_⟩
            · rw [settled_of_wrote hw]
              refine h.honest.put (Nat.pos_of_ne_zero hz) ?_
              dsimp only; rw [hvar]; exact (h.ok q (by simp)).belongs
            · intro i hi
              rw [countsOf_eq, settled_of_wrote hw, refsOf_put]
              by_cases hiq : i = q
              · subst hiq; simp [hcq]
              · rw [if_neg (fun e => hiq (Item.eq_of_loc hU hi (h.ok q (by simp)) e))]
                exact (hc i hi).trans (if_neg hiq).symm
            · rw [finish_stay (by omega) h.apart, hg]
            · intro x hx
              rcases pending_of_wrote hw hx with rfl | hx
              · simp
              · rw [List.map_cons]
                exact List.mem_cons_of_mem _ (h.pend x hx)
            · intro i hi
              apply h.ok
              simp only [List.mem_append, List.mem_cons] at hi ⊢
              tauto
            · refine (List.Perm.nodup_iff ?_).1 h.nodup
              apply List.Perm.flatMap_right
              exact List.perm_middle.symm
          · exact fun _ _ _ _ _ => trivial
        · intro _
          exact removeLoop_counts hU hfuel fuel _ _

/-- What `remove` does to all counts. -/
theorem remove_counts (hU : CollisionFree cfg.hasher U) {T : Trie N} (hT : T.WF)
    (hin : ∀ i ∈ T.inputs cfg.hasher, U i) {v0 : View N} (hv0 : Honest cfg.hasher U v0) :
    Triple C (fun _ => True)
      (fun s => C.view s = v0 ∧ C.pending s = View.empty N)
      (remove cfg (T.loc cfg.hasher))
      (fun _ s => (∀ i : Item N, i.Ok cfg.hasher U →
        (GivenUp (countsOf cfg.hasher v0) (.tree T) i →
          countsOf cfg.hasher (C.view s) i = countsOf cfg.hasher v0 i - 1) ∧
        (¬ GivenUp (countsOf cfg.hasher v0) (.tree T) i →
          countsOf cfg.hasher (C.view s) i = countsOf cfg.hasher v0 i)) ∧
        C.pending s = View.empty N)
      (fun _ => True) := by
  unfold remove
  simp only [M.bind_eq]
  apply triple_bind (R := fun _ s => ∃ ds',
    GivingUp C U (finish (countsOf cfg.hasher v0) [.tree T]) [] ds' s)
  · refine triple_conseq (removeLoop_counts hU (Ex := fun _ => True) trivial (removeFuel N)
      [Item.tree T] []) ?_ (fun _ _ h => h) (fun _ h => h)
    rintro s ⟨h1, h2⟩
    have hs : C.settled s = v0 := by rw [settled_of_pending_empty h2, h1]
    refine ⟨?_, ⟨countsOf cfg.hasher v0, ?_, rfl⟩, ?_, ?_, ?_⟩
    · rw [hs]; exact hv0
    · intro i _; rw [hs]
    · intro x hx; rw [h2] at hx; exact absurd rfl hx
    · intro i hi
      simp only [List.append_nil, List.mem_singleton] at hi
      subst hi
      exact ⟨hT.norm, hin⟩
    · have hnd : T.keys.Nodup := hT.sorted.imp Arr.ne_of_lt
      simpa [Item.keys] using hnd
  · intro _
    apply triple_exists
    intro ds
    apply triple_batchWrite
    · intro s s' h e1 e2
      refine ⟨?_, e2⟩
      obtain ⟨c, hc, hg⟩ := h.goal
      have hcg : c = finish (countsOf cfg.hasher v0) [.tree T] := by
        rw [← hg]; funext i; simp [finish]
      intro i hi
      have := hc i hi
      rw [e1]
      change countsOf cfg.hasher (C.settled s) i = _ at this
      change (_ → countsOf cfg.hasher (C.settled s) i = _) ∧
        (_ → countsOf cfg.hasher (C.settled s) i = _)
      rw [this, hcg]
      unfold finish
      constructor
      · intro hgu
        rw [if_pos ⟨_, by simp, hgu⟩]
      · intro hgu
        rw [if_neg (by simpa using hgu)]
    · exact fun _ _ _ _ _ => trivial

end
end MerkleBit
