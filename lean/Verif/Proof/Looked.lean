import Verif.Proof.CountsEvents
/-! # Which nodes an insert needs -/

namespace MerkleBit
variable {N : Nat} {σ V : Type}

namespace Trie

theorem Sub.eq_or_lt {u : Trie N} : ∀ {t : Trie N}, u.Sub t → u = t ∨ u.entries.length < t.entries.length
  | leaf _ _, h => .inl h
  | node l r, h => by
    rcases h with h | h | h
    · exact .inl h
    · right
      have := h.entries.length_le
      have := r.length_entries_pos
      simp only [Trie.entries, List.length_append]
      omega
    · right
      have := h.entries.length_le
      have := l.length_entries_pos
      simp only [Trie.entries, List.length_append]
      omega

theorem Sub.antisymm {u t : Trie N} (h1 : u.Sub t) (h2 : t.Sub u) : u = t := by
  rcases h1.eq_or_lt with h | h
  · exact h
  · have := h2.entries.length_le
    omega

/-- Whatever contains one side of a branch is that side or contains the branch. -/
theorem Sub.up {l r c u : Trie N} (hc : c = l ∨ c = r) : ∀ {T : Trie N}, T.keys.Nodup →
    (node l r).Sub T → u.Sub T → c.Sub u → u = c ∨ (node l r).Sub u
  | leaf _ _, _, h, _, _ => by simp [Sub] at h
  | node a b, hn, h, hu, hcu => by
    have hcl : c.Sub (node l r) := by
      rcases hc with rfl | rfl
      · exact Sub.left _ _
      · exact Sub.right _ _
    have hdis := fun {u} => sides_disjoint (u := u) hn
    have hna : a.keys.Nodup := (Sub.left a b).nodup hn
    have hnb : b.keys.Nodup := (Sub.right a b).nodup hn
    rcases h with h | h | h
    · cases h
      rcases hu with rfl | hu | hu
      · exact .inr (Sub.refl _)
      · rcases hc with rfl | rfl
        · exact .inl (hu.antisymm hcu)
        · exact absurd (Sub.refl _) (hdis (hcu.trans hu))
      · rcases hc with rfl | rfl
        · exact absurd (hcu.trans hu) (hdis (Sub.refl _))
        · exact .inl (hu.antisymm hcu)
    · rcases hu with rfl | hu | hu
      · exact .inr (.inr (.inl h))
      · exact Sub.up hc hna h hu hcu
      · exact absurd (hcu.trans hu) (hdis (hcl.trans h))
    · rcases hu with rfl | hu | hu
      · exact .inr (.inr (.inr h))
      · exact absurd (hcl.trans h) (hdis (hcu.trans hu))
      · exact Sub.up hc hnb h hu hcu

end Trie

theorem takenOver_sub {pp : PartitionPoint N} {Q : List (Arr N)} : ∀ {T : Trie N} {D : List (Arr N)},
    ∀ u ∈ takenOver pp Q T D, u.Sub T
  | .leaf k v, D, u, hu => by
    unfold takenOver at hu
    split at hu
    · simp at hu
    · exact List.mem_singleton.1 hu
  | .node l r, D, u, hu => by
    unfold takenOver at hu
    split at hu
    · rw [List.mem_singleton.1 hu]; exact Trie.Sub.refl _
    · rcases List.mem_append.1 hu with hu | hu
      · exact (takenOver_sub u hu).trans (Trie.Sub.left _ _)
      · exact (takenOver_sub u hu).trans (Trie.Sub.right _ _)

/-- A batch looks at what is not inside something taken over. -/
theorem mem_lookedAt {pp : PartitionPoint N} {Q : List (Arr N)} {t : Trie N} :
    ∀ {T : Trie N} {D : List (Arr N)}, T.keys.Nodup → (t ∈ lookedAt pp T D ↔
      t.Sub T ∧ ∀ u ∈ takenOver pp Q T D, t.Sub u → t = u)
  | .leaf k v, D, _ => by
    unfold lookedAt
    simp only [List.mem_singleton]
    constructor
    · rintro rfl
      refine ⟨rfl, fun u hu _ => ?_⟩
      unfold takenOver at hu
      split at hu
      · simp at hu
      · exact (List.mem_singleton.1 hu).symm
    · rintro ⟨h, -⟩; exact h
  | .node l r, D, hn => by
    have hdis := fun {u} => sides_disjoint (u := u) hn
    have hl := mem_lookedAt (pp := pp) (Q := Q) (t := t)
      (D := zeros pp l.key (firstDiff l.key r.key) D) ((Trie.Sub.left l r).nodup hn)
    have hr := mem_lookedAt (pp := pp) (Q := Q) (t := t)
      (D := ones pp l.key (firstDiff l.key r.key) D) ((Trie.Sub.right l r).nodup hn)
    unfold lookedAt takenOver
    by_cases hF : followers l.key (firstDiff l.key r.key) D = []
    · simp only [if_pos hF, List.mem_singleton, forall_eq]
      constructor
      · rintro rfl; exact ⟨Trie.Sub.refl _, fun _ => rfl⟩
      · rintro ⟨h1, h2⟩; exact h2 h1
    · simp only [if_neg hF, List.mem_cons, List.mem_append, hl, hr]
      constructor
      · rintro (rfl | ⟨h1, h2⟩ | ⟨h1, h2⟩)
        · refine ⟨Trie.Sub.refl _, fun u hu hs => ?_⟩
          rcases hu with hu | hu
          · exact absurd (hs.trans (takenOver_sub u hu)) not_sub_left
          · exact absurd (hs.trans (takenOver_sub u hu)) not_sub_right
        · refine ⟨h1.trans (Trie.Sub.left _ _), fun u hu hs => ?_⟩
          rcases hu with hu | hu
          · exact h2 u hu hs
          · exact absurd (hs.trans (takenOver_sub u hu)) (hdis h1)
        · refine ⟨h1.trans (Trie.Sub.right _ _), fun u hu hs => ?_⟩
          rcases hu with hu | hu
          · exact absurd h1 (hdis (hs.trans (takenOver_sub u hu)))
          · exact h2 u hu hs
      · rintro ⟨h1, h2⟩
        rcases h1 with rfl | h1 | h1
        · exact .inl rfl
        · exact .inr (.inl ⟨h1, fun u hu => h2 u (.inl hu)⟩)
        · exact .inr (.inr ⟨h1, fun u hu => h2 u (.inr hu)⟩)

section
variable {cfg : Config N σ V} {C : GContract cfg.db} {Ex Ex' : Err → Prop} {E : σ → Prop}

/-- A single write fails only because of the database. -/
theorem triple_insert_ex {db : Database N σ} {C : GContract db} {x : Arr N} {n : Node N} {P : σ → Prop}
    {Q : Unit → σ → Prop} {E : σ → Prop} (h : Triple C Ex P (db.insert x n) Q E) :
    Triple C Ex' P (db.insert x n) Q E := by
  intro s hs
  have h := h s hs
  rcases hi : db.insert x n s with ⟨r, s'⟩
  rw [hi] at h
  cases r with
  | ok u => exact h
  | error e =>
    rcases C.insert_err hi with this | this
    · exact .inl this
    · rcases h with h | ⟨-, h⟩
      · exact .inl h
      · exact .inr ⟨.inr ⟨this.1, this.2.1⟩, h⟩

variable {T : Trie N} {R : List (Trie N)} {keyMap : AMap (Arr N) (Arr N)}
  {J : List (Trie N) → List (Trie N) → σ → Prop} {Fact : Trie N → Node N → σ → Prop}
  {Miss : Trie N → Prop}

/-- If all that is looked at is found, the traversal does not fail. -/
theorem TravStep.lookAll (h : TravStep cfg C (fun _ => True) T R keyMap J Fact E) (hn : T.keys.Nodup)
    (hRT : ∀ u ∈ R, u.Sub T)
    (hfind : ∀ {K op t s}, J K (t :: op) s → t.Sub T → (C.view s (t.loc cfg.hasher) = none ↔ Miss t))
    (hall : ∀ t, t.Sub T → (∀ u ∈ R, t.Sub u → t = u) → ¬ Miss t) :
    TravStep cfg C Ex T R keyMap
      (fun K op s => J K op s ∧ ∀ t ∈ op, t.Sub T ∧ ∀ u ∈ R, t.Sub u → t = u)
      (fun t n s => Fact t n s ∧ True) E := by
  constructor
  · rintro K K' op op' s hK hop ⟨h1, h2⟩
    exact ⟨h.perm hK hop h1, fun t ht => h2 t (hop.mem_iff.2 ht)⟩
  · rintro K op t s ⟨h1, h2⟩ hsub
    rcases h.read h1 hsub with ⟨n, h3, h4, h5⟩ | ⟨h3, -⟩
    · exact .inl ⟨n, h3, h4, h5, trivial⟩
    · exact absurd ((hfind h1 hsub).1 h3) (hall t hsub (h2 t (by simp)).2)
  · rintro K op l r n s hsub hopen ⟨hf, -⟩ ⟨h1, h2⟩
    refine ⟨h.split hsub hopen hf h1, ?_⟩
    have hnode := h2 (.node l r) (by simp)
    have hside : ∀ c, c = l ∨ c = r → c.Sub T ∧ ∀ u ∈ R, c.Sub u → c = u := by
      intro c hc
      have hcs : c.Sub (.node l r) := by
        rcases hc with rfl | rfl
        · exact Trie.Sub.left _ _
        · exact Trie.Sub.right _ _
      refine ⟨hcs.trans hsub, fun u hu hcu => ?_⟩
      rcases Trie.Sub.up hc hn hsub (hRT u hu) hcu with h3 | h3
      · exact h3.symm
      · have := hnode.2 u hu h3
        exact absurd (this ▸ hu) (hopen hn)
    intro t ht
    simp only [List.mem_cons] at ht
    rcases ht with rfl | rfl | ht
    · exact hside _ (.inl rfl)
    · exact hside _ (.inr rfl)
    · exact h2 t (by simp [ht])
  · rintro K op k v loc n s hsub hk hloc ⟨hf, -⟩ ⟨h1, h2⟩
    exact ⟨h.drop hsub hk hloc hf h1, fun t ht => h2 t (by simp [ht])⟩
  · intro K op t n cells hsub hR hcells hv
    have hb := triple_insert_ex (Ex' := Ex) (h.bump K op t n cells hsub hR hcells hv)
    rintro s ⟨⟨h1, h2⟩, ⟨hf, -⟩, hfs⟩
    refine triple_conseq hb (fun _ h => h) ?_ (fun _ h => h) s ⟨h1, hf, fun c hc => (hfs c hc).1⟩
    rintro _ s' ⟨h3, h4⟩
    exact ⟨⟨h3, fun t ht => h2 t (by simp [ht])⟩, fun c hc => ⟨h4 c hc, trivial⟩⟩
  · intro K op k v n cells hsub hk hcells hv
    have hb := triple_insert_ex (Ex' := Ex) (h.same K op k v n cells hsub hk hcells hv)
    rintro s ⟨⟨h1, h2⟩, ⟨hf, -⟩, hfs⟩
    refine triple_conseq hb (fun _ h => h) ?_ (fun _ h => h) s ⟨h1, hf, fun c hc => (hfs c hc).1⟩
    rintro _ s' ⟨h3, h4⟩
    exact ⟨⟨h3, fun t ht => h2 t (by simp [ht])⟩, fun c hc => ⟨h4 c hc, trivial⟩⟩
  · rintro K op s ⟨h1, -⟩
    exact h.fail h1

/-- If something that is looked at is not found, the traversal does not come to an end. -/
theorem TravStep.lookOne (h : TravStep cfg C (fun _ => True) T R keyMap J Fact E)
    (hEx : ∀ msg, Ex (.exception msg)) {t0 : Trie N} (h0 : t0.Sub T) (hR0 : ∀ u ∈ R, t0.Sub u → t0 = u)
    (hfind : ∀ {K op t s}, J K (t :: op) s → t.Sub T → (C.view s (t.loc cfg.hasher) = none ↔ Miss t))
    (hmiss : Miss t0) :
    TravStep cfg C Ex T R keyMap (fun K op s => J K op s ∧ ∃ t ∈ op, t0.Sub t)
      (fun t n s => Fact t n s ∧ t ≠ t0) E := by
  constructor
  · rintro K K' op op' s hK hop ⟨h1, t, h2, h3⟩
    exact ⟨h.perm hK hop h1, t, hop.mem_iff.1 h2, h3⟩
  · rintro K op t s ⟨h1, h2⟩ hsub
    rcases h.read h1 hsub with ⟨n, h3, h4, h5⟩ | ⟨h3, -⟩
    · refine .inl ⟨n, h3, h4, h5, ?_⟩
      rintro rfl
      rw [(hfind h1 hsub).2 hmiss] at h3
      cases h3
    · exact .inr ⟨h3, fun msg => hEx msg⟩
  · rintro K op l r n s hsub hopen ⟨hf, hne⟩ ⟨h1, t, h2, h3⟩
    refine ⟨h.split hsub hopen hf h1, ?_⟩
    rcases List.mem_cons.1 h2 with rfl | h2
    · rcases h3 with rfl | h3 | h3
      · exact absurd rfl hne
      · exact ⟨l, by simp, h3⟩
      · exact ⟨r, by simp, h3⟩
    · exact ⟨t, by simp [h2], h3⟩
  · rintro K op k v loc n s hsub hk hloc ⟨hf, hne⟩ ⟨h1, t, h2, h3⟩
    refine ⟨h.drop hsub hk hloc hf h1, ?_⟩
    rcases List.mem_cons.1 h2 with rfl | h2
    · exact absurd h3.symm hne
    · exact ⟨t, h2, h3⟩
  · intro K op t n cells hsub hR hcells hv
    have hb := triple_insert_ex (Ex' := Ex) (h.bump K op t n cells hsub hR hcells hv)
    rintro s ⟨⟨h1, t', h2, h2'⟩, ⟨hf, hne⟩, hfs⟩
    refine triple_conseq hb (fun _ h => h) ?_ (fun _ h => h) s ⟨h1, hf, fun c hc => (hfs c hc).1⟩
    rintro _ s' ⟨h3, h4⟩
    refine ⟨⟨h3, ?_⟩, fun c hc => ⟨h4 c hc, (hfs c hc).2⟩⟩
    rcases List.mem_cons.1 h2 with rfl | h2
    · exact absurd (hR0 _ hR h2').symm hne
    · exact ⟨t', h2, h2'⟩
  · intro K op k v n cells hsub hk hcells hv
    have hb := triple_insert_ex (Ex' := Ex) (h.same K op k v n cells hsub hk hcells hv)
    rintro s ⟨⟨h1, t', h2, h2'⟩, ⟨hf, hne⟩, hfs⟩
    refine triple_conseq hb (fun _ h => h) ?_ (fun _ h => h) s ⟨h1, hf, fun c hc => (hfs c hc).1⟩
    rintro _ s' ⟨h3, h4⟩
    refine ⟨⟨h3, ?_⟩, fun c hc => ⟨h4 c hc, (hfs c hc).2⟩⟩
    rcases List.mem_cons.1 h2 with rfl | h2
    · exact absurd h2'.symm hne
    · exact ⟨t', h2, h2'⟩
  · rintro K op s ⟨h1, -⟩
    exact h.fail h1

end

section
variable {cfg : Config N σ V} {C : DbContract cfg.db} {U : HIn N → Prop}

/-- What an insert on top of a version needs. -/
theorem insert_needs (hN : 0 < N) (hpp : cfg.pp.Lawful) (hU : CollisionFree cfg.hasher U) {shows : Bool}
    (hsh : WritesShow C shows)
    {s : σ} {T : Trie N} {M : Contents N V} {keys : List (Arr N)} {values : List V}
    (hin : ∀ i ∈ hashedBy cfg (some (T.loc cfg.hasher)) keys values s, U i) (hs : InPlace C U s)
    (hp : C.pending s = View.empty N) (hT : T.WF) (hTU : ∀ i ∈ T.inputs cfg.hasher, U i)
    (hM : Represents cfg T M) (hns : Handled cfg M keys) (hdep : T.height ≤ cfg.depth)
    (hlen : keys.length = values.length) (hne : keys ≠ []) (hnd : keys.Nodup)
    (henc : ∀ v ∈ values, ∃ b, cfg.encode v = .ok b) :
    ((∀ t ∈ lookedAt cfg.pp T (sortKeys keys),
        ¬ Unfound cfg.hasher shows (C.view s) (encodedPairs cfg keys values) t) →
      Ends C (fun _ => False) (insert cfg (some (T.loc cfg.hasher)) keys values) s
        (fun _ _ => True) (fun _ => True)) ∧
    ((∃ t ∈ lookedAt cfg.pp T (sortKeys keys),
        Unfound cfg.hasher shows (C.view s) (encodedPairs cfg keys values) t) →
      Ends C Err.IsException (insert cfg (some (T.loc cfg.hasher)) keys values) s
        (fun _ _ => False) (fun _ => True)) := by
  have hbatch : BatchOk cfg.pp keys (some T) := by
    rintro T' ⟨⟩
    exact ⟨hT, fun k hk => hns k hk T hT hM⟩
  have hn : T.keys.Nodup := hT.sorted.imp Arr.ne_of_lt
  have hok : ∀ k ∈ keys, encodedOf cfg (valueMap keys values) k = .ok (encOf cfg keys values k) := by
    intro k hk
    rcases encodedOf_cases cfg hlen hk with ⟨h, _⟩ | ⟨v, hv, e, he, h⟩
    · exact h
    · obtain ⟨b, hb⟩ := henc v hv
      rw [hb] at he; cases he
  have hkept : takenOver cfg.pp (sortKeys keys) T (sortKeys keys) =
      trav cfg.pp (sortKeys keys) T (sortKeys keys) := keptOf_trav hN hpp hne hT
  have hU' : ∀ t, Unfound cfg.hasher shows (C.view s) (keys.map (fun k => (k, encOf cfg keys values k))) t ↔
      Unfound cfg.hasher shows (C.view s) (encodedPairs cfg keys values) t := by
    intro t
    unfold Unfound
    simp only [mem_encodedPairs hlen hnd hok]
  have gen := fun (Ex : Err → Prop) (Op : List (Trie N) → Prop) (FactX : Trie N → Prop) hOp hlook =>
    insert_counts_gen (cfg := gcfg U cfg) (C := C.guard U) (shows := shows) (Ex := Ex)
    (v0 := C.view s) (f := encOf cfg keys values) (prev := some T) hN hpp hU (hsh.guard U)
    (guardDb_guards U cfg.db) hs.1 hlen hne hnd (fun k hk => .inl (hok k hk))
    (fun k hk _ => by
      refine ⟨trivial, fun i hi => ?_⟩
      rcases encodedOf_cases cfg hlen hk with ⟨_, h⟩ | ⟨v, hv, e, he, h⟩
      · exact hin i (mem_hashedBy h i hi)
      · obtain ⟨b, hb⟩ := henc v hv
        rw [hb] at he; cases he)
    (by rintro T' ⟨⟩; exact ⟨hT.norm, hTU⟩) hbatch
    (by rintro T' ⟨⟩; exact .inl hdep) (Op := Op) (FactX := FactX) hOp hlook
  constructor
  · intro hall
    have := gen (fun _ => False) (fun op => ∀ t ∈ op, t.Sub T ∧
      ∀ u ∈ trav cfg.pp (sortKeys keys) T (sortKeys keys), t.Sub u → t = u) (fun _ => True)
      (by
        intro t ht
        have : t = T := by simpa using ht
        subst this
        refine ⟨Trie.Sub.refl _, fun u hu hs => hs.antisymm ?_⟩
        rw [← hkept] at hu
        exact takenOver_sub u hu)
      (by
        rintro T' ⟨⟩ J Fact hfind h
        refine h.lookAll hn (fun u hu => ?_) hfind (fun t ht hR => ?_)
        · change u ∈ trav cfg.pp (sortKeys keys) T (sortKeys keys) at hu
          rw [← hkept] at hu
          exact takenOver_sub u hu
        · change ∀ u ∈ trav cfg.pp (sortKeys keys) T (sortKeys keys), t.Sub u → t = u at hR
          rw [← hkept] at hR
          exact fun hm => hall t ((mem_lookedAt hn).2 ⟨ht, hR⟩) ((hU' t).1 hm))
    exact ends_of_guard (C := C) hin (Ex := fun _ => False)
      (P := fun s0 => C.view s0.1 = C.view s ∧ C.pending s0.1 = View.empty N)
      (Q := fun _ _ => True) (E := fun _ => True)
      (triple_conseq this (fun _ h => h) (fun _ _ _ => trivial) (fun _ h => h)) ⟨rfl, hp⟩
  · rintro ⟨t0, ht0, hmiss⟩
    rw [mem_lookedAt (Q := sortKeys keys) hn, hkept] at ht0
    have := gen Err.IsException (fun op => ∃ t ∈ op, t0.Sub t) (fun t => t ≠ t0)
      ⟨T, by simp, ht0.1⟩
      (by
        rintro T' ⟨⟩ J Fact hfind h
        exact h.lookOne (fun msg => ⟨msg, rfl⟩) ht0.1 ht0.2 hfind ((hU' t0).2 hmiss))
    exact ends_of_guard (C := C) hin (Ex := Err.IsException)
      (P := fun s0 => C.view s0.1 = C.view s ∧ C.pending s0.1 = View.empty N)
      (Q := fun _ _ => False) (E := fun _ => True)
      (triple_conseq this (fun _ h => h) (fun _ _ h => by
        obtain ⟨t, ht, -⟩ := h.1
        simp at ht) (fun _ h => h)) ⟨rfl, hp⟩

end
end MerkleBit
