import Verif.Proof.Batches
/-! # Inserting one pair into an empty database -/

namespace MerkleBit
variable {N : Nat} {σ V : Type} {α β : Type}

/-- What `m` adds to the record has the property `P`, and what it returns the property `Q`. -/
def Records (P : HIn N → Prop) (m : M (σ × List (HIn N)) α) (Q : α → Prop) : Prop :=
  ∀ s l, (∀ i ∈ (m (s, l)).2.2, i ∈ l ∨ P i) ∧ ∀ a, (m (s, l)).1 = .ok a → Q a

namespace Records
variable {P : HIn N → Prop} {Q : α → Prop} {Q' : β → Prop}

theorem bind {m : M (σ × List (HIn N)) α} {f : α → M (σ × List (HIn N)) β} (h : Records P m Q)
    (hf : ∀ a, Q a → Records P (f a) Q') : Records P (m >>= f) Q' := by
  intro s l
  show (∀ i ∈ (M.bind m f (s, l)).2.2, _) ∧ ∀ a, (M.bind m f (s, l)).1 = _ → _
  unfold M.bind
  obtain ⟨h1, h2⟩ := h s l
  rcases hm : m (s, l) with ⟨r, s', l'⟩
  rw [hm] at h1 h2
  cases r with
  | error e => exact ⟨h1, fun a ha => by cases ha⟩
  | ok a =>
    obtain ⟨h3, h4⟩ := hf a (h2 a rfl) s' l'
    refine ⟨fun i hi => ?_, h4⟩
    rcases h3 i hi with h | h
    · exact h1 i h
    · exact .inr h

theorem pure {a : α} (h : Q a) : Records (σ := σ) P (Pure.pure a) Q :=
  fun _ _ => ⟨fun _ hi => .inl hi, fun _ ha => by cases ha; exact h⟩

theorem lift {r : Res α} (h : ∀ a, r = .ok a → Q a) : Records (σ := σ) P (M.lift r) Q :=
  fun _ _ => ⟨fun _ hi => .inl hi, h⟩

theorem dbGet {cfg : Config N σ V} (x : Arr N) :
    Records P (MerkleBit.dbGet (cfg.withDb (logDb cfg.db)) x) fun _ => True :=
  fun _ _ => ⟨fun _ hi => .inl hi, fun _ _ => trivial⟩

theorem dbInsert {cfg : Config N σ V} {x : Arr N} {n : Node N} (h : ∀ i ∈ n.variant.input, P i) :
    Records P ((cfg.withDb (logDb cfg.db)).db.insert x n) fun _ => True := by
  refine fun s l => ⟨fun i hi => ?_, fun _ _ => trivial⟩
  rcases List.mem_append.1 (show i ∈ n.variant.input.toList ++ l from hi) with hi | hi
  · exact .inr (h i (by simpa using hi))
  · exact .inl hi

theorem flush {cfg : Config N σ V} :
    Records P (cfg.withDb (logDb cfg.db)).db.batchWrite fun _ => True :=
  fun _ _ => ⟨fun _ hi => .inl hi, fun _ _ => trivial⟩

end Records

/-- What the insertion of one pair on top of nothing hashes. -/
theorem hashedBy_single {cfg : Config N σ V} {s : σ} {k : Arr N} {v : V} {b : List UInt8}
    (hb : cfg.encode v = .ok b) : ∀ i ∈ hashedBy cfg none [k] [v] s,
      i = .data k b ∨ i = .leaf k ((HIn.data k b).hash cfg.hasher) := by
  intro i hi
  unfold hashedBy at hi
  rcases List.mem_append.1 hi with hi | hi
  · simp [encodedPairs, hb, Trie.inputs, Trie.dataLoc] at hi
    tauto
  · right
    have key : Records (σ := σ) (fun i => i = .leaf k ((HIn.data k b).hash cfg.hasher))
        (insert (cfg.withDb (logDb cfg.db)) none [k] [v]) fun _ => True := by
      unfold insert
      have hs : sortKeys [k] = [k] := rfl
      have hv : valueMap [k] [v] = AMap.insert AMap.empty k v := rfl
      simp only [List.length_singleton, ne_eq, not_true_eq_false, if_false, List.isEmpty_cons,
        Bool.or_self, Bool.false_eq_true, hs, hv]
      refine Records.bind (Q := fun l => l.length = 1) ?_ ?_
      · unfold insertLeaves
        refine Records.bind (Q := fun x => x = b) (Records.lift ?_) ?_
        · intro a ha
          simp [AMap.insert, AMap.get?, Config.withDb, hb] at ha
          exact ha.symm
        · rintro _ rfl
          refine (Records.dbGet _).bind fun _ _ => (Records.dbGet _).bind fun _ _ => ?_
          refine (Records.dbInsert (by simp [Variant.input])).bind fun _ _ => ?_
          refine (Records.dbInsert ?_).bind fun _ _ => ?_
          · simp only [Variant.input, Option.mem_def, Option.some.injEq, forall_eq']
            rw [HIn.hash, k.len]
            rfl
          · exact (Records.pure (Q := fun l => l = []) rfl).bind fun l hl => by
              subst hl
              exact Records.pure rfl
      · intro l hl
        obtain ⟨x, rfl⟩ := List.length_eq_one_iff.1 hl
        refine (Records.pure (Q := fun l => l = []) rfl).bind fun r hr => ?_
        subst hr
        exact Records.flush.bind fun _ _ => Records.pure trivial
    simpa using (key s []).1 i hi

/-- No collision arises when one pair is inserted on top of nothing, unless its data node and its leaf
have the same location. -/
theorem collisionFree_single {cfg : Config N σ V} {s : σ} {k : Arr N} {v : V} {b : List UInt8}
    (hb : cfg.encode v = .ok b)
    (hne : cfg.hasher.hash3 N tagL k.bytes (cfg.hasher.hash3 N tagD k.bytes b).bytes ≠
      cfg.hasher.hash3 N tagD k.bytes b) :
    CollisionFree cfg.hasher (Among (hashedBy cfg none [k] [v] s)) := by
  intro i j hi hj hij
  rcases hashedBy_single hb i hi with rfl | rfl <;> rcases hashedBy_single hb j hj with rfl | rfl
  · rfl
  · exact absurd hij.symm hne
  · exact absurd hij hne
  · rfl

/-- A version with one key has height 0. -/
theorem heightBelow_single {M : Contents N V} {k : Arr N} (h : ∀ k', k' ≠ k → M k' = none) {d : Nat}
    (hd : 0 < d) : HeightBelow M d := by
  intro k1 hk1 ps _ hps
  cases ps with
  | nil => exact hd
  | cons p ps =>
    obtain ⟨k2, h2, h3, -⟩ := hps p (by simp)
    have e1 : k1 = k := by
      by_contra hk
      exact hk1 (h k1 hk)
    exact absurd (h k2 (by rw [← e1]; exact h3)) h2

end MerkleBit
