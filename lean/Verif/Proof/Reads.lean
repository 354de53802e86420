import Verif.Proof.Cost
/-! # How much is read and written -/

namespace MerkleBit
variable {N : Nat} {σ V : Type} {cfg : Config N σ V}

/-! ## Meters -/

/-- The number of nodes written. -/
def countMeter (db : Database N σ) : Meter db (countDb db) where
  I i j s t := t.1 = s ∧ t.2 ≤ i + j
  Seen _ _ := True
  mono h h1 h2 := ⟨h.1, by omega⟩
  get h := by rw [← h.1]; rfl
  seen _ := trivial
  fresh := by
    rintro i j s ⟨_, c⟩ x n ⟨rfl, hc⟩
    exact ⟨rfl, rfl, by simp only [countDb] at *; omega⟩
  again := by
    rintro i j s ⟨_, c⟩ x n - ⟨rfl, hc⟩
    exact ⟨rfl, by simp only [countDb] at *; omega⟩
  flush := by
    rintro i j s ⟨_, c⟩ ⟨rfl, hc⟩
    exact ⟨rfl, rfl, hc⟩
  insert_seen h := h
  flush_seen h := h

/-- The places where a node is, or will be once the queued writes are confirmed. -/
def DbContract.Held {db : Database N σ} (C : DbContract db) (s : σ) (x : Arr N) : Prop :=
  C.view s x ≠ none ∨ C.pending s x ≠ none

theorem View.put_ne {v : View N} {x y : Arr N} {n : Node N} (h : v.put x n y ≠ none) :
    y = x ∨ v y ≠ none := by
  by_cases hy : y = x
  · exact .inl hy
  · rw [View.put, if_neg hy] at h
    exact .inr h

theorem View.overlay_ne {v p : View N} {y : Arr N} (h : v.overlay p y ≠ none) :
    v y ≠ none ∨ p y ≠ none := by
  unfold View.overlay at h
  cases hp : p y with
  | none => rw [hp] at h; exact .inl h
  | some n => right; simp

theorem held_insert {db : Database N σ} (C : DbContract db) {s : σ} {x y : Arr N} {n : Node N}
    (h : C.Held (db.insert x n s).2 y) : y = x ∨ C.Held s y := by
  rcases hi : db.insert x n s with ⟨r, s'⟩
  rw [hi] at h
  dsimp only at h
  cases r with
  | ok _ =>
    rcases (C.insert_ok hi).2 with ⟨-, h2, h3⟩ | ⟨h2, h3⟩
    · rcases h with h | h
      · rw [h2] at h
        exact (View.put_ne h).imp id .inl
      · rw [h3] at h
        exact absurd rfl h
    · rcases h with h | h
      · rw [h2] at h; exact .inr (.inl h)
      · rw [h3] at h
        exact (View.put_ne h).imp id .inr
  | error e =>
    obtain ⟨-, -, h2, h3⟩ := C.insert_err hi
    unfold DbContract.Held at h
    rw [h2, h3] at h
    exact .inr h

theorem held_flush {db : Database N σ} (C : DbContract db) {s : σ} {y : Arr N}
    (h : C.Held (db.batchWrite s).2 y) : C.Held s y := by
  rcases hi : db.batchWrite s with ⟨r, s'⟩
  rw [hi] at h
  dsimp only at h
  cases r with
  | ok _ =>
    obtain ⟨-, h2, h3⟩ := C.batchWrite_ok hi
    rcases h with h | h
    · rw [h2] at h
      exact View.overlay_ne h
    · rw [h3] at h
      exact absurd rfl h
  | error e =>
    obtain ⟨-, -, h2, h3⟩ := C.batchWrite_err hi
    rcases h with h | h
    · rw [h2] at h; exact .inl h
    · rcases h3 with h3 | h3
      · rw [h3] at h; exact .inr h
      · rw [h3] at h; exact absurd rfl h

theorem view_insert {db : Database N σ} (C : DbContract db) {s : σ} {x y : Arr N} {n : Node N}
    (h : C.view s y ≠ none) : C.view (db.insert x n s).2 y ≠ none := by
  rcases hi : db.insert x n s with ⟨r, s'⟩
  dsimp only
  cases r with
  | ok _ =>
    rcases (C.insert_ok hi).2 with ⟨-, h2, h3⟩ | ⟨h2, h3⟩
    · rw [h2]
      unfold View.put
      split
      · simp
      · exact h
    · rw [h2]; exact h
  | error e => rw [(C.insert_err hi).2.2.1]; exact h

theorem view_flush {db : Database N σ} (C : DbContract db) {s : σ} {y : Arr N}
    (h : C.view s y ≠ none) : C.view (db.batchWrite s).2 y ≠ none := by
  rcases hi : db.batchWrite s with ⟨r, s'⟩
  dsimp only
  cases r with
  | ok _ =>
    rw [(C.batchWrite_ok hi).2.1]
    unfold View.overlay
    cases C.pending s y with
    | none => exact h
    | some n => simp
  | error e => rw [(C.batchWrite_err hi).2.2.1]; exact h

/-- The number of nodes added. -/
def growthMeter {db : Database N σ} (C : DbContract db) (s0 : σ) : Meter db db where
  I i _ s t := t = s ∧ AtMost i (fun x => C.Held s x ∧ ¬ C.Held s0 x)
  Seen x s := C.view s x ≠ none
  mono := by
    rintro i j i' j' s t ⟨rfl, xs, h1, h2⟩ h3 -
    exact ⟨rfl, xs, by omega, h2⟩
  get h := by rw [h.1]
  seen h := by rw [← C.getNode_ok h]; simp
  fresh := by
    rintro i j s t x n ⟨rfl, xs, h1, h2⟩
    refine ⟨rfl, rfl, x :: xs, by simpa using h1, fun y hy => ?_⟩
    rcases held_insert C hy.1 with rfl | h
    · exact List.mem_cons_self
    · exact List.mem_cons_of_mem _ (h2 y ⟨h, hy.2⟩)
  again := by
    rintro i j s t x n hx ⟨rfl, xs, h1, h2⟩
    refine ⟨rfl, xs, h1, fun y hy => ?_⟩
    rcases held_insert C hy.1 with rfl | h
    · exact h2 y ⟨.inl hx, hy.2⟩
    · exact h2 y ⟨h, hy.2⟩
  flush := by
    rintro i j s t ⟨rfl, xs, h1, h2⟩
    exact ⟨rfl, rfl, xs, h1, fun y hy => h2 y ⟨held_flush C hy.1, hy.2⟩⟩
  insert_seen h := view_insert C h
  flush_seen h := view_flush C h

/-! ## Reads -/

theorem AgreeOn.mono {xs ys : List (Arr N)} {s s' : σ} (h : AgreeOn cfg.db ys s s') (hs : xs ⊆ ys) :
    AgreeOn cfg.db xs s s' := fun x hx => h x (hs hx)

theorem getOneLoop_reads (s : σ) (key : Arr N) : ∀ fuel nodes found depth,
    ∃ xs : List (Arr N), xs.length ≤ cfg.depth + 1 - depth ∧ ∀ s', AgreeOn cfg.db xs s s' →
      getOneLoop cfg s' key fuel nodes found depth = getOneLoop cfg s key fuel nodes found depth := by
  intro fuel
  induction fuel with
  | zero =>
    intro nodes found depth
    refine ⟨[], by simp, fun s' _ => ?_⟩
    cases nodes <;> simp [getOneLoop]
  | succ fuel ih =>
    intro nodes found depth
    cases nodes with
    | nil => exact ⟨[], by simp, fun s' _ => by simp [getOneLoop]⟩
    | cons x nodes =>
      by_cases hd : depth > cfg.depth
      · exact ⟨[], by simp, fun s' _ => by simp [getOneLoop, hd]⟩
      -- one read and the rest
      have rest : ∀ nodes' found', ∃ xs : List (Arr N), xs.length ≤ cfg.depth + 1 - depth ∧ x ∈ xs ∧
          ∀ s', AgreeOn cfg.db xs s s' → getOneLoop cfg s' key fuel nodes' found' (depth + 1) =
            getOneLoop cfg s key fuel nodes' found' (depth + 1) := by
        intro nodes' found'
        obtain ⟨xs, h1, h2⟩ := ih nodes' found' (depth + 1)
        exact ⟨x :: xs, by simp only [List.length_cons]; omega, List.mem_cons_self,
          fun s' h => h2 s' (h.mono (List.subset_cons_self _ _))⟩
      have one : [x].length ≤ cfg.depth + 1 - depth := by simp only [List.length_singleton]; omega
      cases hx : cfg.db.getNode s x with
      | error e =>
        refine ⟨[x], one, fun s' h => ?_⟩
        simp [getOneLoop, hd, h x (by simp), hx]
      | ok o =>
        cases o with
        | none =>
          obtain ⟨xs, h1, h2, h3⟩ := rest nodes found
          refine ⟨xs, h1, fun s' h => ?_⟩
          simp only [getOneLoop, if_neg hd, h x h2, hx]
          exact h3 s' h
        | some n =>
          obtain ⟨refs, v⟩ := n
          cases v with
          | data d =>
            refine ⟨[x], one, fun s' h => ?_⟩
            simp only [getOneLoop, if_neg hd, h x (by simp), hx]
          | leaf l =>
            obtain ⟨xs, h1, h2, h3⟩ := rest (nodes ++ [l.data]) true
            refine ⟨xs, h1, fun s' h => ?_⟩
            simp only [getOneLoop, if_neg hd, h x h2, hx, h3 s' h]
          | branch b =>
            by_cases hz : chooseZero key b.splitIndex = .ok true
            · obtain ⟨xs, h1, h2, h3⟩ := rest (nodes ++ [b.zero]) found
              refine ⟨xs, h1, fun s' h => ?_⟩
              simp only [getOneLoop, if_neg hd, h x h2, hx, hz, h3 s' h]
            · obtain ⟨xs, h1, h2, h3⟩ := rest (nodes ++ [b.one]) found
              refine ⟨xs, h1, fun s' h => ?_⟩
              simp only [getOneLoop, if_neg hd, h x h2, hx, h3 s' h]
              rcases hc : chooseZero key b.splitIndex with e | (_ | _)
              · rfl
              · rfl
              · exact absurd hc hz

theorem proofLoop_reads (s : σ) (key : Arr N) : ∀ fuel nodes proof found depth,
    ∃ xs : List (Arr N), xs.length ≤ cfg.depth + 1 - depth ∧ ∀ s', AgreeOn cfg.db xs s s' →
      proofLoop cfg s' key fuel nodes proof found depth =
        proofLoop cfg s key fuel nodes proof found depth := by
  intro fuel
  induction fuel with
  | zero =>
    intro nodes proof found depth
    refine ⟨[], by simp, fun s' _ => ?_⟩
    cases nodes <;> simp [proofLoop]
  | succ fuel ih =>
    intro nodes proof found depth
    cases nodes with
    | nil => exact ⟨[], by simp, fun s' _ => by simp [proofLoop]⟩
    | cons x nodes =>
      by_cases hd : depth > cfg.depth
      · exact ⟨[], by simp, fun s' _ => by simp [proofLoop, hd]⟩
      have rest : ∀ nodes' proof' found', ∃ xs : List (Arr N), xs.length ≤ cfg.depth + 1 - depth ∧
          x ∈ xs ∧ ∀ s', AgreeOn cfg.db xs s s' →
            proofLoop cfg s' key fuel nodes' proof' found' (depth + 1) =
              proofLoop cfg s key fuel nodes' proof' found' (depth + 1) := by
        intro nodes' proof' found'
        obtain ⟨xs, h1, h2⟩ := ih nodes' proof' found' (depth + 1)
        exact ⟨x :: xs, by simp only [List.length_cons]; omega, List.mem_cons_self,
          fun s' h => h2 s' (h.mono (List.subset_cons_self _ _))⟩
      have one : [x].length ≤ cfg.depth + 1 - depth := by simp only [List.length_singleton]; omega
      cases hx : cfg.db.getNode s x with
      | error e =>
        refine ⟨[x], one, fun s' h => ?_⟩
        simp [proofLoop, hd, h x (by simp), hx]
      | ok o =>
        cases o with
        | none =>
          refine ⟨[x], one, fun s' h => ?_⟩
          simp [proofLoop, hd, h x (by simp), hx]
        | some n =>
          obtain ⟨refs, v⟩ := n
          cases v with
          | data d =>
            obtain ⟨xs, h1, h2, h3⟩ := rest nodes
              (proof ++ [(cfg.hasher.hash3 x.bytes.length tagD key.bytes d.value, false)]) found
            refine ⟨xs, h1, fun s' h => ?_⟩
            simp only [proofLoop, if_neg hd, h x h2, hx, h3 s' h]
          | leaf l =>
            obtain ⟨xs, h1, h2, h3⟩ := rest (nodes ++ [l.data])
              (proof ++ [(cfg.hasher.hash3 x.bytes.length tagL l.key.bytes l.data.bytes, false)]) true
            refine ⟨xs, h1, fun s' h => ?_⟩
            simp only [proofLoop, if_neg hd, h x h2, hx, h3 s' h]
          | branch b =>
            by_cases hz : chooseZero key b.splitIndex = .ok true
            · obtain ⟨xs, h1, h2, h3⟩ := rest (nodes ++ [b.zero]) (proof ++ [(b.one, true)]) found
              refine ⟨xs, h1, fun s' h => ?_⟩
              simp only [proofLoop, if_neg hd, h x h2, hx, hz, h3 s' h]
            · obtain ⟨xs, h1, h2, h3⟩ := rest (nodes ++ [b.one]) (proof ++ [(b.zero, false)]) found
              refine ⟨xs, h1, fun s' h => ?_⟩
              simp only [proofLoop, if_neg hd, h x h2, hx, h3 s' h]
              rcases hc : chooseZero key b.splitIndex with e | (_ | _)
              · rfl
              · rfl
              · exact absurd hc hz

theorem proofLoop_length (s : σ) (key : Arr N) : ∀ fuel nodes proof found depth p,
    proofLoop cfg s key fuel nodes proof found depth = .ok p →
      p.length ≤ proof.length + (cfg.depth + 1 - depth) := by
  intro fuel
  induction fuel with
  | zero =>
    intro nodes proof found depth p h
    cases nodes <;> simp only [proofLoop] at h <;> cases h
    omega
  | succ fuel ih =>
    intro nodes proof found depth p h
    cases nodes with
    | nil => simp only [proofLoop] at h; cases h; omega
    | cons x nodes =>
      rw [proofLoop] at h
      split at h
      · cases h
      · rename_i hd
        have next : ∀ {nodes' e found'}, proofLoop cfg s key fuel nodes' (proof ++ [e]) found' (depth + 1) =
            .ok p → p.length ≤ proof.length + (cfg.depth + 1 - depth) := by
          intro nodes' e found' h
          have := ih _ _ _ _ _ h
          simp only [List.length_append, List.length_singleton] at this
          omega
        split at h
        · cases h
        · cases h
        · split at h
          · split at h
            · cases h
            · split at h
              · cases h
              · split at h
                · cases h
                · split at h
                  · cases h
                  · split at h
                    · cases h
                    · exact next h
                    · exact next h
          · split at h
            · cases h
            · split at h
              · cases h
              · exact next h
          · split at h
            · cases h
            · exact next h

theorem pushCell_reads {s s' : σ} {q : List (TreeCell N)} {d : Nat} {x : Arr N} {ks : List (Arr N)}
    (h : cfg.db.getNode s' x = cfg.db.getNode s x) :
    pushCellIfNode cfg s' q d x ks = pushCellIfNode cfg s q d x ks := by
  simp only [pushCellIfNode, h]

theorem getLoop_reads (s : σ) (keys : List (Arr N)) : ∀ fuel q m, CellsOk q →
    ∃ xs : List (Arr N), xs.length ≤ 2 * weight cfg.depth q ∧ ∀ s', AgreeOn cfg.db xs s s' →
      getLoop cfg s' keys fuel q m = getLoop cfg s keys fuel q m := by
  intro fuel
  induction fuel with
  | zero =>
    intro q m _
    refine ⟨[], by simp, fun s' _ => ?_⟩
    cases q <;> simp [getLoop]
  | succ fuel ih =>
    intro q m hq
    cases q with
    | nil => exact ⟨[], by simp, fun s' _ => by simp [getLoop]⟩
    | cons c q =>
      have hc : 0 < c.keys.length := List.length_pos_of_ne_nil (hq c (by simp))
      have hq' : CellsOk q := fun c hc => hq c (by simp [hc])
      by_cases hd : c.depth > cfg.depth
      · exact ⟨[], by simp, fun s' _ => by simp [getLoop, hd]⟩
      have hpos : 0 < c.keys.length * (cfg.depth + 2 - c.depth) := Nat.mul_pos hc (by omega)
      rw [weight_cons]
      cases hv : c.node.variant with
      | data d => exact ⟨[], by simp, fun s' _ => by simp [getLoop, hd, hv]⟩
      | leaf n =>
        -- the data node, and the rest
        have rest : ∀ m', ∃ xs : List (Arr N), xs.length ≤ 2 * (c.keys.length * (cfg.depth + 2 - c.depth) +
            weight cfg.depth q) ∧ n.data ∈ xs ∧ ∀ s', AgreeOn cfg.db xs s s' →
            getLoop cfg s' keys fuel q m' = getLoop cfg s keys fuel q m' := by
          intro m'
          obtain ⟨xs, h1, h2⟩ := ih q m' hq'
          exact ⟨n.data :: xs, by simp only [List.length_cons]; omega, List.mem_cons_self,
            fun s' h => h2 s' (h.mono (List.subset_cons_self _ _))⟩
        cases hx : cfg.db.getNode s n.data with
        | error e =>
          refine ⟨[n.data], by simp only [List.length_singleton]; omega, fun s' h => ?_⟩
          simp only [getLoop, if_neg hd, hv, h n.data (by simp), hx]
        | ok o =>
          cases o with
          | none =>
            refine ⟨[n.data], by simp only [List.length_singleton]; omega, fun s' h => ?_⟩
            simp only [getLoop, if_neg hd, hv, h n.data (by simp), hx]
          | some dn =>
            obtain ⟨refs, dv⟩ := dn
            cases dv with
            | leaf _ =>
              refine ⟨[n.data], by simp only [List.length_singleton]; omega, fun s' h => ?_⟩
              simp only [getLoop, if_neg hd, hv, h n.data (by simp), hx]
            | branch _ =>
              refine ⟨[n.data], by simp only [List.length_singleton]; omega, fun s' h => ?_⟩
              simp only [getLoop, if_neg hd, hv, h n.data (by simp), hx]
            | data d =>
              cases hdec : cfg.decode d.value with
              | error e =>
                refine ⟨[n.data], by simp only [List.length_singleton]; omega, fun s' h => ?_⟩
                simp only [getLoop, if_neg hd, hv, h n.data (by simp), hx, hdec]
              | ok value =>
                by_cases hk : n.key ∈ keys
                · obtain ⟨xs, h1, h2, h3⟩ := rest (m.insert n.key (some value))
                  refine ⟨xs, h1, fun s' h => ?_⟩
                  simp only [getLoop, if_neg hd, hv, h n.data h2, hx, hdec, if_pos hk, h3 s' h]
                · obtain ⟨xs, h1, h2, h3⟩ := rest m
                  refine ⟨xs, h1, fun s' h => ?_⟩
                  simp only [getLoop, if_neg hd, hv, h n.data h2, hx, hdec, if_neg hk, h3 s' h]
      | branch b =>
        cases hm : calcMinSplitIndex c.keys b.key with
        | error e => exact ⟨[], by simp, fun s' _ => by simp [getLoop, hd, hv, hm]⟩
        | ok msi =>
          cases hds : checkDescendants c.keys b.splitIndex b.key msi with
          | error e => exact ⟨[], by simp, fun s' _ => by simp [getLoop, hd, hv, hm, hds]⟩
          | ok ds =>
            by_cases he : ds.isEmpty
            · obtain ⟨xs, h1, h2⟩ := ih q m hq'
              refine ⟨xs, by omega, fun s' h => ?_⟩
              simp only [getLoop, if_neg hd, hv, hm, hds, if_pos he, h2 s' h]
            · cases hsp : splitPairs cfg.pp ds b.splitIndex with
              | error e => exact ⟨[], by simp, fun s' _ => by simp [getLoop, hd, hv, hm, hds, he, hsp]⟩
              | ok zo =>
                obtain ⟨zs, os⟩ := zo
                have two : [b.one, b.zero].length ≤ 2 * (c.keys.length * (cfg.depth + 2 - c.depth) +
                    weight cfg.depth q) := by
                  simp only [List.length_cons, List.length_nil]; omega
                cases hq1 : pushCellIfNode cfg s q c.depth b.one os with
                | error e =>
                  refine ⟨[b.one, b.zero], two, fun s' h => ?_⟩
                  simp only [getLoop, if_neg hd, hv, hm, hds, if_neg he, hsp,
                    pushCell_reads (h b.one (by simp)), hq1]
                | ok q1 =>
                  cases hq2 : pushCellIfNode cfg s q1 c.depth b.zero zs with
                  | error e =>
                    refine ⟨[b.one, b.zero], two, fun s' h => ?_⟩
                    simp only [getLoop, if_neg hd, hv, hm, hds, if_neg he, hsp,
                      pushCell_reads (h b.one (by simp)), hq1, pushCell_reads (h b.zero (by simp)), hq2]
                  | ok q2 =>
                    obtain ⟨ho1, hw1⟩ := pushCell_weight (D := cfg.depth) hq' (pushCell_cases hq1)
                    obtain ⟨ho2, hw2⟩ := pushCell_weight (D := cfg.depth) ho1 (pushCell_cases hq2)
                    have hl : zs.length + os.length = ds.length := by
                      rw [← splitPairs_append hsp, List.length_append]
                    have := weight_split (D := cfg.depth) (d := c.depth) (l := c.keys.length)
                      (z := zs.length) (o := os.length) (by omega)
                      (by rw [hl]; exact checkDescendants_length hds) hc
                    obtain ⟨xs, h1, h2⟩ := ih q2 m ho2
                    refine ⟨b.one :: b.zero :: xs, by simp only [List.length_cons]; omega,
                      fun s' h => ?_⟩
                    simp only [getLoop, if_neg hd, hv, hm, hds, if_neg he, hsp,
                      pushCell_reads (h b.one (by simp)), hq1, pushCell_reads (h b.zero (by simp)), hq2]
                    exact h2 s' (h.mono (fun y hy => by simp [hy]))

theorem get_reads (s : σ) (r : Arr N) (keys : List (Arr N)) :
    ∃ xs : List (Arr N), xs.length ≤ 2 * (keys.length * (cfg.depth + 2)) + 1 ∧
      ∀ s', AgreeOn cfg.db xs s s' → get cfg s' r keys = get cfg s r keys := by
  by_cases hk : keys.isEmpty
  · exact ⟨[], by simp, fun s' _ => by simp [get, hk]⟩
  · have hlen : (sortKeys keys).length = keys.length := (sortKeys_perm keys).length_eq
    cases hr : cfg.db.getNode s r with
    | error e => exact ⟨[r], by simp, fun s' h => by simp [get, hk, h r (by simp), hr]⟩
    | ok o =>
      cases o with
      | none => exact ⟨[r], by simp, fun s' h => by simp [get, hk, h r (by simp), hr]⟩
      | some n =>
        obtain ⟨xs, h1, h2⟩ := getLoop_reads (cfg := cfg) s (sortKeys keys)
          (traversalFuel cfg keys.length) [⟨r, sortKeys keys, n, 0⟩] (generateLeafMap keys) (by
            intro c hc
            rw [List.mem_singleton] at hc
            subst hc
            intro h
            dsimp only at h
            rw [h] at hlen
            rw [List.length_eq_zero_iff.1 hlen.symm] at hk
            simp at hk)
        refine ⟨r :: xs, ?_, fun s' h => ?_⟩
        · simp only [weight, List.map_cons, List.map_nil, List.sum_cons, List.sum_nil, hlen] at h1
          simp only [List.length_cons]
          simpa using h1
        · simp only [get, if_neg hk, h r (by simp), hr]
          exact h2 s' (h.mono (List.subset_cons_self _ _))

end MerkleBit
