import Verif.Proof.Reserve
import Verif.Proof.Content
/-! # Reads are determined by the stored tree -/

namespace MerkleBit
variable {N : Nat} {σ V α : Type}

/-- A read returned what was expected, or the database failed. -/
def Outcome {db : Database N σ} (C : DbContract db) (s : σ) (r expected : Res α) : Prop :=
  r = expected ∨ (¬ C.alive s ∧ ∃ msg, r = .error (.exception msg))

section
variable {cfg : Config N σ V} {C : DbContract cfg.db}

/-- Reading a node that is stored. -/
theorem getNode_has {s : σ} {x : Arr N} {c : Variant N} (h : View.Has (C.view s) x c) :
    (∃ refs, cfg.db.getNode s x = .ok (some ⟨refs, c⟩)) ∨
      ∃ msg, cfg.db.getNode s x = .error (.exception msg) ∧ ¬ C.alive s := by
  obtain ⟨refs, h⟩ := h
  cases hg : cfg.db.getNode s x with
  | ok r => left; exact ⟨refs, by rw [C.getNode_ok hg, h]⟩
  | error e =>
    obtain ⟨h1, msg, rfl⟩ := C.getNode_err hg
    exact .inr ⟨msg, rfl, h1⟩

theorem descs_single (hN : 0 < N) (k b : Arr N) {s : Nat} (hs : s ≤ 8 * N) :
    ∃ m, calcMinSplitIndex [k] b = .ok m ∧
      checkDescendants [k] s b m = .ok (if s ≤ firstDiff k b then [k] else []) := by
  obtain ⟨m, h1, h2, -⟩ := descs_ok hN (ks := [k]) (by simp) (b := b) hs
  refine ⟨m, h1, ?_⟩
  rw [h2, descs_exact hN (by simp) (by simp) hs]
  · by_cases h : s ≤ firstDiff k b <;> simp [h]
  · apply not_straddle_single
    intro x hx y hy _ _
    simp only [List.mem_singleton] at hx hy
    rw [hx, hy]

/-! ## `get_one` -/

/-- What `get_one` reads from a tree, starting at depth `d`. -/
def readOne (cfg : Config N σ V) (k : Arr N) : Trie N → Nat → Res (Option V)
  | .leaf k' v, d =>
    if d > cfg.depth then .error (.exception "Depth limit exceeded")
    else if k' ≠ k then .ok none
    else if d + 1 > cfg.depth then .error (.exception "Depth limit exceeded")
    else match cfg.decode v with
      | .ok x => .ok (some x)
      | .error e => .error e
  | .node l r, d =>
    if d > cfg.depth then .error (.exception "Depth limit exceeded")
    else if firstDiff k l.key < firstDiff l.key r.key then .ok none
    else if k.bit (firstDiff l.key r.key) then readOne cfg k r (d + 1)
    else readOne cfg k l (d + 1)

theorem getOneLoop_stored (hN : 0 < N) (s : σ) (k : Arr N) : ∀ (t : Trie N) (fuel d : Nat),
    t.Norm → Stored cfg.hasher (C.view s) t → cfg.depth + 2 ≤ fuel + d → 0 < fuel →
    Outcome C s (getOneLoop cfg s k fuel [t.loc cfg.hasher] false d) (readOne cfg k t d)
  | _, 0, _, _, _, _, h0 => absurd h0 (by omega)
  | .leaf k' v, fuel + 1, d, _, hst, hf, _ => by
    unfold getOneLoop readOne
    by_cases hd : d > cfg.depth
    · rw [if_pos hd, if_pos hd]; exact .inl rfl
    · rw [if_neg hd, if_neg hd]
      rcases getNode_has hst.1 with ⟨refs, hg⟩ | ⟨msg, hg, hal⟩
      · rw [hg]
        simp only [Trie.variant, List.nil_append, Bool.false_eq_true, if_false]
        by_cases hk : k' ≠ k
        · rw [if_pos hk, if_pos hk]; exact .inl rfl
        · rw [if_neg hk, if_neg hk]
          cases fuel with
          | zero => omega
          | succ fuel =>
            unfold getOneLoop
            by_cases hd1 : d + 1 > cfg.depth
            · rw [if_pos hd1, if_pos hd1]; exact .inl rfl
            · rw [if_neg hd1, if_neg hd1]
              rcases getNode_has hst.2 with ⟨refs, hg⟩ | ⟨msg, hg, hal⟩
              · rw [hg]
                simp only [Bool.not_true, Bool.false_eq_true, if_false]
                left
                cases cfg.decode v <;> rfl
              · rw [hg]; exact .inr ⟨hal, msg, rfl⟩
      · rw [hg]; exact .inr ⟨hal, msg, rfl⟩
  | .node l r, fuel + 1, d, hn, hst, hf, _ => by
    have h8 := (Arr.lt_bits hn.2.2).1
    unfold getOneLoop readOne
    by_cases hd : d > cfg.depth
    · rw [if_pos hd, if_pos hd]; exact .inl rfl
    · rw [if_neg hd, if_neg hd]
      rcases getNode_has hst.1 with ⟨refs, hg⟩ | ⟨msg, hg, hal⟩
      · rw [hg]
        obtain ⟨m, hm, hcd⟩ := descs_single hN k l.key (s := firstDiff l.key r.key) (by omega)
        simp only [Trie.variant, List.nil_append, Bool.false_eq_true, if_false, hm, hcd,
          chooseZero_ok k h8]
        by_cases hlt : firstDiff k l.key < firstDiff l.key r.key
        · rw [if_neg (show ¬ firstDiff l.key r.key ≤ firstDiff k l.key by omega), if_pos hlt]
          exact .inl rfl
        · rw [if_pos (show firstDiff l.key r.key ≤ firstDiff k l.key by omega), if_neg hlt]
          simp only [List.isEmpty_cons, Bool.false_eq_true, if_false]
          cases hb : k.bit (firstDiff l.key r.key) with
          | true =>
            exact getOneLoop_stored hN s k r fuel (d + 1) hn.2.1 hst.2.2 (by omega) (by omega)
          | false =>
            exact getOneLoop_stored hN s k l fuel (d + 1) hn.1 hst.2.1 (by omega) (by omega)
      · rw [hg]; exact .inr ⟨hal, msg, rfl⟩

/-- `get_one` of a stored tree. -/
theorem getOne_stored (hN : 0 < N) {s : σ} {t : Trie N} (hn : t.Norm)
    (hst : Stored cfg.hasher (C.view s) t) (k : Arr N) :
    Outcome C s (getOne cfg s (t.loc cfg.hasher) k) (readOne cfg k t 0) :=
  getOneLoop_stored hN s k t _ 0 hn hst (by omega) (by omega)

open Trie in
/-- `get_one` of a compact trie. -/
theorem readOne_wf (k : Arr N) : ∀ (t : Trie N) (d : Nat), t.WF → d + t.height < cfg.depth →
    readOne cfg k t d = match t.lookup k with
      | some v => (match cfg.decode v with
        | .ok x => .ok (some x)
        | .error e => .error e)
      | none => .ok none
  | .leaf k' v, d, _, hd => by
    simp only [height] at hd
    unfold readOne
    rw [if_neg (by omega)]
    by_cases hk : k' = k
    · subst hk
      rw [if_neg (by simp), if_neg (by omega)]
      simp [lookup, entries]
    · rw [if_pos hk]
      simp [lookup, entries, hk]
  | .node l r, d, hwf, hd => by
    simp only [height] at hd
    unfold readOne
    rw [if_neg (by omega)]
    by_cases hlt : firstDiff k l.key < firstDiff l.key r.key
    · rw [if_pos hlt]
      have : k ∉ (Trie.node l r).keys := by
        intro hk
        have := hwf.agree k hk
        simp only [split, key] at this
        omega
      have : (Trie.node l r).lookup k = none := by
        rw [← Option.not_isSome_iff_eq_none, lookup_isSome_iff]
        exact this
      rw [this]
    · rw [if_neg hlt]
      have key : ∀ e : Arr N × List UInt8, e.1 = k → (k.bit (firstDiff l.key r.key) = true →
          e ∉ l.entries) ∧ (k.bit (firstDiff l.key r.key) = false → e ∉ r.entries) := by
        rintro ⟨k', v⟩ rfl
        constructor
        · intro hb he
          have := hwf.bit_left (List.mem_map_of_mem (f := Prod.fst) he)
          simp only [split] at this
          simp only at hb
          rw [this] at hb; cases hb
        · intro hb he
          have := hwf.bit_right (List.mem_map_of_mem (f := Prod.fst) he)
          simp only [split] at this
          simp only at hb
          rw [this] at hb; cases hb
      have hsub : ∀ u : Trie N, u.WF → (∀ e : Arr N × List UInt8, e.1 = k →
          (e ∈ u.entries ↔ e ∈ (Trie.node l r).entries)) →
          u.lookup k = (Trie.node l r).lookup k := by
        intro u hu hiff
        apply Option.ext
        intro v
        rw [lookup_eq_some_iff hu, lookup_eq_some_iff hwf, hiff (k, v) rfl]
      cases hb : k.bit (firstDiff l.key r.key) with
      | true =>
        simp only [if_true]
        rw [readOne_wf k r (d + 1) hwf.2.1 (by omega), hsub r hwf.2.1]
        intro e he
        simp only [entries, List.mem_append]
        exact ⟨.inr, fun h => h.resolve_left ((key e he).1 hb)⟩
      | false =>
        simp only [Bool.false_eq_true, if_false]
        rw [readOne_wf k l (d + 1) hwf.1 (by omega), hsub l hwf.1]
        intro e he
        simp only [entries, List.mem_append]
        exact ⟨.inl, fun h => h.resolve_right ((key e he).2 hb)⟩

/-! ## `get` -/

/-- What `get` adds to the result map while visiting a subtree with the keys `ks`. -/
def readMany (cfg : Config N σ V) (ks0 : List (Arr N)) : Trie N → List (Arr N) → Nat →
    AMap (Arr N) (Option V) → Res (AMap (Arr N) (Option V))
  | .leaf k v, _, d, m =>
    if d > cfg.depth then .error (.exception "Depth of merkle tree exceeded")
    else match cfg.decode v with
      | .error e => .error e
      | .ok x => if k ∈ ks0 then .ok (m.insert k (some x)) else .ok m
  | .node l r, ks, d, m =>
    if d > cfg.depth then .error (.exception "Depth of merkle tree exceeded")
    else if descs l.key (firstDiff l.key r.key) ks = [] then .ok m
    else
      match (if (halves cfg.pp (firstDiff l.key r.key)
          (descs l.key (firstDiff l.key r.key) ks)).1 = [] then .ok m
        else readMany cfg ks0 l (halves cfg.pp (firstDiff l.key r.key)
          (descs l.key (firstDiff l.key r.key) ks)).1 (d + 1) m) with
      | .error e => .error e
      | .ok m' =>
        if (halves cfg.pp (firstDiff l.key r.key)
          (descs l.key (firstDiff l.key r.key) ks)).2 = [] then .ok m'
        else readMany cfg ks0 r (halves cfg.pp (firstDiff l.key r.key)
          (descs l.key (firstDiff l.key r.key) ks)).2 (d + 1) m'

/-- The same over a queue of cells. -/
def readCells (cfg : Config N σ V) (ks0 : List (Arr N)) : List (TreeCell N × Trie N) →
    AMap (Arr N) (Option V) → Res (AMap (Arr N) (Option V))
  | [], m => .ok m
  | (c, t) :: cs, m =>
    match readMany cfg ks0 t c.keys c.depth m with
    | .error e => .error e
    | .ok m' => readCells cfg ks0 cs m'

/-- Cell of a stored subtree. -/
def CellOf (cfg : Config N σ V) (C : DbContract cfg.db) (s : σ) (c : TreeCell N) (t : Trie N) :
    Prop := c.node.variant = t.variant cfg.hasher ∧ c.keys ≠ [] ∧ t.Norm ∧
      Stored cfg.hasher (C.view s) t

theorem pushCell_stored {s : σ} {t : Trie N} (hst : Stored cfg.hasher (C.view s) t) (hn : t.Norm)
    (d : Nat) (ks : List (Arr N)) (cs : List (TreeCell N × Trie N)) :
    (ks = [] ∧ pushCellIfNode cfg s (cs.map (·.1)) d (t.loc cfg.hasher) ks = .ok (cs.map (·.1))) ∨
    (ks ≠ [] ∧ ∃ c, CellOf cfg C s c t ∧ c.keys = ks ∧ c.depth = d + 1 ∧
      pushCellIfNode cfg s (cs.map (·.1)) d (t.loc cfg.hasher) ks =
        .ok (((c, t) :: cs).map (·.1))) ∨
    (¬ C.alive s ∧ ∃ msg,
      pushCellIfNode cfg s (cs.map (·.1)) d (t.loc cfg.hasher) ks = .error (.exception msg)) := by
  unfold pushCellIfNode
  rcases getNode_has hst.root with ⟨refs, hg⟩ | ⟨msg, hg, hal⟩
  · rw [hg]
    by_cases hk : ks = []
    · left; exact ⟨hk, by simp [hk]⟩
    · right; left
      have : (!ks.isEmpty) = true := by simpa using hk
      simp only [this, if_true]
      exact ⟨hk, ⟨t.loc cfg.hasher, ks, ⟨refs, t.variant cfg.hasher⟩, d + 1⟩, ⟨rfl, hk, hn, hst⟩,
        rfl, rfl, by simp⟩
  · rw [hg]; exact .inr (.inr ⟨hal, msg, rfl⟩)

theorem getLoop_stored (hN : 0 < N) (hpp : cfg.pp.Lawful) (s : σ) (ks0 : List (Arr N)) :
    ∀ (fuel : Nat) (cs : List (TreeCell N × Trie N)) (m : AMap (Arr N) (Option V)),
      (∀ c ∈ cs, CellOf cfg C s c.1 c.2) → weight cfg.depth (cs.map (·.1)) < fuel →
      (∀ c ∈ cs, c.1.depth ≤ cfg.depth + 1) →
      Outcome C s (getLoop cfg s ks0 fuel (cs.map (·.1)) m) (readCells cfg ks0 cs m)
  | fuel, [], m, _, _, _ => by
    left
    cases fuel <;> rfl
  | 0, _ :: _, _, _, hw, _ => absurd hw (by omega)
  | fuel + 1, (c, t) :: cs, m, hcs, hw, hdep => by
    obtain ⟨hvar, hkeys, hn, hst⟩ := hcs (c, t) (by simp)
    have hcs' : ∀ c ∈ cs, CellOf cfg C s c.1 c.2 := fun c hc => hcs c (by simp [hc])
    have hdep' : ∀ c ∈ cs, c.1.depth ≤ cfg.depth + 1 := fun c hc => hdep c (by simp [hc])
    simp only at hvar hkeys hn hst
    simp only [List.map_cons, weight_cons] at hw ⊢
    have hwc : 0 < c.keys.length := List.length_pos_of_ne_nil hkeys
    have hlen : 1 ≤ c.keys.length * (cfg.depth + 2 - c.depth) :=
      Nat.mul_pos hwc (by have := hdep (c, t) (by simp); simp only at this; omega)
    unfold getLoop readCells
    cases t with
    | leaf k v =>
      unfold readMany
      rw [hvar]
      by_cases hd : c.depth > cfg.depth
      · rw [if_pos hd, if_pos hd]; exact .inl rfl
      · rw [if_neg hd, if_neg hd]
        simp only [Trie.variant]
        rcases getNode_has hst.2 with ⟨refs, hg⟩ | ⟨msg, hg, hal⟩
        · rw [hg]
          dsimp only
          cases cfg.decode v with
          | error e => exact .inl rfl
          | ok x =>
            dsimp only
            by_cases hk : k ∈ ks0
            · rw [if_pos hk, if_pos hk]
              exact getLoop_stored hN hpp s ks0 fuel cs _ hcs' (by omega) hdep'
            · rw [if_neg hk, if_neg hk]
              exact getLoop_stored hN hpp s ks0 fuel cs _ hcs' (by omega) hdep'
        · rw [hg]; exact .inr ⟨hal, msg, rfl⟩
    | node l r =>
      have h8 := (Arr.lt_bits hn.2.2).1
      unfold readMany
      rw [hvar]
      by_cases hd : c.depth > cfg.depth
      · rw [if_pos hd, if_pos hd]; exact .inl rfl
      · rw [if_neg hd, if_neg hd]
        simp only [Trie.variant]
        obtain ⟨mi, hm, hcd, pre, post, hinf⟩ := descs_ok hN hkeys (b := l.key)
          (s := firstDiff l.key r.key) (by omega)
        rw [hm]
        dsimp only
        rw [hcd]
        dsimp only
        by_cases hnil : descs l.key (firstDiff l.key r.key) c.keys = []
        · rw [if_pos hnil, hnil]
          simp only [List.isEmpty_nil, if_true]
          exact getLoop_stored hN hpp s ks0 fuel cs _ hcs' (by omega) hdep'
        · rw [if_neg hnil, if_neg (by simpa using hnil)]
          obtain ⟨hsp, happ⟩ := halves_ok hpp h8 (descs l.key (firstDiff l.key r.key) c.keys)
          rw [hsp]
          generalize halves cfg.pp (firstDiff l.key r.key)
            (descs l.key (firstDiff l.key r.key) c.keys) = hv at happ
          obtain ⟨zs, os⟩ := hv
          dsimp only at happ ⊢
          have hlen2 : zs.length + os.length ≤ c.keys.length := by
            have h1 := congrArg List.length hinf
            have h2 := congrArg List.length happ
            simp only [List.length_append] at h1 h2
            omega
          have hmul : (zs.length + os.length) * (cfg.depth + 2 - (c.depth + 1)) + c.keys.length ≤
              c.keys.length * (cfg.depth + 2 - c.depth) := by
            have h1 : cfg.depth + 2 - c.depth = (cfg.depth + 2 - (c.depth + 1)) + 1 := by omega
            rw [h1, Nat.mul_add, Nat.mul_one]
            exact Nat.add_le_add_right (Nat.mul_le_mul_right _ hlen2) _
          rw [Nat.add_mul] at hmul
          rcases pushCell_stored hst.2.2 hn.2.1 c.depth os cs with
            ⟨ho, hpo⟩ | ⟨ho, co, hco, hcok, hcod, hpo⟩ | ⟨hal, msg, hpo⟩
          · rw [hpo]
            dsimp only
            rcases pushCell_stored hst.2.1 hn.1 c.depth zs cs with
              ⟨hz, hpz⟩ | ⟨hz, cz, hcz, hczk, hczd, hpz⟩ | ⟨hal, msg, hpz⟩
            · rw [hpz]
              subst ho; subst hz
              exact absurd happ.symm hnil
            · rw [hpz]
              dsimp only
              rw [if_neg hz]
              have := getLoop_stored hN hpp s ks0 fuel ((cz, l) :: cs) m
                (by
                  intro c' hc'
                  rcases List.mem_cons.1 hc' with rfl | hc'
                  · exact hcz
                  · exact hcs' c' hc')
                (by simp only [List.map_cons, weight_cons, hczk, hczd]; omega)
                (by
                  intro c' hc'
                  rcases List.mem_cons.1 hc' with rfl | hc'
                  · simp only; omega
                  · exact hdep' c' hc')
              unfold readCells at this
              rw [hczk, hczd] at this
              cases hrm : readMany cfg ks0 l zs (c.depth + 1) m with
              | error e => rw [hrm] at this; exact this
              | ok m' =>
                rw [hrm] at this
                simpa [ho] using this
            · rw [hpz]; exact .inr ⟨hal, msg, rfl⟩
          · rw [hpo]
            dsimp only
            have hcs1 : ∀ c' ∈ (co, r) :: cs, CellOf cfg C s c'.1 c'.2 := by
              intro c' hc'
              rcases List.mem_cons.1 hc' with rfl | hc'
              · exact hco
              · exact hcs' c' hc'
            have hdep1 : ∀ c' ∈ (co, r) :: cs, c'.1.depth ≤ cfg.depth + 1 := by
              intro c' hc'
              rcases List.mem_cons.1 hc' with rfl | hc'
              · simp only; omega
              · exact hdep' c' hc'
            rcases pushCell_stored hst.2.1 hn.1 c.depth zs ((co, r) :: cs) with
              ⟨hz, hpz⟩ | ⟨hz, cz, hcz, hczk, hczd, hpz⟩ | ⟨hal, msg, hpz⟩
            · rw [hpz]
              dsimp only
              rw [if_pos hz]
              have := getLoop_stored hN hpp s ks0 fuel ((co, r) :: cs) m hcs1
                (by simp only [List.map_cons, weight_cons, hcok, hcod]; omega) hdep1
              unfold readCells at this
              rw [hcok, hcod] at this
              simpa [ho] using this
            · rw [hpz]
              dsimp only
              rw [if_neg hz]
              have := getLoop_stored hN hpp s ks0 fuel ((cz, l) :: (co, r) :: cs) m
                (by
                  intro c' hc'
                  rcases List.mem_cons.1 hc' with rfl | hc'
                  · exact hcz
                  · exact hcs1 c' hc')
                (by simp only [List.map_cons, weight_cons, hczk, hczd, hcok, hcod]; omega)
                (by
                  intro c' hc'
                  rcases List.mem_cons.1 hc' with rfl | hc'
                  · simp only; omega
                  · exact hdep1 c' hc')
              unfold readCells at this
              rw [hczk, hczd] at this
              cases hrm : readMany cfg ks0 l zs (c.depth + 1) m with
              | error e => rw [hrm] at this; exact this
              | ok m' =>
                rw [hrm] at this
                dsimp only at this ⊢
                unfold readCells at this
                rw [hcok, hcod] at this
                simpa [ho] using this
            · rw [hpz]; exact .inr ⟨hal, msg, rfl⟩
          · rw [hpo]; exact .inr ⟨hal, msg, rfl⟩

/-- What `get` returns for a stored tree. -/
def readBatch (cfg : Config N σ V) (t : Trie N) (keys : List (Arr N)) :
    Res (AMap (Arr N) (Option V)) :=
  if keys.isEmpty then .ok AMap.empty
  else readMany cfg (sortKeys keys) t (sortKeys keys) 0 (generateLeafMap keys)

theorem sortKeys_length (ks : List (Arr N)) : (sortKeys ks).length = ks.length := by
  unfold sortKeys
  exact List.length_insertionSort _ _

/-- `get` of a stored tree. -/
theorem get_stored (hN : 0 < N) (hpp : cfg.pp.Lawful) {s : σ} {t : Trie N} (hn : t.Norm)
    (hst : Stored cfg.hasher (C.view s) t) (keys : List (Arr N)) :
    Outcome C s (get cfg s (t.loc cfg.hasher) keys) (readBatch cfg t keys) := by
  unfold get readBatch
  by_cases hk : keys.isEmpty
  · rw [if_pos hk, if_pos hk]; exact .inl rfl
  · rw [if_neg hk, if_neg hk]
    dsimp only
    rcases getNode_has hst.root with ⟨refs, hg⟩ | ⟨msg, hg, hal⟩
    · rw [hg]
      dsimp only
      have hne : sortKeys keys ≠ [] := by
        intro h
        have := sortKeys_length keys
        rw [h] at this
        simp only [List.isEmpty_iff] at hk
        exact hk (List.length_eq_zero_iff.1 this.symm)
      have := getLoop_stored (C := C) hN hpp s (sortKeys keys) (traversalFuel cfg keys.length)
        [(⟨t.loc cfg.hasher, sortKeys keys, ⟨refs, t.variant cfg.hasher⟩, 0⟩, t)]
        (generateLeafMap keys)
        (by
          intro c hc
          simp only [List.mem_singleton] at hc
          subst hc
          exact ⟨rfl, hne, hn, hst⟩)
        (by simp [weight, traversalFuel, sortKeys_length])
        (by
          intro c hc
          simp only [List.mem_singleton] at hc
          subst hc
          simp)
      simp only [List.map_cons, List.map_nil, readCells] at this
      cases hrm : readMany cfg (sortKeys keys) t (sortKeys keys) 0 (generateLeafMap keys) with
      | error e => rw [hrm] at this; exact this
      | ok m => rw [hrm] at this; exact this
    · rw [hg]; exact .inr ⟨hal, msg, rfl⟩

/-! ## `generate_inclusion_proof` -/

/-- The proof entries collected below a subtree (leaf first), with the depth check. -/
def readProof (cfg : Config N σ V) (k : Arr N) : Trie N → Nat → Res (List (Arr N × Bool))
  | .leaf k' v, d =>
    if d > cfg.depth then .error (.exception "Depth limit exceeded")
    else if k' ≠ k then .error (.exception "Key not found in tree")
    else if d + 1 > cfg.depth then .error (.exception "Depth limit exceeded")
    else .ok [(Trie.dataLoc cfg.hasher k v, false), ((Trie.leaf k v).loc cfg.hasher, false)]
  | .node l r, d =>
    if d > cfg.depth then .error (.exception "Depth limit exceeded")
    else if firstDiff k l.key < firstDiff l.key r.key then
      .error (.exception "Key not found in tree")
    else if k.bit (firstDiff l.key r.key) then
      match readProof cfg k r (d + 1) with
      | .ok p => .ok (p ++ [(l.loc cfg.hasher, false)])
      | .error e => .error e
    else
      match readProof cfg k l (d + 1) with
      | .ok p => .ok (p ++ [(r.loc cfg.hasher, true)])
      | .error e => .error e

theorem proofLoop_stored (hN : 0 < N) (s : σ) (k : Arr N) : ∀ (t : Trie N) (fuel d : Nat)
    (acc : List (Arr N × Bool)), t.Norm → Stored cfg.hasher (C.view s) t →
    cfg.depth + 2 ≤ fuel + d → 0 < fuel →
    Outcome C s (proofLoop cfg s k fuel [t.loc cfg.hasher] acc false d)
      (match readProof cfg k t d with
        | .ok p => .ok (acc ++ p.reverse)
        | .error e => .error e)
  | _, 0, _, _, _, _, _, h0 => absurd h0 (by omega)
  | .leaf k' v, fuel + 1, d, acc, _, hst, hf, _ => by
    unfold proofLoop readProof
    by_cases hd : d > cfg.depth
    · rw [if_pos hd, if_pos hd]; exact .inl rfl
    · rw [if_neg hd, if_neg hd]
      rcases getNode_has hst.1 with ⟨refs, hg⟩ | ⟨msg, hg, hal⟩
      · rw [hg]
        simp only [Trie.variant, List.nil_append, Bool.false_eq_true, if_false]
        by_cases hk : k' ≠ k
        · rw [if_pos hk, if_pos hk]; exact .inl rfl
        · rw [if_neg hk, if_neg hk]
          simp only [ne_eq, Decidable.not_not] at hk
          subst hk
          cases fuel with
          | zero => omega
          | succ fuel =>
            unfold proofLoop
            by_cases hd1 : d + 1 > cfg.depth
            · rw [if_pos hd1, if_pos hd1]; exact .inl rfl
            · rw [if_neg hd1, if_neg hd1]
              rcases getNode_has hst.2 with ⟨refs, hg⟩ | ⟨msg, hg, hal⟩
              · rw [hg]
                simp only [Bool.not_true, Bool.false_eq_true, if_false]
                left
                have : ∀ fuel a, proofLoop cfg s k' fuel [] a true (d + 1 + 1) = .ok a := by
                  intro fuel a; cases fuel <;> rfl
                rw [this]
                simp only [Arr.len, Trie.loc, Trie.dataLoc, HIn.hash, List.append_assoc,
                  List.reverse_cons, List.reverse_nil, List.nil_append]
              · rw [hg]; exact .inr ⟨hal, msg, rfl⟩
      · rw [hg]; exact .inr ⟨hal, msg, rfl⟩
  | .node l r, fuel + 1, d, acc, hn, hst, hf, _ => by
    have h8 := (Arr.lt_bits hn.2.2).1
    unfold proofLoop readProof
    by_cases hd : d > cfg.depth
    · rw [if_pos hd, if_pos hd]; exact .inl rfl
    · rw [if_neg hd, if_neg hd]
      rcases getNode_has hst.1 with ⟨refs, hg⟩ | ⟨msg, hg, hal⟩
      · rw [hg]
        obtain ⟨m, hm, hcd⟩ := descs_single hN k l.key (s := firstDiff l.key r.key) (by omega)
        simp only [Trie.variant, List.nil_append, Bool.false_eq_true, if_false, hm, hcd,
          chooseZero_ok k h8]
        by_cases hlt : firstDiff k l.key < firstDiff l.key r.key
        · rw [if_neg (show ¬ firstDiff l.key r.key ≤ firstDiff k l.key by omega), if_pos hlt]
          exact .inl rfl
        · rw [if_pos (show firstDiff l.key r.key ≤ firstDiff k l.key by omega), if_neg hlt]
          simp only [List.isEmpty_cons, Bool.false_eq_true, if_false]
          cases hb : k.bit (firstDiff l.key r.key) with
          | true =>
            have := proofLoop_stored hN s k r fuel (d + 1) (acc ++ [(l.loc cfg.hasher, false)])
              hn.2.1 hst.2.2 (by omega) (by omega)
            simp only [Bool.not_true, if_true]
            cases hr : readProof cfg k r (d + 1) with
            | error e => rw [hr] at this; exact this
            | ok p => rw [hr] at this; simpa using this
          | false =>
            have := proofLoop_stored hN s k l fuel (d + 1) (acc ++ [(r.loc cfg.hasher, true)])
              hn.1 hst.2.1 (by omega) (by omega)
            simp only [Bool.not_false, Bool.false_eq_true, if_false]
            cases hr : readProof cfg k l (d + 1) with
            | error e => rw [hr] at this; exact this
            | ok p => rw [hr] at this; simpa using this
      · rw [hg]; exact .inr ⟨hal, msg, rfl⟩

/-- `generate_inclusion_proof` of a stored tree. -/
theorem proof_stored (hN : 0 < N) {s : σ} {t : Trie N} (hn : t.Norm)
    (hst : Stored cfg.hasher (C.view s) t) (k : Arr N) :
    Outcome C s (inclusionProof cfg s (t.loc cfg.hasher) k) (readProof cfg k t 0) := by
  have := proofLoop_stored (C := C) hN s k t (cfg.depth + 2) 0 [] hn hst (by omega) (by omega)
  unfold inclusionProof
  rcases this with h | ⟨hal, msg, h⟩
  · left
    rw [h]
    cases readProof cfg k t 0 <;> simp
  · right
    rw [h]
    exact ⟨hal, msg, rfl⟩

end
end MerkleBit
