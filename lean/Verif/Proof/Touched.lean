import Verif.Spec.Touched
import Verif.Proof.Reads
import Verif.Proof.History
import Verif.Proof.Mirror
/-! # What is below a root -/

namespace MerkleBit
variable {N : Nat} {σ V : Type} {cfg : Config N σ V} {C : DbContract cfg.db}

/-! ## Reads -/

/-- A set of places that contains what the nodes there point at, on which two states agree. -/
structure ClosedAt (cfg : Config N σ V) (X : Arr N → Prop) (s s' : σ) : Prop where
  agree : ∀ x, X x → cfg.db.getNode s' x = cfg.db.getNode s x
  child : ∀ x n, X x → cfg.db.getNode s x = .ok (some n) → ∀ y ∈ n.variant.children, X y

variable {X : Arr N → Prop} {s s' : σ}

theorem getOneLoop_closed (h : ClosedAt cfg X s s') (key : Arr N) : ∀ fuel nodes found depth,
    (∀ x ∈ nodes, X x) →
    getOneLoop cfg s' key fuel nodes found depth = getOneLoop cfg s key fuel nodes found depth := by
  intro fuel
  induction fuel with
  | zero => intro nodes found depth _; cases nodes <;> simp [getOneLoop]
  | succ fuel ih =>
    intro nodes found depth hX
    cases nodes with
    | nil => simp [getOneLoop]
    | cons x nodes =>
      have hx := hX x List.mem_cons_self
      have hr : ∀ y ∈ nodes, X y := fun y hy => hX y (List.mem_cons_of_mem _ hy)
      by_cases hd : depth > cfg.depth
      · simp [getOneLoop, hd]
      cases hg : cfg.db.getNode s x with
      | error e => simp [getOneLoop, hd, h.agree x hx, hg]
      | ok o =>
        cases o with
        | none => simp only [getOneLoop, if_neg hd, h.agree x hx, hg]; exact ih _ _ _ hr
        | some n =>
          have hch := h.child x n hx hg
          obtain ⟨refs, v⟩ := n
          have hpush : ∀ y ∈ v.children, ∀ z ∈ nodes ++ [y], X z := by
            intro y hy z hz
            rcases List.mem_append.1 hz with hz | hz
            · exact hr z hz
            · rw [List.mem_singleton.1 hz]; exact hch y hy
          cases v with
          | data d => simp only [getOneLoop, if_neg hd, h.agree x hx, hg]
          | leaf l =>
            simp only [getOneLoop, if_neg hd, h.agree x hx, hg,
              ih _ true (depth + 1) (hpush l.data (by simp [Variant.children]))]
          | branch b =>
            simp only [getOneLoop, if_neg hd, h.agree x hx, hg,
              ih _ found (depth + 1) (hpush b.zero (by simp [Variant.children])),
              ih _ found (depth + 1) (hpush b.one (by simp [Variant.children]))]

theorem proofLoop_closed (h : ClosedAt cfg X s s') (key : Arr N) : ∀ fuel nodes proof found depth,
    (∀ x ∈ nodes, X x) →
    proofLoop cfg s' key fuel nodes proof found depth =
      proofLoop cfg s key fuel nodes proof found depth := by
  intro fuel
  induction fuel with
  | zero => intro nodes proof found depth _; cases nodes <;> simp [proofLoop]
  | succ fuel ih =>
    intro nodes proof found depth hX
    cases nodes with
    | nil => simp [proofLoop]
    | cons x nodes =>
      have hx := hX x List.mem_cons_self
      have hr : ∀ y ∈ nodes, X y := fun y hy => hX y (List.mem_cons_of_mem _ hy)
      by_cases hd : depth > cfg.depth
      · simp [proofLoop, hd]
      cases hg : cfg.db.getNode s x with
      | error e => simp [proofLoop, hd, h.agree x hx, hg]
      | ok o =>
        cases o with
        | none => simp [proofLoop, hd, h.agree x hx, hg]
        | some n =>
          have hch := h.child x n hx hg
          obtain ⟨refs, v⟩ := n
          have hpush : ∀ y ∈ v.children, ∀ z ∈ nodes ++ [y], X z := by
            intro y hy z hz
            rcases List.mem_append.1 hz with hz | hz
            · exact hr z hz
            · rw [List.mem_singleton.1 hz]; exact hch y hy
          cases v with
          | data d => simp only [proofLoop, if_neg hd, h.agree x hx, hg, ih nodes _ found (depth + 1) hr]
          | leaf l =>
            simp only [proofLoop, if_neg hd, h.agree x hx, hg,
              ih _ _ true (depth + 1) (hpush l.data (by simp [Variant.children]))]
          | branch b =>
            simp only [proofLoop, if_neg hd, h.agree x hx, hg,
              ih _ _ found (depth + 1) (hpush b.zero (by simp [Variant.children])),
              ih _ _ found (depth + 1) (hpush b.one (by simp [Variant.children]))]

/-- The queue of `get` holds nodes whose children are in the set. -/
def QIn (X : Arr N → Prop) (q : List (TreeCell N)) : Prop := ∀ c ∈ q, ∀ y ∈ c.node.variant.children, X y

theorem pushCell_qin (h : ClosedAt cfg X s s') {q q' : List (TreeCell N)} {d : Nat} {x : Arr N}
    {ks : List (Arr N)} (hx : X x) (hq : QIn X q) (hp : pushCellIfNode cfg s q d x ks = .ok q') :
    QIn X q' := by
  unfold pushCellIfNode at hp
  cases hg : cfg.db.getNode s x with
  | error e => rw [hg] at hp; cases hp
  | ok o =>
    cases o with
    | none => rw [hg] at hp; cases hp; exact hq
    | some n =>
      rw [hg] at hp
      dsimp only at hp
      split at hp
      · cases hp
        intro c hc y hy
        rcases List.mem_cons.1 hc with rfl | hc
        · exact h.child x n hx hg y hy
        · exact hq c hc y hy
      · cases hp; exact hq

theorem getLoop_closed (h : ClosedAt cfg X s s') (keys : List (Arr N)) : ∀ fuel q m, QIn X q →
    getLoop cfg s' keys fuel q m = getLoop cfg s keys fuel q m := by
  intro fuel
  induction fuel with
  | zero => intro q m _; cases q <;> simp [getLoop]
  | succ fuel ih =>
    intro q m hq
    cases q with
    | nil => simp [getLoop]
    | cons c q =>
      have hq' : QIn X q := fun c hc => hq c (List.mem_cons_of_mem _ hc)
      have hch := hq c List.mem_cons_self
      by_cases hd : c.depth > cfg.depth
      · simp [getLoop, hd]
      cases hv : c.node.variant with
      | data d => simp [getLoop, hd, hv]
      | leaf n =>
        have hx : X n.data := hch _ (by simp [Variant.children, hv])
        simp only [getLoop, if_neg hd, hv, h.agree _ hx, ih q _ hq']
      | branch b =>
        have h0 : X b.zero := hch _ (by simp [Variant.children, hv])
        have h1 : X b.one := hch _ (by simp [Variant.children, hv])
        have hp : ∀ q d ks, pushCellIfNode cfg s' q d b.one ks = pushCellIfNode cfg s q d b.one ks :=
          fun q d ks => pushCell_reads (h.agree _ h1)
        have hp0 : ∀ q d ks, pushCellIfNode cfg s' q d b.zero ks = pushCellIfNode cfg s q d b.zero ks :=
          fun q d ks => pushCell_reads (h.agree _ h0)
        simp only [getLoop, if_neg hd, hv, hp, hp0]
        cases calcMinSplitIndex c.keys b.key with
        | error e => rfl
        | ok msi =>
          dsimp only
          cases checkDescendants c.keys b.splitIndex b.key msi with
          | error e => rfl
          | ok ds =>
            dsimp only
            split
            · exact ih q m hq'
            · cases splitPairs cfg.pp ds b.splitIndex with
              | error e => rfl
              | ok zo =>
                dsimp only
                cases hq1 : pushCellIfNode cfg s q c.depth b.one zo.2 with
                | error e => rfl
                | ok q1 =>
                  dsimp only
                  cases hq2 : pushCellIfNode cfg s q1 c.depth b.zero zo.1 with
                  | error e => rfl
                  | ok q2 =>
                    exact ih q2 m (pushCell_qin h h0 (pushCell_qin h h1 hq' hq1) hq2)

theorem get_closed (h : ClosedAt cfg X s s') {r : Arr N} (hr : X r) (keys : List (Arr N)) :
    get cfg s' r keys = get cfg s r keys := by
  by_cases hk : keys.isEmpty
  · simp [get, hk]
  · cases hg : cfg.db.getNode s r with
    | error e => simp [get, hk, h.agree r hr, hg]
    | ok o =>
      cases o with
      | none => simp [get, hk, h.agree r hr, hg]
      | some n =>
        simp only [get, if_neg hk, h.agree r hr, hg]
        refine getLoop_closed h _ _ _ _ ?_
        intro c hc y hy
        rw [List.mem_singleton] at hc
        subst hc
        exact h.child r n hr hg y hy

theorem proof_closed (h : ClosedAt cfg X s s') {r : Arr N} (hr : X r) (key : Arr N) :
    generateInclusionProof cfg s' r key = generateInclusionProof cfg s r key := by
  refine generateInclusionProof_congr rfl ?_
  unfold inclusionProof
  rw [proofLoop_closed h key _ _ _ _ _ (by intro x hx; rw [List.mem_singleton.1 hx]; exact hr)]

theorem getOne_closed (h : ClosedAt cfg X s s') {r : Arr N} (hr : X r) (key : Arr N) :
    getOne cfg s' r key = getOne cfg s r key :=
  getOneLoop_closed h key _ _ _ _ (by intro x hx; rw [List.mem_singleton.1 hx]; exact hr)

/-- What is below a root is closed. -/
theorem closed_below (hs : C.alive s) (hs' : C.alive s') {R : List (Arr N)}
    (h : ∀ x, Below (C.view s) R x → C.view s' x = C.view s x) :
    ClosedAt cfg (Below (C.view s) R) s s' where
  agree x hx := by rw [alive_get hs', alive_get hs, h x hx]
  child x n hx hn y hy := .child hx (C.getNode_ok hn).symm hy

/-! ## Removes -/

/-- Nothing outside `X` has changed; inside, nodes were deleted or have fewer references. -/
structure Within (C : DbContract cfg.db) (v0 : View N) (X : Arr N → Prop) (s : σ) : Prop where
  out : ∀ y, ¬ X y → C.view s y = v0 y ∧ C.pending s y = none
  sub : ∀ y n, C.view s y = some n ∨ C.pending s y = some n →
    ∃ n0, v0 y = some n0 ∧ n.variant = n0.variant ∧ n.references ≤ n0.references

variable {v0 : View N}

theorem Within.of_eq {s s' : σ} (h : Within C v0 X s) (h1 : C.view s' = C.view s)
    (h2 : C.pending s' = C.pending s ∨ C.pending s' = View.empty N) : Within C v0 X s' := by
  refine ⟨fun y hy => ?_, fun y n hn => ?_⟩
  · obtain ⟨a, b⟩ := h.out y hy
    rcases h2 with h2 | h2
    · exact ⟨by rw [h1, a], by rw [h2, b]⟩
    · exact ⟨by rw [h1, a], by rw [h2]; rfl⟩
  · rw [h1] at hn
    rcases h2 with h2 | h2
    · rw [h2] at hn; exact h.sub y n hn
    · rw [h2] at hn; exact h.sub y n (hn.imp id (fun h => by cases h))

theorem Within.put {s : σ} (h : Within C v0 X s) {x : Arr N} (hx : X x) {n : Node N}
    (hn : C.view s x = some n) :
    Within C v0 X (cfg.db.insert x ⟨n.references - 1, n.variant⟩ s).2 := by
  have hnew := h.sub x n (.inl hn)
  rcases hi : cfg.db.insert x ⟨n.references - 1, n.variant⟩ s with ⟨r, s'⟩
  cases r with
  | error e =>
    obtain ⟨-, -, h1, h2⟩ := C.insert_err hi
    exact h.of_eq h1 (.inl h2)
  | ok u =>
    have key : ∀ y m, (if y = x then some (⟨n.references - 1, n.variant⟩ : Node N) else none) = some m →
        ∃ n0, v0 y = some n0 ∧ m.variant = n0.variant ∧ m.references ≤ n0.references := by
      intro y m hm
      split at hm
      · rename_i hy
        cases hm
        subst hy
        obtain ⟨n0, h1, h2, h3⟩ := hnew
        exact ⟨n0, h1, h2, by simp only; omega⟩
      · cases hm
    obtain ⟨-, ⟨h0, h1, h2⟩ | ⟨h1, h2⟩⟩ := C.insert_ok hi
    · refine ⟨fun y hy => ?_, fun y m hm => ?_⟩
      · have hne : y ≠ x := fun e => hy (e ▸ hx)
        dsimp only
        rw [h1, h2]
        exact ⟨by rw [View.put, if_neg hne]; exact (h.out y hy).1, rfl⟩
      · dsimp only at hm
        rw [h1, h2] at hm
        rcases hm with hm | hm
        · rw [View.put] at hm
          by_cases hy : y = x
          · exact key y m (by rw [if_pos hy] at hm ⊢; exact hm)
          · rw [if_neg hy] at hm; exact h.sub y m (.inl hm)
        · cases hm
    · refine ⟨fun y hy => ?_, fun y m hm => ?_⟩
      · have hne : y ≠ x := fun e => hy (e ▸ hx)
        dsimp only
        rw [h1, h2]
        exact ⟨(h.out y hy).1, by rw [View.put, if_neg hne]; exact (h.out y hy).2⟩
      · dsimp only at hm
        rw [h1, h2] at hm
        rcases hm with hm | hm
        · exact h.sub y m (.inl hm)
        · rw [View.put] at hm
          by_cases hy : y = x
          · exact key y m (by rw [if_pos hy] at hm ⊢; exact hm)
          · rw [if_neg hy] at hm; exact h.sub y m (.inr hm)

theorem Within.del {s : σ} (h : Within C v0 X s) {x : Arr N} (hx : X x) :
    Within C v0 X (cfg.db.remove x s).2 := by
  rcases hi : cfg.db.remove x s with ⟨r, s'⟩
  cases r with
  | error e =>
    obtain ⟨-, -, h1, h2⟩ := C.remove_err hi
    exact h.of_eq h1 (.inl h2)
  | ok u =>
    obtain ⟨-, h1, h2⟩ := C.remove_ok hi
    refine ⟨fun y hy => ?_, fun y m hm => ?_⟩
    · have hne : y ≠ x := fun e => hy (e ▸ hx)
      dsimp only
      rw [h1, h2]
      exact ⟨by rw [View.del, if_neg hne]; exact (h.out y hy).1, (h.out y hy).2⟩
    · dsimp only at hm
      rw [h1, h2] at hm
      rcases hm with hm | hm
      · rw [View.del] at hm
        split at hm
        · cases hm
        · exact h.sub y m (.inl hm)
      · exact h.sub y m (.inr hm)

theorem Within.flush {s : σ} (h : Within C v0 X s) : Within C v0 X (cfg.db.batchWrite s).2 := by
  rcases hi : cfg.db.batchWrite s with ⟨r, s'⟩
  cases r with
  | error e =>
    obtain ⟨-, -, h1, h2⟩ := C.batchWrite_err hi
    exact h.of_eq h1 h2
  | ok u =>
    obtain ⟨-, h1, h2⟩ := C.batchWrite_ok hi
    refine ⟨fun y hy => ?_, fun y m hm => ?_⟩
    · dsimp only
      rw [h1, h2, View.overlay, (h.out y hy).2]
      exact ⟨(h.out y hy).1, rfl⟩
    · dsimp only at hm
      rw [h1, h2] at hm
      rcases hm with hm | hm
      · rw [View.overlay] at hm
        cases hp : C.pending s y with
        | none => rw [hp] at hm; exact h.sub y m (.inl hm)
        | some m' => rw [hp] at hm; cases hm; exact h.sub y _ (.inr hp)
      · cases hm

theorem removeLoop_within (hX : ∀ x n, X x → v0 x = some n → ∀ y ∈ n.variant.children, X y) :
    ∀ fuel q s, (∀ x ∈ q, X x) → Within C v0 X s → Within C v0 X (removeLoop cfg fuel q s).2 := by
  intro fuel
  induction fuel with
  | zero =>
    intro q s _ h
    cases q <;> exact h
  | succ fuel ih =>
    intro q s hq h
    cases q with
    | nil => exact h
    | cons x q =>
      have hx := hq x List.mem_cons_self
      have hr : ∀ y ∈ q, X y := fun y hy => hq y (List.mem_cons_of_mem _ hy)
      unfold removeLoop
      change Within C v0 X (M.bind (dbGet cfg x) _ s).2
      unfold M.bind dbGet M.read
      dsimp only
      cases hg : cfg.db.getNode s x with
      | error e => exact h
      | ok o =>
        have hv := C.getNode_ok hg
        cases o with
        | none => exact ih _ _ hr h
        | some n =>
          have hch : ∀ y ∈ n.variant.children, X y := by
            obtain ⟨n0, h1, h2, -⟩ := h.sub x n (.inl hv.symm)
            rw [h2]
            exact hX x n0 hx h1
          dsimp only
          have hdel : ∀ l : List (Arr N), (∀ y ∈ l, X y) → Within C v0 X
              (M.bind (cfg.db.remove x) (fun _ => removeLoop cfg fuel (q ++ l)) s).2 := by
            intro l hl
            have hw := h.del hx
            unfold M.bind
            rcases hr' : cfg.db.remove x s with ⟨r, s'⟩
            rw [hr'] at hw
            cases r with
            | error e => exact hw
            | ok u =>
              refine ih _ _ (fun y hy => ?_) hw
              rcases List.mem_append.1 hy with hy | hy
              · exact hr y hy
              · exact hl y hy
          split
          · cases hvar : n.variant with
            | branch b => exact hdel [b.zero, b.one] (by rw [hvar] at hch; exact hch)
            | leaf l => exact hdel [l.data] (by rw [hvar] at hch; exact hch)
            | data d =>
              have := hdel [] (by simp)
              rw [List.append_nil] at this
              exact this
          · change Within C v0 X (M.bind (cfg.db.insert x _) _ s).2
            have hw := h.put hx hv.symm
            unfold M.bind
            rcases hr' : cfg.db.insert x ⟨n.references - 1, n.variant⟩ s with ⟨r, s'⟩
            rw [hr'] at hw
            cases r with
            | error e => exact hw
            | ok u => exact ih _ _ hr hw

/-- Any call of `remove` stays below its root. -/
theorem remove_within {s : σ} (hp : C.pending s = View.empty N) (r : Arr N) :
    Within C (C.view s) (Below (C.view s) [r]) (remove cfg r s).2 := by
  have h0 : Within C (C.view s) (Below (C.view s) [r]) s := by
    refine ⟨fun y _ => ⟨rfl, by rw [hp]; rfl⟩, fun y n hn => ⟨n, ?_, rfl, Nat.le_refl _⟩⟩
    rcases hn with hn | hn
    · exact hn
    · rw [hp] at hn; cases hn
  have h1 := removeLoop_within (fun x n hx hn y hy => Below.child hx hn hy) (removeFuel N) [r] s
    (by intro x hx; rw [List.mem_singleton.1 hx]; exact .root (by simp)) h0
  unfold remove
  simp only [M.bind_eq]
  unfold M.bind
  rcases hl : removeLoop cfg (removeFuel N) [r] s with ⟨res, s1⟩
  rw [hl] at h1
  cases res with
  | error e => exact h1
  | ok u => exact h1.flush

/-! ## The work of a remove -/

/-- The contract of a database that keeps lists of what it was asked. -/
def DbContract.touched {db : Database N σ} (C : DbContract db) : DbContract (touchDb db) where
  view s := C.view s.1
  pending s := C.pending s.1
  alive s := C.alive s.1
  getNode_ok h := C.getNode_ok h
  getNode_err h := C.getNode_err h
  insert_ok := by
    rintro ⟨s, a⟩ ⟨s', a'⟩ x n h
    have h1 := congrArg Prod.fst h
    have h2 := congrArg (fun p => p.2.1) h
    exact C.insert_ok (Prod.ext h1 h2)
  insert_err := by
    rintro ⟨s, a⟩ ⟨s', a'⟩ x n e h
    have h1 := congrArg Prod.fst h
    have h2 := congrArg (fun p => p.2.1) h
    exact C.insert_err (Prod.ext h1 h2)
  remove_ok := by
    rintro ⟨s, a⟩ ⟨s', a'⟩ x h
    have h1 := congrArg Prod.fst h
    have h2 := congrArg (fun p => p.2.1) h
    exact C.remove_ok (Prod.ext h1 h2)
  remove_err := by
    rintro ⟨s, a⟩ ⟨s', a'⟩ x e h
    have h1 := congrArg Prod.fst h
    have h2 := congrArg (fun p => p.2.1) h
    exact C.remove_err (Prod.ext h1 h2)
  batchWrite_ok := by
    rintro ⟨s, a⟩ ⟨s', a'⟩ h
    have h1 := congrArg Prod.fst h
    have h2 := congrArg (fun p => p.2.1) h
    exact C.batchWrite_ok (Prod.ext h1 h2)
  batchWrite_err := by
    rintro ⟨s, a⟩ ⟨s', a'⟩ e h
    have h1 := congrArg Prod.fst h
    have h2 := congrArg (fun p => p.2.1) h
    exact C.batchWrite_err (Prod.ext h1 h2)

/-- What was asked so far: deletions of different places that held a node and do so no more. -/
structure Work (C : DbContract cfg.db) (v0 : View N) (X : Arr N → Prop)
    (t : σ × List (Arr N) × List (Arr N)) : Prop where
  within : Within (cfg := cfg.touched) C.touched v0 X t
  nodup : t.2.2.Nodup
  gone : ∀ x ∈ t.2.2, C.view t.1 x = none
  held : ∀ x ∈ t.2.2, X x ∧ v0 x ≠ none
  wrote : ∀ x ∈ t.2.1, X x ∧ v0 x ≠ none

/-- What was asked in the end. -/
def Worked (v0 : View N) (X : Arr N → Prop) (n : Nat) (t : σ × List (Arr N) × List (Arr N)) : Prop :=
  t.2.2.Nodup ∧ (∀ x ∈ t.2.2, X x ∧ v0 x ≠ none) ∧ (∀ x ∈ t.2.1, X x ∧ v0 x ≠ none) ∧
    t.2.1.length ≤ n + t.2.2.length

theorem removeLoop_work (hX : ∀ x n, X x → v0 x = some n → ∀ y ∈ n.variant.children, X y) :
    ∀ fuel q (t : σ × List (Arr N) × List (Arr N)) m, (∀ x ∈ q, X x) → Work (cfg := cfg) C v0 X t →
      t.2.1.length + q.length ≤ m + t.2.2.length →
      Worked v0 X m (removeLoop cfg.touched fuel q t).2 := by
  intro fuel
  have done : ∀ (t : σ × List (Arr N) × List (Arr N)) m l, Work (cfg := cfg) C v0 X t →
      t.2.1.length + l ≤ m + t.2.2.length → Worked v0 X m t :=
    fun t m l h hm => ⟨h.nodup, h.held, h.wrote, by omega⟩
  induction fuel with
  | zero =>
    intro q t m _ h hm
    cases q <;> exact done t m _ h hm
  | succ fuel ih =>
    intro q t m hq h hm
    cases q with
    | nil => exact done t m _ h hm
    | cons x q =>
      have hx := hq x List.mem_cons_self
      have hr : ∀ y ∈ q, X y := fun y hy => hq y (List.mem_cons_of_mem _ hy)
      unfold removeLoop
      change Worked v0 X m (M.bind (dbGet cfg.touched x) _ t).2
      unfold M.bind dbGet M.read
      dsimp only
      simp only [List.length_cons] at hm
      cases hg : cfg.touched.db.getNode t x with
      | error e => exact done t m _ h hm
      | ok o =>
        have hv := C.touched.getNode_ok hg
        cases o with
        | none => exact ih _ _ _ hr h (by omega)
        | some n =>
          have hv' : C.view t.1 x = some n := hv.symm
          obtain ⟨n0, e1, e2, -⟩ := h.within.sub x n (.inl hv.symm)
          have hch : ∀ y ∈ n.variant.children, X y := by
            rw [e2]
            exact hX x n0 hx e1
          have hx0 : X x ∧ v0 x ≠ none := ⟨hx, by rw [e1]; simp⟩
          have hnew : x ∉ t.2.2 := fun hm => by rw [h.gone x hm] at hv'; cases hv'
          dsimp only
          have hdel : ∀ l : List (Arr N), (∀ y ∈ l, X y) → l.length ≤ 2 → Worked v0 X m
              (M.bind ((touchDb cfg.db).remove x) (fun _ => removeLoop cfg.touched fuel (q ++ l)) t).2 := by
            intro l hl hl2
            have hw := h.within.del hx
            have hnd : (x :: t.2.2).Nodup := List.nodup_cons.2 ⟨hnew, h.nodup⟩
            have hheld : ∀ y ∈ x :: t.2.2, X y ∧ v0 y ≠ none := by
              intro y hy
              rcases List.mem_cons.1 hy with rfl | hy
              · exact hx0
              · exact h.held y hy
            unfold M.bind
            change Within (cfg := cfg.touched) C.touched v0 X ((touchDb cfg.db).remove x t).2 at hw
            simp only [touchDb] at hw ⊢
            rcases hr' : cfg.db.remove x t.1 with ⟨r, s'⟩
            rw [hr'] at hw
            cases r with
            | error e => exact ⟨hnd, hheld, h.wrote, by simp only [List.length_cons]; omega⟩
            | ok u =>
              refine ih _ _ _ (fun y hy => ?_) ⟨hw, hnd, ?_, hheld, h.wrote⟩ ?_
              · rcases List.mem_append.1 hy with hy | hy
                · exact hr y hy
                · exact hl y hy
              · intro y hy
                obtain ⟨-, h1, -⟩ := C.remove_ok hr'
                dsimp only
                rw [h1, View.del]
                split
                · rfl
                · rename_i hne
                  rcases List.mem_cons.1 hy with rfl | hy
                  · exact absurd rfl hne
                  · exact h.gone y hy
              · simp only [List.length_append, List.length_cons]; omega
          split
          · cases hvar : n.variant with
            | branch b => exact hdel [b.zero, b.one] (by rw [hvar] at hch; exact hch) (by simp)
            | leaf l => exact hdel [l.data] (by rw [hvar] at hch; exact hch) (by simp)
            | data d =>
              have := hdel [] (by simp) (by simp)
              rw [List.append_nil] at this
              exact this
          · change Worked v0 X m (M.bind ((touchDb cfg.db).insert x _) _ t).2
            have hw := h.within.put hx hv.symm
            have hwrote : ∀ y ∈ x :: t.2.1, X y ∧ v0 y ≠ none := by
              intro y hy
              rcases List.mem_cons.1 hy with rfl | hy
              · exact hx0
              · exact h.wrote y hy
            unfold M.bind
            change Within (cfg := cfg.touched) C.touched v0 X
              ((touchDb cfg.db).insert x ⟨n.references - 1, n.variant⟩ t).2 at hw
            simp only [touchDb] at hw ⊢
            rcases hr' : cfg.db.insert x ⟨n.references - 1, n.variant⟩ t.1 with ⟨r, s'⟩
            rw [hr'] at hw
            cases r with
            | error e => exact ⟨h.nodup, h.held, hwrote, by simp only [List.length_cons]; omega⟩
            | ok u =>
              refine ih _ _ _ hr ⟨hw, h.nodup, ?_, h.held, hwrote⟩ ?_
              · intro y hy
                have hne : y ≠ x := fun e => hnew (e ▸ hy)
                dsimp only
                obtain ⟨-, ⟨-, h1, -⟩ | ⟨h1, -⟩⟩ := C.insert_ok hr'
                · rw [h1, View.put, if_neg hne]; exact h.gone y hy
                · rw [h1]; exact h.gone y hy
              · simp only [List.length_cons]; omega

theorem remove_work {s : σ} (hp : C.pending s = View.empty N) (r : Arr N) :
    Worked (C.view s) (Below (C.view s) [r]) 1 (remove cfg.touched r (s, [], [])).2 := by
  have h0 : Within (cfg := cfg.touched) C.touched (C.view s) (Below (C.view s) [r]) (s, [], []) := by
    refine ⟨fun y _ => ⟨rfl, ?_⟩, fun y n hn => ⟨n, ?_, rfl, Nat.le_refl _⟩⟩
    · show C.pending s y = none
      rw [hp]; rfl
    · rcases hn with hn | hn
      · exact hn
      · change C.pending s y = some n at hn
        rw [hp] at hn; cases hn
  have h1 := removeLoop_work (C := C) (fun x n hx hn y hy => Below.child hx hn hy) (removeFuel N) [r]
    (s, [], []) 1 (by intro x hx; rw [List.mem_singleton.1 hx]; exact .root (by simp))
    ⟨h0, List.nodup_nil, by simp, by simp, by simp⟩ (by simp)
  unfold remove
  simp only [M.bind_eq]
  unfold M.bind
  rcases hl : removeLoop cfg.touched (removeFuel N) [r] (s, [], []) with ⟨res, s1⟩
  rw [hl] at h1
  cases res with
  | error e => exact h1
  | ok u =>
    simp only [touchDb]
    exact h1

theorem removeLoop_succ (fuel : Nat) (x : Arr N) (q : List (Arr N)) (s : σ) :
    removeLoop cfg (fuel + 1) (x :: q) s = match cfg.db.getNode s x with
      | .error e => (.error e, s)
      | .ok none => removeLoop cfg fuel q s
      | .ok (some n) =>
        if n.references - 1 = 0 then
          match cfg.db.remove x s with
          | (.ok _, s') => removeLoop cfg fuel (q ++ n.variant.children) s'
          | (.error e, s') => (.error e, s')
        else match cfg.db.insert x ⟨n.references - 1, n.variant⟩ s with
          | (.ok _, s') => removeLoop cfg fuel q s'
          | (.error e, s') => (.error e, s') := by
  rw [removeLoop]
  simp only [M.bind_eq]
  unfold M.bind dbGet M.read
  cases hg : cfg.db.getNode s x with
  | error e => simp only [hg]
  | ok o =>
    cases o with
    | none => simp only [hg]
    | some n =>
      simp only [hg]
      by_cases hz : n.references - 1 = 0
      · rw [if_pos hz]
        refine (congrFun (if_pos hz) s).trans ?_
        cases hv : n.variant with
        | branch b =>
          dsimp only [Variant.children]
          rcases cfg.db.remove x s with ⟨_ | _, s'⟩ <;> rfl
        | leaf l =>
          dsimp only [Variant.children]
          rcases cfg.db.remove x s with ⟨_ | _, s'⟩ <;> rfl
        | data d =>
          simp only [Variant.children, List.append_nil]
          rcases cfg.db.remove x s with ⟨_ | _, s'⟩ <;> rfl
      · rw [if_neg hz]
        refine (congrFun (if_neg hz) s).trans ?_
        rcases cfg.db.insert x ⟨n.references - 1, n.variant⟩ s with ⟨_ | _, s'⟩ <;> rfl

/-- Keeping lists makes no difference. -/
theorem removeLoop_touched : ∀ fuel q (t : σ × List (Arr N) × List (Arr N)),
    (removeLoop cfg.touched fuel q t).1 = (removeLoop cfg fuel q t.1).1 ∧
    (removeLoop cfg.touched fuel q t).2.1 = (removeLoop cfg fuel q t.1).2 := by
  intro fuel
  induction fuel with
  | zero => intro q t; cases q <;> exact ⟨rfl, rfl⟩
  | succ fuel ih =>
    intro q t
    cases q with
    | nil => exact ⟨rfl, rfl⟩
    | cons x q =>
      rw [removeLoop_succ, removeLoop_succ]
      have e : cfg.touched.db.getNode t x = cfg.db.getNode t.1 x := rfl
      rw [e]
      cases cfg.db.getNode t.1 x with
      | error e => exact ⟨rfl, rfl⟩
      | ok o =>
        cases o with
        | none => exact ih q t
        | some n =>
          dsimp only
          split
          · have e : cfg.touched.db.remove x t =
              ((cfg.db.remove x t.1).1, (cfg.db.remove x t.1).2, t.2.1, x :: t.2.2) := rfl
            rw [e]
            rcases cfg.db.remove x t.1 with ⟨r, s'⟩
            cases r with
            | error e => exact ⟨rfl, rfl⟩
            | ok u => exact ih _ _
          · have e : cfg.touched.db.insert x ⟨n.references - 1, n.variant⟩ t =
              ((cfg.db.insert x ⟨n.references - 1, n.variant⟩ t.1).1,
                (cfg.db.insert x ⟨n.references - 1, n.variant⟩ t.1).2, x :: t.2.1, t.2.2) := rfl
            rw [e]
            rcases cfg.db.insert x ⟨n.references - 1, n.variant⟩ t.1 with ⟨r, s'⟩
            cases r with
            | error e => exact ⟨rfl, rfl⟩
            | ok u => exact ih _ _

theorem remove_touched (r : Arr N) (s : σ) :
    (remove cfg.touched r (s, [], [])).1 = (remove cfg r s).1 ∧
    (remove cfg.touched r (s, [], [])).2.1 = (remove cfg r s).2 := by
  have h := removeLoop_touched (cfg := cfg) (removeFuel N) [r] (s, [], [])
  unfold remove
  simp only [M.bind_eq]
  unfold M.bind
  rcases h1 : removeLoop cfg.touched (removeFuel N) [r] (s, [], []) with ⟨res, t⟩
  rcases h2 : removeLoop cfg (removeFuel N) [r] s with ⟨res', t'⟩
  rw [h1] at h
  dsimp only at h
  rw [h2] at h
  obtain ⟨rfl, rfl⟩ := h
  cases res with
  | error e => exact ⟨rfl, rfl⟩
  | ok u => exact ⟨rfl, rfl⟩

end MerkleBit
