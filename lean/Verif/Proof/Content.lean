import Verif.Proof.Traverse
import Verif.Proof.Logged
/-! # Contents of the database during inserts -/

namespace MerkleBit
variable {N : Nat} {σ V : Type}

/-- A node with the given contents belongs at `x`: it is a data node or the root of a tree, with
hash inputs in `U`. -/
def Belongs (H : Hasher N) (U : HIn N → Prop) (x : Arr N) (c : Variant N) : Prop :=
  (∃ k v, x = Trie.dataLoc H k v ∧ c = .data ⟨v⟩ ∧ U (.data k v)) ∨
  (∃ t : Trie N, t.Norm ∧ x = t.loc H ∧ c = t.variant H ∧ ∀ i ∈ t.inputs H, U i)

/-- Every node of a view is in its place and has a positive reference count. -/
def Honest (H : Hasher N) (U : HIn N → Prop) (v : View N) : Prop :=
  ∀ x n, v x = some n → 0 < n.references ∧ Belongs H U x n.variant

/-- `v'` holds everything `v` holds, up to reference counts. -/
def View.Ext (v v' : View N) : Prop := ∀ x c, View.Has v x c → View.Has v' x c

theorem View.Ext.refl (v : View N) : v.Ext v := fun _ _ h => h
theorem View.Ext.trans {a b c : View N} (h1 : a.Ext b) (h2 : b.Ext c) : a.Ext c :=
  fun x n h => h2 x n (h1 x n h)

theorem Stored.mono {H : Hasher N} {v v' : View N} (h : v.Ext v') : ∀ {t : Trie N},
    Stored H v t → Stored H v' t
  | .leaf _ _, hs => ⟨h _ _ hs.1, h _ _ hs.2⟩
  | .node _ _, hs => ⟨h _ _ hs.1, hs.2.1.mono h, hs.2.2.mono h⟩

theorem Stored.root {H : Hasher N} {v : View N} {t : Trie N} (h : Stored H v t) :
    View.Has v (t.loc H) (t.variant H) := by
  cases t with
  | leaf k val => exact h.1
  | node l r => exact h.1

theorem Stored.sub {H : Hasher N} {v : View N} {u : Trie N} : ∀ {t : Trie N}, Stored H v t →
    u.Sub t → Stored H v u
  | .leaf _ _, hs, h => by
    unfold Trie.Sub at h
    exact h ▸ hs
  | .node l r, hs, h => by
    rcases h with rfl | h | h
    · exact hs
    · exact hs.2.1.sub h
    · exact hs.2.2.sub h

theorem Belongs.unique {H : Hasher N} {U : HIn N → Prop} (hU : CollisionFree H U) {x : Arr N}
    {c c' : Variant N} (h : Belongs H U x c) (h' : Belongs H U x c') : c = c' := by
  rcases h with ⟨k, v, rfl, rfl, hu⟩ | ⟨t, -, rfl, rfl, hu⟩ <;>
    rcases h' with ⟨k', v', hx, rfl, hu'⟩ | ⟨t', -, hx, rfl, hu'⟩
  · have := hU _ _ hu hu' hx
    cases this
    rfl
  · rw [Trie.loc_eq] at hx
    have := hU _ _ hu (hu' _ (Trie.rootIn_mem H t')) hx
    cases t' <;> simp [Trie.rootIn] at this
  · rw [Trie.loc_eq] at hx
    have := hU _ _ (hu _ (Trie.rootIn_mem H t)) hu' hx
    cases t <;> simp [Trie.rootIn] at this
  · rw [Trie.eq_of_loc hU hu hu' hx]

theorem Honest.empty (H : Hasher N) (U : HIn N → Prop) : Honest H U (View.empty N) := by
  intro x n h; simp [View.empty] at h

theorem Honest.put {H : Hasher N} {U : HIn N → Prop} {v : View N} (h : Honest H U v) {x : Arr N}
    {n : Node N} (hn : 0 < n.references) (hb : Belongs H U x n.variant) : Honest H U (v.put x n) := by
  intro y m hm
  unfold View.put at hm
  split at hm
  · next hy =>
    cases hm
    exact ⟨hn, hy ▸ hb⟩
  · exact h y m hm

theorem Honest.del {H : Hasher N} {U : HIn N → Prop} {v : View N} (h : Honest H U v) {x : Arr N} :
    Honest H U (v.del x) := by
  intro y m hm
  unfold View.del at hm
  split at hm
  · cases hm
  · exact h y m hm

theorem Honest.overlay {H : Hasher N} {U : HIn N → Prop} {v p : View N} (h : Honest H U v)
    (hp : Honest H U p) : Honest H U (v.overlay p) := by
  intro y m hm
  unfold View.overlay at hm
  cases hpy : p y with
  | some n => rw [hpy] at hm; simp at hm; exact hm ▸ hp y n hpy
  | none => rw [hpy] at hm; simp at hm; exact h y m hm

theorem Ext.put {H : Hasher N} {U : HIn N → Prop} (hU : CollisionFree H U) {v : View N}
    (h : Honest H U v) {x : Arr N} {n : Node N} (hb : Belongs H U x n.variant) :
    v.Ext (v.put x n) := by
  rintro y c ⟨refs, hy⟩
  unfold View.Has View.put
  by_cases hyx : y = x
  · subst hyx
    rw [if_pos rfl]
    have := (h y _ hy).2.unique hU hb
    simp only at this
    subst this
    exact ⟨n.references, rfl⟩
  · rw [if_neg hyx]
    exact ⟨refs, hy⟩

theorem Ext.overlay {H : Hasher N} {U : HIn N → Prop} (hU : CollisionFree H U) {v p : View N}
    (h : Honest H U v) (hp : Honest H U p) : v.Ext (v.overlay p) := by
  rintro y c ⟨refs, hy⟩
  unfold View.Has View.overlay
  cases hpy : p y with
  | none => exact ⟨refs, by simpa using hy⟩
  | some n =>
    have := (h y _ hy).2.unique hU (hp y n hpy).2
    simp only at this
    subst this
    exact ⟨n.references, by simp⟩

/-- Whatever a stored node points at is stored. -/
def Closed (v : View N) : Prop :=
  ∀ x n, v x = some n → ∀ y ∈ n.variant.children, v y ≠ none

theorem Closed.empty : Closed (View.empty N) := by
  intro x n h; simp [View.empty] at h

theorem Closed.put {v : View N} (h : Closed v) {x : Arr N} {n : Node N}
    (hn : ∀ y ∈ n.variant.children, v y ≠ none) : Closed (v.put x n) := by
  have hmono : ∀ y, v y ≠ none → v.put x n y ≠ none := by
    intro y hy
    unfold View.put
    split
    · simp
    · exact hy
  intro y m hm z hz
  unfold View.put at hm
  split at hm
  · cases hm; exact hmono z (hn z hz)
  · exact hmono z (h y m hm z hz)

/-- In a closed view a tree is stored as soon as its root is. -/
theorem stored_of_closed {H : Hasher N} {U : HIn N → Prop} (hU : CollisionFree H U) {v : View N}
    (hh : Honest H U v) (hc : Closed v) : ∀ {t : Trie N}, t.Norm → (∀ i ∈ t.inputs H, U i) →
      v (t.loc H) ≠ none → Stored H v t := by
  have key : ∀ {t : Trie N}, t.Norm → (∀ i ∈ t.inputs H, U i) → v (t.loc H) ≠ none →
      View.Has v (t.loc H) (t.variant H) := by
    intro t hnorm ht hv
    obtain ⟨n, hn⟩ := Option.ne_none_iff_exists'.1 hv
    have := (hh _ _ hn).2.unique hU (.inr ⟨t, hnorm, rfl, rfl, ht⟩)
    exact ⟨n.references, by rw [hn, ← this]⟩
  intro t
  induction t with
  | leaf k val =>
    intro hnorm ht hv
    have h1 := key hnorm ht hv
    refine ⟨h1, ?_⟩
    obtain ⟨refs, hn⟩ := h1
    have h2 := hc _ _ hn (Trie.dataLoc H k val) (by simp [Trie.variant, Variant.children])
    obtain ⟨m, hm⟩ := Option.ne_none_iff_exists'.1 h2
    have := (hh _ _ hm).2.unique hU (.inl ⟨k, val, rfl, rfl, ht _ (by simp [Trie.inputs])⟩)
    exact ⟨m.references, by rw [hm, ← this]⟩
  | node l r ihl ihr =>
    intro hnorm ht hv
    have h1 := key hnorm ht hv
    obtain ⟨refs, hn⟩ := h1
    have h2 := hc _ _ hn
    simp only [Trie.variant, Variant.children, List.mem_cons, List.not_mem_nil, or_false,
      forall_eq_or_imp, forall_eq] at h2
    exact ⟨key hnorm ht hv, ihl hnorm.1 (fun i hi => ht i (by simp [Trie.inputs, hi])) h2.1,
      ihr hnorm.2.1 (fun i hi => ht i (by simp [Trie.inputs, hi])) h2.2⟩

theorem Stored.children {H : Hasher N} {v : View N} : ∀ {t : Trie N}, Stored H v t →
    ∀ y ∈ (t.variant H).children, v y ≠ none
  | .leaf k val, hs, y, hy => by
    simp only [Trie.variant, Variant.children, List.mem_singleton] at hy
    subst hy
    obtain ⟨refs, h⟩ := hs.2
    rw [h]; simp
  | .node l r, hs, y, hy => by
    simp only [Trie.variant, Variant.children, List.mem_cons, List.not_mem_nil, or_false] at hy
    rcases hy with rfl | rfl
    · obtain ⟨refs, h⟩ := hs.2.1.root
      rw [h]; simp
    · obtain ⟨refs, h⟩ := hs.2.2.root
      rw [h]; simp

open Trie in
/-- A tree stored in an honest view is in order and has its inputs in the universe. -/
theorem Stored.honest {H : Hasher N} {U : HIn N → Prop} (hU : CollisionFree H U) {v : View N}
    (hv : Honest H U v) : ∀ {t : Trie N}, Stored H v t → t.Norm ∧ ∀ i ∈ t.inputs H, U i
  | .leaf k val, ⟨⟨r1, h1⟩, ⟨r2, h2⟩⟩ => by
    rcases (hv _ _ h1).2 with ⟨k', v', _, h4, _⟩ | ⟨t, hn, h3, h4, h5⟩
    · simp [variant] at h4
    · cases t with
      | node l r => simp [variant] at h4
      | leaf k' v' =>
        simp only [variant, Variant.leaf.injEq, Leaf.mk.injEq] at h4
        obtain ⟨rfl, h4⟩ := h4
        rcases (hv _ _ h2).2 with ⟨k2, v2, h6, h7, h8⟩ | ⟨t, _, h6, h7, h8⟩
        · simp only [Variant.data.injEq, Data.mk.injEq] at h7
          subst h7
          have hd := hU _ _ h8 (h5 (.data k v') (by simp [Trie.inputs]))
            (h6.symm.trans h4)
          cases hd
          exact ⟨trivial, h5⟩
        · cases t <;> simp [variant] at h7
  | .node l r, ⟨⟨r1, h1⟩, hl, hr⟩ => by
    have il := (Stored.honest hU hv hl).2
    have ir := (Stored.honest hU hv hr).2
    rcases (hv _ _ h1).2 with ⟨k', v', _, h4, _⟩ | ⟨t, hn, h3, h4, h5⟩
    · simp [variant] at h4
    · cases t with
      | leaf k' v' => simp [variant] at h4
      | node l' r' =>
        simp only [variant, Variant.branch.injEq, Branch.mk.injEq] at h4
        have e1 : l = l' := eq_of_loc hU il (fun i hi => h5 i (by simp [Trie.inputs, hi])) h4.2.1
        have e2 : r = r' := eq_of_loc hU ir (fun i hi => h5 i (by simp [Trie.inputs, hi])) h4.2.2.1
        subst e1; subst e2
        exact ⟨hn, h5⟩

/-- The invariant of every insert: everything is in its place, what was there stays there, and
nothing points nowhere. -/
structure Inv {cfg : Config N σ V} (C : GContract cfg.db) (U : HIn N → Prop) (v0 : View N)
    (s : σ) : Prop where
  view : Honest cfg.hasher U (C.view s)
  pending : Honest cfg.hasher U (C.pending s)
  ext : v0.Ext (C.view s)
  closed : Closed (C.view s)
  closedS : Closed (C.settled s)

section
variable {cfg : Config N σ V} {C : GContract cfg.db} {U : HIn N → Prop} {v0 : View N}

theorem Inv.settled {s : σ} (h : Inv C U v0 s) : Honest cfg.hasher U (C.settled s) :=
  h.view.overlay h.pending

theorem Inv.view_settled (hU : CollisionFree cfg.hasher U) {s : σ} (h : Inv C U v0 s) :
    (C.view s).Ext (C.settled s) := Ext.overlay hU h.view h.pending

theorem Inv.wrote (hU : CollisionFree cfg.hasher U) {s s' : σ} (h : Inv C U v0 s) {x : Arr N}
    {n : Node N} (hn : 0 < n.references) (hb : Belongs cfg.hasher U x n.variant)
    (hch : ∀ y ∈ n.variant.children, C.settled s y ≠ none)
    (hw : Wrote C s s' x n) : Inv C U v0 s' := by
  have hS : Closed (C.settled s') := by
    rw [settled_of_wrote hw]; exact h.closedS.put hch
  rcases hw with ⟨h0, h1, h2⟩ | ⟨h1, h2⟩
  · refine ⟨?_, ?_, ?_, ?_, hS⟩
    · rw [h1]; exact h.view.put hn hb
    · rw [h2]; exact Honest.empty _ _
    · rw [h1]; exact h.ext.trans (Ext.put hU h.view hb)
    · rw [h1]
      apply h.closed.put
      have : C.settled s = C.view s := by
        unfold GContract.settled
        rw [h0]
        funext x
        simp [View.overlay, View.empty]
      rwa [this] at hch
  · refine ⟨?_, ?_, ?_, ?_, hS⟩
    · rw [h1]; exact h.view
    · rw [h2]; exact h.pending.put hn hb
    · rw [h1]; exact h.ext
    · rw [h1]; exact h.closed

theorem Inv.wrote_view (hU : CollisionFree cfg.hasher U) {s s' : σ} (h : Inv C U v0 s) {x : Arr N}
    {n : Node N} (hb : Belongs cfg.hasher U x n.variant)
    (hw : Wrote C s s' x n) : (C.view s).Ext (C.view s') := by
  rcases hw with ⟨_, h1, h2⟩ | ⟨h1, h2⟩
  · rw [h1]; exact Ext.put hU h.view hb
  · rw [h1]; exact View.Ext.refl _

theorem Inv.wrote_settled (hU : CollisionFree cfg.hasher U) {s s' : σ} (h : Inv C U v0 s)
    {x : Arr N} {n : Node N} (hb : Belongs cfg.hasher U x n.variant)
    (hw : Wrote C s s' x n) : (C.settled s).Ext (C.settled s') := by
  rw [settled_of_wrote hw]
  exact Ext.put hU h.settled hb

theorem has_wrote {s s' : σ} {x : Arr N} {n : Node N} (hw : Wrote C s s' x n) :
    View.Has (C.settled s') x n.variant := by
  rw [settled_of_wrote hw]
  exact ⟨n.references, by simp [View.put]⟩

theorem settled_flushed {s s' : σ}
    (h1 : C.view s' = C.settled s) (h2 : C.pending s' = View.empty N) :
    C.settled s' = C.settled s := by
  unfold GContract.settled at *
  rw [h2, h1]
  funext x
  simp [View.overlay, View.empty]

theorem Inv.flushed (hU : CollisionFree cfg.hasher U) {s s' : σ} (h : Inv C U v0 s)
    (h1 : C.view s' = C.settled s) (h2 : C.pending s' = View.empty N) : Inv C U v0 s' := by
  refine ⟨?_, ?_, ?_, ?_, ?_⟩
  · rw [h1]; exact h.settled
  · rw [h2]; exact Honest.empty _ _
  · rw [h1]; exact h.ext.trans (h.view_settled hU)
  · rw [h1]; exact h.closedS
  · rw [settled_flushed h1 h2]; exact h.closedS

theorem settled_of_pending_empty {s : σ} (h : C.pending s = View.empty N) :
    C.settled s = C.view s := by
  unfold GContract.settled
  rw [h]
  funext x
  simp [View.overlay, View.empty]

theorem Inv.same {s s' : σ} (h : Inv C U v0 s) (h1 : C.view s' = C.view s)
    (h2 : C.pending s' = C.pending s ∨ C.pending s' = View.empty N) : Inv C U v0 s' := by
  refine ⟨h1 ▸ h.view, ?_, h1 ▸ h.ext, h1 ▸ h.closed, ?_⟩
  · rcases h2 with h2 | h2
    · rw [h2]; exact h.pending
    · rw [h2]; exact Honest.empty _ _
  · rcases h2 with h2 | h2
    · unfold GContract.settled
      rw [h1, h2]; exact h.closedS
    · rw [settled_of_pending_empty h2, h1]; exact h.closed

/-- The block invariant: subtrees `K` will be in the database once the queue is confirmed. -/
def Blocks (C : GContract cfg.db) (U : HIn N → Prop) (v0 : View N) (K : List (Trie N)) (s : σ) :
    Prop := Inv C U v0 s ∧ ∀ t ∈ K, Stored cfg.hasher (C.settled s) t

theorem belongs_of_inputs {H : Hasher N} {t : Trie N} (hn : t.Norm) (h : ∀ i ∈ t.inputs H, U i) :
    Belongs H U (t.loc H) (t.variant H) := .inr ⟨t, hn, rfl, rfl, h⟩

theorem belongs_data {H : Hasher N} {k : Arr N} {v : List UInt8} (h : U (.data k v)) :
    Belongs H U (Trie.dataLoc H k v) (.data ⟨v⟩) := .inl ⟨k, v, rfl, rfl, h⟩

theorem blocks_mergeStep (hU : CollisionFree cfg.hasher U) (hg : Guards U cfg.db) {T : Trie N}
    {Ex : Err → Prop} (hT : T.Norm) :
    MergeStep C Ex (Blocks C U v0) T (Inv C U v0) := by
  intro pre post a b _ hsub
  apply triple_insert_guard hg
  · rintro s s' ⟨hi, hK⟩ hin hw
    have hb := belongs_of_inputs (H := cfg.hasher) (t := .node a b) (U := U) (hsub.norm hT) (by
      intro i hii
      simp only [Trie.inputs, List.mem_cons, List.mem_append] at hii
      rcases hii with rfl | hii | hii
      · exact hin _ rfl
      · exact ((hK a (by simp)).honest hU hi.settled).2 i hii
      · exact ((hK b (by simp)).honest hU hi.settled).2 i hii)
    have hch : ∀ y ∈ ((Trie.node a b).variant cfg.hasher).children, C.settled s y ≠ none := by
      intro y hy
      simp only [Trie.variant, Variant.children, List.mem_cons, List.not_mem_nil, or_false] at hy
      rcases hy with rfl | rfl
      · obtain ⟨refs, h⟩ := (hK a (by simp)).root
        rw [h]; simp
      · obtain ⟨refs, h⟩ := (hK b (by simp)).root
        rw [h]; simp
    refine ⟨hi.wrote hU (by simp) hb hch hw, ?_⟩
    have hext := hi.wrote_settled hU hb hw
    intro t ht
    simp only [List.mem_append, List.mem_cons] at ht
    have hold : ∀ t ∈ pre ++ a :: b :: post, Stored cfg.hasher (C.settled s') t :=
      fun t ht => (hK t ht).mono hext
    rcases ht with ht | rfl | ht
    · exact hold t (by simp [ht])
    · exact ⟨has_wrote hw, hold a (by simp), hold b (by simp)⟩
    · exact hold t (by simp [ht])
  · rintro s s' ⟨hi, hK⟩ h1 h2
    exact hi.same h1 (.inl h2)

theorem blocks_flushStep (hU : CollisionFree cfg.hasher U) {Ex : Err → Prop} :
    FlushStep C Ex (Blocks C U v0) (Inv C U v0) := by
  intro ts
  apply triple_batchWrite
  · rintro s s' ⟨hi, hK⟩ h1 h2
    refine ⟨⟨hi.flushed hU h1 h2, ?_⟩, h2⟩
    rw [settled_flushed h1 h2]
    exact hK
  · rintro s s' ⟨hi, hK⟩ h1 h2
    exact hi.same h1 h2

theorem stored_settled (hU : CollisionFree cfg.hasher U) {s : σ} (h : Inv C U v0 s) {t : Trie N}
    (ht : Stored cfg.hasher (C.view s) t) : Stored cfg.hasher (C.settled s) t :=
  ht.mono (h.view_settled hU)

/-- The traversal keeps the block invariant.  A tree that is not stored makes it fail. -/
theorem blocks_travStep (hU : CollisionFree cfg.hasher U) {T : Trie N} {R : List (Trie N)}
    {keyMap : AMap (Arr N) (Arr N)} {Ex : Err → Prop} (L : List (Trie N)) (hn : T.Norm)
    (hT : ∀ i ∈ T.inputs cfg.hasher, U i) :
    TravStep cfg C Ex T R keyMap
      (fun K _ s => (Stored cfg.hasher (C.view s) T ∨ ∀ msg, Ex (.exception msg)) ∧
        Blocks C U v0 (L ++ K) s)
      (fun t _ s => Stored cfg.hasher (C.view s) t) (Inv C U v0) := by
  have hb : ∀ t : Trie N, t.Sub T → Belongs cfg.hasher U (t.loc cfg.hasher) (t.variant cfg.hasher) :=
    fun t hs => belongs_of_inputs (hs.norm hn) (fun i hi => hT i (hs.inputs i hi))
  constructor
  · rintro K K' op op' s hK _ ⟨h1, h2, h3⟩
    exact ⟨h1, h2, fun t ht => h3 t (((hK.append_left L).mem_iff).2 ht)⟩
  · rintro K op t s ⟨h1, h2, h3⟩ hsub
    cases hv : C.view s (t.loc cfg.hasher) with
    | none =>
      right
      refine ⟨rfl, ?_⟩
      rcases h1 with h1 | h1
      · obtain ⟨refs, h⟩ := (h1.sub hsub).root
        rw [hv] at h; cases h
      · exact h1
    | some n =>
      left
      refine ⟨n, rfl, (h2.view _ _ hv).2.unique hU (hb t hsub), ?_⟩
      exact stored_of_closed hU h2.view h2.closed (hsub.norm hn) (fun i hi => hT i (hsub.inputs i hi))
        (by rw [hv]; simp)
  · rintro K op l r n s _ _ _ h; exact h
  · rintro K op k v loc n s _ _ _ _ h; exact h
  · intro K op t n cells hsub _ _ hv
    apply triple_insert
    · rintro s s' ⟨⟨h1, h2, h3⟩, hf, hfs⟩ hw
      have hext := h2.wrote_settled hU (hb t hsub) hw
      have hev := h2.wrote_view hU (hb t hsub) hw
      refine ⟨⟨h1.imp (fun h => h.mono hev) id, h2.wrote hU (Nat.succ_pos _) (hb t hsub)
        (stored_settled hU h2 hf).children hw, ?_⟩, fun c hc => (hfs c hc).mono hev⟩
      intro u hu
      simp only [List.mem_append, List.mem_cons] at hu
      rcases hu with hu | rfl | hu
      · exact (h3 u (by simp [hu])).mono hext
      · exact (stored_settled hU h2 hf).mono hext
      · exact (h3 u (by simp [hu])).mono hext
    · rintro s s' ⟨⟨h1, h2, h3⟩, -, -⟩ e1 e2
      exact h2.same e1 (.inl e2)
  · intro K op k v n cells hsub _ _ hv
    apply triple_insert
    · rintro s s' ⟨⟨h1, h2, h3⟩, hf, hfs⟩ hw
      have hext := h2.wrote_settled hU (hb _ hsub) hw
      have hev := h2.wrote_view hU (hb _ hsub) hw
      exact ⟨⟨h1.imp (fun h => h.mono hev) id, h2.wrote hU (Nat.succ_pos _) (hb _ hsub)
        (stored_settled hU h2 hf).children hw, fun u hu => (h3 u hu).mono hext⟩,
        fun c hc => (hfs c hc).mono hev⟩
    · rintro s s' ⟨⟨h1, h2, h3⟩, -, -⟩ e1 e2
      exact h2.same e1 (.inl e2)
  · rintro K op s ⟨h1, h2, h3⟩
    exact h2

end
end MerkleBit
