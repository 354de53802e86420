import Verif.Proof.CountsEvents
import Verif.Spec.Reached
/-!
# What `get` returns in a damaged database
-/

namespace MerkleBit
variable {N : Nat} {σ V : Type}
open Trie

section
variable {pp : PartitionPoint N} {c : Item N → Nat}

theorem zeros_nil (b : Arr N) (s : Nat) : zeros pp b s [] = [] := by simp [zeros, followers]

theorem ones_nil (b : Arr N) (s : Nat) : ones pp b s [] = [] := by simp [ones, followers]

theorem reached_nil : ∀ t : Trie N, reached pp c t [] = []
  | .leaf _ _ => by simp [reached]
  | .node l r => by simp [reached, zeros_nil, ones_nil, reached_nil l, reached_nil r]

theorem reached_gone {t : Trie N} (h : c (.tree t) = 0) (D : List (Arr N)) : reached pp c t D = [] := by
  cases t <;> simp [reached, h]

theorem reached_followers {l r : Trie N} {D : List (Arr N)}
    (h : followers l.key (firstDiff l.key r.key) D = []) : reached pp c (.node l r) D = [] := by
  simp [reached, zeros, ones, h, reached_nil]

theorem reached_sub : ∀ (t : Trie N) (D : List (Arr N)), ∀ e ∈ reached pp c t D, e ∈ t.entries
  | .leaf k v, D, e, he => by
    unfold reached at he
    split at he
    · cases he
    · simpa [Trie.entries] using he
  | .node l r, D, e, he => by
    unfold reached at he
    split at he
    · cases he
    · rw [List.mem_append] at he
      simp only [Trie.entries, List.mem_append]
      exact he.imp (reached_sub l _ e) (reached_sub r _ e)

/-- Which leaves are reached. -/
theorem reached_iff {k : Arr N} {b : List UInt8} : ∀ {T : Trie N} {D : List (Arr N)}, T.WF →
    (k, b) ∈ T.entries →
    ((k, b) ∈ reached pp c T D ↔ Opened pp k T D ∧ ∀ t, Item.tree t ∈ way k T → 0 < c (.tree t))
  | .leaf k' v, D, _, he => by
    simp only [Trie.entries, List.mem_singleton, Prod.mk.injEq] at he
    obtain ⟨rfl, rfl⟩ := he
    have hw : (∀ t, Item.tree t ∈ way k (.leaf k b) → 0 < c (.tree t)) ↔ c (.tree (.leaf k b)) ≠ 0 := by
      simp only [way, List.mem_cons, List.not_mem_nil, or_false, reduceCtorEq, Item.tree.injEq, forall_eq]
      omega
    rw [hw, reached, Opened]
    by_cases h1 : D = [] <;> by_cases h2 : c (.tree (.leaf k b)) = 0 <;> simp [h1, h2]
  | .node l r, D, hwf, he => by
    have hag := hwf.agree k (List.mem_map_of_mem (f := Prod.fst) he)
    simp only [split, key] at hag
    have hnot : ∀ {u : Trie N}, u.WF → firstDiff k u.key < u.split → ∀ D, (k, b) ∉ reached pp c u D := by
      intro u hu hfar D hc
      have := hu.agree k (List.mem_map_of_mem (f := Prod.fst) (reached_sub _ _ _ hc))
      omega
    have hway : (∀ t, Item.tree t ∈ way k (.node l r) → 0 < c (.tree t)) ↔
        c (.tree (.node l r)) ≠ 0 ∧
          ∀ t, Item.tree t ∈ (if k.bit (firstDiff l.key r.key) then way k r else way k l) →
            0 < c (.tree t) := by
      simp only [way, List.mem_cons, Item.tree.injEq, or_imp, forall_and, forall_eq]
      constructor
      · rintro ⟨h1, h2⟩; exact ⟨by omega, h2⟩
      · rintro ⟨h1, h2⟩; exact ⟨by omega, h2⟩
    have hzo : ∀ {u : Trie N} {E : List (Arr N)}, u.split ≤ firstDiff k u.key →
        (followers l.key (firstDiff l.key r.key) D = [] → E = []) → Opened pp k u E →
        followers l.key (firstDiff l.key r.key) D ≠ [] := by
      intro u E hu hE ho hf
      rw [hE hf] at ho
      exact not_opened_nil hu ho
    rw [hway]
    rw [Trie.entries, List.mem_append] at he
    rcases he with he | he
    · have hkl : k ∈ l.keys := List.mem_map_of_mem (f := Prod.fst) he
      have hb : k.bit (firstDiff l.key r.key) = false := hwf.bit_left hkl
      have hfr := far_right hwf hag hb
      have ih := reached_iff (D := zeros pp l.key (firstDiff l.key r.key) D) hwf.1 he
      rw [reached, hb, if_neg (by simp : ¬ (false = true)), Opened]
      by_cases h0 : c (.tree (.node l r)) = 0
      · simp [h0]
      · rw [if_neg h0, List.mem_append]
        constructor
        · rintro (h | h)
          · obtain ⟨h1, h2⟩ := ih.1 h
            exact ⟨fun _ => ⟨hzo (hwf.1.agree k hkl) (fun hf => by simp [zeros, hf]) h1, h1,
              opened_of_far hfr⟩, h0, h2⟩
          · exact absurd h (hnot hwf.2.1 hfr _)
        · rintro ⟨h1, -, h2⟩
          exact .inl (ih.2 ⟨(h1 hag).2.1, h2⟩)
    · have hkr : k ∈ r.keys := List.mem_map_of_mem (f := Prod.fst) he
      have hb : k.bit (firstDiff l.key r.key) = true := hwf.bit_right hkr
      have hfl := far_left hwf hb
      have ih := reached_iff (D := ones pp l.key (firstDiff l.key r.key) D) hwf.2.1 he
      rw [reached, hb, if_pos rfl, Opened]
      by_cases h0 : c (.tree (.node l r)) = 0
      · simp [h0]
      · rw [if_neg h0, List.mem_append]
        constructor
        · rintro (h | h)
          · exact absurd h (hnot hwf.1 hfl _)
          · obtain ⟨h1, h2⟩ := ih.1 h
            exact ⟨fun _ => ⟨hzo (hwf.2.1.agree k hkr) (fun hf => by simp [ones, hf]) h1,
              opened_of_far hfl, h1⟩, h0, h2⟩
        · rintro ⟨h1, -, h2⟩
          exact .inr (ih.2 ⟨(h1 hag).2.2, h2⟩)

/-- The way to a stored key ends at its data. -/
theorem way_data {k : Arr N} {b : List UInt8} : ∀ {T : Trie N}, T.WF → (k, b) ∈ T.entries →
    ∀ k' b', Item.data k' b' ∈ way k T ↔ k' = k ∧ b' = b
  | .leaf k0 v, _, he, k', b' => by
    simp only [Trie.entries, List.mem_singleton, Prod.mk.injEq] at he
    obtain ⟨rfl, rfl⟩ := he
    simp [way]
  | .node l r, hwf, he, k', b' => by
    rw [Trie.entries, List.mem_append] at he
    rw [way, List.mem_cons]
    simp only [reduceCtorEq, false_or]
    rcases he with he | he
    · have hb : k.bit (firstDiff l.key r.key) = false :=
        hwf.bit_left (List.mem_map_of_mem (f := Prod.fst) he)
      rw [hb, if_neg (by simp)]
      exact way_data hwf.1 he k' b'
    · have hb : k.bit (firstDiff l.key r.key) = true :=
        hwf.bit_right (List.mem_map_of_mem (f := Prod.fst) he)
      rw [hb, if_pos rfl]
      exact way_data hwf.2.1 he k' b'

/-- The leaf of a stored key is on the way to it. -/
theorem way_leaf {k : Arr N} {b : List UInt8} : ∀ {T : Trie N}, T.WF → (k, b) ∈ T.entries →
    ∃ t : Trie N, t.Sub T ∧ Item.tree t ∈ way k T ∧ t = .leaf k b
  | .leaf k0 v, _, he => by
    simp only [Trie.entries, List.mem_singleton, Prod.mk.injEq] at he
    obtain ⟨rfl, rfl⟩ := he
    exact ⟨_, Trie.Sub.refl _, by simp [way], rfl⟩
  | .node l r, hwf, he => by
    rw [Trie.entries, List.mem_append] at he
    rw [way]
    rcases he with he | he
    · have hb : k.bit (firstDiff l.key r.key) = false :=
        hwf.bit_left (List.mem_map_of_mem (f := Prod.fst) he)
      obtain ⟨t, h1, h2, h3⟩ := way_leaf hwf.1 he
      refine ⟨t, h1.trans (Trie.Sub.left l r), ?_, h3⟩
      rw [hb, if_neg (by simp)]
      exact List.mem_cons_of_mem _ h2
    · have hb : k.bit (firstDiff l.key r.key) = true :=
        hwf.bit_right (List.mem_map_of_mem (f := Prod.fst) he)
      obtain ⟨t, h1, h2, h3⟩ := way_leaf hwf.2.1 he
      refine ⟨t, h1.trans (Trie.Sub.right l r), ?_, h3⟩
      rw [hb, if_pos rfl]
      exact List.mem_cons_of_mem _ h2

/-- The way to a stored key is its trees and its data. -/
theorem way_iff {k : Arr N} {b : List UInt8} {T : Trie N} (hwf : T.WF) (he : (k, b) ∈ T.entries) :
    (∀ i ∈ way k T, 0 < c i) ↔
      (∀ t, Item.tree t ∈ way k T → 0 < c (.tree t)) ∧ 0 < c (.data k b) := by
  constructor
  · intro h
    exact ⟨fun t ht => h _ ht, h _ ((way_data hwf he k b).2 ⟨rfl, rfl⟩)⟩
  · rintro ⟨h1, h2⟩ i hi
    cases i with
    | tree t => exact h1 t hi
    | data k' b' =>
      obtain ⟨rfl, rfl⟩ := (way_data hwf he k' b').1 hi
      exact h2

end

section
variable {cfg : Config N σ V} {C : DbContract cfg.db}

/-- Reading the leaves that are reached, one after the other. -/
def readLeaves (cfg : Config N σ V) (c : Item N → Nat) (ks0 : List (Arr N)) :
    List (Arr N × List UInt8) → AMap (Arr N) (Option V) → Res (AMap (Arr N) (Option V))
  | [], m => .ok m
  | (k, b) :: es, m =>
    if c (.data k b) = 0 then .error (.exception "Corrupt merkle tree: Failed to get leaf node from DB")
    else match cfg.decode b with
      | .error e => .error e
      | .ok x => readLeaves cfg c ks0 es (if k ∈ ks0 then m.insert k (some x) else m)

/-- The counts of a tree tell what of it is stored. -/
def Told (cfg : Config N σ V) (v : View N) (T : Trie N) : Prop :=
  (∀ t : Trie N, t.Sub T →
    (View.Has v (t.loc cfg.hasher) (t.variant cfg.hasher) ↔ 0 < countsOf cfg.hasher v (.tree t))) ∧
  ∀ k b, (Trie.leaf k b).Sub T →
    (View.Has v (Trie.dataLoc cfg.hasher k b) (.data ⟨b⟩) ↔ 0 < countsOf cfg.hasher v (.data k b))

/-- Cell of a subtree of `T` that is there. -/
def CellAt (cfg : Config N σ V) (v : View N) (T : Trie N) (c : TreeCell N × Trie N) : Prop :=
  c.2.Sub T ∧ c.1.node.variant = c.2.variant cfg.hasher ∧ c.1.keys ≠ [] ∧ c.1.keys.Pairwise Arr.le ∧
    c.1.depth + c.2.height ≤ T.height ∧ 0 < countsOf cfg.hasher v (.tree c.2)

/-- The leaves that a queue of cells comes to. -/
def reachedBy (cfg : Config N σ V) (v : View N) (cs : List (TreeCell N × Trie N)) :
    List (Arr N × List UInt8) :=
  cs.flatMap fun c => reached cfg.pp (countsOf cfg.hasher v) c.2 c.1.keys

theorem pushCell_told {s : σ} (hs : C.alive s) {T t : Trie N} (hst : Remains cfg.hasher (C.view s) t)
    (htold : Told cfg (C.view s) T) (hsub : t.Sub T) (d : Nat) (hd : d + 1 + t.height ≤ T.height)
    {ks : List (Arr N)} (hks : ks.Pairwise Arr.le) (cs : List (TreeCell N × Trie N))
    (hcs : ∀ c ∈ cs, CellAt cfg (C.view s) T c) :
    ∃ cs' : List (TreeCell N × Trie N),
      pushCellIfNode cfg s (cs.map (·.1)) d (t.loc cfg.hasher) ks = .ok (cs'.map (·.1)) ∧
      (∀ c ∈ cs', CellAt cfg (C.view s) T c) ∧
      reachedBy cfg (C.view s) cs' =
        reached cfg.pp (countsOf cfg.hasher (C.view s)) t ks ++ reachedBy cfg (C.view s) cs ∧
      weight cfg.depth (cs'.map (·.1)) ≤
        ks.length * (cfg.depth + 2 - (d + 1)) + weight cfg.depth (cs.map (·.1)) := by
  unfold pushCellIfNode
  rcases getNode_only hst.root with ⟨refs, hg, hh⟩ | ⟨hg, hh⟩ | ⟨msg, hg, hal⟩
  · rw [hg]
    by_cases hk : ks = []
    · subst hk
      exact ⟨cs, by simp, hcs, by rw [reached_nil, List.nil_append], by omega⟩
    · have : (!ks.isEmpty) = true := by simpa using hk
      simp only [this, if_true]
      refine ⟨(⟨t.loc cfg.hasher, ks, ⟨refs, t.variant cfg.hasher⟩, d + 1⟩, t) :: cs, by simp, ?_, ?_, ?_⟩
      · intro c hc
        rcases List.mem_cons.1 hc with rfl | hc
        · exact ⟨hsub, rfl, hk, hks, hd, (htold.1 t hsub).1 hh⟩
        · exact hcs c hc
      · simp [reachedBy]
      · simp [weight_cons]
  · rw [hg]
    refine ⟨cs, rfl, hcs, ?_, by omega⟩
    rw [reached_gone, List.nil_append]
    have := mt (htold.1 t hsub).2 hh
    omega
  · exact absurd hs hal

theorem getLoop_told (hN : 0 < N) (hpp : cfg.pp.Lawful) {s : σ} (hs : C.alive s) {T : Trie N}
    (hn : T.Norm) (hst : Remains cfg.hasher (C.view s) T) (htold : Told cfg (C.view s) T)
    (hT : T.height ≤ cfg.depth) (ks0 : List (Arr N)) :
    ∀ (fuel : Nat) (cs : List (TreeCell N × Trie N)) (m : AMap (Arr N) (Option V)),
      (∀ c ∈ cs, CellAt cfg (C.view s) T c) → weight cfg.depth (cs.map (·.1)) < fuel →
      getLoop cfg s ks0 fuel (cs.map (·.1)) m =
        readLeaves cfg (countsOf cfg.hasher (C.view s)) ks0 (reachedBy cfg (C.view s) cs) m
  | fuel, [], m, _, _ => by cases fuel <;> rfl
  | 0, _ :: _, _, _, hw => absurd hw (by omega)
  | fuel + 1, (c, t) :: cs, m, hcs, hw => by
    obtain ⟨hsub, hvar, hkeys, hsorted, hdep, hpos⟩ := hcs (c, t) (by simp)
    have hcs' : ∀ c ∈ cs, CellAt cfg (C.view s) T c := fun c hc => hcs c (by simp [hc])
    simp only at hsub hvar hkeys hsorted hdep hpos
    simp only [List.map_cons, weight_cons] at hw ⊢
    have hwc : 0 < c.keys.length := List.length_pos_of_ne_nil hkeys
    have hlen : 1 ≤ c.keys.length * (cfg.depth + 2 - c.depth) := Nat.mul_pos hwc (by omega)
    have hr := hst.sub hsub
    have hnt := hsub.norm hn
    unfold getLoop
    rw [if_neg (by omega), hvar]
    have hrb : reachedBy cfg (C.view s) ((c, t) :: cs) =
        reached cfg.pp (countsOf cfg.hasher (C.view s)) t c.keys ++ reachedBy cfg (C.view s) cs := by
      simp [reachedBy]
    rw [hrb]
    cases t with
    | leaf k v =>
      have h1 : reached cfg.pp (countsOf cfg.hasher (C.view s)) (.leaf k v) c.keys = [(k, v)] := by
        unfold reached
        rw [if_neg]
        rintro (h | h)
        · exact hkeys h
        · omega
      rw [h1]
      simp only [Trie.variant, List.cons_append, List.nil_append]
      unfold readLeaves
      rcases getNode_only hr.2 with ⟨refs, hg, hh⟩ | ⟨hg, hh⟩ | ⟨msg, hg, hal⟩
      · rw [hg, if_neg (by have := (htold.2 k v hsub).1 hh; omega)]
        dsimp only
        cases cfg.decode v with
        | error e => rfl
        | ok x =>
          dsimp only
          by_cases hk : k ∈ ks0
          · rw [if_pos hk, if_pos hk]
            exact getLoop_told hN hpp hs hn hst htold hT ks0 fuel cs _ hcs' (by omega)
          · rw [if_neg hk, if_neg hk]
            exact getLoop_told hN hpp hs hn hst htold hT ks0 fuel cs _ hcs' (by omega)
      · rw [hg, if_pos (by have := mt (htold.2 k v hsub).2 hh; omega)]
      · exact absurd hs hal
    | node l r =>
      have h8 := (Arr.lt_bits hnt.2.2).1
      simp only [Trie.variant]
      simp only [Trie.height] at hdep
      obtain ⟨mi, hm, hcd, pre, post, hinf⟩ := descs_ok hN hkeys (b := l.key)
        (s := firstDiff l.key r.key) (by omega)
      rw [hm]
      dsimp only
      rw [hcd]
      dsimp only
      obtain ⟨hsp, happ⟩ := halves_ok hpp h8 (descs l.key (firstDiff l.key r.key) c.keys)
      rw [descs_followers hN hsorted h8] at hinf hsp happ ⊢
      by_cases hnil : followers l.key (firstDiff l.key r.key) c.keys = []
      · rw [hnil]
        simp only [List.isEmpty_nil, if_true]
        rw [reached_followers hnil, List.nil_append]
        exact getLoop_told hN hpp hs hn hst htold hT ks0 fuel cs m hcs' (by omega)
      · rw [if_neg (by simpa using hnil), hsp]
        dsimp only
        have hz : (halves cfg.pp (firstDiff l.key r.key)
            (followers l.key (firstDiff l.key r.key) c.keys)).1 =
            zeros cfg.pp l.key (firstDiff l.key r.key) c.keys := by rw [halves_cut hpp h8]; rfl
        have ho : (halves cfg.pp (firstDiff l.key r.key)
            (followers l.key (firstDiff l.key r.key) c.keys)).2 =
            ones cfg.pp l.key (firstDiff l.key r.key) c.keys := by rw [halves_cut hpp h8]; rfl
        rw [hz, ho] at happ ⊢
        obtain ⟨cs1, h1, h2, h3, h4⟩ := pushCell_told hs hr.2.2 htold ((Trie.Sub.right l r).trans hsub)
          c.depth (by omega) (ones_sorted hsorted _ _) cs hcs'
        rw [h1]
        dsimp only
        obtain ⟨cs2, h5, h6, h7, h9⟩ := pushCell_told hs hr.2.1 htold ((Trie.Sub.left l r).trans hsub)
          c.depth (by omega) (zeros_sorted hsorted _ _) cs1 h2
        rw [h5]
        dsimp only
        have hlen2 : (zeros cfg.pp l.key (firstDiff l.key r.key) c.keys).length +
            (ones cfg.pp l.key (firstDiff l.key r.key) c.keys).length ≤ c.keys.length := by
          have h1 := congrArg List.length hinf
          have h2 := congrArg List.length happ
          simp only [List.length_append] at h1 h2
          omega
        have hmul : ((zeros cfg.pp l.key (firstDiff l.key r.key) c.keys).length +
            (ones cfg.pp l.key (firstDiff l.key r.key) c.keys).length) *
              (cfg.depth + 2 - (c.depth + 1)) + c.keys.length ≤
            c.keys.length * (cfg.depth + 2 - c.depth) := by
          have h1 : cfg.depth + 2 - c.depth = (cfg.depth + 2 - (c.depth + 1)) + 1 := by omega
          rw [h1, Nat.mul_add, Nat.mul_one]
          exact Nat.add_le_add_right (Nat.mul_le_mul_right _ hlen2) _
        rw [Nat.add_mul] at hmul
        rw [getLoop_told hN hpp hs hn hst htold hT ks0 fuel cs2 m h6 (by omega), h7, h3]
        congr 1
        rw [reached, if_neg (by omega), List.append_assoc]

theorem readLeaves_fails {c : Item N → Nat} {ks0 : List (Arr N)} {es : List (Arr N × List UInt8)}
    (hdec : ∀ e ∈ es, ∃ x, cfg.decode e.2 = .ok x) (h : ∃ e ∈ es, c (.data e.1 e.2) = 0)
    (m : AMap (Arr N) (Option V)) :
    readLeaves cfg c ks0 es m =
      .error (.exception "Corrupt merkle tree: Failed to get leaf node from DB") := by
  induction es generalizing m with
  | nil => obtain ⟨e, he, _⟩ := h; cases he
  | cons e es ih =>
    obtain ⟨k, b⟩ := e
    unfold readLeaves
    by_cases hz : c (.data k b) = 0
    · rw [if_pos hz]
    · rw [if_neg hz]
      obtain ⟨x, hx⟩ := hdec (k, b) (by simp)
      simp only at hx
      rw [hx]
      dsimp only
      refine ih (fun e he => hdec e (by simp [he])) ?_ _
      obtain ⟨e, he, h0⟩ := h
      rcases List.mem_cons.1 he with rfl | he
      · exact absurd h0 hz
      · exact ⟨e, he, h0⟩

theorem readLeaves_ok {M : Contents N V} {c : Item N → Nat} {ks0 : List (Arr N)}
    {es : List (Arr N × List UInt8)} (hdec : ∀ e ∈ es, ∃ x, cfg.decode e.2 = .ok x ∧ M e.1 = some x)
    (h : ∀ e ∈ es, 0 < c (.data e.1 e.2)) (m : AMap (Arr N) (Option V)) :
    ∃ m', readLeaves cfg c ks0 es m = .ok m' ∧ ∀ k, m'.get? k =
      if k ∈ ks0 ∧ k ∈ es.map (·.1) then some (M k) else m.get? k := by
  induction es generalizing m with
  | nil => exact ⟨m, rfl, fun k => by simp⟩
  | cons e es ih =>
    obtain ⟨k, b⟩ := e
    unfold readLeaves
    have := h (k, b) (by simp)
    simp only at this
    rw [if_neg (by omega)]
    obtain ⟨x, hx, hM⟩ := hdec (k, b) (by simp)
    simp only at hx hM
    rw [hx]
    dsimp only
    obtain ⟨m', h1, h2⟩ := ih (fun e he => hdec e (by simp [he])) (fun e he => h e (by simp [he]))
      (if k ∈ ks0 then m.insert k (some x) else m)
    refine ⟨m', h1, fun k' => ?_⟩
    rw [h2]
    by_cases hin : k' ∈ ks0 ∧ k' ∈ es.map (·.1)
    · rw [if_pos hin, if_pos ⟨hin.1, by simp only [List.map_cons, List.mem_cons]; exact .inr hin.2⟩]
    · rw [if_neg hin]
      by_cases hk : k ∈ ks0
      · rw [if_pos hk, AMap.get?_insert]
        by_cases hkk : k' = k
        · subst hkk
          rw [if_pos rfl, if_pos ⟨hk, by simp⟩, hM]
        · rw [if_neg hkk, if_neg]
          simp only [List.map_cons, List.mem_cons, hkk, false_or]
          exact hin
      · rw [if_neg hk, if_neg]
        rintro ⟨h3, h4⟩
        simp only [List.map_cons, List.mem_cons] at h4
        rcases h4 with rfl | h4
        · exact hk h3
        · exact hin ⟨h3, h4⟩

theorem told_of_honest {U : HIn N → Prop} (hU : CollisionFree cfg.hasher U) {v : View N}
    (hv : Honest cfg.hasher U v) {T : Trie N} (hn : T.Norm) (hi : ∀ i ∈ T.inputs cfg.hasher, U i) :
    Told cfg v T := by
  refine ⟨fun t ht => ?_, fun k b ht => ?_⟩
  · exact hv.has_iff hU (i := .tree t) rfl (.inr ⟨t, ht.norm hn, rfl, rfl, fun i h => hi i (ht.inputs _ h)⟩)
  · exact hv.has_iff hU (i := .data k b) rfl
      (.inl ⟨k, b, rfl, rfl, hi _ (ht.inputs _ (by simp [Trie.inputs]))⟩)

/-- `get` under the root of a version of which nodes may be missing. -/
theorem remnant_get_exact (hN : 0 < N) (hpp : cfg.pp.Lawful) (hrt : RoundTrip cfg) {s : σ}
    (hs : C.alive s) {T : Trie N} {r : Arr N} {M : Contents N V} (hd : HeightBelow M (cfg.depth + 1))
    (hv : IsRemnant cfg (C.view s) T r M) (htold : Told cfg (C.view s) T) (keys : List (Arr N)) :
    ((∃ e ∈ reached cfg.pp (countsOf cfg.hasher (C.view s)) T (sortKeys keys),
        countsOf cfg.hasher (C.view s) (.data e.1 e.2) = 0) →
      get cfg s r keys =
        .error (.exception "Corrupt merkle tree: Failed to get leaf node from DB")) ∧
    ((∀ e ∈ reached cfg.pp (countsOf cfg.hasher (C.view s)) T (sortKeys keys),
        0 < countsOf cfg.hasher (C.view s) (.data e.1 e.2)) →
      ∃ m, get cfg s r keys = .ok m ∧ ∀ k, m.get? k =
        if k ∈ keys then some (if k ∈ (reached cfg.pp (countsOf cfg.hasher (C.view s)) T
          (sortKeys keys)).map (·.1) then M k else none) else none) := by
  obtain ⟨hwf, rfl, hst, hM⟩ := hv
  have hT := hd.height hwf hM
  have hmem : ∀ k, k ∈ sortKeys keys ↔ k ∈ keys := fun k => (sortKeys_perm keys).mem_iff
  have hdec : ∀ e ∈ reached cfg.pp (countsOf cfg.hasher (C.view s)) T (sortKeys keys),
      ∃ x, cfg.decode e.2 = .ok x ∧ M e.1 = some x := by
    intro e he
    obtain ⟨v, h1, h2, _⟩ := hM.decode hwf hrt (k := e.1) (b := e.2) (reached_sub _ _ _ he)
    exact ⟨v, h2, h1⟩
  by_cases hk : keys = []
  · subst hk
    have : sortKeys ([] : List (Arr N)) = [] := List.length_eq_zero_iff.1 (sortKeys_length _)
    rw [this, reached_nil]
    refine ⟨?_, fun _ => ⟨AMap.empty, by simp [get], fun k => by simp [AMap.get?, AMap.empty]⟩⟩
    rintro ⟨e, he, _⟩
    cases he
  have hget : get cfg s (T.loc cfg.hasher) keys =
      readLeaves cfg (countsOf cfg.hasher (C.view s)) (sortKeys keys)
        (reached cfg.pp (countsOf cfg.hasher (C.view s)) T (sortKeys keys)) (generateLeafMap keys) := by
    unfold get
    rw [if_neg (by simpa using hk)]
    have hsne : sortKeys keys ≠ [] := by
      intro h
      have := sortKeys_length keys
      rw [h] at this
      exact hk (List.length_eq_zero_iff.1 this.symm)
    dsimp only
    rcases getNode_only hst.root with ⟨refs, hg, hh⟩ | ⟨hg, hh⟩ | ⟨msg, hg, hal⟩
    · rw [hg]
      dsimp only
      have := getLoop_told (C := C) hN hpp hs hwf.norm hst htold (by omega) (sortKeys keys)
        (traversalFuel cfg keys.length)
        [(⟨T.loc cfg.hasher, sortKeys keys, ⟨refs, T.variant cfg.hasher⟩, 0⟩, T)]
        (generateLeafMap keys)
        (by
          intro c hc
          rw [List.mem_singleton] at hc
          subst hc
          exact ⟨Trie.Sub.refl T, rfl, hsne, sortKeys_sorted keys, by simp,
            (htold.1 T (Trie.Sub.refl T)).1 hh⟩)
        (by simp [weight, traversalFuel, sortKeys_length])
      simpa [reachedBy] using this
    · rw [hg, reached_gone]
      · rfl
      · have := mt (htold.1 T (Trie.Sub.refl T)).2 hh
        omega
    · exact absurd hs hal
  rw [hget]
  constructor
  · exact fun h => readLeaves_fails (fun e he => (hdec e he).imp fun _ h => h.1) h _
  · intro h
    obtain ⟨m, h1, h2⟩ := readLeaves_ok (cfg := cfg) (ks0 := sortKeys keys) hdec h (generateLeafMap keys)
    refine ⟨m, h1, fun k => ?_⟩
    rw [h2, generateLeafMap_get]
    simp only [hmem]
    by_cases hkk : k ∈ keys
    · by_cases hr : k ∈ (reached cfg.pp (countsOf cfg.hasher (C.view s)) T (sortKeys keys)).map (·.1)
      · rw [if_pos ⟨hkk, hr⟩, if_pos hkk, if_pos hr]
      · rw [if_neg (fun h => hr h.2), if_pos hkk, if_pos hkk, if_neg hr]
    · rw [if_neg (fun h => hkk h.1), if_neg hkk, if_neg hkk]

end
end MerkleBit
