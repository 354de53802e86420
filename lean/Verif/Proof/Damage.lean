import Verif.Spec.Damage
import Verif.Proof.Addressed
import Verif.Proof.ReadVersion
import Verif.Proof.Inclusion
/-! # Reading trees of which nodes may be missing -/

namespace MerkleBit
variable {N : Nat} {σ V α : Type}

/-- A view holds nothing but `c` at `x`. -/
def View.Only (v : View N) (x : Arr N) (c : Variant N) : Prop := v x = none ∨ View.Has v x c

/-- The nodes of a trie are in their places or missing. -/
def Remains (H : Hasher N) (v : View N) : Trie N → Prop
  | .leaf k val => View.Only v ((Trie.leaf k val).loc H) ((Trie.leaf k val).variant H) ∧
      View.Only v (Trie.dataLoc H k val) (.data ⟨val⟩)
  | .node l r => View.Only v ((Trie.node l r).loc H) ((Trie.node l r).variant H) ∧
      Remains H v l ∧ Remains H v r

/-- The nodes on the way to `k` are stored. -/
def PathStored (H : Hasher N) (v : View N) (k : Arr N) : Trie N → Prop
  | .leaf k' val => View.Has v ((Trie.leaf k' val).loc H) ((Trie.leaf k' val).variant H) ∧
      View.Has v (Trie.dataLoc H k' val) (.data ⟨val⟩)
  | .node l r => View.Has v ((Trie.node l r).loc H) ((Trie.node l r).variant H) ∧
      if k.bit (firstDiff l.key r.key) then PathStored H v k r else PathStored H v k l

theorem Honest.only {H : Hasher N} {U : HIn N → Prop} (hU : CollisionFree H U) {v : View N}
    (hv : Honest H U v) {x : Arr N} {c : Variant N} (hb : Belongs H U x c) : View.Only v x c := by
  cases hx : v x with
  | none => exact .inl hx
  | some n =>
    right
    have := (hv x n hx).2.unique hU hb
    subst this
    exact ⟨n.references, hx⟩

theorem Honest.remains {H : Hasher N} {U : HIn N → Prop} (hU : CollisionFree H U) {v : View N}
    (hv : Honest H U v) : ∀ {t : Trie N}, t.Norm → (∀ i ∈ t.inputs H, U i) → Remains H v t
  | .leaf k val, hn, hi => ⟨hv.only hU (belongs_of_inputs hn hi),
      hv.only hU (belongs_data (hi _ (by simp [Trie.inputs])))⟩
  | .node l r, hn, hi => ⟨hv.only hU (belongs_of_inputs hn hi),
      hv.remains hU hn.1 (fun i h => hi i (by simp [Trie.inputs, h])),
      hv.remains hU hn.2.1 (fun i h => hi i (by simp [Trie.inputs, h]))⟩

theorem Remains.root {H : Hasher N} {v : View N} : ∀ {t : Trie N}, Remains H v t →
    View.Only v (t.loc H) (t.variant H)
  | .leaf _ _, h => h.1
  | .node _ _, h => h.1

theorem Remains.sub {H : Hasher N} {v : View N} {u : Trie N} : ∀ {t : Trie N}, Remains H v t →
    u.Sub t → Remains H v u
  | .leaf _ _, hs, h => by
    unfold Trie.Sub at h
    exact h ▸ hs
  | .node l r, hs, h => by
    rcases h with rfl | h | h
    · exact hs
    · exact hs.2.1.sub h
    · exact hs.2.2.sub h

theorem Stored.path {H : Hasher N} {v : View N} {k : Arr N} : ∀ {t : Trie N}, Stored H v t →
    PathStored H v k t
  | .leaf _ _, h => h
  | .node l r, h => by
    refine ⟨h.1, ?_⟩
    split
    · exact h.2.2.path
    · exact h.2.1.path

theorem stored_of_paths {H : Hasher N} {v : View N} : ∀ {t : Trie N}, t.WF →
    (∀ k ∈ t.keys, PathStored H v k t) → Stored H v t
  | .leaf k _, _, h => h k (by simp [Trie.keys, Trie.entries])
  | .node l r, hwf, h => by
    refine ⟨(h _ (Trie.key_mem _)).1, stored_of_paths hwf.1 ?_, stored_of_paths hwf.2.1 ?_⟩
    · intro k hk
      have := (h k (by rw [Trie.keys_node]; exact List.mem_append_left _ hk)).2
      have hb := hwf.bit_left hk
      simp only [Trie.split] at hb
      rwa [hb, if_neg (by simp)] at this
    · intro k hk
      have := (h k (by rw [Trie.keys_node]; exact List.mem_append_right _ hk)).2
      have hb := hwf.bit_right hk
      simp only [Trie.split] at hb
      rwa [hb, if_pos rfl] at this

theorem PathStored.mono {H : Hasher N} {v v' : View N} (h : v.Ext v') {k : Arr N} :
    ∀ {t : Trie N}, PathStored H v k t → PathStored H v' k t
  | .leaf _ _, hs => ⟨h _ _ hs.1, h _ _ hs.2⟩
  | .node l r, hs => by
    refine ⟨h _ _ hs.1, ?_⟩
    have := hs.2
    split
    · next hb => rw [if_pos hb] at this; exact this.mono h
    · next hb => rw [if_neg hb] at this; exact this.mono h

section
variable {cfg : Config N σ V} {C : DbContract cfg.db}

theorem getNode_only {s : σ} {x : Arr N} {c : Variant N} (h : View.Only (C.view s) x c) :
    (∃ refs, cfg.db.getNode s x = .ok (some ⟨refs, c⟩) ∧ View.Has (C.view s) x c) ∨
    (cfg.db.getNode s x = .ok none ∧ ¬ View.Has (C.view s) x c) ∨
      ∃ msg, cfg.db.getNode s x = .error (.exception msg) ∧ ¬ C.alive s := by
  rcases h with h | h
  · cases hg : cfg.db.getNode s x with
    | ok r =>
      right; left
      have := C.getNode_ok hg
      rw [h] at this
      subst this
      refine ⟨rfl, ?_⟩
      rintro ⟨refs, h'⟩
      rw [h] at h'
      cases h'
    | error e =>
      obtain ⟨h1, msg, rfl⟩ := C.getNode_err hg
      exact .inr (.inr ⟨msg, rfl, h1⟩)
  · rcases getNode_has h with ⟨refs, hg⟩ | h'
    · exact .inl ⟨refs, hg, h⟩
    · exact .inr (.inr h')

/-! ## `get_one` -/

/-- `get_one` reads what is prescribed when the way to the key is there, and otherwise nothing unless
the key is found to be absent, or the depth limit is hit, earlier. -/
theorem getOneLoop_remains (hN : 0 < N) (s : σ) (k : Arr N) : ∀ (t : Trie N) (fuel d : Nat),
    t.Norm → Remains cfg.hasher (C.view s) t → cfg.depth + 2 ≤ fuel + d → 0 < fuel →
    Outcome C s (getOneLoop cfg s k fuel [t.loc cfg.hasher] false d) (readOne cfg k t d) ∨
    (¬ PathStored cfg.hasher (C.view s) k t ∧
      getOneLoop cfg s k fuel [t.loc cfg.hasher] false d = .ok none)
  | _, 0, _, _, _, _, h0 => absurd h0 (by omega)
  | .leaf k' v, fuel + 1, d, _, hst, hf, _ => by
    unfold getOneLoop readOne
    by_cases hd : d > cfg.depth
    · rw [if_pos hd, if_pos hd]; exact .inl (.inl rfl)
    · rw [if_neg hd, if_neg hd]
      rcases getNode_only hst.1 with ⟨refs, hg, hh⟩ | ⟨hg, hh⟩ | ⟨msg, hg, hal⟩
      · rw [hg]
        simp only [Trie.variant, List.nil_append, Bool.false_eq_true, if_false]
        by_cases hk : k' ≠ k
        · rw [if_pos hk, if_pos hk]; exact .inl (.inl rfl)
        · rw [if_neg hk, if_neg hk]
          cases fuel with
          | zero => omega
          | succ fuel =>
            unfold getOneLoop
            by_cases hd1 : d + 1 > cfg.depth
            · rw [if_pos hd1, if_pos hd1]; exact .inl (.inl rfl)
            · rw [if_neg hd1, if_neg hd1]
              rcases getNode_only hst.2 with ⟨refs, hg, hh⟩ | ⟨hg, hh⟩ | ⟨msg, hg, hal⟩
              · rw [hg]
                simp only [Bool.not_true, Bool.false_eq_true, if_false]
                left; left
                cases cfg.decode v <;> rfl
              · rw [hg]
                right
                refine ⟨fun h => hh h.2, ?_⟩
                dsimp only
                cases fuel <;> rfl
              · rw [hg]; exact .inl (.inr ⟨hal, msg, rfl⟩)
      · rw [hg]
        right
        refine ⟨fun h => hh h.1, ?_⟩
        dsimp only
        cases fuel <;> rfl
      · rw [hg]; exact .inl (.inr ⟨hal, msg, rfl⟩)
  | .node l r, fuel + 1, d, hn, hst, hf, _ => by
    have h8 := (Arr.lt_bits hn.2.2).1
    unfold getOneLoop readOne
    by_cases hd : d > cfg.depth
    · rw [if_pos hd, if_pos hd]; exact .inl (.inl rfl)
    · rw [if_neg hd, if_neg hd]
      rcases getNode_only hst.1 with ⟨refs, hg, hh⟩ | ⟨hg, hh⟩ | ⟨msg, hg, hal⟩
      · rw [hg]
        obtain ⟨m, hm, hcd⟩ := descs_single hN k l.key (s := firstDiff l.key r.key) (by omega)
        simp only [Trie.variant, List.nil_append, Bool.false_eq_true, if_false, hm, hcd,
          chooseZero_ok k h8]
        by_cases hlt : firstDiff k l.key < firstDiff l.key r.key
        · rw [if_neg (show ¬ firstDiff l.key r.key ≤ firstDiff k l.key by omega), if_pos hlt]
          exact .inl (.inl rfl)
        · rw [if_pos (show firstDiff l.key r.key ≤ firstDiff k l.key by omega), if_neg hlt]
          simp only [List.isEmpty_cons, Bool.false_eq_true, if_false]
          cases hb : k.bit (firstDiff l.key r.key) with
          | true =>
            refine (getOneLoop_remains hN s k r fuel (d + 1) hn.2.1 hst.2.2 (by omega)
              (by omega)).imp id (fun h => ⟨fun hp => h.1 ?_, h.2⟩)
            have := hp.2
            rwa [hb, if_pos rfl] at this
          | false =>
            refine (getOneLoop_remains hN s k l fuel (d + 1) hn.1 hst.2.1 (by omega)
              (by omega)).imp id (fun h => ⟨fun hp => h.1 ?_, h.2⟩)
            have := hp.2
            rwa [hb, if_neg (by simp)] at this
      · rw [hg]
        right
        refine ⟨fun h => hh h.1, ?_⟩
        dsimp only
        cases fuel <;> rfl
      · rw [hg]; exact .inl (.inr ⟨hal, msg, rfl⟩)

/-- A value that is read was reached on a way that is there. -/
theorem getOneLoop_path (hN : 0 < N) (s : σ) (k : Arr N) : ∀ (t : Trie N) (fuel d : Nat) {x : V},
    t.Norm → Remains cfg.hasher (C.view s) t →
    getOneLoop cfg s k fuel [t.loc cfg.hasher] false d = .ok (some x) →
    PathStored cfg.hasher (C.view s) k t
  | _, 0, _, _, _, _, h => by cases h
  | .leaf k' v, fuel + 1, d, x, _, hst, h => by
    unfold getOneLoop at h
    by_cases hd : d > cfg.depth
    · rw [if_pos hd] at h; cases h
    · rw [if_neg hd] at h
      rcases getNode_only hst.1 with ⟨refs, hg, hh⟩ | ⟨hg, hh⟩ | ⟨msg, hg, hal⟩
      · refine ⟨hh, ?_⟩
        rw [hg] at h
        simp only [Trie.variant, List.nil_append, Bool.false_eq_true, if_false] at h
        by_cases hk : k' ≠ k
        · rw [if_pos hk] at h; cases h
        · rw [if_neg hk] at h
          cases fuel with
          | zero => cases h
          | succ fuel =>
            unfold getOneLoop at h
            by_cases hd1 : d + 1 > cfg.depth
            · rw [if_pos hd1] at h; cases h
            · rw [if_neg hd1] at h
              rcases getNode_only hst.2 with ⟨refs, hg, hh⟩ | ⟨hg, hh⟩ | ⟨msg, hg, hal⟩
              · exact hh
              · rw [hg] at h
                dsimp only at h
                cases fuel <;> cases h
              · rw [hg] at h; cases h
      · rw [hg] at h
        dsimp only at h
        cases fuel <;> cases h
      · rw [hg] at h; cases h
  | .node l r, fuel + 1, d, x, hn, hst, h => by
    have h8 := (Arr.lt_bits hn.2.2).1
    unfold getOneLoop at h
    by_cases hd : d > cfg.depth
    · rw [if_pos hd] at h; cases h
    · rw [if_neg hd] at h
      rcases getNode_only hst.1 with ⟨refs, hg, hh⟩ | ⟨hg, hh⟩ | ⟨msg, hg, hal⟩
      · refine ⟨hh, ?_⟩
        rw [hg] at h
        obtain ⟨m, hm, hcd⟩ := descs_single hN k l.key (s := firstDiff l.key r.key) (by omega)
        simp only [Trie.variant, List.nil_append, Bool.false_eq_true, if_false, hm, hcd,
          chooseZero_ok k h8] at h
        by_cases hlt : firstDiff k l.key < firstDiff l.key r.key
        · rw [if_neg (show ¬ firstDiff l.key r.key ≤ firstDiff k l.key by omega)] at h
          cases h
        · rw [if_pos (show firstDiff l.key r.key ≤ firstDiff k l.key by omega)] at h
          simp only [List.isEmpty_cons, Bool.false_eq_true, if_false] at h
          cases hb : k.bit (firstDiff l.key r.key) with
          | true =>
            rw [hb] at h
            rw [if_pos rfl]
            exact getOneLoop_path hN s k r fuel (d + 1) hn.2.1 hst.2.2 h
          | false =>
            rw [hb] at h
            rw [if_neg (by simp)]
            exact getOneLoop_path hN s k l fuel (d + 1) hn.1 hst.2.1 h
      · rw [hg] at h
        dsimp only at h
        cases fuel <;> cases h
      · rw [hg] at h; cases h

/-! ## Inclusion proofs -/

theorem proofLoop_remains (hN : 0 < N) (s : σ) (k : Arr N) : ∀ (t : Trie N) (fuel d : Nat)
    (acc : List (Arr N × Bool)), t.Norm → Remains cfg.hasher (C.view s) t →
    cfg.depth + 2 ≤ fuel + d → 0 < fuel →
    Outcome C s (proofLoop cfg s k fuel [t.loc cfg.hasher] acc false d)
      (match readProof cfg k t d with
        | .ok p => .ok (acc ++ p.reverse)
        | .error e => .error e) ∨
    (¬ PathStored cfg.hasher (C.view s) k t ∧
      proofLoop cfg s k fuel [t.loc cfg.hasher] acc false d =
        .error (.exception "Failed to find node"))
  | _, 0, _, _, _, _, _, h0 => absurd h0 (by omega)
  | .leaf k' v, fuel + 1, d, acc, _, hst, hf, _ => by
    unfold proofLoop readProof
    by_cases hd : d > cfg.depth
    · rw [if_pos hd, if_pos hd]; exact .inl (.inl rfl)
    · rw [if_neg hd, if_neg hd]
      rcases getNode_only hst.1 with ⟨refs, hg, hh⟩ | ⟨hg, hh⟩ | ⟨msg, hg, hal⟩
      · rw [hg]
        simp only [Trie.variant, List.nil_append, Bool.false_eq_true, if_false]
        by_cases hk : k' ≠ k
        · rw [if_pos hk, if_pos hk]; exact .inl (.inl rfl)
        · rw [if_neg hk, if_neg hk]
          simp only [ne_eq, Decidable.not_not] at hk
          subst hk
          cases fuel with
          | zero => omega
          | succ fuel =>
            unfold proofLoop
            by_cases hd1 : d + 1 > cfg.depth
            · rw [if_pos hd1, if_pos hd1]; exact .inl (.inl rfl)
            · rw [if_neg hd1, if_neg hd1]
              rcases getNode_only hst.2 with ⟨refs, hg, hh⟩ | ⟨hg, hh⟩ | ⟨msg, hg, hal⟩
              · rw [hg]
                simp only [Bool.not_true, Bool.false_eq_true, if_false]
                left; left
                have : ∀ fuel a, proofLoop cfg s k' fuel [] a true (d + 1 + 1) = .ok a := by
                  intro fuel a; cases fuel <;> rfl
                rw [this]
                simp only [List.reverse_cons, List.reverse_nil, List.nil_append, List.cons_append,
                  List.append_assoc, Trie.loc, HIn.hash, Trie.dataLoc, Arr.len]
              · rw [hg]
                exact .inr ⟨fun h => hh h.2, rfl⟩
              · rw [hg]; exact .inl (.inr ⟨hal, msg, rfl⟩)
      · rw [hg]
        exact .inr ⟨fun h => hh h.1, rfl⟩
      · rw [hg]; exact .inl (.inr ⟨hal, msg, rfl⟩)
  | .node l r, fuel + 1, d, acc, hn, hst, hf, _ => by
    have h8 := (Arr.lt_bits hn.2.2).1
    unfold proofLoop readProof
    by_cases hd : d > cfg.depth
    · rw [if_pos hd, if_pos hd]; exact .inl (.inl rfl)
    · rw [if_neg hd, if_neg hd]
      rcases getNode_only hst.1 with ⟨refs, hg, hh⟩ | ⟨hg, hh⟩ | ⟨msg, hg, hal⟩
      · rw [hg]
        obtain ⟨m, hm, hcd⟩ := descs_single hN k l.key (s := firstDiff l.key r.key) (by omega)
        simp only [Trie.variant, List.nil_append, Bool.false_eq_true, if_false, hm, hcd,
          chooseZero_ok k h8]
        by_cases hlt : firstDiff k l.key < firstDiff l.key r.key
        · rw [if_neg (show ¬ firstDiff l.key r.key ≤ firstDiff k l.key by omega), if_pos hlt]
          exact .inl (.inl rfl)
        · rw [if_pos (show firstDiff l.key r.key ≤ firstDiff k l.key by omega), if_neg hlt]
          simp only [List.isEmpty_cons, Bool.false_eq_true, if_false]
          cases hb : k.bit (firstDiff l.key r.key) with
          | true =>
            have := proofLoop_remains hN s k r fuel (d + 1) (acc ++ [(l.loc cfg.hasher, false)])
              hn.2.1 hst.2.2 (by omega) (by omega)
            simp only [Bool.not_true, if_true]
            rcases this with this | this
            · left
              cases hr : readProof cfg k r (d + 1) with
              | error e => rw [hr] at this; exact this
              | ok p => rw [hr] at this; simpa using this
            · refine .inr ⟨fun hp => this.1 ?_, this.2⟩
              have := hp.2
              rwa [hb, if_pos rfl] at this
          | false =>
            have := proofLoop_remains hN s k l fuel (d + 1) (acc ++ [(r.loc cfg.hasher, true)])
              hn.1 hst.2.1 (by omega) (by omega)
            simp only [Bool.not_false, Bool.false_eq_true, if_false]
            rcases this with this | this
            · left
              cases hr : readProof cfg k l (d + 1) with
              | error e => rw [hr] at this; exact this
              | ok p => rw [hr] at this; simpa using this
            · refine .inr ⟨fun hp => this.1 ?_, this.2⟩
              have := hp.2
              rwa [hb, if_neg (by simp)] at this
      · rw [hg]
        exact .inr ⟨fun h => hh h.1, rfl⟩
      · rw [hg]; exact .inl (.inr ⟨hal, msg, rfl⟩)

/-- A proof that is generated follows a way that is there. -/
theorem proofLoop_path (hN : 0 < N) (s : σ) (k : Arr N) : ∀ (t : Trie N) (fuel d : Nat)
    (acc : List (Arr N × Bool)) {p : List (Arr N × Bool)},
    t.Norm → Remains cfg.hasher (C.view s) t →
    proofLoop cfg s k fuel [t.loc cfg.hasher] acc false d = .ok p →
    PathStored cfg.hasher (C.view s) k t
  | _, 0, _, _, _, _, _, h => by cases h
  | .leaf k' v, fuel + 1, d, acc, p, _, hst, h => by
    unfold proofLoop at h
    by_cases hd : d > cfg.depth
    · rw [if_pos hd] at h; cases h
    · rw [if_neg hd] at h
      rcases getNode_only hst.1 with ⟨refs, hg, hh⟩ | ⟨hg, hh⟩ | ⟨msg, hg, hal⟩
      · refine ⟨hh, ?_⟩
        rw [hg] at h
        simp only [Trie.variant, List.nil_append, Bool.false_eq_true, if_false] at h
        by_cases hk : k' ≠ k
        · rw [if_pos hk] at h; cases h
        · rw [if_neg hk] at h
          cases fuel with
          | zero => cases h
          | succ fuel =>
            unfold proofLoop at h
            by_cases hd1 : d + 1 > cfg.depth
            · rw [if_pos hd1] at h; cases h
            · rw [if_neg hd1] at h
              rcases getNode_only hst.2 with ⟨refs, hg, hh⟩ | ⟨hg, hh⟩ | ⟨msg, hg, hal⟩
              · exact hh
              · rw [hg] at h; cases h
              · rw [hg] at h; cases h
      · rw [hg] at h; cases h
      · rw [hg] at h; cases h
  | .node l r, fuel + 1, d, acc, p, hn, hst, h => by
    have h8 := (Arr.lt_bits hn.2.2).1
    unfold proofLoop at h
    by_cases hd : d > cfg.depth
    · rw [if_pos hd] at h; cases h
    · rw [if_neg hd] at h
      rcases getNode_only hst.1 with ⟨refs, hg, hh⟩ | ⟨hg, hh⟩ | ⟨msg, hg, hal⟩
      · refine ⟨hh, ?_⟩
        rw [hg] at h
        obtain ⟨m, hm, hcd⟩ := descs_single hN k l.key (s := firstDiff l.key r.key) (by omega)
        simp only [Trie.variant, List.nil_append, Bool.false_eq_true, if_false, hm, hcd,
          chooseZero_ok k h8] at h
        by_cases hlt : firstDiff k l.key < firstDiff l.key r.key
        · rw [if_neg (show ¬ firstDiff l.key r.key ≤ firstDiff k l.key by omega)] at h
          cases h
        · rw [if_pos (show firstDiff l.key r.key ≤ firstDiff k l.key by omega)] at h
          simp only [List.isEmpty_cons, Bool.false_eq_true, if_false] at h
          cases hb : k.bit (firstDiff l.key r.key) with
          | true =>
            rw [hb] at h
            rw [if_pos rfl]
            exact proofLoop_path hN s k r fuel (d + 1) _ hn.2.1 hst.2.2 h
          | false =>
            rw [hb] at h
            rw [if_neg (by simp)]
            exact proofLoop_path hN s k l fuel (d + 1) _ hn.1 hst.2.1 h
      · rw [hg] at h; cases h
      · rw [hg] at h; cases h

/-! ## `get` -/

/-- Cell of a subtree of `T`. -/
def CellIn (cfg : Config N σ V) (T : Trie N) (c : TreeCell N) : Prop :=
  ∃ t : Trie N, t.Sub T ∧ c.node.variant = t.variant cfg.hasher ∧ c.keys ≠ [] ∧
    c.depth + t.height ≤ T.height

theorem pushCell_remains {s : σ} {T t : Trie N} (hst : Remains cfg.hasher (C.view s) t)
    (hsub : t.Sub T) (d : Nat) (hd : d + 1 + t.height ≤ T.height) (ks : List (Arr N))
    (cs : List (TreeCell N)) (hcs : ∀ c ∈ cs, CellIn cfg T c) :
    (∃ cs', pushCellIfNode cfg s cs d (t.loc cfg.hasher) ks = .ok cs' ∧
      ∀ c ∈ cs', CellIn cfg T c) ∨
    (¬ C.alive s ∧ ∃ msg,
      pushCellIfNode cfg s cs d (t.loc cfg.hasher) ks = .error (.exception msg)) := by
  unfold pushCellIfNode
  rcases getNode_only hst.root with ⟨refs, hg, hh⟩ | ⟨hg, hh⟩ | ⟨msg, hg, hal⟩
  · rw [hg]
    left
    by_cases hk : ks = []
    · exact ⟨cs, by simp [hk], hcs⟩
    · have : (!ks.isEmpty) = true := by simpa using hk
      simp only [this, if_true]
      refine ⟨_, rfl, ?_⟩
      intro c hc
      rcases List.mem_cons.1 hc with rfl | hc
      · exact ⟨t, hsub, rfl, hk, hd⟩
      · exact hcs c hc
  · rw [hg]; exact .inl ⟨cs, rfl, hcs⟩
  · rw [hg]; exact .inr ⟨hal, msg, rfl⟩

/-- The values `get` finds are those of the tree; it fails only on a leaf without its data. -/
theorem getLoop_remains (hN : 0 < N) (hpp : cfg.pp.Lawful) {s : σ} {T : Trie N} (hn : T.Norm)
    (hst : Remains cfg.hasher (C.view s) T) (hdec : ∀ e ∈ T.entries, ∃ x, cfg.decode e.2 = .ok x)
    (ks0 : List (Arr N)) :
    ∀ (fuel : Nat) (cs : List (TreeCell N)) (m0 : AMap (Arr N) (Option V)),
      (∀ c ∈ cs, CellIn cfg T c) →
      match getLoop cfg s ks0 fuel cs m0 with
      | .ok m => ∀ k, m.get? k = m0.get? k ∨ (k ∈ ks0 ∧ ∃ b x, (k, b) ∈ T.entries ∧
          cfg.decode b = .ok x ∧ m.get? k = some (some x))
      | .error e => e = .outOfFuel ∨
          e = .exception "Corrupt merkle tree: Failed to get leaf node from DB" ∨
          (e = .exception "Depth of merkle tree exceeded" ∧ cfg.depth < T.height) ∨
          (¬ C.alive s ∧ e.IsException)
  | fuel, [], m0, _ => by
    cases fuel <;> exact fun k => .inl rfl
  | 0, _ :: _, _, _ => .inl rfl
  | fuel + 1, c :: cs, m0, hcs => by
    obtain ⟨t, hsub, hvar, hkeys, hdep⟩ := hcs c (by simp)
    have hcs' : ∀ c ∈ cs, CellIn cfg T c := fun c hc => hcs c (by simp [hc])
    unfold getLoop
    by_cases hd : c.depth > cfg.depth
    · rw [if_pos hd]
      exact .inr (.inr (.inl ⟨rfl, by omega⟩))
    rw [if_neg hd, hvar]
    have hr := hst.sub hsub
    have hnt := hsub.norm hn
    cases t with
    | leaf k v =>
      simp only [Trie.variant]
      rcases getNode_only hr.2 with ⟨refs, hg, hh⟩ | ⟨hg, hh⟩ | ⟨msg, hg, hal⟩
      · rw [hg]
        dsimp only
        have hmem : (k, v) ∈ T.entries := hsub.entries.subset (by simp [Trie.entries])
        obtain ⟨x, hx⟩ := hdec _ hmem
        simp only at hx
        rw [hx]
        dsimp only
        by_cases hk : k ∈ ks0
        · rw [if_pos hk]
          have ih := getLoop_remains hN hpp hn hst hdec ks0 fuel cs
            (m0.insert k (some x)) hcs'
          cases hres : getLoop cfg s ks0 fuel cs (m0.insert k (some x)) with
          | error e => rw [hres] at ih; exact ih
          | ok m =>
            rw [hres] at ih
            intro k'
            rcases ih k' with h | h
            · rw [AMap.get?_insert] at h
              by_cases hkk : k' = k
              · subst hkk
                rw [if_pos rfl] at h
                exact .inr ⟨hk, v, x, hmem, hx, h⟩
              · rw [if_neg hkk] at h
                exact .inl h
            · exact .inr h
        · rw [if_neg hk]
          exact getLoop_remains hN hpp hn hst hdec ks0 fuel cs m0 hcs'
      · rw [hg]; exact .inr (.inl rfl)
      · rw [hg]; exact .inr (.inr (.inr ⟨hal, msg, rfl⟩))
    | node l r =>
      have h8 := (Arr.lt_bits hnt.2.2).1
      simp only [Trie.variant]
      simp only [Trie.height] at hdep
      obtain ⟨mi, hm, hcd, pre, post, hinf⟩ := descs_ok hN hkeys (b := l.key)
        (s := firstDiff l.key r.key) (by omega)
      rw [hm]
      dsimp only
      rw [hcd]
      dsimp only
      by_cases hnil : descs l.key (firstDiff l.key r.key) c.keys = []
      · rw [hnil]
        simp only [List.isEmpty_nil, if_true]
        exact getLoop_remains hN hpp hn hst hdec ks0 fuel cs m0 hcs'
      · rw [if_neg (by simpa using hnil)]
        obtain ⟨hsp, happ⟩ := halves_ok hpp h8 (descs l.key (firstDiff l.key r.key) c.keys)
        rw [hsp]
        dsimp only
        rcases pushCell_remains hr.2.2 ((Trie.Sub.right l r).trans hsub) c.depth (by omega)
          (halves cfg.pp (firstDiff l.key r.key) (descs l.key (firstDiff l.key r.key) c.keys)).2
          cs hcs' with ⟨cs1, h1, h2⟩ | ⟨hal, msg, h1⟩
        · rw [h1]
          dsimp only
          rcases pushCell_remains hr.2.1 ((Trie.Sub.left l r).trans hsub) c.depth (by omega)
            (halves cfg.pp (firstDiff l.key r.key) (descs l.key (firstDiff l.key r.key) c.keys)).1
            cs1 h2 with ⟨cs2, h3, h4⟩ | ⟨hal, msg, h3⟩
          · rw [h3]
            exact getLoop_remains hN hpp hn hst hdec ks0 fuel cs2 m0 h4
          · rw [h3]; exact .inr (.inr (.inr ⟨hal, msg, rfl⟩))
        · rw [h1]; exact .inr (.inr (.inr ⟨hal, msg, rfl⟩))

/-! ## Versions that may have lost nodes -/

/-- `r` is the root of a version with contents `M`, of which nodes may be missing. -/
def IsRemnant (cfg : Config N σ V) (v : View N) (T : Trie N) (r : Arr N) (M : Contents N V) : Prop :=
  T.WF ∧ T.loc cfg.hasher = r ∧ Remains cfg.hasher v T ∧ Represents cfg T M

theorem remnant_getOne (hN : 0 < N) (hrt : RoundTrip cfg) {s : σ} {T : Trie N} {r : Arr N}
    {M : Contents N V} (hdepth : HeightBelow M cfg.depth)
    (hv : IsRemnant cfg (C.view s) T r M) (k : Arr N) :
    (PathStored cfg.hasher (C.view s) k T ∧ Outcome C s (getOne cfg s r k) (.ok (M k))) ∨
    (¬ PathStored cfg.hasher (C.view s) k T ∧ Outcome C s (getOne cfg s r k) (.ok none)) := by
  obtain ⟨hwf, rfl, hst, hM⟩ := hv
  have hread : readOne cfg k T 0 = .ok (M k) := by
    rw [readOne_wf k T 0 hwf (by have := hdepth.height hwf hM; omega)]
    cases hl : T.lookup k with
    | none =>
      have h1 := hM k
      rw [hl] at h1
      cases hMk : M k with
      | none => rfl
      | some v => rw [hMk] at h1; obtain ⟨b, _, h2⟩ := h1; cases h2
    | some b =>
      obtain ⟨v, h1, h2, _⟩ := hM.decode hwf hrt ((Trie.lookup_eq_some_iff hwf).1 hl)
      simp only [h2, h1]
  have h := getOneLoop_remains (C := C) hN s k T (cfg.depth + 2) 0 hwf.norm hst (by omega) (by omega)
  rw [hread] at h
  change Outcome C s (getOne cfg s (T.loc cfg.hasher) k) _ ∨
    (_ ∧ getOne cfg s (T.loc cfg.hasher) k = _) at h
  by_cases hp : PathStored cfg.hasher (C.view s) k T
  · rcases h with h | h
    · exact .inl ⟨hp, h⟩
    · exact absurd hp h.1
  · right
    refine ⟨hp, ?_⟩
    rcases h with (h | h) | h
    · cases hMk : M k with
      | none => rw [hMk] at h; exact .inl h
      | some v =>
        rw [hMk] at h
        exact absurd (getOneLoop_path hN s k T _ 0 hwf.norm hst h) hp
    · exact .inr h
    · exact .inl h.2

theorem remnant_proof (hN : 0 < N) {s : σ} {T : Trie N} {r : Arr N} {M : Contents N V}
    (hdepth : HeightBelow M cfg.depth) (hv : IsRemnant cfg (C.view s) T r M) {k : Arr N}
    {v : V} (hk : M k = some v) :
    (PathStored cfg.hasher (C.view s) k T ∧
      ∃ p, Outcome C s (inclusionProof cfg s r k) (.ok p) ∧
        verifyInclusionProof cfg.hasher cfg.encode r k v p = .ok ()) ∨
    (¬ PathStored cfg.hasher (C.view s) k T ∧
      ∃ msg, inclusionProof cfg s r k = .error (.exception msg)) := by
  obtain ⟨hwf, rfl, hst, hM⟩ := hv
  obtain ⟨b, hb, henc⟩ := hM.entry hwf hk
  have h := proofLoop_remains (C := C) hN s k T (cfg.depth + 2) 0 [] hwf.norm hst (by omega)
    (by omega)
  rw [readProof_wf T 0 hwf (by have := hdepth.height hwf hM; omega) hb] at h
  by_cases hp : PathStored cfg.hasher (C.view s) k T
  · left
    refine ⟨hp, _, ?_, (verify_iff _ _ _ _ _ _).2
      ⟨b, false, false, _, henc, rfl, foldProof_path _ hwf hb⟩⟩
    unfold inclusionProof
    rcases h with (h | ⟨hal, msg, h⟩) | h
    · rw [h]; left; simp
    · rw [h]; exact .inr ⟨hal, msg, rfl⟩
    · exact absurd hp h.1
  · right
    refine ⟨hp, ?_⟩
    unfold inclusionProof
    rcases h with (h | ⟨hal, msg, h⟩) | ⟨-, h⟩
    · exact absurd (proofLoop_path hN s k T _ 0 _ hwf.norm hst h) hp
    · rw [h]; exact ⟨msg, rfl⟩
    · rw [h]; exact ⟨_, rfl⟩

theorem remnant_no_proof (hN : 0 < N) {s : σ} {T : Trie N} {r : Arr N} {M : Contents N V}
    (hv : IsRemnant cfg (C.view s) T r M) {k : Arr N} (hk : M k = none) :
    ∃ msg, inclusionProof cfg s r k = .error (.exception msg) := by
  obtain ⟨hwf, rfl, hst, hM⟩ := hv
  obtain ⟨msg, hm⟩ := readProof_absent (cfg := cfg) T 0 (k := k) (by
    rw [hM.mem]; simp [hk])
  have h := proofLoop_remains (C := C) hN s k T (cfg.depth + 2) 0 [] hwf.norm hst (by omega)
    (by omega)
  rw [hm] at h
  unfold inclusionProof
  rcases h with (h | ⟨hal, msg, h⟩) | ⟨-, h⟩
  · rw [h]; exact ⟨msg, rfl⟩
  · rw [h]; exact ⟨msg, rfl⟩
  · rw [h]; exact ⟨_, rfl⟩

theorem remnant_get (hN : 0 < N) (hpp : cfg.pp.Lawful) (hrt : RoundTrip cfg)
    {s : σ} {T : Trie N} {r : Arr N} {M : Contents N V}
    (hv : IsRemnant cfg (C.view s) T r M) (keys : List (Arr N)) :
    match get cfg s r keys with
    | .ok m => (∀ k, k ∉ keys → m.get? k = none) ∧
        ∀ k ∈ keys, m.get? k = some (M k) ∨ m.get? k = some none
    | .error e => e = .outOfFuel ∨
        e = .exception "Corrupt merkle tree: Failed to get leaf node from DB" ∨
        (e = .exception "Depth of merkle tree exceeded" ∧ ¬ HeightBelow M (cfg.depth + 1)) ∨
        (¬ C.alive s ∧ e.IsException) := by
  obtain ⟨hwf, rfl, hst, hM⟩ := hv
  unfold get
  by_cases hk : keys = []
  · subst hk
    simp [AMap.get?, AMap.empty]
  rw [if_neg (by simpa using hk)]
  have hmem : ∀ k, k ∈ sortKeys keys ↔ k ∈ keys := fun k => (sortKeys_perm keys).mem_iff
  have hsne : sortKeys keys ≠ [] := by
    intro h
    obtain ⟨a, l, hl⟩ := List.exists_cons_of_ne_nil hk
    have := (hmem a).2 (by simp [hl])
    rw [h] at this
    cases this
  dsimp only
  have hdec : ∀ e ∈ T.entries, ∃ x, cfg.decode e.2 = .ok x := by
    intro e he
    obtain ⟨v, _, h2, _⟩ := hM.decode hwf hrt (k := e.1) (b := e.2) he
    exact ⟨v, h2⟩
  have hleaf : ∀ m : AMap (Arr N) (Option V),
      (∀ k, m.get? k = (generateLeafMap keys : AMap (Arr N) (Option V)).get? k ∨
        (k ∈ sortKeys keys ∧ ∃ b x, (k, b) ∈ T.entries ∧
          cfg.decode b = .ok x ∧ m.get? k = some (some x))) →
      (∀ k, k ∉ keys → m.get? k = none) ∧
        ∀ k ∈ keys, m.get? k = some (M k) ∨ m.get? k = some none := by
    intro m hm
    constructor
    · intro k hkk
      rcases hm k with h | ⟨h, -⟩
      · rw [h, generateLeafMap_get, if_neg hkk]
      · exact absurd ((hmem k).1 h) hkk
    · intro k hkk
      rcases hm k with h | ⟨-, b, x, h1, h2, h3⟩
      · right; rw [h, generateLeafMap_get, if_pos hkk]
      · left
        obtain ⟨v, h4, h5, _⟩ := hM.decode hwf hrt h1
        rw [h2] at h5
        cases h5
        rw [h3, h4]
  rcases getNode_only hst.root with ⟨refs, hg, hh⟩ | ⟨hg, hh⟩ | ⟨msg, hg, hal⟩
  · rw [hg]
    dsimp only
    have := getLoop_remains (C := C) hN hpp hwf.norm hst hdec
      (sortKeys keys) (traversalFuel cfg keys.length)
      [⟨T.loc cfg.hasher, sortKeys keys, ⟨refs, T.variant cfg.hasher⟩, 0⟩]
      (generateLeafMap keys) (by
        intro c hc
        rw [List.mem_singleton] at hc
        subst hc
        exact ⟨T, Trie.Sub.refl T, rfl, hsne, by simp⟩)
    cases hres : getLoop cfg s (sortKeys keys) (traversalFuel cfg keys.length)
        [⟨T.loc cfg.hasher, sortKeys keys, ⟨refs, T.variant cfg.hasher⟩, 0⟩]
        (generateLeafMap keys) with
    | error e =>
      rw [hres] at this
      rcases this with h | h | ⟨h1, h2⟩ | h
      · exact .inl h
      · exact .inr (.inl h)
      · exact .inr (.inr (.inl ⟨h1, fun hd => by have := hd.height hwf hM; omega⟩))
      · exact .inr (.inr (.inr h))
    | ok m => rw [hres] at this; exact hleaf m this
  · rw [hg]
    exact hleaf _ (fun k => .inl rfl)
  · rw [hg]
    exact .inr (.inr (.inr ⟨hal, msg, rfl⟩))

end
end MerkleBit
