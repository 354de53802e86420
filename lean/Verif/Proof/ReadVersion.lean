import Verif.Proof.Opened
import Verif.Proof.Read
import Verif.Proof.History
/-! # Reads of a version -/

namespace MerkleBit
variable {N : Nat} {σ V α : Type}

open Trie

section
variable {cfg : Config N σ V} {C : DbContract cfg.db}

/-! ## `get` -/

theorem generateLeafMap_get {ν : Type} (keys : List (Arr N)) (k : Arr N) :
    (generateLeafMap (ν := ν) keys).get? k = if k ∈ keys then some none else none := by
  have : ∀ (l : List (Arr N)) (m : AMap (Arr N) (Option ν)),
      (l.foldl (fun m k => m.insert k none) m).get? k = if k ∈ l then some none else m.get? k := by
    intro l
    induction l with
    | nil => intro m; simp
    | cons a l ih =>
      intro m
      rw [List.foldl_cons, ih, AMap.get?_insert]
      by_cases h1 : k ∈ l
      · simp [h1]
      · by_cases h2 : k = a
        · simp [h2]
        · simp [h1, h2]
  unfold generateLeafMap
  rw [this]
  simp [AMap.get?, AMap.empty]

/-- What `get` adds to its result while visiting a subtree. -/
theorem readMany_ok (ks0 : List (Arr N)) : ∀ (t : Trie N) (ks : List (Arr N)) (d : Nat)
    (m m' : AMap (Arr N) (Option V)), readMany cfg ks0 t ks d m = .ok m' → ∀ k,
      (∃ v x, (k, v) ∈ visit cfg.pp t ks ∧ k ∈ ks0 ∧ cfg.decode v = .ok x ∧
        m'.get? k = some (some x)) ∨
      ((k ∉ ks0 ∨ ∀ v, (k, v) ∉ visit cfg.pp t ks) ∧ m'.get? k = m.get? k)
  | .leaf k' v, ks, d, m, m', h, k => by
    unfold readMany at h
    unfold visit
    split at h
    · cases h
    · cases hdec : cfg.decode v with
      | error e => rw [hdec] at h; cases h
      | ok x =>
        rw [hdec] at h
        dsimp only at h
        split at h
        · next hk =>
          cases h
          rw [AMap.get?_insert]
          by_cases hkk : k = k'
          · subst hkk
            exact .inl ⟨v, x, by simp, hk, hdec, by simp⟩
          · right
            refine ⟨.inr fun v => by simp [hkk], by simp [hkk]⟩
        · next hk =>
          cases h
          right
          refine ⟨?_, rfl⟩
          by_cases hkk : k = k'
          · subst hkk; exact .inl hk
          · right; intro v; simp [hkk]
  | .node l r, ks, d, m, m', h, k => by
    unfold readMany at h
    unfold visit
    split at h
    · cases h
    · split at h
      · next hd => cases h; rw [if_pos hd]; right; simp
      · next hd =>
        rw [if_neg hd]
        dsimp only
        generalize halves cfg.pp (firstDiff l.key r.key)
          (descs l.key (firstDiff l.key r.key) ks) = hv at h
        obtain ⟨zs, os⟩ := hv
        dsimp only at h ⊢
        split at h
        · cases h
        · next m1 hm1 =>
          have hl : (∃ v x, (k, v) ∈ (if zs = [] then [] else visit cfg.pp l zs) ∧ k ∈ ks0 ∧
              cfg.decode v = .ok x ∧ m1.get? k = some (some x)) ∨
              ((k ∉ ks0 ∨ ∀ v, (k, v) ∉ (if zs = [] then [] else visit cfg.pp l zs)) ∧
                m1.get? k = m.get? k) := by
            split at hm1
            · next hz => cases hm1; right; simp [hz]
            · next hz => rw [if_neg hz]; exact readMany_ok ks0 l zs _ _ _ hm1 k
          have hr : (∃ v x, (k, v) ∈ (if os = [] then [] else visit cfg.pp r os) ∧ k ∈ ks0 ∧
              cfg.decode v = .ok x ∧ m'.get? k = some (some x)) ∨
              ((k ∉ ks0 ∨ ∀ v, (k, v) ∉ (if os = [] then [] else visit cfg.pp r os)) ∧
                m'.get? k = m1.get? k) := by
            split at h
            · next ho => cases h; right; simp [ho]
            · next ho => rw [if_neg ho]; exact readMany_ok ks0 r os _ _ _ h k
          simp only [List.mem_append]
          rcases hr with ⟨v, x, h1, h2⟩ | ⟨h1, h2⟩
          · exact .inl ⟨v, x, .inr h1, h2⟩
          · rcases hl with ⟨v, x, h3, h4, h5, h6⟩ | ⟨h3, h4⟩
            · exact .inl ⟨v, x, .inl h3, h4, h5, by rw [h2, h6]⟩
            · right
              refine ⟨?_, by rw [h2, h4]⟩
              rcases h1 with h1 | h1
              · exact .inl h1
              · rcases h3 with h3 | h3
                · exact .inl h3
                · exact .inr fun v => by rintro (h | h); exacts [h3 v h, h1 v h]

/-- `get` fails only on the depth limit or on a value that does not decode. -/
theorem readMany_total (ks0 : List (Arr N)) : ∀ (t : Trie N) (ks : List (Arr N)) (d : Nat)
    (m : AMap (Arr N) (Option V)), (∀ e ∈ t.entries, ∃ x, cfg.decode e.2 = .ok x) →
      d + t.height ≤ cfg.depth → ∃ m', readMany cfg ks0 t ks d m = .ok m'
  | .leaf k' v, ks, d, m, hdec, hd => by
    simp only [height] at hd
    obtain ⟨x, hx⟩ := hdec (k', v) (by simp [entries])
    unfold readMany
    rw [if_neg (by omega), hx]
    dsimp only
    split <;> exact ⟨_, rfl⟩
  | .node l r, ks, d, m, hdec, hd => by
    simp only [height] at hd
    unfold readMany
    rw [if_neg (by omega)]
    split
    · exact ⟨_, rfl⟩
    · generalize halves cfg.pp (firstDiff l.key r.key)
          (descs l.key (firstDiff l.key r.key) ks) = hv
      obtain ⟨zs, os⟩ := hv
      dsimp only
      have hl : ∃ m1, (if zs = [] then .ok m else readMany cfg ks0 l zs (d + 1) m) = .ok m1 := by
        split
        · exact ⟨_, rfl⟩
        · exact readMany_total ks0 l zs (d + 1) m
            (fun e he => hdec e (by simp [entries, he])) (by omega)
      obtain ⟨m1, h1⟩ := hl
      rw [h1]
      dsimp only
      split
      · exact ⟨_, rfl⟩
      · exact readMany_total ks0 r os (d + 1) m1
          (fun e he => hdec e (by simp [entries, he])) (by omega)

/-- Errors of `get` on a stored tree. -/
theorem readMany_err (ks0 : List (Arr N)) : ∀ (t : Trie N) (ks : List (Arr N)) (d : Nat)
    (m : AMap (Arr N) (Option V)) (e : Err), readMany cfg ks0 t ks d m = .error e →
      (e = .exception "Depth of merkle tree exceeded" ∧ cfg.depth < d + t.height) ∨
      ∃ p ∈ t.entries, cfg.decode p.2 = .error e
  | .leaf k' v, ks, d, m, e, h => by
    unfold readMany at h
    split at h
    · cases h; left; exact ⟨rfl, by simp only [height]; omega⟩
    · split at h
      · next he => cases h; right; exact ⟨(k', v), by simp [entries], he⟩
      · split at h <;> cases h
  | .node l r, ks, d, m, e, h => by
    unfold readMany at h
    split at h
    · cases h; left; exact ⟨rfl, by simp only [height]; omega⟩
    · split at h
      · cases h
      · generalize halves cfg.pp (firstDiff l.key r.key)
          (descs l.key (firstDiff l.key r.key) ks) = hv at h
        obtain ⟨zs, os⟩ := hv
        dsimp only at h
        simp only [height, entries, List.mem_append]
        split at h
        · next hm =>
          cases h
          split at hm
          · cases hm
          · rcases readMany_err ks0 l zs _ _ _ hm with ⟨h1, h2⟩ | ⟨p, h1, h2⟩
            · left; exact ⟨h1, by omega⟩
            · right; exact ⟨p, .inl h1, h2⟩
        · split at h
          · cases h
          · rcases readMany_err ks0 r os _ _ _ h with ⟨h1, h2⟩ | ⟨p, h1, h2⟩
            · left; exact ⟨h1, by omega⟩
            · right; exact ⟨p, .inr h1, h2⟩

/-! ## Versions -/

/-- The stored bytes of a version decode to its values. -/
theorem Represents.decode {T : Trie N} {M : Contents N V} (hT : T.WF) (h : Represents cfg T M)
    (hrt : RoundTrip cfg) {k : Arr N} {b : List UInt8} :
    (k, b) ∈ T.entries → ∃ v, M k = some v ∧ cfg.decode b = .ok v ∧ cfg.encode v = .ok b := by
  intro he
  rw [← lookup_eq_some_iff hT] at he
  have := h k
  rw [he] at this
  cases hM : M k with
  | none => rw [hM] at this; cases this
  | some v =>
    rw [hM] at this
    obtain ⟨b', h1, h2⟩ := this
    cases h2
    exact ⟨v, rfl, hrt _ _ h1, h1⟩

theorem Represents.entry {T : Trie N} {M : Contents N V} (hT : T.WF) (h : Represents cfg T M)
    {k : Arr N} {v : V} (hM : M k = some v) : ∃ b, (k, b) ∈ T.entries ∧ cfg.encode v = .ok b := by
  have := h k
  rw [hM] at this
  obtain ⟨b, h1, h2⟩ := this
  exact ⟨b, (lookup_eq_some_iff hT).1 h2, h1⟩

theorem Represents.unique {T T' : Trie N} {M : Contents N V} (hT : T.WF) (hT' : T'.WF)
    (h : Represents cfg T M) (h' : Represents cfg T' M) : T = T' := by
  apply eq_of_lookup hT hT'
  intro k
  have h1 := h k
  have h2 := h' k
  cases hM : M k with
  | none => rw [hM] at h1 h2; rw [h1, h2]
  | some v =>
    rw [hM] at h1 h2
    obtain ⟨b, h3, h4⟩ := h1
    obtain ⟨b', h5, h6⟩ := h2
    rw [h3] at h5
    cases h5
    rw [h4, h6]

/-- `get_one` of a version. -/
theorem version_getOne (hN : 0 < N) (hrt : RoundTrip cfg) {s : σ}
    {r : Arr N} {M : Contents N V} (hdepth : HeightBelow M cfg.depth) (hv : IsVersion cfg (C.view s) r M) (k : Arr N) :
    Outcome C s (getOne cfg s r k) (.ok (M k)) := by
  obtain ⟨T, hwf, rfl, hst, hM⟩ := hv
  have := getOne_stored (C := C) hN hwf.norm hst k
  rw [readOne_wf k T 0 hwf (by have := hdepth.height hwf hM; omega)] at this
  cases hl : T.lookup k with
  | none =>
    rw [hl] at this
    have h1 := hM k
    rw [hl] at h1
    cases hMk : M k with
    | none => exact this
    | some v => rw [hMk] at h1; obtain ⟨b, _, h2⟩ := h1; cases h2
  | some b =>
    rw [hl] at this
    obtain ⟨v, h1, h2, _⟩ := hM.decode hwf hrt ((lookup_eq_some_iff hwf).1 hl)
    simp only [h2] at this
    rw [h1]
    exact this

/-- `get` of a version: exactly the requested keys, and no wrong value. -/
theorem version_get (hN : 0 < N) (hpp : cfg.pp.Lawful) (hrt : RoundTrip cfg)
    {s : σ} {r : Arr N} {M : Contents N V} (hdepth : HeightBelow M (cfg.depth + 1))
    (hv : IsVersion cfg (C.view s) r M) (keys : List (Arr N)) :
    ∃ m, Outcome C s (get cfg s r keys) (.ok m) ∧
      (∀ k, k ∉ keys → m.get? k = none) ∧
      (∀ k ∈ keys, m.get? k = some (M k) ∨ m.get? k = some none) ∧
      (∀ k ∈ keys, m.get? k = some (M k) ↔ (M k = none ∨ Finds cfg M keys k)) := by
  obtain ⟨T, hwf, rfl, hst, hM⟩ := hv
  have hg := get_stored (C := C) hN hpp hwf.norm hst keys
  unfold readBatch at hg
  by_cases hk : keys = []
  · subst hk
    refine ⟨AMap.empty, by simpa using hg, ?_⟩
    simp [AMap.get?, AMap.empty]
  · rw [if_neg (by simpa using hk)] at hg
    have hmem : ∀ k, k ∈ sortKeys keys ↔ k ∈ keys := fun k => (sortKeys_perm keys).mem_iff
    obtain ⟨m, hm⟩ := readMany_total (cfg := cfg) (sortKeys keys) T (sortKeys keys) 0
      (generateLeafMap keys)
      (fun e he => by
        obtain ⟨v, _, h2, _⟩ := hM.decode hwf hrt (k := e.1) (b := e.2) he
        exact ⟨v, h2⟩)
      (by have := hdepth.height hwf hM; omega)
    rw [hm] at hg
    have hval : ∀ {k v x}, (k, v) ∈ visit cfg.pp T (sortKeys keys) → cfg.decode v = .ok x →
        M k = some x := by
      intro k v x h1 h2
      obtain ⟨v', h3, h4, _⟩ := hM.decode hwf hrt (visit_sound _ _ _ h1)
      rw [h2] at h4
      cases h4
      exact h3
    refine ⟨m, hg, ?_, ?_, ?_⟩
    · intro k hkk
      rcases readMany_ok _ _ _ _ _ _ hm k with ⟨v, x, _, h2, _⟩ | ⟨_, h2⟩
      · exact absurd ((hmem k).1 h2) hkk
      · rw [h2, generateLeafMap_get, if_neg hkk]
    · intro k hkk
      rcases readMany_ok _ _ _ _ _ _ hm k with ⟨v, x, h1, _, h3, h4⟩ | ⟨_, h2⟩
      · left; rw [h4, hval h1 h3]
      · right; rw [h2, generateLeafMap_get, if_pos hkk]
    · intro k hkk
      have hne : sortKeys keys ≠ [] := List.ne_nil_of_mem ((hmem k).2 hkk)
      rcases readMany_ok _ _ _ _ _ _ hm k with ⟨v, x, h1, _, h3, h4⟩ | ⟨h1, h2⟩
      · rw [h4, hval h1 h3]
        refine iff_of_true rfl (.inr fun T' hwf' hM' => ?_)
        rw [Represents.unique hwf' hwf hM' hM]
        exact (visit_iff hN hpp hwf (sortKeys_sorted keys) hne (visit_sound _ _ _ h1)).1 h1
      · rw [h2, generateLeafMap_get, if_pos hkk]
        cases hMk : M k with
        | none => simp
        | some v =>
          refine iff_of_false (by simp) ?_
          rintro (h | h)
          · cases h
          obtain ⟨b, hb, _⟩ := hM.entry hwf hMk
          rcases h1 with h1 | h1
          · exact h1 ((hmem k).2 hkk)
          · exact h1 b ((visit_iff hN hpp hwf (sortKeys_sorted keys) hne hb).2 (h T hwf hM))

end
end MerkleBit
