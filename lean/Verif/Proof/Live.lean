import Verif.Spec.Errors
import Verif.Proof.Batches
import Verif.Proof.Termination
/-! # Errors of calls on live roots -/

namespace MerkleBit
variable {N : Nat} {σ V : Type}

open Trie

section
variable {cfg : Config N σ V} {C : DbContract cfg.db} {U : HIn N → Prop}

theorem readOne_err {k : Arr N} : ∀ (t : Trie N) (d : Nat) (e : Err), readOne cfg k t d = .error e →
    (e = .exception "Depth limit exceeded" ∧ cfg.depth ≤ d + t.height) ∨
    ∃ p ∈ t.entries, p.1 = k ∧ cfg.decode p.2 = .error e
  | .leaf k' v, d, e, h => by
    unfold readOne at h
    simp only [height, entries]
    split at h
    · cases h; exact .inl ⟨rfl, by omega⟩
    · split at h
      · cases h
      · rename_i hk
        split at h
        · cases h; exact .inl ⟨rfl, by omega⟩
        · split at h
          · cases h
          · rename_i he; cases h; right; exact ⟨(k', v), by simp, by simpa using hk, he⟩
  | .node l r, d, e, h => by
    unfold readOne at h
    simp only [height, entries, List.mem_append]
    split at h
    · cases h; exact .inl ⟨rfl, by omega⟩
    · split at h
      · cases h
      · split at h
        · rcases readOne_err r _ _ h with ⟨h1, h2⟩ | ⟨p, h1, h2⟩
          · exact .inl ⟨h1, by omega⟩
          · exact .inr ⟨p, .inr h1, h2⟩
        · rcases readOne_err l _ _ h with ⟨h1, h2⟩ | ⟨p, h1, h2⟩
          · exact .inl ⟨h1, by omega⟩
          · exact .inr ⟨p, .inl h1, h2⟩

theorem readOne_some {k : Arr N} {x : V} : ∀ (t : Trie N) (d : Nat), readOne cfg k t d = .ok (some x) →
    ∃ b, (k, b) ∈ t.entries ∧ cfg.decode b = .ok x
  | .leaf k' v, d, h => by
    unfold readOne at h
    simp only [entries]
    split at h
    · cases h
    · split at h
      · cases h
      · rename_i hk
        split at h
        · cases h
        · split at h
          · rename_i he
            cases h
            exact ⟨v, by simp [not_not.1 hk], he⟩
          · cases h
  | .node l r, d, h => by
    unfold readOne at h
    simp only [entries, List.mem_append]
    split at h
    · cases h
    · split at h
      · cases h
      · split at h
        · obtain ⟨b, h1, h2⟩ := readOne_some r _ h
          exact ⟨b, .inr h1, h2⟩
        · obtain ⟨b, h1, h2⟩ := readOne_some l _ h
          exact ⟨b, .inl h1, h2⟩

theorem readProof_err {k : Arr N} : ∀ (t : Trie N) (d : Nat) (e : Err),
    readProof cfg k t d = .error e →
    (e = .exception "Depth limit exceeded" ∧ cfg.depth ≤ d + t.height) ∨
    e = .exception "Key not found in tree"
  | .leaf k' v, d, e, h => by
    unfold readProof at h
    simp only [height]
    split at h
    · cases h; exact .inl ⟨rfl, by omega⟩
    · split at h
      · cases h; exact .inr rfl
      · split at h
        · cases h; exact .inl ⟨rfl, by omega⟩
        · cases h
  | .node l r, d, e, h => by
    unfold readProof at h
    simp only [height]
    split at h
    · cases h; exact .inl ⟨rfl, by omega⟩
    · split at h
      · cases h; exact .inr rfl
      · split at h
        · split at h
          · cases h
          · rename_i he
            cases h
            rcases readProof_err r _ _ he with ⟨h1, h2⟩ | h1
            · exact .inl ⟨h1, by omega⟩
            · exact .inr h1
        · split at h
          · cases h
          · rename_i he
            cases h
            rcases readProof_err l _ _ he with ⟨h1, h2⟩ | h1
            · exact .inl ⟨h1, by omega⟩
            · exact .inr h1

/-- An entry of a tree was hashed. -/
theorem entry_input {H : Hasher N} {k : Arr N} {b : List UInt8} : ∀ {t : Trie N},
    (k, b) ∈ t.entries → HIn.data k b ∈ t.inputs H
  | .leaf k' v, h => by
    simp only [entries, List.mem_singleton, Prod.mk.injEq] at h
    obtain ⟨rfl, rfl⟩ := h
    simp [inputs]
  | .node l r, h => by
    simp only [entries, List.mem_append] at h
    simp only [inputs, List.mem_cons, List.mem_append]
    rcases h with h | h
    · exact .inr (.inl (entry_input h))
    · exact .inr (.inr (entry_input h))

/-- An insert on top of a stored tree (or of nothing) fails only for reasons the caller is
responsible for. -/
theorem insert_live (hN : 0 < N) (hpp : cfg.pp.Lawful) (hU : CollisionFree cfg.hasher U)
    {s0 : σ} {pt : Option (Trie N)} {keys : List (Arr N)} {values : List V}
    (hin : ∀ i ∈ hashedBy cfg (pt.map (·.loc cfg.hasher)) keys values s0, U i)
    (hsound : Sound C U s0) (hpt : ∀ T, pt = some T → Stored cfg.hasher (C.view s0) T) :
    Ends C (InsertErr cfg keys values (∃ T, pt = some T ∧ cfg.depth < T.height))
      (insert cfg (pt.map (·.loc cfg.hasher)) keys values) s0 (fun _ _ => True)
      (fun _ => True) := by
  have start := hsound.inv
  by_cases hlen : keys.length = values.length
  swap
  · unfold insert Ends
    rw [if_pos hlen]
    exact ⟨.inl ⟨.inl ⟨rfl, hlen⟩, id⟩, trivial⟩
  by_cases hne : keys = []
  · unfold insert Ends
    rw [if_neg (by simpa using hlen), if_pos (by simp [hne])]
    exact ⟨.inl ⟨.inr (.inl ⟨rfl, hne⟩), id⟩, trivial⟩
  refine ends_of_guard (C := C) hin (triple_conseq (insert_blocks (cfg := gcfg U cfg)
    (C := C.guard U) (v0 := C.view s0)
    (f := encOf cfg keys values) (prev := pt) hN hpp hU (guardDb_guards U cfg.db) hlen hne
    ?_ ?_ ?_ ?_) (fun _ h => h) (fun _ _ _ => trivial) (fun _ _ => trivial)) start.guard
  · intro k hk
    rcases encodedOf_cases cfg hlen hk with ⟨h1, _⟩ | ⟨v, hv, e, h1, h2⟩
    · exact .inl h1
    · exact .inr ⟨e, h2, .inr (.inr (.inr (.inl ⟨v, hv, h1⟩)))⟩
  · intro k hk hok
    rcases encodedOf_cases cfg hlen hk with ⟨_, h⟩ | ⟨v, _, e, _, h⟩
    · exact hin _ (mem_hashedBy h _ (by simp [Trie.inputs]))
    · exact absurd (hok.symm.trans h) (by simp)
  · intro T hT
    obtain ⟨h1, h2⟩ := (hpt T hT).honest hU hsound.view
    refine ⟨h1, .inl (hpt T hT), h2, ?_⟩
    by_cases hd : cfg.depth < T.height
    · exact .inr (.inr (.inr (.inr (.inr ⟨rfl, T, hT, hd⟩))))
    · exact .inl (by change T.height ≤ cfg.depth; omega)
  · intro _
    exact .inr (.inr (.inl rfl))

/-! ## Everything hashed as data was an encoded value of a call -/

theorem encodedPairs_encode {keys : List (Arr N)} {values : List V} {k : Arr N} {b : List UInt8}
    (h : (k, b) ∈ encodedPairs cfg keys values) :
    ∃ v, (k, v) ∈ keys.zip values ∧ cfg.encode v = .ok b := by
  unfold encodedPairs at h
  obtain ⟨⟨k', v⟩, h1, h2⟩ := List.mem_filterMap.1 h
  dsimp only at h2
  split at h2
  · rename_i he
    cases h2
    exact ⟨v, h1, he⟩
  · cases h2

theorem Inserts.data_encoded {H : List (HIn N)} {R : List (Arr N)} {L : Ledger N V} {s : σ}
    (h : Inserts cfg C H R L s) {k : Arr N} {b : List UInt8} (hk : HIn.data k b ∈ H) :
    ∃ v, cfg.encode v = .ok b := by
  induction h with
  | start => cases hk
  | anyAt _ _ ih =>
    rcases List.mem_append.1 hk with hk | hk
    · obtain ⟨v, -, h⟩ := encodedPairs_encode (hashedBy_data hk)
      exact ⟨v, h⟩
    · exact ih hk
  | goodAt _ _ _ _ ih =>
    rcases List.mem_append.1 hk with hk | hk
    · obtain ⟨v, -, h⟩ := encodedPairs_encode (hashedBy_data hk)
      exact ⟨v, h⟩
    · exact ih hk
  | crashAt _ _ ih =>
    rcases List.mem_append.1 hk with hk | hk
    · obtain ⟨v, -, h⟩ := encodedPairs_encode (hashedBy_data hk)
      exact ⟨v, h⟩
    · exact ih hk
  | reopen _ _ _ ih => exact ih hk

/-- The values of the tree under any returned root decode. -/
theorem Inserts.decodes {H : List (HIn N)} {R : List (Arr N)} {L : Ledger N V} {s : σ}
    (hrt : RoundTrip cfg) (h : Inserts cfg C H R L s) {T : Trie N}
    (hT : ∀ i ∈ T.inputs cfg.hasher, Among H i) {p : Arr N × List UInt8} (hp : p ∈ T.entries) :
    ∃ v, cfg.decode p.2 = .ok v ∧ cfg.encode v = .ok p.2 ∧ HIn.data p.1 p.2 ∈ H := by
  have h1 := hT _ (entry_input (H := cfg.hasher) hp)
  obtain ⟨v, h2⟩ := h.data_encoded h1
  exact ⟨v, hrt v _ h2, h2, h1⟩

/-! ## Depth limits -/

theorem halves_single (hpp : cfg.pp.Lawful) {i : Nat} (hi : i < 8 * N) (k : Arr N) :
    halves cfg.pp i [k] = if k.bit i then ([], [k]) else ([k], []) := by
  unfold halves
  cases hb : k.bit i with
  | true =>
    rw [show [k] = [] ++ [k] from rfl, splitPairs_ok hpp hi (by simp) (by simp [hb])]
    simp
  | false =>
    rw [show [k] = [k] ++ [] from rfl, splitPairs_ok hpp hi (by simp [hb]) (by simp)]
    simp

theorem descs_one (hN : 0 < N) {k b : Arr N} {i : Nat} (hi : i ≤ 8 * N) (h : i ≤ firstDiff k b) :
    descs b i [k] = [k] := by
  obtain ⟨m, h1, h2⟩ := descs_single hN k b hi
  unfold descs
  rw [h1]
  dsimp only
  rw [h2, if_pos h]

/-- The key with the longest path is refused by `get_one` and by the proof generation when that path
is as long as the limit, and by `get` when it is longer. -/
theorem deepest (hN : 0 < N) (hpp : cfg.pp.Lawful) : ∀ (t : Trie N), t.WF → ∃ k ∈ t.keys,
    ∀ d, (cfg.depth ≤ d + t.height →
        readOne cfg k t d = .error (.exception "Depth limit exceeded") ∧
        readProof cfg k t d = .error (.exception "Depth limit exceeded")) ∧
      (cfg.depth < d + t.height → ∀ ks0 m, readMany cfg ks0 t [k] d m =
        .error (.exception "Depth of merkle tree exceeded"))
  | .leaf k v, _ => by
    refine ⟨k, by simp [keys, entries], fun d => ⟨?_, ?_⟩⟩
    · intro hd
      simp only [height] at hd
      unfold readOne readProof
      by_cases h : d > cfg.depth
      · rw [if_pos h, if_pos h]; exact ⟨rfl, rfl⟩
      · have h' : d + 1 > cfg.depth := by omega
        simp [h, h']
    · intro hd ks0 m
      simp only [height] at hd
      unfold readMany
      rw [if_pos (by omega)]
  | .node l r, hwf => by
    have hsp : firstDiff l.key r.key < 8 * N := hwf.split_lt
    have agree : ∀ k ∈ (Trie.node l r).keys, firstDiff l.key r.key ≤ firstDiff k l.key := by
      intro k hk
      have := hwf.agree k hk
      simpa only [split, key] using this
    by_cases hlr : r.height ≤ l.height
    · obtain ⟨k, hk, ih⟩ := deepest hN hpp l hwf.1
      have hkm : k ∈ (Trie.node l r).keys := by
        simp only [keys, entries, List.map_append, List.mem_append] at hk ⊢
        exact .inl hk
      have hb : k.bit (firstDiff l.key r.key) = false := by
        have := hwf.bit_left hk
        simpa only [split] using this
      have ha := agree k hkm
      refine ⟨k, hkm, fun d => ⟨?_, ?_⟩⟩
      · intro hd
        simp only [height] at hd
        obtain ⟨h1, h2⟩ := (ih (d + 1)).1 (by omega)
        unfold readOne readProof
        by_cases h : d > cfg.depth
        · rw [if_pos h, if_pos h]; exact ⟨rfl, rfl⟩
        · have ha' : ¬ firstDiff k l.key < firstDiff l.key r.key := by omega
          rw [if_neg h, if_neg h, if_neg ha', if_neg ha', hb]
          simp only [Bool.false_eq_true, if_false, h1, h2]
          exact ⟨trivial, trivial⟩
      · intro hd ks0 m
        simp only [height] at hd
        unfold readMany
        by_cases h : d > cfg.depth
        · rw [if_pos h]
        · rw [if_neg h, descs_one hN (by omega) ha, if_neg (by simp), halves_single hpp hsp, hb]
          simp only [Bool.false_eq_true, if_false, List.cons_ne_nil]
          rw [(ih (d + 1)).2 (by omega)]
    · obtain ⟨k, hk, ih⟩ := deepest hN hpp r hwf.2.1
      have hkm : k ∈ (Trie.node l r).keys := by
        simp only [keys, entries, List.map_append, List.mem_append] at hk ⊢
        exact .inr hk
      have hb : k.bit (firstDiff l.key r.key) = true := by
        have := hwf.bit_right hk
        simpa only [split] using this
      have ha := agree k hkm
      refine ⟨k, hkm, fun d => ⟨?_, ?_⟩⟩
      · intro hd
        simp only [height] at hd
        obtain ⟨h1, h2⟩ := (ih (d + 1)).1 (by omega)
        unfold readOne readProof
        by_cases h : d > cfg.depth
        · rw [if_pos h, if_pos h]; exact ⟨rfl, rfl⟩
        · have ha' : ¬ firstDiff k l.key < firstDiff l.key r.key := by omega
          rw [if_neg h, if_neg h, if_neg ha', if_neg ha', hb]
          simp only [if_true, h1, h2]
          exact ⟨trivial, trivial⟩
      · intro hd ks0 m
        simp only [height] at hd
        unfold readMany
        by_cases h : d > cfg.depth
        · rw [if_pos h]
        · rw [if_neg h, descs_one hN (by omega) ha, if_neg (by simp), halves_single hpp hsp, hb]
          simp only [if_true, List.cons_ne_nil, if_false]
          rw [(ih (d + 1)).2 (by omega)]

/-! ## Removes do not fail on a live database -/

theorem removeLoop_alive : ∀ fuel q s, C.alive s → 2 * (C.view s).size + q.length ≤ fuel →
    ∃ s', removeLoop cfg fuel q s = (.ok (), s') ∧ C.alive s' := by
  intro fuel
  induction fuel with
  | zero =>
    intro q s hs h
    rw [List.length_eq_zero_iff.1 (by omega : q.length = 0)]
    exact ⟨s, rfl, hs⟩
  | succ fuel ih =>
    intro q s hs hw
    cases q with
    | nil => exact ⟨s, rfl, hs⟩
    | cons x q =>
      simp only [List.length_cons] at hw
      unfold removeLoop
      change ∃ s', M.bind (dbGet cfg x) _ s = _ ∧ _
      unfold M.bind dbGet M.read
      dsimp only
      cases hg : cfg.db.getNode s x with
      | error e => exact absurd hs (C.getNode_err hg).1
      | ok o =>
        have hv := C.getNode_ok hg
        cases o with
        | none => exact ih _ _ hs (by omega)
        | some n =>
          have hx : (C.view s x).isSome := by rw [← hv]; rfl
          dsimp only
          have hdel : ∀ l : List (Arr N), l.length ≤ 2 → ∃ s',
              M.bind (cfg.db.remove x) (fun _ => removeLoop cfg fuel (q ++ l)) s = (.ok (), s') ∧
                C.alive s' := by
            intro l hl
            unfold M.bind
            rcases hr : cfg.db.remove x s with ⟨r, s'⟩
            cases r with
            | error e => exact absurd hs (C.remove_err hr).1
            | ok u =>
              dsimp only
              obtain ⟨h0, h1, -⟩ := C.remove_ok hr
              apply ih _ _ (h0 hs)
              have := View.size_del hx
              rw [h1, List.length_append]
              omega
          split
          · generalize n.variant = v
            cases v with
            | branch b => exact hdel [b.zero, b.one] (by simp)
            | leaf l => exact hdel [l.data] (by simp)
            | data d =>
              have := hdel [] (by simp)
              rw [List.append_nil] at this
              exact this
          · change ∃ s', M.bind (cfg.db.insert x _) _ s = _ ∧ _
            unfold M.bind
            rcases hr : cfg.db.insert x ⟨n.references - 1, n.variant⟩ s with ⟨r, s'⟩
            cases r with
            | error e => exact absurd hs (C.insert_err hr).1
            | ok u =>
              dsimp only
              obtain ⟨h0, h1⟩ := C.insert_ok hr
              apply ih _ _ (h0 hs)
              have : (C.view s').size = (C.view s).size := by
                rcases h1 with ⟨-, h1, -⟩ | ⟨h1, -⟩
                · rw [h1]; exact View.size_put hx
                · rw [h1]
              omega

/-- `remove` succeeds on every database state whose calls do not fail. -/
theorem remove_alive {s : σ} (hs : C.alive s) (r : Arr N) :
    ∃ s', remove cfg r s = (.ok (), s') ∧ C.alive s' := by
  obtain ⟨s1, h1, h2⟩ := removeLoop_alive (C := C) (cfg := cfg) (removeFuel N) [r] s hs (by
    have := View.size_le (C.view s)
    simp only [List.length_singleton]
    unfold removeFuel
    omega)
  unfold remove
  simp only [M.bind_eq]
  unfold M.bind
  rw [h1]
  dsimp only
  rcases hb : cfg.db.batchWrite s1 with ⟨r, s'⟩
  cases r with
  | error e => exact absurd h2 (C.batchWrite_err hb).1
  | ok u => exact ⟨s', rfl, (C.batchWrite_ok hb).1 h2⟩

end
end MerkleBit
