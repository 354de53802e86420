import Verif.Spec.Live
import Verif.Proof.InsertContent
import Verif.Proof.History
/-! # Branches written by an insert -/

namespace MerkleBit
variable {N : Nat} {σ V : Type}
open Trie

/-- `u` holds exactly the pairs of `t` whose keys share the first `u.split` bits with `u`. -/
def Cuts (t u : Trie N) : Prop :=
  ∀ e, e ∈ u.entries ↔ e ∈ t.entries ∧ u.split ≤ firstDiff u.key e.1

theorem mem_keys {t : Trie N} {k : Arr N} : k ∈ t.keys ↔ ∃ v, (k, v) ∈ t.entries := by
  simp [keys]

theorem firstDiff_split {l r : Trie N} (h : (Trie.node l r).WF) {a b : Arr N} (ha : a ∈ l.keys)
    (hb : b ∈ r.keys) : firstDiff a b ≤ firstDiff l.key r.key := by
  by_contra hlt
  have h1 := h.bit_left ha
  have h2 := h.bit_right hb
  have := bit_eq_of_lt_firstDiff (a := a) (b := b) (i := firstDiff l.key r.key) (by omega)
  simp only [split] at h1 h2
  rw [h1, h2] at this
  cases this

/-- Subtrees cut. -/
theorem Sub.cuts {u : Trie N} : ∀ {t : Trie N}, t.WF → u.Sub t → Cuts t u
  | .leaf k v, _, hs => by
    unfold Trie.Sub at hs
    subst hs
    intro e
    simp only [entries, List.mem_singleton, split, key]
    constructor
    · rintro rfl; exact ⟨rfl, by rw [firstDiff_self]⟩
    · exact fun h => h.1
  | .node l r, hwf, hs => by
    have hself : ∀ t : Trie N, t.WF → Cuts t t := by
      intro t ht e
      constructor
      · intro he
        refine ⟨he, ?_⟩
        rw [firstDiff_comm]
        exact ht.agree _ (List.mem_map_of_mem he)
      · exact fun h => h.1
    rcases hs with rfl | hs | hs
    · exact hself _ hwf
    · intro e
      rw [Sub.cuts hwf.1 hs e]
      simp only [entries, List.mem_append]
      constructor
      · rintro ⟨h1, h2⟩; exact ⟨.inl h1, h2⟩
      · rintro ⟨h1 | h1, h2⟩
        · exact ⟨h1, h2⟩
        · have h3 := firstDiff_split hwf (Sub.key_mem hs) (List.mem_map_of_mem (f := Prod.fst) h1)
          have h4 := Sub.split_ge hs hwf.1
          have h5 := hwf.2.2.2.1
          omega
    · intro e
      rw [Sub.cuts hwf.2.1 hs e]
      simp only [entries, List.mem_append]
      constructor
      · rintro ⟨h1, h2⟩; exact ⟨.inr h1, h2⟩
      · rintro ⟨h1 | h1, h2⟩
        · have h3 := firstDiff_split hwf (List.mem_map_of_mem (f := Prod.fst) h1) (Sub.key_mem hs)
          rw [firstDiff_comm] at h3
          have h4 := Sub.split_ge hs hwf.2.1
          have h5 := hwf.2.2.2.2
          omega
        · exact ⟨h1, h2⟩

/-- Within which child a cut lies. -/
theorem Cuts.child {l r u : Trie N} (hwf : (Trie.node l r).WF) (hc : Cuts (.node l r) u)
    (hs : firstDiff l.key r.key < u.split) : Cuts l u ∨ Cuts r u := by
  have hk := u.key_mem
  obtain ⟨v, hv⟩ := mem_keys.1 hk
  have hmem := ((hc _).1 hv).1
  simp only [entries, List.mem_append] at hmem
  rcases hmem with hm | hm
  · left
    intro e
    rw [hc e]
    simp only [entries, List.mem_append]
    constructor
    · rintro ⟨h1 | h1, h2⟩
      · exact ⟨h1, h2⟩
      · have := firstDiff_split hwf (List.mem_map_of_mem (f := Prod.fst) hm)
          (List.mem_map_of_mem (f := Prod.fst) h1)
        dsimp only at this
        omega
    · rintro ⟨h1, h2⟩; exact ⟨.inl h1, h2⟩
  · right
    intro e
    rw [hc e]
    simp only [entries, List.mem_append]
    constructor
    · rintro ⟨h1 | h1, h2⟩
      · have := firstDiff_split hwf (List.mem_map_of_mem (f := Prod.fst) h1)
          (List.mem_map_of_mem (f := Prod.fst) hm)
        dsimp only at this
        rw [firstDiff_comm] at this
        omega
      · exact ⟨h1, h2⟩
    · rintro ⟨h1, h2⟩; exact ⟨.inr h1, h2⟩

/-- A cut at or above the root is the whole tree. -/
theorem Cuts.whole {t u : Trie N} (ht : t.WF) (hu : u.WF) (hc : Cuts t u) (hs : u.split ≤ t.split) :
    u = t := by
  obtain ⟨v, hv⟩ := mem_keys.1 u.key_mem
  have hmem := ht.agree _ (List.mem_map_of_mem (f := Prod.fst) ((hc _).1 hv).1)
  apply eq_of_entries hu ht
  intro e
  rw [hc e]
  constructor
  · exact fun h => h.1
  · intro he
    refine ⟨he, ?_⟩
    have h1 := ht.agree _ (List.mem_map_of_mem (f := Prod.fst) he)
    have h2 := min_le_firstDiff u.key t.key e.1
    rw [firstDiff_comm t.key] at h2
    dsimp only at hmem h1
    omega

theorem Cuts.sub {u : Trie N} (hu : u.WF) : ∀ {t : Trie N}, t.WF → Cuts t u → u.Sub t
  | .leaf k v, ht, hc => by
    have := hc.whole ht hu (by simp only [split]; exact split_le u)
    rw [this]; exact Sub.refl _
  | .node l r, ht, hc => by
    by_cases hs : u.split ≤ firstDiff l.key r.key
    · rw [hc.whole ht hu hs]; exact Sub.refl _
    · rcases hc.child ht (by omega) with h | h
      · exact (h.sub hu ht.1).trans (Sub.left l r)
      · exact (h.sub hu ht.2.1).trans (Sub.right l r)

/-- A cut without keys from `ks` lies within what is kept. -/
theorem Cuts.keep {ks : List (Arr N)} {u : Trie N} (hu : u.WF)
    (hks : ∀ k ∈ ks, firstDiff k u.key < u.split) : ∀ {t : Trie N}, t.WF → Cuts t u →
    ∃ b ∈ keep t ks, u.Sub b
  | .leaf k v, ht, hc => by
    have he := hc.whole ht hu (by simp only [split]; exact split_le u)
    subst he
    refine ⟨_, ?_, Sub.refl _⟩
    rw [keep_of_none _ hks]
    simp
  | .node l r, ht, hc => by
    unfold MerkleBit.keep
    split
    · next h =>
      obtain ⟨k', hk', hk'd⟩ := h
      have hs : firstDiff l.key r.key < u.split := by
        by_contra hle
        obtain ⟨v, hv⟩ := mem_keys.1 u.key_mem
        have h1 := ht.agree _ (List.mem_map_of_mem (f := Prod.fst) ((hc _).1 hv).1)
        have h2 := min_le_firstDiff k' l.key u.key
        rw [firstDiff_comm l.key u.key] at h2
        have h3 := hks k' hk'
        simp only [split, key] at h1
        omega
      rcases hc.child ht hs with h | h
      · obtain ⟨b, hb, hsub⟩ := h.keep hu hks ht.1
        exact ⟨b, List.mem_append_left _ hb, hsub⟩
      · obtain ⟨b, hb, hsub⟩ := h.keep hu hks ht.2.1
        exact ⟨b, List.mem_append_right _ hb, hsub⟩
    · exact ⟨_, List.mem_singleton_self _, hc.sub hu ht⟩

/-- Every branch that an insert writes has an inserted key below it. -/
theorem written_has_key (hN : 0 < N) {pp : PartitionPoint N} (hpp : pp.Lawful) {ks : List (Arr N)}
    (hne : ks ≠ []) (hnd : ks.Nodup) {f : Arr N → List UInt8} {prev : Option (Trie N)}
    (hok : BatchFine ks prev) {ts : List (Trie N)} {T : Trie N}
    (hp : ts.Perm (blocksOf pp (sortKeys ks) f prev)) (hasm : Assembled ts T) {u : Trie N}
    (hu : u.Sub T) (hnot : ∀ b ∈ blocksOf pp (sortKeys ks) f prev, ¬ u.Sub b) :
    ∃ k ∈ ks, k ∈ u.keys := by
  obtain ⟨hwf, hlook⟩ := assembled_batch hN hpp hne hnd (hok.ok hN hpp) hp hasm
  have hmem : ∀ k, k ∈ sortKeys ks ↔ k ∈ ks := fun k => (sortKeys_perm ks).mem_iff
  by_contra hcon
  have hno : ∀ k ∈ ks, k ∉ u.keys := fun k hk hku => hcon ⟨k, hk, hku⟩
  have hcut := Sub.cuts hwf hu
  have hent : ∀ k v, (k, v) ∈ T.entries ↔ assignB (lookupO prev) ks f k = some v := by
    intro k v
    rw [← lookup_eq_some_iff hwf, hlook]
  -- inserted keys are far from `u`
  have hfar : ∀ k ∈ ks, firstDiff k u.key < u.split := by
    intro k hk
    by_contra hle
    have h1 : (k, f k) ∈ T.entries := (hent k (f k)).2 (by simp [assignB, hk])
    have h2 : (k, f k) ∈ u.entries := (hcut _).2 ⟨h1, by rw [firstDiff_comm]; dsimp only; omega⟩
    exact hno k hk (List.mem_map_of_mem (f := Prod.fst) h2)
  obtain ⟨v, hv⟩ := mem_keys.1 u.key_mem
  have hkey := (hent _ _).1 ((hcut _).1 hv).1
  have hunot : u.key ∉ ks := fun h => hno _ h u.key_mem
  simp only [assignB, hunot, if_false] at hkey
  cases hpv : prev with
  | none => rw [hpv] at hkey; simp [lookupO] at hkey
  | some P =>
    obtain ⟨hPwf, hsf⟩ := hok P hpv
    have hcP : Cuts P u := by
      intro e
      rw [hcut e]
      constructor
      · rintro ⟨h1, h2⟩
        refine ⟨?_, h2⟩
        have h3 := (hent e.1 e.2).1 h1
        have h4 : e.1 ∉ ks := by
          intro h
          have := hfar _ h
          rw [firstDiff_comm] at this
          omega
        simp only [assignB, h4, if_false, hpv, lookupO, Option.bind_some] at h3
        exact (lookup_eq_some_iff hPwf).1 h3
      · rintro ⟨h1, h2⟩
        refine ⟨(hent e.1 e.2).2 ?_, h2⟩
        have h4 : e.1 ∉ ks := by
          intro h
          have := hfar _ h
          rw [firstDiff_comm] at this
          omega
        simp only [assignB, h4, if_false, hpv, lookupO, Option.bind_some]
        exact (lookup_eq_some_iff hPwf).2 h1
    obtain ⟨b, hb, hsub⟩ := hcP.keep (ks := sortKeys ks) (hu.wf hwf)
      (fun k hk => hfar k ((hmem k).1 hk)) hPwf
    refine hnot b ?_ hsub
    rw [hpv, blocksOf_eq hN hpp hne f hPwf hsf]
    exact List.mem_append_right _ hb

/-- Encodings determine contents. -/
theorem Encodes.unique {cfg : Config N σ V} (hc : RoundTrip cfg) {o o' : Option V}
    {b : Option (List UInt8)} (h : Encodes cfg o b) (h' : Encodes cfg o' b) : o = o' := by
  cases o with
  | none =>
    cases o' with
    | none => rfl
    | some v' =>
      obtain ⟨x, _, hx⟩ := h'
      rw [show b = none from h] at hx; cases hx
  | some v =>
    obtain ⟨x, h1, h2⟩ := h
    cases o' with
    | none => rw [show b = none from h'] at h2; cases h2
    | some v' =>
      obtain ⟨x', h1', h2'⟩ := h'
      rw [h2] at h2'
      cases h2'
      have e1 := hc v x h1
      have e2 := hc v' x h1'
      rw [e1] at e2
      cases e2; rfl

/-- A branch with an inserted key that two versions have in common is a group of pairs written
again. -/
theorem rewrites_of_sub {cfg : Config N σ V} (hc : RoundTrip cfg) {T T' : Trie N} (hT : T.WF)
    (hT' : T'.WF) {M M' : Contents N V} (hM : Represents cfg T M) (hM' : Represents cfg T' M')
    {a b : Trie N} (hs : (Trie.node a b).Sub T) (hs' : (Trie.node a b).Sub T') {keys : List (Arr N)}
    {k : Arr N} (hk : k ∈ keys) (hku : k ∈ (Trie.node a b).keys) : Rewrites M M' keys := by
  have hwf : (Trie.node a b).WF := hs.wf hT
  have hag : (Trie.node a b).split ≤ firstDiff k (Trie.node a b).key := hwf.agree k hku
  refine ⟨k, hk, (Trie.node a b).split, ?_, ?_⟩
  · have hother : ∃ k', k' ≠ k ∧ k' ∈ (Trie.node a b).keys := by
      have hab : a.key ≠ b.key := Arr.ne_of_lt hwf.2.2.1
      by_cases hka : a.key = k
      · exact ⟨b.key, fun h => hab (hka.trans h.symm), by simp [keys_node, b.key_mem]⟩
      · exact ⟨a.key, hka, by simp [keys_node, a.key_mem]⟩
    obtain ⟨k', hne, hk'⟩ := hother
    refine ⟨k', hne, ?_, ?_⟩
    · have h1 := hwf.agree k' hk'
      have h2 := min_le_firstDiff k (Trie.node a b).key k'
      rw [firstDiff_comm _ k'] at h2
      omega
    · obtain ⟨v, hv⟩ := mem_keys.1 hk'
      have h1 : T'.lookup k' = some v := (lookup_eq_some_iff hT').2 (hs'.entries.subset hv)
      intro hnone
      have := hM' k'
      rw [hnone, h1] at this
      simp [Encodes] at this
  · intro k' hd
    have hnear : (Trie.node a b).split ≤ firstDiff (Trie.node a b).key k' := by
      have h2 := min_le_firstDiff (Trie.node a b).key k k'
      rw [firstDiff_comm _ k] at h2
      omega
    have hlk : T.lookup k' = T'.lookup k' := by
      apply Option.ext
      intro v
      rw [lookup_eq_some_iff hT, lookup_eq_some_iff hT']
      have h1 := Sub.cuts hT hs (k', v)
      have h2 := Sub.cuts hT' hs' (k', v)
      constructor
      · exact fun h => (h2.1 (h1.2 ⟨h, hnear⟩)).1
      · exact fun h => (h1.1 (h2.2 ⟨h, hnear⟩)).1
    have e1 := hM k'
    have e2 := hM' k'
    rw [hlk] at e1
    exact e1.unique hc e2

end MerkleBit
