import Verif.Proof.Exact
import Verif.Proof.Lineage
import Verif.Proof.Trace
/-! # What every batch does to every key -/

namespace MerkleBit
variable {N : Nat} {σ V : Type} {cfg : Config N σ V} {C : DbContract cfg.db} {U : HIn N → Prop}
open Trie

/-! ## Closed subtrees and kept subtrees -/

theorem closed_nil {pp : PartitionPoint N} (t : Trie N) : closed pp t [] = [t] := by
  cases t <;> simp [closed, followers]

theorem closed_trav (hN : 0 < N) {pp : PartitionPoint N} (hpp : pp.Lawful) {Q : List (Arr N)} :
    ∀ {t : Trie N} {D : List (Arr N)}, t.WF → D.Pairwise Arr.le → D ≠ [] →
      (∀ u ∈ closed pp t D, u ∈ trav pp Q t D) ∧
      ∀ u ∈ trav pp Q t D, u ∈ closed pp t D ∨ ∃ k v, u = .leaf k v ∧ k ∉ Q
  | .leaf k' v, D, _, _, hne => by
    simp only [closed, if_neg hne, trav]
    refine ⟨by simp, fun u hu => ?_⟩
    split at hu
    · simp at hu
    · next h => exact .inr ⟨k', v, by simpa using hu, h⟩
  | .node l r, D, hwf, hD, _ => by
    have hs := hwf.split_lt
    simp only [split] at hs
    have half : ∀ {t : Trie N} {D : List (Arr N)}, (D ≠ [] → (∀ u ∈ closed pp t D, u ∈ trav pp Q t D) ∧
        ∀ u ∈ trav pp Q t D, u ∈ closed pp t D ∨ ∃ k v, u = .leaf k v ∧ k ∉ Q) →
        (∀ u ∈ closed pp t D, u ∈ if D = [] then [t] else trav pp Q t D) ∧
        ∀ u ∈ (if D = [] then [t] else trav pp Q t D), u ∈ closed pp t D ∨ ∃ k v, u = .leaf k v ∧ k ∉ Q := by
      intro t D h
      split
      · next hD => subst hD; rw [closed_nil]; exact ⟨fun _ h => h, fun _ h => .inl h⟩
      · next hD => exact h hD
    have hl := half (closed_trav hN hpp hwf.1 (zeros_sorted (pp := pp) hD l.key (firstDiff l.key r.key)))
    have hr := half (closed_trav hN hpp hwf.2.1 (ones_sorted (pp := pp) hD l.key (firstDiff l.key r.key)))
    rw [trav_node hN hpp hs hD, closed]
    split
    · exact ⟨fun _ h => h, fun _ h => .inl h⟩
    · simp only [List.mem_append]
      refine ⟨?_, ?_⟩
      · rintro u (hu | hu)
        · exact .inl (hl.1 u hu)
        · exact .inr (hr.1 u hu)
      · rintro u (hu | hu)
        · exact (hl.2 u hu).imp_left .inl
        · exact (hr.2 u hu).imp_left .inr

/-! ## Reading a tree put together from blocks -/

theorem Joins.key_mem {ts : List (Trie N)} {T : Trie N} (h : Joins ts T) : T.key ∈ ts.map Trie.key := by
  induction h with
  | one t => simp
  | join xs ys a b _ _ _ _ iha _ =>
    rw [List.map_append]
    exact List.mem_append_left _ iha

theorem Joins.entries {ts : List (Trie N)} {T : Trie N} (h : Joins ts T) :
    T.entries = ts.flatMap Trie.entries := by
  induction h with
  | one t => simp
  | join xs ys a b _ _ _ _ iha ihb => rw [List.flatMap_append, ← iha, ← ihb]; rfl

theorem Joins.bit {ts : List (Trie N)} {T : Trie N} (h : Joins ts T) {s : Nat} {b : Bool}
    (hb : ∀ u ∈ ts, u.key.bit s = b) : T.key.bit s = b := by
  obtain ⟨y, h1, h2⟩ := List.mem_map.1 h.key_mem
  rw [← h2, hb y h1]

theorem Joins.height_le {ts : List (Trie N)} {T : Trie N} (h : Joins ts T) :
    ∀ u ∈ ts, u.height ≤ T.height := by
  induction h with
  | one t => simp
  | join xs ys a b _ _ _ _ iha ihb =>
    intro u hu
    simp only [height]
    rcases List.mem_append.1 hu with hu | hu
    · have := iha u hu; omega
    · have := ihb u hu; omega

/-- The ways to the blocks, on the two sides of a branch above them. -/
theorem Joins.sides {xs ys : List (Trie N)} {a b : Trie N} (ha : Joins xs a) (hb : Joins ys b)
    (hx : ∀ u ∈ xs, u.key.bit (firstDiff a.key b.key) = false)
    (hy : ∀ u ∈ ys, u.key.bit (firstDiff a.key b.key) = true) {m : Nat}
    (hp : ∀ u ∈ xs ++ ys, ∃ n ≤ m, PathTo u.key u (.node a b) n) :
    1 ≤ m ∧ (∀ u ∈ xs ++ ys, firstDiff a.key b.key ≤ firstDiff u.key a.key) ∧
      (∀ u ∈ xs, ∃ n ≤ m - 1, PathTo u.key u a n) ∧ ∀ u ∈ ys, ∃ n ≤ m - 1, PathTo u.key u b n := by
  have key : ∀ u ∈ xs ++ ys, 1 ≤ m ∧ firstDiff a.key b.key ≤ firstDiff u.key a.key ∧
      (u.key.bit (firstDiff a.key b.key) = false → ∃ n ≤ m - 1, PathTo u.key u a n) ∧
      (u.key.bit (firstDiff a.key b.key) = true → ∃ n ≤ m - 1, PathTo u.key u b n) := by
    intro u hu
    have hh : u.height < (Trie.node a b).height := by
      simp only [height]
      rcases List.mem_append.1 hu with hu | hu
      · have := ha.height_le u hu; omega
      · have := hb.height_le u hu; omega
    obtain ⟨n, hn, hp⟩ := hp u hu
    cases hp with
    | here => exact absurd hh (Nat.lt_irrefl _)
    | left h1 h2 hp =>
      exact ⟨by omega, h1, fun _ => ⟨_, by omega, hp⟩, fun h => by rw [h2] at h; cases h⟩
    | right h1 h2 hp =>
      exact ⟨by omega, h1, fun h => (by rw [h2] at h; cases h), fun _ => ⟨_, by omega, hp⟩⟩
  obtain ⟨u, hu⟩ := List.exists_mem_of_ne_nil _ ha.ne_nil
  exact ⟨(key u (List.mem_append_left _ hu)).1, fun u hu => (key u hu).2.1,
    fun u hu => (key u (List.mem_append_left _ hu)).2.2.1 (hx u hu),
    fun u hu => (key u (List.mem_append_right _ hu)).2.2.2 (hy u hu)⟩

theorem Joins.height_of_paths {ts : List (Trie N)} {T : Trie N} (h : Joins ts T) {m c : Nat}
    (hp : ∀ u ∈ ts, ∃ n ≤ m, PathTo u.key u T n) (hc : ∀ u ∈ ts, u.height ≤ c) : T.height ≤ m + c := by
  induction h generalizing m with
  | one t => have := hc t (by simp); omega
  | join xs ys a b ha hb hx hy iha ihb =>
    obtain ⟨h1, -, h2, h3⟩ := Joins.sides ha hb hx hy hp
    have := iha h2 (fun u hu => hc u (List.mem_append_left _ hu))
    have := ihb h3 (fun u hu => hc u (List.mem_append_right _ hu))
    simp only [height]
    omega

/-- A key follows the way to a block if it agrees with its key longer than all other blocks do. -/
theorem Joins.follows {ts : List (Trie N)} {T : Trie N} (h : Joins ts T) {k : Arr N} {u : Trie N} {n : Nat}
    (hu : u ∈ ts) (hp : PathTo u.key u T n)
    (hk : ∀ x ∈ ts, x.key ≠ u.key → firstDiff x.key u.key < firstDiff k u.key) :
    ∃ n' ≤ n, PathTo k u T n' := by
  induction h generalizing n with
  | one t =>
    rw [List.mem_singleton] at hu
    subst hu
    exact ⟨0, Nat.zero_le _, .here⟩
  | join xs ys a b ha hb hx hy iha ihb =>
    have step : ∀ {x : Arr N}, x ∈ (xs ++ ys).map Trie.key → x.bit (firstDiff a.key b.key) ≠
        u.key.bit (firstDiff a.key b.key) → firstDiff a.key b.key ≤ firstDiff x u.key →
        firstDiff a.key b.key < firstDiff k u.key := by
      intro x hx hne hle
      obtain ⟨y, hy, rfl⟩ := List.mem_map.1 hx
      refine Nat.lt_of_le_of_lt hle (hk y hy fun he => hne ?_)
      rw [he]
    cases hp with
    | here => exact ⟨0, Nat.zero_le _, .here⟩
    | left h1 h2 hp =>
      have hux : u ∈ xs := (List.mem_append.1 hu).resolve_right fun h => by
        rw [hy u h] at h2; cases h2
      obtain ⟨n', hn, hp'⟩ := iha hux hp (fun x hx => hk x (List.mem_append_left _ hx))
      have hlt := step (x := b.key) (by
        rw [List.map_append]; exact List.mem_append_right _ hb.key_mem) (by
        rw [h2, hb.bit hy]; simp) (by
        have := min_le_firstDiff b.key a.key u.key
        rw [firstDiff_comm b.key a.key, firstDiff_comm a.key u.key] at this
        omega)
      refine ⟨n' + 1, by omega, .left ?_ ?_ hp'⟩
      · have := min_le_firstDiff k u.key a.key
        omega
      · rw [bit_eq_of_lt_firstDiff hlt, h2]
    | right h1 h2 hp =>
      have huy : u ∈ ys := (List.mem_append.1 hu).resolve_left fun h => by
        rw [hx u h] at h2; cases h2
      obtain ⟨n', hn, hp'⟩ := ihb huy hp (fun x hx => hk x (List.mem_append_right _ hx))
      have hlt := step (x := a.key) (by
        rw [List.map_append]; exact List.mem_append_left _ ha.key_mem) (by
        rw [h2, ha.bit hx]; simp) (by
        rw [firstDiff_comm a.key u.key]
        exact h1)
      refine ⟨n' + 1, by omega, .right ?_ ?_ hp'⟩
      · have := min_le_firstDiff k u.key a.key
        omega
      · rw [bit_eq_of_lt_firstDiff hlt, h2]

/-- A key that agrees with the key of its block no longer than some other block does is not found. -/
theorem Joins.misses {ts : List (Trie N)} {T : Trie N} (h : Joins ts T) {k : Arr N} {u : Trie N} {m : Nat}
    (hu : u ∈ ts) (hp : ∀ x ∈ ts, ∃ n ≤ m, PathTo x.key x T n)
    (hk : ∀ x ∈ ts, x.key ≠ u.key → k ∉ x.keys)
    (hl : ∃ x ∈ ts, x.key ≠ u.key ∧ firstDiff k u.key ≤ firstDiff x.key u.key) (d : Nat) :
    readOne cfg k T d = .ok none ∨ readOne cfg k T d = .error (.exception "Depth limit exceeded") := by
  induction h generalizing m d with
  | one t =>
    obtain ⟨x, hx, hne, -⟩ := hl
    rw [List.mem_singleton] at hx hu
    exact absurd (by rw [hx, hu]) hne
  | join xs ys a b ha hb hx hy iha ihb =>
    obtain ⟨-, hsp, hpa, hpb⟩ := Joins.sides ha hb hx hy hp
    have hab : firstDiff a.key b.key < 8 * N := firstDiff_lt_iff.2 fun he => by
      have h1 := ha.bit hx
      have h2 := hb.bit hy
      rw [← he] at h1 h2
      rw [h1] at h2
      cases h2
    have absent : ∀ {zs : List (Trie N)} {c : Trie N}, Joins zs c → (∀ z ∈ zs, z ∈ xs ++ ys) →
        (∀ z ∈ zs, z.key ≠ u.key) → k ∉ c.keys := by
      intro zs c hc hsub hne hmem
      obtain ⟨e, he, rfl⟩ := List.mem_map.1 hmem
      rw [hc.entries] at he
      obtain ⟨z, hz, hez⟩ := List.mem_flatMap.1 he
      exact hk z (hsub z hz) (hne z hz) (List.mem_map_of_mem hez)
    unfold readOne
    split
    · exact .inr rfl
    · split
      · exact .inl rfl
      · next hge =>
        -- `k` goes to the side of `u` only if it agrees with `u.key` beyond the split
        have longer : k.bit (firstDiff a.key b.key) = u.key.bit (firstDiff a.key b.key) →
            firstDiff a.key b.key < firstDiff k u.key := by
          intro hbit
          have h1 := min_le_firstDiff k a.key u.key
          rw [firstDiff_comm a.key u.key] at h1
          have h2 := hsp u hu
          rcases Nat.lt_or_ge (firstDiff a.key b.key) (firstDiff k u.key) with h | h
          · exact h
          · have : firstDiff k u.key = firstDiff a.key b.key := by omega
            exact absurd (this ▸ hbit) (bit_ne_firstDiff (by omega))
        have other : ∀ x ∈ xs ++ ys, x.key.bit (firstDiff a.key b.key) ≠
            u.key.bit (firstDiff a.key b.key) → firstDiff x.key u.key ≤ firstDiff a.key b.key := by
          intro x _ hne
          by_contra hc
          exact hne (bit_eq_of_lt_firstDiff (by omega))
        obtain ⟨x, hxm, hxk, hle⟩ := hl
        split
        · next hbit =>
          rcases List.mem_append.1 hu with hu' | hu'
          · refine readOne_absent b _ (absent hb (fun z hz => List.mem_append_right _ hz) fun z hz he => ?_)
            have := hy z hz
            rw [he, hx u hu'] at this
            cases this
          · refine ihb hu' hpb (fun x hx => hk x (List.mem_append_right _ hx)) ⟨x, ?_, hxk, hle⟩ _
            refine (List.mem_append.1 hxm).resolve_left fun hxx => ?_
            have h1 := longer (by rw [hbit, hy u hu'])
            have h2 := other x hxm (by rw [hx x hxx, hy u hu']; simp)
            omega
        · next hbit =>
          rcases List.mem_append.1 hu with hu' | hu'
          · refine iha hu' hpa (fun x hx => hk x (List.mem_append_left _ hx)) ⟨x, ?_, hxk, hle⟩ _
            refine (List.mem_append.1 hxm).resolve_right fun hxx => ?_
            have h1 := longer (by rw [hx u hu']; simpa using hbit)
            have h2 := other x hxm (by rw [hy x hxx, hx u hu']; simp)
            omega
          · refine readOne_absent a _ (absent ha (fun z hz => List.mem_append_left _ hz) fun z hz he => ?_)
            have := hx z hz
            rw [he, hy u hu'] at this
            cases this

/-! ## The tree after a batch -/

theorem Apart.disjoint {a b : Trie N} (h : Apart a b) (ha : a.WF) (hb : b.WF) {k : Arr N}
    (hk : k ∈ a.keys) : k ∉ b.keys := fun hk' => by
  have h1 := ha.agree k hk
  have h2 := hb.agree k hk'
  have h3 := min_le_firstDiff a.key k b.key
  rw [firstDiff_comm a.key k] at h3
  unfold Apart at h
  omega

theorem mem_of_pairwise {α : Type} {R : α → α → Prop} (hR : ∀ {a b}, R a b → R b a) {l : List α}
    (h : l.Pairwise R) {a b : α} (ha : a ∈ l) (hb : b ∈ l) (hne : a ≠ b) : R a b := by
  induction l with
  | nil => simp at ha
  | cons x xs ih =>
    rw [List.pairwise_cons] at h
    rcases List.mem_cons.1 ha with ha' | ha' <;> rcases List.mem_cons.1 hb with hb' | hb'
    · exact absurd (ha'.trans hb'.symm) hne
    · exact ha' ▸ h.1 b hb'
    · exact hR (hb' ▸ h.1 a ha')
    · exact ih h.2 ha' hb'

/-- The batch is refused if and only if the blocks do not have distinct keys. -/
theorem refused_iff (hN : 0 < N) (hpp : cfg.pp.Lawful) {P : Trie N} (hP : P.WF) {M : Contents N V}
    (hM : Represents cfg P M) {keys : List (Arr N)} (hne : keys ≠ []) (hnd : keys.Nodup)
    (f : Arr N → List UInt8) :
    ((blocksOf cfg.pp (sortKeys keys) f (some P)).map Trie.key).Nodup ↔ ¬ Refused cfg M keys := by
  have hmem : ∀ k, k ∈ sortKeys keys ↔ k ∈ keys := fun k => (sortKeys_perm keys).mem_iff
  have hne' : sortKeys keys ≠ [] := fun h => hne (by simpa [h] using (sortKeys_perm keys).symm)
  have hct := closed_trav hN hpp (Q := sortKeys keys) hP (sortKeys_sorted keys) hne'
  have hl : (leaves (sortKeys keys) f).map Trie.key = sortKeys keys := by
    simp [leaves, Function.comp_def, Trie.key]
  simp only [blocksOf, List.map_append, hl]
  rw [List.nodup_append]
  constructor
  · rintro ⟨-, -, h⟩ ⟨P', hP', hM', u, hu, hk⟩
    rw [Represents.unique hP' hP hM' hM] at hu
    exact h u.key ((hmem _).2 hk) u.key (List.mem_map_of_mem (hct.1 u hu)) rfl
  · intro h
    refine ⟨(sortKeys_perm keys).nodup_iff.2 hnd, apart_keys (trav_apart hP), ?_⟩
    rintro k hk _ hk' rfl
    obtain ⟨u, hu, rfl⟩ := List.mem_map.1 hk'
    rcases hct.2 u hu with hc | ⟨k', v, rfl, hn⟩
    · exact h ⟨P, hP, hM, u, hc, (hmem _).1 hk⟩
    · exact hn hk

/-- Reading keys outside the batch. -/
theorem assembled_reads (hN : 0 < N) (hpp : cfg.pp.Lawful) (hrt : RoundTrip cfg) {P : Trie N}
    (hP : P.WF) {M : Contents N V} (hM : Represents cfg P M) {keys : List (Arr N)} (hne : keys ≠ [])
    {f : Arr N → List UInt8} {ts : List (Trie N)} {T : Trie N}
    (hp : ts.Perm (blocksOf cfg.pp (sortKeys keys) f (some P))) (hasm : Assembled ts T)
    (hd : 16 * N < cfg.depth) {k : Arr N} (hk : k ∉ keys) :
    (Lost cfg M keys k → readOne cfg k T 0 = .ok none) ∧
    (¬ Lost cfg M keys k → readOne cfg k T 0 = .ok (M k)) := by
  have hmem : ∀ k, k ∈ sortKeys keys ↔ k ∈ keys := fun k => (sortKeys_perm keys).mem_iff
  have hne' : sortKeys keys ≠ [] := fun h => hne (by simpa [h] using (sortKeys_perm keys).symm)
  have hct := closed_trav hN hpp (Q := sortKeys keys) hP (sortKeys_sorted keys) hne'
  have hts : ∀ x, x ∈ ts ↔ (∃ k' ∈ keys, x = .leaf k' (f k')) ∨
      x ∈ trav cfg.pp (sortKeys keys) P (sortKeys keys) := by
    intro x
    rw [hp.mem_iff]
    simp only [blocksOf, List.mem_append, leaves, List.mem_map]
    refine or_congr ⟨?_, ?_⟩ Iff.rfl
    · rintro ⟨k', h1, rfl⟩; exact ⟨k', (hmem _).1 h1, rfl⟩
    · rintro ⟨k', h1, rfl⟩; exact ⟨k', (hmem _).2 h1, rfl⟩
  have hwf : ∀ x ∈ ts, x.WF := by
    intro x hx
    rcases (hts x).1 hx with ⟨k', -, rfl⟩ | hx
    · trivial
    · exact (trav_sub P _ x hx).wf hP
  have hent : ∀ e ∈ T.entries, e.1 = k → e ∈ P.entries := by
    intro e he hek
    rw [hasm.entries] at he
    obtain ⟨x, hx, hex⟩ := List.mem_flatMap.1 he
    rcases (hts x).1 hx with ⟨k', hk', rfl⟩ | hx
    · simp only [Trie.entries, List.mem_singleton] at hex
      rw [hex] at hek
      exact absurd (show k' = k from hek) (by rintro rfl; exact hk hk')
    · exact (trav_sub P _ x hx).entries.subset hex
  have hheight : T.height ≤ 16 * N := by
    have := hasm.joins.height_of_paths (m := 8 * N) (c := 8 * N) hasm.path fun u hu => by
      have := (hwf u hu).height_le
      omega
    omega
  have noerr : readOne cfg k T 0 ≠ .error (.exception "Depth limit exceeded") := by
    intro he
    rcases readOne_err T 0 _ he with ⟨-, h⟩ | ⟨e, h1, h2, h3⟩
    · omega
    · obtain ⟨v, -, h4, -⟩ := hM.decode hP hrt (k := e.1) (b := e.2) (hent e h1 h2)
      rw [h4] at h3
      cases h3
  have hsorted : (ts.map Trie.key).Nodup := hasm.sorted.imp Arr.ne_of_lt
  have trav_others : ∀ {x u : Trie N}, x ∈ trav cfg.pp (sortKeys keys) P (sortKeys keys) →
      u ∈ trav cfg.pp (sortKeys keys) P (sortKeys keys) → x.key ≠ u.key → Apart x u := by
    intro x u hx hu hne
    exact mem_of_pairwise Apart.symm (trav_apart hP) hx hu fun h => hne (by rw [h])
  constructor
  · rintro ⟨P', hP', hM', u, hu, hku, k', hk', hle⟩
    rw [Represents.unique hP' hP hM' hM] at hu
    have hut := hct.1 u hu
    have huts := (hts u).2 (.inr hut)
    refine (hasm.joins.misses (cfg := cfg) huts hasm.path ?_ ⟨.leaf k' (f k'), ?_, ?_, hle⟩ 0).resolve_right noerr
    · intro x hx hxu
      rcases (hts x).1 hx with ⟨k2, h2, rfl⟩ | hx'
      · simp only [Trie.keys, Trie.entries, List.map_cons, List.map_nil, List.mem_singleton]
        rintro rfl
        exact hk h2
      · exact (trav_others hut hx' (Ne.symm hxu)).disjoint (hwf u huts) (hwf x hx) hku
    · exact (hts _).2 (.inl ⟨k', hk', rfl⟩)
    · intro he
      have := List.inj_on_of_nodup_map hsorted ((hts (.leaf k' (f k'))).2 (.inl ⟨k', hk', rfl⟩)) huts he
      rw [← this] at hku
      simp only [Trie.keys, Trie.entries, List.map_cons, List.map_nil, List.mem_singleton] at hku
      exact hk (hku ▸ hk')
  · intro hnl
    cases hMk : M k with
    | none =>
      refine (readOne_absent T 0 fun hkT => ?_).resolve_right noerr
      obtain ⟨e, he, hek⟩ := List.mem_map.1 hkT
      obtain ⟨v, h1, -⟩ := hM.decode hP hrt (k := e.1) (b := e.2) (hent e he hek)
      rw [hek, hMk] at h1
      cases h1
    | some v =>
      obtain ⟨b, hb, henc⟩ := hM.entry hP hMk
      obtain ⟨u, hut, hbu⟩ := List.mem_flatMap.1 ((trav_keeps (pp := cfg.pp) (ks0 := sortKeys keys) P
        (sortKeys keys) _ hb).resolve_left fun h => hk ((hmem _).1 h))
      have huts := (hts u).2 (.inr hut)
      have hku : k ∈ u.keys := List.mem_map_of_mem (f := Prod.fst) hbu
      obtain ⟨n, hn, hpath⟩ := hasm.path u huts
      obtain ⟨n', hn', hpath'⟩ := hasm.joins.follows (k := k) huts hpath (by
        intro x hx hxu
        rcases (hts x).1 hx with ⟨k2, h2, rfl⟩ | hx'
        · by_contra hc
          rcases hct.2 u hut with hcl | ⟨k'', v'', rfl, -⟩
          · exact hnl ⟨P, hP, hM, u, hcl, hku, k2, h2, by simpa [Trie.key] using hc⟩
          · simp only [Trie.keys, Trie.entries, List.map_cons, List.map_nil, List.mem_singleton] at hku
            subst hku
            rw [show (Trie.leaf k v'').key = k from rfl, firstDiff_self] at hc
            exact hc (firstDiff_lt_iff.2 hxu)
        · have h1 := (trav_others hx' hut hxu).2
          have h2 := (hwf u huts).agree k hku
          omega)
      have hh := (hwf u huts).height_le
      rw [readOne_path hpath' 0 (by omega), readOne_wf k u _ (hwf u huts) (by omega),
        (lookup_eq_some_iff (hwf u huts)).2 hbu]
      simp only [hrt v b henc]

/-- A deeper limit changes nothing but the failures because of the limit. -/
theorem readOne_deeper {D : Nat} (hD : cfg.depth ≤ D) (k : Arr N) : ∀ (t : Trie N) (d : Nat),
    readOne cfg k t d = readOne (cfg.withDepth D) k t d ∨
      readOne cfg k t d = .error (.exception "Depth limit exceeded")
  | .leaf k' v, d => by
    unfold readOne
    simp only [Config.withDepth]
    by_cases h : d > cfg.depth
    · rw [if_pos h]; exact .inr rfl
    · rw [if_neg h, if_neg (show ¬ d > D by omega)]
      by_cases hk : k' ≠ k
      · rw [if_pos hk, if_pos hk]; exact .inl rfl
      · rw [if_neg hk, if_neg hk]
        by_cases h1 : d + 1 > cfg.depth
        · rw [if_pos h1]; exact .inr rfl
        · rw [if_neg h1, if_neg (show ¬ d + 1 > D by omega)]; exact .inl rfl
  | .node l r, d => by
    unfold readOne
    have hl := readOne_deeper hD k l (d + 1)
    have hr := readOne_deeper hD k r (d + 1)
    by_cases h : d > cfg.depth
    · rw [if_pos h]; exact .inr rfl
    · rw [if_neg h, if_neg (show ¬ d > D by omega)]
      split
      · exact .inl rfl
      · split
        · exact hr
        · exact hl

theorem assembled_reads' (hN : 0 < N) (hpp : cfg.pp.Lawful) (hrt : RoundTrip cfg) {P : Trie N}
    (hP : P.WF) {M : Contents N V} (hM : Represents cfg P M) {keys : List (Arr N)} (hne : keys ≠ [])
    {f : Arr N → List UInt8} {ts : List (Trie N)} {T : Trie N}
    (hp : ts.Perm (blocksOf cfg.pp (sortKeys keys) f (some P))) (hasm : Assembled ts T)
    {k : Arr N} (hk : k ∉ keys) :
    (Lost cfg M keys k → DeepOr N cfg.depth (readOne cfg k T 0) none) ∧
    (¬ Lost cfg M keys k → DeepOr N cfg.depth (readOne cfg k T 0) (M k)) := by
  by_cases hd : 16 * N < cfg.depth
  · exact (assembled_reads hN hpp hrt hP hM hne hp hasm hd hk).imp (fun h x => .inl (h x))
      (fun h x => .inl (h x))
  · have := assembled_reads (cfg := cfg.withDepth (16 * N + 1)) hN hpp hrt hP hM hne hp hasm
      (show 16 * N < 16 * N + 1 by omega) hk
    rcases readOne_deeper (cfg := cfg) (D := 16 * N + 1) (by omega) k T 0 with h | h
    · exact this.imp (fun g x => .inl (h.trans (g x))) (fun g x => .inl (h.trans (g x)))
    · exact ⟨fun _ => .inr ⟨by omega, h⟩, fun _ => .inr ⟨by omega, h⟩⟩

/-- An insert of distinct keys on top of a version. -/
theorem insert_effect (hN : 0 < N) (hpp : cfg.pp.Lawful) (hrt : RoundTrip cfg)
    (hU : CollisionFree cfg.hasher U)
    {s0 : σ} {r0 : Arr N} {M : Contents N V} {keys : List (Arr N)} {values : List V}
    (hin : ∀ i ∈ hashedBy cfg (some r0) keys values s0, U i) (hsound : Sound C U s0)
    (hv : IsVersion cfg (C.view s0) r0 M) (hlen : keys.length = values.length) (hne : keys ≠ [])
    (hnd : keys.Nodup) (hval : ∀ v ∈ values, ∃ b, cfg.encode v = .ok b) (hd : 8 * N < cfg.depth) :
    Ends C (fun e => e = .exception "Attempted to insert item with duplicate keys" ∧ Refused cfg M keys)
      (insert cfg (some r0) keys values) s0
      (fun r s => ¬ Refused cfg M keys ∧ ∃ T : Trie N, r = T.loc cfg.hasher ∧ T.Norm ∧
        Stored cfg.hasher (C.view s) T ∧
        (∀ e ∈ keys.zip values, readOne cfg e.1 T 0 = .ok (some e.2)) ∧
        ∀ k ∉ keys, (Lost cfg M keys k → DeepOr N cfg.depth (readOne cfg k T 0) none) ∧
          (¬ Lost cfg M keys k → DeepOr N cfg.depth (readOne cfg k T 0) (M k)))
      (Inv C.toG U (C.view s0)) := by
  have start := hsound.inv
  obtain ⟨P, hPwf, rfl, hPst, hPM⟩ := hv
  have hPU := (hPst.honest hU hsound.view).2
  have hiff := refused_iff hN hpp hPwf hPM hne hnd (encOf cfg keys values)
  have hheight := hPwf.height_le
  refine ends_of_guard (C := C) hin (triple_conseq (insert_blocks (cfg := gcfg U cfg)
    (C := C.guard U) (v0 := C.view s0)
    (Ex := fun e => e = .exception "Attempted to insert item with duplicate keys" ∧ Refused cfg M keys)
    (f := encOf cfg keys values) (prev := some P) hN hpp hU (guardDb_guards U cfg.db) hlen hne
    ?_ ?_ ?_ ?_) (fun _ h => h) ?_ (fun _ h => h.plain)) start.guard
  · intro k hk
    rcases encodedOf_cases cfg hlen hk with ⟨h1, _⟩ | ⟨v, hv, e, h1, h2⟩
    · exact .inl h1
    · obtain ⟨b, hb⟩ := hval v hv
      rw [hb] at h1
      cases h1
  · intro k hk hok
    rcases encodedOf_cases cfg hlen hk with ⟨_, h⟩ | ⟨v, _, e, _, h⟩
    · exact hin _ (mem_hashedBy h _ (by simp [Trie.inputs]))
    · exact absurd (hok.symm.trans h) (by simp)
  · rintro T ⟨⟩
    exact ⟨hPwf.norm, .inl hPst, hPU, .inl (show P.height ≤ cfg.depth by omega)⟩
  · intro h
    exact ⟨rfl, by by_contra hc; exact h (hiff.2 hc)⟩
  · rintro r s ⟨hall, ts, T, hp, hasm, rfl, hi, hst, -⟩
    have hnd' := ((hp.map Trie.key).nodup_iff).1 (hasm.sorted.imp Arr.ne_of_lt)
    refine ⟨hiff.1 hnd', T, rfl, assembled_norm (fun T hT => by cases hT; exact hPwf.norm) hp hasm, hst,
      ?_, fun k hk => assembled_reads' hN hpp hrt hPwf hPM hne hp hasm hk⟩
    obtain ⟨-, -, -, hpairs⟩ := assembled_pairs (cfg := cfg) hlen hall hp hasm
    intro e he
    obtain ⟨b, hb, n, hn, hpath⟩ := hpairs e he
    rw [readOne_path hpath 0 (by omega)]
    unfold readOne
    rw [if_neg (by omega), if_neg (by simp), if_neg (by omega), hrt _ b hb]

/-! ## Batches that are not handled -/

theorem eq_of_firstDiff {k k' : Arr N} {v : List UInt8}
    (h : (Trie.leaf k' v).split ≤ firstDiff k (Trie.leaf k' v).key) : k = k' := by
  by_contra hc
  have := firstDiff_lt_iff.2 hc
  simp only [Trie.split, Trie.key] at h
  omega

/-- Handled batches are not refused, and lose nothing. -/
theorem handled_keeps (hN : 0 < N) (hpp : cfg.pp.Lawful) {M : Contents N V} {keys : List (Arr N)}
    (h : Handled cfg M keys) : ¬ Refused cfg M keys ∧ ∀ k, ¬ Lost cfg M keys k := by
  have hmem : ∀ k, k ∈ sortKeys keys ↔ k ∈ keys := fun k => (sortKeys_perm keys).mem_iff
  have key : ∀ P : Trie N, P.WF → Represents cfg P M → ∀ u ∈ closed cfg.pp P (sortKeys keys),
      u.WF ∧ ∀ k ∈ keys, firstDiff k u.key < u.split := by
    intro P hP hM u hu
    by_cases hne : sortKeys keys = []
    · rw [hne, closed_nil, List.mem_singleton] at hu
      subst hu
      exact ⟨hP, fun k hk => by rw [← hmem, hne] at hk; simp at hk⟩
    have hut := (closed_trav hN hpp (Q := sortKeys keys) hP (sortKeys_sorted keys) hne).1 u hu
    exact ⟨(trav_sub P _ u hut).wf hP, fun k hk => (trav_far_iff hN hpp ((hmem k).2 hk) hP
      (sortKeys_sorted keys) hne).2 (h k hk P hP hM) u hut⟩
  refine ⟨?_, ?_⟩
  · rintro ⟨P, hP, hM, u, hu, hk⟩
    have := (key P hP hM u hu).2 _ hk
    rw [firstDiff_self] at this
    have := u.split_le
    omega
  · rintro k ⟨P, hP, hM, u, hu, hku, k', hk', hle⟩
    obtain ⟨h1, h2⟩ := key P hP hM u hu
    have := h2 k' hk'
    have := h1.agree k hku
    omega

/-- A batch that is neither handled nor refused: there is a stored key that is lost or replaced. -/
theorem unhandled_loses (hN : 0 < N) (hpp : cfg.pp.Lawful) {P : Trie N}
    (hP : P.WF) {M : Contents N V} (hM : Represents cfg P M) {keys : List (Arr N)}
    (h : ¬ Handled cfg M keys) (hr : ¬ Refused cfg M keys) :
    ∃ k ∈ P.keys, Lost cfg M keys k := by
  have hmem : ∀ k, k ∈ sortKeys keys ↔ k ∈ keys := fun k => (sortKeys_perm keys).mem_iff
  unfold Handled at h
  push Not at h
  obtain ⟨k, hk, hf⟩ := h
  have hne : sortKeys keys ≠ [] := List.ne_nil_of_mem ((hmem k).2 hk)
  have : ¬ Opened cfg.pp k P (sortKeys keys) := fun ho => hf fun P' hP' hM' => by
    rw [Represents.unique hP' hP hM' hM]; exact ho
  rw [← trav_far_iff hN hpp ((hmem k).2 hk) hP (sortKeys_sorted keys) hne] at this
  push Not at this
  obtain ⟨u, hut, hle⟩ := this
  have hsub := trav_sub P _ u hut
  rcases (closed_trav hN hpp hP (sortKeys_sorted keys) hne).2 u hut with hc | ⟨k', v, rfl, hk'⟩
  · cases u with
    | leaf k' v =>
      refine absurd ⟨P, hP, hM, _, hc, ?_⟩ hr
      rw [eq_of_firstDiff (k := k) hle] at hk
      exact hk
    | node l r =>
      have hu := hsub.wf hP
      have hx : r.key ∈ (Trie.node l r).keys := by
        rw [keys_node]; exact List.mem_append_right _ (Trie.key_mem r)
      refine ⟨r.key, (hsub.entries.map Prod.fst).subset hx, P, hP, hM, _, hc, hx, k, hk, ?_⟩
      simp only [Trie.split, Trie.key] at hle ⊢
      rw [firstDiff_comm]
      exact hle
  · refine absurd ((hmem k).2 hk) ?_
    rw [eq_of_firstDiff (k := k) hle]
    exact hk'

end MerkleBit
