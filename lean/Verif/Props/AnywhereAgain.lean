import Verif.Props.Anywhere
/-!
# C92: the reference program under any root, where single pairs are inserted again
-/

namespace MerkleBit
open Trie

section
variable {N : Nat} {σ V : Type} {cfg : Config N σ V} {C : DbContract cfg.db} {H : List (HIn N)} {s : σ} {ρ : σ → σ}
  {book : Book N V} {rest : Rest N V} {shows : Bool}

theorem mapOf_single (p : Arr N × V) : mapOf [p] = Contents.empty.set p.1 p.2 := by
  funext k
  unfold mapOf Contents.set
  by_cases h : k = p.1
  · subst h; simp
  · simp [h, Ne.symm h, Contents.empty]

theorem proper_single {encode : V → Res (List UInt8)} {p : Arr N × V} {b : List UInt8} (h : encode p.2 = .ok b) :
    Proper encode [p] :=
  ⟨by simp, by rintro e he; cases List.mem_singleton.1 he; exact ⟨b, h⟩⟩

theorem pairIn_iff {encode : V → Res (List UInt8)} {pairs : List (Arr N × V)} {k : Arr N} {v : V} {b : List UInt8}
    (h : encode v = .ok b) : pairIn encode pairs (k, v) = true ↔ (k, b) ∈ encoded encode pairs := by
  have : encoded encode [(k, v)] = [(k, b)] := by simp [encoded, h, Except.toOption]
  unfold pairIn
  rw [this]
  simp

theorem spreadWith_mem {G : Hasher N} {encode : V → Res (List UInt8)} {r : Arr N} {q : List (Arr N × V)} :
    (r, q) ∈ book.spreadWith G encode rest ↔ (r, q) ∈ book.spread G encode ∨
      ∃ p ∈ rest.leaves, q = [p] ∧ sparseRoot G (encoded encode [p]) = some r := by
  unfold Book.spreadWith
  rw [List.mem_append]
  simp only [List.mem_filterMap, Option.map_eq_some_iff, Prod.mk.injEq]
  constructor
  · rintro (h | ⟨p, hp, r', hr', rfl, rfl⟩)
    · exact .inl h
    · exact .inr ⟨p, hp, rfl, hr'⟩
  · rintro (h | ⟨p, hp, rfl, hr⟩)
    · exact .inl h
    · exact .inr ⟨p, hp, r, hr, rfl, rfl⟩

/-- The lists of the reference program are those of the live versions, and besides what is left over nothing is stored. -/
structure InNeatBookWith (cfg : Config N σ V) (C : DbContract cfg.db) (shows : Bool) (H : List (HIn N)) (book : Book N V)
    (rest : Rest N V) (s : σ) : Prop where
  keeps : ∃ H0 L P, (∀ i ∈ H0, i ∈ H) ∧ Keeps cfg C shows H0 L P s ∧ L.Perm (book.map fun e => (e.1, mapOf e.2)) ∧
    (∀ k b, .data k b ∈ P ↔ (k, b) ∈ encoded cfg.encode rest.data) ∧
    ∀ k b, .tree (.leaf k b) ∈ P ↔ (k, b) ∈ encoded cfg.encode rest.leaves
  pending : C.pending s = View.empty N
  alive : C.alive s
  proper : ∀ e ∈ book, Proper cfg.encode e.2

theorem InNeatBookWith.more (h : InNeatBookWith cfg C shows H book rest s) (A : List (HIn N)) :
    InNeatBookWith cfg C shows (A ++ H) book rest s := by
  obtain ⟨⟨H0, L, P, hH, hu, hL⟩, hw, hal, hpr⟩ := h
  exact ⟨⟨H0, L, P, fun i hi => List.mem_append_right _ (hH i hi), hu, hL⟩, hw, hal, hpr⟩

/-- All parts and all leaves that are left over are versions. -/
theorem InNeatBookWith.shelf (hc : Sane cfg) (hsh : WritesShow C shows) (hcf : CollisionFree cfg.hasher (Among H))
    (h : InNeatBookWith cfg C shows H book rest s) : Shelf cfg C H (book.spreadWith cfg.hasher cfg.encode rest) s := by
  obtain ⟨⟨H0, L, P, hH, hu, hL, -, hleaf⟩, -, hal, hpr⟩ := h
  have hinv := hu.holdsIn hc hsh hcf hH
  have one : ∀ {p : Arr N × V} {r : Arr N}, p ∈ rest.leaves → sparseRoot cfg.hasher (encoded cfg.encode [p]) = some r →
      IsVersion cfg (C.view s) r (mapOf [p]) ∧ Proper cfg.encode [p] := by
    intro p r hp hr
    cases hb : cfg.encode p.2 with
    | error e => simp [encoded, hb, Except.toOption, sparseRoot, sparseHash] at hr
    | ok b =>
      have hv := hinv.single hcf ((hleaf p.1 b).2 (encoded_mem.2 ⟨p.2, hp, hb⟩)) hb
      rw [← mapOf_single] at hv
      have := version_sparse_root hv (proper_single hb).lists
      rw [hr] at this
      cases this
      exact ⟨hv, proper_single hb⟩
  refine ⟨hal, hinv.acct.honest, ?_, ?_⟩
  · rintro ⟨r, q⟩ hq
    rcases spreadWith_mem.1 hq with hq | ⟨p, hp, rfl, hr⟩
    · obtain ⟨e, he, hq, hr⟩ := spread_mem.1 hq
      obtain ⟨h1, h2, h3⟩ := partsOf_mem (hpr e he).once hq
      obtain ⟨r', hv⟩ := hinv.part hcf (e := (e.1, mapOf e.2)) (hL.mem_iff.2 (List.mem_map.2 ⟨e, he, rfl⟩)) h1 h2
      have := version_sparse_root hv (h3 _ (hpr e he)).lists
      rw [hr] at this
      cases this
      exact hv
    · exact (one hp hr).1
  · rintro ⟨r, q⟩ hq
    rcases spreadWith_mem.1 hq with hq | ⟨p, hp, rfl, hr⟩
    · obtain ⟨e, he, hq, hr⟩ := spread_mem.1 hq
      exact (partsOf_mem (hpr e he).once hq).2.2 _ (hpr e he)
    · exact (one hp hr).2

theorem spreadWith_shallow {G : Hasher N} {encode : V → Res (List UInt8)} {d : Nat} (hpos : 0 < d) (hd : book.Shallow d)
    (hpr : ∀ e ∈ book, Proper encode e.2) : (book.spreadWith G encode rest).Shallow d := by
  rintro ⟨r, q⟩ hq
  rcases spreadWith_mem.1 hq with hq | ⟨p, hp, rfl, hr⟩
  · exact spread_shallow hd hpr _ hq
  · show HeightBelow (mapOf [p]) d
    rw [mapOf_single]
    exact single_height hpos

/-- Under other bytes nothing is stored. -/
theorem InNeatBookWith.nothing (hc : Sane cfg) (hsh : WritesShow C shows) (hcf : CollisionFree cfg.hasher (Among H))
    (h : InNeatBookWith cfg C shows H book rest s)
    {r : Arr N} (hdata : book.dataWith cfg.hasher cfg.encode rest r = false)
    (hnone : (book.spreadWith cfg.hasher cfg.encode rest).pairs r = none) : C.view s r = none := by
  obtain ⟨⟨H0, L, P, hH, hu, hL, hrest, hleaf⟩, -, hal, hpr⟩ := h
  have hinv := hu.holdsIn hc hsh hcf hH
  unfold Book.dataWith at hdata
  rw [Bool.or_eq_false_iff] at hdata
  have nomem : ∀ q, (r, q) ∉ book.spreadWith cfg.hasher cfg.encode rest := by
    intro q hmem
    unfold Book.pairs at hnone
    rw [Option.map_eq_none_iff, List.find?_eq_none] at hnone
    exact hnone _ hmem (by simp)
  by_contra hx
  rcases hinv.place hcf hx with ⟨e, he, T, hT, ⟨k, b, hkb, rfl⟩ | ⟨u, hu', rfl⟩⟩ | ⟨k, b, hk, rfl⟩ | ⟨k, b, hk, rfl⟩
  · obtain ⟨e', he', rfl⟩ := List.mem_map.1 (hL.mem_iff.1 he)
    obtain ⟨v, hv, hb⟩ := entry_value hT.wf hT.rep hkb
    have hdata := hdata.1
    unfold Book.dataAt at hdata
    rw [List.any_eq_false] at hdata
    refine hdata e' he' (List.any_eq_true.2 ⟨(k, b), ?_, by simp [dataLoc, HIn.hash]⟩)
    exact encoded_mem.2 ⟨v, (mapOf_mem (hpr e' he').once).1 hv, hb⟩
  · obtain ⟨e', he', rfl⟩ := List.mem_map.1 (hL.mem_iff.1 he)
    obtain ⟨Q, hQ, hne, hrep⟩ := sub_part hT.wf hu' hT.rep
    obtain ⟨q, hq, rfl⟩ := partsOf_all (hpr e' he').once hQ hne
    have hv : IsVersion cfg (C.view s) (u.loc cfg.hasher) (mapOf q) :=
      ⟨u, hu'.wf hT.wf, rfl, (hinv.stored hcf he hT).sub hu', hrep⟩
    have hroot := version_sparse_root hv ((partsOf_mem (hpr e' he').once hq).2.2 _ (hpr e' he')).lists
    exact nomem _ (spreadWith_mem.2 (.inl (spread_mem.2 ⟨e', he', hq, hroot⟩)))
  · have hdata := hdata.2
    rw [List.any_eq_false] at hdata
    exact hdata (k, b) ((hrest k b).1 hk) (by simp [dataLoc, HIn.hash])
  · obtain ⟨v, hkv, hb⟩ := encoded_mem.1 ((hleaf k b).1 hk)
    have hv := hinv.single hcf hk hb
    rw [← mapOf_single (k, v)] at hv
    have hroot := version_sparse_root hv (proper_single hb).lists
    exact nomem _ (spreadWith_mem.2 (.inr ⟨(k, v), hkv, rfl, hroot⟩))

/-- Under the hash of data reads are refused. -/
theorem InNeatBookWith.data (hc : Sane cfg) (hroom : cfg.Room) (hsh : WritesShow C shows)
    (hcf : CollisionFree cfg.hasher (Among H))
    (h : InNeatBookWith cfg C shows H book rest s) {r : Arr N} (hdata : book.dataWith cfg.hasher cfg.encode rest r = true) :
    ReadsFail cfg s r ∧ ∃ k b, HIn.data k b ∈ H ∧ (HIn.data k b).hash cfg.hasher = r := by
  obtain ⟨⟨H0, L, P, hH, hu, hL, hrest, hleaf⟩, -, hal, hpr⟩ := h
  have hinv := hu.holdsIn hc hsh hcf hH
  unfold Book.dataWith at hdata
  rw [Bool.or_eq_true] at hdata
  rcases hdata with hdata | hdata
  · unfold Book.dataAt at hdata
    obtain ⟨e, he, hdata⟩ := List.any_eq_true.1 hdata
    obtain ⟨⟨k, b⟩, hkb, hdata⟩ := List.any_eq_true.1 hdata
    simp only [decide_eq_true_eq] at hdata
    subst hdata
    obtain ⟨v, hv, hb⟩ := encoded_mem.1 hkb
    have hv := (mapOf_mem (hpr e he).once).2 hv
    have heL : (e.1, mapOf e.2) ∈ L := hL.mem_iff.2 (List.mem_map.2 ⟨e, he, rfl⟩)
    refine ⟨hinv.fails hroom hal hcf heL hv hb, k, b, ?_, rfl⟩
    obtain ⟨T, hT⟩ := hinv.versions _ heL
    obtain ⟨b', hkb', hb'⟩ := Represents.entry hT.wf hT.rep hv
    rw [hb] at hb'
    cases hb'
    exact hT.inputs _ (mem_inputs.2 (.inl ⟨(k, b), hkb', .inl rfl⟩))
  · obtain ⟨⟨k, b⟩, hkb, hdata⟩ := List.any_eq_true.1 hdata
    simp only [decide_eq_true_eq] at hdata
    subst hdata
    have hk := (hrest k b).2 hkb
    obtain ⟨n, hn, hn'⟩ := hinv.data hcf hk
    exact ⟨data_reads hroom hal hn hn', k, b, (hinv.left _ hk).1, rfl⟩

/-- Reads, proofs and their verification. -/
theorem neatWith_asks (hc : Sane cfg) (hroom : cfg.Room) (hsh : WritesShow C shows) (hpos : 0 < cfg.depth) (hd : book.Shallow cfg.depth) (h : InNeatBookWith cfg C shows H book rest s)
    {c : Ask N V} (hask : c.Queries) (hneat : c.NeatWith cfg.hasher cfg.encode (c.hashed cfg s ++ H) book rest)
    (hcf : CollisionFree cfg.hasher (Among (c.hashed cfg s ++ H))) :
    (c.run (cfg.api ρ) s).1 = c.sayWith cfg.hasher cfg.encode book rest := by
  have hcf0 : CollisionFree cfg.hasher (Among H) := hcf.mono (fun i hi => List.mem_append_right _ hi)
  have hshelf := h.shelf hc hsh hcf0
  have hd' := spreadWith_shallow (G := cfg.hasher) (rest := rest) hpos hd h.proper
  cases c with
  | get r keys =>
    cases hdata : book.dataWith cfg.hasher cfg.encode rest r with
    | true =>
      by_cases hk : keys = []
      · subst hk
        have hm : (cfg.api ρ).get s r [] = .ok AMap.empty := rfl
        simp only [Ask.run, Ask.sayWith, hdata, hm, List.isEmpty_nil, Bool.not_true, Bool.and_false, Bool.false_eq_true,
          if_false, Ask.answer]
        cases (book.spreadWith cfg.hasher cfg.encode rest).pairs r <;> rfl
      · obtain ⟨msg, hm⟩ := (h.data hc hroom hsh hcf0 hdata).1.many keys hk
        have hm : (cfg.api ρ).get s r keys = .error (.exception msg) := hm
        have : keys.isEmpty = false := by simpa using hk
        simp only [Ask.run, Ask.sayWith, hdata, hm, this, Bool.not_false, Bool.and_self, if_true]
    | false =>
      simp only [Ask.sayWith, hdata, Bool.false_and, Bool.false_eq_true, if_false]
      cases hp : (book.spreadWith cfg.hasher cfg.encode rest).pairs r with
      | none =>
        obtain ⟨m, h1, h2⟩ := (C45_unknown_root_reads_nothing (cfg := cfg) C h.alive (h.nothing hc hsh hcf0 hdata hp)).2.1 keys
        have hm : (cfg.api ρ).get s r keys = .ok m := h1
        simp only [Ask.run, Ask.answer, hm, hp, Said.values.injEq, List.map_inj_left]
        intro k hk
        rw [h2 k, if_pos hk]
      | some pairs =>
        refine (shelf_asks (ρ := ρ) (c := .get r keys) hc hroom hd' hshelf trivial (fun hn => ?_) (fun pairs hp k hk => ?_) hcf).1
        · rw [hp] at hn; cases hn
        · exact .inr (handled_of_clear hc (hneat pairs hp) k hk)
  | getOne r k =>
    cases hdata : book.dataWith cfg.hasher cfg.encode rest r with
    | true =>
      obtain ⟨msg, hm⟩ := (h.data hc hroom hsh hcf0 hdata).1.one k
      have hm : (cfg.api ρ).getOne s r k = .error (.exception msg) := hm
      simp only [Ask.run, Ask.sayWith, hdata, hm, if_true]
    | false =>
      simp only [Ask.sayWith, hdata, Bool.false_eq_true, if_false]
      cases hp : (book.spreadWith cfg.hasher cfg.encode rest).pairs r with
      | none =>
        have hm : (cfg.api ρ).getOne s r k = .ok none :=
          (C45_unknown_root_reads_nothing (cfg := cfg) C h.alive (h.nothing hc hsh hcf0 hdata hp)).1 k
        simp only [Ask.run, Ask.answer, hm, hp]
      | some pairs =>
        refine (shelf_asks (ρ := ρ) (c := .getOne r k) hc hroom hd' hshelf trivial (fun hn => ?_) trivial hcf).1
        rw [hp] at hn; cases hn
  | prove r k =>
    cases hdata : book.dataWith cfg.hasher cfg.encode rest r with
    | true =>
      obtain ⟨msg, hm⟩ := (h.data hc hroom hsh hcf0 hdata).1.unproved k
      have hm : (cfg.api ρ).generateInclusionProof s r k = .error (.exception msg) := hm
      simp only [Ask.run, Ask.sayWith, hdata, hm, if_true]
    | false =>
      simp only [Ask.sayWith, hdata, Bool.false_eq_true, if_false]
      cases hp : (book.spreadWith cfg.hasher cfg.encode rest).pairs r with
      | none =>
        obtain ⟨msg, hm⟩ :=
          (C45_unknown_root_reads_nothing (cfg := cfg) C h.alive (h.nothing hc hsh hcf0 hdata hp)).2.2 hroom k
        have hm : (cfg.api ρ).generateInclusionProof s r k = .error (.exception msg) := hm
        simp only [Ask.run, Ask.answer, hm, hp]
      | some pairs =>
        refine (shelf_asks (ρ := ρ) (c := .prove r k) hc hroom hd' hshelf trivial (fun hn => ?_) trivial hcf).1
        rw [hp] at hn; cases hn
  | verify r k v p =>
    cases hdata : book.dataWith cfg.hasher cfg.encode rest r with
    | true =>
      simp only [Ask.run, Ask.sayWith, hdata, if_true]
      cases hver : (cfg.api ρ).verifyInclusionProof r k v p with
      | error e => rfl
      | ok u =>
        exfalso
        obtain ⟨-, k', b', hk', rfl⟩ := h.data hc hroom hsh hcf0 hdata
        obtain ⟨b, f0, f1, rest, he, rfl, hfold⟩ := (verify_iff _ _ _ _ _ _).1 hver
        refine foldProof_data hcf (List.mem_append_right _ hk') rest
          ⟨.leaf k (Trie.dataLoc cfg.hasher k b), ?_, rfl, by simp⟩ (fun i hi => ?_) hfold
        all_goals
          simp only [Ask.hashed, he, verifyInputs]
          refine List.mem_append_left _ ?_
        · simp
        · exact List.mem_cons_of_mem _ (List.mem_cons_of_mem _ hi)
    | false =>
      simp only [Ask.sayWith, hdata, Bool.false_eq_true, if_false]
      refine (shelf_asks (ρ := ρ) (c := .verify r k v p) hc hroom hd' hshelf trivial ?_ trivial hcf).1
      exact hneat.resolve_left (by rw [hdata]; simp)
  | _ => exact hask.elim

/-- What a batch leaves over. -/
theorem batch_left {L : Ledger N V} {P : List (Item N)} (hL : L.Perm (book.map fun e => (e.1, mapOf e.2)))
    (hpr : ∀ e ∈ book, Proper cfg.encode e.2)
    (hrest : ∀ k b, .data k b ∈ P ↔ (k, b) ∈ encoded cfg.encode rest.data)
    (hleaf : ∀ k b, .tree (.leaf k b) ∈ P ↔ (k, b) ∈ encoded cfg.encode rest.leaves)
    {base : List (Arr N × V)} (hbase : Proper cfg.encode base) (keys : List (Arr N)) (values : List V) :
    (∀ k b, .data k b ∈ leftBy cfg shows L P (mapOf base) keys values ++ P ↔
      (k, b) ∈ encoded cfg.encode (rest.batch cfg.encode shows book base (keys.zip values)).data) ∧
    ∀ k b, .tree (.leaf k b) ∈ leftBy cfg shows L P (mapOf base) keys values ++ P ↔
      (k, b) ∈ encoded cfg.encode (rest.batch cfg.encode shows book base (keys.zip values)).leaves := by
  have has : ∀ {pairs : List (Arr N × V)}, Proper cfg.encode pairs → ∀ k b,
      (mapOf pairs).Has cfg k b ↔ (k, b) ∈ encoded cfg.encode pairs := by
    intro pairs hp k b
    unfold Contents.Has
    rw [encoded_mem]
    exact exists_congr fun v => and_congr_left fun _ => mapOf_mem hp.once
  have hasL : ∀ k b, (∃ x ∈ L, x.2.Has cfg k b) ↔ ∃ e ∈ book, (k, b) ∈ encoded cfg.encode e.2 := by
    intro k b
    constructor
    · rintro ⟨x, hx, hb⟩
      obtain ⟨e, he, rfl⟩ := List.mem_map.1 (hL.mem_iff.1 hx)
      exact ⟨e, he, (has (hpr e he) k b).1 hb⟩
    · rintro ⟨e, he, hb⟩
      exact ⟨_, hL.mem_iff.2 (List.mem_map.2 ⟨e, he, rfl⟩), (has (hpr e he) k b).2 hb⟩
  have hmem : ∀ k b, (k, b) ∈ encodedPairs cfg keys values ↔ ∃ v, (k, v) ∈ keys.zip values ∧ cfg.encode v = .ok b := by
    intro k b
    refine ⟨encodedPairs_encode, ?_⟩
    rintro ⟨v, hv, hb⟩
    exact List.mem_filterMap.2 ⟨(k, v), hv, by simp [hb]⟩
  have happ : ∀ (A B : List (Arr N × V)), encoded cfg.encode (A ++ B) = encoded cfg.encode A ++ encoded cfg.encode B :=
    fun A B => List.filterMap_append
  constructor
  · intro k b
    simp only [Rest.batch, happ, List.mem_append, hrest k b]
    refine or_congr_left ?_
    unfold leftBy
    rw [List.mem_flatMap, encoded_mem]
    constructor
    · rintro ⟨⟨k', b'⟩, he, h⟩
      rcases List.mem_append.1 h with h | h
      · split at h
        · next hin =>
          simp only [List.mem_singleton, Item.data.injEq] at h
          obtain ⟨rfl, rfl⟩ := h
          obtain ⟨v, hv, hb⟩ := (hmem k b).1 he
          refine ⟨v, List.mem_filter.2 ⟨hv, ?_⟩, hb⟩
          rw [Bool.or_eq_true, List.any_eq_true, pairIn_iff hb, ← hleaf k b]
          refine hin.imp (fun h => ?_) id
          obtain ⟨e, he, h⟩ := (hasL k b).1 h
          exact ⟨e, he, (pairIn_iff hb).2 h⟩
        · cases h
      · split at h
        · simp at h
        · cases h
    · rintro ⟨v, hv, hb⟩
      obtain ⟨hv, hin⟩ := List.mem_filter.1 hv
      refine ⟨(k, b), (hmem k b).2 ⟨v, hv, hb⟩, List.mem_append_left _ ?_⟩
      rw [if_pos, List.mem_singleton]
      rw [Bool.or_eq_true, List.any_eq_true, pairIn_iff hb, ← hleaf k b] at hin
      refine hin.imp (fun h => ?_) id
      obtain ⟨e, he, h⟩ := h
      exact (hasL k b).2 ⟨e, he, (pairIn_iff hb).1 h⟩
  · intro k b
    simp only [Rest.batch, happ, List.mem_append, hleaf k b]
    refine or_congr_left ?_
    unfold leftBy
    rw [List.mem_flatMap, encoded_mem]
    constructor
    · rintro ⟨⟨k', b'⟩, he, h⟩
      rcases List.mem_append.1 h with h | h
      · split at h
        · simp at h
        · cases h
      · split at h
        · next hin =>
          simp only [List.mem_singleton, Item.tree.injEq, Trie.leaf.injEq] at h
          obtain ⟨rfl, rfl⟩ := h
          obtain ⟨v, hv, hb⟩ := (hmem k b).1 he
          refine ⟨v, List.mem_filter.2 ⟨hv, ?_⟩, hb⟩
          rw [Bool.and_eq_true, pairIn_iff hb, ← has hbase]
          exact hin
        · cases h
    · rintro ⟨v, hv, hb⟩
      obtain ⟨hv, hin⟩ := List.mem_filter.1 hv
      refine ⟨(k, b), (hmem k b).2 ⟨v, hv, hb⟩, List.mem_append_right _ ?_⟩
      rw [Bool.and_eq_true, pairIn_iff hb, ← has hbase] at hin
      rw [if_pos hin, List.mem_singleton]

/-- An insert. -/
theorem neatWith_insert (hc : Sane cfg) (hsh : WritesShow C shows) (hd : book.Shallow cfg.depth)
    (h : InNeatBookWith cfg C shows H book rest s) {prev : Option (Arr N)} {keys : List (Arr N)} {values : List V}
    (hneat : keys.length = values.length → keys ≠ [] → inOrder cfg.encode keys values ∧
      ∃ pairs, (book.spread cfg.hasher cfg.encode).base prev = some pairs ∧ Clear (mapOf pairs) keys ∧ book.Fresh pairs keys values)
    (hcf : CollisionFree cfg.hasher (Among (hashedBy cfg prev keys values s ++ H))) :
    Said.ofInsert (insert cfg prev keys values s).1 = (book.insertOn cfg.hasher cfg.encode prev keys values).1 ∧
    InNeatBookWith cfg C shows (hashedBy cfg prev keys values s ++ H)
      (book.insertOn cfg.hasher cfg.encode prev keys values).2
      (rest.call cfg.hasher cfg.encode shows book (.insert prev keys values)) (insert cfg prev keys values s).2 := by
  by_cases hlen : keys.length ≠ values.length ∨ keys = []
  · obtain ⟨msg, hrun⟩ := C12_bad_arguments cfg prev keys values hlen s
    have hio : ¬ inOrder cfg.encode keys values := fun hio => by
      obtain ⟨h1, h2, -, -⟩ := inOrder_iff.1 hio
      exact hlen.elim (fun h => h h1) h2
    unfold Book.insertOn Rest.call
    rw [hrun]
    simp only [hio]
    exact ⟨rfl, h.more _⟩
  · push Not at hlen
    obtain ⟨hio, pairs, hbase, hclear, hfresh⟩ := hneat hlen.1 hlen.2
    have hshelf := h.shelf hc hsh (hcf.mono fun i hi => List.mem_append_right _ hi)
    have hd' := (spread_shallow (G := cfg.hasher) hd h.proper).base hbase
    obtain ⟨⟨H0, L, P, hH, hu, hL, hrest, hleaf⟩, hw, hal, hpr⟩ := h
    have hal' := insert_alive (cfg := cfg) (C := C) hal prev keys values
    obtain ⟨h1, h2, h3, h4⟩ := inOrder_iff.1 hio
    obtain ⟨hprev, hprp⟩ := spread_base (fun e he => hshelf.version e (spreadWith_mem.2 (.inl he))) hpr hL hbase
    have hcf1 : CollisionFree cfg.hasher (Among (hashedBy cfg prev keys values s ++ H0)) := hcf.mono (append_sub hH)
    have hcar : Careful cfg C False L s prev (mapOf pairs) keys values :=
      ⟨.inl hw, hprev, h3, noStraddle_of_clear hclear, fun e he => by
        obtain ⟨e', he', rfl⟩ := List.mem_map.1 (hL.mem_iff.1 he)
        exact hfresh e' he', fun h => h.elim⟩
    obtain ⟨r, s', hrun, -, hp', h'⟩ := C47_live_roots_accept_partial hc
      (C87_keeps_versions hc hsh hu (hcf1.mono fun i hi => List.mem_append_right _ hi)) hal hcf1 hcar h1 h2 h4 hd'
    have hput := hprp.put h1 h3 h4
    have hroot := C89_live_root hc h' hcf1 List.mem_cons_self (mapOf_put (pairs := pairs) h1 ▸ hput.lists)
    have hkeep := hu.insert hcar hrun
    have hleft := batch_left (shows := shows) hL hpr hrest hleaf hprp keys values
    unfold Book.insertOn Rest.call
    rw [hrun] at hal' ⊢
    simp only [hio, if_true, hbase, hroot]
    refine ⟨rfl, ⟨_, _, _, append_sub hH, hkeep, ?_, hleft⟩, hp', hal', fun e he => ?_⟩
    · rw [List.map_cons, mapOf_put h1]; exact hL.cons _
    · rcases List.mem_cons.1 he with rfl | he
      · exact hput
      · exact hpr e he

/-- One call. -/
theorem neatWith_step (hc : Sane cfg) (hroom : cfg.Room) (hsh : WritesShow C shows) (hpos : 0 < cfg.depth)
    (hρ : ∀ s, C.view (ρ s) = C.view s ∧ C.pending (ρ s) = View.empty N ∧ (C.alive s → C.alive (ρ s)))
    (hd : book.Shallow cfg.depth) (h : InNeatBookWith cfg C shows H book rest s) {c : Ask N V}
    (hneat : c.NeatWith cfg.hasher cfg.encode (c.hashed cfg s ++ H) book rest)
    (hcf : CollisionFree cfg.hasher (Among (c.hashed cfg s ++ H))) :
    (c.run (cfg.api ρ) s).1 = c.sayWith cfg.hasher cfg.encode book rest ∧
    InNeatBookWith cfg C shows (c.hashed cfg s ++ H) (c.after cfg.hasher cfg.encode book)
      (rest.call cfg.hasher cfg.encode shows book c) (c.run (cfg.api ρ) s).2 := by
  cases c with
  | insert prev keys values => exact neatWith_insert hc hsh hd h hneat hcf
  | insertOne prev k v =>
    have h1 : insertOne cfg prev k v s = insert cfg prev [k] [v] s := by rw [C10_insert_one_is_insert]
    simp only [Ask.run, Ask.sayWith, Ask.after, Ask.answer, Ask.hashed, Config.api, h1]
    obtain ⟨hio, pairs, hbase, hnew⟩ := hneat
    have := neatWith_insert (keys := [k]) (values := [v]) hc hsh hd h
      (fun _ _ => ⟨hio, pairs, hbase, clear_of_short (by simp), hnew⟩) hcf
    unfold Rest.call at this ⊢
    simp only [hio, if_true, List.zip_cons_cons, List.zip_nil_right] at this
    exact this
  | get r keys =>
    obtain ⟨h2, h3⟩ := queries_keep (cfg := cfg) (ρ := ρ) (s := s) (book := book) (c := .get r keys) trivial
    rw [h2, h3]
    exact ⟨neatWith_asks hc hroom hsh hpos hd h trivial hneat hcf, h.more _⟩
  | getOne r k =>
    obtain ⟨h2, h3⟩ := queries_keep (cfg := cfg) (ρ := ρ) (s := s) (book := book) (c := .getOne r k) trivial
    rw [h2, h3]
    exact ⟨neatWith_asks hc hroom hsh hpos hd h trivial hneat hcf, h.more _⟩
  | prove r k =>
    obtain ⟨h2, h3⟩ := queries_keep (cfg := cfg) (ρ := ρ) (s := s) (book := book) (c := .prove r k) trivial
    rw [h2, h3]
    exact ⟨neatWith_asks hc hroom hsh hpos hd h trivial hneat hcf, h.more _⟩
  | verify r k v p =>
    obtain ⟨h2, h3⟩ := queries_keep (cfg := cfg) (ρ := ρ) (s := s) (book := book) (c := .verify r k v p) trivial
    rw [h2, h3]
    exact ⟨neatWith_asks hc hroom hsh hpos hd h trivial hneat hcf, h.more _⟩
  | reopen =>
    obtain ⟨e1, e2, e3⟩ := hρ s
    obtain ⟨⟨H0, L, P, hH, hu, hL⟩, hw, hal, hpr⟩ := h
    exact ⟨rfl, ⟨_, _, _, hH, .reopen hu e1 e2, hL⟩, e2, e3 hal, hpr⟩
  | remove r =>
    obtain ⟨pairs, hp⟩ := hneat
    obtain ⟨⟨H0, L, P, hH, hu, hL, hrest⟩, hw, hal, hpr⟩ := h
    obtain ⟨L1, L2, rfl, hL'⟩ := struck hL hp
    obtain ⟨s', hrun, hs'⟩ := remove_alive (C := C) (cfg := cfg) hal r
    have hrun' : (cfg.api ρ).remove s r = (.ok (), s') := hrun
    simp only [Ask.run, Ask.sayWith, Ask.after, Ask.answer, Ask.hashed, hrun']
    exact ⟨by trivial, ⟨_, _, _, hH, Keeps.remove hu hrun, hL', hrest⟩, remove_flushed hrun, hs',
      fun e he => hpr e (List.mem_of_mem_eraseP he)⟩
  | dies n prev keys values => exact hneat.elim
  | removeDies n r => exact hneat.elim

theorem neatWith_session (hc : Sane cfg) (hroom : cfg.Room) (hsh : WritesShow C shows) (hpos : 0 < cfg.depth)
    (hρ : ∀ s, C.view (ρ s) = C.view s ∧ C.pending (ρ s) = View.empty N ∧ (C.alive s → C.alive (ρ s))) :
    ∀ (cs : List (Ask N V)) {H : List (HIn N)} {book : Book N V} {rest : Rest N V} {s : σ},
    ShallowSays cfg.hasher cfg.encode cfg.depth cs book → InNeatBookWith cfg C shows H book rest s →
    NeatAsksWith cfg ρ shows cs H book rest s → CollisionFree cfg.hasher (Among (hashedByAsks cfg ρ cs s ++ H)) →
    runAsks (cfg.api ρ) cs s = sayAllWith cfg.hasher cfg.encode shows cs book rest
  | [], _, _, _, _, _, _, _, _ => rfl
  | c :: cs, H, book, rest, s, hd, h, hneat, hcf => by
    rw [hashedByAsks, List.append_assoc] at hcf
    obtain ⟨h1, h2⟩ := neatWith_step hc hroom hsh hpos hρ hd.1 h hneat.1 (hcf.mono fun i hi => List.mem_append_right _ hi)
    rw [runAsks, sayAllWith, h1, neatWith_session hc hroom hsh hpos hρ cs hd.2 h2 hneat.2 hcf]

/-- C92 where single pairs are inserted again: the reference program keeps account of what is left over, and then all answers
under any bytes are its answers. -/
theorem C92_any_root_again (hc : Sane cfg) (hroom : cfg.Room) (hsh : WritesShow C shows) (hpos : 0 < cfg.depth)
    (hρ : ∀ s, C.view (ρ s) = C.view s ∧ C.pending (ρ s) = View.empty N ∧ (C.alive s → C.alive (ρ s)))
    (h0 : C.view s = View.empty N) (h1 : C.pending s = View.empty N) (hs : C.alive s)
    (cs : List (Ask N V)) (hd : ShallowSays cfg.hasher cfg.encode cfg.depth cs [])
    (hneat : NeatAsksWith cfg ρ shows cs [] [] ⟨[], []⟩ s)
    (hcf : CollisionFree cfg.hasher (Among (hashedByAsks cfg ρ cs s))) :
    runAsks (cfg.api ρ) cs s = sayAllWith cfg.hasher cfg.encode shows cs [] ⟨[], []⟩ :=
  neatWith_session hc hroom hsh hpos hρ cs (H := []) hd
    ⟨⟨[], [], [], fun _ h => h, .start h0 h1, .nil, by simp [encoded], by simp [encoded]⟩, h1, hs, fun _ h => by cases h⟩
    hneat (by rwa [List.append_nil])

/-- C92 for `HashTree`, where single pairs are inserted again. -/
theorem C92_hash_tree_again (ty : TreeTypes N V) (depth : Nat) (hpos : 0 < depth) (hc : Sane (ty.hashConfig depth))
    (hroom : (ty.hashConfig depth).Room) (cs : List (Ask N V))
    (hd : ShallowSays ty.hasher ty.encode depth cs [])
    (hneat : NeatAsksWith (ty.hashConfig depth) id true cs [] [] ⟨[], []⟩ (HashDB.open N))
    (hcf : CollisionFree ty.hasher (Among (hashedByAsks (ty.hashConfig depth) id cs (HashDB.open N)))) :
    ∃ t, HashTree.new N depth = .ok t ∧
      runAsks (HashTree.api ty) cs t = sayAllWith ty.hasher ty.encode true cs [] ⟨[], []⟩ := by
  refine ⟨_, rfl, ?_⟩
  refine ((hashTree_hom ty depth).runAsks cs (HashDB.open N)).trans ?_
  exact C92_any_root_again (cfg := ty.hashConfig depth) (C := hashContract N) hc hroom hash_writesShow hpos
    (fun s => ⟨rfl, rfl, id⟩) rfl rfl trivial cs hd hneat hcf

/-- C92 for `RocksTree`, where single pairs are inserted again. -/
theorem C92_rocks_tree_again (ty : TreeTypes N V) {codec : NodeCodec N} (hl : LawfulCodec codec) (depth : Nat)
    (hpos : 0 < depth) (hc : Sane (ty.rocksConfig codec (.reliable N) depth))
    (hroom : (ty.rocksConfig codec (.reliable N) depth).Room) (cs : List (Ask N V))
    (hd : ShallowSays ty.hasher ty.encode depth cs [])
    (hneat : NeatAsksWith (ty.rocksConfig codec (.reliable N) depth) (fun s => RocksDB.new s.decompose) false cs [] []
      ⟨[], []⟩ (RocksDB.new AMap.empty))
    (hcf : CollisionFree ty.hasher (Among (hashedByAsks (ty.rocksConfig codec (.reliable N) depth)
      (fun s => RocksDB.new s.decompose) cs (RocksDB.new AMap.empty)))) :
    ∃ t, RocksTree.open (.ok AMap.empty) depth = .ok t ∧
      runAsks (RocksTree.api ty codec (.reliable N)) cs t = sayAllWith ty.hasher ty.encode false cs [] ⟨[], []⟩ := by
  refine ⟨_, rfl, ?_⟩
  refine ((rocksTree_hom ty codec (.reliable N) depth).runAsks cs (RocksDB.new AMap.empty)).trans ?_
  exact C92_any_root_again (cfg := ty.rocksConfig codec (.reliable N) depth)
    (C := rocksContract hl (.reliable N)) (s := RocksDB.new AMap.empty) (ρ := fun s => RocksDB.new s.decompose) hc hroom
    (rocks_writesShow hl _) hpos (rocks_reopen hl) rfl rfl (rocks_empty hl) cs hd hneat hcf

end

/-! ## Examples -/

section
variable {N : Nat} {V : Type} [DecidableEq V]

/-- Around every key of the batch, every group of two or more pairs has a key at which the lists differ. -/
def Book.freshCheck (book : Book N V) (pairs : List (Arr N × V)) (keys : List (Arr N)) (values : List V) : Bool :=
  book.all fun e => keys.all fun k => (putPairs pairs (keys.zip values)).all fun p => p.1 = k ||
    (putPairs pairs (keys.zip values) ++ e.2).any fun q => firstDiff k p.1 ≤ firstDiff k q.1 &&
      mapOf e.2 q.1 ≠ mapOf (putPairs pairs (keys.zip values)) q.1

theorem Book.fresh_of_check {book : Book N V} {pairs : List (Arr N × V)} {keys : List (Arr N)} {values : List V}
    (hlen : keys.length = values.length) (h : book.freshCheck pairs keys values = true) : book.Fresh pairs keys values := by
  rintro e he ⟨k, hk, d, ⟨k', hne, hd, hk'⟩, hagree⟩
  rw [← mapOf_put hlen] at hk' hagree
  have h := List.all_eq_true.1 (List.all_eq_true.1 h e he) k hk
  obtain ⟨v, hv⟩ := Option.ne_none_iff_exists'.1 hk'
  have hp : ∃ p ∈ putPairs pairs (keys.zip values), p.1 = k' := by
    unfold mapOf at hv
    obtain ⟨p, hp, -⟩ := Option.map_eq_some_iff.1 hv
    exact ⟨p, List.mem_of_find?_eq_some hp, by simpa using List.find?_some hp⟩
  obtain ⟨p, hp, rfl⟩ := hp
  have h := List.all_eq_true.1 h p hp
  simp only [hne, decide_false, Bool.false_or] at h
  obtain ⟨q, -, hq⟩ := List.any_eq_true.1 h
  simp only [Bool.and_eq_true, decide_eq_true_eq] at hq
  exact hq.2 (hagree q.1 (hd.trans hq.1))

/-- The call is neat. -/
def Ask.neatWithCheck (H : Hasher N) (encode : V → Res (List UInt8)) (seen : List (HIn N)) (book : Book N V) (rest : Rest N V) :
    Ask N V → Bool
  | .insert prev keys values => keys.length ≠ values.length || keys.isEmpty || (inOrder encode keys values &&
      ((book.spread H encode).base prev).any fun pairs => clearCheck pairs keys && book.freshCheck pairs keys values)
  | .insertOne prev k v => inOrder encode [k] [v] && ((book.spread H encode).base prev).any fun pairs => book.freshCheck pairs [k] [v]
  | .get r keys => ((book.spreadWith H encode rest).pairs r).all fun pairs => clearCheck pairs keys
  | .getOne _ _ => true
  | .prove _ _ => true
  | .verify r _ _ _ => book.dataWith H encode rest r || (book.spreadWith H encode rest).rootCheck H seen r
  | .reopen => true
  | .remove r => (book.pairs r).isSome
  | .dies _ _ _ _ => false
  | .removeDies _ _ => false

/-- All calls are neat. -/
def neatAsksWithCheck {σ : Type} (cfg : Config N σ V) (ρ : σ → σ) (shows : Bool) :
    List (Ask N V) → List (HIn N) → Book N V → Rest N V → σ → Bool
  | [], _, _, _, _ => true
  | c :: cs, seen, book, rest, s => c.neatWithCheck cfg.hasher cfg.encode (c.hashed cfg s ++ seen) book rest &&
      neatAsksWithCheck cfg ρ shows cs (c.hashed cfg s ++ seen) (c.after cfg.hasher cfg.encode book)
        (rest.call cfg.hasher cfg.encode shows book c) (c.run (cfg.api ρ) s).2

theorem neatWith_of_check {H : Hasher N} {encode : V → Res (List UInt8)} {seen : List (HIn N)} {book : Book N V}
    {rest : Rest N V} {c : Ask N V} (h : c.neatWithCheck H encode seen book rest = true) :
    c.NeatWith H encode seen book rest := by
  cases c with
  | insert prev keys values =>
    intro h1 h2
    have h2' : keys.isEmpty = false := by simpa using h2
    simp only [Ask.neatWithCheck, h1, h2', ne_eq, not_true_eq_false, decide_false, Bool.false_or, Bool.and_eq_true] at h
    refine ⟨h.1, ?_⟩
    cases hb : (book.spread H encode).base prev with
    | none => rw [hb] at h; cases h.2
    | some pairs =>
      rw [hb, Option.any_some, Bool.and_eq_true] at h
      exact ⟨pairs, rfl, clear_of_check h.2.1, Book.fresh_of_check h1 h.2.2⟩
  | insertOne prev k v =>
    simp only [Ask.neatWithCheck, Bool.and_eq_true] at h
    refine ⟨h.1, ?_⟩
    cases hb : (book.spread H encode).base prev with
    | none => rw [hb] at h; cases h.2
    | some pairs =>
      rw [hb, Option.any_some] at h
      exact ⟨pairs, rfl, Book.fresh_of_check rfl h.2⟩
  | get r keys =>
    intro pairs hp
    simp only [Ask.neatWithCheck, hp, Option.all_some] at h
    exact clear_of_check h
  | getOne r k => trivial
  | prove r k => trivial
  | verify r k v p =>
    simp only [Ask.neatWithCheck, Bool.or_eq_true] at h
    exact h.imp id Book.root_of_check
  | reopen => trivial
  | remove r => exact Option.isSome_iff_exists.1 h
  | dies n prev keys values => cases h
  | removeDies n r => cases h

theorem neatAsksWith_of_check {σ : Type} {cfg : Config N σ V} {ρ : σ → σ} {shows : Bool} :
    ∀ (cs : List (Ask N V)) (seen : List (HIn N)) (book : Book N V) (rest : Rest N V) (s : σ),
      neatAsksWithCheck cfg ρ shows cs seen book rest s = true → NeatAsksWith cfg ρ shows cs seen book rest s
  | [], _, _, _, _, _ => trivial
  | c :: cs, seen, book, rest, s, h => by
    rw [neatAsksWithCheck, Bool.and_eq_true] at h
    exact ⟨neatWith_of_check h.1, neatAsksWith_of_check cs _ _ _ _ h.2⟩

end

namespace Toy

/-- The root of the pairs with the keys 1 and 2, of these and the key 3, and of the pair with the key 1 alone; the hash of the
data of the key 1. -/
def againRoot : Arr 2 := (sparseRoot Toy.cfg.hasher [(key 1, [10]), (key 2, [20])]).getD (key 0)
@[inherit_doc againRoot]
def againRoot' : Arr 2 := (sparseRoot Toy.cfg.hasher [(key 1, [10]), (key 2, [20]), (key 3, [30])]).getD (key 0)
@[inherit_doc againRoot]
def againOne : Arr 2 := (sparseRoot Toy.cfg.hasher [(key 1, [10])]).getD (key 0)
@[inherit_doc againRoot]
def againData : Arr 2 := (HIn.data (key 1) [10]).hash Toy.cfg.hasher

/-- The pair with the key 1 is inserted, and again on top of the version that has it; both versions are removed. -/
def leftCalls : List (Ask 2 (List UInt8)) :=
  [.insert none [key 1, key 2] [[10], [20]],
   .insert (some againRoot) [key 1, key 3] [[10], [30]],
   .getOne againOne (key 1),
   .get againRoot' [key 1, key 2, key 3],
   .verify againOne (key 1) [10] (sparseProof Toy.cfg.hasher [(key 1, [10])] (key 1) [10]),
   .insertOne (some againOne) (key 1) [10],
   .remove againOne,
   .remove againRoot,
   .reopen,
   .remove againRoot',
   .getOne againRoot (key 1),
   .get againOne [key 1, key 2],
   .prove againOne (key 1),
   .getOne againData (key 1),
   .insertOne none (key 1) [10],
   .remove againOne,
   .getOne againOne (key 1)]

/-- The answers where writes show at once (`true`), and where they are queued (`false`). -/
def leftAnswers (shows : Bool) : List (Said 2 (List UInt8)) :=
  [.root againRoot, .root againRoot', .value (some [10]), .values [some (some [10]), some (some [20]), some (some [30])],
   .accepted, .root againOne, .removed, .removed, .nothing, .removed, .value none,
   if shows then .values [some (some [10]), some none] else .values [some none, some none],
   if shows then .proof (sparseProof Toy.cfg.hasher [(key 1, [10])] (key 1) [10]) else .refused,
   .refused, .root againOne, .removed,
   .value (if shows then some [10] else none)]

/-- The reference program gives them. -/
theorem left_answers (shows : Bool) :
    sayAllWith Toy.cfg.hasher Toy.cfg.encode shows leftCalls [] ⟨[], []⟩ = leftAnswers shows := by
  cases shows <;> decide +kernel

/-- The hypotheses of `C92_any_root_again` are met. -/
example : runAsks (Toy.cfg.api id) leftCalls db0 = leftAnswers true :=
  (C92_any_root_again (C := Toy.C) sane room hash_writesShow (by decide) (fun s => ⟨rfl, rfl, id⟩) rfl rfl (alive _) leftCalls
    (says_levels _) (neatAsksWith_of_check _ _ _ _ _ (by decide +kernel)) (collisionFree_of_check (by decide +kernel))).trans
    (left_answers true)

/-- The same for the trees: they differ in what is read under the root of the pair that was inserted again. -/
example : ∃ t, HashTree.new 2 17 = .ok t ∧ runAsks (HashTree.api types) leftCalls t = leftAnswers true := by
  obtain ⟨t, h1, h2⟩ := C92_hash_tree_again types 17 (by decide) sane room leftCalls (says_levels _)
    (neatAsksWith_of_check _ _ _ _ _ (by decide +kernel)) (collisionFree_of_check (by decide +kernel))
  exact ⟨t, h1, h2.trans (left_answers true)⟩
example : ∃ t, RocksTree.open (.ok AMap.empty) 17 = .ok t ∧
    runAsks (RocksTree.api types ToyCodec.codec (.reliable 2)) leftCalls t = leftAnswers false := by
  obtain ⟨t, h1, h2⟩ := C92_rocks_tree_again types ToyCodec.lawful 17 (by decide) ⟨sane.1, sane.2, sane.3⟩ room leftCalls
    (says_levels _) (neatAsksWith_of_check _ _ _ _ _ (by decide +kernel)) (collisionFree_of_check (by decide +kernel))
  exact ⟨t, h1, h2.trans (left_answers false)⟩

end Toy

end MerkleBit
