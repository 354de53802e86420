import Verif.Proof.AnySessions
import Verif.Props.Sparse
import Verif.Spec.Reference
/-! # The reference program: lists of pairs -/

namespace MerkleBit
variable {N : Nat} {σ V : Type}

theorem mapOf_mem {pairs : List (Arr N × V)} (hnd : (pairs.map Prod.fst).Nodup) {k : Arr N} {v : V} :
    mapOf pairs k = some v ↔ (k, v) ∈ pairs := by
  unfold mapOf
  cases hf : pairs.find? (fun e => e.1 = k) with
  | none =>
    simp only [Option.map_none, reduceCtorEq, false_iff]
    intro h
    rw [List.find?_eq_none] at hf
    exact hf _ h (by simp)
  | some e =>
    have h1 := List.find?_some hf
    have h2 := List.mem_of_find?_eq_some hf
    simp only [decide_eq_true_eq] at h1
    subst h1
    simp only [Option.map_some, Option.some.injEq]
    constructor
    · rintro rfl; exact h2
    · intro h
      rw [← List.inj_on_of_nodup_map hnd h h2 rfl]

theorem mapOf_put {pairs : List (Arr N × V)} {keys : List (Arr N)} {values : List V}
    (hlen : keys.length = values.length) :
    mapOf (putPairs pairs (keys.zip values)) = (mapOf pairs).assign keys values := by
  have hfst : (keys.zip values).map Prod.fst = keys := List.map_fst_zip (by omega)
  funext k
  unfold mapOf putPairs Contents.assign
  rw [hfst, List.find?_append, List.find?_filter]
  by_cases hk : k ∈ keys
  · have h1 : pairs.find? (fun a => decide (decide (a.1 ∉ keys) = true ∧ decide (a.1 = k) = true)) = none := by
      rw [List.find?_eq_none]
      intro e _ h
      simp only [decide_eq_true_eq] at h
      exact h.1 (h.2 ▸ hk)
    rw [h1]
    simp only [Option.none_or]
    cases hf : (keys.zip values).find? (fun e => e.1 = k) with
    | none =>
      rw [← hfst] at hk
      obtain ⟨e, he, rfl⟩ := List.mem_map.1 hk
      rw [List.find?_eq_none] at hf
      exact absurd (by simp) (hf e he)
    | some e => rfl
  · have h1 : pairs.find? (fun a => decide (decide (a.1 ∉ keys) = true ∧ decide (a.1 = k) = true)) =
        pairs.find? (fun e => e.1 = k) := by
      congr 1
      funext e
      by_cases he : e.1 = k
      · subst he; simp [hk]
      · simp [he]
    have h2 : (keys.zip values).find? (fun e => e.1 = k) = none := by
      rw [List.find?_eq_none]
      intro e he h
      simp only [decide_eq_true_eq] at h
      exact hk (h ▸ (List.of_mem_zip (a := e.1) (b := e.2) he).1)
    rw [h1, h2]
    simp

/-- A list in which every key occurs once, and whose values can be encoded. -/
structure Proper (encode : V → Res (List UInt8)) (pairs : List (Arr N × V)) : Prop where
  once : (pairs.map Prod.fst).Nodup
  codes : ∀ e ∈ pairs, ∃ b, encode e.2 = .ok b

theorem proper_nil (encode : V → Res (List UInt8)) : Proper encode ([] : List (Arr N × V)) :=
  ⟨List.nodup_nil, fun _ h => by cases h⟩

theorem Proper.put {encode : V → Res (List UInt8)} {pairs : List (Arr N × V)} (h : Proper encode pairs)
    {keys : List (Arr N)} {values : List V} (hlen : keys.length = values.length) (hnd : keys.Nodup)
    (henc : ∀ v ∈ values, ∃ b, encode v = .ok b) : Proper encode (putPairs pairs (keys.zip values)) := by
  have hfst : (keys.zip values).map Prod.fst = keys := List.map_fst_zip (by omega)
  unfold putPairs
  constructor
  · rw [List.map_append, hfst]
    refine List.Nodup.append ?_ hnd ?_
    · exact h.once.sublist (List.filter_sublist.map _)
    · intro k h1 h2
      obtain ⟨e, he, rfl⟩ := List.mem_map.1 h1
      have := (List.mem_filter.1 he).2
      simp at this
      exact this h2
  · intro e he
    rcases List.mem_append.1 he with he | he
    · exact h.codes e (List.mem_filter.1 he).1
    · exact henc _ (List.of_mem_zip (a := e.1) (b := e.2) he).2

theorem encoded_mem {encode : V → Res (List UInt8)} {pairs : List (Arr N × V)} {k : Arr N} {b : List UInt8} :
    (k, b) ∈ encoded encode pairs ↔ ∃ v, (k, v) ∈ pairs ∧ encode v = .ok b := by
  unfold encoded
  rw [List.mem_filterMap]
  constructor
  · rintro ⟨⟨k', v⟩, h1, h2⟩
    cases hv : encode v with
    | error e => simp only [hv, Except.toOption] at h2; cases h2
    | ok b' =>
      simp only [hv, Except.toOption, Option.map_some, Option.some.injEq, Prod.mk.injEq] at h2
      obtain ⟨rfl, rfl⟩ := h2
      exact ⟨v, h1, hv⟩
  · rintro ⟨v, h1, h2⟩
    exact ⟨(k, v), h1, by simp only [h2, Except.toOption, Option.map_some]⟩

theorem encoded_keys {encode : V → Res (List UInt8)} : ∀ (pairs : List (Arr N × V)),
    ((encoded encode pairs).map Prod.fst).Sublist (pairs.map Prod.fst)
  | [] => .slnil
  | (k, v) :: rest => by
    have ih := encoded_keys (encode := encode) rest
    unfold encoded at *
    rw [List.filterMap_cons]
    cases hv : encode v with
    | error e => simpa [Except.toOption] using ih.cons k
    | ok b => simpa [Except.toOption] using ih

theorem Proper.lists {encode : V → Res (List UInt8)} {pairs : List (Arr N × V)} (h : Proper encode pairs) :
    Lists encode (mapOf pairs) (encoded encode pairs) := by
  refine ⟨List.Nodup.of_map Prod.fst (h.once.sublist (encoded_keys pairs)), fun k b => ?_⟩
  rw [encoded_mem]
  simp only [mapOf_mem h.once]

theorem Proper.encoded {encode : V → Res (List UInt8)} {pairs : List (Arr N × V)} (h : Proper encode pairs)
    {k : Arr N} {b : List UInt8} :
    mapOf (encoded encode pairs) k = some b ↔ ∃ v, mapOf pairs k = some v ∧ encode v = .ok b := by
  rw [mapOf_mem (h.once.sublist (encoded_keys pairs)), encoded_mem]
  simp only [mapOf_mem h.once]

/-! ## The book -/

theorem Book.pairs_mem {book : Book N V} {r : Arr N} {pairs : List (Arr N × V)} (h : book.pairs r = some pairs) :
    (r, pairs) ∈ book := by
  unfold Book.pairs at h
  cases hf : book.find? (fun e => e.1 = r) with
  | none => rw [hf] at h; cases h
  | some e =>
    rw [hf] at h
    cases h
    have h1 := List.find?_some hf
    simp only [decide_eq_true_eq] at h1
    subst h1
    exact List.mem_of_find?_eq_some hf

theorem inOrder_iff {encode : V → Res (List UInt8)} {keys : List (Arr N)} {values : List V} :
    inOrder encode keys values = true ↔ GoodBatch encode keys values := by
  have : ∀ v, (encode v).toOption.isSome = true ↔ ∃ b, encode v = .ok b := by
    intro v
    cases encode v with
    | error e => simp [Except.toOption]
    | ok b => simp [Except.toOption]
  unfold inOrder GoodBatch
  simp only [Bool.and_eq_true, decide_eq_true_eq, Bool.not_eq_true', List.isEmpty_eq_false_iff, List.all_eq_true, this,
    and_assoc]

/-- What is asked of a tree that has the versions of the book. -/
structure Shelf (cfg : Config N σ V) (C : DbContract cfg.db) (H : List (HIn N)) (book : Book N V) (s : σ) : Prop where
  alive : C.alive s
  honest : Honest cfg.hasher (Among H) (C.view s)
  version : ∀ e ∈ book, IsVersion cfg (C.view s) e.1 (mapOf e.2)
  proper : ∀ e ∈ book, Proper cfg.encode e.2

/-- Calls that change nothing. -/
def Ask.Queries : Ask N V → Prop
  | .get _ _ => True
  | .getOne _ _ => True
  | .prove _ _ => True
  | .verify _ _ _ _ => True
  | _ => False

section
variable {cfg : Config N σ V} {C : DbContract cfg.db} {ρ : σ → σ} {H : List (HIn N)} {s : σ} {book : Book N V}

theorem Shelf.at (h : Shelf cfg C H book s) {r : Arr N} {pairs : List (Arr N × V)} (hp : book.pairs r = some pairs) :
    IsVersion cfg (C.view s) r (mapOf pairs) ∧ Proper cfg.encode pairs :=
  ⟨h.version _ (Book.pairs_mem hp), h.proper _ (Book.pairs_mem hp)⟩

/-- Calls with clear keys open every place where the keys belong. -/
theorem Ask.Fair.opens (hc : Sane cfg) {c : Ask N V} (h : c.Fair cfg.encode book) (seen : List (HIn N)) :
    c.Known cfg.hasher cfg.encode seen book ∧ c.Opens cfg book := by
  have root : ∀ {r : Arr N} {pairs : List (Arr N × V)}, book.pairs r = some pairs → book.Root cfg.hasher seen r := by
    intro r pairs h1 h2
    rw [h1] at h2; cases h2
  cases c with
  | insert prev keys values =>
    refine ⟨fun hio r hr => ?_, fun hio pairs hp => ?_⟩
    · obtain ⟨pairs, hp, -⟩ := h hio
      subst hr
      exact root hp
    · obtain ⟨pairs', hp', hclear⟩ := h hio
      rw [hp] at hp'
      cases hp'
      exact handled_of_clear hc hclear
  | get r keys =>
    obtain ⟨pairs, hp, hclear⟩ := h
    refine ⟨root hp, fun pairs' hp' k hk => ?_⟩
    rw [hp] at hp'
    cases hp'
    exact .inr (handled_of_clear hc hclear k hk)
  | insertOne prev k v =>
    refine ⟨fun hio r hr => ?_, trivial⟩
    obtain ⟨pairs, hp⟩ := h hio
    subst hr
    exact root hp
  | getOne r k => exact ⟨root h.choose_spec, trivial⟩
  | prove r k => exact ⟨root h.choose_spec, trivial⟩
  | verify r k v p => exact ⟨root h.choose_spec, trivial⟩
  | reopen => exact ⟨h, trivial⟩
  | dies n prev keys values => exact ⟨h, trivial⟩
  | remove r => exact h.elim
  | removeDies n r => exact h.elim

theorem Strange.mono {H : Hasher N} {seen seen' : List (HIn N)} {r : Arr N} (h : Strange H seen' r)
    (hs : ∀ i ∈ seen, i ∈ seen') : Strange H seen r := fun i hi => h i (hs i hi)

/-- There is no node at a strange root. -/
theorem Strange.view {v : View N} {r : Arr N} {G : Hasher N} {seen : List (HIn N)} (h : Strange G seen r)
    (hv : Honest G (Among seen) v) : v r = none := by
  cases hn : v r with
  | none => rfl
  | some n =>
    rcases (hv r n hn).2 with ⟨k, b, h1, -, h2⟩ | ⟨t, -, h1, -, h2⟩
    · exact (h _ h2 h1.symm).elim
    · exact (h _ (h2 _ (Trie.rootIn_mem G t)) ((Trie.loc_eq G t).symm.trans h1.symm)).elim

/-- A proof leads to the hash of something. -/
theorem foldProof_strange {G : Hasher N} : ∀ (p : List (Arr N × Bool)) {x r : Arr N} {seen : List (HIn N)},
    Strange G seen r → (∃ i ∈ seen, i.hash G = x) → (∀ i ∈ foldInputs G x p, i ∈ seen) → foldProof G N x p ≠ r
  | [], x, r, seen, h, ⟨i, h1, h2⟩, _ => by
    intro hr
    exact h i h1 (h2.trans hr)
  | (y, true) :: p, x, r, seen, h, _, hin =>
    foldProof_strange p h ⟨_, hin _ List.mem_cons_self, rfl⟩ (fun i hi => hin i (List.mem_cons_of_mem _ hi))
  | (y, false) :: p, x, r, seen, h, _, hin =>
    foldProof_strange p h ⟨_, hin _ List.mem_cons_self, rfl⟩ (fun i hi => hin i (List.mem_cons_of_mem _ hi))

/-- A read of several keys gives what the list has exactly if the keys it has are opened. -/
theorem shelf_get (hc : Sane cfg) (hd : book.Shallow cfg.depth) (h : Shelf cfg C H book s) {r : Arr N} {keys : List (Arr N)}
    (hknown : book.Root cfg.hasher H r) :
    (((Ask.get r keys).run (cfg.api ρ) s).1 = ((Ask.get r keys).answer cfg.hasher cfg.encode book).1 ↔
      (Ask.get r keys).Opens cfg book) ∧
    ((Ask.get r keys).run (cfg.api ρ) s).2 = s ∧ ((Ask.get r keys).answer cfg.hasher cfg.encode book).2 = book := by
  cases hp : book.pairs r with
  | none =>
    obtain ⟨m, h1, h2⟩ := (C45_unknown_root_reads_nothing (cfg := cfg) C h.alive ((hknown hp).view h.honest)).2.1 keys
    have hm : (cfg.api ρ).get s r keys = .ok m := h1
    simp only [Ask.run, Ask.answer, Ask.Opens, hm, hp, Said.values.injEq, List.map_inj_left, and_true]
    refine ⟨fun _ pairs hp' => (by cases hp'), fun _ k hk => ?_⟩
    rw [h2 k, if_pos hk]
  | some pairs =>
    obtain ⟨hv, hpr⟩ := h.at hp
    obtain ⟨m, h1, -, -, h4⟩ := version_get (C := C) hc.pos hc.pp hc.codec (hd _ (Book.pairs_mem hp)).succ hv keys
    have hm : (cfg.api ρ).get s r keys = .ok m := h1.alive h.alive
    simp only [Ask.run, Ask.answer, Ask.Opens, hm, hp, Said.values.injEq, List.map_inj_left, and_true,
      Option.some.injEq, forall_eq']
    exact forall₂_congr h4

theorem shelf_asks (hc : Sane cfg) (hroom : cfg.Room) (hd : book.Shallow cfg.depth) (h : Shelf cfg C H book s)
    {c : Ask N V} (hask : c.Queries) (hknown : c.Known cfg.hasher cfg.encode (c.hashed cfg s ++ H) book) (hopens : c.Opens cfg book)
    (hcf : CollisionFree cfg.hasher (Among (c.hashed cfg s ++ H))) :
    (c.run (cfg.api ρ) s).1 = (c.answer cfg.hasher cfg.encode book).1 ∧
    (c.run (cfg.api ρ) s).2 = s ∧ (c.answer cfg.hasher cfg.encode book).2 = book := by
  have hcf0 : CollisionFree cfg.hasher (Among H) := hcf.mono (fun i hi => List.mem_append_right _ hi)
  cases c with
  | insert prev keys values => exact hask.elim
  | insertOne prev k v => exact hask.elim
  | reopen => exact hask.elim
  | dies n prev keys values => exact hask.elim
  | remove r => exact hask.elim
  | removeDies n r => exact hask.elim
  | get r keys =>
    obtain ⟨h1, h2, h3⟩ := shelf_get (ρ := ρ) hc hd h (keys := keys) hknown
    exact ⟨h1.2 hopens, h2, h3⟩
  | getOne r k =>
    cases hp : book.pairs r with
    | none =>
      have hm : (cfg.api ρ).getOne s r k = .ok none :=
        (C45_unknown_root_reads_nothing (cfg := cfg) C h.alive ((hknown hp).view h.honest)).1 k
      simp only [Ask.run, Ask.answer, hm, hp]
      exact ⟨by trivial, by trivial, by trivial⟩
    | some pairs =>
    obtain ⟨hv, hpr⟩ := h.at hp
    have hm : (cfg.api ρ).getOne s r k = .ok (mapOf pairs k) :=
      (version_getOne (C := C) hc.pos hc.codec (hd _ (Book.pairs_mem hp)) hv k).alive h.alive
    simp only [Ask.run, Ask.answer, hm, hp]
    exact ⟨by trivial, by trivial, by trivial⟩
  | prove r k =>
    cases hp : book.pairs r with
    | none =>
      obtain ⟨msg, hm⟩ := (C45_unknown_root_reads_nothing (cfg := cfg) C h.alive ((hknown hp).view h.honest)).2.2 hroom k
      have hm : (cfg.api ρ).generateInclusionProof s r k = .error (.exception msg) := hm
      simp only [Ask.run, Ask.answer, hm, hp]
      exact ⟨by trivial, by trivial, by trivial⟩
    | some pairs =>
    obtain ⟨hv, hpr⟩ := h.at hp
    simp only [Ask.run, Ask.answer, hp]
    cases hk : mapOf (encoded cfg.encode pairs) k with
    | none =>
      have hM : mapOf pairs k = none := by
        cases hM : mapOf pairs k with
        | none => rfl
        | some v =>
          obtain ⟨b, hb⟩ := hpr.codes _ ((mapOf_mem hpr.once).1 hM)
          rw [hpr.encoded.2 ⟨v, hM, hb⟩] at hk
          cases hk
      obtain ⟨msg, hm⟩ := version_no_proof (C := C) hc.pos hv hM
      have : (cfg.api ρ).generateInclusionProof s r k = .error (.exception msg) :=
        (generateInclusionProof_room hroom).trans hm
      rw [this]
      exact ⟨rfl, rfl, rfl⟩
    | some b =>
      have hmem : (k, b) ∈ encoded cfg.encode pairs := (mapOf_mem (hpr.once.sublist (encoded_keys pairs))).1 hk
      have : (cfg.api ρ).generateInclusionProof s r k = _ :=
        version_sparse_proof hc hroom hv h.alive (hd _ (Book.pairs_mem hp)) hpr.lists hmem
      rw [this]
      exact ⟨rfl, rfl, rfl⟩
  | verify r k v p =>
    cases hp : book.pairs r with
    | none =>
      cases hver : (cfg.api ρ).verifyInclusionProof r k v p with
      | error e =>
        simp only [Ask.run, Ask.answer, hver, hp]
        exact ⟨by trivial, by trivial, by trivial⟩
      | ok u =>
        exfalso
        obtain ⟨b, f0, f1, rest, he, rfl, hfold⟩ := (verify_iff _ _ _ _ _ _).1 hver
        refine foldProof_strange rest (hknown hp) ⟨.leaf k (Trie.dataLoc cfg.hasher k b), ?_, rfl⟩ (fun i hi => ?_) hfold
        all_goals
          simp only [Ask.hashed, he, verifyInputs]
          refine List.mem_append_left _ ?_
        · simp
        · exact List.mem_cons_of_mem _ (List.mem_cons_of_mem _ hi)
    | some pairs =>
    obtain ⟨hv, hpr⟩ := h.at hp
    have hs' : (Ask.run (cfg.api ρ) s (.verify r k v p)).2 = s := by
      simp only [Ask.run]
      cases (cfg.api ρ).verifyInclusionProof r k v p <;> rfl
    have hb' : (Ask.answer cfg.hasher cfg.encode book (.verify r k v p)).2 = book := by
      simp only [Ask.answer, hp]
      cases cfg.encode v with
      | error e => rfl
      | ok b => dsimp only; split <;> rfl
    rw [hs', hb']
    refine ⟨?_, rfl, rfl⟩
    simp only [Ask.run, Ask.answer, hp]
    obtain ⟨T, hwf, rfl, hst, hM⟩ := hv
    cases he : cfg.encode v with
    | error e =>
      cases hver : (cfg.api ρ).verifyInclusionProof (T.loc cfg.hasher) k v p with
      | error e' => rfl
      | ok u =>
        obtain ⟨b, -, -, -, hb, -⟩ := (verify_iff _ _ _ _ _ _).1 hver
        rw [he] at hb; cases hb
    | ok b =>
      simp only [Ask.hashed, he] at hcf
      have hperm := hpr.lists.perm hwf hM
      have key : verifyInclusionProof cfg.hasher cfg.encode (T.loc cfg.hasher) k v p = .ok () ↔
          (mapOf (encoded cfg.encode pairs) k = some b ∧
            p.map Prod.fst = (sparseProof cfg.hasher (encoded cfg.encode pairs) k b).map Prod.fst ∧
            p.drop 2 = (sparseProof cfg.hasher (encoded cfg.encode pairs) k b).drop 2) := by
        rw [mapOf_mem (hpr.once.sublist (encoded_keys pairs))]
        constructor
        · intro hver
          have hT := (hst.honest hcf0 h.honest).2
          obtain ⟨b', f0, f1, hbv, hmem, hpp⟩ := version_verify (cfg := cfg) hcf hwf
            (fun i hi => List.mem_append_right _ (hT i hi)) (by
              intro b' hb' i hi
              rw [he] at hb'
              cases hb'
              exact List.mem_append_left _ hi) hver
          rw [he] at hbv
          cases hbv
          rw [hpp]
          have hpath := sparsePath_trie cfg.hasher (8 * N) hwf (Nat.le_refl _) (by omega)
            (List.mem_map_of_mem (f := Prod.fst) hmem) hperm
          refine ⟨hperm.symm.subset hmem, ?_, ?_⟩
          · simp only [sparseProof, List.map_cons, hpath]; rfl
          · simp only [sparseProof, List.drop_succ_cons, List.drop_zero, hpath]
        · rintro ⟨hmem, h1, h2⟩
          have hmem := hperm.subset hmem
          have hpath := sparsePath_trie cfg.hasher (8 * N) hwf (Nat.le_refl _) (by omega)
            (List.mem_map_of_mem (f := Prod.fst) hmem) hperm
          rw [verify_iff]
          match p, h1, h2 with
          | [], h1, _ => simp [sparseProof] at h1
          | [_], h1, _ => simp [sparseProof] at h1
          | (x, f0) :: (y, f1) :: rest, h1, h2 =>
            simp only [sparseProof, List.map_cons, List.cons.injEq] at h1
            simp only [sparseProof, List.drop_succ_cons, List.drop_zero, hpath] at h2
            obtain ⟨rfl, rfl, -⟩ := h1
            exact ⟨b, f0, f1, rest, he, rfl, by rw [h2]; exact foldProof_path _ hwf hmem⟩
      dsimp only
      cases hver : verifyInclusionProof cfg.hasher cfg.encode (T.loc cfg.hasher) k v p with
      | ok u =>
        have : (cfg.api ρ).verifyInclusionProof (T.loc cfg.hasher) k v p = .ok u := hver
        rw [this, if_pos (key.1 hver)]
      | error e =>
        have : (cfg.api ρ).verifyInclusionProof (T.loc cfg.hasher) k v p = .error e := hver
        rw [this, if_neg (fun hk => by rw [key.2 hk] at hver; cases hver)]

end

end MerkleBit
