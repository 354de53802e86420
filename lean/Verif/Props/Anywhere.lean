import Verif.Spec.Anywhere
import Verif.Props.AnyRoot
/-!
# C92: the reference program under any root
-/

namespace MerkleBit
open Trie

section
variable {N : Nat} {σ V : Type} {cfg : Config N σ V} {C : DbContract cfg.db} {H : List (HIn N)} {s : σ} {ρ : σ → σ}
  {book : Book N V}

theorem Proper.filter {encode : V → Res (List UInt8)} {pairs : List (Arr N × V)} (h : Proper encode pairs)
    (p : Arr N × V → Bool) : Proper encode (pairs.filter p) :=
  ⟨h.once.sublist (List.filter_sublist.map _), fun e he => h.codes e (List.mem_of_mem_filter he)⟩

/-- What the parts of a list are. -/
theorem partsOf_mem {pairs q : List (Arr N × V)} (hnd : (pairs.map Prod.fst).Nodup) (hq : q ∈ partsOf pairs) :
    (mapOf q).PartOf (mapOf pairs) ∧ mapOf q ≠ Contents.empty ∧ ∀ encode, Proper encode pairs → Proper encode q := by
  unfold partsOf at hq
  obtain ⟨e, he, hq⟩ := List.mem_flatMap.1 hq
  obtain ⟨d, hd, rfl⟩ := List.mem_map.1 hq
  rw [List.mem_range] at hd
  refine ⟨⟨e.1, d, fun k' => mapOf_filter hnd (fun k => d ≤ firstDiff e.1 k) k'⟩, fun h => ?_, fun encode hp => hp.filter _⟩
  have h1 := mapOf_filter hnd (fun k => d ≤ firstDiff e.1 k) e.1
  rw [h, firstDiff_self, if_pos (by omega), (mapOf_mem hnd).2 he] at h1
  cases h1

/-- And all parts are there. -/
theorem partsOf_all {pairs : List (Arr N × V)} (hnd : (pairs.map Prod.fst).Nodup) {Q : Contents N V}
    (hQ : Q.PartOf (mapOf pairs)) (hne : Q ≠ Contents.empty) : ∃ q ∈ partsOf pairs, mapOf q = Q := by
  obtain ⟨k, d, hQ⟩ := hQ
  obtain ⟨k0, hk0⟩ : ∃ k0, Q k0 ≠ none := by
    by_contra hno
    push Not at hno
    exact hne (funext hno)
  rw [hQ k0] at hk0
  split at hk0
  · next hd =>
    obtain ⟨v, hv⟩ := Option.ne_none_iff_exists'.1 hk0
    have hd8 := firstDiff_le k k0
    refine ⟨pairs.filter fun e' => d ≤ firstDiff k0 e'.1, ?_, funext fun k' => ?_⟩
    · unfold partsOf
      exact List.mem_flatMap.2 ⟨_, (mapOf_mem hnd).1 hv, List.mem_map.2 ⟨d, List.mem_range.2 (by omega), rfl⟩⟩
    · rw [hQ k', mapOf_filter hnd (fun k => d ≤ firstDiff k0 k) k']
      have h1 := min_le_firstDiff k k0 k'
      have h2 := min_le_firstDiff k0 k k'
      rw [firstDiff_comm k0 k] at h2
      congr 1
      exact propext ⟨fun h => by omega, fun h => by omega⟩
  · exact absurd rfl hk0

theorem spread_mem {G : Hasher N} {encode : V → Res (List UInt8)} {r : Arr N} {q : List (Arr N × V)} :
    (r, q) ∈ book.spread G encode ↔ ∃ e ∈ book, q ∈ partsOf e.2 ∧ sparseRoot G (encoded encode q) = some r := by
  unfold Book.spread
  simp only [List.mem_flatMap, List.mem_filterMap, Option.map_eq_some_iff, Prod.mk.injEq]
  constructor
  · rintro ⟨e, he, q', hq', r', hr', rfl, rfl⟩
    exact ⟨e, he, hq', hr'⟩
  · rintro ⟨e, he, hq, hr⟩
    exact ⟨e, he, q, hq, r, hr, rfl, rfl⟩

/-- The lists of the reference program are those of the live versions, and nothing else is stored. -/
structure InNeatBook (cfg : Config N σ V) (C : DbContract cfg.db) (H : List (HIn N)) (book : Book N V) (s : σ) : Prop where
  uses : ∃ H0 L, (∀ i ∈ H0, i ∈ H) ∧ Uses cfg C True H0 L s ∧ L.Perm (book.map fun e => (e.1, mapOf e.2))
  pending : C.pending s = View.empty N
  alive : C.alive s
  proper : ∀ e ∈ book, Proper cfg.encode e.2

theorem InNeatBook.more (h : InNeatBook cfg C H book s) (A : List (HIn N)) : InNeatBook cfg C (A ++ H) book s := by
  obtain ⟨⟨H0, L, hH, hu, hL⟩, hw, hal, hpr⟩ := h
  exact ⟨⟨H0, L, fun i hi => List.mem_append_right _ (hH i hi), hu, hL⟩, hw, hal, hpr⟩

/-- All parts are versions. -/
theorem InNeatBook.shelf (hc : Sane cfg) (hcf : CollisionFree cfg.hasher (Among H)) (h : InNeatBook cfg C H book s) :
    Shelf cfg C H (book.spread cfg.hasher cfg.encode) s := by
  obtain ⟨⟨H0, L, hH, hu, hL⟩, -, hal, hpr⟩ := h
  have hinv := hu.holdsIn hc hcf hH
  refine ⟨hal, hinv.acct.honest, ?_, ?_⟩
  · rintro ⟨r, q⟩ hq
    obtain ⟨e, he, hq, hr⟩ := spread_mem.1 hq
    obtain ⟨h1, h2, h3⟩ := partsOf_mem (hpr e he).once hq
    obtain ⟨r', hv⟩ := hinv.part hcf (e := (e.1, mapOf e.2)) (hL.mem_iff.2 (List.mem_map.2 ⟨e, he, rfl⟩)) h1 h2
    have := version_sparse_root hv (h3 _ (hpr e he)).lists
    rw [hr] at this
    cases this
    exact hv
  · rintro ⟨r, q⟩ hq
    obtain ⟨e, he, hq, hr⟩ := spread_mem.1 hq
    exact (partsOf_mem (hpr e he).once hq).2.2 _ (hpr e he)

theorem spread_shallow {G : Hasher N} {encode : V → Res (List UInt8)} {d : Nat} (hd : book.Shallow d)
    (hpr : ∀ e ∈ book, Proper encode e.2) : (book.spread G encode).Shallow d := by
  rintro ⟨r, q⟩ hq
  obtain ⟨e, he, hq, hr⟩ := spread_mem.1 hq
  exact part_height (hd e he) (partsOf_mem (hpr e he).once hq).1

/-- Under other bytes nothing is stored. -/
theorem InNeatBook.nothing (hc : Sane cfg) (hcf : CollisionFree cfg.hasher (Among H)) (h : InNeatBook cfg C H book s)
    {r : Arr N} (hdata : book.dataAt cfg.hasher cfg.encode r = false)
    (hnone : (book.spread cfg.hasher cfg.encode).pairs r = none) : C.view s r = none := by
  obtain ⟨⟨H0, L, hH, hu, hL⟩, -, hal, hpr⟩ := h
  have hinv := hu.holdsIn hc hcf hH
  by_contra hx
  rcases hinv.place hcf hx with ⟨e, he, T, hT, ⟨k, b, hkb, rfl⟩ | ⟨u, hu', rfl⟩⟩ | ⟨k, b, hk, -⟩ | ⟨k, b, hk, -⟩
  · obtain ⟨e', he', rfl⟩ := List.mem_map.1 (hL.mem_iff.1 he)
    obtain ⟨v, hv, hb⟩ := entry_value hT.wf hT.rep hkb
    unfold Book.dataAt at hdata
    rw [List.any_eq_false] at hdata
    refine hdata e' he' (List.any_eq_true.2 ⟨(k, b), ?_, by simp [dataLoc, HIn.hash]⟩)
    exact encoded_mem.2 ⟨v, (mapOf_mem (hpr e' he').once).1 hv, hb⟩
  · obtain ⟨e', he', rfl⟩ := List.mem_map.1 (hL.mem_iff.1 he)
    obtain ⟨Q, hQ, hne, hrep⟩ := sub_part hT.wf hu' hT.rep
    obtain ⟨q, hq, rfl⟩ := partsOf_all (hpr e' he').once hQ hne
    have hv : IsVersion cfg (C.view s) (u.loc cfg.hasher) (mapOf q) :=
      ⟨u, hu'.wf hT.wf, rfl, (hinv.stored hcf he hT).sub hu', hrep⟩
    have hroot := version_sparse_root hv ((partsOf_mem (hpr e' he').once hq).2.2 _ (hpr e' he')).lists
    have hmem := spread_mem.2 ⟨e', he', hq, hroot⟩
    unfold Book.pairs at hnone
    rw [Option.map_eq_none_iff, List.find?_eq_none] at hnone
    exact hnone _ hmem (by simp)
  · cases hk
  · cases hk

/-- Under the hash of data reads are refused. -/
theorem InNeatBook.data (hc : Sane cfg) (hroom : cfg.Room) (hcf : CollisionFree cfg.hasher (Among H))
    (h : InNeatBook cfg C H book s) {r : Arr N} (hdata : book.dataAt cfg.hasher cfg.encode r = true) :
    ReadsFail cfg s r ∧ ∃ k b, HIn.data k b ∈ H ∧ (HIn.data k b).hash cfg.hasher = r := by
  obtain ⟨⟨H0, L, hH, hu, hL⟩, -, hal, hpr⟩ := h
  have hinv := hu.holdsIn hc hcf hH
  unfold Book.dataAt at hdata
  obtain ⟨e, he, hdata⟩ := List.any_eq_true.1 hdata
  obtain ⟨⟨k, b⟩, hkb, hdata⟩ := List.any_eq_true.1 hdata
  simp only [decide_eq_true_eq] at hdata
  subst hdata
  obtain ⟨v, hv, hb⟩ := encoded_mem.1 hkb
  have hv := (mapOf_mem (hpr e he).once).2 hv
  have heL : (e.1, mapOf e.2) ∈ L := hL.mem_iff.2 (List.mem_map.2 ⟨e, he, rfl⟩)
  refine ⟨hinv.fails hroom hal hcf heL hv hb, k, b, ?_, rfl⟩
  obtain ⟨T, hT⟩ := hinv.versions _ heL
  obtain ⟨b', hkb', hb'⟩ := Represents.entry hT.wf hT.rep hv
  rw [hb] at hb'
  cases hb'
  exact hT.inputs _ (mem_inputs.2 (.inl ⟨(k, b), hkb', .inl rfl⟩))

/-- A proof does not lead to the hash of data. -/
theorem foldProof_data {G : Hasher N} {seen : List (HIn N)} (hcf : CollisionFree G (Among seen)) {k : Arr N} {b : List UInt8}
    (hk : HIn.data k b ∈ seen) : ∀ (p : List (Arr N × Bool)) {x : Arr N},
    (∃ i ∈ seen, i.hash G = x ∧ ∀ k b, i ≠ .data k b) → (∀ i ∈ foldInputs G x p, i ∈ seen) →
    foldProof G N x p ≠ (HIn.data k b).hash G
  | [], x, ⟨i, h1, h2, h3⟩, _ => by
    intro hr
    exact h3 k b (hcf i _ h1 hk (h2.trans hr))
  | (y, true) :: p, x, _, hin =>
    foldProof_data hcf hk p ⟨_, hin _ List.mem_cons_self, rfl, by simp⟩ (fun i hi => hin i (List.mem_cons_of_mem _ hi))
  | (y, false) :: p, x, _, hin =>
    foldProof_data hcf hk p ⟨_, hin _ List.mem_cons_self, rfl, by simp⟩ (fun i hi => hin i (List.mem_cons_of_mem _ hi))

theorem queries_keep {c : Ask N V} (hask : c.Queries) :
    (c.run (cfg.api ρ) s).2 = s ∧ c.after cfg.hasher cfg.encode book = book := by
  cases c with
  | get r keys =>
    simp only [Ask.run, Ask.after, Ask.answer]
    exact ⟨by cases (cfg.api ρ).get s r keys <;> rfl, by cases book.pairs r <;> rfl⟩
  | getOne r k =>
    simp only [Ask.run, Ask.after, Ask.answer]
    exact ⟨by cases (cfg.api ρ).getOne s r k <;> rfl, by cases book.pairs r <;> rfl⟩
  | prove r k =>
    simp only [Ask.run, Ask.after, Ask.answer]
    refine ⟨by cases (cfg.api ρ).generateInclusionProof s r k <;> rfl, ?_⟩
    cases book.pairs r with
    | none => rfl
    | some pairs => dsimp only; cases mapOf (encoded cfg.encode pairs) k <;> rfl
  | verify r k v p =>
    simp only [Ask.run, Ask.after, Ask.answer]
    refine ⟨by cases (cfg.api ρ).verifyInclusionProof r k v p <;> rfl, ?_⟩
    cases book.pairs r with
    | none => rfl
    | some pairs =>
      dsimp only
      cases cfg.encode v with
      | error e => rfl
      | ok b => dsimp only; split <;> rfl
  | _ => exact hask.elim

/-- Reads, proofs and their verification. -/
theorem neat_asks (hc : Sane cfg) (hroom : cfg.Room) (hd : book.Shallow cfg.depth) (h : InNeatBook cfg C H book s)
    {c : Ask N V} (hask : c.Queries) (hneat : c.Neat cfg.hasher cfg.encode (c.hashed cfg s ++ H) book)
    (hcf : CollisionFree cfg.hasher (Among (c.hashed cfg s ++ H))) :
    (c.run (cfg.api ρ) s).1 = c.say cfg.hasher cfg.encode book := by
  have hcf0 : CollisionFree cfg.hasher (Among H) := hcf.mono (fun i hi => List.mem_append_right _ hi)
  have hshelf := h.shelf hc hcf0
  have hd' := spread_shallow (G := cfg.hasher) hd h.proper
  cases c with
  | get r keys =>
    cases hdata : book.dataAt cfg.hasher cfg.encode r with
    | true =>
      by_cases hk : keys = []
      · subst hk
        have hm : (cfg.api ρ).get s r [] = .ok AMap.empty := rfl
        simp only [Ask.run, Ask.say, hdata, hm, List.isEmpty_nil, Bool.not_true, Bool.and_false, Bool.false_eq_true,
          if_false, Ask.answer]
        cases (book.spread cfg.hasher cfg.encode).pairs r <;> rfl
      · obtain ⟨msg, hm⟩ := (h.data hc hroom hcf0 hdata).1.many keys hk
        have hm : (cfg.api ρ).get s r keys = .error (.exception msg) := hm
        have : keys.isEmpty = false := by simpa using hk
        simp only [Ask.run, Ask.say, hdata, hm, this, Bool.not_false, Bool.and_self, if_true]
    | false =>
      simp only [Ask.say, hdata, Bool.false_and, Bool.false_eq_true, if_false]
      cases hp : (book.spread cfg.hasher cfg.encode).pairs r with
      | none =>
        obtain ⟨m, h1, h2⟩ := (C45_unknown_root_reads_nothing (cfg := cfg) C h.alive (h.nothing hc hcf0 hdata hp)).2.1 keys
        have hm : (cfg.api ρ).get s r keys = .ok m := h1
        simp only [Ask.run, Ask.answer, hm, hp, Said.values.injEq, List.map_inj_left]
        intro k hk
        rw [h2 k, if_pos hk]
      | some pairs =>
        refine (shelf_asks (ρ := ρ) (c := .get r keys) hc hroom hd' hshelf trivial (fun hn => ?_) (fun pairs hp k hk => ?_) hcf).1
        · rw [hp] at hn; cases hn
        · exact .inr (handled_of_clear hc (hneat pairs hp) k hk)
  | getOne r k =>
    cases hdata : book.dataAt cfg.hasher cfg.encode r with
    | true =>
      obtain ⟨msg, hm⟩ := (h.data hc hroom hcf0 hdata).1.one k
      have hm : (cfg.api ρ).getOne s r k = .error (.exception msg) := hm
      simp only [Ask.run, Ask.say, hdata, hm, if_true]
    | false =>
      simp only [Ask.say, hdata, Bool.false_eq_true, if_false]
      cases hp : (book.spread cfg.hasher cfg.encode).pairs r with
      | none =>
        have hm : (cfg.api ρ).getOne s r k = .ok none :=
          (C45_unknown_root_reads_nothing (cfg := cfg) C h.alive (h.nothing hc hcf0 hdata hp)).1 k
        simp only [Ask.run, Ask.answer, hm, hp]
      | some pairs =>
        refine (shelf_asks (ρ := ρ) (c := .getOne r k) hc hroom hd' hshelf trivial (fun hn => ?_) trivial hcf).1
        rw [hp] at hn; cases hn
  | prove r k =>
    cases hdata : book.dataAt cfg.hasher cfg.encode r with
    | true =>
      obtain ⟨msg, hm⟩ := (h.data hc hroom hcf0 hdata).1.unproved k
      have hm : (cfg.api ρ).generateInclusionProof s r k = .error (.exception msg) := hm
      simp only [Ask.run, Ask.say, hdata, hm, if_true]
    | false =>
      simp only [Ask.say, hdata, Bool.false_eq_true, if_false]
      cases hp : (book.spread cfg.hasher cfg.encode).pairs r with
      | none =>
        obtain ⟨msg, hm⟩ :=
          (C45_unknown_root_reads_nothing (cfg := cfg) C h.alive (h.nothing hc hcf0 hdata hp)).2.2 hroom k
        have hm : (cfg.api ρ).generateInclusionProof s r k = .error (.exception msg) := hm
        simp only [Ask.run, Ask.answer, hm, hp]
      | some pairs =>
        refine (shelf_asks (ρ := ρ) (c := .prove r k) hc hroom hd' hshelf trivial (fun hn => ?_) trivial hcf).1
        rw [hp] at hn; cases hn
  | verify r k v p =>
    cases hdata : book.dataAt cfg.hasher cfg.encode r with
    | true =>
      simp only [Ask.run, Ask.say, hdata, if_true]
      cases hver : (cfg.api ρ).verifyInclusionProof r k v p with
      | error e => rfl
      | ok u =>
        exfalso
        obtain ⟨-, k', b', hk', rfl⟩ := h.data hc hroom hcf0 hdata
        obtain ⟨b, f0, f1, rest, he, rfl, hfold⟩ := (verify_iff _ _ _ _ _ _).1 hver
        refine foldProof_data hcf (List.mem_append_right _ hk') rest
          ⟨.leaf k (Trie.dataLoc cfg.hasher k b), ?_, rfl, by simp⟩ (fun i hi => ?_) hfold
        all_goals
          simp only [Ask.hashed, he, verifyInputs]
          refine List.mem_append_left _ ?_
        · simp
        · exact List.mem_cons_of_mem _ (List.mem_cons_of_mem _ hi)
    | false =>
      simp only [Ask.say, hdata, Bool.false_eq_true, if_false]
      refine (shelf_asks (ρ := ρ) (c := .verify r k v p) hc hroom hd' hshelf trivial ?_ trivial hcf).1
      exact hneat.resolve_left (by rw [hdata]; simp)
  | _ => exact hask.elim

/-- With more levels than bits in a key no tree is too high. -/
theorem says_shallow_of_bits {G : Hasher N} {encode : V → Res (List UInt8)} {depth : Nat} (hd : 8 * N < depth) :
    ∀ (cs : List (Ask N V)) (book : Book N V), ShallowSays G encode depth cs book
  | [], _ => trivial
  | _ :: cs, _ => ⟨fun _ _ => heightBelow_of_bits _ hd, says_shallow_of_bits hd cs _⟩

/-- What an insert starts from, in terms of the histories. -/
theorem spread_base {L : Ledger N V} (hshelf : ∀ e ∈ book.spread cfg.hasher cfg.encode, IsVersion cfg (C.view s) e.1 (mapOf e.2))
    (hpr : ∀ e ∈ book, Proper cfg.encode e.2) (hL : L.Perm (book.map fun e => (e.1, mapOf e.2)))
    {prev : Option (Arr N)} {pairs : List (Arr N × V)} (hbase : (book.spread cfg.hasher cfg.encode).base prev = some pairs) :
    L.Base cfg (C.view s) prev (mapOf pairs) ∧ Proper cfg.encode pairs := by
  cases prev with
  | none => cases hbase; exact ⟨rfl, proper_nil _⟩
  | some r =>
    have hmem := Book.pairs_mem hbase
    obtain ⟨e, he, hq, -⟩ := spread_mem.1 hmem
    obtain ⟨h1, -, h3⟩ := partsOf_mem (hpr e he).once hq
    exact ⟨.inr ⟨_, hL.mem_iff.2 (List.mem_map.2 ⟨e, he, rfl⟩), h1, hshelf _ hmem⟩, h3 _ (hpr e he)⟩

/-- An insert. -/
theorem neat_insert (hc : Sane cfg) (hd : book.Shallow cfg.depth) (h : InNeatBook cfg C H book s)
    {prev : Option (Arr N)} {keys : List (Arr N)} {values : List V}
    (hneat : keys.length = values.length → keys ≠ [] → inOrder cfg.encode keys values ∧
      ∃ pairs, (book.spread cfg.hasher cfg.encode).base prev = some pairs ∧ Clear (mapOf pairs) keys ∧ book.New keys values)
    (hcf : CollisionFree cfg.hasher (Among (hashedBy cfg prev keys values s ++ H))) :
    Said.ofInsert (insert cfg prev keys values s).1 = (book.insertOn cfg.hasher cfg.encode prev keys values).1 ∧
    InNeatBook cfg C (hashedBy cfg prev keys values s ++ H) (book.insertOn cfg.hasher cfg.encode prev keys values).2
      (insert cfg prev keys values s).2 := by
  by_cases hlen : keys.length ≠ values.length ∨ keys = []
  · obtain ⟨msg, hrun⟩ := C12_bad_arguments cfg prev keys values hlen s
    have hio : ¬ inOrder cfg.encode keys values := fun hio => by
      obtain ⟨h1, h2, -, -⟩ := inOrder_iff.1 hio
      exact hlen.elim (fun h => h h1) h2
    unfold Book.insertOn
    rw [hrun]
    simp only [hio]
    exact ⟨rfl, h.more _⟩
  · push Not at hlen
    obtain ⟨hio, pairs, hbase, hclear, hnew⟩ := hneat hlen.1 hlen.2
    have hshelf := h.shelf hc (hcf.mono fun i hi => List.mem_append_right _ hi)
    have hd' := (spread_shallow (G := cfg.hasher) hd h.proper).base hbase
    obtain ⟨⟨H0, L, hH, hu, hL⟩, hw, hal, hpr⟩ := h
    have hal' := insert_alive (cfg := cfg) (C := C) hal prev keys values
    obtain ⟨h1, h2, h3, h4⟩ := inOrder_iff.1 hio
    have hprp := spread_base hshelf.version hpr hL hbase
    have hcf1 : CollisionFree cfg.hasher (Among (hashedBy cfg prev keys values s ++ H0)) := hcf.mono (append_sub hH)
    obtain ⟨r, s', hrun, -, hp', h'⟩ := C47_live_roots_accept_partial hc hu hal hcf1
      (careful_of_base hw hprp.1 h1 h3 (noStraddle_of_clear hclear) (fun e he p hp => by
        obtain ⟨e', he', rfl⟩ := List.mem_map.1 (hL.mem_iff.1 he)
        exact hnew e' he' p hp)) h1 h2 h4 hd'
    have hput := hprp.2.put h1 h3 h4
    have hroot := C89_live_root hc h' hcf1 List.mem_cons_self (mapOf_put (pairs := pairs) h1 ▸ hput.lists)
    unfold Book.insertOn
    rw [hrun] at hal' ⊢
    simp only [hio, if_true, hbase, hroot]
    refine ⟨rfl, ⟨_, _, append_sub hH, h', ?_⟩, hp', hal', fun e he => ?_⟩
    · rw [List.map_cons, mapOf_put h1]; exact hL.cons _
    · rcases List.mem_cons.1 he with rfl | he
      · exact hput
      · exact hpr e he

/-- One call. -/
theorem neat_step (hc : Sane cfg) (hroom : cfg.Room)
    (hρ : ∀ s, C.view (ρ s) = C.view s ∧ C.pending (ρ s) = View.empty N ∧ (C.alive s → C.alive (ρ s)))
    (hd : book.Shallow cfg.depth) (h : InNeatBook cfg C H book s) {c : Ask N V}
    (hneat : c.Neat cfg.hasher cfg.encode (c.hashed cfg s ++ H) book)
    (hcf : CollisionFree cfg.hasher (Among (c.hashed cfg s ++ H))) :
    (c.run (cfg.api ρ) s).1 = c.say cfg.hasher cfg.encode book ∧
    InNeatBook cfg C (c.hashed cfg s ++ H) (c.after cfg.hasher cfg.encode book) (c.run (cfg.api ρ) s).2 := by
  have asks : c.Queries → (c.run (cfg.api ρ) s).1 = c.say cfg.hasher cfg.encode book ∧
      InNeatBook cfg C (c.hashed cfg s ++ H) (c.after cfg.hasher cfg.encode book) (c.run (cfg.api ρ) s).2 := by
    intro hask
    obtain ⟨h2, h3⟩ := queries_keep (cfg := cfg) (ρ := ρ) (s := s) (book := book) hask
    rw [h2, h3]
    exact ⟨neat_asks hc hroom hd h hask hneat hcf, h.more _⟩
  cases c with
  | insert prev keys values => exact neat_insert hc hd h hneat hcf
  | insertOne prev k v =>
    have h1 : insertOne cfg prev k v s = insert cfg prev [k] [v] s := by rw [C10_insert_one_is_insert]
    simp only [Ask.run, Ask.say, Ask.after, Ask.answer, Ask.hashed, Config.api, h1]
    obtain ⟨hio, pairs, hbase, hnew⟩ := hneat
    exact neat_insert hc hd h (fun _ _ => ⟨hio, pairs, hbase, clear_of_short (by simp), hnew⟩) hcf
  | get r keys => exact asks trivial
  | getOne r k => exact asks trivial
  | prove r k => exact asks trivial
  | verify r k v p => exact asks trivial
  | reopen =>
    obtain ⟨e1, e2, e3⟩ := hρ s
    obtain ⟨⟨H0, L, hH, hu, hL⟩, hw, hal, hpr⟩ := h
    exact ⟨rfl, ⟨_, _, hH, .reopen hu e1 e2, hL⟩, e2, e3 hal, hpr⟩
  | remove r =>
    obtain ⟨pairs, hp⟩ := hneat
    obtain ⟨⟨H0, L, hH, hu, hL⟩, hw, hal, hpr⟩ := h
    obtain ⟨L1, L2, rfl, hL'⟩ := struck hL hp
    obtain ⟨s', hrun, hs'⟩ := remove_alive (C := C) (cfg := cfg) hal r
    have hrun' : (cfg.api ρ).remove s r = (.ok (), s') := hrun
    simp only [Ask.run, Ask.say, Ask.after, Ask.answer, Ask.hashed, hrun']
    exact ⟨by trivial, ⟨_, _, hH, Uses.remove hu (.inl hw) hrun, hL'⟩, remove_flushed hrun, hs',
      fun e he => hpr e (List.mem_of_mem_eraseP he)⟩
  | dies n prev keys values => exact hneat.elim
  | removeDies n r => exact hneat.elim

theorem neat_session (hc : Sane cfg) (hroom : cfg.Room)
    (hρ : ∀ s, C.view (ρ s) = C.view s ∧ C.pending (ρ s) = View.empty N ∧ (C.alive s → C.alive (ρ s))) :
    ∀ (cs : List (Ask N V)) {H : List (HIn N)} {book : Book N V} {s : σ},
    ShallowSays cfg.hasher cfg.encode cfg.depth cs book → InNeatBook cfg C H book s →
    NeatAsks cfg ρ cs H book s → CollisionFree cfg.hasher (Among (hashedByAsks cfg ρ cs s ++ H)) →
    runAsks (cfg.api ρ) cs s = sayAll cfg.hasher cfg.encode cs book
  | [], _, _, _, _, _, _, _ => rfl
  | c :: cs, H, book, s, hd, h, hneat, hcf => by
    rw [hashedByAsks, List.append_assoc] at hcf
    obtain ⟨h1, h2⟩ := neat_step hc hroom hρ hd.1 h hneat.1 (hcf.mono fun i hi => List.mem_append_right _ hi)
    rw [runAsks, sayAll, h1, neat_session hc hroom hρ cs hd.2 h2 hneat.2 hcf]

/-- C92: reads may be given any bytes as the root, and all answers are those of the reference program, byte for byte: under
the root of a part of a version the pairs of the part are read, under the hash of data reads are refused, and under all
other bytes there is nothing. -/
theorem C92_any_root (hc : Sane cfg) (hroom : cfg.Room)
    (hρ : ∀ s, C.view (ρ s) = C.view s ∧ C.pending (ρ s) = View.empty N ∧ (C.alive s → C.alive (ρ s)))
    (h0 : C.view s = View.empty N) (h1 : C.pending s = View.empty N) (hs : C.alive s)
    (cs : List (Ask N V)) (hd : ShallowSays cfg.hasher cfg.encode cfg.depth cs [])
    (hneat : NeatAsks cfg ρ cs [] [] s)
    (hcf : CollisionFree cfg.hasher (Among (hashedByAsks cfg ρ cs s))) :
    runAsks (cfg.api ρ) cs s = sayAll cfg.hasher cfg.encode cs [] :=
  neat_session hc hroom hρ cs (H := []) hd
    ⟨⟨[], [], fun _ h => h, .start h0 h1, .nil⟩, h1, hs, fun _ h => by cases h⟩ hneat (by rwa [List.append_nil])

/-- C92 for `HashTree`. -/
theorem C92_hash_tree (ty : TreeTypes N V) (depth : Nat) (hc : Sane (ty.hashConfig depth))
    (hroom : (ty.hashConfig depth).Room) (cs : List (Ask N V))
    (hd : ShallowSays ty.hasher ty.encode depth cs [])
    (hneat : NeatAsks (ty.hashConfig depth) id cs [] [] (HashDB.open N))
    (hcf : CollisionFree ty.hasher (Among (hashedByAsks (ty.hashConfig depth) id cs (HashDB.open N)))) :
    ∃ t, HashTree.new N depth = .ok t ∧ runAsks (HashTree.api ty) cs t = sayAll ty.hasher ty.encode cs [] := by
  refine ⟨_, rfl, ?_⟩
  refine ((hashTree_hom ty depth).runAsks cs (HashDB.open N)).trans ?_
  exact C92_any_root (cfg := ty.hashConfig depth) (C := hashContract N) hc hroom
    (fun s => ⟨rfl, rfl, id⟩) rfl rfl trivial cs hd hneat hcf

/-- C92 for `RocksTree`. -/
theorem C92_rocks_tree (ty : TreeTypes N V) {codec : NodeCodec N} (hl : LawfulCodec codec) (depth : Nat)
    (hc : Sane (ty.rocksConfig codec (.reliable N) depth))
    (hroom : (ty.rocksConfig codec (.reliable N) depth).Room) (cs : List (Ask N V))
    (hd : ShallowSays ty.hasher ty.encode depth cs [])
    (hneat : NeatAsks (ty.rocksConfig codec (.reliable N) depth) (fun s => RocksDB.new s.decompose) cs [] []
      (RocksDB.new AMap.empty))
    (hcf : CollisionFree ty.hasher (Among (hashedByAsks (ty.rocksConfig codec (.reliable N) depth)
      (fun s => RocksDB.new s.decompose) cs (RocksDB.new AMap.empty)))) :
    ∃ t, RocksTree.open (.ok AMap.empty) depth = .ok t ∧
      runAsks (RocksTree.api ty codec (.reliable N)) cs t = sayAll ty.hasher ty.encode cs [] := by
  refine ⟨_, rfl, ?_⟩
  refine ((rocksTree_hom ty codec (.reliable N) depth).runAsks cs (RocksDB.new AMap.empty)).trans ?_
  exact C92_any_root (cfg := ty.rocksConfig codec (.reliable N) depth)
    (C := rocksContract hl (.reliable N)) (s := RocksDB.new AMap.empty)
    (ρ := fun s => RocksDB.new s.decompose) hc hroom (rocks_reopen hl) rfl rfl (rocks_empty hl) cs hd hneat hcf

end

/-! ## Examples -/

section
variable {N : Nat} {V : Type} [DecidableEq V]

/-- The call is neat. -/
def Ask.neatCheck (H : Hasher N) (encode : V → Res (List UInt8)) (seen : List (HIn N)) (book : Book N V) : Ask N V → Bool
  | .insert prev keys values => keys.length ≠ values.length || keys.isEmpty || (inOrder encode keys values &&
      ((book.spread H encode).base prev).any fun pairs => clearCheck pairs keys && book.newCheck keys values)
  | .insertOne prev k v => inOrder encode [k] [v] && ((book.spread H encode).base prev).isSome && book.newCheck [k] [v]
  | .get r keys => ((book.spread H encode).pairs r).all fun pairs => clearCheck pairs keys
  | .getOne _ _ => true
  | .prove _ _ => true
  | .verify r _ _ _ => book.dataAt H encode r || (book.spread H encode).rootCheck H seen r
  | .reopen => true
  | .remove r => (book.pairs r).isSome
  | .dies _ _ _ _ => false
  | .removeDies _ _ => false

/-- All calls are neat. -/
def neatAsksCheck {σ : Type} (cfg : Config N σ V) (ρ : σ → σ) : List (Ask N V) → List (HIn N) → Book N V → σ → Bool
  | [], _, _, _ => true
  | c :: cs, seen, book, s => c.neatCheck cfg.hasher cfg.encode (c.hashed cfg s ++ seen) book &&
      neatAsksCheck cfg ρ cs (c.hashed cfg s ++ seen) (c.after cfg.hasher cfg.encode book) (c.run (cfg.api ρ) s).2

theorem Book.new_of_check {book : Book N V} {keys : List (Arr N)} {values : List V}
    (h : book.newCheck keys values = true) : book.New keys values := by
  intro e he p hp
  have := List.all_eq_true.1 (List.all_eq_true.1 h e he) p hp
  simpa using this

theorem neat_of_check {H : Hasher N} {encode : V → Res (List UInt8)} {seen : List (HIn N)} {book : Book N V}
    {c : Ask N V} (h : c.neatCheck H encode seen book = true) : c.Neat H encode seen book := by
  cases c with
  | insert prev keys values =>
    intro h1 h2
    have h2' : keys.isEmpty = false := by simpa using h2
    simp only [Ask.neatCheck, h1, h2', ne_eq, not_true_eq_false, decide_false, Bool.false_or, Bool.and_eq_true] at h
    refine ⟨h.1, ?_⟩
    cases hb : (book.spread H encode).base prev with
    | none => rw [hb] at h; cases h.2
    | some pairs =>
      rw [hb, Option.any_some, Bool.and_eq_true] at h
      exact ⟨pairs, rfl, clear_of_check h.2.1, Book.new_of_check h.2.2⟩
  | insertOne prev k v =>
    simp only [Ask.neatCheck, Bool.and_eq_true] at h
    obtain ⟨pairs, hp⟩ := Option.isSome_iff_exists.1 h.1.2
    exact ⟨h.1.1, pairs, hp, Book.new_of_check h.2⟩
  | get r keys =>
    intro pairs hp
    simp only [Ask.neatCheck, hp, Option.all_some] at h
    exact clear_of_check h
  | getOne r k => trivial
  | prove r k => trivial
  | verify r k v p =>
    simp only [Ask.neatCheck, Bool.or_eq_true] at h
    exact h.imp id Book.root_of_check
  | reopen => trivial
  | remove r => exact Option.isSome_iff_exists.1 h
  | dies n prev keys values => cases h
  | removeDies n r => cases h

theorem neatAsks_of_check {σ : Type} {cfg : Config N σ V} {ρ : σ → σ} :
    ∀ (cs : List (Ask N V)) (seen : List (HIn N)) (book : Book N V) (s : σ), neatAsksCheck cfg ρ cs seen book s = true →
      NeatAsks cfg ρ cs seen book s
  | [], _, _, _, _ => trivial
  | c :: cs, seen, book, s, h => by
    rw [neatAsksCheck, Bool.and_eq_true] at h
    exact ⟨neat_of_check h.1, neatAsks_of_check cs _ _ _ h.2⟩

end

namespace Toy

/-- The root of the pairs with the keys 1 and 2, and of the pair with the key 2 alone; the hash of the data of the key 2. -/
def partRoot : Arr 2 := (sparseRoot cfg.hasher [(key 1, [10]), (key 2, [20])]).getD (key 0)
@[inherit_doc partRoot]
def oneRoot : Arr 2 := (sparseRoot cfg.hasher [(key 2, [20])]).getD (key 0)
@[inherit_doc partRoot]
def dataRoot : Arr 2 := (HIn.data (key 2) [20]).hash cfg.hasher
/-- The roots of the first two with one more pair. -/
def onPart : Arr 2 := (sparseRoot cfg.hasher [(key 1, [10]), (key 2, [20]), (key 7, [70])]).getD (key 0)
@[inherit_doc onPart]
def onOne : Arr 2 := (sparseRoot cfg.hasher [(key 2, [20]), (key 9, [90])]).getD (key 0)

/-- Two versions, of which the first is removed; between the calls there are reads under roots of parts, under the hash of
data, and under bytes from elsewhere, and inserts on top of parts.  The part with the keys 1 and 2 belongs to the first version only; the key 1 has the
same value in both. -/
def anyCalls : List (Ask 2 (List UInt8)) :=
  [.getOne partRoot (key 2),
   .insert none [key 1] [],
   .insert none ks1 vs1,
   .insert (some refRoot1) ks2 vs2,
   .get partRoot [key 1, key 2, key 3],
   .get oneRoot [key 2, key 1],
   .prove partRoot (key 1),
   .verify partRoot (key 1) [10] (sparseProof cfg.hasher [(key 1, [10]), (key 2, [20])] (key 1) [10]),
   .verify oneRoot (key 2) [20] (sparseProof cfg.hasher [(key 2, [20])] (key 2) [20]),
   .verify dataRoot (key 2) [20] [(dataRoot, false), (oneRoot, false)],
   .getOne dataRoot (key 2),
   .get dataRoot [],
   .get dataRoot [key 1],
   .prove dataRoot (key 2),
   .get (key 99) [key 2],
   .insert (some partRoot) [key 7] [[70]],
   .get onPart [key 1, key 2, key 7, key 0x8000],
   .insertOne (some oneRoot) (key 9) [90],
   .reopen,
   .remove refRoot1,
   .remove onPart,
   .getOne partRoot (key 2),
   .getOne oneRoot (key 2),
   .getOne dataRoot (key 2),
   .getOne ((sparseRoot cfg.hasher [(key 1, [10])]).getD (key 0)) (key 1),
   .getOne refRoot2 (key 1),
   .remove onOne,
   .getOne oneRoot (key 2),
   .getOne dataRoot (key 2)]

/-- Their answers. -/
def anyAnswers : List (Said 2 (List UInt8)) :=
  [.value none, .refused, .root refRoot1, .root refRoot2,
   .values [some (some [10]), some (some [20]), some none], .values [some (some [20]), some none],
   .proof (sparseProof cfg.hasher [(key 1, [10]), (key 2, [20])] (key 1) [10]), .accepted, .accepted, .refused,
   .refused, .values [], .refused, .refused, .values [some none],
   .root onPart, .values [some (some [10]), some (some [20]), some (some [70]), some none],
   .root onOne, .nothing, .removed, .removed,
   .value none, .value (some [20]), .refused, .value (some [10]), .value (some [10]), .removed, .value none, .value none]

theorem says_levels (cs : List (Ask 2 (List UInt8))) : ShallowSays Toy.cfg.hasher Toy.cfg.encode Toy.cfg.depth cs [] :=
  says_shallow_of_bits (by decide) cs []

/-- The reference program gives them. -/
theorem any_answers : sayAll cfg.hasher cfg.encode anyCalls [] = anyAnswers := by decide +kernel

/-- The hypotheses of `C92_any_root` are met. -/
example : runAsks (cfg.api id) anyCalls db0 = anyAnswers :=
  (C92_any_root (C := C) sane room (fun s => ⟨rfl, rfl, id⟩) rfl rfl (alive _) anyCalls (says_levels _)
    (neatAsks_of_check _ _ _ _ (by decide +kernel)) (collisionFree_of_check (by decide +kernel))).trans any_answers

/-- The same for the trees. -/
example : ∃ t, HashTree.new 2 17 = .ok t ∧ runAsks (HashTree.api types) anyCalls t = anyAnswers := by
  obtain ⟨t, h1, h2⟩ := C92_hash_tree types 17 sane room anyCalls (says_levels _)
    (neatAsks_of_check _ _ _ _ (by decide +kernel)) (collisionFree_of_check (by decide +kernel))
  exact ⟨t, h1, h2.trans any_answers⟩
example : ∃ t, RocksTree.open (.ok AMap.empty) 17 = .ok t ∧
    runAsks (RocksTree.api types ToyCodec.codec (.reliable 2)) anyCalls t = anyAnswers := by
  obtain ⟨t, h1, h2⟩ := C92_rocks_tree types ToyCodec.lawful 17 ⟨sane.1, sane.2, sane.3⟩ room anyCalls (says_levels _)
    (neatAsks_of_check _ _ _ _ (by decide +kernel)) (collisionFree_of_check (by decide +kernel))
  exact ⟨t, h1, h2.trans any_answers⟩

end Toy

end MerkleBit
