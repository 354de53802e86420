import Verif.Proof.Reference
import Verif.Props.Session
/-!
# C90: the crate answers as the reference program does
-/

namespace MerkleBit
section
variable {N : Nat} {σ τ V : Type} {cfg : Config N σ V} {C : DbContract cfg.db} {ρ : σ → σ} {H : List (HIn N)} {s : σ}

/-- The lists of the reference program are those of versions. -/
structure InBook (cfg : Config N σ V) (C : DbContract cfg.db) (H : List (HIn N)) (book : Book N V) (s : σ) : Prop where
  inserts : ∃ H0 R L, (∀ i ∈ H0, i ∈ H) ∧ Inserts cfg C H0 R L s ∧ ∀ e ∈ book, (e.1, mapOf e.2) ∈ L
  alive : C.alive s
  proper : ∀ e ∈ book, Proper cfg.encode e.2

theorem InBook.shelf (hc : Sane cfg) (hcf : CollisionFree cfg.hasher (Among H)) {book : Book N V}
    (h : InBook cfg C H book s) : Shelf cfg C H book s := by
  obtain ⟨⟨H0, R, L, hH, hins, hL⟩, hal, hpr⟩ := h
  exact ⟨hal, Honest.mono hH (hins.sound hc (hcf.mono hH)).view, fun e he => hins.version hc (hcf.mono hH) (hL e he), hpr⟩

theorem InBook.more {book : Book N V} (h : InBook cfg C H book s) (A : List (HIn N)) : InBook cfg C (A ++ H) book s := by
  obtain ⟨⟨H0, R, L, hH, hins, hL⟩, hal, hpr⟩ := h
  exact ⟨⟨H0, R, L, fun i hi => List.mem_append_right _ (hH i hi), hins, hL⟩, hal, hpr⟩

theorem Book.Shallow.base {book : Book N V} {d : Nat} (hd : book.Shallow d) {prev : Option (Arr N)}
    {pairs : List (Arr N × V)} (h : book.base prev = some pairs) : HeightBelow (mapOf pairs) (d + 1) := by
  cases prev with
  | none => cases h; exact heightBelow_empty (d + 1)
  | some r => exact (hd _ (Book.pairs_mem h)).succ

/-- With more levels than key bits it is always so. -/
theorem shallow_of_bits {G : Hasher N} {encode : V → Res (List UInt8)} {depth : Nat} (hd : 8 * N < depth) :
    ∀ (cs : List (Ask N V)) (book : Book N V), ShallowAsks G encode depth cs book
  | [], _ => trivial
  | _ :: cs, _ => ⟨fun _ _ => heightBelow_of_bits _ hd, shallow_of_bits hd cs _⟩

/-- It is also so while no list has more entries than there are levels. -/
def shallowCheck (G : Hasher N) (encode : V → Res (List UInt8)) (depth : Nat) : List (Ask N V) → Book N V → Bool
  | [], _ => true
  | c :: cs, book => book.all (fun e => e.2.length ≤ depth) && shallowCheck G encode depth cs (c.answer G encode book).2

theorem shallow_of_length {depth : Nat} {book : Book N V} (h : ∀ e ∈ book, e.2.length ≤ depth) : book.Shallow depth := by
  intro e he
  refine heightBelow_of_keys fun ks hnd hks => ?_
  have hsub : ks ⊆ e.2.map Prod.fst := by
    intro k hk
    have := hks k hk
    by_contra hn
    refine this (Option.map_eq_none_iff.2 (List.find?_eq_none.2 fun x hx => ?_))
    simp only [decide_eq_true_eq]
    rintro rfl
    exact hn (List.mem_map_of_mem hx)
  have := (List.subperm_of_subset hnd hsub).length_le
  rw [List.length_map] at this
  exact this.trans (h e he)

theorem shallow_of_check {G : Hasher N} {encode : V → Res (List UInt8)} {depth : Nat} :
    ∀ (cs : List (Ask N V)) (book : Book N V), shallowCheck G encode depth cs book = true →
      ShallowAsks G encode depth cs book
  | [], _, _ => trivial
  | c :: cs, book, h => by
    simp only [shallowCheck, Bool.and_eq_true, List.all_eq_true, decide_eq_true_eq] at h
    exact ⟨shallow_of_length h.1, shallow_of_check cs _ h.2⟩

/-- An insert. -/
theorem book_insert (hc : Sane cfg) {book : Book N V} (hd : book.Shallow cfg.depth) (h : InBook cfg C H book s)
    {prev : Option (Arr N)} {keys : List (Arr N)} {values : List V}
    (hknown : inOrder cfg.encode keys values → ∀ r, prev = some r →
      book.Root cfg.hasher (hashedBy cfg prev keys values s ++ H) r)
    (hopens : inOrder cfg.encode keys values → ∀ pairs, book.base prev = some pairs → Handled cfg (mapOf pairs) keys)
    (hcf : CollisionFree cfg.hasher (Among (hashedBy cfg prev keys values s ++ H))) :
    Said.ofInsert (insert cfg prev keys values s).1 = (book.insert cfg.hasher cfg.encode prev keys values).1 ∧
    InBook cfg C (hashedBy cfg prev keys values s ++ H) (book.insert cfg.hasher cfg.encode prev keys values).2
      (insert cfg prev keys values s).2 := by
  have hshelf := h.shelf hc (hcf.mono fun i hi => List.mem_append_right _ hi)
  obtain ⟨⟨H0, R, L, hH, hins, hL⟩, hal, hpr⟩ := h
  have hal' := insert_alive (cfg := cfg) (C := C) hal prev keys values
  unfold Book.insert
  by_cases hio : inOrder cfg.encode keys values
  · cases hbase : book.base prev with
    | none =>
      cases prev with
      | none => cases hbase
      | some r0 =>
        have hstr := hknown hio r0 rfl hbase
        have hnone := (hstr.mono fun i hi => List.mem_append_right _ hi).view hshelf.honest
        obtain ⟨e, he⟩ := C14_unknown_root_rejected_partial C keys values hnone (fun e he => by
          refine hstr (.leaf e.1 (Trie.dataLoc cfg.hasher e.1 e.2)) (List.mem_append_left _ ?_)
          unfold hashedBy
          exact List.mem_append_left _ (List.mem_flatMap.2 ⟨e, he, by simp [Trie.inputs]⟩))
        rw [he]
        simp only [hio, if_true]
        exact ⟨rfl, ⟨_, _, _, append_sub hH, .any hins rfl, hL⟩, hal', hpr⟩
    | some pairs =>
    have hhandled := hopens hio pairs hbase
    obtain ⟨h1, h2, h3, h4⟩ := inOrder_iff.1 hio
    have hprev : L.Prev prev (mapOf pairs) ∧ Proper cfg.encode pairs := by
      cases prev with
      | none => cases hbase; exact ⟨rfl, proper_nil _⟩
      | some r => exact ⟨hL _ (Book.pairs_mem hbase), hpr _ (Book.pairs_mem hbase)⟩
    have hheight := hd.base hbase
    have hcf1 : CollisionFree cfg.hasher (Among (hashedBy cfg prev keys values s ++ H0)) := hcf.mono (append_sub hH)
    obtain ⟨r, s', hrun, -, h'⟩ := hins.insert_ok hc hal hcf1 hprev.1 hheight hhandled h1 h2 h3 h4
    have hput := hprev.2.put h1 h3 h4
    have hroot := C89_root_is_sparse_root hc h' hcf1 List.mem_cons_self (mapOf_put (pairs := pairs) h1 ▸ hput.lists)
    rw [hrun] at hal' ⊢
    simp only [hio, if_true, hroot]
    refine ⟨rfl, ⟨_, _, _, append_sub hH, h', fun e he => ?_⟩, hal', fun e he => ?_⟩
    · rcases List.mem_cons.1 he with rfl | he
      · rw [mapOf_put h1]; exact List.mem_cons_self
      · exact List.mem_cons_of_mem _ (hL e he)
    · rcases List.mem_cons.1 he with rfl | he
      · exact hput
      · exact hpr e he
  · obtain ⟨e, he⟩ := insert_refuses (cfg := cfg) (r := prev) hc.pos (fun h => hio (inOrder_iff.2 h)) s
    rw [he]
    simp only [hio, Bool.false_eq_true, if_false]
    exact ⟨rfl, ⟨_, _, _, append_sub hH, .any hins rfl, hL⟩, hal', hpr⟩

/-- One call. -/
theorem book_step (hc : Sane cfg) (hroom : cfg.Room)
    (hρ : ∀ s, C.view (ρ s) = C.view s ∧ C.pending (ρ s) = View.empty N ∧ (C.alive s → C.alive (ρ s)))
    {book : Book N V} (hd : book.Shallow cfg.depth) (h : InBook cfg C H book s) {c : Ask N V}
    (hknown : c.Known cfg.hasher cfg.encode (c.hashed cfg s ++ H) book) (hopens : c.Opens cfg book)
    (hcf : CollisionFree cfg.hasher (Among (c.hashed cfg s ++ H))) :
    (c.run (cfg.api ρ) s).1 = (c.answer cfg.hasher cfg.encode book).1 ∧
    InBook cfg C (c.hashed cfg s ++ H) (c.answer cfg.hasher cfg.encode book).2 (c.run (cfg.api ρ) s).2 := by
  have hcf0 : CollisionFree cfg.hasher (Among H) := hcf.mono (fun i hi => List.mem_append_right _ hi)
  have asks : c.Queries → (c.run (cfg.api ρ) s).1 = (c.answer cfg.hasher cfg.encode book).1 ∧
      InBook cfg C (c.hashed cfg s ++ H) (c.answer cfg.hasher cfg.encode book).2 (c.run (cfg.api ρ) s).2 := by
    intro hask
    obtain ⟨h1, h2, h3⟩ := shelf_asks (ρ := ρ) hc hroom hd (h.shelf hc hcf0) hask hknown hopens hcf
    rw [h2, h3]
    exact ⟨h1, h.more _⟩
  cases c with
  | insert prev keys values => exact book_insert hc hd h hknown hopens hcf
  | insertOne prev k v =>
    have h1 : insertOne cfg prev k v s = insert cfg prev [k] [v] s := by rw [C10_insert_one_is_insert]
    simp only [Ask.run, Ask.answer, Ask.hashed, Config.api, h1]
    exact book_insert hc hd h hknown (fun _ _ _ => handled_of_clear hc (clear_of_short (by simp))) hcf
  | get r keys => exact asks trivial
  | getOne r k => exact asks trivial
  | prove r k => exact asks trivial
  | verify r k v p => exact asks trivial
  | reopen =>
    obtain ⟨e1, e2, e3⟩ := hρ s
    obtain ⟨⟨H0, R, L, hH, hins, hL⟩, hal, hpr⟩ := h
    exact ⟨rfl, ⟨_, _, _, hH, .reopen hins e1 e2, hL⟩, e3 hal, hpr⟩
  | dies n prev keys values =>
    have ha := insert_crash_alive (cfg := cfg) h.alive n prev keys values
    simp only [Ask.run, Ask.answer, Ask.hashed, Config.api]
    rcases hrun : insert cfg.crash prev keys values (s, n) with ⟨res, s', n'⟩
    rw [hrun] at ha
    cases res with
    | ok r' => exact ⟨by trivial, h.more _⟩
    | error e =>
      obtain ⟨e1, e2, e3⟩ := hρ s'
      obtain ⟨⟨H0, R, L, hH, hins, hL⟩, hal, hpr⟩ := h
      exact ⟨by trivial, ⟨_, _, _, append_sub hH, .reopen (.crash hins hrun) e1 e2, hL⟩, e3 ha, hpr⟩
  | remove r => exact hknown.elim
  | removeDies n r => exact hknown.elim

theorem book_session (hc : Sane cfg) (hroom : cfg.Room)
    (hρ : ∀ s, C.view (ρ s) = C.view s ∧ C.pending (ρ s) = View.empty N ∧ (C.alive s → C.alive (ρ s))) :
    ∀ (cs : List (Ask N V)) {H : List (HIn N)} {book : Book N V} {s : σ},
    ShallowAsks cfg.hasher cfg.encode cfg.depth cs book → InBook cfg C H book s →
    KnownAsks cfg ρ cs H book s → OpensAsks cfg cs book →
    CollisionFree cfg.hasher (Among (hashedByAsks cfg ρ cs s ++ H)) →
    runAsks (cfg.api ρ) cs s = answers cfg.hasher cfg.encode cs book
  | [], _, _, _, _, _, _, _, _ => rfl
  | c :: cs, H, book, s, hd, h, hknown, hopens, hcf => by
    rw [hashedByAsks, List.append_assoc] at hcf
    obtain ⟨h1, h2⟩ := book_step hc hroom hρ hd.1 h hknown.1 hopens.1 (hcf.mono fun i hi => List.mem_append_right _ hi)
    rw [runAsks, answers, h1, book_session hc hroom hρ cs hd.2 h2 hknown.2 hopens.2 hcf]

theorem FairAsks.opens (hc : Sane cfg) : ∀ (cs : List (Ask N V)) {H : List (HIn N)} {book : Book N V} {s : σ},
    FairAsks cfg.hasher cfg.encode cs book → KnownAsks cfg ρ cs H book s ∧ OpensAsks cfg cs book
  | [], _, _, _, _ => ⟨trivial, trivial⟩
  | c :: cs, _, _, _, h => by
    obtain ⟨h1, h2⟩ := Ask.Fair.opens hc h.1 _
    obtain ⟨h3, h4⟩ := FairAsks.opens hc cs h.2
    exact ⟨⟨h1, h3⟩, h2, h4⟩

/-- A call whose keys do not open every place where they belong is answered otherwise. -/
theorem book_exact (hc : Sane cfg) (hroom : cfg.Room)
    (hρ : ∀ s, C.view (ρ s) = C.view s ∧ C.pending (ρ s) = View.empty N ∧ (C.alive s → C.alive (ρ s)))
    {book : Book N V} (hd : book.Shallow cfg.depth) (h : InBook cfg C H book s) {c : Ask N V}
    (hknown : c.Known cfg.hasher cfg.encode (c.hashed cfg s ++ H) book)
    (hcf : CollisionFree cfg.hasher (Among (c.rootInputs cfg.hasher cfg.encode book ++ (c.hashed cfg s ++ H)))) :
    (c.run (cfg.api ρ) s).1 = (c.answer cfg.hasher cfg.encode book).1 ↔ c.Opens cfg book := by
  have hcf1 : CollisionFree cfg.hasher (Among (c.hashed cfg s ++ H)) := hcf.mono (fun i hi => List.mem_append_right _ hi)
  have hcf0 : CollisionFree cfg.hasher (Among H) := hcf1.mono (fun i hi => List.mem_append_right _ hi)
  refine ⟨fun heq => ?_, fun hopens => (book_step hc hroom hρ hd h hknown hopens hcf1).1⟩
  cases c with
  | insertOne prev k v => trivial
  | getOne r k => trivial
  | prove r k => trivial
  | verify r k v p => trivial
  | reopen => trivial
  | dies n prev keys values => trivial
  | remove r => trivial
  | removeDies n r => trivial
  | get r keys => exact (shelf_get (ρ := ρ) hc hd (h.shelf hc hcf0) (keys := keys) hknown).1.1 heq
  | insert prev keys values =>
    intro hio pairs hbase
    obtain ⟨h1, h2, h3, h4⟩ := inOrder_iff.1 hio
    cases prev with
    | none => cases hbase; exact handled_empty _
    | some r0 =>
      obtain ⟨⟨H0, R, L, hH, hins, hL⟩, hal, hpr⟩ := h
      have hput := (hpr _ (Book.pairs_mem hbase)).put h1 h3 h4
      have hsub : ∀ i, Among H i → Among ((Ask.insert (some r0) keys values).rootInputs cfg.hasher cfg.encode book ++
          ((Ask.insert (some r0) keys values).hashed cfg s ++ H)) i :=
        fun i hi => List.mem_append_right _ (List.mem_append_right _ hi)
      have hsub0 : ∀ i, Among H0 i → _ := fun i hi => hsub i (hH i hi)
      have hsound := ((hins.sound hc (hcf.mono hsub0)).inv.mono hsub0).sound
      have hopen := insert_opened (C := C) hc.pos hc.pp hcf (values := values) (keys := keys)
        (fun i hi => List.mem_append_right _ (List.mem_append_left _ hi)) hsound
        (hins.version hc (hcf.mono hsub0) (hL _ (Book.pairs_mem hbase)))
      unfold Ends at hopen
      have hsome : encoded cfg.encode (putPairs pairs (keys.zip values)) ≠ [] := by
        obtain ⟨k, hk⟩ := List.exists_mem_of_ne_nil _ h2
        obtain ⟨v, hv⟩ := Option.ne_none_iff_exists'.1 (assign_ne_none (mapOf pairs) h1 hk)
        rw [← mapOf_put h1] at hv
        obtain ⟨b, hb⟩ := hput.codes _ ((mapOf_mem hput.once).1 hv)
        exact List.ne_nil_of_mem ((hput.lists.2 k b).2 ⟨v, hv, hb⟩)
      obtain ⟨T', hwf', -, hperm', hin'⟩ := sparse_trie cfg.hasher (8 * N) (Nat.le_refl _)
        (pairs := encoded cfg.encode (putPairs pairs (keys.zip values)))
        (hput.once.sublist (encoded_keys _)) hsome (fun e _ e' _ => by omega)
      have hroot' := sparseHash_trie cfg.hasher (8 * N) hwf' (Nat.le_refl _) (by omega) hperm'
      rcases hrun : insert cfg (some r0) keys values s with ⟨res, s1⟩
      rw [hrun] at hopen
      have hrun1 : ((cfg.api ρ).insert s (some r0) keys values).1 = res := congrArg Prod.fst hrun
      simp only [Ask.run, Ask.answer, Book.insert, hio, if_true, hbase, sparseRoot, hroot', hrun1] at heq
      cases res with
      | error e => cases heq
      | ok r =>
        simp only [Said.ofInsert, Said.root.injEq] at heq
        obtain ⟨-, T, hT, hin, hw⟩ := hopen
        have : T = T' := Trie.eq_of_loc hcf hin (fun i hi => List.mem_append_left _ (by
          simp only [Ask.rootInputs, hbase]
          exact hin' i hi)) (hT.symm.trans heq)
        exact hw (this ▸ hwf')

theorem book_session_exact (hc : Sane cfg) (hroom : cfg.Room)
    (hρ : ∀ s, C.view (ρ s) = C.view s ∧ C.pending (ρ s) = View.empty N ∧ (C.alive s → C.alive (ρ s))) :
    ∀ (cs : List (Ask N V)) {H : List (HIn N)} {book : Book N V} {s : σ},
    ShallowAsks cfg.hasher cfg.encode cfg.depth cs book → InBook cfg C H book s →
    KnownAsks cfg ρ cs H book s →
    CollisionFree cfg.hasher (Among (rootInputsOfAsks cfg.hasher cfg.encode cs book ++ (hashedByAsks cfg ρ cs s ++ H))) →
    (runAsks (cfg.api ρ) cs s = answers cfg.hasher cfg.encode cs book ↔ OpensAsks cfg cs book)
  | [], _, _, _, _, _, _, _ => ⟨fun _ => trivial, fun _ => rfl⟩
  | c :: cs, H, book, s, hd, h, hknown, hcf => by
    have hsub : ∀ i ∈ c.rootInputs cfg.hasher cfg.encode book ++ (c.hashed cfg s ++ H),
        i ∈ rootInputsOfAsks cfg.hasher cfg.encode (c :: cs) book ++ (hashedByAsks cfg ρ (c :: cs) s ++ H) := by
      intro i hi
      simp only [rootInputsOfAsks, hashedByAsks, List.mem_append] at hi ⊢
      tauto
    have hexact := book_exact hc hroom hρ hd.1 h hknown.1 (hcf.mono hsub)
    rw [runAsks, answers, List.cons.injEq, hexact]
    refine and_congr_right fun hopens => ?_
    have h2 := (book_step hc hroom hρ hd.1 h hknown.1 hopens (hcf.mono fun i hi => hsub i (List.mem_append_right _ hi))).2
    refine book_session_exact hc hroom hρ cs hd.2 h2 hknown.2 (hcf.mono fun i hi => ?_)
    simp only [rootInputsOfAsks, hashedByAsks, List.mem_append] at hi ⊢
    tauto

/-- C90: the answers of the crate are, byte for byte, those of the reference program: the roots that `insert` returns,
what `get` reads, the proofs, and which proofs are accepted. -/
theorem C90_reference (hc : Sane cfg) (hroom : cfg.Room)
    (hρ : ∀ s, C.view (ρ s) = C.view s ∧ C.pending (ρ s) = View.empty N ∧ (C.alive s → C.alive (ρ s)))
    (h0 : C.view s = View.empty N) (h1 : C.pending s = View.empty N) (hs : C.alive s)
    (cs : List (Ask N V)) (hd : ShallowAsks cfg.hasher cfg.encode cfg.depth cs [])
    (hfair : FairAsks cfg.hasher cfg.encode cs [])
    (hcf : CollisionFree cfg.hasher (Among (hashedByAsks cfg ρ cs s))) :
    runAsks (cfg.api ρ) cs s = answers cfg.hasher cfg.encode cs [] :=
  book_session hc hroom hρ cs (H := []) hd
    ⟨⟨[], [], [], fun _ h => h, .start h0 h1, fun _ h => by cases h⟩, hs, fun _ h => by cases h⟩
    (FairAsks.opens hc cs hfair).1 (FairAsks.opens (ρ := ρ) (H := []) (s := s) hc cs hfair).2 (by rwa [List.append_nil])

/-- C90, exactly: where the roots of all calls were given out before, or are from elsewhere, the answers are those of the reference program if
and only if the keys of every insert, and those keys of every `get` that the version has, open every place where they
belong.  (For the beginnings of a list of calls: the first call with which this is not so is the first that is answered
otherwise.) -/
theorem C90_reference_exact (hc : Sane cfg) (hroom : cfg.Room)
    (hρ : ∀ s, C.view (ρ s) = C.view s ∧ C.pending (ρ s) = View.empty N ∧ (C.alive s → C.alive (ρ s)))
    (h0 : C.view s = View.empty N) (h1 : C.pending s = View.empty N) (hs : C.alive s)
    (cs : List (Ask N V)) (hd : ShallowAsks cfg.hasher cfg.encode cfg.depth cs []) (hknown : KnownAsks cfg ρ cs [] [] s)
    (hcf : CollisionFree cfg.hasher
      (Among (rootInputsOfAsks cfg.hasher cfg.encode cs [] ++ hashedByAsks cfg ρ cs s))) :
    runAsks (cfg.api ρ) cs s = answers cfg.hasher cfg.encode cs [] ↔ OpensAsks cfg cs [] :=
  book_session_exact hc hroom hρ cs (H := []) hd
    ⟨⟨[], [], [], fun _ h => h, .start h0 h1, fun _ h => by cases h⟩, hs, fun _ h => by cases h⟩ hknown
    (by rwa [List.append_nil])

/-! ## With removals -/

/-- The lists of the reference program are those of the live versions. -/
structure InTidyBook (cfg : Config N σ V) (C : DbContract cfg.db) (H : List (HIn N)) (book : Book N V) (s : σ) : Prop where
  uses : ∃ H0 L, (∀ i ∈ H0, i ∈ H) ∧ Uses cfg C False H0 L s ∧ L.Perm (book.map fun e => (e.1, mapOf e.2))
  waiting : Waiting C False s
  alive : C.alive s
  proper : ∀ e ∈ book, Proper cfg.encode e.2

theorem InTidyBook.shelf (hc : Sane cfg) (hcf : CollisionFree cfg.hasher (Among H)) {book : Book N V}
    (h : InTidyBook cfg C H book s) : Shelf cfg C H book s := by
  obtain ⟨⟨H0, L, hH, hu, hL⟩, -, hal, hpr⟩ := h
  refine ⟨hal, (uses_acct hc.pos hc.pp hc.codec hu (Among H) hcf hH).2.honest, fun e he => ?_, hpr⟩
  exact uses_versions hc.pos hc.pp hc.codec hu (hcf.mono hH) (e.1, mapOf e.2)
    (hL.mem_iff.2 (List.mem_map.2 ⟨e, he, rfl⟩))

theorem InTidyBook.more {book : Book N V} (h : InTidyBook cfg C H book s) (A : List (HIn N)) :
    InTidyBook cfg C (A ++ H) book s := by
  obtain ⟨⟨H0, L, hH, hu, hL⟩, hw, hal, hpr⟩ := h
  exact ⟨⟨H0, L, fun i hi => List.mem_append_right _ (hH i hi), hu, hL⟩, hw, hal, hpr⟩

theorem Book.strike_perm {book : Book N V} {r : Arr N} {pairs : List (Arr N × V)} (h : book.pairs r = some pairs) :
    book.Perm ((r, pairs) :: book.strike r) := by
  induction book with
  | nil => cases h
  | cons e book ih =>
    unfold Book.pairs Book.strike at *
    by_cases he : e.1 = r
    · subst he
      simp only [List.find?_cons, decide_true, Option.map_some, Option.some.injEq] at h
      subst h
      simp
    · simp only [List.find?_cons, he, decide_false] at h
      simp only [List.eraseP_cons, he, decide_false, cond_false]
      exact ((ih h).cons e).trans (List.Perm.swap _ _ _)

theorem struck {book : Book N V} {L : Ledger N V} (hL : L.Perm (book.map fun e => (e.1, mapOf e.2))) {r : Arr N}
    {pairs : List (Arr N × V)} (h : book.pairs r = some pairs) :
    ∃ L1 L2, L = L1 ++ (r, mapOf pairs) :: L2 ∧ (L1 ++ L2).Perm ((book.strike r).map fun e => (e.1, mapOf e.2)) := by
  have hp := hL.trans ((Book.strike_perm h).map _)
  rw [List.map_cons] at hp
  obtain ⟨L1, L2, rfl⟩ := List.append_of_mem (hp.mem_iff.2 List.mem_cons_self)
  exact ⟨L1, L2, rfl, (List.perm_middle.symm.trans hp).cons_inv⟩

/-- A batch on top of a live list, in terms of the histories. -/
theorem book_careful (hc : Sane cfg) {book : Book N V} {L : Ledger N V}
    (hL : L.Perm (book.map fun e => (e.1, mapOf e.2))) (hw : Waiting C False s)
    {prev : Option (Arr N)} {keys : List (Arr N)} {values : List V} {pairs : List (Arr N × V)}
    (hbase : book.base prev = some pairs) (hnd : keys.Nodup) (hclear : Clear (mapOf pairs) keys)
    (hfresh : book.Fresh pairs keys values) : Careful cfg C False L s prev (mapOf pairs) keys values where
  confirmed := hw.confirmed
  prev := by
    cases prev with
    | none => cases hbase; rfl
    | some r => exact .inl (hL.mem_iff.2 (List.mem_map.2 ⟨_, Book.pairs_mem hbase, rfl⟩))
  distinct := hnd
  straddle := noStraddle_of_clear hclear
  fresh e he := by
    obtain ⟨e', he', rfl⟩ := List.mem_map.1 (hL.mem_iff.1 he)
    exact hfresh e' he'
  new h := h.elim

/-- An insert. -/
theorem tidyBook_insert (hc : Sane cfg) (hshow : ∃ b, WritesShow C b)
    {book : Book N V} (hd : book.Shallow cfg.depth) (h : InTidyBook cfg C H book s)
    {prev : Option (Arr N)} {keys : List (Arr N)} {values : List V}
    (htidy : inOrder cfg.encode keys values →
      (∀ r, prev = some r → book.Root cfg.hasher (hashedBy cfg prev keys values s ++ H) r) ∧
      ∀ pairs, book.base prev = some pairs → Clear (mapOf pairs) keys ∧ book.Fresh pairs keys values)
    (hcf : CollisionFree cfg.hasher (Among (hashedBy cfg prev keys values s ++ H))) :
    Said.ofInsert (insert cfg prev keys values s).1 = (book.insert cfg.hasher cfg.encode prev keys values).1 ∧
    InTidyBook cfg C (hashedBy cfg prev keys values s ++ H) (book.insert cfg.hasher cfg.encode prev keys values).2
      (insert cfg prev keys values s).2 := by
  have hshelf := h.shelf hc (hcf.mono fun i hi => List.mem_append_right _ hi)
  obtain ⟨⟨H0, L, hH, hu, hL⟩, hw, hal, hpr⟩ := h
  have hal' := insert_alive (cfg := cfg) (C := C) hal prev keys values
  unfold Book.insert
  by_cases hio : inOrder cfg.encode keys values
  · obtain ⟨hknown, hgood⟩ := htidy hio
    cases hbase : book.base prev with
    | none =>
      cases prev with
      | none => cases hbase
      | some r0 =>
        have hstr := hknown r0 rfl hbase
        have hnone := (hstr.mono fun i hi => List.mem_append_right _ hi).view hshelf.honest
        obtain ⟨e, he⟩ := C14_unknown_root_rejected_partial C keys values hnone (fun e he => by
          refine hstr (.leaf e.1 (Trie.dataLoc cfg.hasher e.1 e.2)) (List.mem_append_left _ ?_)
          unfold hashedBy
          exact List.mem_append_left _ (List.mem_flatMap.2 ⟨e, he, by simp [Trie.inputs]⟩))
        rcases hrun : insert cfg (some r0) keys values s with ⟨res, s'⟩
        rw [hrun] at he hal'
        dsimp only at he
        subst he
        simp only [hio, if_true]
        exact ⟨rfl, ⟨_, _, append_sub hH, .refused id hu hal hrun, hL⟩, hw.refused hc.pos id hshow hal hrun, hal', hpr⟩
    | some pairs =>
    obtain ⟨hclear, hfresh⟩ := hgood pairs hbase
    obtain ⟨h1, h2, h3, h4⟩ := inOrder_iff.1 hio
    have hprp : Proper cfg.encode pairs := by
      cases prev with
      | none => cases hbase; exact proper_nil _
      | some r => exact hpr _ (Book.pairs_mem hbase)
    have hcf1 : CollisionFree cfg.hasher (Among (hashedBy cfg prev keys values s ++ H0)) := hcf.mono (append_sub hH)
    obtain ⟨r, s', hrun, -, hp', h'⟩ := C47_live_roots_accept_partial hc hu hal hcf1
      (book_careful hc hL hw hbase h3 hclear hfresh) h1 h2 h4 (hd.base hbase)
    have hput := hprp.put h1 h3 h4
    have hroot := C89_live_root hc h' hcf1 List.mem_cons_self (mapOf_put (pairs := pairs) h1 ▸ hput.lists)
    rw [hrun] at hal' ⊢
    simp only [hio, if_true, hroot]
    refine ⟨rfl, ⟨_, _, append_sub hH, h', ?_⟩, .inl hp', hal', fun e he => ?_⟩
    · rw [List.map_cons, mapOf_put h1]; exact hL.cons _
    · rcases List.mem_cons.1 he with rfl | he
      · exact hput
      · exact hpr e he
  · obtain ⟨e, he⟩ := insert_refuses (cfg := cfg) (r := prev) hc.pos (fun h => hio (inOrder_iff.2 h)) s
    rcases hrun : insert cfg prev keys values s with ⟨res, s'⟩
    rw [hrun] at he hal'
    dsimp only at he
    subst he
    simp only [hio, Bool.false_eq_true, if_false]
    exact ⟨rfl, ⟨_, _, append_sub hH, .refused id hu hal hrun, hL⟩, hw.refused hc.pos id hshow hal hrun, hal', hpr⟩

/-- One call. -/
theorem tidyBook_step (hc : Sane cfg) (hroom : cfg.Room) (hshow : ∃ b, WritesShow C b)
    (hρ : ∀ s, C.view (ρ s) = C.view s ∧ C.pending (ρ s) = View.empty N ∧ (C.alive s → C.alive (ρ s)))
    {book : Book N V} (hd : book.Shallow cfg.depth) (h : InTidyBook cfg C H book s) {c : Ask N V}
    (htidy : c.Tidy cfg.hasher cfg.encode (c.hashed cfg s ++ H) book)
    (hcf : CollisionFree cfg.hasher (Among (c.hashed cfg s ++ H))) :
    (c.run (cfg.api ρ) s).1 = (c.answer cfg.hasher cfg.encode book).1 ∧
    InTidyBook cfg C (c.hashed cfg s ++ H) (c.answer cfg.hasher cfg.encode book).2 (c.run (cfg.api ρ) s).2 := by
  have hcf0 : CollisionFree cfg.hasher (Among H) := hcf.mono (fun i hi => List.mem_append_right _ hi)
  have asks : c.Queries → c.Known cfg.hasher cfg.encode (c.hashed cfg s ++ H) book → c.Opens cfg book →
      (c.run (cfg.api ρ) s).1 = (c.answer cfg.hasher cfg.encode book).1 ∧
      InTidyBook cfg C (c.hashed cfg s ++ H) (c.answer cfg.hasher cfg.encode book).2 (c.run (cfg.api ρ) s).2 := by
    intro hask hknown hopens
    obtain ⟨h1, h2, h3⟩ := shelf_asks (ρ := ρ) hc hroom hd (h.shelf hc hcf0) hask hknown hopens hcf
    rw [h2, h3]
    exact ⟨h1, h.more _⟩
  cases c with
  | insert prev keys values => exact tidyBook_insert hc hshow hd h htidy hcf
  | insertOne prev k v =>
    have h1 : insertOne cfg prev k v s = insert cfg prev [k] [v] s := by rw [C10_insert_one_is_insert]
    simp only [Ask.run, Ask.answer, Ask.hashed, Config.api, h1]
    exact tidyBook_insert hc hshow hd h (fun hio => ⟨(htidy hio).1, fun pairs hp =>
      ⟨clear_of_short (by simp), (htidy hio).2 pairs hp⟩⟩) hcf
  | get r keys =>
    exact asks trivial htidy.1 fun pairs hp k hk => .inr (handled_of_clear hc (htidy.2 pairs hp) k hk)
  | getOne r k => exact asks trivial htidy trivial
  | prove r k => exact asks trivial htidy trivial
  | verify r k v p => exact asks trivial htidy trivial
  | reopen =>
    obtain ⟨e1, e2, e3⟩ := hρ s
    obtain ⟨⟨H0, L, hH, hu, hL⟩, hw, hal, hpr⟩ := h
    exact ⟨rfl, ⟨_, _, hH, .reopen hu e1 e2, hL⟩, .inl e2, e3 hal, hpr⟩
  | dies n prev keys values =>
    have ha := insert_crash_alive (cfg := cfg) h.alive n prev keys values
    simp only [Ask.run, Ask.answer, Ask.hashed, Config.api]
    rcases hrun : insert cfg.crash prev keys values (s, n) with ⟨res, s', n'⟩
    rw [hrun] at ha
    cases res with
    | ok r' => exact ⟨by trivial, h.more _⟩
    | error e =>
      obtain ⟨e1, e2, e3⟩ := hρ s'
      obtain ⟨⟨H0, L, hH, hu, hL⟩, hw, hal, hpr⟩ := h
      obtain ⟨hnd, pairs, hbase, hclear, hfresh⟩ := htidy
      exact ⟨by trivial, ⟨_, _, append_sub hH,
        .reopen (.insertCrashed id hu (book_careful hc hL hw hbase hnd hclear hfresh) hrun) e1 e2, hL⟩, .inl e2, e3 ha, hpr⟩
  | remove r =>
    obtain ⟨pairs, hp⟩ := htidy
    obtain ⟨⟨H0, L, hH, hu, hL⟩, hw, hal, hpr⟩ := h
    obtain ⟨L1, L2, rfl, hL'⟩ := struck hL hp
    obtain ⟨s', hrun, hs'⟩ := remove_alive (C := C) (cfg := cfg) hal r
    have hrun' : (cfg.api ρ).remove s r = (.ok (), s') := hrun
    simp only [Ask.run, Ask.answer, Ask.hashed, hrun']
    exact ⟨by trivial, ⟨_, _, hH, Uses.remove hu hw.confirmed hrun, hL'⟩, .inl (remove_flushed hrun), hs',
      fun e he => hpr e (List.mem_of_mem_eraseP he)⟩
  | removeDies n r =>
    obtain ⟨pairs, hp⟩ := htidy
    obtain ⟨⟨H0, L, hH, hu, hL⟩, hw, hal, hpr⟩ := h
    obtain ⟨L1, L2, rfl, hL'⟩ := struck hL hp
    simp only [Ask.run, Ask.answer, Ask.hashed, Config.api]
    rcases hrun : remove cfg.crash r (s, n) with ⟨res, s', n'⟩
    cases res with
    | ok u =>
      obtain ⟨s', hrun, hs'⟩ := remove_alive (C := C) (cfg := cfg) hal r
      obtain ⟨e1, e2, e3⟩ := hρ s'
      rw [hrun]
      exact ⟨by trivial, ⟨_, _, hH, .reopen (Uses.remove hu hw.confirmed hrun) e1 e2, hL'⟩, .inl e2, e3 hs',
        fun e he => hpr e (List.mem_of_mem_eraseP he)⟩
    | error err =>
      obtain ⟨e1, e2, e3⟩ := hρ s'
      have ha := remove_crash_alive (cfg := cfg) hal n r
      rw [hrun] at ha
      exact ⟨by trivial, ⟨_, _, hH, .reopen (Uses.removeCrashed id hu hw.confirmed hrun) e1 e2, hL'⟩, .inl e2, e3 ha,
        fun e he => hpr e (List.mem_of_mem_eraseP he)⟩

theorem tidyBook_session (hc : Sane cfg) (hroom : cfg.Room) (hshow : ∃ b, WritesShow C b)
    (hρ : ∀ s, C.view (ρ s) = C.view s ∧ C.pending (ρ s) = View.empty N ∧ (C.alive s → C.alive (ρ s))) :
    ∀ (cs : List (Ask N V)) {H : List (HIn N)} {book : Book N V} {s : σ},
    ShallowAsks cfg.hasher cfg.encode cfg.depth cs book → InTidyBook cfg C H book s →
    TidyAsks cfg ρ cs H book s → CollisionFree cfg.hasher (Among (hashedByAsks cfg ρ cs s ++ H)) →
    runAsks (cfg.api ρ) cs s = answers cfg.hasher cfg.encode cs book
  | [], _, _, _, _, _, _, _ => rfl
  | c :: cs, H, book, s, hd, h, htidy, hcf => by
    rw [hashedByAsks, List.append_assoc] at hcf
    obtain ⟨h1, h2⟩ := tidyBook_step hc hroom hshow hρ hd.1 h htidy.1 (hcf.mono fun i hi => List.mem_append_right _ hi)
    rw [runAsks, answers, h1, tidyBook_session hc hroom hshow hρ cs hd.2 h2 htidy.2 hcf]

/-- C90 with removals: the reference program strikes the root out, and its answers about the other roots stay those of
the crate, as long as no insert writes a group of pairs again that a live version has. -/
theorem C90_reference_with_removals (hc : Sane cfg) (hroom : cfg.Room)
    (hshow : ∃ b, WritesShow C b)
    (hρ : ∀ s, C.view (ρ s) = C.view s ∧ C.pending (ρ s) = View.empty N ∧ (C.alive s → C.alive (ρ s)))
    (h0 : C.view s = View.empty N) (h1 : C.pending s = View.empty N) (hs : C.alive s)
    (cs : List (Ask N V)) (hd : ShallowAsks cfg.hasher cfg.encode cfg.depth cs [])
    (htidy : TidyAsks cfg ρ cs [] [] s)
    (hcf : CollisionFree cfg.hasher (Among (hashedByAsks cfg ρ cs s))) :
    runAsks (cfg.api ρ) cs s = answers cfg.hasher cfg.encode cs [] :=
  tidyBook_session hc hroom hshow hρ cs (H := []) hd
    ⟨⟨[], [], fun _ h => h, .start h0 h1, .nil⟩, .inl h1, hs, fun _ h => by cases h⟩ htidy (by rwa [List.append_nil])

theorem Api.Hom.runAsk {A : Api N V σ} {B : Api N V τ} {f : σ → τ} (h : A.Hom B f) (s : σ) (c : Ask N V) :
    c.run B (f s) = ((c.run A s).1, f (c.run A s).2) := by
  cases c with
  | insert prev keys values => simp only [Ask.run, h.insert]
  | insertOne prev k v => simp only [Ask.run, h.insertOne]
  | get r keys => simp only [Ask.run, h.get]; cases A.get s r keys <;> rfl
  | getOne r k => simp only [Ask.run, h.getOne]; cases A.getOne s r k <;> rfl
  | prove r k => simp only [Ask.run, h.generateInclusionProof]; cases A.generateInclusionProof s r k <;> rfl
  | verify r k v p => simp only [Ask.run, h.verifyInclusionProof]; cases A.verifyInclusionProof r k v p <;> rfl
  | reopen => simp only [Ask.run, h.reopen]
  | dies n prev keys values =>
    simp only [Ask.run, h.insertDies]; cases A.insertDies n s prev keys values <;> rfl
  | remove r =>
    simp only [Ask.run, h.remove]
    rcases A.remove s r with ⟨res, s'⟩
    cases res <;> rfl
  | removeDies n r => simp only [Ask.run, h.removeDies]

theorem Api.Hom.runAsks {A : Api N V σ} {B : Api N V τ} {f : σ → τ} (h : A.Hom B f) :
    ∀ (cs : List (Ask N V)) (s : σ), MerkleBit.runAsks B cs (f s) = MerkleBit.runAsks A cs s
  | [], _ => rfl
  | c :: cs, s => by
    simp only [MerkleBit.runAsks, h.runAsk s c]
    rw [Api.Hom.runAsks h cs]

/-- C90 for `HashTree`. -/
theorem C90_hash_tree (ty : TreeTypes N V) (depth : Nat) (hc : Sane (ty.hashConfig depth))
    (hroom : (ty.hashConfig depth).Room) (cs : List (Ask N V))
    (hd : ShallowAsks ty.hasher ty.encode depth cs [])
    (hfair : FairAsks ty.hasher ty.encode cs [])
    (hcf : CollisionFree ty.hasher (Among (hashedByAsks (ty.hashConfig depth) id cs (HashDB.open N)))) :
    ∃ t, HashTree.new N depth = .ok t ∧ runAsks (HashTree.api ty) cs t = answers ty.hasher ty.encode cs [] := by
  refine ⟨_, rfl, ?_⟩
  refine ((hashTree_hom ty depth).runAsks cs (HashDB.open N)).trans ?_
  exact C90_reference (cfg := ty.hashConfig depth) (C := hashContract N) hc hroom
    (fun s => ⟨rfl, rfl, id⟩) rfl rfl trivial cs hd hfair hcf

/-- C90 for `RocksTree`, with any codec that reads back what it wrote. -/
theorem C90_rocks_tree (ty : TreeTypes N V) {codec : NodeCodec N} (hl : LawfulCodec codec) (depth : Nat)
    (hc : Sane (ty.rocksConfig codec (.reliable N) depth))
    (hroom : (ty.rocksConfig codec (.reliable N) depth).Room) (cs : List (Ask N V))
    (hd : ShallowAsks ty.hasher ty.encode depth cs [])
    (hfair : FairAsks ty.hasher ty.encode cs [])
    (hcf : CollisionFree ty.hasher (Among (hashedByAsks (ty.rocksConfig codec (.reliable N) depth)
      (fun s => RocksDB.new s.decompose) cs (RocksDB.new AMap.empty)))) :
    ∃ t, RocksTree.open (.ok AMap.empty) depth = .ok t ∧
      runAsks (RocksTree.api ty codec (.reliable N)) cs t = answers ty.hasher ty.encode cs [] := by
  refine ⟨_, rfl, ?_⟩
  refine ((rocksTree_hom ty codec (.reliable N) depth).runAsks cs (RocksDB.new AMap.empty)).trans ?_
  exact C90_reference (cfg := ty.rocksConfig codec (.reliable N) depth)
    (C := rocksContract hl (.reliable N)) (s := RocksDB.new AMap.empty)
    (ρ := fun s => RocksDB.new s.decompose) hc hroom (rocks_reopen hl) rfl rfl (rocks_empty hl) cs hd hfair hcf

/-- C90, exactly, for `HashTree`. -/
theorem C90_hash_tree_exact (ty : TreeTypes N V) (depth : Nat) (hc : Sane (ty.hashConfig depth))
    (hroom : (ty.hashConfig depth).Room) (cs : List (Ask N V))
    (hd : ShallowAsks ty.hasher ty.encode depth cs [])
    (hknown : KnownAsks (ty.hashConfig depth) id cs [] [] (HashDB.open N))
    (hcf : CollisionFree ty.hasher (Among (rootInputsOfAsks ty.hasher ty.encode cs [] ++
      hashedByAsks (ty.hashConfig depth) id cs (HashDB.open N)))) :
    ∃ t, HashTree.new N depth = .ok t ∧
      (runAsks (HashTree.api ty) cs t = answers ty.hasher ty.encode cs [] ↔ OpensAsks (ty.hashConfig depth) cs []) := by
  refine ⟨_, rfl, ?_⟩
  rw [(hashTree_hom ty depth).runAsks cs (HashDB.open N)]
  exact C90_reference_exact (cfg := ty.hashConfig depth) (C := hashContract N) hc hroom
    (fun s => ⟨rfl, rfl, id⟩) rfl rfl trivial cs hd hknown hcf

/-- C90, exactly, for `RocksTree`. -/
theorem C90_rocks_tree_exact (ty : TreeTypes N V) {codec : NodeCodec N} (hl : LawfulCodec codec) (depth : Nat)
    (hc : Sane (ty.rocksConfig codec (.reliable N) depth))
    (hroom : (ty.rocksConfig codec (.reliable N) depth).Room) (cs : List (Ask N V))
    (hd : ShallowAsks ty.hasher ty.encode depth cs [])
    (hknown : KnownAsks (ty.rocksConfig codec (.reliable N) depth) (fun s => RocksDB.new s.decompose) cs [] []
      (RocksDB.new AMap.empty))
    (hcf : CollisionFree ty.hasher (Among (rootInputsOfAsks ty.hasher ty.encode cs [] ++
      hashedByAsks (ty.rocksConfig codec (.reliable N) depth) (fun s => RocksDB.new s.decompose) cs
        (RocksDB.new AMap.empty)))) :
    ∃ t, RocksTree.open (.ok AMap.empty) depth = .ok t ∧
      (runAsks (RocksTree.api ty codec (.reliable N)) cs t = answers ty.hasher ty.encode cs [] ↔
        OpensAsks (ty.rocksConfig codec (.reliable N) depth) cs []) := by
  refine ⟨_, rfl, ?_⟩
  rw [(rocksTree_hom ty codec (.reliable N) depth).runAsks cs (RocksDB.new AMap.empty)]
  exact C90_reference_exact (cfg := ty.rocksConfig codec (.reliable N) depth)
    (C := rocksContract hl (.reliable N)) (s := RocksDB.new AMap.empty)
    (ρ := fun s => RocksDB.new s.decompose) hc hroom (rocks_reopen hl) rfl rfl (rocks_empty hl) cs hd hknown hcf

/-- C90 with removals, for `HashTree`. -/
theorem C90_hash_tree_with_removals (ty : TreeTypes N V) (depth : Nat) (hc : Sane (ty.hashConfig depth))
    (hroom : (ty.hashConfig depth).Room) (cs : List (Ask N V))
    (hd : ShallowAsks ty.hasher ty.encode depth cs [])
    (htidy : TidyAsks (ty.hashConfig depth) id cs [] [] (HashDB.open N))
    (hcf : CollisionFree ty.hasher (Among (hashedByAsks (ty.hashConfig depth) id cs (HashDB.open N)))) :
    ∃ t, HashTree.new N depth = .ok t ∧ runAsks (HashTree.api ty) cs t = answers ty.hasher ty.encode cs [] := by
  refine ⟨_, rfl, ?_⟩
  refine ((hashTree_hom ty depth).runAsks cs (HashDB.open N)).trans ?_
  exact C90_reference_with_removals (cfg := ty.hashConfig depth) (C := hashContract N) hc hroom
    ⟨_, hash_writesShow⟩ (fun s => ⟨rfl, rfl, id⟩) rfl rfl trivial cs hd htidy hcf

/-- C90 with removals, for `RocksTree`. -/
theorem C90_rocks_tree_with_removals (ty : TreeTypes N V) {codec : NodeCodec N} (hl : LawfulCodec codec) (depth : Nat)
    (hc : Sane (ty.rocksConfig codec (.reliable N) depth))
    (hroom : (ty.rocksConfig codec (.reliable N) depth).Room) (cs : List (Ask N V))
    (hd : ShallowAsks ty.hasher ty.encode depth cs [])
    (htidy : TidyAsks (ty.rocksConfig codec (.reliable N) depth) (fun s => RocksDB.new s.decompose) cs [] []
      (RocksDB.new AMap.empty))
    (hcf : CollisionFree ty.hasher (Among (hashedByAsks (ty.rocksConfig codec (.reliable N) depth)
      (fun s => RocksDB.new s.decompose) cs (RocksDB.new AMap.empty)))) :
    ∃ t, RocksTree.open (.ok AMap.empty) depth = .ok t ∧
      runAsks (RocksTree.api ty codec (.reliable N)) cs t = answers ty.hasher ty.encode cs [] := by
  refine ⟨_, rfl, ?_⟩
  refine ((rocksTree_hom ty codec (.reliable N) depth).runAsks cs (RocksDB.new AMap.empty)).trans ?_
  exact C90_reference_with_removals (cfg := ty.rocksConfig codec (.reliable N) depth)
    (C := rocksContract hl (.reliable N)) (s := RocksDB.new AMap.empty)
    (ρ := fun s => RocksDB.new s.decompose) hc hroom ⟨_, rocks_writesShow hl (.reliable N)⟩ (rocks_reopen hl) rfl rfl
    (rocks_empty hl) cs hd htidy hcf

end

/-! ## Concrete calls -/

section
variable {N : Nat} {V : Type}

/-- The keys are clear for the pairs: there are none, or at most one key is new. -/
def clearCheck (pairs : List (Arr N × V)) (keys : List (Arr N)) : Bool :=
  pairs.isEmpty || (keys.filter fun k => (mapOf pairs k).isNone).length ≤ 1

/-- The call is fair. -/
def Ask.fairCheck (encode : V → Res (List UInt8)) (book : Book N V) : Ask N V → Bool
  | .insert prev keys values => !inOrder encode keys values || (book.base prev).any fun pairs => clearCheck pairs keys
  | .insertOne prev k v => !inOrder encode [k] [v] || (book.base prev).isSome
  | .get r keys => (book.pairs r).any fun pairs => clearCheck pairs keys
  | .getOne r _ => (book.pairs r).isSome
  | .prove r _ => (book.pairs r).isSome
  | .verify r _ _ _ => (book.pairs r).isSome
  | .reopen => true
  | .dies _ _ _ _ => true
  | .remove _ => false
  | .removeDies _ _ => false

/-- All calls are fair. -/
def fairAsksCheck (H : Hasher N) (encode : V → Res (List UInt8)) : List (Ask N V) → Book N V → Bool
  | [], _ => true
  | c :: cs, book => c.fairCheck encode book && fairAsksCheck H encode cs (c.answer H encode book).2

theorem clear_of_check {pairs : List (Arr N × V)} {keys : List (Arr N)} (h : clearCheck pairs keys = true) :
    Clear (mapOf pairs) keys := by
  unfold clearCheck at h
  rw [Bool.or_eq_true, List.isEmpty_iff, decide_eq_true_eq] at h
  rcases h with rfl | h
  · exact clear_empty keys
  · refine clear_of_one fun k hk k' hk' h1 h2 => ?_
    have m1 : k ∈ keys.filter fun k => (mapOf pairs k).isNone := List.mem_filter.2 ⟨hk, by rw [h1]; rfl⟩
    have m2 : k' ∈ keys.filter fun k => (mapOf pairs k).isNone := List.mem_filter.2 ⟨hk', by rw [h2]; rfl⟩
    match hf : keys.filter (fun k => (mapOf pairs k).isNone), h with
    | [], _ => rw [hf] at m1; cases m1
    | [x], _ =>
      rw [hf] at m1 m2
      rw [List.mem_singleton.1 m1, List.mem_singleton.1 m2]
    | _ :: _ :: _, h => simp at h

theorem fair_of_check {encode : V → Res (List UInt8)} {book : Book N V} {c : Ask N V}
    (h : c.fairCheck encode book = true) : c.Fair encode book := by
  have some_of : ∀ {o : Option (List (Arr N × V))} {f : List (Arr N × V) → Bool}, o.any f = true → ∃ x, o = some x ∧ f x = true := by
    intro o f ho
    cases o with
    | none => cases ho
    | some x => exact ⟨x, rfl, ho⟩
  cases c with
  | insert prev keys values =>
    intro hio
    simp only [Ask.fairCheck, hio, Bool.not_true, Bool.false_or] at h
    obtain ⟨x, h1, h2⟩ := some_of h
    exact ⟨x, h1, clear_of_check h2⟩
  | insertOne prev k v =>
    intro hio
    simp only [Ask.fairCheck, hio, Bool.not_true, Bool.false_or] at h
    exact Option.isSome_iff_exists.1 h
  | get r keys =>
    obtain ⟨x, h1, h2⟩ := some_of h
    exact ⟨x, h1, clear_of_check h2⟩
  | getOne r k => exact Option.isSome_iff_exists.1 h
  | prove r k => exact Option.isSome_iff_exists.1 h
  | verify r k v p => exact Option.isSome_iff_exists.1 h
  | reopen => trivial
  | dies n prev keys values => trivial
  | remove r => cases h
  | removeDies n r => cases h

theorem fairAsks_of_check {H : Hasher N} {encode : V → Res (List UInt8)} : ∀ (cs : List (Ask N V)) (book : Book N V),
    fairAsksCheck H encode cs book = true → FairAsks H encode cs book
  | [], _, _ => trivial
  | c :: cs, book, h => by
    rw [fairAsksCheck, Bool.and_eq_true] at h
    exact ⟨fair_of_check h.1, fairAsks_of_check cs _ h.2⟩

/-- The root was given out before or is from elsewhere. -/
def Book.rootCheck (H : Hasher N) (seen : List (HIn N)) (book : Book N V) (r : Arr N) : Bool :=
  (book.pairs r).isSome || seen.all fun i => i.hash H ≠ r

/-- The roots of the call are so. -/
def Ask.knownCheck (H : Hasher N) (seen : List (HIn N)) (book : Book N V) : Ask N V → Bool
  | .insert prev _ _ => prev.all fun r => book.rootCheck H seen r
  | .insertOne prev _ _ => prev.all fun r => book.rootCheck H seen r
  | .get r _ => book.rootCheck H seen r
  | .getOne r _ => book.rootCheck H seen r
  | .prove r _ => book.rootCheck H seen r
  | .verify r _ _ _ => book.rootCheck H seen r
  | .reopen => true
  | .dies _ _ _ _ => true
  | .remove _ => false
  | .removeDies _ _ => false

theorem Book.root_of_check {H : Hasher N} {seen : List (HIn N)} {book : Book N V} {r : Arr N}
    (h : book.rootCheck H seen r = true) : book.Root H seen r := by
  intro hn i hi
  unfold Book.rootCheck at h
  rw [hn, Option.isSome_none, Bool.false_or, List.all_eq_true] at h
  simpa using h i hi

theorem known_of_check {H : Hasher N} {encode : V → Res (List UInt8)} {seen : List (HIn N)} {book : Book N V} {c : Ask N V}
    (h : c.knownCheck H seen book = true) : c.Known H encode seen book := by
  have opt : ∀ {prev : Option (Arr N)}, (prev.all fun r => book.rootCheck H seen r) = true →
      ∀ r, prev = some r → book.Root H seen r := by
    rintro prev hp r rfl
    exact Book.root_of_check hp
  cases c with
  | insert prev keys values => exact fun _ => opt h
  | insertOne prev k v => exact fun _ => opt h
  | get r keys => exact Book.root_of_check h
  | getOne r k => exact Book.root_of_check h
  | prove r k => exact Book.root_of_check h
  | verify r k v p => exact Book.root_of_check h
  | reopen => trivial
  | dies n prev keys values => trivial
  | remove r => cases h
  | removeDies n r => cases h

/-- All roots were given out before or are from elsewhere. -/
def knownAsksCheck {σ : Type} (cfg : Config N σ V) (ρ : σ → σ) : List (Ask N V) → List (HIn N) → Book N V → σ → Bool
  | [], _, _, _ => true
  | c :: cs, seen, book, s => c.knownCheck cfg.hasher (c.hashed cfg s ++ seen) book &&
      knownAsksCheck cfg ρ cs (c.hashed cfg s ++ seen) (c.answer cfg.hasher cfg.encode book).2 (c.run (cfg.api ρ) s).2

theorem knownAsks_of_check {σ : Type} {cfg : Config N σ V} {ρ : σ → σ} : ∀ (cs : List (Ask N V)) (seen : List (HIn N))
    (book : Book N V) (s : σ), knownAsksCheck cfg ρ cs seen book s = true → KnownAsks cfg ρ cs seen book s
  | [], _, _, _, _ => trivial
  | c :: cs, seen, book, s, h => by
    rw [knownAsksCheck, Bool.and_eq_true] at h
    exact ⟨known_of_check h.1, knownAsks_of_check cs _ _ _ h.2⟩

/-- None of the pairs is in a list of the book. -/
def Book.newCheck [DecidableEq V] (book : Book N V) (keys : List (Arr N)) (values : List V) : Bool :=
  book.all fun e => (keys.zip values).all fun p => mapOf e.2 p.1 ≠ some p.2

/-- The call is tidy: what it inserts is new. -/
def Ask.tidyCheck [DecidableEq V] (H : Hasher N) (encode : V → Res (List UInt8)) (seen : List (HIn N)) (book : Book N V) :
    Ask N V → Bool
  | .insert prev keys values => !inOrder encode keys values || (prev.all fun r => book.rootCheck H seen r) &&
      (book.base prev).all fun pairs => clearCheck pairs keys && book.newCheck keys values
  | .insertOne prev k v => !inOrder encode [k] [v] || (prev.all fun r => book.rootCheck H seen r) &&
      (book.base prev).all fun _ => book.newCheck [k] [v]
  | .dies _ prev keys values => keys.length = values.length && keys.Nodup && (book.base prev).any fun pairs =>
      clearCheck pairs keys && book.newCheck keys values
  | .remove r => (book.pairs r).isSome
  | .removeDies _ r => (book.pairs r).isSome
  | .get r keys => book.rootCheck H seen r && (book.pairs r).all fun pairs => clearCheck pairs keys
  | c => c.knownCheck H seen book

/-- All calls are tidy. -/
def tidyAsksCheck [DecidableEq V] {σ : Type} (cfg : Config N σ V) (ρ : σ → σ) :
    List (Ask N V) → List (HIn N) → Book N V → σ → Bool
  | [], _, _, _ => true
  | c :: cs, seen, book, s => c.tidyCheck cfg.hasher cfg.encode (c.hashed cfg s ++ seen) book &&
      tidyAsksCheck cfg ρ cs (c.hashed cfg s ++ seen) (c.answer cfg.hasher cfg.encode book).2 (c.run (cfg.api ρ) s).2

theorem Book.fresh_of_new [DecidableEq V] {book : Book N V} {keys : List (Arr N)} {values : List V}
    (hlen : keys.length = values.length) (hnd : keys.Nodup) (h : book.newCheck keys values = true)
    (pairs : List (Arr N × V)) : book.Fresh pairs keys values := by
  rintro e he ⟨k, hk, d, ⟨k', -, hd, -⟩, hag⟩
  have hz : (keys.zip values).map Prod.fst = keys := List.map_fst_zip (by omega)
  rw [← hz] at hk
  obtain ⟨p, hp, rfl⟩ := List.mem_map.1 hk
  have h5 := hag p.1 (by
    rw [firstDiff_self]
    exact Nat.le_trans hd (firstDiff_le _ _))
  rw [assign_mem _ hlen hnd hp] at h5
  have := List.all_eq_true.1 (List.all_eq_true.1 h e he) p hp
  exact absurd h5 (by simpa using this)

theorem tidy_of_check [DecidableEq V] {H : Hasher N} {encode : V → Res (List UInt8)} {seen : List (HIn N)} {book : Book N V}
    {c : Ask N V} (h : c.tidyCheck H encode seen book = true) : c.Tidy H encode seen book := by
  have some_of : ∀ {o : Option (List (Arr N × V))} {f : List (Arr N × V) → Bool}, o.any f = true → ∃ x, o = some x ∧ f x = true := by
    intro o f ho
    cases o with
    | none => cases ho
    | some x => exact ⟨x, rfl, ho⟩
  have all_of : ∀ {o : Option (List (Arr N × V))} {f : List (Arr N × V) → Bool}, o.all f = true →
      ∀ x, o = some x → f x = true := by
    rintro o f ho x rfl
    exact ho
  have opt : ∀ {prev : Option (Arr N)}, (prev.all fun r => book.rootCheck H seen r) = true →
      ∀ r, prev = some r → book.Root H seen r := by
    rintro prev hp r rfl
    exact Book.root_of_check hp
  cases c with
  | insert prev keys values =>
    intro hio
    simp only [Ask.tidyCheck, hio, Bool.not_true, Bool.false_or] at h
    rw [Bool.and_eq_true] at h
    obtain ⟨h3, -, h4, -⟩ := inOrder_iff.1 hio
    refine ⟨opt h.1, fun x hx => ?_⟩
    have h2 := all_of h.2 x hx
    rw [Bool.and_eq_true] at h2
    exact ⟨clear_of_check h2.1, Book.fresh_of_new h3 h4 h2.2 x⟩
  | insertOne prev k v =>
    intro hio
    simp only [Ask.tidyCheck, hio, Bool.not_true, Bool.false_or] at h
    rw [Bool.and_eq_true] at h
    exact ⟨opt h.1, fun x hx => Book.fresh_of_new (keys := [k]) (values := [v]) rfl (List.nodup_singleton k) (all_of h.2 x hx) x⟩
  | get r keys =>
    simp only [Ask.tidyCheck] at h
    rw [Bool.and_eq_true] at h
    exact ⟨Book.root_of_check h.1, fun x hx => clear_of_check (all_of h.2 x hx)⟩
  | getOne r k => exact Book.root_of_check h
  | prove r k => exact Book.root_of_check h
  | verify r k v p => exact Book.root_of_check h
  | reopen => trivial
  | dies n prev keys values =>
    simp only [Ask.tidyCheck, Bool.and_eq_true, decide_eq_true_eq] at h
    obtain ⟨⟨h3, h4⟩, h⟩ := h
    obtain ⟨x, h1, h2⟩ := some_of h
    rw [Bool.and_eq_true] at h2
    exact ⟨h4, x, h1, clear_of_check h2.1, Book.fresh_of_new h3 h4 h2.2 x⟩
  | remove r => exact Option.isSome_iff_exists.1 h
  | removeDies n r => exact Option.isSome_iff_exists.1 h

theorem tidyAsks_of_check [DecidableEq V] {σ : Type} {cfg : Config N σ V} {ρ : σ → σ} :
    ∀ (cs : List (Ask N V)) (seen : List (HIn N)) (book : Book N V) (s : σ), tidyAsksCheck cfg ρ cs seen book s = true →
      TidyAsks cfg ρ cs seen book s
  | [], _, _, _, _ => trivial
  | c :: cs, seen, book, s, h => by
    rw [tidyAsksCheck, Bool.and_eq_true] at h
    exact ⟨tidy_of_check h.1, tidyAsks_of_check cs _ _ _ h.2⟩

end

namespace Toy

/-- What the reference program gives out for the keys 1, 2 and 0x8000. -/
def refRoot1 : Arr 2 := (sparseRoot cfg.hasher (ks1.zip vs1)).getD (key 0)
/-- And with 5 put in, and 2 changed. -/
def refRoot2 : Arr 2 := (sparseRoot cfg.hasher sparse2).getD (key 0)

/-- Inserts that are refused, that die and that succeed, reads of both versions, proofs, one of them forged. -/
def refCalls : List (Ask 2 (List UInt8)) :=
  [.insert none [key 1, key 1] [[0], [0]],
   .insert none ks1 vs1,
   .dies 3 (some refRoot1) [key 9, key 17] [[9], [17]],
   .insert (some refRoot1) ks2 vs2,
   .getOne refRoot1 (key 2),
   .getOne refRoot2 (key 2),
   .reopen,
   .get refRoot2 [key 1, key 5, key 7],
   .prove refRoot2 (key 5),
   .prove refRoot1 (key 5),
   .verify refRoot2 (key 5) [50] (sparseProof cfg.hasher sparse2 (key 5) [50]),
   .verify refRoot2 (key 5) [51] (sparseProof cfg.hasher sparse2 (key 5) [50]),
   .verify refRoot2 (key 5) [50] ((sparseProof cfg.hasher sparse2 (key 5) [50]).dropLast),
   .insertOne (some refRoot2) (key 7) [70]]

/-- Their answers. -/
def refAnswers : List (Said 2 (List UInt8)) :=
  [.refused, .root refRoot1, .nothing, .root refRoot2, .value (some [20]), .value (some [21]), .nothing,
   .values [some (some [10]), some (some [50]), some none],
   .proof (sparseProof cfg.hasher sparse2 (key 5) [50]), .refused, .accepted, .refused, .refused,
   .root ((sparseRoot cfg.hasher (putPairs sparse2 [(key 7, [70])])).getD (key 0))]

/-- The reference program gives them. -/
theorem ref_answers : answers cfg.hasher cfg.encode refCalls [] = refAnswers := by decide +kernel

theorem levels (cs : List (Ask 2 (List UInt8))) : ShallowAsks cfg.hasher cfg.encode cfg.depth cs [] :=
  shallow_of_bits (by decide) cs []

theorem ref_fair : FairAsks cfg.hasher cfg.encode refCalls [] := fairAsks_of_check _ _ (by decide +kernel)

/-- The hypotheses of `C90_reference` are met. -/
example : runAsks (cfg.api id) refCalls db0 = refAnswers :=
  (C90_reference (C := C) sane room (fun s => ⟨rfl, rfl, id⟩) rfl rfl (alive _) refCalls (levels _) ref_fair
    (collisionFree_of_check (by decide +kernel))).trans ref_answers

/-- The same for the trees. -/
example : ∃ t, HashTree.new 2 17 = .ok t ∧ runAsks (HashTree.api types) refCalls t = refAnswers := by
  obtain ⟨t, h1, h2⟩ := C90_hash_tree types 17 sane room refCalls (levels _) ref_fair
    (collisionFree_of_check (by decide +kernel))
  exact ⟨t, h1, h2.trans ref_answers⟩
example : ∃ t, RocksTree.open (.ok AMap.empty) 17 = .ok t ∧
    runAsks (RocksTree.api types ToyCodec.codec (.reliable 2)) refCalls t = refAnswers := by
  obtain ⟨t, h1, h2⟩ := C90_rocks_tree types ToyCodec.lawful 17 ⟨sane.1, sane.2, sane.3⟩ room refCalls (levels _) ref_fair
    (collisionFree_of_check (by decide +kernel))
  exact ⟨t, h1, h2.trans ref_answers⟩

/-- And with fewer levels than key bits. -/
example : ∃ t, HashTree.new 2 5 = .ok t ∧ runAsks (HashTree.api types) refCalls t = refAnswers := by
  obtain ⟨t, h1, h2⟩ := C90_hash_tree types 5 ⟨sane.1, sane.2, sane.3⟩ (by unfold Config.Room isizeMax; decide) refCalls
    (shallow_of_check _ _ (by decide +kernel)) ref_fair (collisionFree_of_check (by decide +kernel))
  exact ⟨t, h1, h2.trans ref_answers⟩

/-- A batch that straddles a branch of the first version, and opens every place all the same; and calls with a root from
elsewhere. -/
def threeCalls : List (Ask 2 (List UInt8)) :=
  [.insert none ([0x80, 0xC0].map key) [[1], [2]],
   .insert (some (key 99)) [key 5, key 6] [[0], [0]],
   .insert (some (key 35239)) ([0, 0xC0, 0x100].map key) [[3], [4], [5]],
   .getOne (key 35239) (key 0xC0),
   .get (key 99) [key 1, key 0xC0],
   .prove (key 99) (key 0xC0),
   .verify (key 99) (key 0xC0) [2] (sparseProof cfg.hasher [(key 0x80, [1]), (key 0xC0, [2])] (key 0xC0) [2])]

theorem three_known : KnownAsks cfg id threeCalls [] [] db0 := knownAsks_of_check _ _ _ _ (by decide +kernel)

theorem three_opens : OpensAsks cfg threeCalls [] := by
  have h : mapOf (putPairs [] (([0x80, 0xC0].map key).zip [[1], [2]])) = twoM := mapOf_put (pairs := []) rfl
  refine ⟨fun _ pairs hp => ?_, fun _ pairs hp => ?_, fun _ pairs hp => ?_, trivial, fun pairs hp => ?_, trivial, trivial,
    trivial⟩
  · cases hp
    exact handled_empty _
  · exact absurd (hp.symm.trans (by decide +kernel : _ = none)) (by simp)
  · have : pairs = putPairs [] (([0x80, 0xC0].map key).zip [[1], [2]]) := by
      apply Option.some.inj
      rw [← hp]
      decide +kernel
    rw [this]
    exact h ▸ three_handled
  · exact absurd (hp.symm.trans (by decide +kernel : _ = none)) (by simp)

/-- The hypotheses of `C90_reference_exact` are met, and its condition. -/
example : runAsks (cfg.api id) threeCalls db0 =
    [.root (key 35239), .refused, .root ((sparseRoot cfg.hasher (putPairs [(key 0x80, [1]), (key 0xC0, [2])]
      (([0, 0xC0, 0x100].map key).zip [[3], [4], [5]]))).getD (key 0)), .value (some [2]), .values [some none, some none],
      .refused, .refused] :=
  ((C90_reference_exact (C := C) sane room (fun s => ⟨rfl, rfl, id⟩) rfl rfl (alive _) _ (levels _) three_known
    (collisionFree_of_check (by decide +kernel))).2 three_opens).trans (by decide +kernel)

/-- The same for the trees. -/
example : ∃ t, HashTree.new 2 17 = .ok t ∧
    runAsks (HashTree.api types) threeCalls t = answers cfg.hasher cfg.encode threeCalls [] := by
  obtain ⟨t, h1, h2⟩ := C90_hash_tree_exact types 17 sane room threeCalls (levels _) three_known
    (collisionFree_of_check (by decide +kernel))
  exact ⟨t, h1, h2.2 three_opens⟩
example : ∃ t, RocksTree.open (.ok AMap.empty) 17 = .ok t ∧
    (runAsks (RocksTree.api types ToyCodec.codec (.reliable 2)) threeCalls t = answers cfg.hasher cfg.encode threeCalls [] ↔
      OpensAsks (types.rocksConfig ToyCodec.codec (.reliable 2) 17) threeCalls []) :=
  C90_rocks_tree_exact types ToyCodec.lawful 17 ⟨sane.1, sane.2, sane.3⟩ room threeCalls (levels _)
    (knownAsks_of_check _ _ _ _ (by decide +kernel))
    (collisionFree_of_check (by decide +kernel))

/-- A read and an insert that leave a place closed where one of their keys belongs. -/
def fourCalls : List (Ask 2 (List UInt8)) :=
  [.insert none ([0x80, 0xC0].map key) [[1], [2]],
   .get (key 35239) ([0x40, 0x80, 0xC0, 0x100].map key)]
@[inherit_doc fourCalls]
def lossCalls : List (Ask 2 (List UInt8)) :=
  [.insert none ([0x80, 0x90, 0xA0, 0xC0].map key) [[1], [2], [3], [4]],
   .insert (some (key 31137)) ([0x40, 0x90, 0xC0, 0x100].map key) [[5], [6], [7], [8]]]

/-- Its condition is not met here, as the answers show. -/
example : ¬ OpensAsks cfg fourCalls [] := fun h =>
  absurd ((C90_reference_exact (C := C) (ρ := id) sane room (fun s => ⟨rfl, rfl, id⟩) rfl rfl (alive db0) fourCalls (levels _)
    (knownAsks_of_check _ _ _ _ (by decide +kernel))
    (collisionFree_of_check (by decide +kernel))).2 h) (by decide +kernel)
example : ¬ OpensAsks cfg lossCalls [] := fun h =>
  absurd ((C90_reference_exact (C := C) (ρ := id) sane room (fun s => ⟨rfl, rfl, id⟩) rfl rfl (alive db0) lossCalls (levels _)
    (knownAsks_of_check _ _ _ _ (by decide +kernel))
    (collisionFree_of_check (by decide +kernel))).2 h) (by decide +kernel)

/-- Three versions; the first and the second are removed, the second by a process that dies.  Some calls have a root from
elsewhere. -/
def strikeCalls : List (Ask 2 (List UInt8)) :=
  [.insert none ks1 vs1,
   .insert (some refRoot1) ks2 vs2,
   .insertOne (some refRoot2) (key 7) [70],
   .insert (some refRoot1) [key 1, key 1] [[0], [0]],
   .remove refRoot1,
   .getOne refRoot2 (key 1),
   .dies 2 (some refRoot2) [key 9] [[9]],
   .removeDies 1 refRoot2,
   .insert (some (key 99)) [key 3, key 4] [[3], [4]],
   .get (key 99) [key 1],
   .getOne refRoot3 (key 1),
   .prove refRoot3 (key 5)]
where
  refRoot3 : Arr 2 := (sparseRoot cfg.hasher (putPairs sparse2 [(key 7, [70])])).getD (key 0)

theorem strike_tidy : TidyAsks cfg id strikeCalls [] [] db0 := tidyAsks_of_check _ _ _ _ (by decide +kernel)

/-- The hypotheses of `C90_reference_with_removals` are met. -/
example : runAsks (cfg.api id) strikeCalls db0 =
    [.root refRoot1, .root refRoot2, .root strikeCalls.refRoot3, .refused, .removed, .value (some [10]), .nothing,
      .nothing, .refused, .values [some none], .value (some [10]),
      .proof (sparseProof cfg.hasher (putPairs sparse2 [(key 7, [70])]) (key 5) [50])] :=
  (C90_reference_with_removals (C := C) sane room ⟨_, hash_writesShow⟩ (fun s => ⟨rfl, rfl, id⟩) rfl rfl (alive _)
    _ (levels _) strike_tidy (collisionFree_of_check (by decide +kernel))).trans (by decide +kernel)

/-- The same for the trees. -/
example : ∃ t, HashTree.new 2 17 = .ok t ∧ runAsks (HashTree.api types) strikeCalls t =
    answers cfg.hasher cfg.encode strikeCalls [] :=
  C90_hash_tree_with_removals types 17 sane room _ (levels _) strike_tidy (collisionFree_of_check (by decide +kernel))
example : ∃ t, RocksTree.open (.ok AMap.empty) 17 = .ok t ∧
    runAsks (RocksTree.api types ToyCodec.codec (.reliable 2)) strikeCalls t =
      answers cfg.hasher cfg.encode strikeCalls [] :=
  C90_rocks_tree_with_removals types ToyCodec.lawful 17 ⟨sane.1, sane.2, sane.3⟩ room strikeCalls (levels _)
    (tidyAsks_of_check _ _ _ _ (by decide +kernel)) (collisionFree_of_check (by decide +kernel))

/-- The root of 1 and 2, and the root with 0x8000. -/
def againRoot1 : Arr 2 := (sparseRoot cfg.hasher [(key 1, [10]), (key 2, [20])]).getD (key 0)
def againRoot2 : Arr 2 := (sparseRoot cfg.hasher [(key 1, [10]), (key 2, [20]), (key 0x8000, [30])]).getD (key 0)

/-- A pair is put in that is there, and a version removed. -/
def againCalls : List (Ask 2 (List UInt8)) :=
  [.insert none [key 1, key 2] [[10], [20]], .insertOne (some againRoot1) (key 0x8000) [30],
    .insertOne (some againRoot2) (key 1) [10], .remove againRoot1, .getOne againRoot2 (key 1)]

end Toy

/-- The condition on inserts is needed: where a pair is put in again that is there, the crate answers otherwise after a
removal. -/
theorem C90_again_differs : ∃ cs : List (Ask 2 (List UInt8)),
    CollisionFree Toy.cfg.hasher (Among (hashedByAsks Toy.cfg id cs Toy.db0)) ∧
    answers Toy.cfg.hasher Toy.cfg.encode cs [] =
      [.root Toy.againRoot1, .root Toy.againRoot2, .root Toy.againRoot2, .removed, .value (some [10])] ∧
    runAsks (Toy.cfg.api id) cs Toy.db0 =
      [.root Toy.againRoot1, .root Toy.againRoot2, .root Toy.againRoot2, .removed, .value none] :=
  ⟨Toy.againCalls, collisionFree_of_check (by decide +kernel), by decide +kernel, by decide +kernel⟩

end MerkleBit
