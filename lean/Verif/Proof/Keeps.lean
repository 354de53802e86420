import Verif.Spec.Leftover
import Verif.Proof.Leftover
/-! # Exact counts with what repeated pairs leave behind -/

namespace MerkleBit
variable {N : Nat} {σ V : Type} {cfg : Config N σ V} {C : DbContract cfg.db} {U : HIn N → Prop}
  {shows : Bool}

/-- Everything honest is an item in its place. -/
theorem Belongs.item {H : Hasher N} {x : Arr N} {c : Variant N} (h : Belongs H U x c) :
    ∃ i : Item N, i.Ok H U ∧ i.loc H = x := by
  rcases h with ⟨k, v, hx, _, hk⟩ | ⟨t, hn, hx, _, ht⟩
  · exact ⟨.data k v, hk, hx.symm⟩
  · exact ⟨.tree t, ⟨hn, ht⟩, hx.symm⟩

theorem mem_entries_iff {T : Trie N} {M : Contents N V} (hT : T.WF) (hM : Represents cfg T M)
    {e : Arr N × List UInt8} : e ∈ T.entries ↔ M.Has cfg e.1 e.2 := by
  have h1 : e ∈ T.entries ↔ T.lookup e.1 = some e.2 := (Trie.lookup_eq_some_iff hT).symm
  rw [h1]
  have h := hM e.1
  unfold Contents.Has
  cases hm : M e.1 with
  | none =>
    rw [hm] at h
    have h : T.lookup e.1 = none := h
    simp [h]
  | some v =>
    rw [hm] at h
    obtain ⟨b, hb, h⟩ := h
    rw [h]
    constructor
    · intro he
      cases he
      exact ⟨v, rfl, hb⟩
    · rintro ⟨v', hv', hb'⟩
      cases hv'
      rw [hb] at hb'
      cases hb'
      rfl

theorem blocksOf_kept (hN : 0 < N) {pp : PartitionPoint N} (hpp : pp.Lawful) {keys : List (Arr N)}
    (hne : keys ≠ []) {f : Arr N → List UInt8} {prev : Option (Trie N)} (hb : BatchOk pp keys prev) :
    (blocksOf pp (sortKeys keys) f prev).Perm
      ((keys.map (fun k => (k, f k))).map (fun e => .leaf e.1 e.2) ++ keptOf pp keys prev) := by
  have hl : (leaves (sortKeys keys) f).Perm ((keys.map (fun k => (k, f k))).map (fun e => .leaf e.1 e.2)) := by
    unfold leaves
    rw [List.map_map]
    exact (sortKeys_perm keys).map _
  cases prev with
  | none => simpa [blocksOf, keptOf] using hl
  | some T =>
    rw [keptOf_trav hN hpp hne (hb T rfl).1]
    exact hl.append_right _

theorem encodedPairs_nodup {keys : List (Arr N)} {values : List V}
    (hlen : keys.length = values.length) (hnd : keys.Nodup) :
    (encodedPairs cfg keys values).Nodup := by
  have hz : ((keys.zip values).map Prod.fst).Nodup := by rw [zip_keys hlen]; exact hnd
  unfold encodedPairs
  generalize keys.zip values = l at hz
  induction l with
  | nil => simp
  | cons e l ih =>
    rw [List.map_cons, List.nodup_cons] at hz
    rw [List.filterMap_cons]
    split
    · exact ih hz.2
    · next b hb =>
      refine List.nodup_cons.2 ⟨?_, ih hz.2⟩
      intro hmem
      obtain ⟨e', he', hb'⟩ := List.mem_filterMap.1 hmem
      have h1 : b.1 = e.1 := by
        split at hb
        · cases hb; rfl
        · cases hb
      have h2 : b.1 = e'.1 := by
        split at hb'
        · cases hb'; rfl
        · cases hb'
      exact hz.1 (h1 ▸ h2 ▸ List.mem_map_of_mem he')

/-- One careful insert: the counts are exact again, with what is left over. -/
theorem insert_keeps (hN : 0 < N) (hpp : cfg.pp.Lawful) (hcod : RoundTrip cfg)
    (hU : CollisionFree cfg.hasher U) (hsh : WritesShow C shows) {L : Ledger N V} {P : List (Item N)}
    {s s' : σ} {prev : Option (Arr N)} {M : Contents N V} {keys : List (Arr N)} {values : List V}
    {r : Arr N} (hc : Careful cfg C False L s prev M keys values)
    (hin : ∀ i ∈ hashedBy cfg prev keys values s, U i)
    (hL : ∀ e ∈ L, ∃ T, Accounted cfg U e T) (hP : ∀ i ∈ P, i.Ok cfg.hasher U)
    (hPn : ∀ i ∈ P, ∀ l r, i ≠ .tree (.node l r))
    (hs : Acct cfg.hasher U True (C.view s) (L.map Prod.fst ++ P.map (Item.loc cfg.hasher)))
    (hp : C.pending s = View.empty N) (hs' : InPlace C U s')
    (hrun : insert cfg prev keys values s = (.ok r, s')) :
    (∃ T, Accounted cfg U (r, M.assign keys values) T) ∧
      (∀ i ∈ leftBy cfg shows L P M keys values, i.Ok cfg.hasher U ∧ ∀ l r, i ≠ .tree (.node l r)) ∧
      Acct cfg.hasher U True (C.view s') (r :: (L.map Prod.fst ++
        (leftBy cfg shows L P M keys values ++ P).map (Item.loc cfg.hasher))) ∧
      C.pending s' = View.empty N := by
  classical
  have hne0 : keys ≠ [] := by
    rintro rfl
    unfold insert at hrun
    split at hrun
    · cases hrun
    · simp only [List.isEmpty_nil, Bool.true_or, if_true] at hrun
      cases hrun
  have : Nonempty (Trie N) := by
    cases keys with
    | nil => exact absurd rfl hne0
    | cons k _ => exact ⟨.leaf k []⟩
  choose! g hg using hL
  have hmap : L.map Prod.fst = (L.map (fun e => Item.tree (g e))).map (Item.loc cfg.hasher) := by
    rw [List.map_map]
    apply List.map_congr_left
    intro e he
    exact (hg e he).loc.symm
  obtain ⟨pt, hprev, hpt, hM⟩ : ∃ pt : Option (Trie N), prev = pt.map (·.loc cfg.hasher) ∧
      (∀ T, pt = some T → (∃ e ∈ L, T.Sub (g e)) ∧ T.WF ∧ (∀ i ∈ T.inputs cfg.hasher, U i) ∧ Represents cfg T M) ∧
      ∀ k, Encodes cfg (M k) (lookupO pt k) := by
    have := hc.prev
    cases prev with
    | none =>
      simp only [Ledger.Base] at this
      subst this
      exact ⟨none, rfl, by simp, fun k => by simp [Contents.empty, lookupO, Encodes]⟩
    | some r =>
      rcases this with he | ⟨e, he, hp, T, h1, h2, -, h4⟩
      · have h := hg _ he
        refine ⟨some (g (r, M)), by simp [h.loc], ?_, fun k => by simpa [lookupO] using h.rep k⟩
        rintro T hT
        cases hT
        exact ⟨⟨_, he, Trie.Sub.refl _⟩, h.wf, h.inputs, h.rep⟩
      · refine ⟨some T, by simp [h2], ?_, fun k => by simpa [lookupO] using h4 k⟩
        rintro T' hT'
        cases hT'
        have hsub := sub_of_partOf h1 (hg e he).wf h4 (hg e he).rep hp
        exact ⟨⟨_, he, hsub⟩, h1, fun i hi => (hg e he).inputs i (hsub.inputs i hi), h4⟩
  have hfine : BatchFine keys pt := by
    intro T hT
    obtain ⟨-, h1, -, h3⟩ := hpt T hT
    exact ⟨h1, hc.straddle T h1 h3⟩
  have hhandled : prev ≠ none → Handled cfg M keys := by
    intro hpn k hk T hT hTM
    cases pt with
    | none => exact absurd hprev hpn
    | some T0 =>
      obtain ⟨-, h1, -, h3⟩ := hpt T0 rfl
      have := Represents.unique hT h1 hTM h3
      subst this
      exact ((hfine.ok hN hpp) T rfl).2 k hk
  obtain ⟨hpend, hlen, hne, hnd, hbatch, hall, T', ⟨ts, hasm, hperm⟩, h1, h2, h3, h4, hcnt⟩ :=
    insert_tally_parts (pt := pt) hN hpp hU hsh hin ⟨hs.honest, hp ▸ Honest.empty _ _⟩ hp
      ⟨hprev, fun T hT => (hpt T hT).2, hM⟩ hhandled hrun
  have hT' : Accounted cfg U (r, M.assign keys values) T' := ⟨h1, h2, h3, h4⟩
  set live : List (Item N) := L.map (fun e => Item.tree (g e)) ++ P with hlivedef
  have hlive : ∀ q ∈ live, q.Ok cfg.hasher U := by
    intro q hq
    rcases List.mem_append.1 hq with hq | hq
    · obtain ⟨e, he, rfl⟩ := List.mem_map.1 hq
      exact (hg e he).ok
    · exact hP q hq
  have hroots : L.map Prod.fst ++ P.map (Item.loc cfg.hasher) = live.map (Item.loc cfg.hasher) := by
    rw [hmap, ← List.map_append]
  rw [hroots] at hs
  -- what is reachable
  have hreachTree : ∀ u : Trie N, Reach Item.children live (.tree u) ↔
      (∃ e ∈ L, u.Sub (g e)) ∨ Reach Item.children P (.tree u) := by
    intro u
    rw [hlivedef, Reach.append]
    refine or_congr ?_ Iff.rfl
    constructor
    · intro h
      have key : ∀ j, Reach Item.children (L.map (fun e => Item.tree (g e))) j →
          ∃ e ∈ L, Reach Item.children [.tree (g e)] j := by
        intro j hj
        induction hj with
        | root hx =>
          obtain ⟨e, he, rfl⟩ := List.mem_map.1 hx
          exact ⟨e, he, .root (by simp)⟩
        | child _ hy ih =>
          obtain ⟨e, he, h⟩ := ih
          exact ⟨e, he, .child h hy⟩
      obtain ⟨e, he, h⟩ := key _ h
      exact ⟨e, he, reach_subtree.1 h⟩
    · rintro ⟨e, he, h⟩
      refine (reach_subtree.2 h).subset ?_
      intro i hi
      rw [List.mem_singleton.1 hi]
      exact List.mem_map_of_mem (f := fun e => Item.tree (g e)) he
  have hreachP : ∀ j : Item N, Reach Item.children P j →
      (∀ l r, j ≠ .tree (.node l r)) ∧ ∀ k v, j = .tree (.leaf k v) → j ∈ P := by
    intro j hj
    induction hj with
    | root hx => exact ⟨hPn _ hx, fun _ _ _ => hx⟩
    | @child x y _ hy ih =>
      cases y with
      | data k v => simp [Item.children] at hy
      | tree t =>
        cases t with
        | leaf k v =>
          simp only [Item.children, List.mem_singleton] at hy
          subst hy
          simp
        | node l r => exact absurd rfl (ih.1 l r)
  let st : Arr N × List UInt8 → Prop := fun e =>
    (∃ x ∈ L, x.2.Has cfg e.1 e.2) ∨ .tree (.leaf e.1 e.2) ∈ P
  let twice : Arr N × List UInt8 → Prop := fun e => shows = true ∧ M.Has cfg e.1 e.2
  have hst : ∀ e, st e ↔ Reach Item.children live (.tree (.leaf e.1 e.2)) := by
    intro e
    rw [hreachTree]
    refine or_congr ?_ ?_
    · constructor
      · rintro ⟨x, hx, h⟩
        exact ⟨x, hx, Trie.Sub.of_entry ((mem_entries_iff (hg x hx).wf (hg x hx).rep).2 h)⟩
      · rintro ⟨x, hx, h⟩
        refine ⟨x, hx, (mem_entries_iff (hg x hx).wf (hg x hx).rep).1 (h.entries.subset ?_)⟩
        simp [Trie.entries]
    · exact ⟨.root, fun h => (hreachP _ h).2 _ _ rfl⟩
  have hpairs : ∀ e, (∃ T ∈ pt, e ∈ T.entries) ↔ M.Has cfg e.1 e.2 := by
    intro e
    cases pt with
    | some T =>
      obtain ⟨-, h1, -, h3⟩ := hpt T rfl
      simp [mem_entries_iff h1 h3]
    | none =>
      simp only [Option.mem_def, reduceCtorEq, false_and, exists_false, false_iff]
      rintro ⟨v, hv, -⟩
      have := hM e.1
      rw [hv] at this
      obtain ⟨b, -, hb⟩ := this
      simp [lookupO] at hb
  have htw : ∀ e, twice e → st e := by
    rintro e ⟨-, h⟩
    obtain ⟨T, hT, he⟩ := (hpairs e).2 h
    obtain ⟨⟨x, hx, hgx⟩, -⟩ := hpt T hT
    refine .inl ⟨x, hx, (mem_entries_iff (hg x hx).wf (hg x hx).rep).1 (hgx.entries.subset he)⟩
  have hag : ∀ e, (if ∃ T ∈ pt, e ∈ T.entries then againOf shows else 1) = if twice e then 2 else 1 := by
    intro e
    simp only [hpairs, twice]
    cases shows <;> simp [againOf]
  -- the leftovers
  have hleft : leftBy cfg shows L P M keys values =
      (encodedPairs cfg keys values).flatMap (leftFor st twice) := by
    unfold leftBy
    congr 1
    funext e
    unfold leftFor
    congr
  have hleafok : ∀ e ∈ encodedPairs cfg keys values, TreeOk cfg.hasher U (.leaf e.1 e.2) := fun e he =>
    ⟨trivial, fun i hi => hin i (mem_hashedBy he i hi)⟩
  have hleftOk : ∀ i ∈ leftBy cfg shows L P M keys values,
      i.Ok cfg.hasher U ∧ ∀ l r, i ≠ .tree (.node l r) := by
    intro i hi
    rw [hleft] at hi
    have hi' : i ∈ (encodedPairs cfg keys values).flatMap
        (fun e => .tree (.leaf e.1 e.2) :: leftFor st twice e) := by
      obtain ⟨e, he, h⟩ := List.mem_flatMap.1 hi
      exact List.mem_flatMap.2 ⟨e, he, List.mem_cons_of_mem _ h⟩
    refine ⟨left_ok hleafok i hi', ?_⟩
    rintro l r rfl
    obtain ⟨e, _, h | h⟩ := reach_left (.root hi') <;> cases h
  have hesPerm : (keys.map (fun k => (k, encOf cfg keys values k))).Perm (encodedPairs cfg keys values) := by
    refine (List.perm_ext_iff_of_nodup ?_ (encodedPairs_nodup hlen hnd)).2 (mem_encodedPairs hlen hnd hall)
    exact hnd.map (fun a b h => congrArg Prod.fst h)
  have hload : ∀ j : Item N, j.Ok cfg.hasher U →
      itemLoad cfg.hasher U (.tree T' :: ((encodedPairs cfg keys values).flatMap (leftFor st twice) ++ live)) j =
        countsOf cfg.hasher (C.view s') j := by
    intro j hj
    rw [hcnt j hj]
    have hc0 : ∀ i, countsOf cfg.hasher (C.view s) i = itemLoad cfg.hasher U live i := by
      intro i
      rw [countsOf_eq]
      exact hs.eq trivial _
    have hc1 : countsOf cfg.hasher (C.view s) = itemLoad cfg.hasher U live := funext hc0
    rw [hc1]
    refine itemLoad_batch hU hlive
      (hperm.trans ((blocksOf_kept hN hpp hne hbatch).trans ((hesPerm.map _).append_right _)))
      hasm.joins hT'.ok (h1.sorted.imp Arr.ne_of_lt) hasm.entries hasm.sub ?_ ?_ (fun e _ => hst e) htw
      (fun e => by rw [hag e]; congr) hj
    · intro t ht
      rw [hreachTree]
      cases pt with
      | none => simp [keptOf] at ht
      | some T =>
        obtain ⟨⟨e, he, hge⟩, -⟩ := hpt T rfl
        rw [keptOf_trav hN hpp hne (hbatch T rfl).1] at ht
        exact .inl ⟨e, he, Trie.Sub.trans (trav_sub _ _ _ ht) hge⟩
    · intro l r hsub hno hr
      rw [hreachTree] at hr
      rcases hr with ⟨e, he, hr⟩ | hr
      · have hnot : ∀ b ∈ blocksOf cfg.pp (sortKeys keys) (encOf cfg keys values) pt,
            ¬ (Trie.node l r).Sub b := by
          intro b hb
          rcases List.mem_append.1 ((blocksOf_kept hN hpp hne hbatch).mem_iff.1 hb) with hb | hb
          · obtain ⟨x, _, rfl⟩ := List.mem_map.1 hb
            simp [Trie.Sub]
          · exact hno b hb
        obtain ⟨k, hk, hku⟩ := written_has_key hN hpp hne hc.distinct hfine hperm hasm hsub hnot
        exact hc.fresh e he (rewrites_of_sub hcod (hg e he).wf h1 (hg e he).rep h4 hr hsub hk hku)
      · exact (hreachP _ hr).1 l r rfl
  have hroots' : (r :: (L.map Prod.fst ++ (leftBy cfg shows L P M keys values ++ P).map (Item.loc cfg.hasher))).Perm
      ((.tree T' :: ((encodedPairs cfg keys values).flatMap (leftFor st twice) ++ live)).map
        (Item.loc cfg.hasher)) := by
    rw [List.map_cons, hleft, hmap, ← List.map_append, ← h2]
    refine List.Perm.cons _ (List.Perm.map _ ?_)
    rw [hlivedef, ← List.append_assoc, ← List.append_assoc]
    exact List.perm_append_comm.append_right _
  have hallok : ∀ q ∈ Item.tree T' :: ((encodedPairs cfg keys values).flatMap (leftFor st twice) ++ live),
      q.Ok cfg.hasher U := by
    intro q hq
    rcases List.mem_cons.1 hq with rfl | hq
    · exact hT'.ok
    · rcases List.mem_append.1 hq with hq | hq
      · exact (hleftOk q (hleft ▸ hq)).1
      · exact hlive q hq
  have heq : ∀ x, refsOf (C.view s') x = load (childrenOf cfg.hasher U)
      ((.tree T' :: ((encodedPairs cfg keys values).flatMap (leftFor st twice) ++ live)).map
        (Item.loc cfg.hasher)) x := by
    intro x
    by_cases hx : ∃ j : Item N, j.Ok cfg.hasher U ∧ j.loc cfg.hasher = x
    · obtain ⟨j, hj, rfl⟩ := hx
      exact (hload j hj).symm
    · have h1 : refsOf (C.view s') x = 0 := by
        unfold refsOf
        cases hv : C.view s' x with
        | none => rfl
        | some n => exact absurd (hs'.1 x n hv).2.item hx
      rw [h1, load_zero]
      intro hr
      obtain ⟨j, hj, he⟩ := reach_items hU hallok hr
      exact hx ⟨j, item_ok hallok hj, he⟩
  exact ⟨⟨T', hT'⟩, hleftOk,
    Acct.perm ⟨hs'.1, fun x => (heq x).ge, fun _ => heq⟩ hroots'.symm, hpend⟩

/-- Histories with leftovers are histories of calls. -/
theorem Keeps.calls {H : List (HIn N)} {L : Ledger N V} {P : List (Item N)} {s : σ}
    (h : Keeps cfg C shows H L P s) : Calls cfg C H s := by
  induction h with
  | start h1 h2 => exact .start h1 h2
  | insertAt _ _ hrun ih => exact ih.insertAt hrun
  | remove _ hrun ih => exact ih.remove hrun
  | reopen _ h1 h2 ih => exact ih.reopen h1 h2

/-- The counts along a history. -/
theorem keeps_acct (hN : 0 < N) (hpp : cfg.pp.Lawful) (hcod : RoundTrip cfg) (hsh : WritesShow C shows)
    {H : List (HIn N)} {L : Ledger N V} {P : List (Item N)} {s : σ} (h : Keeps cfg C shows H L P s) :
    ∀ U, CollisionFree cfg.hasher U → (∀ i ∈ H, U i) →
    (∀ e ∈ L, ∃ T, Accounted cfg U e T) ∧
      (∀ i ∈ P, i.Ok cfg.hasher U ∧ ∀ l r, i ≠ .tree (.node l r)) ∧
      Acct cfg.hasher U True (C.view s) (L.map Prod.fst ++ P.map (Item.loc cfg.hasher)) ∧
      C.pending s = View.empty N := by
  induction h with
  | start h1 h2 =>
    intro U hU _
    refine ⟨by simp, by simp, ?_, h2⟩
    rw [h1]
    exact Acct.empty
  | @insertAt d H L P s s' prev M keys values r hu hc hrun ih =>
    intro U hU hin
    obtain ⟨hL, hP, hs, hp⟩ := ih U hU (fun i hi => hin i (List.mem_append_right _ hi))
    have hs' : InPlace C U s' := (calls_inPlace hN hpp (hu.calls.insertAt hrun) (hU.mono hin)).mono hin
    obtain ⟨h1, h2, h3, h4⟩ := insert_keeps (cfg := cfg.withDepth d) (C := C) (shows := shows) hN hpp hcod hU hsh
      (hc.toDepth d) (fun i hi => hin i (List.mem_append_left _ hi))
      (fun e he => (hL e he).imp fun _ h => h.toDepth d) (fun i hi => (hP i hi).1) (fun i hi => (hP i hi).2)
      hs hp hs' hrun
    refine ⟨?_, ?_, h3, h4⟩
    · intro e he
      rcases List.mem_cons.1 he with rfl | he
      · exact h1.imp fun _ h => h.ofDepth
      · exact hL e he
    · intro i hi
      rcases List.mem_append.1 hi with hi | hi
      · exact h2 i hi
      · exact hP i hi
  | @remove H L1 L2 P s s' r M hu hrun ih =>
    intro U hU hin
    obtain ⟨hL, hP, hs, hp⟩ := ih U hU hin
    obtain ⟨T, hwf, rfl, hT, hrep⟩ := hL (r, M) (by simp)
    have hperm : ((L1 ++ (T.loc cfg.hasher, M) :: L2).map Prod.fst ++ P.map (Item.loc cfg.hasher)).Perm
        (T.loc cfg.hasher :: ((L1 ++ L2).map Prod.fst ++ P.map (Item.loc cfg.hasher))) := by
      have h : (L1 ++ (T.loc cfg.hasher, M) :: L2).Perm ((T.loc cfg.hasher, M) :: (L1 ++ L2)) :=
        List.perm_middle
      exact (h.map Prod.fst).append_right _
    have hq : Honest cfg.hasher U (C.pending s) := hp ▸ Honest.empty _ _
    have h := remove_acct (cfg := cfg) (C := C.toG) (ex := True)
      (live := (L1 ++ L2).map Prod.fst ++ P.map (Item.loc cfg.hasher))
      hU hwf hT s ⟨hs.perm hperm, Confirmed.own (strict := True) (.inl hp) hq⟩
    rw [hrun] at h
    refine ⟨fun e he => hL e ?_, hP, h.2⟩
    rcases List.mem_append.1 he with h | h <;> simp [h]
  | @reopen H L P s s' _ h1 h2 ih =>
    intro U hU hin
    obtain ⟨hL, hP, hs, hp⟩ := ih U hU hin
    exact ⟨hL, hP, by rw [h1]; exact hs, h2⟩

end MerkleBit
