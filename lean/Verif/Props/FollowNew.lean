import Verif.Proof.FollowNew
import Verif.Props.Follow
/-!
# C88, continued: a client that follows new pairs as well
-/

namespace MerkleBit
section
variable {N : Nat} {σ V : Type} {cfg : Config N σ V} {C : DbContract cfg.db}
  {H : List (HIn N)} {R : List (Arr N)} {L : Ledger N V} {s : σ}

/-- A new pair, as followed by a client. -/
theorem client_add (hc : Sane cfg) (hroom : cfg.Room) (h : Inserts cfg C H R L s) (hs : C.alive s)
    {r : Arr N} {M : Contents N V} (hr : (r, M) ∈ L) (hd : HeightBelow M cfg.depth)
    {c : Client N} (hcl : ∀ k p, c.proofs k = some p → generateInclusionProof cfg s r k = .ok p)
    {k near : Arr N} {above : Nat} (hnew : M k = none) (hnear : Near M k near above) (hk0 : c.proofs near ≠ none)
    {v : V} (henc : ∃ b, cfg.encode v = .ok b) (hd' : HeightBelow (M.assign [k] [v]) cfg.depth)
    (hcf : CollisionFree cfg.hasher (Among (hashedBy cfg (some r) [k] [v] s ++ H))) :
    ∃ s' c', insert cfg (some r) [k] [v] s = (.ok c'.root, s') ∧ C.alive s' ∧
      c.add cfg.hasher cfg.encode k v near above = some c' ∧
      Inserts cfg C (hashedBy cfg (some r) [k] [v] s ++ H) (c'.root :: R) ((c'.root, M.assign [k] [v]) :: L) s' ∧
      (∀ k', c'.proofs k' = none ↔ k' ≠ k ∧ c.proofs k' = none) ∧
      ∀ k p, c'.proofs k = some p → generateInclusionProof cfg s' c'.root k = .ok p := by
  have hcf0 : CollisionFree cfg.hasher (Among H) := hcf.mono (fun i hi => List.mem_append_right _ hi)
  have stored : ∀ k p, c.proofs k = some p → ∃ v, M k = some v := by
    intro k p hp
    cases hv : M k with
    | some v => exact ⟨v, rfl⟩
    | none =>
      obtain ⟨msg, hm⟩ := version_no_proof (C := C) hc.pos (h.version hc hcf0 hr) hv
      have := generateInclusionProof_ok (hcl k p hp)
      rw [hm] at this; cases this
  obtain ⟨p0, hp0k⟩ := Option.ne_none_iff_exists'.1 hk0
  have hp0 := hcl near p0 hp0k
  obtain ⟨v0, hv0⟩ := stored near p0 hp0k
  obtain ⟨b, hb⟩ := henc
  obtain ⟨r', s', hrun, hal, h'⟩ := h.insert_ok hc hs hcf (prev := some r) hr hd.succ (handled_single hc k)
    rfl (by simp) (by simp) (by simpa using ⟨b, hb⟩)
  obtain ⟨T, hwf, hl, hst, hM⟩ := h.version hc hcf0 hr
  obtain ⟨T', hwf', hl', hst', hM'⟩ := h'.version hc hcf List.mem_cons_self
  obtain ⟨b0, hb0, -⟩ := hM.entry hwf hv0
  obtain ⟨b1, hb1, hbe⟩ := hM'.entry hwf' (assign_single_self M k v)
  have : b1 = b := by rw [hb] at hbe; cases hbe; rfl
  subst this
  have hkT0 : near ∈ T.keys := List.mem_map_of_mem (f := Prod.fst) hb0
  have hkT' : k ∈ T'.keys := List.mem_map_of_mem (f := Prod.fst) hb1
  have hsame : ∀ k', k' ≠ k → M k' = M.assign [k] [v] k' := fun k' hn => (assign_single_ne M v hn).symm
  have hkn : k ≠ near := by rintro rfl; rw [hnew] at hv0; cases hv0
  have hbit : firstDiff k near < 8 * N := firstDiff_lt_iff.2 hkn
  obtain ⟨u, rest, huw, hku, hue, hcut, hrest, hup, hpk, hp0'⟩ :=
    parts_new hwf hwf' hM hM' hnew hb1 hsame hkT0 hnear.2.1
  have habove : rest.length = above := by
    have := hnear.2.2 _ (parts_bits hwf hM hkT0)
    rw [hcut, List.map_append, List.filter_append, List.filter_eq_nil_iff.2, List.filter_eq_self.2] at this
    · simpa using this
    · intro x hx
      obtain ⟨e, he, rfl⟩ := List.mem_map.1 hx
      simpa using hrest e he
    · intro x hx
      obtain ⟨e, he, rfl⟩ := List.mem_map.1 hx
      have := hup e he
      simp; omega
  -- the proof of the neighbour
  have hb0u : (near, b0) ∈ u.entries := by
    obtain ⟨x, hx, hxk⟩ := List.mem_map.1 hku
    have h1 := (Trie.lookup_eq_some_iff hwf).2 (hue x hx)
    have h2 := (Trie.lookup_eq_some_iff hwf).2 hb0
    rw [hxk, h2] at h1
    cases h1
    rw [← hxk]
    exact hx
  have e0 : p0 = (Trie.dataLoc cfg.hasher near b0, false) :: (T.parts near).map (partEntry cfg.hasher near) :=
    (proof_shape (C := C) hc hd hwf hst hM hb0 (p := p0) (by rw [hl]; exact hp0)).1
  have hu0 : (u.parts near).map (partEntry cfg.hasher near) =
      ((Trie.leaf near b0).loc cfg.hasher, false) :: u.path cfg.hasher near := (parts_path huw hb0u).symm
  have hrestk : ∀ k2, firstDiff k k2 = firstDiff k near →
      rest.map (partEntry cfg.hasher k) = rest.map (partEntry cfg.hasher k2) := by
    intro k2 hf
    apply List.map_congr_left
    intro e he
    unfold partEntry
    rw [bit_eq_of_lt_firstDiff (a := k) (b := k2) (i := e.1) (by rw [hf]; exact hrest e he)]
  -- the proof of the new pair
  have hnewp : newProof cfg.hasher k b1 near above p0 =
      (Trie.dataLoc cfg.hasher k b1, false) :: (T'.parts k).map (partEntry cfg.hasher k) := by
    have hlen : p0.length - above = (u.path cfg.hasher near).length + 2 := by
      rw [e0, hcut, List.map_append, hu0, ← habove]
      simp
      omega
    have hsplit : p0 = ((Trie.dataLoc cfg.hasher near b0, false) :: ((Trie.leaf near b0).loc cfg.hasher, false) ::
        u.path cfg.hasher near) ++ rest.map (partEntry cfg.hasher k) := by
      rw [e0, hcut, List.map_append, hu0, hrestk near rfl]
      rfl
    have hl2 : ((Trie.dataLoc cfg.hasher near b0, false) :: ((Trie.leaf near b0).loc cfg.hasher, false) ::
        u.path cfg.hasher near).length = p0.length - above := by rw [hlen]; rfl
    unfold newProof
    dsimp only
    rw [← hl2]
    conv_lhs => rw [hsplit, List.take_left, List.drop_left]
    dsimp only
    rw [hpk, List.map_cons, List.map_cons]
    have : climb cfg.hasher ((Trie.leaf near b0).loc cfg.hasher) (u.path cfg.hasher near) = u.loc cfg.hasher := by
      rw [climb_eq]; exact foldProof_path _ huw hb0u
    rw [this]
    simp [partEntry, hbit, pairHash, HIn.hash, Trie.loc, Trie.dataLoc]
  obtain ⟨p', hp', -⟩ := C15_generated_proofs_verify_partial hc hroom h' hal hcf List.mem_cons_self hd'
    (assign_single_self M k v)
  have e1 := proof_shape (C := C) hc hd' hwf' hst' hM' hb1 (p := p') (by rw [hl']; exact hp')
  have hown : p' = newProof cfg.hasher k b1 near above p0 := by rw [hnewp]; exact e1.1
  have hroot : climb cfg.hasher (pairHash cfg.hasher k b1) ((newProof cfg.hasher k b1 near above p0).drop 2) = r' := by
    rw [← hown, e1.2, climb_eq, ← hl']
    exact foldProof_path _ hwf' hb1
  -- other keys
  have hother : ∀ k2 p2, k2 ≠ k → c.proofs k2 = some p2 →
      generateInclusionProof cfg s' r' k2 = .ok
        (if firstDiff k k2 = firstDiff k near then
          p2.take (p2.length - above) ++ (pairHash cfg.hasher k b1, !k2.bit (firstDiff k k2)) ::
            p2.drop (p2.length - above)
        else follow cfg.hasher k b1 (newProof cfg.hasher k b1 near above p0) p2) := by
    intro k2 p2 hne hpk2
    have hp2 := hcl k2 p2 hpk2
    obtain ⟨v2, hv2⟩ := stored k2 p2 hpk2
    obtain ⟨b2, hb2, hbe2⟩ := hM.entry hwf hv2
    have hv2' : M.assign [k] [v] k2 = some v2 := by rw [← hsame k2 hne]; exact hv2
    obtain ⟨b2', hb2', hbe2'⟩ := hM'.entry hwf' hv2'
    have : b2' = b2 := by rw [hbe2] at hbe2'; cases hbe2'; rfl
    subst this
    have hkT2 : k2 ∈ T.keys := List.mem_map_of_mem (f := Prod.fst) hb2
    have hkT2' : k2 ∈ T'.keys := List.mem_map_of_mem (f := Prod.fst) hb2'
    have e2 : p2 = (Trie.dataLoc cfg.hasher k2 b2', false) :: (T.parts k2).map (partEntry cfg.hasher k2) :=
      (proof_shape (C := C) hc hd hwf hst hM hb2 (p := p2) (by rw [hl]; exact hp2)).1
    obtain ⟨p2', hp2', -⟩ := C15_generated_proofs_verify_partial hc hroom h' hal hcf List.mem_cons_self hd' hv2'
    have e2' : p2' = (Trie.dataLoc cfg.hasher k2 b2', false) :: (T'.parts k2).map (partEntry cfg.hasher k2) :=
      (proof_shape (C := C) hc hd' hwf' hst' hM' hb2' (p := p2') (by rw [hl']; exact hp2')).1
    rw [hp2']
    congr 1
    by_cases hf : firstDiff k k2 = firstDiff k near
    · rw [if_pos hf]
      obtain ⟨u2, rest2, -, -, -, hcut2, -, -, hpk2, hp2p⟩ :=
        parts_new hwf hwf' hM hM' hnew hb1 hsame hkT2 (by rw [hf]; exact hnear.2.1)
      -- the entries above the new one are those of the neighbour
      have hlen : rest2.length = above := by
        rw [hpk] at hpk2
        rw [← (List.cons.inj (List.cons.inj hpk2).2).2]
        exact habove
      have hsplit : p2 = ((Trie.dataLoc cfg.hasher k2 b2', false) :: (u2.parts k2).map (partEntry cfg.hasher k2)) ++
          rest2.map (partEntry cfg.hasher k2) := by
        rw [e2, hcut2, List.map_append]; rfl
      have hl2 : ((Trie.dataLoc cfg.hasher k2 b2', false) :: (u2.parts k2).map (partEntry cfg.hasher k2)).length =
          p2.length - above := by
        rw [hsplit, ← hlen]; simp; omega
      rw [← hl2]
      conv_rhs => rw [hsplit, List.take_left, List.drop_left]
      rw [e2', hp2p, List.map_append, List.map_cons]
      have hlt2 : firstDiff k k2 < 8 * N := by rw [hf]; exact hbit
      simp [partEntry, hlt2, pairHash, HIn.hash, Trie.loc, Trie.dataLoc]
    · rw [if_neg hf, hnewp]
      have hfl : firstDiff k k2 < firstDiff k near := by
        have := hnear.2.1 k2 (by rw [hv2]; simp)
        omega
      obtain ⟨w, w2, f, rest2, hfd, hf1, hf2⟩ := parts_fork (Ne.symm hne) hwf' hkT' hkT2'
      subst hfd
      have hso' := (parts_sorted hwf' hkT2').1
      -- the part of the neighbour, before
      have hfn : firstDiff k2 near = firstDiff k k2 := by
        rw [firstDiff_comm k k2]
        exact firstDiff_eq_of_lt (a := k2) (b := k) (c := near) (by rw [firstDiff_comm]; exact hfl)
      obtain ⟨x, hx, hxf⟩ := List.mem_map.1
        (((parts_bits hwf hM hkT2).mem (firstDiff k k2)).2 ⟨near, hnear.1, hfn⟩)
      have hrest2 : ∀ e ∈ rest2, e.1 < firstDiff k k2 := by
        intro e he
        rw [hf2, List.map_append, List.map_cons, List.pairwise_append, List.pairwise_cons] at hso'
        exact hso'.2.1.1 e.1 (List.mem_map_of_mem he)
      have hbefore : T.parts k2 = w2.parts k2 ++ (firstDiff k k2, x.2) :: rest2 := by
        refine parts_eq_of hwf hM hkT2 ?_ ?_ ?_
        · have := hso'
          rw [hf2] at this
          simpa using this
        · intro e he
          by_cases hef : e.1 = firstDiff k k2
          · have hex : e = (firstDiff k k2, x.2) := by
              have hnd : ((T'.parts k2).map Prod.fst).Pairwise (· > ·) := hso'
              rw [hf2, List.map_append, List.map_cons, List.pairwise_append, List.pairwise_cons] at hnd
              rcases List.mem_append.1 he with he | he
              · have := hnd.2.2 e.1 (List.mem_map_of_mem he) _ List.mem_cons_self
                dsimp only at this
                omega
              · rcases List.mem_cons.1 he with rfl | he
                · rfl
                · have := hrest2 e he
                  omega
            rw [hex]
            have hxr := parts_represent hwf hM hkT2 hx
            rw [hxf] at hxr
            exact ⟨(parts_sub x hx).wf hwf, hxr⟩
          · have he' : e ∈ T'.parts k2 := by
              rw [hf2]
              rcases List.mem_append.1 he with he | he
              · exact List.mem_append_left _ he
              · rcases List.mem_cons.1 he with rfl | he
                · exact absurd rfl hef
                · exact List.mem_append_right _ (List.mem_cons_of_mem _ he)
            have hrep := parts_represent hwf' hM' hkT2' he'
            have : (M.assign [k] [v]).part k2 e.1 = M.part k2 e.1 := by
              funext k'
              unfold Contents.part
              split
              · rename_i hfe
                refine (hsame k' ?_).symm
                rintro rfl
                rw [firstDiff_comm] at hfe
                exact hef hfe.symm
              · rfl
            rw [this] at hrep
            exact ⟨(parts_sub e he').wf hwf', hrep⟩
        · intro k' hk'
          have hk2' : M.assign [k] [v] k' ≠ none := by
            rw [← hsame k' (by rintro rfl; exact hk' hnew)]; exact hk'
          have := ((parts_bits hwf' hM' hkT2').mem (firstDiff k2 k')).2 ⟨k', hk2', rfl⟩
          rw [hf2] at this
          simpa using this
      have hwsub : w.Sub T' := by
        have : (firstDiff k k2, w) ∈ T'.parts k2 := by rw [hf2]; simp
        exact parts_sub _ this
      have hkw : (k, b1) ∈ w.entries := by
        have : (firstDiff k k2, w) ∈ T'.parts k2 := by rw [hf2]; simp
        exact ((parts_entries hwf' hkT2' _ this).2 (k, b1)).2 ⟨hb1, firstDiff_comm _ _⟩
      rw [e2', e2, hbefore, hf1, hf2]
      exact (follow_parts cfg.hasher (Ne.symm hne) (hwsub.wf hwf') hkw hrest2 _ _).symm
  refine ⟨s', ⟨climb cfg.hasher (pairHash cfg.hasher k b1) ((newProof cfg.hasher k b1 near above p0).drop 2), fun k' =>
      if k' = k then some (newProof cfg.hasher k b1 near above p0)
      else (c.proofs k').map fun other =>
        if firstDiff k k' = firstDiff k near then
          other.take (other.length - above) ++ (pairHash cfg.hasher k b1, !k'.bit (firstDiff k k')) ::
            other.drop (other.length - above)
        else follow cfg.hasher k b1 (newProof cfg.hasher k b1 near above p0) other⟩, ?_, hal, ?_, ?_, ?_, ?_⟩
  · rw [hrun, hroot]
  · unfold Client.add
    rw [hp0k, hb]
  · rw [hroot]; exact h'
  · intro k'
    dsimp only
    split
    · rename_i heq; subst heq; simp
    · rename_i heq; simp [heq]
  · intro k' q hq
    dsimp only at hq ⊢
    rw [hroot]
    split at hq
    · rename_i heq
      subst heq
      cases hq
      rw [hp', hown]
    · rename_i hn
      obtain ⟨p2, h1, rfl⟩ := Option.map_eq_some_iff.1 hq
      exact hother k' p2 hn h1

/-- One piece of news. -/
theorem client_hear (hc : Sane cfg) (hroom : cfg.Room) (h : Inserts cfg C H R L s) (hs : C.alive s)
    {r : Arr N} {M : Contents N V} (hr : (r, M) ∈ L) (hd : HeightBelow M cfg.depth)
    {c : Client N} (hcl : ∀ k p, c.proofs k = some p → generateInclusionProof cfg s r k = .ok p)
    {e : News N V} {rest : List (News N V)} (hfit : NewsFits cfg.depth M (fun k => c.proofs k ≠ none) (e :: rest))
    (henc : ∃ b, cfg.encode e.pair.2 = .ok b)
    (hcf : CollisionFree cfg.hasher (Among (hashedBy cfg (some r) [e.pair.1] [e.pair.2] s ++ H))) :
    ∃ s' c', insert cfg (some r) [e.pair.1] [e.pair.2] s = (.ok c'.root, s') ∧ C.alive s' ∧
      c.hear cfg.hasher cfg.encode e = some c' ∧ HeightBelow (M.assign [e.pair.1] [e.pair.2]) cfg.depth ∧
      Inserts cfg C (hashedBy cfg (some r) [e.pair.1] [e.pair.2] s ++ H) (c'.root :: R)
        ((c'.root, M.assign [e.pair.1] [e.pair.2]) :: L) s' ∧
      (∀ k, c'.proofs k ≠ none ↔ k = e.pair.1 ∨ c.proofs k ≠ none) ∧
      NewsFits cfg.depth (M.assign [e.pair.1] [e.pair.2]) (fun k => c'.proofs k ≠ none) rest ∧
      ∀ k p, c'.proofs k = some p → generateInclusionProof cfg s' c'.root k = .ok p := by
  cases e with
  | update k v =>
    obtain ⟨hk, hrest⟩ := hfit
    obtain ⟨s', c', h1, h2, h3, h4, h5, h6, h7⟩ := client_step hc hroom h hs hr hd hcl hk henc hcf
    have hdom : ∀ k', c'.proofs k' ≠ none ↔ c.proofs k' ≠ none := fun k' => not_congr (h6 k')
    refine ⟨s', c', h1, h2, h3, h4, h5, ?_, ?_, h7⟩
    · intro k'
      rw [hdom]
      refine ⟨.inr, ?_⟩
      rintro (rfl | h)
      · exact hk
      · exact h
    · have : (fun k => c'.proofs k ≠ none) = fun k => c.proofs k ≠ none := funext fun k' => propext (hdom k')
      rw [this]
      exact hrest
  | add k v near above =>
    obtain ⟨hnew, hnear, hk0, hd', hrest⟩ := hfit
    obtain ⟨s', c', h1, h2, h3, h4, h5, h6⟩ := client_add hc hroom h hs hr hd hcl hnew hnear hk0 henc hd' hcf
    have hdom : ∀ k', c'.proofs k' ≠ none ↔ k' = k ∨ c.proofs k' ≠ none := by
      intro k'
      rw [ne_eq, h5, not_and_or, not_not]
    refine ⟨s', c', h1, h2, h3, hd', h4, hdom, ?_, h6⟩
    have : (fun k => c'.proofs k ≠ none) = fun k' => k' = k ∨ c.proofs k' ≠ none := funext fun k' => propext (hdom k')
    rw [this]
    exact hrest

/-- C88: a client that also hears of new pairs, each with a closest stored key whose proof it has and the number of entries
above the first difference, stays in step with the database.  In the end it has the proofs of the new keys as well. -/
theorem C88_client_grows (hc : Sane cfg) (hroom : cfg.Room) : ∀ {news : List (News N V)} {H : List (HIn N)}
    {R : List (Arr N)} {L : Ledger N V} {s : σ}, Inserts cfg C H R L s → C.alive s →
    ∀ {M : Contents N V} {c : Client N}, (c.root, M) ∈ L → HeightBelow M cfg.depth →
    (∀ k p, c.proofs k = some p → generateInclusionProof cfg s c.root k = .ok p) →
    NewsFits cfg.depth M (fun k => c.proofs k ≠ none) news → (∀ e ∈ news, ∃ b, cfg.encode e.pair.2 = .ok b) →
    CollisionFree cfg.hasher (Among (hashedByEach cfg (some c.root) (news.map News.pair) s ++ H)) →
    ∃ s' c', insertEach cfg (some c.root) (news.map News.pair) s = (.ok (some c'.root), s') ∧ C.alive s' ∧
      c.hearAll cfg.hasher cfg.encode news = some c' ∧
      (∀ k, c'.proofs k ≠ none ↔ k ∈ news.map (fun e => e.pair.1) ∨ c.proofs k ≠ none) ∧
      ∀ k p, c'.proofs k = some p → generateInclusionProof cfg s' c'.root k = .ok p := by
  intro news
  induction news with
  | nil =>
    intro H R L s h hs M c hr hd hcl _ _ _
    exact ⟨s, c, rfl, hs, rfl, fun _ => by simp, hcl⟩
  | cons e rest ih =>
    intro H R L s h hs M c hr hd hcl hfit henc hcf
    have hrun1 : insertOne cfg (some c.root) e.pair.1 e.pair.2 s =
        insert cfg (some c.root) [e.pair.1] [e.pair.2] s := by
      rw [C10_insert_one_is_insert]
    have hcf1 : CollisionFree cfg.hasher (Among (hashedBy cfg (some c.root) [e.pair.1] [e.pair.2] s ++ H)) := by
      refine hcf.mono fun i hi => ?_
      rcases List.mem_append.1 hi with hi | hi
      · refine List.mem_append_left _ ?_
        rw [List.map_cons]
        unfold hashedByEach
        split
        · exact List.mem_append_right _ hi
        · exact hi
      · exact List.mem_append_right _ hi
    obtain ⟨s1, c1, hrun, hal, hup, hd1, h1, hdom, hfit1, hcl1⟩ := client_hear hc hroom h hs hr hd hcl hfit
      (henc e List.mem_cons_self) hcf1
    rw [hrun] at hrun1
    obtain ⟨s2, c2, h2, h3, h4, h5, h6⟩ := ih h1 hal List.mem_cons_self hd1 hcl1 hfit1
      (fun e he => henc e (List.mem_cons_of_mem _ he))
      (by
        refine hcf.mono fun i hi => ?_
        rw [List.map_cons]
        unfold hashedByEach
        rw [hrun1]
        simpa [Among, List.append_assoc] using hi)
    refine ⟨s2, c2, ?_, h3, ?_, fun k' => ?_, h6⟩
    · rw [List.map_cons]
      unfold insertEach
      show MerkleBit.M.bind _ _ s = _
      unfold MerkleBit.M.bind
      rw [hrun1]
      exact h2
    · unfold Client.hearAll
      rw [hup]
      exact h4
    · rw [h5, hdom, List.map_cons, List.mem_cons]
      tauto

end

section
variable {N : Nat} {σ V : Type} {cfg : Config N σ V} {C : DbContract cfg.db}

theorem nearest_some {k : Arr N} : ∀ {keys : List (Arr N)}, keys ≠ [] →
    ∃ a, nearest k keys = some a ∧ a ∈ keys ∧ ∀ b ∈ keys, firstDiff k b ≤ firstDiff k a
  | [], h => absurd rfl h
  | [a], _ => ⟨a, rfl, by simp, by simp⟩
  | a :: b :: keys, _ => by
    obtain ⟨x, h1, h2, h3⟩ := nearest_some (k := k) (keys := b :: keys) (by simp)
    unfold nearest
    rw [h1]
    by_cases hlt : firstDiff k a < firstDiff k x
    · refine ⟨x, by simp [hlt], List.mem_cons_of_mem _ h2, ?_⟩
      intro y hy
      rcases List.mem_cons.1 hy with rfl | hy
      · omega
      · exact h3 y hy
    · refine ⟨a, by simp [hlt], List.mem_cons_self, ?_⟩
      intro y hy
      rcases List.mem_cons.1 hy with rfl | hy
      · exact le_refl _
      · have := h3 y hy; omega

/-- Someone who knows all keys finds a closest one, and the number of entries. -/
theorem near_of_keys {M : Contents N V} {keys : List (Arr N)} (hkeys : ∀ k, k ∈ keys ↔ M k ≠ none) {k near : Arr N}
    (hn : nearest k keys = some near) : Near M k near (bitsBefore near (firstDiff k near) keys) := by
  have hne : keys ≠ [] := by rintro rfl; cases hn
  obtain ⟨a, h1, h2, h3⟩ := nearest_some (k := k) hne
  rw [hn] at h1
  cases h1
  refine ⟨(hkeys near).1 h2, fun k' hk' => h3 k' ((hkeys k').2 hk'), ?_⟩
  intro bits hb
  unfold bitsBefore
  have : (bits.filter (fun b => decide (b < firstDiff k near))).reverse =
      (List.range (firstDiff k near)).filter fun i => keys.any fun k => decide (firstDiff near k = i) := by
    refine List.Perm.eq_of_pairwise (le := (· < ·)) (fun a b _ _ h1 h2 => by omega) ?_ ?_ ?_
    · rw [List.pairwise_reverse]
      exact hb.sorted.filter _
    · exact List.pairwise_lt_range.filter _
    · rw [List.perm_ext_iff_of_nodup]
      · intro x
        simp only [List.mem_reverse, List.mem_filter, decide_eq_true_eq, List.mem_range, List.any_eq_true]
        rw [hb.mem]
        constructor
        · rintro ⟨⟨k', h1, h2⟩, h3⟩
          exact ⟨h3, k', (hkeys k').2 h1, h2⟩
        · rintro ⟨h1, k', h2, h3⟩
          exact ⟨⟨k', (hkeys k').1 h2, h3⟩, h1⟩
      · rw [List.nodup_reverse]
        exact (hb.sorted.filter _).imp (fun h => by omega)
      · exact List.nodup_range.filter _
  rw [← this, List.length_reverse]

/-- C88: a mirror, which knows all keys of a version and has all proofs, needs to hear nothing but the pairs that are
inserted one by one.  It has all proofs of all versions that follow, and their roots. -/
theorem C88_mirror (hc : Sane cfg) (hroom : cfg.Room) : ∀ {pairs : List (Arr N × V)} {H : List (HIn N)}
    {R : List (Arr N)} {L : Ledger N V} {s : σ}, Inserts cfg C H R L s → C.alive s →
    ∀ {M : Contents N V} {c : Client N} {keys : List (Arr N)}, (c.root, M) ∈ L → HeightBelow M cfg.depth →
    keys ≠ [] → (∀ k, k ∈ keys ↔ M k ≠ none) →
    (∀ k ∈ keys, c.proofs k ≠ none) → (∀ k p, c.proofs k = some p → generateInclusionProof cfg s c.root k = .ok p) →
    HeightsBelow cfg.depth M pairs → (∀ e ∈ pairs, ∃ b, cfg.encode e.2 = .ok b) →
    CollisionFree cfg.hasher (Among (hashedByEach cfg (some c.root) pairs s ++ H)) →
    ∃ s' c', insertEach cfg (some c.root) pairs s = (.ok (some c'.root), s') ∧ C.alive s' ∧
      c.mirror cfg.hasher cfg.encode keys pairs = some c' ∧
      (∀ k, k ∈ keys ∨ k ∈ pairs.map Prod.fst → c'.proofs k ≠ none) ∧
      ∀ k p, c'.proofs k = some p → generateInclusionProof cfg s' c'.root k = .ok p := by
  intro pairs
  induction pairs with
  | nil =>
    intro H R L s h hs M c keys hr hd _ _ hall hcl _ _ _
    exact ⟨s, c, rfl, hs, rfl, fun k hk => hall k (by simpa using hk), hcl⟩
  | cons e rest ih =>
    obtain ⟨k, v⟩ := e
    intro H R L s h hs M c keys hr hd hkne hkeys hall hcl hds henc hcf
    have hrun1 : insertOne cfg (some c.root) k v s = insert cfg (some c.root) [k] [v] s := by
      rw [C10_insert_one_is_insert]
    have hcf1 : CollisionFree cfg.hasher (Among (hashedBy cfg (some c.root) [k] [v] s ++ H)) := by
      refine hcf.mono fun i hi => ?_
      rcases List.mem_append.1 hi with hi | hi
      · refine List.mem_append_left _ ?_
        unfold hashedByEach
        split
        · exact List.mem_append_right _ hi
        · exact hi
      · exact List.mem_append_right _ hi
    have hnews : (newsOf keys k v).pair = (k, v) ∧
        NewsFits cfg.depth M (fun k => c.proofs k ≠ none) [newsOf keys k v] := by
      unfold newsOf
      by_cases hk : k ∈ keys
      · rw [if_pos hk]
        exact ⟨rfl, hall k hk, trivial⟩
      · rw [if_neg hk]
        obtain ⟨a, h1, h2, -⟩ := nearest_some (k := k) hkne
        rw [h1]
        refine ⟨rfl, ?_, near_of_keys hkeys h1, hall a h2, hds.1, trivial⟩
        by_contra hn
        exact hk ((hkeys k).2 hn)
    obtain ⟨hpair, hfit⟩ := hnews
    have hstep := client_hear hc hroom h hs hr hd hcl hfit (by rw [hpair]; exact henc _ List.mem_cons_self)
      (by rw [hpair]; exact hcf1)
    rw [hpair] at hstep
    obtain ⟨s1, c1, hrun, hal, hup, hd1, h1, hdom, -, hcl1⟩ := hstep
    rw [hrun] at hrun1
    obtain ⟨s2, c2, h2, h3, h4, h5, h6⟩ := ih h1 hal (keys := k :: keys) List.mem_cons_self hd1 (by simp)
      (by
        intro k'
        by_cases he : k' = k
        · subst he
          rw [assign_single_self]; simp
        · rw [assign_single_ne _ _ he, ← hkeys]; simp [he])
      (by
        intro k' hk'
        rw [hdom]
        rcases List.mem_cons.1 hk' with rfl | hk'
        · exact .inl rfl
        · exact .inr (hall k' hk'))
      hcl1 hds.2 (fun e he => henc e (List.mem_cons_of_mem _ he))
      (by
        refine hcf.mono fun i hi => ?_
        unfold hashedByEach
        rw [hrun1]
        simpa [Among, List.append_assoc] using hi)
    refine ⟨s2, c2, ?_, h3, ?_, fun k' hk' => h5 k' ?_, h6⟩
    · unfold insertEach
      show MerkleBit.M.bind _ _ s = _
      unfold MerkleBit.M.bind
      rw [hrun1]
      exact h2
    · unfold Client.mirror
      rw [hup]
      exact h4
    · simp only [List.map_cons, List.mem_cons] at hk' ⊢
      tauto

end
/-! ## A concrete client -/

namespace Toy

theorem nproofs (k : Arr 2) (p : List (Arr 2 × Bool)) (hk : fclient.proofs k = some p) :
    generateInclusionProof cfg s2 fclient.root k = .ok p := by
  unfold fclient at hk
  dsimp only at hk
  split at hk
  · rename_i he; subst he; cases hk; exact proof2_eq
  · split at hk
    · rename_i he; subst he; cases hk; decide +kernel
    · cases hk

/-- The key 5 is closest to the key 6, and two entries of its proof stay above. -/
theorem nnear : Near M2 (key 6) (key 5) 2 := by
  refine ⟨by decide +kernel, ?_, ?_⟩
  · intro k' hk'
    rcases keys2 hk' with rfl | rfl | rfl | rfl <;> decide +kernel
  · intro bits hb
    have : bits = [16, 13, 0] := eq_of_falling hb.sorted fbits5.sorted (fun x => by rw [hb.mem, fbits5.mem])
    rw [this]
    decide +kernel

/-- A new key, and updates of this and of another. -/
def nnews : List (News 2 (List UInt8)) := [.add (key 6) [60] (key 5) 2, .update (key 6) [61], .update (key 1) [77]]

/-- The hypotheses of `C88_client_grows` are met: the client with the proofs of 1 and 5 gets that of 6. -/
example : ∃ s' c', insertEach cfg (some r2) (nnews.map News.pair) s2 = (.ok (some c'.root), s') ∧
    fclient.hearAll cfg.hasher cfg.encode nnews = some c' ∧
    ∃ p, c'.proofs (key 6) = some p ∧ generateInclusionProof cfg s' c'.root (key 6) = .ok p := by
  obtain ⟨s', c', h1, -, h2, h3, h4⟩ := C88_client_grows sane room (news := nnews) hist2 (alive _) (M := M2) (c := fclient)
    List.mem_cons_self (deep _) nproofs
    ⟨by decide +kernel, nnear, by decide +kernel, deep _, .inl rfl, .inr (by decide +kernel), trivial⟩
    (fun e _ => ⟨_, rfl⟩) (collisionFree_of_check (by decide +kernel))
  refine ⟨s', c', h1, h2, ?_⟩
  cases hp : c'.proofs (key 6) with
  | none => exact absurd hp ((h3 (key 6)).2 (.inl (by decide +kernel)))
  | some p => exact ⟨p, rfl, h4 _ _ hp⟩

/-- A client with all proofs. -/
def nmirror : Client 2 where
  root := r2
  proofs := fun k => if M2 k = none then none else (generateInclusionProof cfg s2 r2 k).toOption

/-- The hypotheses of `C88_mirror` are met: two new keys and an update. -/
example : ∃ s' c', insertEach cfg (some r2) [(key 7, [70]), (key 2, [21]), (key 0x8001, [90])] s2 =
      (.ok (some c'.root), s') ∧
    nmirror.mirror cfg.hasher cfg.encode [key 1, key 2, key 5, key 0x8000]
      [(key 7, [70]), (key 2, [21]), (key 0x8001, [90])] = some c' ∧
    ∃ p, c'.proofs (key 5) = some p ∧ generateInclusionProof cfg s' c'.root (key 5) = .ok p := by
  obtain ⟨s', c', h1, -, h2, h3, h4⟩ := C88_mirror sane room (pairs := [(key 7, [70]), (key 2, [21]), (key 0x8001, [90])])
    hist2 (alive _) (M := M2) (c := nmirror) (keys := [key 1, key 2, key 5, key 0x8000])
    List.mem_cons_self (deep _) (by simp)
    (by
      intro k
      constructor
      · intro hk
        simp only [List.mem_cons, List.not_mem_nil, or_false] at hk
        rcases hk with rfl | rfl | rfl | rfl <;> decide +kernel
      · intro hk
        rcases keys2 hk with rfl | rfl | rfl | rfl <;> simp)
    (by
      intro k hk
      simp only [List.mem_cons, List.not_mem_nil, or_false] at hk
      rcases hk with rfl | rfl | rfl | rfl <;> decide +kernel)
    (by
      intro k p hk
      unfold nmirror at hk
      dsimp only at hk
      split at hk
      · cases hk
      · show generateInclusionProof cfg s2 r2 k = .ok p
        cases hg : generateInclusionProof cfg s2 r2 k with
        | error e => rw [hg] at hk; cases hk
        | ok q => rw [hg] at hk; cases hk; rfl)
    ⟨deep _, deep _, deep _, trivial⟩ (fun e _ => ⟨_, rfl⟩) (collisionFree_of_check (by decide +kernel))
  refine ⟨s', c', h1, h2, ?_⟩
  cases hp : c'.proofs (key 5) with
  | none => exact absurd hp (h3 (key 5) (.inl (by simp)))
  | some p => exact ⟨p, rfl, h4 _ _ hp⟩

end Toy
end MerkleBit
