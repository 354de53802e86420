import Verif.Proof.Follow
import Verif.Props.Parts
import Verif.Props.Calls
/-!
# C88: proofs can be brought up to date from outside

Whoever keeps a proof can follow updates: which entries change is known beforehand, and for a change of one value the
new entries and the new root follow from proofs that were made before it, without access to the database.
-/

namespace MerkleBit
section
variable {N : Nat} {σ V : Type} {cfg : Config N σ V} {C : DbContract cfg.db}
  {H : List (HIn N)} {R : List (Arr N)} {L : Ledger N V} {s : σ}

/-- C88: if two versions have the same pairs among those that differ from `k` at bit `b` for the first time, the
entries of `b` in their proofs of `k` are the same.  (The converse is `C84_equal_hashes`.  Two databases may be
involved.) -/
theorem C88_unchanged {σ' : Type} {cfg' : Config N σ' V}
    {C' : DbContract cfg'.db} {H' : List (HIn N)} {R' : List (Arr N)} {L' : Ledger N V} {s' : σ'}
    (hc : Sane cfg) (hc' : Sane cfg') (hhash : cfg'.hasher = cfg.hasher) (henc : cfg'.encode = cfg.encode)
    (h : Inserts cfg C H R L s) (h' : Inserts cfg' C' H' R' L' s')
    (hcf : CollisionFree cfg.hasher (Among H)) (hcf' : CollisionFree cfg.hasher (Among H'))
    {r r' : Arr N} {M M' : Contents N V} (hr : (r, M) ∈ L) (hr' : (r', M') ∈ L')
    (hd : HeightBelow M cfg.depth) (hd' : HeightBelow M' cfg'.depth) {k : Arr N} {v v' : V}
    (hk : M k = some v) (hk' : M' k = some v') {p p' : List (Arr N × Bool)}
    (hp : generateInclusionProof cfg s r k = .ok p) (hp' : generateInclusionProof cfg' s' r' k = .ok p')
    {bits bits' : List Nat} (hb : PartBits M k bits) (hb' : PartBits M' k bits')
    {i i' b : Nat} (hi : bits[i]? = some b) (hi' : bits'[i']? = some b)
    (heq : ∀ k', firstDiff k k' = b → M k' = M' k') :
    p'[i' + 1]? = p[i + 1]? := by
  obtain ⟨u, hwf, -, hu, he⟩ := (proof_entry hc h hcf hr hd hk hp hb).2 i b hi
  obtain ⟨u', hwf', -, hu', he'⟩ := (proof_entry hc' h' (by rw [hhash]; exact hcf') hr' hd' hk' hp' hb').2 i' b hi'
  have hpart : M'.part k b = M.part k b := by
    funext k'
    unfold Contents.part
    split
    · exact (heq k' ‹_›).symm
    · rfl
  rw [hpart] at hu'
  have := Represents.unique hwf hwf' hu (hu'.congr henc)
  subst this
  rw [he, he', hhash]

/-- C88: an insert changes only the entries of bits at which one of its keys differs from `k` for the first time. -/
theorem C88_after_insert (hc : Sane cfg) (h : Inserts cfg C H R L s)
    {r r' : Arr N} {M : Contents N V} (hr : (r, M) ∈ L) {keys : List (Arr N)} {values : List V} {s' : σ}
    (hh : Handled cfg M keys) (hrun : insert cfg (some r) keys values s = (.ok r', s'))
    (hcf : CollisionFree cfg.hasher (Among (hashedBy cfg (some r) keys values s ++ H)))
    (hd : HeightBelow M cfg.depth) (hd' : HeightBelow (M.assign keys values) cfg.depth)
    {k : Arr N} {v v' : V} (hk : M k = some v) (hk' : M.assign keys values k = some v') {p p' : List (Arr N × Bool)}
    (hp : generateInclusionProof cfg s r k = .ok p) (hp' : generateInclusionProof cfg s' r' k = .ok p')
    {bits bits' : List Nat} (hb : PartBits M k bits) (hb' : PartBits (M.assign keys values) k bits')
    {i b : Nat} (hi : bits[i]? = some b) (hout : ∀ k' ∈ keys, firstDiff k k' ≠ b) :
    ∃ i', bits'[i']? = some b ∧ p'[i' + 1]? = p[i + 1]? := by
  obtain ⟨k1, h1, h2⟩ := (hb.mem b).1 (List.mem_of_getElem? hi)
  have hin : b ∈ bits' := (hb'.mem b).2 ⟨k1, by
    rw [assign_not_mem _ _ (fun hm => hout k1 hm h2)]; exact h1, h2⟩
  obtain ⟨i', hi'⟩ := List.getElem?_of_mem hin
  refine ⟨i', hi', ?_⟩
  exact C88_unchanged hc hc rfl rfl h (.good h (prev := some r) hr hh hrun)
    (hcf.mono (fun _ h => List.mem_append_right _ h)) hcf hr List.mem_cons_self hd hd' hk hk' hp hp' hb hb' hi hi'
    (fun k' hk' => (assign_not_mem _ _ (fun hm => hout k' hm hk')).symm)

theorem assign_single_self (M : Contents N V) (k : Arr N) (v : V) : M.assign [k] [v] k = some v :=
  assign_mem M rfl (by simp) (by simp)

theorem assign_single_ne (M : Contents N V) {k k' : Arr N} (v : V) (h : k' ≠ k) : M.assign [k] [v] k' = M k' :=
  assign_not_mem M _ (by simpa using h)

theorem assign_single_keys {M : Contents N V} {k : Arr N} {v : V} (hk : M k = some v) (v' : V) (k' : Arr N) :
    M k' ≠ none ↔ M.assign [k] [v'] k' ≠ none := by
  by_cases he : k' = k
  · subst he; rw [assign_single_self, hk]; simp
  · rw [assign_single_ne _ _ he]

/-- C88: changing the value of `k`, as followed by the holder of a proof of `k`.  The proof of the new value has the same
entries after the second.  It is the new root, and no other, that accepts the new value with these entries. -/
theorem C88_own_update (hc : Sane cfg) (hroom : cfg.Room) (h : Inserts cfg C H R L s) (hs : C.alive s)
    {r : Arr N} {M : Contents N V} (hr : (r, M) ∈ L) (hd : HeightBelow M cfg.depth)
    {k : Arr N} {v : V} (hk : M k = some v) {p : List (Arr N × Bool)}
    (hp : generateInclusionProof cfg s r k = .ok p) {v' : V} (henc : ∃ b, cfg.encode v' = .ok b)
    (hcf : CollisionFree cfg.hasher (Among (hashedBy cfg (some r) [k] [v'] s ++ H))) :
    ∃ r' s' p', insert cfg (some r) [k] [v'] s = (.ok r', s') ∧ C.alive s' ∧
      generateInclusionProof cfg s' r' k = .ok p' ∧ p'.drop 2 = p.drop 2 ∧
      verifyInclusionProof cfg.hasher cfg.encode r' k v' p' = .ok () ∧
      ∀ x q, q.drop 2 = p.drop 2 → verifyInclusionProof cfg.hasher cfg.encode x k v' q = .ok () → x = r' := by
  have hcf0 : CollisionFree cfg.hasher (Among H) := hcf.mono (fun i hi => List.mem_append_right _ hi)
  obtain ⟨r', s', hrun, hal, h'⟩ := h.insert_ok hc hs hcf (prev := some r) hr hd.succ (handled_single hc k)
    rfl (by simp) (by simp) (by simpa using henc)
  have hd' : HeightBelow (M.assign [k] [v']) cfg.depth := hd.subset (fun k' => (assign_single_keys hk v' k').2)
  obtain ⟨p', hp', hver⟩ := C15_generated_proofs_verify_partial hc hroom h' hal hcf List.mem_cons_self hd'
    (assign_single_self M k v')
  obtain ⟨T, hwf, hl, hst, hM⟩ := h.version hc hcf0 hr
  obtain ⟨T', hwf', hl', hst', hM'⟩ := h'.version hc hcf List.mem_cons_self
  obtain ⟨b, hb, hbe⟩ := hM.entry hwf hk
  obtain ⟨b', hb', hbe'⟩ := hM'.entry hwf' (assign_single_self M k v')
  have hpath := path_congr hwf hwf' hM hM' hb hb' (assign_single_keys hk v')
    (fun k' hne => (assign_single_ne M v' hne).symm) cfg.hasher
  have e1 : p.drop 2 = T.path cfg.hasher k := by
    have := proof_stored (C := C) hc.pos hwf.norm hst k
    rw [readProof_wf T 0 hwf (by have := hd.height hwf hM; omega) hb, hl, generateInclusionProof_ok hp] at this
    rcases this with h1 | ⟨-, e, h1⟩
    · cases h1; rfl
    · cases h1
  have e2 : p'.drop 2 = T'.path cfg.hasher k := by
    have := proof_stored (C := C) hc.pos hwf'.norm hst' k
    rw [readProof_wf T' 0 hwf' (by have := hd'.height hwf' hM'; omega) hb', hl', generateInclusionProof_ok hp'] at this
    rcases this with h1 | ⟨-, e, h1⟩
    · cases h1; rfl
    · cases h1
  refine ⟨r', s', p', hrun, hal, hp', by rw [e1, e2, hpath], hver, ?_⟩
  intro x q hq hx
  obtain ⟨b1, f0, f1, rest, h1, rfl, h3⟩ := (verify_iff _ _ _ _ _ _).1 hx
  rw [hbe'] at h1
  cases h1
  rw [← h3, ← hl']
  have : rest = T'.path cfg.hasher k := by rw [← hpath, ← e1, ← hq]; rfl
  rw [this]
  exact foldProof_path _ hwf' hb'

/-- C88: changing the value of `k`, as followed by the holder of a proof of another key `k2` who sees a proof of `k`.  Let
`b` be the first bit at which the keys differ.  The proof of `k2` keeps its length, its first entry, and all entries but
that of `b`.  The hash in the entry of `b` becomes the one, and the only one, that accepts the new value of `k` with the
entries of the proof of `k` from the third up to the one before that of `b`. -/
theorem C88_other_update (hc : Sane cfg) (hroom : cfg.Room) (h : Inserts cfg C H R L s) (hs : C.alive s)
    {r : Arr N} {M : Contents N V} (hr : (r, M) ∈ L) (hd : HeightBelow M cfg.depth)
    {k k2 : Arr N} (hne : k ≠ k2) {v v2 : V} (hk : M k = some v) (hk2 : M k2 = some v2) {p p2 : List (Arr N × Bool)}
    (hp : generateInclusionProof cfg s r k = .ok p) (hp2 : generateInclusionProof cfg s r k2 = .ok p2)
    {bits bits2 : List Nat} (hb : PartBits M k bits) (hb2 : PartBits M k2 bits2)
    {i j : Nat} (hj : bits[j]? = some (firstDiff k k2)) (hi : bits2[i]? = some (firstDiff k k2))
    {v' : V} (henc : ∃ b, cfg.encode v' = .ok b)
    (hcf : CollisionFree cfg.hasher (Among (hashedBy cfg (some r) [k] [v'] s ++ H))) :
    ∃ r' s' p2', insert cfg (some r) [k] [v'] s = (.ok r', s') ∧ C.alive s' ∧
      generateInclusionProof cfg s' r' k2 = .ok p2' ∧
      verifyInclusionProof cfg.hasher cfg.encode r' k2 v2 p2' = .ok () ∧
      p2'.length = p2.length ∧ (∀ n, n ≠ i + 1 → p2'[n]? = p2[n]?) ∧
      ∃ y side, p2'[i + 1]? = some (y, side) ∧ p2[i + 1]?.map Prod.snd = some side ∧
        (∃ q, q.drop 2 = (p.drop 2).take (j - 1) ∧
          verifyInclusionProof cfg.hasher cfg.encode y k v' q = .ok ()) ∧
        ∀ x q, q.drop 2 = (p.drop 2).take (j - 1) →
          verifyInclusionProof cfg.hasher cfg.encode x k v' q = .ok () → x = y := by
  have hcf0 : CollisionFree cfg.hasher (Among H) := hcf.mono (fun i hi => List.mem_append_right _ hi)
  obtain ⟨r', s', hrun, hal, h'⟩ := h.insert_ok hc hs hcf (prev := some r) hr hd.succ (handled_single hc k)
    rfl (by simp) (by simp) (by simpa using henc)
  have hkeys := assign_single_keys hk v'
  have hd' : HeightBelow (M.assign [k] [v']) cfg.depth := hd.subset (fun k' => (hkeys k').2)
  have hk2' : M.assign [k] [v'] k2 = some v2 := by rw [assign_single_ne _ _ hne.symm]; exact hk2
  obtain ⟨p2', hp2', hver⟩ := C15_generated_proofs_verify_partial hc hroom h' hal hcf List.mem_cons_self hd' hk2'
  obtain ⟨T, hwf, hl, hst, hM⟩ := h.version hc hcf0 hr
  obtain ⟨T', hwf', hl', hst', hM'⟩ := h'.version hc hcf List.mem_cons_self
  obtain ⟨b, hbk, hbe⟩ := hM.entry hwf hk
  obtain ⟨b', hbk', hbe'⟩ := hM'.entry hwf' (assign_single_self M k v')
  obtain ⟨b2, hbk2, hbe2⟩ := hM.entry hwf hk2
  obtain ⟨b2', hbk2', hbe2'⟩ := hM'.entry hwf' hk2'
  have : b2' = b2 := by rw [hbe2] at hbe2'; cases hbe2'; rfl
  subst this
  have hkT : k ∈ T.keys := List.mem_map_of_mem (f := Prod.fst) hbk
  have hkT2 : k2 ∈ T.keys := List.mem_map_of_mem (f := Prod.fst) hbk2
  have hkT' : k ∈ T'.keys := List.mem_map_of_mem (f := Prod.fst) hbk'
  have hkT2' : k2 ∈ T'.keys := List.mem_map_of_mem (f := Prod.fst) hbk2'
  -- the proofs
  have e1 : p = (Trie.dataLoc cfg.hasher k b, false) ::
      (T.parts k).map fun e => (e.2.loc cfg.hasher, decide (e.1 < 8 * N) && !k.bit e.1) := by
    have := proof_stored (C := C) hc.pos hwf.norm hst k
    rw [readProof_wf T 0 hwf (by have := hd.height hwf hM; omega) hbk, hl, generateInclusionProof_ok hp] at this
    rcases this with h1 | ⟨-, e, h1⟩
    · cases h1; rw [parts_path hwf hbk]
    · cases h1
  have e2 : p2 = (Trie.dataLoc cfg.hasher k2 b2', false) ::
      (T.parts k2).map fun e => (e.2.loc cfg.hasher, decide (e.1 < 8 * N) && !k2.bit e.1) := by
    have := proof_stored (C := C) hc.pos hwf.norm hst k2
    rw [readProof_wf T 0 hwf (by have := hd.height hwf hM; omega) hbk2, hl, generateInclusionProof_ok hp2] at this
    rcases this with h1 | ⟨-, e, h1⟩
    · cases h1; rw [parts_path hwf hbk2]
    · cases h1
  have e3 : p2' = (Trie.dataLoc cfg.hasher k2 b2', false) ::
      (T'.parts k2).map fun e => (e.2.loc cfg.hasher, decide (e.1 < 8 * N) && !k2.bit e.1) := by
    have := proof_stored (C := C) hc.pos hwf'.norm hst' k2
    rw [readProof_wf T' 0 hwf' (by have := hd'.height hwf' hM'; omega) hbk2', hl', generateInclusionProof_ok hp2'] at this
    rcases this with h1 | ⟨-, e, h1⟩
    · cases h1; rw [parts_path hwf' hbk2']
    · cases h1
  have hbits2 : bits2 = (T.parts k2).map Prod.fst :=
    eq_of_falling hb2.sorted (parts_bits hwf hM hkT2).sorted (fun x => by rw [hb2.mem, (parts_bits hwf hM hkT2).mem])
  have hbits : bits = (T.parts k).map Prod.fst :=
    eq_of_falling hb.sorted (parts_bits hwf hM hkT).sorted (fun x => by rw [hb.mem, (parts_bits hwf hM hkT).mem])
  subst hbits hbits2
  have hsame := parts_same_bits hwf hwf' hM hM' hkT2 hkeys
  have hlen : (T'.parts k2).length = (T.parts k2).length := by simpa using (congrArg List.length hsame).symm
  -- the part that changes
  have hi' := hi
  rw [hsame] at hi'
  rw [List.getElem?_map] at hi hi' hj
  obtain ⟨e, he, hef⟩ := Option.map_eq_some_iff.1 hi
  obtain ⟨e', he', hef'⟩ := Option.map_eq_some_iff.1 hi'
  have hme := List.mem_of_getElem? he
  have hme' := List.mem_of_getElem? he'
  have hke : (k, b) ∈ e.2.entries :=
    ((parts_entries hwf hkT2 e hme).2 (k, b)).2 ⟨hbk, by rw [hef, firstDiff_comm]⟩
  have hke' : (k, b') ∈ e'.2.entries :=
    ((parts_entries hwf' hkT2' e' hme').2 (k, b')).2 ⟨hbk', by rw [hef', firstDiff_comm]⟩
  have hwe := (parts_sub e hme).wf hwf
  have hwe' := (parts_sub e' hme').wf hwf'
  have hpath := path_congr hwe hwe' (parts_represent hwf hM hkT2 hme) (parts_represent hwf' hM' hkT2' hme') hke hke'
    (fun k' => by
      unfold Contents.part
      rw [hef, hef']
      split
      · exact hkeys k'
      · exact Iff.rfl)
    (fun k' hn => by
      unfold Contents.part
      rw [hef, hef', assign_single_ne M v' hn]) cfg.hasher
  have hhead : (p.drop 2).take (j - 1) = e'.2.path cfg.hasher k := by
    obtain ⟨u, rest, hthru, -⟩ := parts_through hne hwf hkT hkT2 e hme (List.mem_map_of_mem (f := Prod.fst) hke)
    obtain ⟨m, hm⟩ := parts_head hwe hke
    have hpe := parts_path (H := cfg.hasher) hwe hke
    -- the place of the bit
    have hjl : j = (e.2.parts k).length := by
      obtain ⟨g, hg, hgf⟩ := Option.map_eq_some_iff.1 hj
      have hnd : ((T.parts k).map Prod.fst).Nodup :=
        ((parts_sorted hwf hkT).1).imp (fun h => by omega)
      have a1 : ((T.parts k).map Prod.fst)[j]? = some (firstDiff k k2) := by
        rw [List.getElem?_map]; exact hj
      have a2 : ((T.parts k).map Prod.fst)[(e.2.parts k).length]? = some (firstDiff k k2) := by
        rw [hthru, List.getElem?_map, List.getElem?_append_right (le_refl _)]
        simp [hef]
      have hlt : j < ((T.parts k).map Prod.fst).length := (List.getElem?_eq_some_iff.1 a1).1
      exact (List.getElem?_inj hlt hnd).1 (a1.trans a2.symm)
    rw [← hpath]
    have e4 : p.drop 2 = e.2.path cfg.hasher k ++
        (((e.1, u) :: rest).map fun e => (e.2.loc cfg.hasher, decide (e.1 < 8 * N) && !k.bit e.1)) := by
      rw [e1, hthru, List.map_append, ← hpe]
      rfl
    have hl2 : (e.2.path cfg.hasher k).length = j - 1 := by
      have := congrArg List.length hpe
      simp only [List.length_cons, List.length_map] at this
      omega
    rw [e4, ← hl2, List.take_left]
  refine ⟨r', s', p2', hrun, hal, hp2', hver, by rw [e2, e3]; simp [hlen], ?_,
    e'.2.loc cfg.hasher, decide (e'.1 < 8 * N) && !k2.bit e'.1, ?_, ?_, ?_, ?_⟩
  · intro n hn
    rw [e2, e3]
    cases n with
    | zero => rfl
    | succ n =>
      rw [List.getElem?_cons_succ, List.getElem?_cons_succ, List.getElem?_map, List.getElem?_map]
      cases hg : (T.parts k2)[n]? with
      | none =>
        rw [List.getElem?_eq_none_iff] at hg
        rw [List.getElem?_eq_none_iff.2 (by omega)]
      | some g =>
        rw [← parts_getElem hwf hwf' hM hM' hkT2 hkeys (i := n) (b := g.1)
          (by rw [List.getElem?_map, hg]; rfl) ?_, hg]
        intro k' hf
        rw [assign_single_ne]
        rintro rfl
        have hnd : ((T.parts k2).map Prod.fst).Nodup :=
          ((parts_sorted hwf hkT2).1).imp (fun h => by omega)
        have a1 : ((T.parts k2).map Prod.fst)[n]? = some (firstDiff k' k2) := by
          rw [List.getElem?_map, hg, firstDiff_comm k' k2, hf]; rfl
        have a2 : ((T.parts k2).map Prod.fst)[i]? = some (firstDiff k' k2) := by
          rw [List.getElem?_map]; exact hi
        have hlt : n < ((T.parts k2).map Prod.fst).length := (List.getElem?_eq_some_iff.1 a1).1
        have := (List.getElem?_inj hlt hnd).1 (a1.trans a2.symm)
        omega
  · rw [e3, List.getElem?_cons_succ, List.getElem?_map, he']; rfl
  · rw [e2, List.getElem?_cons_succ, List.getElem?_map, he, hef', ← hef]; rfl
  · exact ⟨(Trie.dataLoc cfg.hasher k b', false) :: ((Trie.leaf k b').loc cfg.hasher, false) :: e'.2.path cfg.hasher k,
      hhead.symm, (verify_iff _ _ _ _ _ _).2 ⟨b', false, false, _, hbe', rfl, foldProof_path _ hwe' hke'⟩⟩
  · intro x q hq hx
    obtain ⟨b1, f0, f1, rest, h1, rfl, h3⟩ := (verify_iff _ _ _ _ _ _).1 hx
    rw [hbe'] at h1
    cases h1
    have : rest = e'.2.path cfg.hasher k := by rw [← hhead, ← hq]; rfl
    rw [← h3, this]
    exact foldProof_path _ hwe' hke'

/-- The proof of a pair of a version. -/
theorem proof_shape (hc : Sane cfg) {M : Contents N V} (hd : HeightBelow M cfg.depth) {T : Trie N} (hwf : T.WF)
    (hst : Stored cfg.hasher (C.view s) T) (hM : Represents cfg T M) {k : Arr N} {b : List UInt8} (hb : (k, b) ∈ T.entries)
    {p : List (Arr N × Bool)} (hp : generateInclusionProof cfg s (T.loc cfg.hasher) k = .ok p) :
    p = (Trie.dataLoc cfg.hasher k b, false) ::
      (T.parts k).map (fun e => (e.2.loc cfg.hasher, decide (e.1 < 8 * N) && !k.bit e.1)) ∧
    p = (Trie.dataLoc cfg.hasher k b, false) :: ((Trie.leaf k b).loc cfg.hasher, false) :: T.path cfg.hasher k := by
  have := proof_stored (C := C) hc.pos hwf.norm hst k
  rw [readProof_wf T 0 hwf (by have := hd.height hwf hM; omega) hb, generateInclusionProof_ok hp] at this
  rcases this with h1 | ⟨-, e, h1⟩
  · cases h1; exact ⟨by rw [parts_path hwf hb], rfl⟩
  · cases h1

/-- One update, as followed by a client. -/
theorem client_step (hc : Sane cfg) (hroom : cfg.Room) (h : Inserts cfg C H R L s) (hs : C.alive s)
    {r : Arr N} {M : Contents N V} (hr : (r, M) ∈ L) (hd : HeightBelow M cfg.depth)
    {c : Client N} (hcl : ∀ k p, c.proofs k = some p → generateInclusionProof cfg s r k = .ok p)
    {k : Arr N} (hk : c.proofs k ≠ none) {v' : V} (henc : ∃ b, cfg.encode v' = .ok b)
    (hcf : CollisionFree cfg.hasher (Among (hashedBy cfg (some r) [k] [v'] s ++ H))) :
    ∃ s' c', insert cfg (some r) [k] [v'] s = (.ok c'.root, s') ∧ C.alive s' ∧
      c.update cfg.hasher cfg.encode k v' = some c' ∧ HeightBelow (M.assign [k] [v']) cfg.depth ∧
      Inserts cfg C (hashedBy cfg (some r) [k] [v'] s ++ H) (c'.root :: R) ((c'.root, M.assign [k] [v']) :: L) s' ∧
      (∀ k, c'.proofs k = none ↔ c.proofs k = none) ∧
      ∀ k p, c'.proofs k = some p → generateInclusionProof cfg s' c'.root k = .ok p := by
  have hcf0 : CollisionFree cfg.hasher (Among H) := hcf.mono (fun i hi => List.mem_append_right _ hi)
  have stored : ∀ k p, c.proofs k = some p → ∃ v, M k = some v := by
    intro k p hp
    cases hv : M k with
    | some v => exact ⟨v, rfl⟩
    | none =>
      obtain ⟨msg, hm⟩ := version_no_proof (C := C) hc.pos (h.version hc hcf0 hr) hv
      have := generateInclusionProof_ok (hcl k p hp)
      rw [hm] at this; cases this
  obtain ⟨p, hpk⟩ := Option.ne_none_iff_exists'.1 hk
  have hp := hcl k p hpk
  obtain ⟨v, hv⟩ := stored k p hpk
  obtain ⟨b, hb⟩ := henc
  obtain ⟨r', s', hrun, hal, h'⟩ := h.insert_ok hc hs hcf (prev := some r) hr hd.succ (handled_single hc k)
    rfl (by simp) (by simp) (by simpa using ⟨b, hb⟩)
  have hd' : HeightBelow (M.assign [k] [v']) cfg.depth := hd.subset (fun k' => (assign_single_keys hv v' k').2)
  obtain ⟨T, hwf, hl, hst, hM⟩ := h.version hc hcf0 hr
  obtain ⟨T', hwf', hl', hst', hM'⟩ := h'.version hc hcf List.mem_cons_self
  obtain ⟨bv, hbv, hbve⟩ := hM.entry hwf hv
  obtain ⟨b1, hb1, hbe⟩ := hM'.entry hwf' (assign_single_self M k v')
  have : b1 = b := by rw [hb] at hbe; cases hbe; rfl
  subst this
  -- the key itself
  obtain ⟨r1, s1, p', hrun1, -, hp', hdrop, -, honly⟩ := C88_own_update hc hroom h hs hr hd hv hp ⟨b1, hb⟩ hcf
  rw [hrun] at hrun1
  cases hrun1
  have hroot : climb cfg.hasher (pairHash cfg.hasher k b1) (p.drop 2) = r' :=
    honly _ ((Trie.dataLoc cfg.hasher k b1, false) :: ((Trie.leaf k b1).loc cfg.hasher, false) :: p.drop 2) rfl
      ((verify_iff _ _ _ _ _ _).2 ⟨b1, false, false, _, hb, rfl, (climb_eq _ _ _).symm⟩)
  have hown : p' = (Trie.dataLoc cfg.hasher k b1, false) :: ((Trie.leaf k b1).loc cfg.hasher, false) :: p.drop 2 := by
    have := (proof_shape (C := C) hc hd' hwf' hst' hM' hb1 (p := p') (by rw [hl']; exact hp')).2
    rw [← hdrop, this]
    rfl
  -- other keys
  have hother : ∀ k2 p2, k2 ≠ k → c.proofs k2 = some p2 →
      generateInclusionProof cfg s' r' k2 = .ok (follow cfg.hasher k b1 p p2) := by
    intro k2 p2 hne hpk2
    have hp2 := hcl k2 p2 hpk2
    obtain ⟨v2, hv2⟩ := stored k2 p2 hpk2
    obtain ⟨b2, hb2, -⟩ := hM.entry hwf hv2
    have hkT : k ∈ T.keys := List.mem_map_of_mem (f := Prod.fst) hbv
    have hkT2 : k2 ∈ T.keys := List.mem_map_of_mem (f := Prod.fst) hb2
    obtain ⟨u, u2, bit, rest, hbit, hf1, hf2⟩ := parts_fork (Ne.symm hne) hwf hkT hkT2
    have e1 := (proof_shape (C := C) hc hd hwf hst hM hbv (p := p) (by rw [hl]; exact hp)).1
    have e2 := (proof_shape (C := C) hc hd hwf hst hM hb2 (p := p2) (by rw [hl]; exact hp2)).1
    have hj : ((T.parts k).map Prod.fst)[(u.parts k).length]? = some (firstDiff k k2) := by
      rw [hf1, List.getElem?_map, List.getElem?_append_right (le_refl _)]
      simp [hbit]
    have hi : ((T.parts k2).map Prod.fst)[(u2.parts k2).length]? = some (firstDiff k k2) := by
      rw [hf2, List.getElem?_map, List.getElem?_append_right (le_refl _)]
      simp [hbit]
    obtain ⟨r1, s1, p2', hrun1, -, hp2', -, hlen, hkeep, y, side, hy, hside, -, hyonly⟩ :=
      C88_other_update hc hroom h hs hr hd (Ne.symm hne) hv hv2 hp hp2 (parts_bits hwf hM hkT) (parts_bits hwf hM hkT2)
        hj hi ⟨b1, hb⟩ hcf
    rw [hrun] at hrun1
    cases hrun1
    have hfd : firstDiff k k2 < 8 * N := firstDiff_lt_iff.2 (Ne.symm hne)
    have hrest : rest.map (fun e => (e.2.loc cfg.hasher, decide (e.1 < 8 * N) && !k.bit e.1)) =
        rest.map (fun e => (e.2.loc cfg.hasher, decide (e.1 < 8 * N) && !k2.bit e.1)) := by
      apply List.map_congr_left
      intro e he
      have hso := (parts_sorted hwf hkT).1
      rw [hf1, List.map_append, List.map_cons, List.pairwise_append, List.pairwise_cons] at hso
      have := hso.2.1.1 e.1 (List.mem_map_of_mem he)
      rw [bit_eq_of_lt_firstDiff (a := k) (b := k2) (i := e.1) (by omega)]
    have hcommon : commonEnd p p2 = rest.length := by
      rw [e1, e2, hf1, hf2, List.map_append, List.map_append, List.map_cons, List.map_cons, ← List.cons_append,
        ← List.cons_append, hrest, commonEnd_append ?_, List.length_map]
      intro heq
      have := (Prod.mk.inj heq).2
      have hbn := bit_ne_firstDiff hfd
      rw [← hbit] at hbn hfd
      simp only [hfd, decide_true, Bool.true_and, Bool.not_inj_iff] at this
      exact hbn this
    have hl1 : p.length = (u.parts k).length + rest.length + 2 := by rw [e1, hf1]; simp; omega
    have hl2 : p2.length = (u2.parts k2).length + rest.length + 2 := by rw [e2, hf2]; simp; omega
    have hyeq : climb cfg.hasher (pairHash cfg.hasher k b1) ((p.drop 2).take ((u.parts k).length - 1)) = y :=
      hyonly _ ((Trie.dataLoc cfg.hasher k b1, false) :: ((Trie.leaf k b1).loc cfg.hasher, false) ::
        (p.drop 2).take ((u.parts k).length - 1)) rfl
        ((verify_iff _ _ _ _ _ _).2 ⟨b1, false, false, _, hb, rfl, (climb_eq _ _ _).symm⟩)
    rw [hp2']
    congr 1
    unfold follow
    dsimp only
    rw [hcommon, show p2.length - rest.length - 1 = (u2.parts k2).length + 1 by omega,
      show p.length - rest.length - 3 = (u.parts k).length - 1 by omega, hyeq]
    apply List.ext_getElem?
    intro n
    rw [List.getElem?_modify]
    by_cases hn : n = (u2.parts k2).length + 1
    · subst hn
      obtain ⟨e, he, hes⟩ := Option.map_eq_some_iff.1 hside
      rw [hy, he]
      simp [hes]
    · rw [hkeep n hn]
      simp only [if_neg (Ne.symm hn)]
      cases p2[n]? <;> rfl
  refine ⟨s', ⟨climb cfg.hasher (pairHash cfg.hasher k b1) (p.drop 2), fun k' =>
      if k' = k then some (((HIn.data k b1).hash cfg.hasher, false) :: (pairHash cfg.hasher k b1, false) :: p.drop 2)
      else (c.proofs k').map (follow cfg.hasher k b1 p)⟩, ?_, hal, ?_, hd', ?_, ?_, ?_⟩
  · rw [hrun, hroot]
  · unfold Client.update
    rw [hpk, hb]
  · rw [hroot]; exact h'
  · intro k'
    dsimp only
    split
    · rename_i heq; subst heq; simp [hpk]
    · simp
  · intro k' q hq
    dsimp only at hq ⊢
    rw [hroot]
    split at hq
    · rename_i heq
      subst heq
      cases hq
      rw [hp', hown]
      rfl
    · rename_i hn
      obtain ⟨p2, h1, rfl⟩ := Option.map_eq_some_iff.1 hq
      exact hother k' p2 hn h1

/-- C88: a client that knows a root and the proofs of some keys, and hears of updates of their values, stays in step with
the database: its root is the one that the last insert returned, and its proofs are those that
`generate_inclusion_proof` returns.  What the client does is in `Client.update`; it has no access to the database. -/
theorem C88_client (hc : Sane cfg) (hroom : cfg.Room) : ∀ {updates : List (Arr N × V)} {H : List (HIn N)}
    {R : List (Arr N)} {L : Ledger N V} {s : σ}, Inserts cfg C H R L s → C.alive s →
    ∀ {M : Contents N V} {c : Client N}, (c.root, M) ∈ L → HeightBelow M cfg.depth →
    (∀ k p, c.proofs k = some p → generateInclusionProof cfg s c.root k = .ok p) →
    (∀ e ∈ updates, c.proofs e.1 ≠ none) → (∀ e ∈ updates, ∃ b, cfg.encode e.2 = .ok b) →
    CollisionFree cfg.hasher (Among (hashedByEach cfg (some c.root) updates s ++ H)) →
    ∃ s' c', insertEach cfg (some c.root) updates s = (.ok (some c'.root), s') ∧ C.alive s' ∧
      c.updates cfg.hasher cfg.encode updates = some c' ∧ (∀ k, c'.proofs k = none ↔ c.proofs k = none) ∧
      ∀ k p, c'.proofs k = some p → generateInclusionProof cfg s' c'.root k = .ok p := by
  intro updates
  induction updates with
  | nil =>
    intro H R L s h hs M c hr hd hcl _ _ _
    exact ⟨s, c, rfl, hs, rfl, fun _ => Iff.rfl, hcl⟩
  | cons e rest ih =>
    obtain ⟨k, v⟩ := e
    intro H R L s h hs M c hr hd hcl hks henc hcf
    have hrun1 : insertOne cfg (some c.root) k v s = insert cfg (some c.root) [k] [v] s := by
      rw [C10_insert_one_is_insert]
    have hcf1 : CollisionFree cfg.hasher (Among (hashedBy cfg (some c.root) [k] [v] s ++ H)) := by
      refine hcf.mono fun i hi => ?_
      rcases List.mem_append.1 hi with hi | hi
      · refine List.mem_append_left _ ?_
        unfold hashedByEach
        split
        · exact List.mem_append_right _ hi
        · exact hi
      · exact List.mem_append_right _ hi
    obtain ⟨s1, c1, hrun, hal, hup, hd1, h1, hdom, hcl1⟩ := client_step hc hroom h hs hr hd hcl
      (hks (k, v) List.mem_cons_self) (henc (k, v) List.mem_cons_self) hcf1
    rw [hrun] at hrun1
    obtain ⟨s2, c2, h2, h3, h4, h5, h6⟩ := ih h1 hal List.mem_cons_self hd1 hcl1
      (fun e he h0 => hks e (List.mem_cons_of_mem _ he) ((hdom e.1).1 h0))
      (fun e he => henc e (List.mem_cons_of_mem _ he))
      (by
        refine hcf.mono fun i hi => ?_
        unfold hashedByEach
        rw [hrun1]
        simpa [Among, List.append_assoc] using hi)
    refine ⟨s2, c2, ?_, h3, ?_, fun k' => (h5 k').trans (hdom k'), h6⟩
    · unfold insertEach
      show MerkleBit.M.bind _ _ s = _
      unfold MerkleBit.M.bind
      rw [hrun1]
      exact h2
    · unfold Client.updates
      rw [hup]
      exact h4

end

/-! ## A concrete update -/

namespace Toy

/-- The hypotheses of `C88_unchanged` are met: the second insert left the keys above 0x8000 alone. -/
example : proof2[4]? = proof1[3]? :=
  C88_unchanged sane sane rfl rfl hist2 hist2 free2 free2 (r := r1) (M := M1) (r' := r2) (M' := M2) (by simp) (by simp)
    (deep _) (deep _) (k := key 1) (v := [10]) (v' := [10]) (by decide +kernel) (by decide +kernel)
    (p := proof1) (p' := proof2) (by decide +kernel) proof2_eq bits1 bits2 (i := 2) (i' := 3) (b := 0) rfl rfl
    (by
      intro k' hk'
      by_cases h2 : k' ∈ ks2
      · simp only [ks2, List.mem_cons, List.not_mem_nil, or_false] at h2
        rcases h2 with rfl | rfl <;> exact absurd hk' (by decide +kernel)
      · rw [M2, assign_not_mem _ _ h2])

/-- The hypotheses of `C88_after_insert` are met: the key 5 is changed, the key 6 is added, and the entries of the key 2 and of the key
0x8000 stay in the proof of the key 1. -/
example : ∃ r' s' p' i j, insert cfg (some r2) [key 5, key 6] [[51], [60]] s2 = (.ok r', s') ∧
    generateInclusionProof cfg s' r' (key 1) = .ok p' ∧ p'[i + 1]? = proof2[2]? ∧ p'[j + 1]? = proof2[4]? := by
  have hcf : CollisionFree cfg.hasher (Among (hashedBy cfg (some r2) [key 5, key 6] [[51], [60]] s2 ++ H2)) :=
    collisionFree_of_check (by decide +kernel)
  have hh : Handled cfg M2 [key 5, key 6] := (noStraddle_of_new (by
    have h5 : M2 (key 5) ≠ none := by decide +kernel
    have hd : ∀ k ∈ [key 5, key 6], M2 k = none → k = key 6 := by
      intro k hk h
      simp only [List.mem_cons, List.not_mem_nil, or_false] at hk
      rcases hk with rfl | rfl
      · exact absurd h h5
      · rfl
    intro k hk k' hk' h1 h2
    rw [hd k hk h1, hd k' hk' h2])).handled sane
  obtain ⟨r', s', hrun, hal, h'⟩ := hist2.insert_ok sane (alive _) hcf (prev := some r2) (M := M2) List.mem_cons_self
    (deep _).succ hh (values := [[51], [60]]) rfl (by decide) (by decide) (fun v _ => ⟨v, rfl⟩)
  have hk' : M2.assign [key 5, key 6] [[51], [60]] (key 1) = some [10] := by decide +kernel
  obtain ⟨p', hp', -⟩ := C15_generated_proofs_verify_partial sane room h' hal hcf List.mem_cons_self (deep _) hk'
  obtain ⟨bits', hb'⟩ := part_bits sane h' hcf List.mem_cons_self (k := key 1) (by rw [hk']; simp)
  have := fun i b hi ho => C88_after_insert sane hist2 (r := r2) (M := M2) List.mem_cons_self hh hrun hcf (deep _) (deep _)
    (k := key 1) (v := [10]) (by decide +kernel) hk' proof2_eq hp' bits2 hb' (i := i) (b := b) hi ho
  have hout : ∀ b, b ≠ 13 → ∀ k' ∈ [key 5, key 6], firstDiff (key 1) k' ≠ b := by
    intro b hb k' hk'
    have h5 : firstDiff (key 1) (key 5) = 13 := by decide +kernel
    have h6 : firstDiff (key 1) (key 6) = 13 := by decide +kernel
    simp only [List.mem_cons, List.not_mem_nil, or_false] at hk'
    rcases hk' with rfl | rfl <;> omega
  obtain ⟨i, -, hi⟩ := this 1 14 rfl (hout _ (by decide))
  obtain ⟨j, -, hj⟩ := this 3 0 rfl (hout _ (by decide))
  exact ⟨r', s', p', i, j, hrun, hp', hi, hj⟩

/-- Seen from the key 5. -/
theorem fbits5 : PartBits M2 (key 5) [16, 13, 0] := by
  refine ⟨by decide, fun b => ?_⟩
  constructor
  · intro hb
    simp only [List.mem_cons, List.not_mem_nil, or_false] at hb
    rcases hb with rfl | rfl | rfl
    · exact ⟨key 5, by decide +kernel, by decide +kernel⟩
    · exact ⟨key 1, by decide +kernel, by decide +kernel⟩
    · exact ⟨key 0x8000, by decide +kernel, by decide +kernel⟩
  · rintro ⟨k', h1, rfl⟩
    rcases keys2 h1 with rfl | rfl | rfl | rfl <;> decide +kernel

/-- The proof of the key 5. -/
def fproof5 : List (Arr 2 × Bool) := ((generateInclusionProof cfg s2 r2 (key 5)).toOption).getD []

/-- The hypotheses of `C88_own_update` are met: the root after the key 1 got the value 77. -/
example : ∃ r' s', insert cfg (some r2) [key 1] [[77]] s2 = (.ok r', s') ∧
    ∀ x q, q.drop 2 = proof2.drop 2 → verifyInclusionProof cfg.hasher cfg.encode x (key 1) [77] q = .ok () → x = r' := by
  obtain ⟨r', s', p', h1, -, -, -, -, h2⟩ := C88_own_update sane room hist2 (alive _) (r := r2) (M := M2)
    List.mem_cons_self (deep _) (k := key 1) (v := [10]) (by decide +kernel) proof2_eq (v' := [77]) ⟨_, rfl⟩
    (collisionFree_of_check (by decide +kernel))
  exact ⟨r', s', h1, h2⟩

/-- The hypotheses of `C88_other_update` are met: the proof of the key 5 after the key 1 got the value 77.  Its third
entry changes. -/
example : ∃ r' s' p', insert cfg (some r2) [key 1] [[77]] s2 = (.ok r', s') ∧
    generateInclusionProof cfg s' r' (key 5) = .ok p' ∧ p'[1]? = fproof5[1]? ∧ p'[3]? = fproof5[3]? ∧
    ∃ y, p'[2]? = some (y, false) ∧ ∃ q, q.drop 2 = (proof2.drop 2).take 1 ∧
      verifyInclusionProof cfg.hasher cfg.encode y (key 1) [77] q = .ok () := by
  obtain ⟨r', s', p', h1, -, h2, -, -, h3, y, side, h4, h5, h6, -⟩ := C88_other_update sane room hist2 (alive _)
    (r := r2) (M := M2) List.mem_cons_self (deep _) (k := key 1) (k2 := key 5) (by decide) (v := [10]) (v2 := [50])
    (by decide +kernel) (by decide +kernel) proof2_eq (p2 := fproof5) (by decide +kernel) bits2 fbits5
    (i := 1) (j := 2) (by decide +kernel) (by decide +kernel) (v' := [77]) ⟨_, rfl⟩
    (collisionFree_of_check (by decide +kernel))
  refine ⟨r', s', p', h1, h2, h3 _ (by decide), h3 _ (by decide), y, ?_, h6⟩
  have : fproof5[1 + 1]?.map Prod.snd = some false := by decide +kernel
  rw [this] at h5
  cases h5
  exact h4

/-- A client with the proofs of the keys 1 and 5. -/
def fclient : Client 2 where
  root := r2
  proofs := fun k => if k = key 1 then some proof2 else if k = key 5 then some fproof5 else none

/-- The hypotheses of `C88_client` are met: the client follows three updates of the keys 1 and 5. -/
example : ∃ s' c', insertEach cfg (some r2) [(key 1, [77]), (key 5, [78]), (key 1, [79])] s2 = (.ok (some c'.root), s') ∧
    fclient.updates cfg.hasher cfg.encode [(key 1, [77]), (key 5, [78]), (key 1, [79])] = some c' ∧
    ∃ p, c'.proofs (key 5) = some p ∧ generateInclusionProof cfg s' c'.root (key 5) = .ok p := by
  obtain ⟨s', c', h1, -, h2, h3, h4⟩ := C88_client sane room
    (updates := [(key 1, [77]), (key 5, [78]), (key 1, [79])]) hist2 (alive _) (M := M2) (c := fclient) List.mem_cons_self (deep _)
    (by
      intro k p hk
      unfold fclient at hk
      dsimp only at hk
      split at hk
      · rename_i he; subst he; cases hk; exact proof2_eq
      · split at hk
        · rename_i he; subst he; cases hk; decide +kernel
        · cases hk)
    (by decide +kernel) (fun e _ => ⟨_, rfl⟩) (collisionFree_of_check (by decide +kernel))
  refine ⟨s', c', h1, h2, ?_⟩
  cases hp : c'.proofs (key 5) with
  | none => exact absurd ((h3 _).1 hp) (by decide +kernel)
  | some p => exact ⟨p, rfl, h4 _ _ hp⟩

end Toy
end MerkleBit
