import Verif.Proof.Storage
import Verif.Props.Live
import Verif.Props.Calls
/-!
# C48-C52: what a database holds

For strict histories (`Uses cfg C True`): successful inserts on top of live versions, in which no pair of a
live version is inserted again and no branch is straddled, and successful removals of live versions, in
any order.
-/

namespace MerkleBit
open Trie
variable {N : Nat} {σ V : Type} {cfg : Config N σ V} {C : DbContract cfg.db}
  {H : List (HIn N)} {L L1 L2 : Ledger N V} {s s' : σ}

/-! ## C48 -/

/-- C48: what the database holds, reference counts included, depends only on the contents of the live
versions: two histories after which the same contents are live (each as often) hold the same nodes, on
whatever backends.
Missing for the full C48: histories in which an insert writes again what a live version has, for which it is
false (`C48_false`); failed calls; straddling batches. -/
theorem C48_storage_is_canonical_partial {σ' : Type} {cfg' : Config N σ' V} {C' : DbContract cfg'.db}
    {H' : List (HIn N)} {L' : Ledger N V} {s' : σ'} (hc : Sane cfg) (hc' : Sane cfg')
    (hhash : cfg'.hasher = cfg.hasher) (henc : cfg'.encode = cfg.encode)
    (h : Uses cfg C True H L s) (h' : Uses cfg' C' True H' L' s')
    (hcf : CollisionFree cfg.hasher (Among (H ++ H')))
    (hp : (L.map Prod.snd).Perm (L'.map Prod.snd)) : C.view s = C'.view s' :=
  uses_canonical hc hc' hhash henc h h' hcf hp

/-- The database after two inserts and the removal of the first root is the database after inserting the
contents of the second version at once. -/
example : Toy.C.view Toy.t2 = Toy.C.view (insert Toy.cfg none
    [Toy.key 5, Toy.key 1, Toy.key 0x8000, Toy.key 2] [[50], [10], [30], [21]] Toy.db0).2 := by
  have hrun : insert Toy.cfg none [Toy.key 5, Toy.key 1, Toy.key 0x8000, Toy.key 2]
    [[50], [10], [30], [21]] Toy.db0 = (.ok (Toy.key 56010), (insert Toy.cfg none
      [Toy.key 5, Toy.key 1, Toy.key 0x8000, Toy.key 2] [[50], [10], [30], [21]] Toy.db0).2) :=
    outcome (by decide +kernel)
  have hM : Contents.empty.assign [Toy.key 5, Toy.key 1, Toy.key 0x8000, Toy.key 2]
      [[50], [10], [30], [21]] = Toy.M2 := by
    funext k
    simp only [Toy.M2, Toy.M1, Contents.assign, Contents.empty, Toy.ks1, Toy.ks2, Toy.vs1, Toy.vs2,
      List.zip_cons_cons, List.zip_nil_right, List.find?_cons, List.find?_nil]
    by_cases h5 : Toy.key 5 = k
    · simp [h5]
    · by_cases h1 : Toy.key 1 = k
      · subst h1; decide
      · by_cases h8 : Toy.key 0x8000 = k
        · subst h8; decide
        · by_cases h2 : Toy.key 2 = k
          · subst h2; decide
          · simp [h5, h1, h8, h2]
  refine C48_storage_is_canonical_partial Toy.sane Toy.sane rfl rfl Toy.use3
    (.insert (.start rfl rfl) (careful_of_new (L := []) (prev := none) rfl rfl rfl (by decide +kernel)
      (noStraddle_empty _) (by simp)) hrun) (collisionFree_of_check (by decide +kernel)) ?_
  rw [hM]
  exact List.Perm.refl _

namespace Toy

/-- The third root of the history of `C19_false` is removed. -/
def d5 : HashDB 2 := (remove Toy.cfg (key 24207) d3.2).2

theorem drun5 : remove Toy.cfg (key 24207) d3.2 = (.ok (), d5) := outcome (by decide +kernel)

theorem d5_ne : Toy.C.view d5 ≠ Toy.C.view d2.2 := by
  intro h
  have h1 : (Toy.C.view d5 (key 24207)).isSome = false := by decide +kernel
  rw [h] at h1
  have h2 : (Toy.C.view d2.2 (key 24207)).isSome = true := by decide +kernel
  rw [h1] at h2
  cases h2

theorem D3_eq : D3 = D2 := by
  funext k
  simp only [D3, D2, D1, Contents.assign, Contents.empty, List.zip_cons_cons, List.zip_nil_right,
    List.find?_cons, List.find?_nil]
  by_cases h1 : key 1 = k
  · subst h1; decide
  · simp [h1]

end Toy

/-- C48 is false: the history of `C19_false` up to its second insert, against the same history with the
third insert and the removal of the root it returned; the live contents are the same. -/
theorem C48_false : ∃ (H H' : List (HIn 2)) (L L' : Ledger 2 (List UInt8)) (s s' : HashDB 2),
    Sane Toy.cfg ∧ Lives Toy.cfg Toy.C H L s ∧ Lives Toy.cfg Toy.C H' L' s' ∧
    CollisionFree Toy.cfg.hasher (Among (H ++ H')) ∧ L = L' ∧ Toy.C.view s ≠ Toy.C.view s' := by
  have h2 : Lives Toy.cfg Toy.C _ [(Toy.key 24207, Toy.D2), (Toy.key 59708, Toy.D1)] Toy.d2.2 :=
    .insert (.insert (.start rfl rfl) (prev := none) rfl (handled_empty _)
      (outcome (by decide +kernel))) (prev := some (Toy.key 59708)) (by simp [Ledger.Prev, Toy.D1])
      (handled_single Toy.sane _) (outcome (by decide +kernel))
  exact ⟨_, _, _, _, _, _, Toy.sane, Lives.remove (L1 := []) Toy.dlives Toy.drun5, h2,
    collisionFree_of_check (by decide +kernel), rfl, Toy.d5_ne⟩

/-! ## C49 -/

/-- C49: removing a root undoes the insert that returned it: the database holds exactly what it held before,
reference counts included.
Missing for the full C49: inserts that write again what a live version has, for which it is false
(`C49_false`); failed calls before; straddling batches. -/
theorem C49_remove_undoes_insert_partial (hc : Sane cfg) (h : Uses cfg C True H L s) (hs : C.alive s)
    {prev : Option (Arr N)} {M : Contents N V} {keys : List (Arr N)} {values : List V}
    (hcf : CollisionFree cfg.hasher (Among (hashedBy cfg prev keys values s ++ H)))
    (hcare : Careful cfg C True L s prev M keys values)
    (hlen : keys.length = values.length) (hne : keys ≠ [])
    (henc : ∀ v ∈ values, ∃ b, cfg.encode v = .ok b) (hd : HeightBelow M (cfg.depth + 1)) :
    ∃ r s1 s2, insert cfg prev keys values s = (.ok r, s1) ∧ remove cfg r s1 = (.ok (), s2) ∧
      C.view s2 = C.view s ∧ C.alive s2 := by
  obtain ⟨r, s1, h1, hs1, hp1, hu1⟩ := C47_live_roots_accept_partial hc h hs hcf hcare hlen hne henc hd
  obtain ⟨s2, h2, hs2⟩ := remove_alive (C := C) (cfg := cfg) hs1 r
  refine ⟨r, s1, s2, h1, h2, ?_, hs2⟩
  have hu2 := Uses.remove (L1 := []) hu1 (.inl hp1) h2
  refine uses_canonical hc hc rfl rfl hu2 h (hcf.mono ?_) (List.Perm.refl _)
  intro i hi
  rcases List.mem_append.1 hi with hi | hi
  · exact hi
  · exact List.mem_append_right _ hi

/-- An update and a new key on top of the second root of the concrete history. -/
example : ∃ r s1 s2, insert Toy.cfg (some Toy.r2) [Toy.key 7, Toy.key 2] [[70], [22]] Toy.s2 = (.ok r, s1) ∧
    remove Toy.cfg r s1 = (.ok (), s2) ∧ Toy.C.view s2 = Toy.C.view Toy.s2 := by
  obtain ⟨r, s1, s2, h1, h2, h3, -⟩ := C49_remove_undoes_insert_partial Toy.sane Toy.use2 (Toy.alive _)
    (prev := some Toy.r2) (keys := [Toy.key 7, Toy.key 2]) (values := [[70], [22]])
    (collisionFree_of_check (by decide +kernel))
    (careful_of_new (M := Toy.M2) rfl (by simp [Ledger.Prev]) rfl (by decide)
      (noStraddle_of_new (by
        intro k hk k' hk' h1 h2
        have hM : Toy.M2 (Toy.key 2) = some [21] := by decide +kernel
        have hd : ∀ k ∈ [Toy.key 7, Toy.key 2], Toy.M2 k = none → k = Toy.key 7 := by
          intro k hk h1
          rcases List.mem_cons.1 hk with hk | hk
          · exact hk
          · rw [List.mem_singleton.1 hk, hM] at h1
            cases h1
        rw [hd k hk h1, hd k' hk' h2]))
      (by decide +kernel)) rfl (by decide) (fun v _ => ⟨v, rfl⟩) (Toy.deep _).succ
  exact ⟨r, s1, s2, h1, h2, h3⟩

/-- C49: the order of removals does not matter, in strict histories. -/
theorem C49_removals_commute_partial (hc : Sane cfg) (h : Uses cfg C True H L s)
    (hcf : CollisionFree cfg.hasher (Among H)) {r r' : Arr N} {M M' : Contents N V}
    (hp : C.pending s = View.empty N) {La Lb : Ledger N V} (hL : L = La ++ (r, M) :: Lb)
    {Lc Ld : Ledger N V} (hLr : La ++ Lb = Lc ++ (r', M') :: Ld)
    {Le Lf : Ledger N V} (hL' : L = Le ++ (r', M') :: Lf)
    {Lg Lh : Ledger N V} (hLr' : Le ++ Lf = Lg ++ (r, M) :: Lh) {s1 s2 s1' s2' : σ}
    (h1 : remove cfg r s = (.ok (), s1)) (h2 : remove cfg r' s1 = (.ok (), s2))
    (h1' : remove cfg r' s = (.ok (), s1')) (h2' : remove cfg r s1' = (.ok (), s2')) :
    C.view s2 = C.view s2' := by
  obtain ⟨hacc, ha⟩ := uses_acct hc.pos hc.pp hc.codec h (Among H) hcf (fun _ hi => hi)
  have step : ∀ {r M La Lb s1}, L = La ++ (r, M) :: Lb → remove cfg r s = (.ok (), s1) →
      Uses cfg C True H (La ++ Lb) s1 ∧ C.pending s1 = View.empty N := by
    intro r M La Lb s1 hL h1
    subst hL
    refine ⟨.remove h (.inl hp) h1, ?_⟩
    have := remove_careful (C := C) (strict := True) hcf (hacc (r, M) (by simp)) ha (.inl hp)
      (by rw [hp]; exact Honest.empty _ _)
    unfold Ends at this
    rw [h1] at this
    exact this.2.2
  obtain ⟨u1, p1⟩ := step hL h1
  obtain ⟨u1', p1'⟩ := step hL' h1'
  rw [hLr] at u1
  rw [hLr'] at u1'
  have u2 := Uses.remove u1 (.inl p1) h2
  have u2' := Uses.remove u1' (.inl p1') h2'
  refine uses_canonical hc hc rfl rfl u2 u2' (hcf.mono (by simp [Among])) (List.Perm.map _ ?_)
  have e1 : L.Perm ((r, M) :: (r', M') :: (Lc ++ Ld)) := by
    rw [hL]
    refine List.perm_middle.trans (List.Perm.cons _ ?_)
    rw [hLr]
    exact List.perm_middle
  have e2 : L.Perm ((r', M') :: (r, M) :: (Lg ++ Lh)) := by
    rw [hL']
    refine List.perm_middle.trans (List.Perm.cons _ ?_)
    rw [hLr']
    exact List.perm_middle
  have := (e1.symm.trans e2).trans (List.Perm.swap _ _ _)
  exact (List.perm_cons _).1 ((List.perm_cons _).1 this)

/-- Both versions of the concrete history, removed in either order. -/
example (s1 s2 s1' s2' : HashDB 2)
    (h1 : remove Toy.cfg Toy.r1 Toy.s2 = (.ok (), s1)) (h2 : remove Toy.cfg Toy.r2 s1 = (.ok (), s2))
    (h1' : remove Toy.cfg Toy.r2 Toy.s2 = (.ok (), s1')) (h2' : remove Toy.cfg Toy.r1 s1' = (.ok (), s2')) :
    Toy.C.view s2 = Toy.C.view s2' :=
  C49_removals_commute_partial Toy.sane Toy.use2 Toy.free2 rfl (La := [(Toy.r2, Toy.M2)]) (Lb := [])
    (Lc := []) (Ld := []) (Le := []) (Lf := [(Toy.r1, Toy.M1)]) (Lg := []) (Lh := []) rfl rfl rfl rfl
    h1 h2 h1' h2'

/-- C49 is false: the third insert of the history of `C19_false` and the removal of the root it returned.
The second insert had returned the same root, which is gone. -/
theorem C49_false : ∃ (H : List (HIn 2)) (L : Ledger 2 (List UInt8)) (s s1 s2 : HashDB 2) (r k : Arr 2)
    (v : List UInt8) (M : Contents 2 (List UInt8)), Sane Toy.cfg ∧ Lives Toy.cfg Toy.C H L s ∧
    (r, M) ∈ L ∧ CollisionFree Toy.cfg.hasher (Among (hashedBy Toy.cfg (some r) [k] [v] s ++ H)) ∧
    insert Toy.cfg (some r) [k] [v] s = (.ok r, s1) ∧ remove Toy.cfg r s1 = (.ok (), s2) ∧
    Toy.C.view s2 ≠ Toy.C.view s := by
  have h2 : Lives Toy.cfg Toy.C _ [(Toy.key 24207, Toy.D2), (Toy.key 59708, Toy.D1)] Toy.d2.2 :=
    .insert (.insert (.start rfl rfl) (prev := none) rfl (handled_empty _)
      (outcome (by decide +kernel))) (prev := some (Toy.key 59708)) (by simp [Ledger.Prev, Toy.D1])
      (handled_single Toy.sane _) (outcome (by decide +kernel))
  exact ⟨_, _, _, Toy.d3.2, _, Toy.key 24207, Toy.key 1, [10], Toy.D2, Toy.sane, h2, by simp,
    collisionFree_of_check (by decide +kernel), outcome (by decide +kernel), Toy.drun5,
    Toy.d5_ne⟩

/-! ## C50 -/

/-- C50: a removed root reads nothing any more, unless its contents are a part (under a common prefix) of
another live version; in that case it still reads exactly its contents.
Missing for the full C50: histories in which an insert writes again what a live version has, for which it is
false (`C50_false`); failed calls; straddling batches. -/
theorem C50_removed_root_partial (hc : Sane cfg) (h : Uses cfg C True H L s) (hs : C.alive s)
    {r : Arr N} {M : Contents N V} (hL : L = L1 ++ (r, M) :: L2)
    (hcf : CollisionFree cfg.hasher (Among H)) (hp : C.pending s = View.empty N) :
    ∃ s', remove cfg r s = (.ok (), s') ∧
      ((∃ e ∈ L1 ++ L2, M.PartOf e.2) → HeightBelow M cfg.depth → ∀ k, getOne cfg s' r k = .ok (M k)) ∧
      ((∀ e ∈ L1 ++ L2, ¬ M.PartOf e.2) → C.view s' r = none ∧ ∀ k, getOne cfg s' r k = .ok none) := by
  subst hL
  obtain ⟨s', hrun, hs'⟩ := remove_alive (C := C) (cfg := cfg) hs r
  have h' := Uses.remove h (.inl hp) hrun
  obtain ⟨hacc0, -⟩ := uses_acct hc.pos hc.pp hc.codec h (Among H) hcf (fun _ hi => hi)
  obtain ⟨hacc, ha⟩ := uses_acct hc.pos hc.pp hc.codec h' (Among H) hcf (fun _ hi => hi)
  obtain ⟨T, hT⟩ := hacc0 (r, M) (by simp)
  refine ⟨s', hrun, ?_, ?_⟩
  · rintro ⟨e, he, hpart⟩ hd k
    obtain ⟨T', hT'⟩ := hacc e he
    have hsub := sub_of_partOf hT.wf hT'.wf hT.rep hT'.rep hpart
    have hr : Reach (childrenOf cfg.hasher (Among H)) ((L1 ++ L2).map Prod.fst) (T.loc cfg.hasher) :=
      reach_sub hcf hT'.ok (.root (by rw [hT'.loc]; exact List.mem_map_of_mem he)) hsub
    exact (version_getOne (C := C) hc.pos hc.codec hd
      ⟨T, hT.wf, hT.loc, ha.stored hcf hT.wf.norm hT.inputs hr, hT.rep⟩ k).alive hs'
  · intro hno
    have hnone : C.view s' r = none := by
      by_contra hne
      obtain ⟨n, hn⟩ := Option.ne_none_iff_exists'.1 hne
      have hreach : Reach (childrenOf cfg.hasher (Among H)) ((L1 ++ L2).map Prod.fst) r := by
        refine load_pos.1 ?_
        rw [← ha.eq trivial r, refsOf_some hn]
        exact (ha.honest r n hn).1
      have : ∃ ts : List (Trie N), ts.map (Trie.loc cfg.hasher) = (L1 ++ L2).map Prod.fst ∧
          ∀ t ∈ ts, ∃ e ∈ L1 ++ L2, Accounted cfg (Among H) e t := by
        generalize L1 ++ L2 = L at hacc
        clear * - hacc
        induction L with
        | nil => exact ⟨[], rfl, by simp⟩
        | cons e L ih =>
          obtain ⟨ts, h1, h2⟩ := ih (fun e' he' => hacc e' (List.mem_cons_of_mem _ he'))
          obtain ⟨t, ht⟩ := hacc e List.mem_cons_self
          refine ⟨t :: ts, by simp [h1, ht.loc], ?_⟩
          intro t' ht'
          rcases List.mem_cons.1 ht' with rfl | ht'
          · exact ⟨e, List.mem_cons_self, ht⟩
          · obtain ⟨e', he', h3⟩ := h2 t' ht'
            exact ⟨e', List.mem_cons_of_mem _ he', h3⟩
      obtain ⟨ts, hts, hok⟩ := this
      rw [← hts, ← show T.loc cfg.hasher = r from hT.loc] at hreach
      obtain ⟨t, ht, hsub⟩ := reach_tree hcf (fun t ht => by
        obtain ⟨e, -, he⟩ := hok t ht; exact he.ok) hT.ok hreach
      obtain ⟨e, he, hte⟩ := hok t ht
      exact hno e he (partOf_of_sub hc.codec hT.wf hte.wf hT.rep hte.rep hsub)
    exact ⟨hnone, (C45_unknown_root_reads_nothing (cfg := cfg) C hs' hnone).1⟩

/-- The first version of the concrete history is not a part of the second: after its removal it reads
nothing. -/
example : ∃ s', remove Toy.cfg Toy.r1 Toy.s2 = (.ok (), s') ∧
    ∀ k, getOne Toy.cfg s' Toy.r1 k = .ok none := by
  obtain ⟨s', h1, -, h2⟩ := C50_removed_root_partial Toy.sane Toy.use2 (Toy.alive _) (L1 := [(Toy.r2, Toy.M2)])
    (L2 := []) rfl Toy.free2 rfl
  refine ⟨s', h1, (h2 ?_).2⟩
  rintro e he ⟨k, d, hpart⟩
  simp only [List.append_nil, List.mem_singleton] at he
  subst he
  have h3 := hpart (Toy.key 2)
  have h4 : Toy.M1 (Toy.key 2) = some [20] := by decide +kernel
  have h5 : Toy.M2 (Toy.key 2) = some [21] := by decide +kernel
  rw [h4] at h3
  simp only [h5] at h3
  split at h3 <;> simp at h3

/-- A version of one key that is a part of a later one: the leaf is shared. -/
example : ∃ s', remove Toy.cfg (Toy.key 28113) (Toy.ins (some (Toy.key 28113)) [0x8000] [30]
      (Toy.ins none [5] [50] Toy.db0).2).2 = (.ok (), s') ∧
    ∀ k, getOne Toy.cfg s' (Toy.key 28113) k = .ok (if k = Toy.key 5 then some [50] else none) := by
  have h1 : Uses Toy.cfg Toy.C True _ _ (Toy.ins none [5] [50] Toy.db0).2 :=
    .insert (keys := [Toy.key 5]) (values := [[50]]) (.start rfl rfl)
      (careful_of_new (prev := none) rfl rfl rfl (by decide +kernel) (noStraddle_empty _) (by simp))
      (outcome (a := Except.ok (Toy.key 28113)) (by decide +kernel))
  have h2 := Uses.insert (keys := [Toy.key 0x8000]) (values := [[30]]) (r := Toy.key 49951)
    (s' := (Toy.ins (some (Toy.key 28113)) [0x8000] [30] (Toy.ins none [5] [50] Toy.db0).2).2) h1
    (careful_of_new (prev := some (Toy.key 28113)) (M := Contents.empty.assign [Toy.key 5] [[50]]) rfl
      (by simp [Ledger.Prev]) rfl (by decide +kernel)
      (noStraddle_single _) (by decide +kernel)) (outcome (by decide +kernel))
  obtain ⟨s', h3, h4, -⟩ := C50_removed_root_partial Toy.sane h2 (Toy.alive _) (L1 := [_]) (L2 := []) rfl
    (collisionFree_of_check (by decide +kernel)) rfl
  have hM : ∀ k, Contents.empty.assign [Toy.key 5] [([50] : List UInt8)] k =
      if k = Toy.key 5 then some [50] else none := by
    intro k
    by_cases hk : Toy.key 5 = k
    · simp [Contents.assign, hk]
    · simp [Contents.assign, Contents.empty, hk, Ne.symm hk]
  refine ⟨s', h3, fun k => ?_⟩
  refine (h4 ⟨_, List.mem_singleton.2 rfl, Toy.key 5, 16, fun k => ?_⟩ (Toy.deep _) k).trans
    (congrArg _ (hM k))
  refine (hM k).trans ?_
  by_cases hk : k = Toy.key 5
  · subst hk
    rw [if_pos rfl, if_pos (by decide +kernel)]
    decide +kernel
  · rw [if_neg hk]
    split
    · next h16 =>
      by_cases h8 : k = Toy.key 0x8000
      · subst h8
        exact absurd h16 (by decide +kernel)
      · simp [Contents.assign, Contents.empty, Ne.symm hk, Ne.symm h8]
    · rfl

/-- C50 is false: in the history of `C19_false`, the contents of the removed root are a part of a version
that stays, but a key reads nothing. -/
theorem C50_false : ∃ (H : List (HIn 2)) (L1 L2 : Ledger 2 (List UInt8)) (s s' : HashDB 2) (r k : Arr 2)
    (v : List UInt8) (M : Contents 2 (List UInt8)), Sane Toy.cfg ∧
    Lives Toy.cfg Toy.C H (L1 ++ (r, M) :: L2) s ∧ CollisionFree Toy.cfg.hasher (Among H) ∧
    (∃ e ∈ L1 ++ L2, M.PartOf e.2) ∧ remove Toy.cfg r s = (.ok (), s') ∧
    M k = some v ∧ getOne Toy.cfg s' r k = .ok none := by
  refine ⟨_, [(Toy.key 24207, Toy.D3), (Toy.key 24207, Toy.D2)], [], _, Toy.d4.2, Toy.key 59708,
    Toy.key 2, [20], Toy.D1, Toy.sane, Toy.dlives, Toy.dfree,
    ⟨(Toy.key 24207, Toy.D2), by simp, Toy.key 1, 14, fun k => ?_⟩, outcome (by decide +kernel),
    by decide +kernel, by decide +kernel⟩
  simp only [Toy.D2, Contents.assign, List.zip_cons_cons, List.zip_nil_right, List.find?_cons,
    List.find?_nil]
  by_cases h8 : Toy.key 0x8000 = k
  · subst h8
    rw [if_neg (by decide +kernel)]
    decide +kernel
  · by_cases h1 : Toy.key 1 = k
    · subst h1; decide +kernel
    · by_cases h2 : Toy.key 2 = k
      · subst h2; decide +kernel
      · simp [h8, h1, h2, Toy.D1, Contents.assign, Contents.empty]

/-! ## C51 -/

/-- The nodes held after a strict history are the nodes of the live versions. -/
theorem uses_stored (hc : Sane cfg) (h : Uses cfg C True H L s)
    (hcf : CollisionFree cfg.hasher (Among H)) (x : Arr N) : C.view s x ≠ none ↔
      ∃ e ∈ L, ∃ T, Accounted cfg (Among H) e T ∧ x ∈ T.locs cfg.hasher := by
  obtain ⟨hacc, ha⟩ := uses_acct hc.pos hc.pp hc.codec h (Among H) hcf (fun _ hi => hi)
  have h1 : C.view s x ≠ none ↔ Reach (childrenOf cfg.hasher (Among H)) (L.map Prod.fst) x := by
    constructor
    · intro hne
      obtain ⟨n, hn⟩ := Option.ne_none_iff_exists'.1 hne
      refine load_pos.1 ?_
      rw [← ha.eq trivial x, refsOf_some hn]
      exact (ha.honest x n hn).1
    · intro hr
      obtain ⟨n, hn⟩ := ha.present hr
      rw [hn]; simp
  rw [h1]
  clear h1 ha h
  induction L with
  | nil => simp [Reach.nil]
  | cons e L ih =>
    obtain ⟨T, hT⟩ := hacc e List.mem_cons_self
    have ih := ih (fun e' he' => hacc e' (List.mem_cons_of_mem _ he'))
    rw [List.map_cons, Reach.cons, ← hT.loc, reach_locs hcf hT.ok]
    refine (or_congr Iff.rfl ih).trans ?_
    constructor
    · rintro (hx | ⟨e', he', h⟩)
      · exact ⟨e, List.mem_cons_self, T, hT, hx⟩
      · exact ⟨e', List.mem_cons_of_mem _ he', h⟩
    · rintro ⟨e', he', T', hT', hx⟩
      rcases List.mem_cons.1 he' with rfl | he'
      · left
        rwa [Represents.unique hT.wf hT'.wf hT.rep hT'.rep]
      · exact .inr ⟨e', he', T', hT', hx⟩

/-- The number of pairs of a trie is the number of keys of its contents. -/
theorem Accounted.size {U : HIn N → Prop} {r : Arr N} {M : Contents N V} {T : Trie N}
    (hT : Accounted cfg U (r, M) T) {n : Nat} (hn : Exactly n (fun k => M k ≠ none)) : T.size = n := by
  obtain ⟨ks, hnd, rfl, hks⟩ := hn
  have hkeys : ∀ k, k ∈ T.keys ↔ k ∈ ks := by
    intro k
    rw [← hks]
    have := hT.rep k
    constructor
    · intro hk hnone
      obtain ⟨v, hv⟩ := mem_keys.1 hk
      simp only [hnone, Encodes, (lookup_eq_some_iff hT.wf).2 hv] at this
      cases this
    · intro hne
      obtain ⟨v, hv⟩ := Option.ne_none_iff_exists'.1 hne
      simp only [hv, Encodes] at this
      obtain ⟨b, -, hb⟩ := this
      exact mem_keys.2 ⟨b, (lookup_eq_some_iff hT.wf).1 hb⟩
  have hnd' : T.keys.Nodup := hT.wf.sorted.imp (fun h => Arr.ne_of_lt h)
  have := ((List.perm_ext_iff_of_nodup hnd' hnd).2 hkeys).length_eq
  rwa [Trie.keys, List.length_map] at this

/-- C51: when one version of `n` keys is live, the database holds exactly `3 n - 1` nodes (a leaf and a data
node per key, and `n - 1` branches).
Missing for the full C51: histories in which an insert writes again what a live version has, for which it is
false (`C51_false`); failed calls; straddling batches. -/
theorem C51_sole_version_size_partial (hc : Sane cfg) {r : Arr N} {M : Contents N V}
    (h : Uses cfg C True H [(r, M)] s) (hcf : CollisionFree cfg.hasher (Among H)) {n : Nat}
    (hn : Exactly n (fun k => M k ≠ none)) : Exactly (3 * n - 1) (fun x => C.view s x ≠ none) := by
  obtain ⟨hacc, -⟩ := uses_acct hc.pos hc.pp hc.codec h (Among H) hcf (fun _ hi => hi)
  obtain ⟨T, hT⟩ := hacc (r, M) (by simp)
  refine ⟨T.locs cfg.hasher, ?_, ?_, fun x => ?_⟩
  · refine List.Nodup.map_on ?_ (inputs_nodup hcf hT.wf hT.inputs)
    intro i hi j hj he
    exact hcf i j (hT.inputs i hi) (hT.inputs j hj) he
  · rw [Trie.locs, List.length_map]
    have := inputs_length cfg.hasher T
    rw [hT.size hn] at this
    omega
  · refine (uses_stored hc h hcf x).trans ?_
    constructor
    · rintro ⟨e, he, T', hT', hx⟩
      rw [List.mem_singleton] at he
      subst he
      rwa [Represents.unique hT.wf hT'.wf hT.rep hT'.rep]
    · exact fun hx => ⟨_, List.mem_singleton.2 rfl, T, hT, hx⟩

/-- The second version of the concrete history has four keys; alone it takes eleven nodes. -/
example : Exactly 11 (fun x => Toy.C.view Toy.t2 x ≠ none) := by
  refine C51_sole_version_size_partial Toy.sane Toy.use3 Toy.free2 (n := 4)
    ⟨[Toy.key 1, Toy.key 2, Toy.key 5, Toy.key 0x8000], by decide, rfl, fun k => ?_⟩
  by_cases hk : k ∈ [Toy.key 1, Toy.key 2, Toy.key 5, Toy.key 0x8000]
  · refine ⟨fun _ => hk, fun _ => ?_⟩
    simp only [List.mem_cons, List.not_mem_nil, or_false] at hk
    rcases hk with rfl | rfl | rfl | rfl <;> decide +kernel
  · refine ⟨fun h => absurd ?_ h, fun h => absurd h hk⟩
    simp only [List.mem_cons, List.not_mem_nil, not_or, or_false, eq_comm (a := k)] at hk
    simp [Toy.M2, Toy.M1, Toy.ks1, Toy.ks2, Toy.vs1, Toy.vs2, Contents.assign, Contents.empty, hk]

/-- C51 is false: after the history of `C21_false`, another pair is inserted; three nodes are stored. -/
theorem C51_false : ∃ (H : List (HIn 2)) (s : HashDB 2) (r : Arr 2) (M : Contents 2 (List UInt8)),
    Sane Toy.cfg ∧ Lives Toy.cfg Toy.C H [(r, M)] s ∧ CollisionFree Toy.cfg.hasher (Among H) ∧
    Exactly 1 (fun k => M k ≠ none) ∧ ¬ Exactly (3 * 1 - 1) (fun x => Toy.C.view s x ≠ none) := by
  have h1 : Lives Toy.cfg Toy.C _ _ (Toy.ins none [1] [10] Toy.db0).2 :=
    .insert (.start rfl rfl) (prev := none) rfl (handled_empty _)
      (outcome (a := Except.ok (Toy.key 24929)) (by decide +kernel))
  have h2 := Lives.insert (s' := (Toy.ins none [1] [10] (Toy.ins none [1] [10] Toy.db0).2).2)
    (keys := [Toy.key 1]) (values := [[10]])
    h1 (prev := none) rfl (handled_empty _)
    (outcome (a := Except.ok (Toy.key 24929)) (by decide +kernel))
  have h3 := Lives.remove (L1 := []) h2 (outcome (a := Except.ok ()) (by decide +kernel))
  have h4 := Lives.remove (L1 := []) h3 (outcome (a := Except.ok ()) (by decide +kernel))
  have h5 := Lives.insert (keys := [Toy.key 2]) (values := [[20]]) (r := Toy.key 25725)
    h4 (prev := none) rfl (handled_empty _) (outcome (by decide +kernel))
  refine ⟨_, _, _, _, Toy.sane, h5, collisionFree_of_check (by decide +kernel),
    ⟨[Toy.key 2], by decide, rfl, fun k => ?_⟩, ?_⟩
  · by_cases hk : Toy.key 2 = k
    · simp [Contents.assign, hk]
    · simp [Contents.assign, Contents.empty, hk, Ne.symm hk]
  · rintro ⟨xs, hnd, hlen, hxs⟩
    have hsub : [Toy.key 25725, Trie.dataLoc Toy.hasher (Toy.key 1) [10],
        Trie.dataLoc Toy.hasher (Toy.key 2) [20]] ⊆ xs := by
      intro x hx
      refine (hxs x).1 ?_
      refine Option.isSome_iff_ne_none.1 ?_
      simp only [List.mem_cons, List.not_mem_nil, or_false] at hx
      rcases hx with rfl | rfl | rfl <;> decide +kernel
    have := (List.subperm_of_subset (by decide +kernel) hsub).length_le
    rw [hlen] at this
    simp at this

/-! ## C52 -/

/-- C52 in strict histories, independently of the depth limit (`C52_insert_growth` is the general bound): an
insert of `m` pairs adds at most `m (8 N + 2)` nodes to the database: a leaf, a data node, and at most `8 N`
branches per key. -/
theorem C52_growth_of_versions (hc : Sane cfg) (h : Uses cfg C True H L s)
    {prev : Option (Arr N)} {M : Contents N V} {keys : List (Arr N)} {values : List V}
    (hcf : CollisionFree cfg.hasher (Among (hashedBy cfg prev keys values s ++ H)))
    (hcare : Careful cfg C True L s prev M keys values) {r : Arr N}
    (hrun : insert cfg prev keys values s = (.ok r, s')) :
    AtMost (keys.length * (8 * N + 2)) (fun x => C.view s' x ≠ none ∧ C.view s x = none) := by
  have hlen : keys.length = values.length := by
    by_contra hlen
    obtain ⟨e, he⟩ := C12_bad_arguments cfg prev keys values (.inl hlen) s
    rw [hrun] at he; cases he
  have h' := Uses.insert h hcare hrun
  obtain ⟨hacc, -⟩ := uses_acct hc.pos hc.pp hc.codec h' _ hcf (fun _ hi => hi)
  obtain ⟨T', hT'⟩ := hacc _ List.mem_cons_self
  refine ⟨newLocs cfg.hasher T' keys, newLocs_length _ hT'.wf _, ?_⟩
  rintro x ⟨hx, hx0⟩
  have hcf0 := hcf.mono (U := Among H) (fun i hi => List.mem_append_right _ hi)
  obtain ⟨hacc0, -⟩ := uses_acct hc.pos hc.pp hc.codec h (Among H) hcf0 (fun _ hi => hi)
  have hold : ∀ e ∈ L, ∀ T : Trie N, T.WF → Represents cfg T e.2 → x ∉ T.locs cfg.hasher := by
    intro e he T hT hrep hxT
    obtain ⟨T0, hT0⟩ := hacc0 e he
    rw [Represents.unique hT hT0.wf hrep hT0.rep] at hxT
    exact (uses_stored hc h hcf0 x).2 ⟨e, he, T0, hT0, hxT⟩ hx0
  obtain ⟨e, he, T, hT, hxT⟩ := (uses_stored hc h' hcf x).1 hx
  rcases List.mem_cons.1 he with rfl | he
  · rw [Represents.unique hT.wf hT'.wf hT.rep hT'.rep] at hxT
    have hM : M = Contents.empty ∨ ∃ T : Trie N, T.WF ∧ Represents cfg T M := by
      cases prev with
      | none => exact .inl hcare.prev
      | some r0 =>
        rcases hcare.prev with hp | ⟨-, -, -, T0, h1, -, -, h4⟩
        · obtain ⟨T0, hT0⟩ := hacc0 _ hp
          exact .inr ⟨T0, hT0.wf, hT0.rep⟩
        · exact .inr ⟨T0, h1, h4⟩
    rcases locs_subset hT'.wf hlen hT'.rep hM hxT with hnew | ⟨T0, h1, h2, h3⟩
    · exact hnew
    · cases hpr : prev with
      | none =>
        exfalso
        have hp := hcare.prev
        rw [hpr] at hp
        obtain ⟨v, hv⟩ := mem_keys.1 T0.key_mem
        have h4 := h2 T0.key
        rw [show M = Contents.empty from hp, (lookup_eq_some_iff h1).2 hv] at h4
        simp [Contents.empty, Encodes] at h4
      | some r0 =>
        have hp := hcare.prev
        rw [hpr] at hp
        rcases hp with hp | ⟨e, he, hpart, -⟩
        · exact absurd h3 (hold _ hp T0 h1 h2)
        · obtain ⟨Te, hTe⟩ := hacc0 e he
          exact absurd ((sub_of_partOf h1 hTe.wf h2 hTe.rep hpart).locs h3) (hold e he Te hTe.wf hTe.rep)
  · exact absurd hxT (hold e he T hT.wf hT.rep)

/-- The second insert of the concrete history, of two keys. -/
example : AtMost 36 (fun x => Toy.C.view Toy.s2 x ≠ none ∧ Toy.C.view Toy.s1 x = none) :=
  C52_growth_of_versions Toy.sane Toy.use1 (prev := some Toy.r1) (M := Toy.M1) Toy.free2
    (careful_of_new rfl (by simp [Ledger.Prev]) rfl (by decide +kernel)
    Toy.noStraddle2 (by decide +kernel)) Toy.run2

end MerkleBit
