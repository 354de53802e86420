import Verif.Proof.Uses
import Verif.Proof.Live
import Verif.Proof.Mirror
import Verif.Props.Failures
/-!
# C19-C21, C37, C40, C45: removing roots

`Lives cfg C H L s`: the state `s` is reached by successful inserts on top of live roots (or of
nothing) and by removals of live roots; `L` lists the live roots and their contents.
`Uses cfg C strict H L s`: the same, but inserts are `Careful`: they do not write a group of pairs
that a live version already has (if `strict`, not even one pair).  In return, unless `strict`,
calls may fail and the process may die.  See `Spec/Live.lean`.
-/

namespace MerkleBit
variable {N : Nat} {σ V : Type} {cfg : Config N σ V} {C : DbContract cfg.db} {strict : Prop}
  {H : List (HIn N)} {L L1 L2 : Ledger N V} {s s' : σ}

/-- What makes an insert careful in practice: no pair of the batch is already in a live version. -/
theorem careful_of_base {prev : Option (Arr N)} {M : Contents N V} {keys : List (Arr N)}
    {values : List V} (hp : C.pending s = View.empty N) (hprev : L.Base cfg (C.view s) prev M)
    (hlen : keys.length = values.length) (hnd : keys.Nodup) (hns : NoStraddle cfg M keys)
    (hnew : ∀ e ∈ L, ∀ p ∈ keys.zip values, e.2 p.1 ≠ some p.2) :
    Careful cfg C strict L s prev M keys values := by
  refine ⟨.inl hp, hprev, hnd, hns, ?_, fun _ => hnew⟩
  rintro e he ⟨k, hk, d, ⟨k', hne, hd, -⟩, hag⟩
  rw [← zip_keys hlen] at hk
  obtain ⟨p, hp, rfl⟩ := List.mem_map.1 hk
  have h1 := hag p.1 (by
    rw [firstDiff_self]
    exact Nat.le_trans hd (firstDiff_le _ _))
  rw [assign_mem _ hlen hnd hp] at h1
  exact hnew e he p hp h1

/-- The same on top of a live version. -/
theorem careful_of_new {prev : Option (Arr N)} {M : Contents N V} {keys : List (Arr N)}
    {values : List V} (hp : C.pending s = View.empty N) (hprev : L.Prev prev M)
    (hlen : keys.length = values.length) (hnd : keys.Nodup) (hns : NoStraddle cfg M keys)
    (hnew : ∀ e ∈ L, ∀ p ∈ keys.zip values, e.2 p.1 ≠ some p.2) :
    Careful cfg C strict L s prev M keys values :=
  careful_of_base hp hprev.base hlen hnd hns hnew

/-! ## C45 -/

/-- C45: under a root that is not in the database every key reads nothing, and there is no proof. -/
theorem C45_unknown_root_reads_nothing (C : DbContract cfg.db) {r : Arr N}
    (hs : C.alive s)    (hr : C.view s r = none) :
    (∀ k, getOne cfg s r k = .ok none) ∧
    (∀ keys, ∃ m, get cfg s r keys = .ok m ∧
      ∀ k, m.get? k = if k ∈ keys then some none else none) ∧
    (cfg.Room → ∀ k, ∃ msg, generateInclusionProof cfg s r k = .error (.exception msg)) := by
  have hg := alive_get hs r
  rw [hr] at hg
  refine ⟨?_, ?_, ?_⟩
  · intro k
    simp [getOne, getOneLoop, hg]
  · intro keys
    by_cases hk : keys = []
    · exact ⟨AMap.empty, by simp [get, hk], by simp [hk]⟩
    · refine ⟨generateLeafMap keys, by simp [get, hk, hg], generateLeafMap_get keys⟩
  · intro hroom k
    exact ⟨"Failed to find node", by
      rw [generateInclusionProof_room hroom]; simp [inclusionProof, proofLoop, hg]⟩

example : Toy.C.view Toy.s2 (Toy.key 99) = none := by decide +kernel

/-! ## C19 -/

/-- C19, for careful histories: `remove` of a live root succeeds, and every other live root (and the
same root, if it was returned more than once) reads exactly its contents, by `get_one`; `get` and
`generate_inclusion_proof` return what they returned before.
Missing for the full C19: histories in which an insert writes again a group of at least two pairs that
a live version has, for which it is false (`C19_false`); and straddling batches. -/
theorem C19_remove_keeps_others_partial (hc : Sane cfg) (h : Uses cfg C strict H L s)
    {r : Arr N} {M : Contents N V} (hL : L = L1 ++ (r, M) :: L2)
    (hcf : CollisionFree cfg.hasher (Among H)) (hs : C.alive s) (hp : Confirmed C strict s) :
    ∃ s', remove cfg r s = (.ok (), s') ∧ C.alive s' ∧ ∀ e ∈ L1 ++ L2,
      (HeightBelow e.2 cfg.depth → ∀ k, getOne cfg s' e.1 k = .ok (e.2 k)) ∧
      (∀ k, getOne cfg s' e.1 k = getOne cfg s e.1 k) ∧
      (∀ ks, get cfg s' e.1 ks = get cfg s e.1 ks) ∧
      (∀ k, generateInclusionProof cfg s' e.1 k = generateInclusionProof cfg s e.1 k) := by
  subst hL
  obtain ⟨s', hrun, hs'⟩ := remove_alive (C := C) (cfg := cfg) hs r
  refine ⟨s', hrun, hs', ?_⟩
  intro e he
  have hin : e ∈ L1 ++ (r, M) :: L2 := by
    rcases List.mem_append.1 he with h | h <;> simp [h]
  have h' := Uses.remove h hp hrun
  have hu := uses_reads hc h h' hcf hs hs' hin he
  exact ⟨hu.1, hu.2.1, hu.2.2.1, fun k => generateInclusionProof_congr rfl (hu.2.2.2 k)⟩

/-- C19 along whole histories: whatever careful inserts and removals have happened, failed calls and
crashes included, every live root reads its contents. -/
theorem C19_live_roots_readable_partial (hc : Sane cfg) (h : Uses cfg C strict H L s)
    (hcf : CollisionFree cfg.hasher (Among H)) (hs : C.alive s) {r : Arr N} {M : Contents N V}
    (hr : (r, M) ∈ L) (hd : HeightBelow M cfg.depth) (k : Arr N) : getOne cfg s r k = .ok (M k) :=
  (uses_reads hc h h hcf hs hs hr hr).1 hd k

namespace Toy

theorem use1 : Uses Toy.cfg Toy.C True H1 [(r1, M1)] s1 :=
  .insert (.start rfl rfl) (careful_of_new (prev := none) rfl rfl rfl (by decide +kernel)
    (noStraddle_empty _) (by simp)) run1

theorem use2 : Uses Toy.cfg Toy.C True H2 [(r2, M2), (r1, M1)] s2 :=
  .insert use1 (careful_of_new (prev := some r1) rfl (by simp [Ledger.Prev]) rfl (by decide +kernel)
    noStraddle2 (by decide +kernel)) run2

/-- The database after the second insert and the removal of the first root. -/
def t2 : HashDB 2 := (remove Toy.cfg r1 s2).2

theorem runr : remove Toy.cfg r1 s2 = (.ok (), t2) := outcome (by decide +kernel)

/-- The first version is gone. -/
theorem use3 : Uses Toy.cfg Toy.C True H2 [(r2, M2)] t2 :=
  Uses.remove (L1 := [(r2, M2)]) (L2 := []) use2 (.inl rfl) runr

end Toy

/-- After removing the first root of the concrete history, the second reads its contents. -/
example : ∃ s', remove Toy.cfg Toy.r1 Toy.s2 = (.ok (), s') ∧
    getOne Toy.cfg s' Toy.r2 (Toy.key 1) = .ok (some [10]) ∧
    getOne Toy.cfg s' Toy.r2 (Toy.key 2) = .ok (some [21]) := by
  obtain ⟨s', h1, -, h2⟩ := C19_remove_keeps_others_partial Toy.sane Toy.use2 (L1 := [(Toy.r2, Toy.M2)])
    (L2 := []) rfl Toy.free2 (Toy.alive _) (.inl rfl)
  have := (h2 (Toy.r2, Toy.M2) (by simp)).2.1
  refine ⟨s', h1, ?_, ?_⟩
  · rw [this]; decide +kernel
  · rw [this]; decide +kernel

namespace Toy

/-- The history of the counterexample: {1, 2}, then 0x8000 on top, then 1 again with the same value on
top of that. -/
def d1 : Res (Arr 2) × HashDB 2 := ins none [1, 2] [10, 20] db0
@[inherit_doc d1]
def d2 : Res (Arr 2) × HashDB 2 := ins (some (key 59708)) [0x8000] [30] d1.2
@[inherit_doc d1]
def d3 : Res (Arr 2) × HashDB 2 := ins (some (key 24207)) [1] [10] d2.2
/-- The first root is removed. -/
def d4 : Res Unit × HashDB 2 := remove Toy.cfg (key 59708) d3.2
/-- The contents of the first version. -/
def D1 : Contents 2 (List UInt8) := Contents.empty.assign [key 1, key 2] [[10], [20]]
/-- The contents of the second version. -/
def D2 : Contents 2 (List UInt8) := D1.assign [key 0x8000] [[30]]
/-- The contents of the third version. -/
def D3 : Contents 2 (List UInt8) := D2.assign [key 1] [[10]]
/-- Everything hashed. -/
def DH : List (HIn 2) := hashedBy Toy.cfg (some (key 24207)) [key 1] [[10]] d2.2 ++
  (hashedBy Toy.cfg (some (key 59708)) [key 0x8000] [[30]] d1.2 ++
    (hashedBy Toy.cfg none [key 1, key 2] [[10], [20]] db0 ++ []))

theorem dlives : Lives Toy.cfg Toy.C DH
    [(key 24207, D3), (key 24207, D2), (key 59708, D1)] d3.2 :=
  .insert (.insert (.insert (.start rfl rfl) (prev := none) rfl (handled_empty _)
      (outcome (by decide +kernel))) (prev := some (key 59708)) (by simp [Ledger.Prev, D1])
      (handled_single sane _) (outcome (by decide +kernel)))
    (prev := some (key 24207)) (by simp [Ledger.Prev, D2, D1]) (handled_single sane _)
    (outcome (by decide +kernel))

theorem dfree : CollisionFree Toy.cfg.hasher (Among DH) := collisionFree_of_check (by decide +kernel)

end Toy

/-- C19 is false: a history of inserts on top of live roots, without collisions and without straddled
branches, and a live root removed, after which another live root has lost a key. -/
theorem C19_false : ∃ (H : List (HIn 2)) (L1 L2 : Ledger 2 (List UInt8)) (s s' : HashDB 2) (r r' : Arr 2)
    (M M' : Contents 2 (List UInt8)) (k : Arr 2) (v : List UInt8), Sane Toy.cfg ∧
    Lives Toy.cfg Toy.C H (L1 ++ (r, M) :: L2) s ∧ CollisionFree Toy.cfg.hasher (Among H) ∧
    (r', M') ∈ L1 ++ L2 ∧ r' ≠ r ∧ M' k = some v ∧
    getOne Toy.cfg s r' k = .ok (some v) ∧ remove Toy.cfg r s = (.ok (), s') ∧
    getOne Toy.cfg s' r' k = .ok none :=
  ⟨_, [(Toy.key 24207, Toy.D3), (Toy.key 24207, Toy.D2)], [], _, Toy.d4.2, Toy.key 59708,
    Toy.key 24207, Toy.D1, Toy.D2, Toy.key 2, [20], Toy.sane, Toy.dlives, Toy.dfree, by simp,
    by decide +kernel, by decide +kernel, by decide +kernel, outcome (by decide +kernel),
    by decide +kernel⟩

/-! ## C20 -/

/-- C20: inserting distinct keys into an empty database and then removing the returned root leaves
the database empty, and every key reads nothing under that root. -/
theorem C20_sole_root_removed (hc : Sane cfg) (hv : C.view s = View.empty N)
    (hp : C.pending s = View.empty N) (hs : C.alive s) {keys : List (Arr N)} {values : List V}
    (hcf : CollisionFree cfg.hasher (Among (hashedBy cfg none keys values s)))
    (hlen : keys.length = values.length) (hne : keys ≠ []) (hnd : keys.Nodup)
    (henc : ∀ v ∈ values, ∃ b, cfg.encode v = .ok b) :
    ∃ r s1 s2, insert cfg none keys values s = (.ok r, s1) ∧ remove cfg r s1 = (.ok (), s2) ∧
      C.view s2 = View.empty N ∧ C.pending s2 = View.empty N ∧ C.alive s2 ∧
      (∀ k, getOne cfg s2 r k = .ok none) ∧
      ∀ ks, ∃ m, get cfg s2 r ks = .ok m ∧ ∀ k ∈ ks, m.get? k = some none := by
  have hcf' : CollisionFree cfg.hasher (Among (hashedBy cfg none keys values s ++ [])) := by
    rw [List.append_nil]; exact hcf
  obtain ⟨r, s1, h1, hs1, -⟩ := (Inserts.start hv hp).insert_ok hc hs (M := Contents.empty) hcf' rfl
    (heightBelow_empty _) (handled_empty _) hlen hne hnd henc
  obtain ⟨s2, h2, hs2⟩ := remove_alive (C := C) (cfg := cfg) hs1 r
  have hcare : Careful cfg C True [] s none Contents.empty keys values :=
    ⟨.inl hp, rfl, hnd, noStraddle_empty _, by simp, by simp⟩
  have hins := insert_careful (C := C) hc.pos hc.pp hc.codec hcf' hcare
    (fun i hi => List.mem_append_left _ hi) (by simp) (by rw [hv]; exact Acct.empty)
    (by rw [hp]; exact Honest.empty _ _)
  unfold Ends at hins
  rw [h1] at hins
  obtain ⟨-, hT, ha, hpend⟩ := hins
  have hrem := remove_careful (C := C) (L1 := []) (L2 := []) hcf' hT ha (.inl hpend)
    (by rw [hpend]; exact Honest.empty _ _)
  unfold Ends at hrem
  rw [h2] at hrem
  obtain ⟨-, ha2, hp2⟩ := hrem
  have hempty : C.view s2 = View.empty N := by
    funext x
    have hz := ha2.eq trivial x
    rw [show (([] ++ [] : Ledger N V).map Prod.fst) = [] from rfl, load_zero Reach.nil] at hz
    cases hx : C.view s2 x with
    | none => rfl
    | some n =>
      have := (ha2.honest x n hx).1
      rw [refsOf_some hx] at hz
      omega
  have hread := C45_unknown_root_reads_nothing (cfg := cfg) C (r := r) hs2 (by rw [hempty]; rfl)
  refine ⟨r, s1, s2, h1, h2, hempty, hp2, hs2, hread.1, ?_⟩
  intro ks
  obtain ⟨m, hm, hmk⟩ := hread.2.1 ks
  exact ⟨m, hm, fun k hk => by rw [hmk, if_pos hk]⟩

example : ∃ r s1 s2, insert Toy.cfg none Toy.ks1 Toy.vs1 Toy.db0 = (.ok r, s1) ∧
    remove Toy.cfg r s1 = (.ok (), s2) ∧ Toy.C.view s2 = View.empty 2 := by
  obtain ⟨r, s1, s2, h1, h2, h3, -⟩ := C20_sole_root_removed Toy.sane (s := Toy.db0) (C := Toy.C) rfl rfl
    (Toy.alive _) (keys := Toy.ks1) (values := Toy.vs1) (collisionFree_of_check (by decide +kernel)) rfl
    (by decide +kernel) (by decide +kernel) (fun v _ => ⟨v, rfl⟩)
  exact ⟨r, s1, s2, h1, h2, h3⟩

/-! ## C40 -/

/-- C40, for strict histories: the reference count of every stored node is the number of pointers at
it that stored nodes hold, plus the number of times it is a live root.
Missing for the full C40: histories in which an insert writes again what a live version has, for which it
is false (`C40_false`); failed calls; straddling batches. -/
theorem C40_counts_exact_partial (hc : Sane cfg) (h : Uses cfg C True H L s)
    (hcf : CollisionFree cfg.hasher (Among H)) {x : Arr N} {n : Node N} (hx : C.view s x = some n) :
    n.references = pointers (C.view s) (fun _ => True) x + (L.map Prod.fst).count x := by
  obtain ⟨-, ha⟩ := uses_acct hc.pos hc.pp hc.codec h (Among H) hcf (fun _ hi => hi)
  have h1 := ha.eq trivial x
  rw [refsOf_some hx, ha.pointers_eq hcf] at h1
  rw [h1]
  congr 1
  unfold pointers
  apply Finset.sum_congr rfl
  intro y _
  rw [if_pos trivial]
  by_cases hy : Below (C.view s) (L.map Prod.fst) y
  · rw [if_pos hy]
  · rw [if_neg hy]
    cases hv : C.view s y with
    | none => rfl
    | some m =>
      refine absurd ((ha.below hcf).1 (load_pos.1 ?_)) hy
      rw [← ha.eq trivial y, refsOf_some hv]
      exact (ha.honest y m hv).1

/-- C40, for careful histories with failed calls and crashes: the reference count of every stored node
is at least the number of pointers at it held by the nodes of live versions, plus the number of times
it is a live root.
Missing for the full C40: pointers held by nodes that failed calls left behind; and see
`C40_counts_exact_partial`. -/
theorem C40_counts_cover_partial (hc : Sane cfg) (h : Uses cfg C strict H L s)
    (hcf : CollisionFree cfg.hasher (Among H)) {x : Arr N} {n : Node N} (hx : C.view s x = some n) :
    pointers (C.view s) (Below (C.view s) (L.map Prod.fst)) x + (L.map Prod.fst).count x ≤
      n.references := by
  obtain ⟨-, ha⟩ := uses_acct hc.pos hc.pp hc.codec h (Among H) hcf (fun _ hi => hi)
  have h1 := ha.le x
  rw [refsOf_some hx, ha.pointers_eq hcf] at h1
  exact h1

/-- The leaf of 0x0001 in the concrete history, shared by two versions. -/
example : ∃ n, Toy.C.view Toy.s2 ((Trie.leaf (Toy.key 1) [10]).loc Toy.hasher) = some n ∧
    n.references = 2 ∧
    n.references = pointers (Toy.C.view Toy.s2) (fun _ => True)
      ((Trie.leaf (Toy.key 1) [10]).loc Toy.hasher) := by
  refine ⟨_, Option.some_get (by decide +kernel) |>.symm, by decide +kernel, ?_⟩
  rw [C40_counts_exact_partial Toy.sane Toy.use2 Toy.free2 (Option.some_get (by decide +kernel)).symm]
  have : ([(Toy.r2, Toy.M2), (Toy.r1, Toy.M1)].map Prod.fst).count
      ((Trie.leaf (Toy.key 1) [10]).loc Toy.hasher) = 0 := by decide +kernel
  rw [this, Nat.add_zero]

theorem pointers_pos {v : View N} {S : Arr N → Prop} {x y : Arr N} {n : Node N} (hS : S y)
    (hy : v y = some n) (hx : x ∈ n.variant.children) : 1 ≤ pointers v S x := by
  classical
  unfold pointers
  refine Nat.le_trans ?_ (Finset.single_le_sum (fun _ _ => Nat.zero_le _) (Finset.mem_univ y))
  rw [if_pos hS, hy]
  exact List.count_pos_iff.2 hx

/-- C40 is false: in the history of `C19_false`, before the removal, the first root is live and has a
parent, but its count is one. -/
theorem C40_false : ∃ (H : List (HIn 2)) (L : Ledger 2 (List UInt8)) (s : HashDB 2) (x : Arr 2)
    (n : Node 2), Sane Toy.cfg ∧ Lives Toy.cfg Toy.C H L s ∧ CollisionFree Toy.cfg.hasher (Among H) ∧
    Toy.C.view s x = some n ∧
    n.references < pointers (Toy.C.view s) (fun _ => True) x + (L.map Prod.fst).count x := by
  refine ⟨_, _, _, Toy.key 59708, _, Toy.sane, Toy.dlives, Toy.dfree,
    Option.some_get (by decide +kernel) |>.symm, ?_⟩
  have h1 : 1 ≤ pointers (Toy.C.view Toy.d3.2) (fun _ => True) (Toy.key 59708) := by
    refine pointers_pos (y := Toy.key 24207) trivial
      (Option.some_get (by decide +kernel)).symm (by decide +kernel)
  have h2 : ([(Toy.key 24207, Toy.D3), (Toy.key 24207, Toy.D2), (Toy.key 59708, Toy.D1)].map
      Prod.fst).count (Toy.key 59708) = 1 := by decide +kernel
  have h3 : ((Toy.C.view Toy.d3.2 (Toy.key 59708)).get (by decide +kernel)).references = 1 := by
    decide +kernel
  rw [h2, h3]
  omega

/-! ## C21 -/

/-- C21, for strict histories: when every root has been removed, the database is empty.
Missing for the full C21: histories in which an insert writes a pair again that a live version has,
for which it is false (`C21_false`); failed calls; straddling batches. -/
theorem C21_all_removed_empty_partial (hc : Sane cfg) (h : Uses cfg C True H [] s)
    (hcf : CollisionFree cfg.hasher (Among H)) : C.view s = View.empty N := by
  obtain ⟨-, ha⟩ := uses_acct hc.pos hc.pp hc.codec h (Among H) hcf (fun _ hi => hi)
  funext x
  have hz := ha.eq trivial x
  rw [show ([] : Ledger N V).map Prod.fst = [] from rfl, load_zero Reach.nil] at hz
  cases hx : C.view s x with
  | none => rfl
  | some n =>
    have := (ha.honest x n hx).1
    rw [refsOf_some hx] at hz
    omega

/-- C21, before all roots are removed: in strict histories everything stored is part of a live
version. -/
theorem C21_nothing_stale_partial (hc : Sane cfg) (h : Uses cfg C True H L s)
    (hcf : CollisionFree cfg.hasher (Among H)) {x : Arr N} {n : Node N} (hx : C.view s x = some n) :
    Below (C.view s) (L.map Prod.fst) x := by
  obtain ⟨-, ha⟩ := uses_acct hc.pos hc.pp hc.codec h (Among H) hcf (fun _ hi => hi)
  refine (ha.below hcf).1 (load_pos.1 ?_)
  rw [← ha.eq trivial x, refsOf_some hx]
  exact (ha.honest x n hx).1

/-- Both roots of the concrete history are removed, the older one first. -/
example : Toy.C.view (remove Toy.cfg Toy.r2 Toy.t2).2 = View.empty 2 :=
  C21_all_removed_empty_partial Toy.sane
    (Uses.remove (L1 := []) (L2 := []) Toy.use3 (.inl rfl) (outcome (by decide +kernel))) Toy.free2

/-- C21 is false: the same pair is inserted twice into an empty tree, and both roots (which are equal)
are removed; a node remains. -/
theorem C21_false : ∃ (H : List (HIn 2)) (s : HashDB 2) (x : Arr 2), Sane Toy.cfg ∧
    Lives Toy.cfg Toy.C H [] s ∧ CollisionFree Toy.cfg.hasher (Among H) ∧
    (Toy.C.view s x).isSome := by
  have h1 : Lives Toy.cfg Toy.C _ _ (Toy.ins none [1] [10] Toy.db0).2 :=
    .insert (.start rfl rfl) (prev := none) rfl (handled_empty _)
      (outcome (a := Except.ok (Toy.key 24929)) (by decide +kernel))
  have h2 := Lives.insert (s' := (Toy.ins none [1] [10] (Toy.ins none [1] [10] Toy.db0).2).2)
    (keys := [Toy.key 1]) (values := [[10]])
    h1 (prev := none) rfl (handled_empty _)
    (outcome (a := Except.ok (Toy.key 24929)) (by decide +kernel))
  have h3 := Lives.remove (L1 := []) h2 (outcome (a := Except.ok ()) (by decide +kernel))
  have h4 := Lives.remove (L1 := []) h3 (outcome (a := Except.ok ()) (by decide +kernel))
  exact ⟨_, _, Trie.dataLoc Toy.hasher (Toy.key 1) [10], Toy.sane, h4,
    collisionFree_of_check (by decide +kernel), by decide +kernel⟩

/-! ## C37 -/

/-- C37, for careful histories, failing calls: if `remove` fails, every other live root reads its
contents in every state that holds what the failed call left behind.
Missing for the full C37: see `C19_remove_keeps_others_partial`; it is false otherwise
(`C37_false`). -/
theorem C37_failed_remove_harmless_partial (hc : Sane cfg) (h : Uses cfg C strict H L s)
    {r : Arr N} {M : Contents N V} (hL : L = L1 ++ (r, M) :: L2)
    (hcf : CollisionFree cfg.hasher (Among H)) (hs : C.alive s) (hp : Confirmed C strict s)
    {e : Err} (hrun : remove cfg r s = (.error e, s'))
    {s'' : σ} (hv : C.view s'' = C.view s') (hp'' : C.pending s'' = View.empty N) (hs'' : C.alive s'') :
    ∀ e ∈ L1 ++ L2, (HeightBelow e.2 cfg.depth → ∀ k, getOne cfg s'' e.1 k = .ok (e.2 k)) ∧
      (∀ k, getOne cfg s'' e.1 k = getOne cfg s e.1 k) ∧
      (∀ ks, get cfg s'' e.1 ks = get cfg s e.1 ks) ∧
      (∀ k, generateInclusionProof cfg s'' e.1 k = generateInclusionProof cfg s e.1 k) := by
  subst hL
  intro e he
  have hin : e ∈ L1 ++ (r, M) :: L2 := by
    rcases List.mem_append.1 he with h | h <;> simp [h]
  have h' := (Uses.removeFailed id (h.weak False.elim) (hp.weak False.elim) hrun).reopen hv hp''
  have hu := uses_reads hc h h' hcf hs hs'' hin he
  exact ⟨hu.1, hu.2.1, hu.2.2.1, fun k => generateInclusionProof_congr rfl (hu.2.2.2 k)⟩

/-- C37, for careful histories, crashes: if the process dies after any number `n` of the writes of
`remove`, and the database is opened again without the writes that were still queued, every other live
root reads its contents; later careful inserts and removals work as usual.
Missing for the full C37: see `C19_remove_keeps_others_partial`. -/
theorem C37_interrupted_remove_harmless_partial (hc : Sane cfg) (h : Uses cfg C strict H L s)
    {r : Arr N} {M : Contents N V} (hL : L = L1 ++ (r, M) :: L2)
    (hcf : CollisionFree cfg.hasher (Among H)) (hs : C.alive s) (hp : Confirmed C strict s)
    {n n' : Nat} {e : Err} (hrun : remove cfg.crash r (s, n) = (.error e, (s', n')))
    {s'' : σ} (hv : C.view s'' = C.view s') (hp'' : C.pending s'' = View.empty N) (hs'' : C.alive s'') :
    Uses cfg C False H (L1 ++ L2) s'' ∧
    ∀ e ∈ L1 ++ L2, (HeightBelow e.2 cfg.depth → ∀ k, getOne cfg s'' e.1 k = .ok (e.2 k)) ∧
      (∀ k, getOne cfg s'' e.1 k = getOne cfg s e.1 k) ∧
      (∀ ks, get cfg s'' e.1 ks = get cfg s e.1 ks) ∧
      (∀ k, generateInclusionProof cfg s'' e.1 k = generateInclusionProof cfg s e.1 k) := by
  subst hL
  have h' := (Uses.removeCrashed id (h.weak False.elim) (hp.weak False.elim) hrun).reopen hv hp''
  refine ⟨h', ?_⟩
  intro e he
  have hin : e ∈ L1 ++ (r, M) :: L2 := by
    rcases List.mem_append.1 he with h | h <;> simp [h]
  have hu := uses_reads hc h h' hcf hs hs'' hin he
  exact ⟨hu.1, hu.2.1, hu.2.2.1, fun k => generateInclusionProof_congr rfl (hu.2.2.2 k)⟩

/-- The removal of the first root of the concrete history dies at its third write. -/
example : ∃ s' n', remove Toy.cfg.crash Toy.r1 (Toy.s2, 2) = (.error (.exception "crash"), (s', n')) ∧
    Toy.C.view s' ≠ Toy.C.view Toy.s2 ∧
    getOne Toy.cfg s' Toy.r2 (Toy.key 1) = .ok (some [10]) := by
  have hrun : remove Toy.cfg.crash Toy.r1 (Toy.s2, 2) = (.error (.exception "crash"),
      (remove Toy.cfg.crash Toy.r1 (Toy.s2, 2)).2) := outcome (by decide +kernel)
  refine ⟨_, _, hrun, fun h => ?_, ?_⟩
  · exact Toy.view_ne (s := Toy.s2) (x := Toy.r1) (by decide +kernel) (by decide +kernel) h.symm
  · have := ((C37_interrupted_remove_harmless_partial Toy.sane Toy.use2 (L1 := [(Toy.r2, Toy.M2)])
      (L2 := []) rfl Toy.free2 (Toy.alive _) (.inl rfl) hrun rfl rfl (Toy.alive _)).2
      (Toy.r2, Toy.M2) (by simp)).1 (Toy.deep _) (Toy.key 1)
    rw [this]; decide +kernel

/-- C37 is false: the history of `C19_false`, with a removal that dies after its first write. -/
theorem C37_false : ∃ (H : List (HIn 2)) (L1 L2 : Ledger 2 (List UInt8)) (s s' : HashDB 2) (n n' : Nat)
    (r r' : Arr 2) (M M' : Contents 2 (List UInt8)) (k : Arr 2) (v : List UInt8), Sane Toy.cfg ∧
    Lives Toy.cfg Toy.C H (L1 ++ (r, M) :: L2) s ∧ CollisionFree Toy.cfg.hasher (Among H) ∧
    (r', M') ∈ L1 ++ L2 ∧ r' ≠ r ∧ M' k = some v ∧
    getOne Toy.cfg s r' k = .ok (some v) ∧
    remove Toy.cfg.crash r (s, n) = (.error (.exception "crash"), (s', n')) ∧
    getOne Toy.cfg s' r' k = .ok none :=
  ⟨_, [(Toy.key 24207, Toy.D3), (Toy.key 24207, Toy.D2)], [], _,
    (remove Toy.cfg.crash (Toy.key 59708) (Toy.d3.2, 1)).2.1, 1, _, Toy.key 59708,
    Toy.key 24207, Toy.D1, Toy.D2, Toy.key 2, [20], Toy.sane, Toy.dlives, Toy.dfree, by simp,
    by decide +kernel, by decide +kernel, by decide +kernel, outcome (by decide +kernel),
    by decide +kernel⟩

end MerkleBit
