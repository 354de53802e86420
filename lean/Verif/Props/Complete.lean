import Verif.Spec.Complete
import Verif.Props.AnyRoot
import Verif.Props.Errors
import Verif.Props.Leftover
import Verif.Props.Failures
/-!
# C93: nothing stored is incomplete
-/

namespace MerkleBit
open Trie
variable {N : Nat} {σ V : Type} {cfg : Config N σ V} {C : DbContract cfg.db} {H : List (HIn N)} {R : List (Arr N)}
  {L : Ledger N V} {s s' : σ}

theorem Stored.treeAt {G : Hasher N} {v : View N} {t : Trie N} (h : Stored G v t) : v.TreeAt (t.loc G) := by
  obtain ⟨refs, h⟩ := h.root
  exact ⟨_, h, fun d => by cases t <;> simp [variant]⟩

theorem Stored.complete {G : Hasher N} {v : View N} : ∀ {t : Trie N}, Stored G v t → v.Complete G (t.variant G)
  | .leaf _ _, ⟨_, _, h⟩ => ⟨_, _, h, rfl, rfl⟩
  | .node _ _, ⟨_, hl, hr⟩ => ⟨hl.treeAt, hr.treeAt⟩

theorem whole_of_closed {G : Hasher N} {U : HIn N → Prop} (hU : CollisionFree G U) {v : View N} (hh : Honest G U v)
    (hc : Closed v) : v.AllComplete G := by
  intro x n hx
  rcases (hh x n hx).2 with ⟨k, b, -, hn, -⟩ | ⟨t, hn, rfl, hv, hi⟩
  · rw [hn]; trivial
  · rw [hv]
    exact (stored_of_closed hU hh hc hn hi (by rw [hx]; simp)).complete

theorem Honest.overlay' {G : Hasher N} {U : HIn N → Prop} {v p : View N} (hv : Honest G U v) (hp : Honest G U p) :
    Honest G U (v.overlay p) := by
  intro x n hx
  unfold View.overlay at hx
  cases hpx : p x with
  | none => exact hv x n (by simpa [hpx] using hx)
  | some m =>
    rw [hpx] at hx
    exact hp x n (by rw [hpx]; simpa using hx)

/-- C93 for inserts: after any inserts with any arguments, whether they were accepted, refused, failed in the database or were
interrupted at any point, everything that is stored is complete; and so it will be when what is queued is written as well. -/
theorem C93_inserts_leave_nothing_incomplete (hc : Sane cfg) (h : Inserts cfg C H R L s)
    (hcf : CollisionFree cfg.hasher (Among H)) :
    (C.view s).AllComplete cfg.hasher ∧ (C.settled s).AllComplete cfg.hasher := by
  obtain ⟨hso, -, -⟩ := inserts_inv hc.pos hc.pp h hcf
  exact ⟨whole_of_closed hcf hso.view hso.closed,
    whole_of_closed hcf (hso.view.overlay' hso.pending) hso.closedS⟩

/-- C93 for reads: so whatever bytes are given as a root, reads fail only on the depth limit, or because the bytes are the place
of data (and proofs of keys that are not there). -/
theorem C93_reads_under_any_root (hc : Sane cfg) (h : Inserts cfg C H R L s) (hs : C.alive s)
    (hcf : CollisionFree cfg.hasher (Among H)) (r : Arr N) :
    (∃ n d, C.view s r = some n ∧ n.variant = .data d) ∨
    (∀ ks e, get cfg s r ks = .error e → e = .exception "Depth of merkle tree exceeded") ∧
    (∀ k e, getOne cfg s r k = .error e → e = .exception "Depth limit exceeded") ∧
    (cfg.Room → ∀ k e, generateInclusionProof cfg s r k = .error e →
      e = .exception "Depth limit exceeded" ∨ e = .exception "Key not found in tree" ∨
        C.view s r = none ∧ e = .exception "Failed to find node") := by
  obtain ⟨hso, -, -⟩ := inserts_inv hc.pos hc.pp h hcf
  cases hr : C.view s r with
  | none =>
    right
    have hg := alive_get hs r
    rw [hr] at hg
    obtain ⟨h1, h2, -⟩ := C45_unknown_root_reads_nothing (cfg := cfg) C hs hr
    refine ⟨fun ks e he => ?_, fun k e he => ?_, fun hroom k e he => ?_⟩
    · obtain ⟨m, hm, -⟩ := h2 ks
      rw [hm] at he; cases he
    · rw [h1 k] at he; cases he
    · rw [generateInclusionProof_room hroom] at he
      simp [inclusionProof, proofLoop, hg] at he
      exact .inr (.inr ⟨rfl, he.symm⟩)
  | some n =>
    rcases (hso.view r n hr).2 with ⟨k, b, -, hn, -⟩ | ⟨T, hn, rfl, hv, hi⟩
    · exact .inl ⟨n, _, rfl, hn⟩
    · right
      have hst := stored_of_closed hcf hso.view hso.closed hn hi (show C.view s _ ≠ none by rw [hr]; simp)
      refine ⟨fun ks e => ?_, fun k e => ?_, fun hroom k e => ?_⟩
      · rw [(get_stored (C := C) hc.pos hc.pp hn hst ks).alive hs]
        unfold readBatch
        split
        · intro h; cases h
        · intro he
          rcases readMany_err _ _ _ _ _ _ he with ⟨h1, -⟩ | ⟨p, hp, h1⟩
          · exact h1
          · obtain ⟨v, h2, -⟩ := h.decodes hc.codec hi hp
            rw [h2] at h1; cases h1
      · rw [(getOne_stored (C := C) hc.pos hn hst k).alive hs]
        intro he
        rcases readOne_err _ _ _ he with ⟨h1, -⟩ | ⟨p, hp, -, h1⟩
        · exact h1
        · obtain ⟨v, h2, -⟩ := h.decodes hc.codec hi hp
          rw [h2] at h1; cases h1
      · rw [generateInclusionProof_room hroom, (proof_stored (C := C) hc.pos hn hst k).alive hs]
        intro he
        rcases readProof_err _ _ _ he with ⟨h1, -⟩ | h1
        · exact .inl h1
        · exact .inr (.inl h1)

/-- C93 with removals: where inserts write no group of two or more pairs of a live version again, removals of live versions
leave nothing incomplete either (also what is left over of pairs that were inserted again). -/
theorem C93_removals_leave_nothing_incomplete (hc : Sane cfg) {shows : Bool} (hsh : WritesShow C shows) {P : List (Item N)}
    (h : Keeps cfg C shows H L P s) (hcf : CollisionFree cfg.hasher (Among H)) : (C.view s).AllComplete cfg.hasher := by
  have hinv := h.holds hc hsh hcf
  have same : ∀ {t : Trie N} {n : Node N}, Stored cfg.hasher (C.view s) t → C.view s (t.loc cfg.hasher) = some n →
      (C.view s).Complete cfg.hasher n.variant := by
    intro t n hst hx
    have hcom := hst.complete
    obtain ⟨refs, hx'⟩ := hst.root
    rw [hx] at hx'
    cases hx'
    exact hcom
  have data : ∀ {k : Arr N} {b : List UInt8} {n m : Node N}, C.view s (dataLoc cfg.hasher k b) = some n →
      C.view s (dataLoc cfg.hasher k b) = some m → m.variant = .data ⟨b⟩ → (C.view s).Complete cfg.hasher n.variant := by
    intro k b n m h1 h2 h3
    rw [h1] at h2
    cases h2
    rw [h3]; trivial
  intro x n hx
  rcases hinv.place hcf (x := x) (by rw [hx]; simp) with ⟨e, he, T, hT, ⟨k, b, hkb, rfl⟩ | ⟨u, hu, rfl⟩⟩ | ⟨k, b, hk, rfl⟩ | ⟨k, b, hk, rfl⟩
  · obtain ⟨m, h1, h2⟩ := stored_data (hinv.stored hcf he hT) hkb
    exact data hx h1 h2
  · exact same ((hinv.stored hcf he hT).sub hu) hx
  · obtain ⟨m, h1, h2⟩ := hinv.data hcf hk
    exact data hx h1 h2
  · obtain ⟨v, hv⟩ := hinv.value k b (hinv.leaf k b hk)
    obtain ⟨m, h1, h2⟩ := hinv.data hcf (hinv.leaf k b hk)
    refine same (t := .leaf k b) ?_ hx
    exact hinv.acct.stored hcf trivial (hinv.left _ hk).1.2
      (.root (List.mem_append_right _ (List.mem_map_of_mem (f := Item.loc cfg.hasher) hk)))

/-- What the writes of a removal from exact counts leave on the way. -/
theorem halfway_sound {U : HIn N → Prop} {live : List (Arr N)} (h : Halfway C.toG U True live s) : Sound C U s := by
  refine ⟨h.1.honest, fun x n hx => (h.2 trivial).2.2 x n ?_, fun x c hx => (by obtain ⟨_, hx⟩ := hx; cases hx),
    (h.2 trivial).1, (h.2 trivial).2.1⟩
  unfold GContract.settled View.overlay
  rw [hx]
  rfl

theorem keeps_sound (hc : Sane cfg) {shows : Bool} (hsh : WritesShow C shows) {P : List (Item N)}
    (h : Keeps cfg C shows H L P s) {U : HIn N → Prop} (hU : CollisionFree cfg.hasher U) (hin : ∀ i ∈ H, U i) :
    Sound C U s := by
  obtain ⟨-, -, ha, hp⟩ := keeps_acct hc.pos hc.pp hc.codec hsh h U hU hin
  have hset : C.toG.settled s = C.view s := settled_of_pending_empty (C := C.toG) hp
  have hcl : Closed (C.view s) := ha.closed (cfg := cfg) hU trivial
  refine ⟨ha.honest, ?_, fun x c hx => (by obtain ⟨_, hx⟩ := hx; cases hx), hcl, ?_⟩
  · exact (congrArg (Honest cfg.hasher U) hp).mpr (Honest.empty _ _)
  · rw [hset]; exact hcl

theorem stopped_both (hc : Sane cfg) {shows : Bool} (hsh : WritesShow C shows) {L1 L2 : Ledger N V} {P : List (Item N)}
    {r : Arr N} {M : Contents N V} (h : Keeps cfg C shows H (L1 ++ (r, M) :: L2) P s) (hrun : RemoveStops cfg r s s')
    {U : HIn N → Prop} (hU : CollisionFree cfg.hasher U) (hin : ∀ i ∈ H, U i) : Sound C U s' ∧
      Acct cfg.hasher U False (C.view s') ((L1 ++ L2).map Prod.fst ++ P.map (Item.loc cfg.hasher)) := by
  obtain ⟨hL, hP, hs, hp⟩ := keeps_acct hc.pos hc.pp hc.codec hsh h U hU hin
  obtain ⟨T, hwf, rfl, hT, hrep⟩ := hL (r, M) (by simp)
  have hperm : ((L1 ++ (T.loc cfg.hasher, M) :: L2).map Prod.fst ++ P.map (Item.loc cfg.hasher)).Perm
      (T.loc cfg.hasher :: ((L1 ++ L2).map Prod.fst ++ P.map (Item.loc cfg.hasher))) := by
    have h : (L1 ++ (T.loc cfg.hasher, M) :: L2).Perm ((T.loc cfg.hasher, M) :: (L1 ++ L2)) := List.perm_middle
    exact (h.map Prod.fst).append_right _
  have hq : Honest cfg.hasher U (C.pending s) := hp ▸ Honest.empty _ _
  rcases hrun with ⟨e, hrun⟩ | ⟨e, n, n', hrun⟩
  · have h := remove_halfway (cfg := cfg) (C := C.toG) (ex := True)
      (live := (L1 ++ L2).map Prod.fst ++ P.map (Item.loc cfg.hasher))
      hU hwf hT s ⟨hs.perm hperm, Confirmed.own (strict := True) (.inl hp) hq⟩
    rw [hrun] at h
    rcases h with h | h
    · cases h
    · exact ⟨halfway_sound h.2, h.2.1⟩
  · have h := remove_halfway (cfg := cfg.crash) (C := C.crash.toG) (ex := True)
      (live := (L1 ++ L2).map Prod.fst ++ P.map (Item.loc cfg.hasher))
      hU hwf hT (s, n) ⟨hs.perm hperm, Confirmed.own (cfg := cfg.crash) (C := C.crash) (s := (s, n)) (strict := True)
        (.inl hp) hq⟩
    have hrun' : remove cfg.crash (loc cfg.crash.hasher T) (s, n) = (.error e, (s', n')) := hrun
    rw [hrun'] at h
    rcases h with h | h
    · cases h
    · exact ⟨Inv.sound (Inv.ofCrash (cfg := cfg) (C := C) (halfway_sound (cfg := cfg.crash) (C := C.crash) h.2)), h.2.1⟩

theorem stopped_sound (hc : Sane cfg) {shows : Bool} (hsh : WritesShow C shows) {L1 L2 : Ledger N V} {P : List (Item N)}
    {r : Arr N} {M : Contents N V} (h : Keeps cfg C shows H (L1 ++ (r, M) :: L2) P s) (hrun : RemoveStops cfg r s s')
    {U : HIn N → Prop} (hU : CollisionFree cfg.hasher U) (hin : ∀ i ∈ H, U i) : Sound C U s' :=
  (stopped_both hc hsh h hrun hU hin).1

theorem stopped_halfway (hc : Sane cfg) {shows : Bool} (hsh : WritesShow C shows) {L1 L2 : Ledger N V} {P : List (Item N)}
    {r : Arr N} {M : Contents N V} (h : Keeps cfg C shows H (L1 ++ (r, M) :: L2) P s) (hrun : RemoveStops cfg r s s')
    {U : HIn N → Prop} (hU : CollisionFree cfg.hasher U) (hin : ∀ i ∈ H, U i) :
    Acct cfg.hasher U False (C.view s') ((L1 ++ L2).map Prod.fst ++ P.map (Item.loc cfg.hasher)) :=
  (stopped_both hc hsh h hrun hU hin).2

theorem more_sound (hc : Sane cfg) {U : HIn N → Prop} (hU : CollisionFree cfg.hasher U) {H' : List (HIn N)}
    (h : MoreInserts cfg C s H' s') (hin : ∀ i ∈ H', U i) (hs : Sound C U s) : Sound C U s' := by
  induction h with
  | start => exact hs
  | @insertAt d H s1 s2 prev keys values res _ hrun ih =>
    have hs := ih (fun i hi => hin i (List.mem_append_right _ hi))
    have := insert_any (cfg := cfg.withDepth d) (C := C) hc.pos hc.pp hU prev keys values (s := s1)
      (fun i hi => hin i (List.mem_append_left _ hi)) (hs.inv.toDepth d)
    unfold Ends at this
    rw [hrun] at this
    cases res with
    | ok r =>
      obtain ⟨-, -, ht, hi⟩ := this
      exact hi.ofDepth.sound
    | error e => exact this.2.ofDepth.sound
  | @crashAt d H s1 s2 n n' prev keys values e _ hrun ih =>
    have hs := ih (fun i hi => hin i (List.mem_append_right _ hi))
    have := insert_any (cfg := (cfg.withDepth d).crash) (C := C.crash) hc.pos hc.pp hU prev keys values (s := (s1, n))
      (fun i hi => hin i (List.mem_append_left _ hi)) (hs.inv.toDepth d).toCrash
    unfold Ends at this
    rw [hrun] at this
    exact (Inv.ofCrash (cfg := cfg.withDepth d) (C := C) this.2).ofDepth.sound
  | reopen _ h1 h2 ih => exact (ih hin).same h1 (.inr h2)

/-- C93 with a removal that fails or is interrupted after any number of its writes: nothing is incomplete then either, nor
after any further inserts. -/
theorem C93_interrupted_removals_leave_nothing_incomplete (hc : Sane cfg) {shows : Bool} (hsh : WritesShow C shows)
    {L1 L2 : Ledger N V} {P : List (Item N)} {r : Arr N} {M : Contents N V}
    (h : Keeps cfg C shows H (L1 ++ (r, M) :: L2) P s) {s1 : σ} (hrun : RemoveStops cfg r s s1) {H' : List (HIn N)}
    (h' : MoreInserts cfg C s1 H' s') (hcf : CollisionFree cfg.hasher (Among (H' ++ H))) :
    (C.view s').AllComplete cfg.hasher ∧ (C.settled s').AllComplete cfg.hasher := by
  have hso := more_sound hc hcf h' (fun i hi => List.mem_append_left _ hi)
    (stopped_sound hc hsh h hrun hcf (fun i hi => List.mem_append_right _ hi))
  exact ⟨whole_of_closed hcf hso.view hso.closed,
    whole_of_closed hcf (hso.view.overlay' hso.pending) hso.closedS⟩

/-- C93: after successful inserts and removals, any further inserts leave nothing incomplete. -/
theorem C93_inserts_after_removals_leave_nothing_incomplete (hc : Sane cfg) {shows : Bool} (hsh : WritesShow C shows)
    {P : List (Item N)} (h : Keeps cfg C shows H L P s) {H' : List (HIn N)}
    (h' : MoreInserts cfg C s H' s') (hcf : CollisionFree cfg.hasher (Among (H' ++ H))) :
    (C.view s').AllComplete cfg.hasher ∧ (C.settled s').AllComplete cfg.hasher := by
  have hso := more_sound hc hcf h' (fun i hi => List.mem_append_left _ hi)
    (keeps_sound hc hsh h hcf (fun i hi => List.mem_append_right _ hi))
  exact ⟨whole_of_closed hcf hso.view hso.closed,
    whole_of_closed hcf (hso.view.overlay' hso.pending) hso.closedS⟩

/-- Where a group of two pairs of a live version is written again, a removal may leave a branch that points at nothing (the
history of `C19_false`). -/
theorem C93_careless_removals_differ : ∃ (H : List (HIn 2)) (L1 L2 : Ledger 2 (List UInt8)) (s s' : HashDB 2) (r : Arr 2)
    (M : Contents 2 (List UInt8)), Sane Toy.cfg ∧ Lives Toy.cfg Toy.C H (L1 ++ (r, M) :: L2) s ∧
    CollisionFree Toy.cfg.hasher (Among H) ∧ (Toy.C.view s).AllComplete Toy.cfg.hasher ∧
    remove Toy.cfg r s = (.ok (), s') ∧ ¬ (Toy.C.view s').AllComplete Toy.cfg.hasher := by
  refine ⟨_, [(Toy.key 24207, Toy.D3), (Toy.key 24207, Toy.D2)], [], _, Toy.d4.2, Toy.key 59708, Toy.D1, Toy.sane,
    Toy.dlives, Toy.dfree, ?_, outcome (by decide +kernel), fun hw => ?_⟩
  · have h : Inserts Toy.cfg Toy.C Toy.DH _ [(Toy.key 24207, Toy.D3), (Toy.key 24207, Toy.D2), (Toy.key 59708, Toy.D1)]
        Toy.d3.2 :=
      .good (.good (.good (.start rfl rfl) (prev := none) rfl (handled_empty _) (outcome (by decide +kernel)))
        (prev := some (Toy.key 59708)) (by simp [Ledger.Prev, Toy.D1]) (handled_single Toy.sane _)
        (outcome (by decide +kernel))) (prev := some (Toy.key 24207)) (by simp [Ledger.Prev, Toy.D2, Toy.D1])
        (handled_single Toy.sane _) (outcome (by decide +kernel))
    exact (C93_inserts_leave_nothing_incomplete Toy.sane h Toy.dfree).1
  · have hbad : (match Toy.C.view Toy.d4.2 (Toy.key 24207) with
        | some ⟨_, .branch b⟩ => decide (Toy.C.view Toy.d4.2 b.zero = none)
        | _ => false) = true := by decide +kernel
    split at hbad
    · next refs b hb =>
      obtain ⟨⟨m, hm, -⟩, -⟩ := hw _ _ hb
      rw [of_decide_eq_true hbad] at hm
      cases hm
    · cases hbad

/-! ## Concrete cases -/

namespace Toy

/-- Two inserts, and one that is interrupted after three of its writes. -/
example : (Toy.C.view sc).AllComplete Toy.cfg.hasher ∧ (Toy.C.settled sc).AllComplete Toy.cfg.hasher :=
  C93_inserts_leave_nothing_incomplete sane (hist2.crash runc) (freec.mono fun _ h => List.mem_append_right _ h)

/-- Two inserts and one that fails: whatever bytes are given as a root. -/
example (r : Arr 2) := C93_reads_under_any_root sane hist3 (alive _) free3 r

/-- The removal of the first version dies at its third write. -/
def cut : HashDB 2 := (remove Toy.cfg.crash r1 (s2, 2)).2.1

theorem cut_run : RemoveStops Toy.cfg r1 s2 cut :=
  .inr ⟨.exception "crash", 2, (remove Toy.cfg.crash r1 (s2, 2)).2.2, outcome (by decide +kernel)⟩

theorem keeps2 : Keeps Toy.cfg Toy.C true H2 ([(r2, M2)] ++ (r1, M1) :: []) [] s2 :=
  C87_nothing_left_if_new sane use2

/-- Nothing is incomplete then, nor after an insert of two keys on top of the second version, one of which it has. -/
example : (Toy.C.view (insert Toy.cfg (some r2) [key 1, key 9] [[77], [9]] cut).2).AllComplete Toy.cfg.hasher :=
  (C93_interrupted_removals_leave_nothing_incomplete sane hash_writesShow keeps2 cut_run
    (.insertAt (d := Toy.cfg.depth) (prev := some r2) (keys := [key 1, key 9]) (values := [[77], [9]])
      (res := (insert Toy.cfg (some r2) [key 1, key 9] [[77], [9]] cut).1) .start rfl) (collisionFree_of_check (by decide +kernel))).1

/-- Both versions are there, and an insert is interrupted after three of its writes. -/
example : (Toy.C.view sc).AllComplete Toy.cfg.hasher :=
  (C93_inserts_after_removals_leave_nothing_incomplete sane hash_writesShow keeps2
    (.crashAt (d := Toy.cfg.depth) .start runc) (freec.mono fun i h => by
      refine List.mem_append_right _ ?_
      simpa [Hc] using h)).1

/-- All versions of `lo_gone` are removed, and the pair that was inserted twice is left over: a leaf and its data. -/
example : (Toy.C.view lo4.2).AllComplete Toy.cfg.hasher :=
  C93_removals_leave_nothing_incomplete sane hash_writesShow lo_gone (collisionFree_of_check (by decide +kernel))

end Toy

end MerkleBit
