import Verif.Props.Remove
/-!
# C47-C49: live and removed roots

See `Props/Remove.lean` for the histories `Uses` and `Lives`.
-/

namespace MerkleBit
variable {N : Nat} {σ V : Type} {cfg : Config N σ V} {C : DbContract cfg.db} {strict : Prop}
  {H : List (HIn N)} {L L1 L2 : Ledger N V} {s s' : σ}

/-! ## C47 -/

/-- C47, for careful histories, that the call succeeds; this needs no more than that the old version is
within the depth limit.  Missing: as below. -/
theorem C47_live_roots_accept_partial (hc : Sane cfg) (h : Uses cfg C strict H L s) (hs : C.alive s)
    {prev : Option (Arr N)} {M : Contents N V} {keys : List (Arr N)} {values : List V}
    (hcf : CollisionFree cfg.hasher (Among (hashedBy cfg prev keys values s ++ H)))
    (hcare : Careful cfg C strict L s prev M keys values)
    (hlen : keys.length = values.length) (hne : keys ≠ [])
    (henc : ∀ v ∈ values, ∃ b, cfg.encode v = .ok b) (hd : HeightBelow M (cfg.depth + 1)) :
    ∃ r s', insert cfg prev keys values s = (.ok r, s') ∧ C.alive s' ∧
      C.pending s' = View.empty N ∧
      Uses cfg C strict (hashedBy cfg prev keys values s ++ H) ((r, M.assign keys values) :: L) s' := by
  obtain ⟨hL, ha⟩ := uses_acct hc.pos hc.pp hc.codec h
    (Among (hashedBy cfg prev keys values s ++ H)) hcf (fun _ hi => List.mem_append_right _ hi)
  have hins := insert_careful (C := C) hc.pos hc.pp hc.codec hcf hcare
    (fun i hi => List.mem_append_left _ hi) hL ha
    (h.inPlace hc.pos hc.pp hcf (fun _ hi => List.mem_append_right _ hi)).2
  unfold Ends at hins
  rcases hrun : insert cfg prev keys values s with ⟨res, s'⟩
  rw [hrun] at hins
  cases res with
  | error e =>
    exfalso
    rcases hins.1 with ⟨hb, -⟩ | ⟨h1, -⟩
    · rcases hb with hb | hb | hb | ⟨v, hv, e, he⟩ | hb
      · exact hb hlen
      · exact hne hb
      · exact hb hcare.distinct
      · obtain ⟨b, hb⟩ := henc v hv
        rw [hb] at he; cases he
      · exact hb hd
    · exact h1 hs
  | ok r => exact ⟨r, s', rfl, hins.1 hs, hins.2.2.2, Uses.insert h hcare hrun⟩

/-- C47, for careful histories: whatever was inserted and removed before, failed calls and crashes
included, a careful insert on top of a live root (or of nothing) succeeds; under the new root the keys
of the batch read their values, all other keys read what they read under the old root, and all live roots
read what they read before.
Missing for the full C47: histories in which an insert writes again a group of pairs that a live version
has, for which it is false (`C47_false`); and straddling batches. -/
theorem C47_live_roots_extend_partial (hc : Sane cfg) (h : Uses cfg C strict H L s) (hs : C.alive s)
    {prev : Option (Arr N)} {M : Contents N V} {keys : List (Arr N)} {values : List V}
    (hcf : CollisionFree cfg.hasher (Among (hashedBy cfg prev keys values s ++ H)))
    (hcare : Careful cfg C strict L s prev M keys values)
    (hlen : keys.length = values.length) (hne : keys ≠ [])
    (henc : ∀ v ∈ values, ∃ b, cfg.encode v = .ok b)
    (hd : HeightBelow (M.assign keys values) cfg.depth) :
    ∃ r s', insert cfg prev keys values s = (.ok r, s') ∧ C.alive s' ∧
      C.pending s' = View.empty N ∧
      Uses cfg C strict (hashedBy cfg prev keys values s ++ H) ((r, M.assign keys values) :: L) s' ∧
      (∀ k v, (k, v) ∈ keys.zip values → getOne cfg s' r k = .ok (some v)) ∧
      (∀ k, k ∉ keys → getOne cfg s' r k = .ok (M k)) ∧
      ∀ e ∈ L, HeightBelow e.2 cfg.depth → ∀ k, getOne cfg s' e.1 k = .ok (e.2 k) := by
  obtain ⟨r, s', hrun, hs', hp, h'⟩ := C47_live_roots_accept_partial hc h hs hcf hcare hlen hne henc
    (hd.succ.subset (assign_keeps M keys values))
  have hread : ∀ e ∈ (r, M.assign keys values) :: L, HeightBelow e.2 cfg.depth →
      ∀ k, getOne cfg s' e.1 k = .ok (e.2 k) := fun e he => (uses_reads hc h' h' hcf hs' hs' he he).1
  refine ⟨r, s', hrun, hs', hp, h', ?_, ?_, fun e he => hread e (List.mem_cons_of_mem _ he)⟩
  · intro k v hk
    exact (hread _ List.mem_cons_self hd k).trans (congrArg _ (assign_mem _ hlen hcare.distinct hk))
  · intro k hk
    exact (hread _ List.mem_cons_self hd k).trans (congrArg _ (assign_not_mem _ _ hk))

/-- An insert on top of the second root of the concrete history, after the first was removed. -/
example : ∃ r s', insert Toy.cfg (some Toy.r2) [Toy.key 7] [[70]] Toy.t2 = (.ok r, s') ∧
    getOne Toy.cfg s' r (Toy.key 7) = .ok (some [70]) ∧
    getOne Toy.cfg s' r (Toy.key 2) = .ok (some [21]) := by
  obtain ⟨r, s', h1, -, -, -, h2, h3, -⟩ := C47_live_roots_extend_partial Toy.sane Toy.use3
    (Toy.alive _) (prev := some Toy.r2) (keys := [Toy.key 7]) (values := [[70]])
    (collisionFree_of_check (by decide +kernel))
    (careful_of_new (M := Toy.M2) rfl (by simp [Ledger.Prev]) rfl (by decide) (noStraddle_single _)
      (by decide +kernel)) rfl (by decide) (fun v _ => ⟨v, rfl⟩) (Toy.deep _)
  refine ⟨r, s', h1, h2 _ _ (by simp), ?_⟩
  rw [h3 _ (by decide)]; decide +kernel

/-- C47 is false: after the history of `C19_false` the root that lost a key cannot be extended. -/
theorem C47_false : ∃ (H : List (HIn 2)) (L : Ledger 2 (List UInt8)) (s : HashDB 2) (r : Arr 2)
    (M : Contents 2 (List UInt8)) (k : Arr 2) (v : List UInt8) (msg : String), Sane Toy.cfg ∧
    Lives Toy.cfg Toy.C H L s ∧ (r, M) ∈ L ∧
    CollisionFree Toy.cfg.hasher (Among (hashedBy Toy.cfg (some r) [k] [v] s ++ H)) ∧
    (insert Toy.cfg (some r) [k] [v] s).1 = .error (.exception msg) :=
  ⟨_, [(Toy.key 24207, Toy.D3), (Toy.key 24207, Toy.D2)], Toy.d4.2, Toy.key 24207, Toy.D2, Toy.key 3,
    [40], "Failed to find node in database.", Toy.sane,
    Lives.remove (L1 := [(Toy.key 24207, Toy.D3), (Toy.key 24207, Toy.D2)]) (L2 := []) Toy.dlives
      (outcome (by decide +kernel)), by simp, collisionFree_of_check (by decide +kernel),
    by decide +kernel⟩

end MerkleBit
