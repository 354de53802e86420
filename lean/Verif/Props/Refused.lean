import Verif.Proof.Refused
import Verif.Props.Needs
import Verif.Proof.TidySessions
/-!
# C86: inserts that are refused
-/

namespace MerkleBit
section
variable {N : Nat} {σ V : Type} {cfg : Config N σ V} {C : DbContract cfg.db} {H H0 : List (HIn N)}
  {L : Ledger N V} {s s' s0 t : σ}

/-- C86: an insert that is refused, for whatever reason, by a database that works and shows writes at once (as
`HashDB` does) takes nothing away, whatever is stored: no node, and no reference.  What it may leave behind are
leaves and data nodes, never branches, and where it leaves a new leaf it has counted the data node. -/
theorem C86_refused_takes_nothing (hN : 0 < N) (hw : WritesShow C true) {prev : Option (Arr N)}
    {keys : List (Arr N)} {values : List V} {e : Err} (hs : C.alive s) (hp : C.pending s = View.empty N)
    (hrun : insert cfg prev keys values s = (.error e, s')) :
    (∀ x n, C.view s x = some n → 0 < n.references →
      ∃ n', C.view s' x = some n' ∧ n.references ≤ n'.references) ∧
    (∀ x n, C.view s x = none → C.view s' x = some n →
      (∀ b, n.variant ≠ .branch b) ∧
      ∀ l, n.variant = .leaf l → ∃ m, C.view s' l.data = some m ∧
        ∀ m0, C.view s l.data = some m0 → m0.references < m.references) := by
  obtain ⟨-, h⟩ := refused_rise hN hw hs hp hrun
  refine ⟨fun x n hx hn => ?_, fun x n h0 h1 => ⟨fun b => h.branch x n b h0 h1, fun l hl => ?_⟩⟩
  · have := h.up x
    unfold refsOf at this
    rw [hx] at this
    cases hx' : C.view s' x with
    | none => rw [hx'] at this; exact absurd hn (Nat.not_lt_of_le this)
    | some n' => rw [hx'] at this; exact ⟨n', rfl, this⟩
  · have := h.leaf x n l h0 h1 hl
    unfold refsOf at this
    cases hx' : C.view s' l.data with
    | none => rw [hx'] at this; exact absurd this (Nat.not_lt_zero _)
    | some m =>
      rw [hx'] at this
      refine ⟨m, rfl, fun m0 h0 => ?_⟩
      rw [h0] at this
      exact this

/-- C86, later: whatever versions are removed, in whatever state the database was, a key that can be read under
the root of a version can be read there too if inserts that were refused came before, between or after the
removals.  Missing for the full C86: databases that queue writes, for which it is false (`C86_false`). -/
theorem C86_refused_does_no_harm_partial (hc : Sane cfg) (hw : WritesShow C true) (h0 : Events cfg C H0 L s0)
    (hp : C.pending s0 = View.empty N) (hs : C.alive s0) (h : Alongside cfg L s0 H s t)
    (hcf : CollisionFree cfg.hasher (Among (H ++ H0))) {r : Arr N} {M : Contents N V} (hr : (r, M) ∈ L)
    (hd : HeightBelow M cfg.depth) {k : Arr N} {v : V} (hk : getOne cfg s r k = .ok (some v)) :
    getOne cfg t r k = .ok (some v) := by
  obtain ⟨e1, -, a1, e2, -, a2, hA⟩ := alongside_ahead hc hw h0 hp hs hcf h (fun _ hi => hi)
  have hsub : ∀ i, Among H0 i → Among (H ++ H0) i := fun i hi => List.mem_append_right _ hi
  obtain ⟨T, hT, -, hM, h1⟩ := C80_read_by_counts hc e1 a1 (hcf.mono hsub) hr hd
  obtain ⟨T', hT', -, hM', h2⟩ := C80_read_by_counts hc e2 a2 hcf hr hd
  cases Represents.unique hT hT' hM hM'
  obtain ⟨T'', hT'', -, hin, hM''⟩ := events_records hc.pos hc.pp e2 hcf _ hr
  cases Represents.unique hT hT'' hM hM''
  by_cases hway : ∀ i ∈ way k T, 0 < countsOf cfg.hasher (C.view s) i
  · have := (h1 k).1 hway
    rw [hk] at this
    rw [(h2 k).1, this]
    intro i hi
    exact Nat.lt_of_lt_of_le (hway i hi) (hA.le (way_ok k hT.norm hin i hi) (hway i hi))
  · have := (h1 k).2 hway
    rw [hk] at this
    cases this

/-- C86 for databases that queue writes (as `RocksDB` does): nothing that an insert wrote shows after it was
refused.  Closing the database drops what is queued, and then everything is as it was before. -/
theorem C86_refused_is_queued (hN : 0 < N) (hw : WritesShow C false) {prev : Option (Arr N)}
    {keys : List (Arr N)} {values : List V} {e : Err} (hs : C.alive s)
    (hrun : insert cfg prev keys values s = (.error e, s')) : C.view s' = C.view s :=
  refused_quiet hN hw hs hrun

/-- C86 for careful histories, whether the database queues writes or not: after an insert with any arguments
was refused, a live version can be removed, and every other live version still reads its contents. -/
theorem C86_removal_after_refused (hc : Sane cfg) (hw : ∃ b, WritesShow C b) {L1 L2 : Ledger N V} {r : Arr N}
    {M : Contents N V} (h : Uses cfg C False H (L1 ++ (r, M) :: L2) s) (hp : C.pending s = View.empty N)
    (hs : C.alive s) {prev : Option (Arr N)} {keys : List (Arr N)} {values : List V} {e : Err}
    (hrun : insert cfg prev keys values s = (.error e, s'))
    (hcf : CollisionFree cfg.hasher (Among (hashedBy cfg prev keys values s ++ H))) :
    ∃ t, remove cfg r s' = (.ok (), t) ∧ C.alive t ∧ C.pending t = View.empty N ∧
      ∀ e ∈ L1 ++ L2, HeightBelow e.2 cfg.depth → ∀ k, getOne cfg t e.1 k = .ok (e.2 k) := by
  have hs' := insert_alive (cfg := cfg) hs prev keys values
  rw [hrun] at hs'
  have h' := Uses.refused id h hs hrun
  have hw' : Waiting C False s' := Waiting.refused hc.pos id hw hs (.inl hp) hrun
  obtain ⟨t, ht, hat⟩ := remove_alive (C := C) (cfg := cfg) hs' r
  have h2 := Uses.remove h' hw'.confirmed ht
  exact ⟨t, ht, hat, remove_flushed ht, fun e he hd => (uses_reads hc h2 h2 hcf hat hat he he).1 hd⟩

end

/-! ## Concrete cases -/

namespace Toy

/-- Between the inserts and the removal of `C19_false`, a batch with a key twice. -/
def refused3 : Res (Arr 2) × HashDB 2 :=
  insert cfg (some (key 24207)) [key 0x8000, key 0x8000] [[1], [2]] d3.2

theorem refused3_run : ∃ e, insert cfg (some (key 24207)) [key 0x8000, key 0x8000] [[1], [2]] d3.2 =
    (.error e, refused3.2) := by
  have hn : refused3.1.toOption = none := by decide +kernel
  cases h : refused3.1 with
  | ok r => rw [h] at hn; cases hn
  | error e => exact ⟨e, Prod.ext h rfl⟩

end Toy

/-- C86 on `C19_false`, where the removal of the first version takes key 2 from the second: the hypotheses hold
for the run with the refused insert before the removal, key 0x8000 is still read, and even key 2 is. -/
example : ∃ H L, ∃ t, Events Toy.cfg Toy.C Toy.DH L Toy.d3.2 ∧ WritesShow Toy.C true ∧
    Alongside Toy.cfg L Toy.d3.2 H Toy.d4.2 t ∧ CollisionFree Toy.cfg.hasher (Among (H ++ Toy.DH)) ∧
    getOne Toy.cfg Toy.d4.2 (Toy.key 24207) (Toy.key 0x8000) = .ok (some [30]) ∧
    getOne Toy.cfg Toy.d4.2 (Toy.key 24207) (Toy.key 2) = .ok none ∧
    getOne Toy.cfg t (Toy.key 24207) (Toy.key 0x8000) = .ok (some [30]) ∧
    getOne Toy.cfg t (Toy.key 24207) (Toy.key 2) = .ok (some [20]) := by
  obtain ⟨e, he⟩ := Toy.refused3_run
  refine ⟨_, _, (remove Toy.cfg (Toy.key 59708) Toy.refused3.2).2, Toy.devents3, hash_writesShow,
    .remove (M := Toy.D1) (.refused .start he) (by simp) (outcome (by decide +kernel)) (outcome (by decide +kernel)),
    collisionFree_of_check (by decide +kernel), by decide +kernel, by decide +kernel, by decide +kernel,
    by decide +kernel⟩

namespace Toy

/-- Two versions in `RocksDB`, and then an insert that gives a key twice. -/
def twice5 := insert rocks (some (key 59708)) [key 1, key 2, key 2] [[6], [7], [8]] n2.2

theorem refused_of {α σ : Type} {p : Res α × σ} (h : p.1.toOption = none) : ∃ e, p = (.error e, p.2) := by
  rcases p with ⟨⟨e⟩ | r, s⟩
  · exact ⟨e, rfl⟩
  · cases h

theorem twice5_run : ∃ e, twice5 = (.error e, twice5.2) := refused_of (by decide +kernel)

theorem n2_uses : Uses rocks RC False (hashedBy rocks (some (key 59708)) [key 0x8000] [[30]] n1.2 ++
      (hashedBy rocks none [key 1, key 2] [[10], [20]] (RocksDB.open 2) ++ []))
    [(key 24207, D2), (key 59708, D1)] n2.2 :=
  .insert (.insert (.start rfl rfl) (careful_of_new (prev := none) rfl rfl rfl (by decide) (noStraddle_empty _)
      (by simp)) (outcome (by decide +kernel)))
    (careful_of_new (prev := some (key 59708)) (rflushed (by decide +kernel)) (by simp [Ledger.Prev, D1]) rfl
      (by decide) (noStraddle_single _) (by decide +kernel)) (outcome (by decide +kernel))

end Toy

/-- C86 on `RocksDB`: the insert is refused after it has queued writes; then the first version is removed, and the second
is as before. -/
example : Toy.twice5.2.pending.isSome ∧ ∃ t, remove Toy.rocks (Toy.key 59708) Toy.twice5.2 = (.ok (), t) ∧
    getOne Toy.rocks t (Toy.key 24207) (Toy.key 2) = .ok (some [20]) := by
  obtain ⟨e, he⟩ := Toy.twice5_run
  rw [Toy.twice5] at he
  obtain ⟨t, h1, -, -, h2⟩ := C86_removal_after_refused Toy.rsane ⟨_, rocks_writesShow _ _⟩
    (L1 := [(Toy.key 24207, Toy.D2)]) (L2 := []) Toy.n2_uses (Toy.rflushed (by decide +kernel))
    (insert_alive (cfg := Toy.rocks) (C := Toy.RC)
      (insert_alive (cfg := Toy.rocks) (C := Toy.RC) (rocks_empty ToyCodec.lawful) _ _ _) _ _ _) he
    (collisionFree_of_check (by decide +kernel))
  refine ⟨by decide +kernel, t, h1, ?_⟩
  have := h2 (Toy.key 24207, Toy.D2) (by simp) (heightBelow_of_bits _ (by decide)) (Toy.key 2)
  rw [this]
  decide +kernel

/-- C86 is false for `RocksDB`: what a refused insert queued is written by the next call, a removal, which brings
back the branch that the removal deleted, with a count of 2, but not what that gave up.  Two more removals
of the same root then take a key from another version.  Without the refused insert they do nothing. -/
theorem C86_false : ∃ (r r' k : Arr 2) (v : List UInt8),
    let b1 := insert Toy.rocks none [Toy.key 1, k] [[10], v] (RocksDB.open 2)
    let b2 := insert Toy.rocks (some r) [Toy.key 1] [[11]] b1.2
    let b3 := insert Toy.rocks (some r) [Toy.key 0x8000, Toy.key 0x8000] [[1], [2]] b2.2
    let thrice := fun s => (remove Toy.rocks r (remove Toy.rocks r (remove Toy.rocks r s).2).2).2
    b1.1 = .ok r ∧ b2.1 = .ok r' ∧ b3.1.toOption = none ∧
    getOne Toy.rocks (thrice b2.2) r' k = .ok (some v) ∧ getOne Toy.rocks (thrice b3.2) r' k = .ok none :=
  ⟨Toy.key 59708, Toy.key 60236, Toy.key 2, [20], by decide +kernel⟩

end MerkleBit
