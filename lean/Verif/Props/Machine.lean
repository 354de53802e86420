import Verif.Proof.MachineTrace
import Verif.Proof.MachineLarge
import Verif.Props.Trace
/-!
# C71: counters of the machine's width

`Model/Machine.lean` is the program with its additions as the machine does them, with overflow checks or
without.  It is the program of `Model/MerkleBit.lean` as long as fewer than `2 ^ 64 - 1` writes were asked
for and every insert puts together fewer than `2 ^ 32` tree references, which are counted in 32 bits; with
overflow checks it is, in any state whatsoever, that program or a panic.
-/

namespace MerkleBit
variable {N : Nat} {σ V : Type} {cfg : Config N σ V} {C : DbContract cfg.db} {A A' : Arith} {W : Nat}
  {H : List (HIn N)} {P : List (Arr N × V)} {L : Lineages N V} {s : σ}

/-- C71, reading: on any database, sound or not, whatever a build does on overflow: it never happens, unless
the depth limit is `usize::MAX`. -/
theorem C71_reads (hd : cfg.depth + 1 < 2 ^ 64) (s : σ) (r : Arr N) :
    (∀ keys, Machine.get A cfg s r keys = get cfg s r keys) ∧
    (∀ k, Machine.getOne A cfg s r k = getOne cfg s r k) ∧
    (∀ k, Machine.generateInclusionProof A cfg s r k = generateInclusionProof cfg s r k) :=
  ⟨fun keys => getA_eq hd r keys, fun k => getOneA_eq hd r k,
    fun k => generateInclusionProofA_eq hd r k⟩

/-- A damaged database of history E, with sums modulo `2 ^ 64`. -/
example : Machine.getOne .wrapping Toy.cfg Toy.e4s (Toy.key 21835) (Toy.key 1) = .ok none ∧
    Machine.getOne .wrapping Toy.cfg Toy.e4s (Toy.key 21835) (Toy.key 0x4000) = .ok (some [3]) := by
  rw [(C71_reads (by decide) _ _).2.1, (C71_reads (by decide) _ _).2.1]
  decide +kernel

/-- C71, writing: after any calls, with any arguments and outcomes and with crashes: an insert, with any
arguments, is the one of the model as long as the writes asked for fit into 64 bits and the tree references
of this insert into 32 bits. -/
theorem C71_inserts (hc : Sane cfg) (h : MachineTraces A cfg C W H P L s) (d : Nat)
    (prev : Option (Arr N)) :
    (∀ keys values, W + (keys.length * (2 * d + 5) + 1) + 1 < 2 ^ 64 →
      keys.length * (d + 2) + 1 < 2 ^ 32 ∨ prev = none ∧ keys.length < 2 ^ 32 →
      CollisionFree cfg.hasher (Among (hashedBy (cfg.withDepth d) prev keys values s ++ H)) →
      Machine.insert A (cfg.withDepth d) prev keys values s =
        insert (cfg.withDepth d) prev keys values s) ∧
    (∀ k v, W + (2 * d + 6) + 1 < 2 ^ 64 → d + 3 < 2 ^ 32 ∨ prev = none →
      CollisionFree cfg.hasher (Among (hashedBy (cfg.withDepth d) prev [k] [v] s ++ H)) →
      Machine.insertOne A (cfg.withDepth d) prev k v s = insertOne (cfg.withDepth d) prev k v s) := by
  have main : ∀ keys values, W + (keys.length * (2 * d + 5) + 1) + 1 < 2 ^ 64 →
      keys.length * (d + 2) + 1 < 2 ^ 32 ∨ prev = none ∧ keys.length < 2 ^ 32 →
      CollisionFree cfg.hasher (Among (hashedBy (cfg.withDepth d) prev keys values s ++ H)) →
      Machine.insert A (cfg.withDepth d) prev keys values s =
        insert (cfg.withDepth d) prev keys values s := by
    intro keys values hW hT hU
    have hT' : (cfg.withDepth d).treeRefs prev keys.length < 2 ^ 32 := by
      rcases hT with h | ⟨rfl, h⟩
      · unfold Config.treeRefs
        cases prev with
        | none =>
          have : keys.length * 1 ≤ keys.length * (d + 2) := Nat.mul_le_mul_left _ (by omega)
          dsimp only
          omega
        | some r => exact h
      · exact h
    have hU' := hU.mono (U := Among H) (fun i hi => List.mem_append_right _ hi)
    obtain ⟨h1, h2, h3⟩ := h.facts hc.pos hc.pp (by omega) hU'
    exact (insert_machine' (cfg := cfg.withDepth d) (A := A) (C := C) hc.pos hc.pp prev keys values hU
      (calls_inPlace (C := C) hc.pos hc.pp h1.calls hU') h2 h3 hW hT').1
  refine ⟨main, fun k v hW hT hU => ?_⟩
  rw [insertOneA_eq, ← insert_single]
  refine main [k] [v] (by simp only [List.length_singleton]; omega) (hT.imp ?_ fun h => ⟨h, by simp⟩) hU
  intro h
  simp only [List.length_singleton]
  omega

/-- C71, histories: what can be reached with counters of the machine's width is what can be reached in the
model, whatever a build does on overflow; all theorems about `Traces` and `Calls` hold for it. -/
theorem C71_histories (hc : Sane cfg) (h : MachineTraces A cfg C W H P L s) (hW : W + 1 < 2 ^ 64)
    (hcf : CollisionFree cfg.hasher (Among H)) :
    Traces cfg C H P L s ∧ ∀ A' : Arith, MachineTraces A' cfg C W H P L s := by
  refine ⟨(h.facts hc.pos hc.pp hW hcf).1, fun A' => ?_⟩
  have right : ∀ {H H' : List (HIn N)}, CollisionFree cfg.hasher (Among (H' ++ H)) →
      CollisionFree cfg.hasher (Among H) := fun h => h.mono (fun i hi => List.mem_append_right _ hi)
  -- the same insert with both kinds of arithmetic
  have key : ∀ {d W : Nat} {H : List (HIn N)} {P : List (Arr N × V)} {L : Lineages N V} {s : σ}
      {prev : Option (Arr N)} {keys : List (Arr N)} {values : List V},
      MachineTraces A cfg C W H P L s → (cfg.withDepth d).treeRefs prev keys.length < 2 ^ 32 →
      W + (cfg.withDepth d).writes keys.length + 1 < 2 ^ 64 →
      CollisionFree cfg.hasher (Among (hashedBy (cfg.withDepth d) prev keys values s ++ H)) →
      Machine.insert A' (cfg.withDepth d) prev keys values s =
        Machine.insert A (cfg.withDepth d) prev keys values s := by
    intro d W H P L s prev keys values h hT hW hcf
    obtain ⟨f1, f2, f3⟩ := h.facts hc.pos hc.pp (by omega) (right hcf)
    have key : ∀ A : Arith, Machine.insert A (cfg.withDepth d) prev keys values s =
        insert (cfg.withDepth d) prev keys values s := fun A =>
      (insert_machine' (cfg := cfg.withDepth d) (A := A) (C := C) hc.pos hc.pp prev keys values hcf
        (calls_inPlace (C := C) hc.pos hc.pp f1.calls (right hcf)) f2 f3 hW hT).1
    rw [key A', key A]
  induction h with
  | start h1 h2 => exact .start h1 h2
  | insertAt h hT hrun ih =>
    exact (ih (by omega) (right hcf)).insertAt hT ((key h hT hW hcf).trans hrun)
  | @insertOneAt d W H P L s s' prev k v res h hT hrun ih =>
    refine (ih (by omega) (right hcf)).insertOneAt (res := res) hT ?_
    rw [insertOneA_eq] at hrun ⊢
    exact (key h hT hW hcf).trans hrun
  | extendAt h hT hp hrun ih =>
    exact (ih (by omega) (right hcf)).extendAt hT hp ((key h hT hW hcf).trans hrun)
  | remove _ hrun ih => exact (ih hW hcf).remove hrun
  | @crashInsertAt d W H P L s s' n n' prev keys values e h hT hrun ih =>
    have h' := ih (by omega) (right hcf)
    refine h'.crashInsertAt (n := n) (n' := n') (e := e) hT ?_
    obtain ⟨f1, f2, f3⟩ := h.facts hc.pos hc.pp (by omega) (right hcf)
    have key : ∀ A : Arith, Machine.insert A (cfg.withDepth d).crash prev keys values (s, n) =
        insert (cfg.withDepth d).crash prev keys values (s, n) := fun A =>
      (insert_machine' (cfg := (cfg.withDepth d).crash) (A := A) (C := C.crash) (s := (s, n)) hc.pos hc.pp
        prev keys values hcf (calls_inPlace (C := C) hc.pos hc.pp f1.calls (right hcf)) f2 f3 hW hT).1
    rw [key A', ← key A]
    exact hrun
  | crashRemove _ hrun ih => exact (ih hW hcf).crashRemove hrun
  | reopen _ h1 h2 ih => exact (ih hW hcf).reopen h1 h2

namespace Toy
theorem machine_ext {A : Arith} {W : Nat} {H : List (HIn 2)} {P : List (Arr 2 × List UInt8)}
    {L : Lineages 2 (List UInt8)} {s : HashDB 2} (h : MachineTraces A Toy.cfg Toy.C W H P L s)
    (prev : Option (Arr 2)) (ℓ : Lineage 2 (List UInt8)) (ks : List Nat) (vs : List UInt8) (r : Arr 2)
    (hp : L.Prev prev ℓ) (hr : (ins prev ks vs s).1 = .ok r)
    (hW : W + ((ks.map key).length * (2 * 17 + 5) + 1) + 1 < 2 ^ 64)
    (hT : (ks.map key).length * (17 + 2) + 1 < 2 ^ 32)
    (hcf : CollisionFree Toy.cfg.hasher (Among (hin prev ks vs s ++ H))) :
    MachineTraces A Toy.cfg Toy.C (W + Toy.cfg.writes (ks.map key).length) (hin prev ks vs s ++ H)
      (lin ks vs P) ((r, lin ks vs ℓ) :: L) (ins prev ks vs s).2 :=
  .extendAt (d := 17) h (by
    unfold Config.treeRefs
    cases prev with
    | none => dsimp only; omega
    | some r => exact hT) hp
    (((C71_inserts sane h 17 prev).1 _ _ hW (.inl hT) hcf).trans (Prod.ext hr rfl))

/-- The first call of history E, with any arithmetic. -/
theorem e1Machine (A : Arith) : MachineTraces A Toy.cfg Toy.C (0 + Toy.cfg.writes 2)
    (hin none [1, 2] [1, 2] db0 ++ []) (lin [1, 2] [1, 2] []) [(key 54938, lin [1, 2] [1, 2] [])] e1s :=
  machine_ext (.start rfl rfl) none [] [1, 2] [1, 2] (key 54938) rfl (by decide +kernel) (by decide) (by decide)
    (collisionFree_of_check (by decide +kernel))

/-- The second call of history E. -/
theorem e2Machine (A : Arith) : MachineTraces A Toy.cfg Toy.C
    (0 + Toy.cfg.writes 2 + Toy.cfg.writes 2)
    (hin (some (key 54938)) [0x4000, 0x8000] [3, 4] e1s ++ (hin none [1, 2] [1, 2] db0 ++ []))
    eℓ [(key 21835, eℓ), (key 54938, lin [1, 2] [1, 2] [])] e2s :=
  machine_ext (e1Machine A) (some (key 54938)) (lin [1, 2] [1, 2] []) [0x4000, 0x8000] [3, 4] (key 21835)
    List.mem_cons_self (by decide +kernel) (by decide) (by decide) (collisionFree_of_check (by decide +kernel))

/-- History E. -/
theorem eMachine (A : Arith) : MachineTraces A Toy.cfg Toy.C
    (0 + Toy.cfg.writes 2 + Toy.cfg.writes 2 + Toy.cfg.writes 1) eH eP eL e4s :=
  .remove (s := e3s) (r := key 54938) (res := .ok ())
    (machine_ext (e2Machine A) (some (key 21835)) eℓ [1] [1] (key 21835) List.mem_cons_self
      (by decide +kernel) (by decide) (by decide) eFree)
    (Prod.ext (show (remove Toy.cfg (key 54938) e3s).1 = _ by decide +kernel) rfl)
end Toy

/-- History E with overflow checks. -/
example : Traces Toy.cfg Toy.C Toy.eH Toy.eP Toy.eL Toy.e4s :=
  (C71_histories Toy.sane (Toy.eMachine .checked) (by decide) Toy.eFree).1

/-- C71, counters: the numbers in the stored nodes are less than `2 ^ 64`; `W` bounds them. -/
theorem C71_counters (hc : Sane cfg) (h : MachineTraces A cfg C W H P L s) (hW : W + 1 < 2 ^ 64)
    (hcf : CollisionFree cfg.hasher (Among H)) {x : Arr N} {n : Node N} (hn : C.view s x = some n) :
    1 ≤ n.references ∧ n.references ≤ W ∧ ∀ b, n.variant = .branch b → b.count ≤ W + 1 := by
  obtain ⟨-, h2, h3⟩ := h.facts hc.pos hc.pp hW hcf
  exact ⟨(h2 x n (.inl hn)).1, (h2 x n (.inl hn)).2, h3 x n (.inl hn)⟩

/-- A branch of history E with two references, one of which is gone. -/
example (n : Node 2) (hn : Toy.C.view Toy.e4s (Toy.key 21835) = some n) :
    1 ≤ n.references ∧ n.references ≤ 198 ∧ ∀ b, n.variant = .branch b → b.count ≤ 199 :=
  C71_counters Toy.sane (Toy.eMachine .wrapping) (by decide) Toy.eFree hn

/-- C71, sums that never overflow are those of the model: same result and same effect on every database,
sound or not. -/
theorem C71_unbounded (cfg : Config N σ V) (prev : Option (Arr N)) :
    (∀ keys values, Machine.insert .unbounded cfg prev keys values = insert cfg prev keys values) ∧
    (∀ k v, Machine.insertOne .unbounded cfg prev k v = insertOne cfg prev k v) := by
  have main : ∀ keys values,
      Machine.insert .unbounded cfg prev keys values = insert cfg prev keys values := by
    intro keys values
    funext s
    rcases Overflow.insert Overflow.adds_unbounded (cfg := cfg) prev keys values s with h | h
    · exact h
    · exact h.1.elim
  exact ⟨main, fun k v => by rw [insertOneA_eq, main, insert_single]⟩

/-- C71, overflow checks: on any database, sound or not, and with any arguments: an insert of a build with
overflow checks is the one of the model, with the same effect, or it panics. -/
theorem C71_checked (cfg : Config N σ V) (prev : Option (Arr N)) (s : σ) :
    (∀ keys values, Machine.insert .checked cfg prev keys values s = insert cfg prev keys values s ∨
      (Machine.insert .checked cfg prev keys values s).1 =
        .error (.panic "attempt to add with overflow")) ∧
    (∀ k v, Machine.insertOne .checked cfg prev k v s = insertOne cfg prev k v s ∨
      (Machine.insertOne .checked cfg prev k v s).1 =
        .error (.panic "attempt to add with overflow")) := by
  have main : ∀ keys values,
      Machine.insert .checked cfg prev keys values s = insert cfg prev keys values s ∨
      (Machine.insert .checked cfg prev keys values s).1 =
        .error (.panic "attempt to add with overflow") := fun keys values =>
    (Overflow.insert Overflow.adds_checked prev keys values s).imp id And.right
  refine ⟨main, fun k v => ?_⟩
  rw [insertOneA_eq, ← insert_single]
  exact main [k] [v]

/-- C71, batches that do not fit: with overflow checks, on any database, sound or not, no insert of `2 ^ 32`
keys or more is accepted; on a database that works, an insert of that many distinct keys on top of nothing
panics, although the model accepts it. -/
theorem C71_large_batches_differ (hN : 0 < N) (s : σ) {keys : List (Arr N)} (hk : 2 ^ 32 ≤ keys.length)
    (values : List V) :
    (∀ prev r, (Machine.insert .checked cfg prev keys values s).1 ≠ .ok r) ∧
    (C.alive s → keys.Nodup → keys.length = values.length → (∀ v ∈ values, ∃ b, cfg.encode v = .ok b) →
      (∃ r, (insert cfg none keys values s).1 = .ok r) ∧
      (Machine.insert .checked cfg none keys values s).1 =
        .error (.panic "attempt to add with overflow")) := by
  have h1 : ∀ prev r, (Machine.insert .checked cfg prev keys values s).1 ≠ .ok r := by
    intro prev r h
    have := checked_insert (cfg := cfg) hN (r := r) (s := s) (Prod.ext h rfl)
    omega
  refine ⟨h1, fun hs hnd hlen henc => ?_⟩
  have hne : keys ≠ [] := by
    rintro rfl
    simp at hk
  obtain ⟨r, s', h2, -⟩ := works_insertNone (C := C) hlen hne hnd henc s hs
  refine ⟨⟨r, by rw [h2]⟩, ?_⟩
  rcases (C71_checked cfg none s).1 keys values with h | h
  · rw [h2] at h
    exact absurd (by rw [h]) (h1 none r)
  · exact h

namespace Toy
/-- The number of `i` in five bytes. -/
def key5 (i : Nat) : Arr 5 :=
  ⟨[UInt8.ofNat (i / 2 ^ 32), UInt8.ofNat (i / 2 ^ 24), UInt8.ofNat (i / 2 ^ 16), UInt8.ofNat (i / 2 ^ 8),
    UInt8.ofNat i], rfl⟩

theorem key5_inj {i j : Nat} (hi : i < 2 ^ 40) (hj : j < 2 ^ 40) (h : key5 i = key5 j) : i = j := by
  have h := congrArg Arr.bytes h
  simp only [key5, List.cons.injEq, and_true] at h
  obtain ⟨h1, h2, h3, h4, h5⟩ := h
  have e : ∀ {a b : Nat}, UInt8.ofNat a = UInt8.ofNat b → a % 256 = b % 256 := by
    intro a b h
    have := congrArg UInt8.toNat h
    simpa using this
  have h1 := e h1
  have h2 := e h2
  have h3 := e h3
  have h4 := e h4
  have h5 := e h5
  omega

/-- A tree with keys of five bytes. -/
def cfg5 : Config 5 (HashDB 5) (List UInt8) := 
  ⟨hashDatabase 5, ⟨Unit, fun _ => (), fun _ _ => (), fun _ => Arr.zero 5⟩, .ok, .ok, pp 5, 41⟩
end Toy

/-- `2 ^ 32` distinct keys of five bytes. -/
example (n : Nat) (hn : n = 2 ^ 32) :
    (Machine.insert .checked Toy.cfg5 none ((List.range n).map Toy.key5) (List.replicate n [1])
      (HashDB.open 5)).1 = .error (.panic "attempt to add with overflow") := by
  have h1 : ((List.range n).map Toy.key5).length = n := by rw [List.length_map, List.length_range]
  refine ((C71_large_batches_differ (cfg := Toy.cfg5) (C := hashContract 5) (by decide) _ (by omega) _).2
    trivial ?_ (by rw [h1, List.length_replicate]) (fun v _ => ⟨v, rfl⟩)).2
  refine List.Nodup.map_on (fun i hi j hj h => Toy.key5_inj ?_ ?_ h) List.nodup_range
  · have := List.mem_range.1 hi; omega
  · have := List.mem_range.1 hj; omega

namespace Toy
/-- The database after the insert of one pair, with the references to the leaf as if it had been inserted
`2 ^ 64 - 1` times. -/
def full : HashDB 2 :=
  (Toy.cfg.db.insert (key 0x6158) ⟨2 ^ 64 - 1, .leaf ⟨key 1, key 0xF956⟩⟩ (ins none [1] [1] db0).2).2
end Toy

/-- C71, why the number of writes matters: when a counter is full, a build with overflow checks panics, and
one without loses the pair on the next removal. -/
theorem C71_full_counters_differ :
    (insert Toy.cfg none [Toy.key 1] [[1]] Toy.full).1 = .ok (Toy.key 0x6158) ∧
    getOne Toy.cfg (remove Toy.cfg (Toy.key 0x6158)
      (insert Toy.cfg none [Toy.key 1] [[1]] Toy.full).2).2 (Toy.key 0x6158) (Toy.key 1) =
        .ok (some [1]) ∧
    (Machine.insert .checked Toy.cfg none [Toy.key 1] [[1]] Toy.full).1 =
      .error (.panic "attempt to add with overflow") ∧
    (Machine.insert .wrapping Toy.cfg none [Toy.key 1] [[1]] Toy.full).1 = .ok (Toy.key 0x6158) ∧
    getOne Toy.cfg (remove Toy.cfg (Toy.key 0x6158)
      (Machine.insert .wrapping Toy.cfg none [Toy.key 1] [[1]] Toy.full).2).2 (Toy.key 0x6158)
        (Toy.key 1) = .ok none := by
  decide +kernel

end MerkleBit
