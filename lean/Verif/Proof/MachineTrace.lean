import Verif.Spec.Machine
import Verif.Proof.Machine
/-! # Counters of the machine's width: histories -/

namespace MerkleBit
variable {N : Nat} {σ V : Type} {cfg : Config N σ V} {A : Arith} {C : DbContract cfg.db}

/-- `insert` after any calls with few writes so far. -/
theorem insert_machine' {H : List (HIn N)} {s : σ} (hN : 0 < N) (hpp : cfg.pp.Lawful)
    (prev : Option (Arr N)) (keys : List (Arr N)) (values : List V)
    (hU : CollisionFree cfg.hasher (Among (hashedBy cfg prev keys values s ++ H)))
    (hi : InPlace C (Among H) s) {W : Nat} (hr : RefsBelow C W s) (hc : CountsBelow C (W + 1) s)
    (hW : W + cfg.writes keys.length + 1 < 2 ^ 64) (hT : cfg.treeRefs prev keys.length < 2 ^ 32) :
    Machine.insert A cfg prev keys values s = insert cfg prev keys values s ∧
    RefsBelow C (W + cfg.writes keys.length) (insert cfg prev keys values s).2 ∧
    CountsBelow C (W + cfg.writes keys.length + 1) (insert cfg prev keys values s).2 := by
  have hsub : ∀ i, Among H i → Among (hashedBy cfg prev keys values s ++ H) i :=
    fun i hi => List.mem_append_right _ hi
  have hle : keys.length ≤ cfg.writes keys.length := by
    unfold Config.writes
    have : keys.length * 1 ≤ keys.length * (2 * cfg.depth + 5) := Nat.mul_le_mul_left _ (by omega)
    omega
  have hi := hi.mono hsub
  obtain ⟨h1, h2⟩ := insert_machine (A := A) (C := C) (v0 := C.view s) hN hpp hU prev keys values hT
    (fun i hi => List.mem_append_left _ hi) ⟨hi.1, hi.2, View.Ext.refl _⟩ hr hW hc (Nat.le_add_left _ _)
    (by omega)
  exact ⟨h1, refs_insert C hr prev keys values, h2.mono (by omega)⟩

/-- What holds after any calls with few writes. -/
theorem MachineTraces.facts {W : Nat} {H : List (HIn N)} {P : List (Arr N × V)} {L : Lineages N V} {s : σ}
    (hN : 0 < N) (hpp : cfg.pp.Lawful) (h : MachineTraces A cfg C W H P L s) :
    W + 1 < 2 ^ 64 → CollisionFree cfg.hasher (Among H) →
      Traces cfg C H P L s ∧ RefsBelow C W s ∧ CountsBelow C (W + 1) s := by
  have right : ∀ {H H' : List (HIn N)}, CollisionFree cfg.hasher (Among (H' ++ H)) →
      CollisionFree cfg.hasher (Among H) := fun h => h.mono (fun i hi => List.mem_append_right _ hi)
  induction h with
  | start h1 h2 =>
    intro _ _
    refine ⟨.start h1 h2, fun x n hx => ?_, fun x n hx => ?_⟩ <;>
    · rw [h1, h2] at hx
      rcases hx with hx | hx <;> cases hx
  | @insertAt d W H P L s s' prev keys values res _ hT hrun ih =>
    intro hW hU
    obtain ⟨h1, h2, h3⟩ := ih (by omega) (right hU)
    have := insert_machine' (cfg := cfg.withDepth d) (A := A) (C := C) hN hpp prev keys values hU
      (calls_inPlace (C := C) hN hpp h1.calls (right hU)) h2 h3 hW hT
    rw [hrun] at this
    obtain ⟨h4, h5, h6⟩ := this
    rw [← h4] at h5 h6
    exact ⟨h1.insertAt h4.symm, h5, h6⟩
  | @insertOneAt d W H P L s s' prev k v res _ hT hrun ih =>
    intro hW hU
    obtain ⟨h1, h2, h3⟩ := ih (by omega) (right hU)
    have := insert_machine' (cfg := cfg.withDepth d) (A := A) (C := C) hN hpp prev [k] [v] hU
      (calls_inPlace (C := C) hN hpp h1.calls (right hU)) h2 h3 hW hT
    rw [insertOneA_eq] at hrun
    rw [hrun] at this
    obtain ⟨h4, h5, h6⟩ := this
    rw [← h4] at h5 h6
    exact ⟨h1.insertAt h4.symm, h5, h6⟩
  | @extendAt d W H P L s s' prev ℓ keys values r _ hT hp hrun ih =>
    intro hW hU
    obtain ⟨h1, h2, h3⟩ := ih (by omega) (right hU)
    have := insert_machine' (cfg := cfg.withDepth d) (A := A) (C := C) hN hpp prev keys values hU
      (calls_inPlace (C := C) hN hpp h1.calls (right hU)) h2 h3 hW hT
    rw [hrun] at this
    obtain ⟨h4, h5, h6⟩ := this
    rw [← h4] at h5 h6
    exact ⟨h1.extendAt hp h4.symm, h5, h6⟩
  | @remove W H P L s s' r res _ hrun ih =>
    intro hW hU
    obtain ⟨h1, h2, h3⟩ := ih hW hU
    have h4 := refs_remove C h2 r
    have h5 := counts_removeCall (C := C) r h3
    rw [hrun] at h4 h5
    exact ⟨h1.remove hrun, h4, h5⟩
  | @crashInsertAt d W H P L s s' n n' prev keys values e _ hT hrun ih =>
    intro hW hU
    obtain ⟨h1, h2, h3⟩ := ih (by omega) (right hU)
    have := insert_machine' (cfg := (cfg.withDepth d).crash) (A := A) (C := C.crash) (s := (s, n)) hN hpp
      prev keys values hU (calls_inPlace (C := C) hN hpp h1.calls (right hU)) h2 h3 hW hT
    rw [hrun] at this
    obtain ⟨h4, h5, h6⟩ := this
    rw [← h4] at h5 h6
    exact ⟨h1.crashInsertAt h4.symm, h5, h6⟩
  | @crashRemove W H P L s s' n n' r e _ hrun ih =>
    intro hW hU
    obtain ⟨h1, h2, h3⟩ := ih hW hU
    have h4 := refs_remove (cfg := cfg.crash) C.crash (s := (s, n)) h2 r
    have h5 := counts_removeCall (cfg := cfg.crash) (C := C.crash) (s := (s, n)) r h3
    rw [hrun] at h4 h5
    exact ⟨h1.crashRemove hrun, h4, h5⟩
  | @reopen W H P L s s' _ e1 e2 ih =>
    intro hW hU
    obtain ⟨h1, h2, h3⟩ := ih hW hU
    refine ⟨h1.reopen e1 e2, fun x n hx => ?_, fun x n hx => ?_⟩
    · rw [e1, e2] at hx
      rcases hx with hx | hx
      · exact h2 x n (.inl hx)
      · cases hx
    · rw [e1, e2] at hx
      rcases hx with hx | hx
      · exact h3 x n (.inl hx)
      · cases hx

end MerkleBit
