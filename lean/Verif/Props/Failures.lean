import Verif.Proof.Live
import Verif.Props.Versions
/-!
# C36, C39: failed and interrupted inserts
-/

namespace MerkleBit
variable {N : Nat} {σ V : Type} {cfg : Config N σ V} {C : DbContract cfg.db}
  {H : List (HIn N)} {R : List (Arr N)} {L : Ledger N V} {s s' : σ}

/-- Reads under a root are the same in two states that both hold its tree. -/
theorem reads_agree (hN : 0 < N) (hpp : cfg.pp.Lawful) {r : Arr N}
    (hs : C.alive s) (hs' : C.alive s') (h : HasTree cfg (C.view s) r)
    (hx : (C.view s).Ext (C.view s')) :
    (∀ k, getOne cfg s' r k = getOne cfg s r k) ∧ (∀ ks, get cfg s' r ks = get cfg s r ks) ∧
      (∀ k, generateInclusionProof cfg s' r k = generateInclusionProof cfg s r k) := by
  obtain ⟨T, rfl, hn, hst⟩ := h
  have hst' := hst.mono hx
  exact ⟨fun k => by
      rw [(getOne_stored (C := C) hN hn hst k).alive hs, (getOne_stored (C := C) hN hn hst' k).alive hs'],
    fun ks => by
      rw [(get_stored (C := C) hN hpp hn hst ks).alive hs, (get_stored (C := C) hN hpp hn hst' ks).alive hs'],
    fun k => generateInclusionProof_congr rfl <| by
      rw [(proof_stored (C := C) hN hn hst k).alive hs, (proof_stored (C := C) hN hn hst' k).alive hs']⟩

/-! ## C36 -/

/-- C36, failing calls: whatever the reason for which an insert fails (bad arguments, or a failing
call of the database, which may also lose the queued writes), every root ever returned reads exactly
as before, in every state that holds what the failed call left behind. -/
theorem C36_failed_insert_harmless (hc : Sane cfg) (h : Inserts cfg C H R L s) (hs : C.alive s)
    {prev : Option (Arr N)} {keys : List (Arr N)} {values : List V} {e : Err}
    (hcf : CollisionFree cfg.hasher (Among (hashedBy cfg prev keys values s ++ H)))
    (hrun : insert cfg prev keys values s = (.error e, s'))
    {s'' : σ} (hv : C.view s'' = C.view s') (hs'' : C.alive s'') {r : Arr N} (hr : r ∈ R) :
    (∀ k, getOne cfg s'' r k = getOne cfg s r k) ∧ (∀ ks, get cfg s'' r ks = get cfg s r ks) ∧
      (∀ k, generateInclusionProof cfg s'' r k = generateInclusionProof cfg s r k) := by
  have hsub : ∀ i, Among H i → Among (hashedBy cfg prev keys values s ++ H) i :=
    fun i hi => List.mem_append_right _ hi
  obtain ⟨hso, -, hR⟩ := inserts_inv hc.pos hc.pp h (hcf.mono hsub)
  have := insert_any (C := C) hc.pos hc.pp hcf prev keys values (s := s)
    (fun i hi => List.mem_append_left _ hi) (hso.inv.mono hsub)
  unfold Ends at this
  rw [hrun] at this
  exact reads_agree hc.pos hc.pp hs hs'' (hR r hr) (by rw [hv]; exact this.2.ext)

/-- C36, crashes: if the process dies after any number `n` of the writes of an insert, and the
database is opened again without the writes that were still queued, every root ever returned reads
exactly as before. -/
theorem C36_interrupted_insert_harmless (hc : Sane cfg) (h : Inserts cfg C H R L s)
    (hs : C.alive s) {prev : Option (Arr N)} {keys : List (Arr N)} {values : List V} {e : Err}
    {n n' : Nat}
    (hcf : CollisionFree cfg.hasher (Among (hashedBy cfg.crash prev keys values (s, n) ++ H)))
    (hrun : insert cfg.crash prev keys values (s, n) = (.error e, (s', n')))
    {s'' : σ} (hv : C.view s'' = C.view s') (hs'' : C.alive s'') {r : Arr N} (hr : r ∈ R) :
    (∀ k, getOne cfg s'' r k = getOne cfg s r k) ∧ (∀ ks, get cfg s'' r ks = get cfg s r ks) ∧
      (∀ k, generateInclusionProof cfg s'' r k = generateInclusionProof cfg s r k) := by
  have hsub : ∀ i, Among H i → Among (hashedBy cfg.crash prev keys values (s, n) ++ H) i :=
    fun i hi => List.mem_append_right _ hi
  obtain ⟨hso, -, hR⟩ := inserts_inv hc.pos hc.pp h (hcf.mono hsub)
  have := insert_any (cfg := cfg.crash) (C := C.crash) hc.pos hc.pp hcf prev keys values
    (s := (s, n)) (fun i hi => List.mem_append_left _ hi) (hso.inv.mono hsub).toCrash
  unfold Ends at this
  rw [hrun] at this
  exact reads_agree hc.pos hc.pp hs hs'' (hR r hr) (by rw [hv]; exact (Inv.ofCrash this.2).ext)

/-- C36, afterwards: once the database is open again, the interrupted insert (or any other insert on
top of a version that straddles no branch) works and gives the right contents. -/
theorem C36_retry_after_crash (hc : Sane cfg) (h : Inserts cfg C H R L s)
    {prev : Option (Arr N)} {keys : List (Arr N)} {values : List V} {e : Err} {n n' : Nat}
    (hrun : insert cfg.crash prev keys values (s, n) = (.error e, (s', n')))
    {s'' : σ} (hv : C.view s'' = C.view s') (hp : C.pending s'' = View.empty N) (hs'' : C.alive s'')
    {prev' : Option (Arr N)} {M : Contents N V} {keys' : List (Arr N)} {values' : List V}
    (hcf : CollisionFree cfg.hasher (Among (hashedBy cfg prev' keys' values' s'' ++
      (hashedBy cfg.crash prev keys values (s, n) ++ H))))
    (hprev : L.Prev prev' M) (hns : Handled cfg M keys')
    (hlen : keys'.length = values'.length) (hne : keys' ≠ []) (hnd : keys'.Nodup)
    (henc : ∀ v ∈ values', ∃ b, cfg.encode v = .ok b)
    (hd : HeightBelow (M.assign keys' values') cfg.depth) :
    ∃ r t, insert cfg prev' keys' values' s'' = (.ok r, t) ∧
      ∀ k, getOne cfg t r k = .ok (M.assign keys' values' k) := by
  obtain ⟨r, t, h1, h2, h3⟩ := ((h.crash hrun).reopen hv hp).insert_ok hc hs'' hcf hprev
    (hd.succ.subset (assign_keeps M keys' values')) hns hlen hne hnd henc
  exact ⟨r, t, h1, fun k => h3.getOne hc h2 hcf (List.mem_cons_self ..) hd k⟩

namespace Toy

/-- The batch of the call that is interrupted: an update of 0x8000 and the new key 0x0003. -/
def ks4 : List (Arr 2) := [key 3, key 0x8000]
/-- Its values. -/
def vs4 : List (List UInt8) := [[3], [4]]
/-- What the call hashes before it dies at the fourth write. -/
def Hc : List (HIn 2) := hashedBy Toy.cfg.crash (some r2) ks4 vs4 (s2, 3)
/-- What it leaves behind: two data nodes and a leaf. -/
def sc : HashDB 2 := (insert Toy.cfg.crash (some r2) ks4 vs4 (s2, 3)).2.1

theorem runc : insert Toy.cfg.crash (some r2) ks4 vs4 (s2, 3) =
    (.error (.exception "crash"), (sc, 0)) :=
  Prod.ext (by decide +kernel) (Prod.ext rfl (by decide +kernel))

theorem freec : CollisionFree Toy.cfg.hasher
    (Among (hashedBy Toy.cfg (some r2) ks4 vs4 sc ++ (Hc ++ H2))) :=
  collisionFree_of_check (by decide +kernel)

theorem noStraddle4 : NoStraddle Toy.cfg M2 ks4 := noStraddle_of_new (by
  intro k hk k' hk' h1 h2
  have hd : ∀ k ∈ ks4, M2 k = none → k = key 3 := by
    intro k hk h
    simp only [ks4, List.mem_cons, List.not_mem_nil, or_false] at hk
    rcases hk with rfl | rfl
    · rfl
    · exact absurd h (by decide +kernel)
  rw [hd k hk h1, hd k' hk' h2])

/-- A state of the database does hold something at a location another one does not. -/
theorem view_ne {s s' : HashDB 2} {x : Arr 2} (h : (s.map.get? x).isSome)
    (h' : ¬ (s'.map.get? x).isSome) : Toy.C.view s ≠ Toy.C.view s' := by
  intro hv
  have : s.map.get? x = s'.map.get? x := congrFun hv x
  rw [this] at h
  exact h' h

end Toy

/-- The interrupted call did write something, the roots before it read as before, and the call can be
repeated. -/
example : Toy.C.view Toy.sc ≠ Toy.C.view Toy.s2 ∧
    (∀ k, getOne Toy.cfg Toy.sc Toy.r1 k = getOne Toy.cfg Toy.s2 Toy.r1 k) ∧
    ∃ r t, insert Toy.cfg (some Toy.r2) Toy.ks4 Toy.vs4 Toy.sc = (.ok r, t) ∧
      ∀ k, getOne Toy.cfg t r k = .ok (Toy.M2.assign Toy.ks4 Toy.vs4 k) :=
  ⟨Toy.view_ne (x := (Trie.leaf (Toy.key 3) [3]).loc Toy.hasher) (by decide +kernel)
      (by decide +kernel),
    (C36_interrupted_insert_harmless Toy.sane Toy.hist2 (Toy.alive _)
      (Toy.freec.mono (fun _ h => List.mem_append_right _ h)) Toy.runc rfl (Toy.alive _)
      (by simp)).1,
    C36_retry_after_crash Toy.sane Toy.hist2 Toy.runc rfl rfl (Toy.alive _) (M := Toy.M2) Toy.freec
      (by simp [Ledger.Prev]) (Toy.noStraddle4.handled Toy.sane) rfl (by simp [Toy.ks4]) (by decide +kernel)
      (fun v _ => ⟨v, rfl⟩) (Toy.deep _)⟩

/-- A call that fails by itself. -/
example : ∀ k, getOne Toy.cfg Toy.s3 Toy.r2 k = getOne Toy.cfg Toy.s2 Toy.r2 k :=
  (C36_failed_insert_harmless Toy.sane Toy.hist2 (Toy.alive _) Toy.free3 Toy.run3 rfl (Toy.alive _)
    (by simp)).1

/-! ## C39 -/

/-- C39 is false: the third call of the concrete history is refused because of a duplicate key, and
leaves new nodes in the database. -/
theorem C39_false : ∃ (H : List (HIn 2)) (R : List (Arr 2)) (L : Ledger 2 (List UInt8))
    (s s' : HashDB 2) (prev : Option (Arr 2)) (keys : List (Arr 2)) (values : List (List UInt8))
    (msg : String), Sane Toy.cfg ∧ Inserts Toy.cfg Toy.C H R L s ∧
    CollisionFree Toy.cfg.hasher (Among (hashedBy Toy.cfg prev keys values s ++ H)) ∧
    insert Toy.cfg prev keys values s = (.error (.exception msg), s') ∧
    Toy.C.view s' ≠ Toy.C.view s :=
  ⟨_, _, _, _, _, _, _, _, _, Toy.sane, Toy.hist2, Toy.free3, Toy.run3,
    Toy.view_ne (x := (Trie.leaf (Toy.key 7) [2]).loc Toy.hasher) (by decide +kernel)
      (by decide +kernel)⟩

/-- C39, what does hold of every call of `insert` that fails: every node that was stored is still
stored with the same contents (its reference count may differ), and calls refused for the lengths of
their arguments do not touch the database at all.  Missing for the full C39: no nodes are left behind,
which is false (`C39_false`). -/
theorem C39_keeps_nodes_partial (hN : 0 < N) (hpp : cfg.pp.Lawful) (h : Inserts cfg C H R L s)
    {prev : Option (Arr N)} {keys : List (Arr N)} {values : List V} {e : Err}
    (hcf : CollisionFree cfg.hasher (Among (hashedBy cfg prev keys values s ++ H)))
    (hrun : insert cfg prev keys values s = (.error e, s')) :
    (∀ x n, C.view s x = some n → ∃ n', C.view s' x = some n' ∧ n'.variant = n.variant) ∧
    (keys.length ≠ values.length ∨ keys = [] → s' = s) := by
  have hsub : ∀ i, Among H i → Among (hashedBy cfg prev keys values s ++ H) i :=
    fun i hi => List.mem_append_right _ hi
  obtain ⟨hso, -, hR⟩ := inserts_inv hN hpp h (hcf.mono hsub)
  have := insert_any (C := C) hN hpp hcf prev keys values (s := s)
    (fun i hi => List.mem_append_left _ hi) (hso.inv.mono hsub)
  unfold Ends at this
  rw [hrun] at this
  refine ⟨fun x n hx => ?_, fun hbad => ?_⟩
  · obtain ⟨rf, hx'⟩ := this.2.ext x n.variant ⟨n.references, hx⟩
    exact ⟨_, hx', rfl⟩
  · unfold insert at hrun
    by_cases hlen : keys.length = values.length
    · rcases hbad with hbad | rfl
      · exact absurd hlen hbad
      · rw [if_neg (by simpa using hlen), if_pos (by simp)] at hrun
        cases hrun; rfl
    · rw [if_pos hlen] at hrun
      cases hrun; rfl

/-- The failing call of the concrete history. -/
example : ∀ x n, Toy.C.view Toy.s2 x = some n →
    ∃ n', Toy.C.view Toy.s3 x = some n' ∧ n'.variant = n.variant :=
  (C39_keeps_nodes_partial (by decide) Toy.sane.pp Toy.hist2 Toy.free3 Toy.run3).1

end MerkleBit
