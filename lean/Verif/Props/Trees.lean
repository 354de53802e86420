import Verif.Model.Trees
import Verif.Proof.Depth
import Verif.Proof.Session
import Verif.Props.Backends
import Verif.Props.InclusionProofs
import Verif.Props.Errors
import Verif.Props.Remove
import Verif.Props.Versions
/-!
# C64 and C65: the depth limit of a tree, and the trees of the crate
-/

namespace MerkleBit
variable {N : Nat} {σ V : Type} {cfg : Config N σ V} {s : σ}

/-! ## C64 -/

theorem Room.of_le {d d' : Nat} (h : d ≤ d') (hr : (cfg.withDepth d').Room) :
    (cfg.withDepth d).Room :=
  Nat.le_trans (Nat.mul_le_mul_right _ h) hr

/-- C64, for reads: on every database state, whatever it holds, a read of a tree with depth limit `d`
gives the same answer as under any larger limit `d'`, or the error of the limit. -/
theorem C64_reads_under_a_limit (C : DbContract cfg.db) (hdec : ∀ b, cfg.decode b ≠ .error .outOfFuel)
    {d d' : Nat} (h : d ≤ d') (s : σ) (r : Arr N) :
    (∀ ks, get (cfg.withDepth d) s r ks = .error (.exception "Depth of merkle tree exceeded") ∨
      get (cfg.withDepth d) s r ks = get (cfg.withDepth d') s r ks) ∧
    (∀ k, getOne (cfg.withDepth d) s r k = .error (.exception "Depth limit exceeded") ∨
      getOne (cfg.withDepth d) s r k = getOne (cfg.withDepth d') s r k) ∧
    ((cfg.withDepth d').Room → ∀ k, generateInclusionProof (cfg.withDepth d) s r k =
        .error (.exception "Depth limit exceeded") ∨
      generateInclusionProof (cfg.withDepth d) s r k =
        generateInclusionProof (cfg.withDepth d') s r k) := by
  have C' : DbContract (cfg.withDepth d).db := C
  refine ⟨fun ks => ?_, fun k => ?_, fun hroom k => ?_⟩
  · rcases Depth.get_cut (cfg := cfg) h s r ks with hx | hx | hx
    · exact .inl hx
    · exact absurd hx (noFuel_get C' hdec s r ks)
    · exact .inr hx
  · rcases Depth.getOne_cut (cfg := cfg) h s r k with hx | hx | hx
    · exact .inl hx
    · exact absurd hx (noFuel_getOne C' hdec s r k)
    · exact .inr hx
  · rw [generateInclusionProof_room hroom, generateInclusionProof_room (Room.of_le h hroom)]
    rcases Depth.proof_cut (cfg := cfg) h s r k with hx | hx | hx
    · exact .inl hx
    · exact absurd hx (noFuel_proof C' s r k)
    · exact .inr hx

/-- C64, for writes: on every database state, an `insert` or `insert_one` into a tree with depth limit
`d` does exactly what it does under any larger limit `d'`, result and database alike, or returns the
error of the limit; `remove` does not depend on the limit. -/
theorem C64_writes_under_a_limit (C : DbContract cfg.db)
    (henc : ∀ v, cfg.encode v ≠ .error .outOfFuel) {d d' : Nat} (h : d ≤ d') (s : σ) :
    (∀ prev ks vs,
      (insert (cfg.withDepth d) prev ks vs s).1 =
        .error (.exception "Depth of merkle tree exceeded") ∨
      insert (cfg.withDepth d) prev ks vs s = insert (cfg.withDepth d') prev ks vs s) ∧
    (∀ prev k v,
      (insertOne (cfg.withDepth d) prev k v s).1 =
        .error (.exception "Depth of merkle tree exceeded") ∨
      insertOne (cfg.withDepth d) prev k v s = insertOne (cfg.withDepth d') prev k v s) ∧
    (∀ r, remove (cfg.withDepth d) r s = remove (cfg.withDepth d') r s) := by
  have C' : DbContract (cfg.withDepth d).db := C
  refine ⟨fun prev ks vs => ?_, fun prev k v => ?_, fun r => ?_⟩
  · rcases Depth.insert_cut (cfg := cfg) h prev ks vs s with hx | hx | hx
    · exact .inl hx
    · exact absurd hx (nf_insert C' henc prev ks vs s)
    · exact .inr hx
  · rcases Depth.insertOne_cut (cfg := cfg) h prev k v s with hx | hx | hx
    · exact .inl hx
    · exact absurd hx (nf_insertOne C' henc prev k v s)
    · exact .inr hx
  · rw [Depth.remove_eq cfg d, Depth.remove_eq cfg d']

/-- The first call of a database, with no previous root, does not depend on the limit at all: so under
a small limit it builds trees that cannot be read. -/
theorem C64_first_call_unlimited (d d' : Nat) (ks : List (Arr N)) (vs : List V) :
    insert (cfg.withDepth d) none ks vs = insert (cfg.withDepth d') none ks vs := by
  unfold insert
  simp only [Depth.insertLeaves_eq, Depth.createTree_eq]

/-- Both outcomes occur on a version with a path of two branches: under limit 3 every answer is the one
under 17, under 2 and 1 some are errors. -/
example : getOne (Toy.cfg.withDepth 3) Toy.s1 Toy.r1 (Toy.key 1) =
      getOne (Toy.cfg.withDepth 17) Toy.s1 Toy.r1 (Toy.key 1) ∧
    getOne (Toy.cfg.withDepth 2) Toy.s1 Toy.r1 (Toy.key 1) =
      .error (.exception "Depth limit exceeded") ∧
    (insert (Toy.cfg.withDepth 2) (some Toy.r1) [Toy.key 9] [[1]] Toy.s1).1 =
      (insert (Toy.cfg.withDepth 17) (some Toy.r1) [Toy.key 9] [[1]] Toy.s1).1 ∧
    (insert (Toy.cfg.withDepth 0) (some Toy.r1) [Toy.key 9] [[1]] Toy.s1).1 =
      .error (.exception "Depth of merkle tree exceeded") :=
  ⟨by decide +kernel, by decide +kernel, by decide +kernel, by decide +kernel⟩

/-! ## C70 -/

/-- C70, for depth limits for which there is room: raising the depth limit takes nothing away.  On every
database state, a value read, an answer of `get`, and a proof generated under a limit `d` are the same
under any larger limit `d'`.
Missing for the full C70: proofs under limits `d'` with `d' * (N + 1)` above `isize::MAX`, for which it is
false (`C70_no_room_no_proofs`, `C70_false`). -/
theorem C70_raising_the_limit_partial (C : DbContract cfg.db)
    (hdec : ∀ b, cfg.decode b ≠ .error .outOfFuel) {d d' : Nat} (h : d ≤ d') (s : σ) (r : Arr N) :
    (∀ ks m, get (cfg.withDepth d) s r ks = .ok m → get (cfg.withDepth d') s r ks = .ok m) ∧
    (∀ k o, getOne (cfg.withDepth d) s r k = .ok o → getOne (cfg.withDepth d') s r k = .ok o) ∧
    (d' * (N + 1) ≤ isizeMax → ∀ k p, generateInclusionProof (cfg.withDepth d) s r k = .ok p →
      generateInclusionProof (cfg.withDepth d') s r k = .ok p) := by
  obtain ⟨h1, h2, h3⟩ := C64_reads_under_a_limit C hdec h s r
  refine ⟨fun ks m hm => ?_, fun k o ho => ?_, fun hroom k p hp => ?_⟩
  · rcases h1 ks with hx | hx
    · rw [hm] at hx; cases hx
    · rw [← hx, hm]
  · rcases h2 k with hx | hx
    · rw [ho] at hx; cases hx
    · rw [← hx, ho]
  · rcases h3 hroom k with hx | hx
    · rw [hp] at hx; cases hx
    · rw [← hx, hp]

/-- Under a depth limit for which there is no room, `generate_inclusion_proof` panics on every database
state, for every root and key. -/
theorem C70_no_room_no_proofs (h : isizeMax < cfg.depth * (N + 1)) (s : σ) (r k : Arr N) :
    generateInclusionProof cfg s r k = .error (.panic "capacity overflow") :=
  generateInclusionProof_no_room (Nat.not_le.2 h)

/-- C70 is false: a version that reads and proves a key under limit 17 reads it under the limit
`2^62` (on a 64-bit machine), but the proof panics. -/
theorem C70_false : ∃ (H : List (HIn 2)) (R : List (Arr 2)) (L : Ledger 2 (List UInt8)) (s : HashDB 2)
    (r k : Arr 2) (v : List UInt8),
    Sane Toy.cfg ∧ Inserts Toy.cfg Toy.C H R L s ∧ CollisionFree Toy.cfg.hasher (Among H) ∧ r ∈ R ∧
    (∃ p, generateInclusionProof Toy.cfg s r k = .ok p ∧
      verifyInclusionProof Toy.cfg.hasher Toy.cfg.encode r k v p = .ok ()) ∧
    getOne (Toy.cfg.withDepth (2 ^ 62)) s r k = .ok (some v) ∧
    generateInclusionProof (Toy.cfg.withDepth (2 ^ 62)) s r k =
      .error (.panic "capacity overflow") := by
  have hr : (Toy.r2, Toy.M2) ∈ [(Toy.r2, Toy.M2), (Toy.r1, Toy.M1)] := by simp
  have hM : Toy.M2 (Toy.key 1) = some [10] := by decide +kernel
  have h1 := Toy.hist2.getOne Toy.sane (Toy.alive _) Toy.free2 hr
    (heightBelow_of_bits _ (by decide)) (Toy.key 1)
  rw [hM] at h1
  exact ⟨_, _, _, _, Toy.r2, Toy.key 1, [10], Toy.sane, Toy.hist2, Toy.free2, by simp,
    C15_generated_proofs_verify_partial Toy.sane Toy.room Toy.hist2 (Toy.alive _) Toy.free2 hr
      (heightBelow_of_bits _ (by decide)) hM,
    (C70_raising_the_limit_partial (cfg := Toy.cfg) Toy.C (fun b => by simp [Toy.cfg]) (d := 17)
      (d' := 2 ^ 62) (by decide) _ _).2.1 _ _ h1,
    C70_no_room_no_proofs (by decide) _ _ _⟩

/-- Room is left for every limit the documentation speaks of: up to a number of bits, and far beyond. -/
example : (Toy.cfg.withDepth (2 ^ 61)).Room := by unfold Config.Room isizeMax; decide

/-! ## C65 -/

/-- One pair inserted into an empty database, read, proved and removed. -/
theorem session (hc : Sane cfg) (hroom : cfg.Room) {C : DbContract cfg.db} (hv : C.view s = View.empty N)
    (hp : C.pending s = View.empty N) (hs : C.alive s) (hd : 0 < cfg.depth) {k : Arr N} {v : V}
    {b : List UInt8} (hb : cfg.encode v = .ok b)
    (hne : cfg.hasher.hash3 N tagL k.bytes (cfg.hasher.hash3 N tagD k.bytes b).bytes ≠
      cfg.hasher.hash3 N tagD k.bytes b) :
    ∃ r s1 s2, insert cfg none [k] [v] s = (.ok r, s1) ∧
      getOne cfg s1 r k = .ok (some v) ∧ (∀ k', k' ≠ k → getOne cfg s1 r k' = .ok none) ∧
      (∃ m, get cfg s1 r [k] = .ok m ∧ m.get? k = some (some v)) ∧
      (∃ p, generateInclusionProof cfg s1 r k = .ok p ∧
        verifyInclusionProof cfg.hasher cfg.encode r k v p = .ok ()) ∧
      remove cfg r s1 = (.ok (), s2) ∧ C.view s2 = View.empty N ∧ C.pending s2 = View.empty N ∧
      ∀ k', getOne cfg s2 r k' = .ok none := by
  have hcf := collisionFree_single (cfg := cfg) (s := s) hb hne
  have hcf' : CollisionFree cfg.hasher (Among (hashedBy cfg none [k] [v] s ++ [])) := by
    rw [List.append_nil]; exact hcf
  have henc : ∀ v' ∈ [v], ∃ b, cfg.encode v' = .ok b := by
    intro v' hv'
    cases List.mem_singleton.1 hv'
    exact ⟨b, hb⟩
  have hM : ∀ k', k' ≠ k → (Contents.empty.assign [k] [v] : Contents N V) k' = none :=
    fun k' hk' => assign_not_mem _ _ (by simpa using hk')
  have hk : (Contents.empty.assign [k] [v] : Contents N V) k = some v :=
    assign_mem (keys := [k]) (values := [v]) _ rfl (List.nodup_singleton k) (by simp)
  have hh := heightBelow_single hM hd
  obtain ⟨r, s1, s2, h1, h2, h3, h4, -, h5, -⟩ := C20_sole_root_removed hc hv hp hs hcf rfl
    (by simp) (List.nodup_singleton k) henc
  obtain ⟨r', s1', h1', hs1, hist⟩ := (Inserts.start hv hp).insert_ok hc hs (M := Contents.empty)
    hcf' rfl (heightBelow_empty _) (handled_empty _) rfl (by simp) (List.nodup_singleton k) henc
  rw [h1] at h1'
  cases h1'
  refine ⟨r, s1, s2, h1, ?_, ?_, ?_, ?_, h2, h3, h4, h5⟩
  · rw [hist.getOne hc hs1 hcf' (List.mem_cons_self) hh k, hk]
  · intro k' hk'
    rw [hist.getOne hc hs1 hcf' (List.mem_cons_self) hh k', hM k' hk']
  · obtain ⟨m, h6, -, h7⟩ := hist.get_all hc hs1 hcf' (List.mem_cons_self) hh.succ (handled_single hc k)
    refine ⟨m, h6, ?_⟩
    rw [h7 k (List.mem_singleton.2 rfl), hk]
  · exact C15_generated_proofs_verify_partial hc hroom hist hs1 hcf' (List.mem_cons_self) hh hk

/-- C65: `HashTree::open` gives what `new` gives, a tree without nodes, whatever its path; nothing is read back from
anywhere. -/
theorem C65_hash_tree_open (N depth : Nat) : ∃ t, HashTree.open N depth = .ok t ∧ HashTree.new N depth = .ok t ∧
    t.decompose.2 = depth ∧ ∀ x, t.decompose.1.map.get? x = none :=
  ⟨_, rfl, rfl, rfl, fun _ => rfl⟩

/-- C65, for `HashTree`: the documented example.  A new tree with any positive depth limit, one pair of
any key and any value that can be encoded: the pair is inserted, read back, an inclusion proof is
generated and verified, and after the returned root is removed nothing is left. -/
theorem C65_hash_tree_session (ty : TreeTypes N V) (hN : 0 < N) (hpp : ty.pp.Lawful)
    (hcodec : ∀ v b, ty.encode v = .ok b → ty.decode b = .ok v) {depth : Nat} (hd : 0 < depth)
    (hroom : depth * (N + 1) ≤ isizeMax)
    {k : Arr N} {v : V} {b : List UInt8} (hb : ty.encode v = .ok b)
    (hne : ty.hasher.hash3 N tagL k.bytes (ty.hasher.hash3 N tagD k.bytes b).bytes ≠
      ty.hasher.hash3 N tagD k.bytes b) :
    ∃ (t0 t1 t2 : HashTree N) (r : Arr N), HashTree.new N depth = .ok t0 ∧
      t0.insert ty none [k] [v] = (.ok r, t1) ∧
      t1.getOne ty r k = .ok (some v) ∧ (∀ k', k' ≠ k → t1.getOne ty r k' = .ok none) ∧
      (∃ m, t1.get ty r [k] = .ok m ∧ m.get? k = some (some v)) ∧
      (∃ p, t1.generateInclusionProof ty r k = .ok p ∧
        HashTree.verifyInclusionProof ty r k v p = .ok ()) ∧
      t1.remove ty r = (.ok (), t2) ∧ (∀ k', t2.getOne ty r k' = .ok none) ∧
      (∀ x, t2.decompose.1.map.get? x = none) ∧ t2.decompose.2 = depth := by
  obtain ⟨r, s1, s2, h1, h2, h3, h4, h5, h6, h7, -, h8⟩ := session (cfg := ty.hashConfig depth)
    (C := hashContract N) (s := HashDB.open N) ⟨hN, hpp, hcodec⟩ hroom rfl rfl trivial hd hb hne
  refine ⟨⟨⟨HashDB.open N, depth⟩⟩, ⟨⟨s1, depth⟩⟩, ⟨⟨s2, depth⟩⟩, r, rfl, ?_, h2, h3, h4, h5, ?_, h8,
    fun x => congrFun h7 x, rfl⟩
  · simp [HashTree.insert, MerkleBIT.update, h1]
  · simp [HashTree.remove, MerkleBIT.update, h6]

/-- C65, for `RocksTree` opened on an empty directory, as long as no call of RocksDB fails. -/
theorem C65_rocks_tree_session (ty : TreeTypes N V) (hN : 0 < N) (hpp : ty.pp.Lawful)
    (hcodec : ∀ v b, ty.encode v = .ok b → ty.decode b = .ok v) {codec : NodeCodec N}
    (hnode : LawfulCodec codec) {depth : Nat} (hd : 0 < depth)
    (hroom : depth * (N + 1) ≤ isizeMax)
    {k : Arr N} {v : V} {b : List UInt8} (hb : ty.encode v = .ok b)
    (hne : ty.hasher.hash3 N tagL k.bytes (ty.hasher.hash3 N tagD k.bytes b).bytes ≠
      ty.hasher.hash3 N tagD k.bytes b) :
    ∃ (t0 t1 t2 : RocksTree N) (r : Arr N), RocksTree.open (.ok AMap.empty) depth = .ok t0 ∧
      t0.insert ty codec (.reliable N) none [k] [v] = (.ok r, t1) ∧
      t1.getOne ty codec (.reliable N) r k = .ok (some v) ∧
      (∀ k', k' ≠ k → t1.getOne ty codec (.reliable N) r k' = .ok none) ∧
      (∃ m, t1.get ty codec (.reliable N) r [k] = .ok m ∧ m.get? k = some (some v)) ∧
      (∃ p, t1.generateInclusionProof ty codec (.reliable N) r k = .ok p ∧
        RocksTree.verifyInclusionProof ty r k v p = .ok ()) ∧
      t1.remove ty codec (.reliable N) r = (.ok (), t2) ∧
      (∀ k', t2.getOne ty codec (.reliable N) r k' = .ok none) ∧
      (∀ x, t2.decompose.1.decompose.get? x = none) ∧ t2.decompose.2 = depth := by
  obtain ⟨r, s1, s2, h1, h2, h3, h4, h5, h6, h7, -, h8⟩ := session
    (cfg := ty.rocksConfig codec (.reliable N) depth) (C := rocksContract hnode (.reliable N))
    (s := RocksDB.open N) ⟨hN, hpp, hcodec⟩ hroom rfl rfl
    ⟨fun _ _ => ⟨rfl, fun _ => rfl⟩, And.intro (fun x b h => by cases h) (fun x b h => by cases h)⟩
    hd hb hne
  refine ⟨⟨⟨RocksDB.open N, depth⟩⟩, ⟨⟨s1, depth⟩⟩, ⟨⟨s2, depth⟩⟩, r, rfl, ?_, h2, h3, h4, h5, ?_, h8,
    fun x => ?_, rfl⟩
  · simp [RocksTree.insert, MerkleBIT.update, h1]
  · simp [RocksTree.remove, MerkleBIT.update, h6]
  · have : (s2.db.get? x).map (decodeOr codec) = none := congrFun h7 x
    exact Option.map_eq_none_iff.1 this

/-- The hypotheses are met by the concrete types, key 5 and value [7], with depth limit 1. -/
example : ∃ (t0 t1 : HashTree 2) (r : Arr 2), HashTree.new 2 1 = .ok t0 ∧
    t0.insert ⟨Toy.hasher, .ok, .ok, Toy.pp 2⟩ none [Toy.key 5] [[7]] = (.ok r, t1) ∧
    t1.getOne ⟨Toy.hasher, .ok, .ok, Toy.pp 2⟩ r (Toy.key 5) = .ok (some [7]) := by
  obtain ⟨t0, t1, -, r, h1, h2, h3, -⟩ := C65_hash_tree_session
    (ty := ⟨Toy.hasher, .ok, .ok, Toy.pp 2⟩) (depth := 1) (k := Toy.key 5) (v := [7]) (b := [7])
    (by decide) Toy.sane.pp (fun v b h => by cases h; rfl) (by decide) (by decide) rfl
    (by decide +kernel)
  exact ⟨t0, t1, r, h1, h2, h3⟩

end MerkleBit
