import Verif.Spec.Script
import Verif.Proof.Mirror
import Verif.Props.ToyCodec
import Verif.Props.ToyHistory
/-!
# C35: storage backends are interchangeable
-/

namespace MerkleBit
variable {N : Nat} {σ τ V : Type} {cfg : Config N σ V} {db' : Database N τ}
  {C : DbContract cfg.db} {C' : DbContract (cfg.withDb db').db}
  {H1 H2 : List (HIn N)} {R1 R2 : List (Arr N)} {L1 L2 : Ledger N V} {s : σ} {t : τ}

theorem readOne_withDb (k : Arr N) : ∀ (T : Trie N) (d : Nat),
    readOne (cfg.withDb db') k T d = readOne cfg k T d
  | .leaf _ _, _ => rfl
  | .node l r, d => by
    unfold readOne
    rw [readOne_withDb k r, readOne_withDb k l]
    rfl

theorem readMany_withDb (ks0 : List (Arr N)) : ∀ (T : Trie N) (ks : List (Arr N)) (d : Nat)
    (m : AMap (Arr N) (Option V)),
    readMany (cfg.withDb db') ks0 T ks d m = readMany cfg ks0 T ks d m
  | .leaf _ _, _, _, _ => rfl
  | .node l r, ks, d, m => by
    unfold readMany
    simp only [readMany_withDb ks0 r, readMany_withDb ks0 l]
    rfl

theorem readProof_withDb (k : Arr N) : ∀ (T : Trie N) (d : Nat),
    readProof (cfg.withDb db') k T d = readProof cfg k T d
  | .leaf _ _, _ => rfl
  | .node l r, d => by
    unfold readProof
    rw [readProof_withDb k r, readProof_withDb k l]
    rfl

theorem readBatch_withDb (T : Trie N) (ks : List (Arr N)) :
    readBatch (cfg.withDb db') T ks = readBatch cfg T ks := by
  unfold readBatch
  rw [readMany_withDb]

/-- A root returned in two histories is the root of the same tree. -/
theorem same_tree (hN : 0 < N) (hpp : cfg.pp.Lawful)
    (h1 : Inserts cfg C H1 R1 L1 s) (h2 : Inserts (cfg.withDb db') C' H2 R2 L2 t)
    (hcf : CollisionFree cfg.hasher (Among (H1 ++ H2))) {r : Arr N} (hr1 : r ∈ R1) (hr2 : r ∈ R2) :
    ∃ T : Trie N, T.loc cfg.hasher = r ∧ T.Norm ∧ Stored cfg.hasher (C.view s) T ∧
      Stored cfg.hasher (C'.view t) T ∧ ∀ i ∈ T.inputs cfg.hasher, Among (H1 ++ H2) i := by
  have c1 : CollisionFree cfg.hasher (Among H1) := hcf.mono (fun i hi => List.mem_append_left _ hi)
  have c2 : CollisionFree cfg.hasher (Among H2) := hcf.mono (fun i hi => List.mem_append_right _ hi)
  obtain ⟨so1, -, q1⟩ := inserts_inv hN hpp h1 c1
  obtain ⟨so2, -, q2⟩ := inserts_inv (cfg := cfg.withDb db') hN hpp h2 c2
  obtain ⟨T1, l1, n1, st1⟩ := q1 r hr1
  obtain ⟨T2, l2, n2, st2⟩ := q2 r hr2
  have i1 := (st1.honest c1 so1.view).2
  have i2 := (Stored.honest (H := cfg.hasher) c2 so2.view st2).2
  have : T1 = T2 := Trie.eq_of_loc hcf (fun i hi => List.mem_append_left _ (i1 i hi))
    (fun i hi => List.mem_append_right _ (i2 i hi)) (l1.trans l2.symm)
  subst this
  exact ⟨T1, l1, n1, st1, st2, fun i hi => List.mem_append_left _ (i1 i hi)⟩

/-- C35, one call: on two databases (of any kind that does what is asked of a database) with any
histories of inserts behind them, the same call of `insert` has the same outcome, root or error,
if its previous root (if any) was returned in both histories. -/
theorem C35_insert_agrees (hN : 0 < N) (hpp : cfg.pp.Lawful)
    (h1 : Inserts cfg C H1 R1 L1 s) (h2 : Inserts (cfg.withDb db') C' H2 R2 L2 t)
    (hs : C.alive s) (ht : C'.alive t) {prev : Option (Arr N)} {keys : List (Arr N)}
    {values : List V} (hprev : ∀ r, prev = some r → r ∈ R1 ∧ r ∈ R2)
    (hcf : CollisionFree cfg.hasher (Among (hashedBy cfg prev keys values s ++ (H1 ++ H2)))) :
    (insert (cfg.withDb db') prev keys values t).1 = (insert cfg prev keys values s).1 ∧
      C.alive (insert cfg prev keys values s).2 ∧
      C'.alive (insert (cfg.withDb db') prev keys values t).2 := by
  have hsub : ∀ i, Among (H1 ++ H2) i → Among (hashedBy cfg prev keys values s ++ (H1 ++ H2)) i :=
    fun i hi => List.mem_append_right _ hi
  have hpt : ∃ pt : Option (Trie N), prev = pt.map (·.loc cfg.hasher) ∧
      ∀ T, pt = some T → Stored cfg.hasher (C.view s) T ∧ Stored cfg.hasher (C'.view t) T ∧
        ∀ i ∈ T.inputs cfg.hasher, Among (H1 ++ H2) i := by
    cases prev with
    | none => exact ⟨none, rfl, fun T h => by cases h⟩
    | some r =>
      obtain ⟨hr1, hr2⟩ := hprev r rfl
      obtain ⟨T, rfl, -, st1, st2, hi⟩ := same_tree hN hpp h1 h2 (hcf.mono hsub) hr1 hr2
      exact ⟨some T, rfl, fun T' h => by cases h; exact ⟨st1, st2, hi⟩⟩
  obtain ⟨pt, rfl, hpt⟩ := hpt
  rcases insert_same (db' := db') (C := C) (C' := C') hcf
      (fun T hT i hi => hsub i ((hpt T hT).2.2 i hi)) keys values
      (fun e he i hi => List.mem_append_left _ (mem_hashedBy he i hi)) s t
      ⟨hs, ht, fun T hT => ⟨(hpt T hT).1, (hpt T hT).2.1⟩⟩ with
    ⟨a, b, s', t', e1, e2, rfl, q1, q2⟩ | ⟨e, s', t', e1, e2, q1, q2⟩
  · rw [e1, e2]; exact ⟨rfl, q1, q2⟩
  · rw [e1, e2]; exact ⟨rfl, q1, q2⟩

/-- C35, reads: a root returned in both histories reads the same on both databases: single keys, batches
and inclusion proofs. -/
theorem C35_reads_agree (hN : 0 < N) (hpp : cfg.pp.Lawful)
    (h1 : Inserts cfg C H1 R1 L1 s) (h2 : Inserts (cfg.withDb db') C' H2 R2 L2 t)
    (hs : C.alive s) (ht : C'.alive t)
    (hcf : CollisionFree cfg.hasher (Among (H1 ++ H2))) {r : Arr N} (hr1 : r ∈ R1) (hr2 : r ∈ R2) :
    (∀ k, getOne (cfg.withDb db') t r k = getOne cfg s r k) ∧
      (∀ ks, get (cfg.withDb db') t r ks = get cfg s r ks) ∧
      (∀ k, generateInclusionProof (cfg.withDb db') t r k = generateInclusionProof cfg s r k) := by
  obtain ⟨T, rfl, hn, st1, st2, -⟩ := same_tree hN hpp h1 h2 hcf hr1 hr2
  exact ⟨fun k => by
      rw [(getOne_stored (C := C) hN hn st1 k).alive hs, ← readOne_withDb (db' := db')]
      exact (getOne_stored (cfg := cfg.withDb db') (C := C') hN hn st2 k).alive ht,
    fun ks => by
      rw [(get_stored (C := C) hN hpp hn st1 ks).alive hs, ← readBatch_withDb (db' := db')]
      exact (get_stored (cfg := cfg.withDb db') (C := C') hN hpp hn st2 ks).alive ht,
    fun k => generateInclusionProof_congr rfl <| by
      rw [(proof_stored (C := C) hN hn st1 k).alive hs, ← readProof_withDb (db' := db')]
      exact (proof_stored (cfg := cfg.withDb db') (C := C') hN hn st2 k).alive ht⟩

/-- What the lockstep run of a script keeps. -/
theorem script_lockstep (hN : 0 < N) (hpp : cfg.pp.Lawful) : ∀ (sts : List (Step N V))
    (rs : List (Res (Arr N))) (s : σ) (t : τ) (H1 H2 : List (HIn N)) (R1 R2 : List (Arr N)),
    Inserts cfg C H1 R1 [] s → Inserts (cfg.withDb db') C' H2 R2 [] t → C.alive s → C'.alive t →
    (∀ r, .ok r ∈ rs → r ∈ R1 ∧ r ∈ R2) →
    CollisionFree cfg.hasher (Among ((hashedByScript cfg sts rs s ++ H1) ++
      (hashedByScript (cfg.withDb db') sts rs t ++ H2))) →
    (runScript (cfg.withDb db') sts rs t).1 = (runScript cfg sts rs s).1 ∧
    ∀ r, .ok r ∈ (runScript cfg sts rs s).1 →
      (∀ k, getOne (cfg.withDb db') (runScript (cfg.withDb db') sts rs t).2 r k =
        getOne cfg (runScript cfg sts rs s).2 r k) ∧
      (∀ ks, get (cfg.withDb db') (runScript (cfg.withDb db') sts rs t).2 r ks =
        get cfg (runScript cfg sts rs s).2 r ks) ∧
      (∀ k, generateInclusionProof (cfg.withDb db') (runScript (cfg.withDb db') sts rs t).2 r k =
        generateInclusionProof cfg (runScript cfg sts rs s).2 r k) := by
  intro sts
  induction sts with
  | nil =>
    intro rs s t H1 H2 R1 R2 h1 h2 hs ht hrs hcf
    refine ⟨rfl, fun r hr => ?_⟩
    exact C35_reads_agree hN hpp h1 h2 hs ht hcf (hrs r hr).1 (hrs r hr).2
  | cons st sts ih =>
    intro rs s t H1 H2 R1 R2 h1 h2 hs ht hrs hcf
    rw [hashedByScript, hashedByScript] at hcf
    rw [runScript, runScript]
    cases hroot : st.root? rs with
    | none =>
      rw [hroot] at hcf
      exact ih rs s t H1 H2 R1 R2 h1 h2 hs ht hrs hcf
    | some prev =>
      rw [hroot] at hcf
      dsimp only at hcf ⊢
      have hprev : ∀ r, prev = some r → r ∈ R1 ∧ r ∈ R2 := by
        rintro r rfl
        unfold Step.root? at hroot
        split at hroot
        · cases hroot
        · next i hi =>
          split at hroot
          · next r' hr' =>
            cases hroot
            exact hrs r (List.mem_of_getElem? hr')
          · cases hroot
      have hone := C35_insert_agrees hN hpp h1 h2 hs ht (keys := st.keys) (values := st.values) hprev
        (hcf.mono (fun i hi => by
          simp only [List.mem_append] at hi ⊢
          rcases hi with h | h | h
          · exact .inl (.inl (.inr h))
          · exact .inl (.inr h)
          · exact .inr (.inr h)))
      obtain ⟨he, a1, a2⟩ := hone
      rw [he] at hcf ⊢
      have n1 := h1.any (s' := (insert cfg prev st.keys st.values s).2)
        (res := (insert cfg prev st.keys st.values s).1) rfl
      have n2 := h2.any (s' := (insert (cfg.withDb db') prev st.keys st.values t).2)
        (res := (insert cfg prev st.keys st.values s).1) (Prod.ext he rfl)
      refine ih _ _ _ _ _ _ _ n1 n2 a1 a2 ?_ ?_
      · intro r hr
        rw [List.mem_append, List.mem_singleton] at hr
        rcases hr with hr | hr
        · exact ⟨List.mem_append_right _ (hrs r hr).1, List.mem_append_right _ (hrs r hr).2⟩
        · rw [← hr]; simp [returned]
      · simpa only [List.append_assoc] using hcf

/-- C35: a script of inserts, run on two databases that start empty, gives the same list of results
(roots and errors), and in the end every root it returned reads the same on both.  This holds for
every prefix of a script, since a prefix is a script. -/
theorem C35_histories_agree (hN : 0 < N) (hpp : cfg.pp.Lawful) (sts : List (Step N V))
    (v1 : C.view s = View.empty N) (p1 : C.pending s = View.empty N) (hs : C.alive s)
    (v2 : C'.view t = View.empty N) (p2 : C'.pending t = View.empty N) (ht : C'.alive t)
    (hcf : CollisionFree cfg.hasher (Among (hashedByScript cfg sts [] s ++
      hashedByScript (cfg.withDb db') sts [] t))) :
    (runScript (cfg.withDb db') sts [] t).1 = (runScript cfg sts [] s).1 ∧
    ∀ r, .ok r ∈ (runScript cfg sts [] s).1 →
      (∀ k, getOne (cfg.withDb db') (runScript (cfg.withDb db') sts [] t).2 r k =
        getOne cfg (runScript cfg sts [] s).2 r k) ∧
      (∀ ks, get (cfg.withDb db') (runScript (cfg.withDb db') sts [] t).2 r ks =
        get cfg (runScript cfg sts [] s).2 r ks) ∧
      (∀ k, generateInclusionProof (cfg.withDb db') (runScript (cfg.withDb db') sts [] t).2 r k =
        generateInclusionProof cfg (runScript cfg sts [] s).2 r k) :=
  script_lockstep hN hpp sts [] s t [] [] [] [] (.start v1 p1) (.start v2 p2) hs ht
    (fun r hr => by cases hr) (by simpa only [List.append_nil] using hcf)

/-- An environment in which no RocksDB call fails. -/
def RocksEnv.reliable (N : Nat) : RocksEnv N := ⟨fun _ _ => false, fun _ => false⟩

/-- C35 for the two databases of the crate: the in-memory one, and RocksDB as long as none of its
calls fails. -/
theorem C35_hash_and_rocks_agree {cfg : Config N (HashDB N) V} (hdb : cfg.db = hashDatabase N)
    (hN : 0 < N) (hpp : cfg.pp.Lawful) {codec : NodeCodec N} (hcodec : LawfulCodec codec)
    (sts : List (Step N V))
    (hcf : CollisionFree cfg.hasher (Among (hashedByScript cfg sts [] (HashDB.open N) ++
      hashedByScript (cfg.withDb (rocksDatabase codec (.reliable N))) sts [] (RocksDB.open N)))) :
    (runScript (cfg.withDb (rocksDatabase codec (.reliable N))) sts [] (RocksDB.open N)).1 =
      (runScript cfg sts [] (HashDB.open N)).1 ∧
    ∀ r, .ok r ∈ (runScript cfg sts [] (HashDB.open N)).1 → ∀ k,
      getOne (cfg.withDb (rocksDatabase codec (.reliable N)))
        (runScript (cfg.withDb (rocksDatabase codec (.reliable N))) sts [] (RocksDB.open N)).2 r k =
      getOne cfg (runScript cfg sts [] (HashDB.open N)).2 r k := by
  obtain ⟨db, hasher, encode, decode, pp, depth⟩ := cfg
  dsimp only at hdb
  subst hdb
  have := C35_histories_agree (cfg := ⟨hashDatabase N, hasher, encode, decode, pp, depth⟩)
    (db' := rocksDatabase codec (.reliable N)) (C := hashContract N)
    (C' := rocksContract hcodec (.reliable N)) (s := HashDB.open N) (t := RocksDB.open N)
    hN hpp sts rfl rfl trivial rfl rfl
    ⟨fun _ _ => ⟨rfl, fun _ => rfl⟩, And.intro (fun x b h => by cases h) (fun x b h => by cases h)⟩
    hcf
  exact ⟨this.1, fun r hr => (this.2 r hr).1⟩

namespace Toy

/-- The script of the concrete history: a first version, an update, and a batch with a repeated key. -/
def script : List (Step 2 (List UInt8)) :=
  [⟨none, ks1, vs1⟩, ⟨some 0, ks2, vs2⟩, ⟨some 1, [key 7, key 7], [[1], [2]]⟩, ⟨some 2, ks1, vs1⟩]

/-- It returns two roots and an error, and the call that builds on the failed one is left out. -/
example : (runScript Toy.cfg script [] db0).1 = [.ok r1, .ok r2,
    .error (.exception "Attempted to insert item with duplicate keys")] := by decide +kernel

/-- `cfg` on RocksDB with the serialization of `Props/ToyCodec.lean`. -/
def rocks : Config 2 (RocksDB 2) (List UInt8) :=
  Toy.cfg.withDb (rocksDatabase ToyCodec.codec (.reliable 2))

/-- The hypotheses of `C35_hash_and_rocks_agree` hold of it. -/
example : LawfulCodec ToyCodec.codec ∧ CollisionFree Toy.cfg.hasher
    (Among (hashedByScript Toy.cfg script [] (HashDB.open 2) ++
      hashedByScript rocks script [] (RocksDB.open 2))) :=
  ⟨ToyCodec.lawful, collisionFree_of_check (by decide +kernel)⟩

end Toy

/-- The limit of C35: with a previous root that no call returned, the backends can differ.  A call
whose previous root is the location of the leaf it writes succeeds on the in-memory database and fails
on RocksDB, which does not see the queued leaf. -/
theorem C35_unknown_roots_differ : ∃ (r : Arr 2) (k : Arr 2) (v : List UInt8),
    (insert Toy.cfg (some r) [k] [v] (HashDB.open 2)).1 = .ok r ∧
    (insert Toy.rocks (some r) [k] [v] (RocksDB.open 2)).1 =
      .error (.exception "Could not find root") :=
  ⟨Toy.key 24929, Toy.key 1, [10], by decide +kernel, by decide +kernel⟩

end MerkleBit
