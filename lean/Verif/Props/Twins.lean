import Verif.Proof.Twins
import Verif.Props.Needs
/-!
# C82: the same program on two databases

`Twins` are histories of the same inserts and removals on two databases, opened by the same configuration
except for the database.
-/

namespace MerkleBit

section
variable {N : Nat} {σ τ V : Type} {cfg : Config N σ V} {C : DbContract cfg.db} {db' : Database N τ}
  {C' : DbContract (cfg.withDb db').db} {fresh : Prop} {H : List (HIn N)} {L : Ledger N V} {s : σ} {t : τ}

/-- C82: after the same inserts and removals both databases hold the same nodes with the same counts, and
nothing is queued, if both show writes at once, or both queue them, or no insert wrote a pair that was
there. -/
theorem C82_same_nodes (hc : Sane cfg) {shows shows' : Bool} (hw : WritesShow C shows)
    (hw' : WritesShow C' shows') (hf : shows = shows' ∨ fresh) (h : Twins cfg C db' C' fresh H L s t)
    (hcf : CollisionFree cfg.hasher (Among H)) :
    C'.view t = C.view s ∧ C.pending s = View.empty N ∧ C'.pending t = View.empty N := by
  have := h.twin hc hw hw' hf hcf
  exact ⟨this.view, this.pending, this.pending'⟩

/-- C82: so every read of the two trees gives the same, whatever the root and the keys. -/
theorem C82_same_reads (hc : Sane cfg) {shows shows' : Bool} (hw : WritesShow C shows)
    (hw' : WritesShow C' shows') (hf : shows = shows' ∨ fresh) (h : Twins cfg C db' C' fresh H L s t)
    (hcf : CollisionFree cfg.hasher (Among H)) (r k : Arr N) (ks : List (Arr N)) :
    getOne (cfg.withDb db') t r k = getOne cfg s r k ∧
    get (cfg.withDb db') t r ks = get cfg s r ks ∧
    generateInclusionProof (cfg.withDb db') t r k = generateInclusionProof cfg s r k := by
  have ht := h.twin hc hw hw' hf hcf
  have hget : ∀ x, db'.getNode t x = cfg.db.getNode s x := by
    intro x
    rw [alive_get (C := C) ht.alive x, ← ht.view]
    exact alive_get (C := C') ht.alive' x
  exact ⟨getOne_same hget r k, get_same hget r ks, generateInclusionProof_congr rfl (proof_same hget r k)⟩

/-- C82: the next insert succeeds on both or on none, with the same root; the next removal succeeds on
both. -/
theorem C82_same_answers (hc : Sane cfg) {shows shows' : Bool} (hw : WritesShow C shows)
    (hw' : WritesShow C' shows') (hf : shows = shows' ∨ fresh) (h : Twins cfg C db' C' fresh H L s t)
    {prev : Option (Arr N)} {M : Contents N V} {keys : List (Arr N)} {values : List V}
    (hcf : CollisionFree cfg.hasher (Among (hashedBy cfg prev keys values s ++
      (hashedBy (cfg.withDb db') prev keys values t ++ H))))
    (hprev : L.Prev prev M) (hd : HeightBelow M (cfg.depth + 1))
    (hh : prev ≠ none → Handled cfg M keys) (hnew : fresh → ∀ p ∈ keys.zip values, M p.1 ≠ some p.2) :
    (∀ r, (insert (cfg.withDb db') prev keys values t).1 = .ok r ↔
      (insert cfg prev keys values s).1 = .ok r) ∧
    ∀ r M', (r, M') ∈ L → (remove (cfg.withDb db') r t).1 = .ok () ∧ (remove cfg r s).1 = .ok () := by
  have hsub : ∀ i, Among H i → Among (hashedBy cfg prev keys values s ++
      (hashedBy (cfg.withDb db') prev keys values t ++ H)) i :=
    fun i hi => List.mem_append_right _ (List.mem_append_right _ hi)
  have ht := (h.twin hc hw hw' hf (hcf.mono hsub)).mono hsub
  have hin := fun i hi => List.mem_append_left (as := hashedBy cfg prev keys values s)
    (hashedBy (cfg.withDb db') prev keys values t ++ H) (a := i) hi
  have hin' := fun i hi => List.mem_append_right (hashedBy cfg prev keys values s)
    (List.mem_append_left (as := hashedBy (cfg.withDb db') prev keys values t) H (a := i) hi)
  obtain ⟨pt, hpt⟩ := hprev.trie ht.records
  have hnone : shows = shows' ∨ NoneOf pt (encodedPairs cfg keys values) :=
    hf.imp id (fun h => noneOf_fresh hc.codec hpt (hnew h))
  refine ⟨fun r => ⟨?_, ?_⟩, fun r M' hr => ?_⟩
  · rcases hrun : insert (cfg.withDb db') prev keys values t with ⟨res, t'⟩
    rintro ⟨⟩
    obtain ⟨s', h'⟩ := insert_transfer (cfg := cfg.withDb db') (C := C') (db' := cfg.db) (C' := C)
      ⟨hc.pos, hc.pp, hc.codec⟩ hcf hw' hw ht.view.symm ht.place' ht.place ht.pending' ht.pending ht.alive
      hin' hin hpt hd hh (hnone.imp Eq.symm id) hrun
    have h' : insert cfg prev keys values s = (.ok r, s') := h'
    rw [h']
  · rcases hrun : insert cfg prev keys values s with ⟨res, s'⟩
    rintro ⟨⟩
    obtain ⟨t', h'⟩ := insert_transfer (cfg := cfg) (C := C) (db' := db') (C' := C')
      hc hcf hw hw' ht.view ht.place ht.place' ht.pending ht.pending' ht.alive'
      hin hin' hpt hd hh hnone hrun
    rw [h']
  · rcases hrun : remove cfg r s with ⟨res, s'⟩
    rcases hrun' : remove (cfg.withDb db') r t with ⟨res', t'⟩
    obtain ⟨h1, h2, -⟩ := ht.remove hcf hr hrun hrun'
    exact ⟨h2, h1⟩

end

section
variable {N : Nat} {V : Type} {hasher : Hasher N} {encode : V → Res (List UInt8)}
  {decode : List UInt8 → Res V} {pp : PartitionPoint N} {depth : Nat} {H : List (HIn N)} {L : Ledger N V}

/-- C82 for `HashDB` and `RocksDB`: whatever roots are removed, and whatever that takes from other versions,
both go on reading the same, as long as no insert writes a pair that the version it builds on has already. -/
theorem C82_hash_and_rocks {codec : NodeCodec N} (hl : LawfulCodec codec) {s : HashDB N} {t : RocksDB N}
    (hc : Sane (⟨hashDatabase N, hasher, encode, decode, pp, depth⟩ : Config N _ V))
    (h : Twins ⟨hashDatabase N, hasher, encode, decode, pp, depth⟩ (hashContract N)
      (rocksDatabase codec (.reliable N)) (rocksContract hl (.reliable N)) True H L s t)
    (hcf : CollisionFree hasher (Among H)) (r k : Arr N) (ks : List (Arr N)) :
    getOne ⟨rocksDatabase codec (.reliable N), hasher, encode, decode, pp, depth⟩ t r k =
      getOne ⟨hashDatabase N, hasher, encode, decode, pp, depth⟩ s r k ∧
    get ⟨rocksDatabase codec (.reliable N), hasher, encode, decode, pp, depth⟩ t r ks =
      get ⟨hashDatabase N, hasher, encode, decode, pp, depth⟩ s r ks ∧
    generateInclusionProof ⟨rocksDatabase codec (.reliable N), hasher, encode, decode, pp, depth⟩ t r k =
      generateInclusionProof ⟨hashDatabase N, hasher, encode, decode, pp, depth⟩ s r k :=
  C82_same_reads (shows := true) (shows' := false) hc hash_writesShow (rocks_writesShow hl _)
    (.inr trivial) h hcf r k ks

/-- C82 for `RocksDB` with two serializations of nodes: they read the same, whatever is written again. -/
theorem C82_two_serializations {codec codec' : NodeCodec N} (hl : LawfulCodec codec)
    (hl' : LawfulCodec codec') {s t : RocksDB N}
    (hc : Sane (⟨rocksDatabase codec (.reliable N), hasher, encode, decode, pp, depth⟩ : Config N _ V))
    (h : Twins ⟨rocksDatabase codec (.reliable N), hasher, encode, decode, pp, depth⟩
      (rocksContract hl (.reliable N))
      (rocksDatabase codec' (.reliable N)) (rocksContract hl' (.reliable N)) False H L s t)
    (hcf : CollisionFree hasher (Among H)) (r k : Arr N) (ks : List (Arr N)) :
    getOne ⟨rocksDatabase codec' (.reliable N), hasher, encode, decode, pp, depth⟩ t r k =
      getOne ⟨rocksDatabase codec (.reliable N), hasher, encode, decode, pp, depth⟩ s r k ∧
    get ⟨rocksDatabase codec' (.reliable N), hasher, encode, decode, pp, depth⟩ t r ks =
      get ⟨rocksDatabase codec (.reliable N), hasher, encode, decode, pp, depth⟩ s r ks ∧
    generateInclusionProof ⟨rocksDatabase codec' (.reliable N), hasher, encode, decode, pp, depth⟩ t r k =
      generateInclusionProof ⟨rocksDatabase codec (.reliable N), hasher, encode, decode, pp, depth⟩ s r k :=
  C82_same_reads (shows := false) (shows' := false) hc (rocks_writesShow hl _) (rocks_writesShow hl' _)
    (.inl rfl) h hcf r k ks

end

/-! ## Concrete cases -/

namespace Toy

/-- Two versions, of which the first is removed. -/
def w1 := insert cfg none [key 1, key 2] [[10], [20]] db0
/-- The second version. -/
def w2 := insert cfg (some (key 59708)) [key 0x8000] [[30]] w1.2
/-- The removal. -/
def w3 := remove cfg (key 59708) w2.2
/-- The removal on RocksDB. -/
def n4 := remove rocks (key 59708) n2.2

theorem wtwins : Twins cfg C (rocksDatabase ToyCodec.codec (.reliable 2)) RC True
    (hashedBy cfg (some (key 59708)) [key 0x8000] [[30]] w1.2 ++
      (hashedBy rocks (some (key 59708)) [key 0x8000] [[30]] n1.2 ++
      (hashedBy cfg none [key 1, key 2] [[10], [20]] db0 ++
      (hashedBy rocks none [key 1, key 2] [[10], [20]] (RocksDB.open 2) ++ []))))
    [(key 24207, D2), (key 59708, D1)] w3.2 n4.2 := by
  refine .remove (.insert (.insert (.start rfl rfl (alive _) rfl rfl (rocks_empty ToyCodec.lawful))
    (prev := none) (M := Contents.empty) rfl (heightBelow_of_bits _ (by decide)) (fun h => absurd rfl h) ?_
    (outcome (x := insert cfg none [key 1, key 2] [[10], [20]] db0) (a := .ok (key 59708))
      (by decide +kernel))
    (outcome (x := insert rocks none [key 1, key 2] [[10], [20]] (RocksDB.open 2)) (a := .ok (key 59708))
      (by decide +kernel)))
    (prev := some (key 59708)) (M := D1) (by simp [Ledger.Prev, D1]) (heightBelow_of_bits _ (by decide))
    (fun _ => handled_single sane _) ?_ (outcome (by decide +kernel))
    (outcome (x := insert rocks (some (key 59708)) [key 0x8000] [[30]] n1.2) (a := .ok (key 24207))
      (by decide +kernel)))
    (r := key 59708) (M := D1) (by simp [D1]) rfl rfl
  · simp [Contents.empty]
  · simp only [List.zip_cons_cons, List.zip_nil_left, List.mem_singleton, forall_eq]
    intro _
    decide +kernel

end Toy

/-- C82 there: both databases go on reading key 2 under the second root. -/
example : getOne Toy.rocks Toy.n4.2 (Toy.key 24207) (Toy.key 2) = .ok (some [20]) := by
  have := (C82_hash_and_rocks ToyCodec.lawful Toy.sane Toy.wtwins (collisionFree_of_check (by decide +kernel))
    (Toy.key 24207) (Toy.key 2) []).1
  refine Eq.trans this ?_
  decide +kernel

namespace Toy

/-- Another serialization: the bytes in reverse. -/
def flipped : NodeCodec 2 :=
  ⟨fun n => match ToyCodec.codec.encode n with
    | .ok b => .ok b.reverse
    | .error e => .error e, fun b => ToyCodec.codec.decode b.reverse⟩

theorem flipped_lawful : LawfulCodec flipped where
  round n := by
    obtain ⟨b, h1, h2⟩ := ToyCodec.lawful.round n
    exact ⟨b.reverse, by simp [flipped, h1], by simp [flipped, h2]⟩
  err b e h := ToyCodec.lawful.err _ e h

/-- RocksDB with it. -/
abbrev bin : Database 2 (RocksDB 2) := rocksDatabase flipped (.reliable 2)
/-- The first version written with it. -/
def m1 := insert (rocks.withDb bin) none [key 1, key 2] [[10], [20]] (RocksDB.open 2)
/-- The same pair again. -/
def m2 := insert (rocks.withDb bin) (some (key 59708)) [key 1] [[10]] m1.2
/-- The same pair again, with the other serialization. -/
def n5 := insert rocks (some (key 59708)) [key 1] [[10]] n1.2

theorem mtwins : Twins rocks RC bin (rocksContract flipped_lawful (.reliable 2)) False
    (hashedBy rocks (some (key 59708)) [key 1] [[10]] n1.2 ++
      (hashedBy (rocks.withDb bin) (some (key 59708)) [key 1] [[10]] m1.2 ++
      (hashedBy rocks none [key 1, key 2] [[10], [20]] (RocksDB.open 2) ++
      (hashedBy (rocks.withDb bin) none [key 1, key 2] [[10], [20]] (RocksDB.open 2) ++ []))))
    [(key 59708, D1.assign [key 1] [[10]]), (key 59708, D1)] n5.2 m2.2 := by
  refine .insert (.insert (.start rfl rfl (rocks_empty ToyCodec.lawful) rfl rfl (rocks_empty _))
    (prev := none) (M := Contents.empty) rfl (heightBelow_of_bits _ (by decide)) (fun h => absurd rfl h)
    False.elim
    (outcome (x := insert rocks none [key 1, key 2] [[10], [20]] (RocksDB.open 2)) (a := .ok (key 59708))
      (by decide +kernel))
    (outcome (x := insert (rocks.withDb bin) none [key 1, key 2] [[10], [20]] (RocksDB.open 2))
      (a := .ok (key 59708)) (by decide +kernel)))
    (prev := some (key 59708)) (M := D1) (by simp [Ledger.Prev, D1]) (heightBelow_of_bits _ (by decide))
    (fun _ => handled_single rsane _) False.elim (outcome (by decide +kernel))
    (outcome (x := insert (rocks.withDb bin) (some (key 59708)) [key 1] [[10]] m1.2) (a := .ok (key 59708))
      (by decide +kernel))

end Toy

/-- C82 there: both serializations read the same. -/
example (r k : Arr 2) : getOne (Toy.rocks.withDb Toy.bin) Toy.m2.2 r k = getOne Toy.rocks Toy.n5.2 r k :=
  (C82_two_serializations ToyCodec.lawful Toy.flipped_lawful Toy.rsane Toy.mtwins
    (collisionFree_of_check (by decide +kernel)) r k []).1

end MerkleBit
