import Verif.Proof.TidySessions
import Verif.Proof.Backends
import Verif.Props.ToyHistory
import Verif.Props.Durability
/-!
# C72: sessions

The versions made by a session are maps: `specSession` answers every call from a list of partial maps, with
no tree, hash or database, and the crate gives the same answers.
-/

namespace MerkleBit
section
variable {N : Nat} {σ V : Type} {cfg : Config N σ V} {C : DbContract cfg.db} {s : σ} {ρ : σ → σ}

/-- C72: a session of calls with one key each (and batches on top of nothing), started on an empty database
with a depth limit above `8 N`, gets exactly the answers that maps would give: which calls are accepted,
what is read, what can be proved, which roots are equal.  This includes calls with bad arguments, calls
during which the process dies, and closing and opening the database. -/
theorem C72_one_key_at_a_time (hc : Sane cfg) (hroom : cfg.Room) (hd : 8 * N < cfg.depth)
    (hρ : ∀ s, C.view (ρ s) = C.view s ∧ C.pending (ρ s) = View.empty N ∧ (C.alive s → C.alive (ρ s)))
    (h0 : C.view s = View.empty N) (h1 : C.pending s = View.empty N) (hs : C.alive s)
    (cs : List (Cmd N V)) (hone : ∀ c ∈ cs, c.OneAtATime) (hkeep : ∀ c ∈ cs, c.Keeps)
    (hcf : CollisionFree cfg.hasher (Among (hashedBySession cfg ρ cs [] s))) :
    runSession (cfg.api ρ) cs [] s = specSession cfg.encode cs [] :=
  session_eq hc hroom hd hρ cs (H := []) (by rwa [List.append_nil])
    ⟨[], [], [], [], rfl, rfl, fun _ h => h, .start h0 h1, hs, fun e h => by cases h⟩
    (careful_oneAtATime cs [] hone hkeep)

/-- C72 with batches: the answers are those of maps as long as every `insert` on top of a version and
every `get` has at most one key that the version does not store. -/
theorem C72_careful_sessions (hc : Sane cfg) (hroom : cfg.Room) (hd : 8 * N < cfg.depth)
    (hρ : ∀ s, C.view (ρ s) = C.view s ∧ C.pending (ρ s) = View.empty N ∧ (C.alive s → C.alive (ρ s)))
    (h0 : C.view s = View.empty N) (h1 : C.pending s = View.empty N) (hs : C.alive s)
    (cs : List (Cmd N V)) (hcare : CarefulSession cfg.encode cs [])
    (hcf : CollisionFree cfg.hasher (Among (hashedBySession cfg ρ cs [] s))) :
    runSession (cfg.api ρ) cs [] s = specSession cfg.encode cs [] :=
  session_eq hc hroom hd hρ cs (H := []) (by rwa [List.append_nil])
    ⟨[], [], [], [], rfl, rfl, fun _ h => h, .start h0 h1, hs, fun e h => by cases h⟩ hcare

/-- A directory that is closed and opened again. -/
theorem rocks_reopen {codec : NodeCodec N} (hl : LawfulCodec codec) (s : RocksDB N) :
    (rocksContract hl (.reliable N)).view (RocksDB.new s.decompose) = (rocksContract hl (.reliable N)).view s ∧
    (rocksContract hl (.reliable N)).pending (RocksDB.new s.decompose) = View.empty N ∧
    ((rocksContract hl (.reliable N)).alive s →
      (rocksContract hl (.reliable N)).alive (RocksDB.new s.decompose)) := by
  refine ⟨rfl, rfl, ?_⟩
  rintro ⟨-, h2, -⟩
  exact ⟨fun _ _ => ⟨rfl, fun _ => rfl⟩, h2, fun x b h => by simp [RocksDB.new, queued] at h⟩

/-- An empty directory. -/
theorem rocks_empty {codec : NodeCodec N} (hl : LawfulCodec codec) :
    (rocksContract hl (.reliable N)).alive (RocksDB.new AMap.empty) := by
  refine ⟨fun _ _ => ⟨rfl, fun _ => rfl⟩, fun x b h => ?_, fun x b h => by simp [RocksDB.new, queued] at h⟩
  cases h

/-- C72 for `HashTree`: a session of its methods on a new tree. -/
theorem C72_hash_tree (ty : TreeTypes N V) (depth : Nat) (hc : Sane (ty.hashConfig depth))
    (hroom : (ty.hashConfig depth).Room) (hd : 8 * N < depth) (cs : List (Cmd N V))
    (hcare : CarefulSession ty.encode cs [])
    (hcf : CollisionFree ty.hasher (Among (hashedBySession (ty.hashConfig depth) id cs [] (HashDB.open N)))) :
    ∃ t, HashTree.new N depth = .ok t ∧
      runSession (HashTree.api ty) cs [] t = specSession ty.encode cs [] := by
  refine ⟨_, rfl, ?_⟩
  refine ((hashTree_hom ty depth).runSession cs [] (HashDB.open N)).1.trans ?_
  exact C72_careful_sessions (cfg := ty.hashConfig depth) (C := hashContract N) hc hroom hd
    (fun s => ⟨rfl, rfl, id⟩) rfl rfl trivial cs hcare hcf

/-- C72 for `RocksTree`: a session of its methods on an empty directory, with any codec that reads back what
it wrote. -/
theorem C72_rocks_tree (ty : TreeTypes N V) {codec : NodeCodec N} (hl : LawfulCodec codec) (depth : Nat)
    (hc : Sane (ty.rocksConfig codec (.reliable N) depth))
    (hroom : (ty.rocksConfig codec (.reliable N) depth).Room) (hd : 8 * N < depth) (cs : List (Cmd N V))
    (hcare : CarefulSession ty.encode cs [])
    (hcf : CollisionFree ty.hasher (Among (hashedBySession (ty.rocksConfig codec (.reliable N) depth)
      (fun s => RocksDB.new s.decompose) cs [] (RocksDB.new AMap.empty)))) :
    ∃ t, RocksTree.open (.ok AMap.empty) depth = .ok t ∧
      runSession (RocksTree.api ty codec (.reliable N)) cs [] t = specSession ty.encode cs [] := by
  refine ⟨_, rfl, ?_⟩
  refine ((rocksTree_hom ty codec (.reliable N) depth).runSession cs [] (RocksDB.new AMap.empty)).1.trans ?_
  exact C72_careful_sessions (cfg := ty.rocksConfig codec (.reliable N) depth)
    (C := rocksContract hl (.reliable N)) (s := RocksDB.new AMap.empty)
    (ρ := fun s => RocksDB.new s.decompose) hc hroom hd (rocks_reopen hl) rfl rfl (rocks_empty hl) cs hcare hcf

end

/-! ## A concrete session -/

namespace Toy

/-- Two keys at once, an update, a refused batch, a crash, an update that is taken back, then questions. -/
def session : List (Cmd 2 (List UInt8)) :=
  [.put none [key 1, key 0x8000] [[1], [2]], .putOne (some 0) (key 1) [3], .put none [key 7, key 7] [[1], [2]],
    .crash 2 (some 1) [key 9] [[9]], .reopen, .putOne (some 1) (key 1) [1], .same 0 2, .same 0 1,
    .readOne 1 (key 1), .readOne 1 (key 9), .read 2 [key 1], .prove 2 (key 1) [1], .prove 2 (key 1) [3],
    .readOne 5 (key 1)]

/-- The answers of the crate. -/
example : runSession (cfg.api id) session [] db0 =
    [.version 0, .version 1, .refused, .nothing, .nothing, .version 2, .verdict true, .verdict false,
      .value (some [3]), .value none, .values [some (some [1])], .verdict true, .verdict false,
      .nothing] := by
  decide +kernel

/-- The hypotheses of C72 are met. -/
example : runSession (cfg.api id) session [] db0 = specSession cfg.encode session [] :=
  C72_one_key_at_a_time (C := C) sane room (by decide) (fun _ => ⟨rfl, rfl, id⟩) rfl rfl (alive _) session
    (by simp [session, Cmd.OneAtATime]) (by simp [session, Cmd.Keeps]) (collisionFree_of_check (by decide +kernel))

/-- The hypotheses of `C72_hash_tree` are met. -/
example : ∃ t, HashTree.new 2 17 = .ok t ∧
    runSession (HashTree.api types) session [] t = specSession types.encode session [] :=
  C72_hash_tree types 17 sane room (by decide) session
    (careful_oneAtATime session [] (by simp [session, Cmd.OneAtATime]) (by simp [session, Cmd.Keeps]))
    (collisionFree_of_check (by decide +kernel))

/-- The hypotheses of `C72_rocks_tree` are met. -/
example : ∃ t, RocksTree.open (.ok AMap.empty) 17 = .ok t ∧
    runSession (RocksTree.api types ToyCodec.codec (.reliable 2)) session [] t =
      specSession types.encode session [] :=
  C72_rocks_tree types ToyCodec.lawful 17 ⟨sane.1, sane.2, sane.3⟩ room (by decide) session
    (careful_oneAtATime session [] (by simp [session, Cmd.OneAtATime]) (by simp [session, Cmd.Keeps]))
    (collisionFree_of_check (by decide +kernel))

/-- A session with a batch of two new keys on top of a version. -/
def carelessSession : List (Cmd 2 (List UInt8)) :=
  [.put none ([0x80, 0x90, 0xA0, 0xC0].map key) [[1], [2], [3], [4]],
    .put (some 0) ([0x40, 0x90, 0xC0, 0x100].map key) [[5], [6], [7], [8]], .readOne 1 (key 0xA0)]

end Toy

/-- The limit of C72: with a batch of two new keys the answers are not always those of maps (no hash
collision is involved). -/
theorem C72_batches_differ : ∃ cs : List (Cmd 2 (List UInt8)),
    CollisionFree Toy.cfg.hasher (Among (hashedBySession Toy.cfg id cs [] Toy.db0)) ∧
    runSession (Toy.cfg.api id) cs [] Toy.db0 = [.version 0, .version 1, .value none] ∧
    specSession Toy.cfg.encode cs [] = [.version 0, .version 1, .value (some [3])] := by
  refine ⟨Toy.carelessSession, collisionFree_of_check (by decide +kernel), by decide +kernel, ?_⟩
  have he : ∀ vs : List (List UInt8), ∀ v ∈ vs, ∃ b, Toy.cfg.encode v = .ok b := fun _ v _ => ⟨v, rfl⟩
  simp only [Toy.carelessSession, specSession, Cmd.spec, base?]
  rw [if_pos ⟨rfl, by decide, by decide, he _⟩]
  simp only [List.nil_append, List.length_nil, at?, List.getElem?_cons_zero, Option.join_some]
  rw [if_pos ⟨rfl, by decide, by decide, he _⟩]
  rfl

end MerkleBit
