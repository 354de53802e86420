import Verif.Proof.AnySessions
import Verif.Props.Session
/-!
# C83: sessions of any calls

C72 is about sessions whose batches open what they have to.  Here the batches are arbitrary, for `insert` and
for `get`.  `Allowed` (`Spec/AnySession.lean`) says what the crate then answers.
-/

namespace MerkleBit
section
variable {N : Nat} {σ V : Type} {cfg : Config N σ V} {C : DbContract cfg.db} {s : σ} {ρ : σ → σ}

/-- C83: every session without removals, started on an empty database with a depth limit above `8 N`, gets the
answers of `AllowedSession`.
* A version made only by batches that open what they have to stays a map, whatever else the session does:
  inserts that go wrong, are refused or die, on top of this version or others.
* A batch that does not open what it has to is refused or makes a version with known single reads.
* A `get` of any keys from a map gives the value of each key that the keys find, and says of the others that
  they are not there. -/
theorem C83_any_session (hc : Sane cfg) (hroom : cfg.Room) (hd : 8 * N < cfg.depth)
    (hρ : ∀ s, C.view (ρ s) = C.view s ∧ C.pending (ρ s) = View.empty N ∧ (C.alive s → C.alive (ρ s)))
    (h0 : C.view s = View.empty N) (h1 : C.pending s = View.empty N) (hs : C.alive s)
    (cs : List (Cmd N V)) (hkeep : ∀ c ∈ cs, c.Keeps)
    (hcf : CollisionFree cfg.hasher (Among (hashedBySession cfg ρ cs [] s))) :
    AllowedSession cfg cs (runSession (cfg.api ρ) cs [] s) [] :=
  any_session hc hroom hd hρ cs (H := []) (es := []) (L := []) (by rwa [List.append_nil])
    ⟨⟨[], [], fun _ h => h, .start h0 h1⟩, hs, fun e h => by cases h⟩ hkeep

/-- C83 for `HashTree`. -/
theorem C83_hash_tree (ty : TreeTypes N V) (depth : Nat) (hc : Sane (ty.hashConfig depth))
    (hroom : (ty.hashConfig depth).Room) (hd : 8 * N < depth) (cs : List (Cmd N V))
    (hkeep : ∀ c ∈ cs, c.Keeps)
    (hcf : CollisionFree ty.hasher (Among (hashedBySession (ty.hashConfig depth) id cs [] (HashDB.open N)))) :
    ∃ t, HashTree.new N depth = .ok t ∧
      AllowedSession (ty.hashConfig depth) cs (runSession (HashTree.api ty) cs [] t) [] := by
  refine ⟨_, rfl, ?_⟩
  rw [((hashTree_hom ty depth).runSession cs [] (HashDB.open N)).1]
  exact C83_any_session (cfg := ty.hashConfig depth) (C := hashContract N) hc hroom hd
    (fun s => ⟨rfl, rfl, id⟩) rfl rfl trivial cs hkeep hcf

/-- C83 for `RocksTree`. -/
theorem C83_rocks_tree (ty : TreeTypes N V) {codec : NodeCodec N} (hl : LawfulCodec codec) (depth : Nat)
    (hc : Sane (ty.rocksConfig codec (.reliable N) depth))
    (hroom : (ty.rocksConfig codec (.reliable N) depth).Room) (hd : 8 * N < depth) (cs : List (Cmd N V))
    (hkeep : ∀ c ∈ cs, c.Keeps)
    (hcf : CollisionFree ty.hasher (Among (hashedBySession (ty.rocksConfig codec (.reliable N) depth)
      (fun s => RocksDB.new s.decompose) cs [] (RocksDB.new AMap.empty)))) :
    ∃ t, RocksTree.open (.ok AMap.empty) depth = .ok t ∧
      AllowedSession (ty.rocksConfig codec (.reliable N) depth) cs
        (runSession (RocksTree.api ty codec (.reliable N)) cs [] t) [] := by
  refine ⟨_, rfl, ?_⟩
  rw [((rocksTree_hom ty codec (.reliable N) depth).runSession cs [] (RocksDB.new AMap.empty)).1]
  exact C83_any_session (cfg := ty.rocksConfig codec (.reliable N) depth)
    (C := rocksContract hl (.reliable N)) (s := RocksDB.new AMap.empty)
    (ρ := fun s => RocksDB.new s.decompose) hc hroom hd (rocks_reopen hl) rfl rfl (rocks_empty hl) cs hkeep hcf

end

/-! ## A concrete session -/

namespace Toy

/-- A batch that loses a key, one on top of what it made, a `get` that does not find everything, a crash, and
questions about the first version. -/
def wildSession : List (Cmd 2 (List UInt8)) :=
  [.put none ([0x80, 0x90, 0xA0, 0xC0].map key) [[1], [2], [3], [4]],
    .put (some 0) ([0x40, 0x90, 0xC0, 0x100].map key) [[5], [6], [7], [8]], .readOne 1 (key 0xA0),
    .put (some 1) [key 7, key 0x90] [[1], [2]], .crash 3 (some 0) [key 9] [[9]], .reopen,
    .readOne 0 (key 0xA0), .readOne 1 (key 0xC0), .prove 0 (key 0x90) [2], .put (some 0) [key 1] [],
    .read 0 ([0x40, 0xA0].map key)]

/-- The answers of the crate. -/
example : runSession (cfg.api id) wildSession [] db0 =
    [.version 0, .version 1, .value none, .version 2, .nothing, .nothing, .value (some [3]), .value (some [7]),
      .verdict true, .refused, .values [some none, some (some [3])]] := by
  decide +kernel

/-- The hypotheses of `C83_any_session` are met. -/
example : AllowedSession cfg wildSession (runSession (cfg.api id) wildSession [] db0) [] :=
  C83_any_session (C := C) sane room (by decide) (fun _ => ⟨rfl, rfl, id⟩) rfl rfl (alive _) wildSession
    (by simp [wildSession, Cmd.Keeps]) (collisionFree_of_check (by decide +kernel))

/-- The hypotheses of `C83_hash_tree` are met. -/
example : ∃ t, HashTree.new 2 17 = .ok t ∧
    AllowedSession (types.hashConfig 17) wildSession (runSession (HashTree.api types) wildSession [] t) [] :=
  C83_hash_tree types 17 sane room (by decide) wildSession (by simp [wildSession, Cmd.Keeps])
    (collisionFree_of_check (by decide +kernel))

/-- The hypotheses of `C83_rocks_tree` are met. -/
example : ∃ t, RocksTree.open (.ok AMap.empty) 17 = .ok t ∧
    AllowedSession (types.rocksConfig ToyCodec.codec (.reliable 2) 17) wildSession
      (runSession (RocksTree.api types ToyCodec.codec (.reliable 2)) wildSession [] t) [] :=
  C83_rocks_tree types ToyCodec.lawful 17 ⟨sane.1, sane.2, sane.3⟩ room (by decide) wildSession
    (by simp [wildSession, Cmd.Keeps]) (collisionFree_of_check (by decide +kernel))

/-- Not every answer is allowed: a pair that was inserted can be read. -/
example : ¬ AllowedSession cfg [.put none [key 1] [[1]], .readOne 0 (key 1)] [.version 0, .value none] [] := by
  rintro ⟨a, as, vs, h1, ⟨new, h2, -, h4⟩, b, bs, ws, h5, ⟨-, h6⟩, -⟩
  have hn : new = some (.map (Contents.empty.assign [key 1] [[1]])) :=
    (h2.2 ⟨rfl, by decide, by decide, fun v _ => ⟨v, rfl⟩⟩).1 (handled_empty _)
  subst hn h4
  cases h1
  cases h5
  simp only [List.nil_append, Option.toList_some, List.getElem?_cons_zero] at h6
  rw [assign_mem (keys := [key 1]) (values := [([1] : List UInt8)]) _ rfl (by decide) (List.mem_singleton.2 rfl)] at h6
  cases h6

end Toy
end MerkleBit
