import Verif.Model.Trees
import Verif.Proof.Flush
import Verif.Proof.Simulation
import Verif.Props.Backends
/-!
# C66: a write that returned `Ok` survives closing the database
-/

namespace MerkleBit
variable {N : Nat} {σ V : Type} {cfg : Config N σ V}

/-! ## C66 -/

theorem write_endsIn {F : σ → Prop}
    (hF : ∀ s a, (cfg.db.batchWrite s).1 = .ok a → F (cfg.db.batchWrite s).2) {q : Request N V}
    (hq : q.IsWrite) {s : σ} (h : ¬ (q.run cfg s).1.IsError) : F (q.run cfg s).2 := by
  cases q with
  | get => exact hq.elim
  | getOne => exact hq.elim
  | proof => exact hq.elim
  | insert prev ks vs =>
    cases hr : (insert cfg prev ks vs s).1 with
    | error e => exact absurd ⟨e, hr⟩ h
    | ok a => exact insert_endsIn hF prev ks vs s a hr
  | insertOne prev k v =>
    cases hr : (insertOne cfg prev k v s).1 with
    | error e => exact absurd ⟨e, hr⟩ h
    | ok a => exact insertOne_endsIn hF prev k v s a hr
  | remove r =>
    cases hr : (remove cfg r s).1 with
    | error e => exact absurd ⟨e, hr⟩ h
    | ok a => exact remove_endsIn hF r s a hr

/-- C66: when `insert`, `insert_one` or `remove` returns `Ok`, nothing is queued any more, on every
database that meets the contract and in every state: everything that was written is what `get_node`
reads. -/
theorem C66_nothing_queued (C : DbContract cfg.db) {q : Request N V} (hq : q.IsWrite) {s : σ}
    (h : ¬ (q.run cfg s).1.IsError) : C.pending (q.run cfg s).2 = View.empty N := by
  refine write_endsIn (F := fun s => C.pending s = View.empty N) ?_ hq h
  intro s a ha
  exact (C.batchWrite_ok (s' := (cfg.db.batchWrite s).2) (by rw [← ha])).2.2

/-- States of RocksDB that cannot be told apart while no call of RocksDB fails: the disk is the same,
and so is the queue. -/
def Alike (s t : RocksDB N) : Prop := s.db = t.db ∧ s.pending.getD [] = t.pending.getD []

theorem alike_matches (codec : NodeCodec N) :
    Matches Alike (rocksDatabase codec (.reliable N)) (rocksDatabase codec (.reliable N)) where
  get h x := by simp [rocksDatabase, RocksEnv.reliable, h.1]
  insert {s t} h x n := by
    obtain ⟨h1, h2⟩ := h
    simp only [rocksDatabase]
    split
    · exact ⟨rfl, h1, h2⟩
    · rcases s with ⟨sd, _ | sp, sc⟩ <;> rcases t with ⟨td, _ | tp, tc⟩ <;>
        simp [Alike] at h1 h2 ⊢ <;> simp_all
  remove h x := by
    simp only [rocksDatabase, RocksEnv.reliable]
    exact ⟨rfl, congrArg (AMap.erase · x) h.1, h.2⟩
  flush {s t} h := by
    obtain ⟨h1, h2⟩ := h
    simp only [rocksDatabase, RocksEnv.reliable]
    rcases s with ⟨sd, _ | sp, sc⟩ <;> rcases t with ⟨td, _ | tp, tc⟩ <;>
      simp [Alike, applyBatch] at h1 h2 ⊢ <;> simp_all

/-- C66, for RocksDB while none of its calls fails: a write returned `Ok`, the tree is dropped and its
database opened again.  Then whatever is called next, every answer and what is on disk afterwards are as
if the database had stayed open. -/
theorem C66_reopening_changes_nothing (ty : TreeTypes N V) (codec : NodeCodec N) (depth : Nat)
    {q : Request N V} (hq : q.IsWrite) {s s' : RocksDB N} {a : Answer N V}
    (hrun : q.run (ty.rocksConfig codec (.reliable N) depth) s = (a, s')) (ha : ¬ a.IsError)
    (qs : List (Request N V)) :
    (runRequests (ty.rocksConfig codec (.reliable N) depth) qs (RocksDB.new s'.decompose)).1 =
      (runRequests (ty.rocksConfig codec (.reliable N) depth) qs s').1 ∧
    (runRequests (ty.rocksConfig codec (.reliable N) depth) qs
        (RocksDB.new s'.decompose)).2.decompose =
      (runRequests (ty.rocksConfig codec (.reliable N) depth) qs s').2.decompose := by
  have hp : s'.pending = none := by
    have := write_endsIn (cfg := ty.rocksConfig codec (.reliable N) depth)
      (F := fun s => s.pending = none) ?_ hq (s := s) (by rw [hrun]; exact ha)
    · rw [hrun] at this
      exact this
    · intro s a _
      simp only [TreeTypes.rocksConfig, rocksDatabase, RocksEnv.reliable]
      rcases s with ⟨sd, _ | sp, sc⟩ <;> simp
  have hal : Alike s' (RocksDB.new s'.decompose) := ⟨rfl, by rw [hp]; rfl⟩
  obtain ⟨h1, h2⟩ := (alike_matches codec).runRequests
    (cfg := ty.rocksConfig codec (.reliable N) depth) qs hal
  exact ⟨h1, h2.1.symm⟩

namespace Toy

/-- The types of the concrete instance. -/
def types : TreeTypes 2 (List UInt8) := ⟨Toy.hasher, .ok, .ok, Toy.pp 2⟩

/-- `insert` of key 1 into an empty RocksDB. -/
def firstWrite : Request 2 (List UInt8) := .insert none [key 1] [[10]]

/-- A refused call: a repeated key. -/
def refused : Request 2 (List UInt8) := .insert none [key 7, key 7] [[1], [2]]

end Toy

/-- The hypotheses are met: a write that returns `Ok`; after reopening the key is read. -/
example : ∃ r, (Toy.firstWrite.run (Toy.types.rocksConfig ToyCodec.codec (.reliable 2) 17)
      (RocksDB.open 2)).1 = .root (.ok r) ∧
    getOne (Toy.types.rocksConfig ToyCodec.codec (.reliable 2) 17) (RocksDB.new
      (Toy.firstWrite.run (Toy.types.rocksConfig ToyCodec.codec (.reliable 2) 17)
        (RocksDB.open 2)).2.decompose) r (Toy.key 1) = .ok (some [10]) :=
  ⟨Toy.key 24929, congrArg Answer.root (by decide +kernel), by decide +kernel⟩

/-- The limit of C66: after a call that returned an error, reopening does change later answers.  The
nodes queued by the refused call are written by the next successful call, unless the database was
reopened in between. -/
theorem C66_after_an_error_differs : ∃ (s : RocksDB 2) (k : Arr 2) (x : Arr 2),
    (Toy.refused.run (Toy.types.rocksConfig ToyCodec.codec (.reliable 2) 17) (RocksDB.open 2)).2 = s ∧
    (Toy.refused.run (Toy.types.rocksConfig ToyCodec.codec (.reliable 2) 17)
      (RocksDB.open 2)).1 = .root (.error (.exception "Attempted to insert item with duplicate keys")) ∧
    getOne (Toy.types.rocksConfig ToyCodec.codec (.reliable 2) 17)
      (Toy.firstWrite.run (Toy.types.rocksConfig ToyCodec.codec (.reliable 2) 17) s).2 x k =
        .ok (some [2]) ∧
    getOne (Toy.types.rocksConfig ToyCodec.codec (.reliable 2) 17)
      (Toy.firstWrite.run (Toy.types.rocksConfig ToyCodec.codec (.reliable 2) 17)
        (RocksDB.new s.decompose)).2 x k = .ok none :=
  ⟨_, Toy.key 7, Toy.key 29637, rfl, congrArg Answer.root (by decide +kernel), by decide +kernel,
    by decide +kernel⟩

end MerkleBit
