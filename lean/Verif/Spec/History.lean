import Verif.Spec.Opened
import Verif.Spec.Trie
import Verif.Spec.Straddle
import Verif.Spec.Database
import Verif.Spec.Hashed
/-!
# Specification vocabulary: histories of calls

A version is what a returned root stands for: a partial map from keys to values.  `Inserts` is the
set of states a database can get into by calls of `insert` (successful or not, with any arguments),
restarts included, together with a ledger of the versions created on the way.
-/

namespace MerkleBit
variable {N : Nat} {σ V : Type}

/-- Contents of a version. -/
abbrev Contents (N : Nat) (V : Type) := Arr N → Option V

/-- The empty contents. -/
def Contents.empty : Contents N V := fun _ => none

/-- Contents updated by a batch (of distinct keys). -/
def Contents.assign (M : Contents N V) (keys : List (Arr N)) (values : List V) : Contents N V :=
  fun k => match (keys.zip values).find? (fun e => e.1 = k) with
    | some e => some e.2
    | none => M k

/-- `b` is the encoding of `o`, both or neither of which exist. -/
def Encodes (cfg : Config N σ V) : Option V → Option (List UInt8) → Prop
  | some v, b => ∃ bytes, cfg.encode v = .ok bytes ∧ b = some bytes
  | none, b => b = none

/-- A trie holds the encoded values of `M`. -/
def Represents (cfg : Config N σ V) (T : Trie N) (M : Contents N V) : Prop :=
  ∀ k, Encodes cfg (M k) (T.lookup k)

/-- `r` is the root of a version with contents `M` held by a view. -/
def IsVersion (cfg : Config N σ V) (v : View N) (r : Arr N) (M : Contents N V) : Prop :=
  ∃ T : Trie N, T.WF ∧ T.loc cfg.hasher = r ∧ Stored cfg.hasher v T ∧ Represents cfg T M

/-- `decode` undoes `encode`. -/
def RoundTrip (cfg : Config N σ V) : Prop := ∀ v b, cfg.encode v = .ok b → cfg.decode b = .ok v

/-- What is asked of a configuration: keys have at least one byte, `partition_point` is one (see
`PartitionPoint.Lawful`), and values decode to what was encoded.  The depth limit is arbitrary. -/
structure Sane (cfg : Config N σ V) : Prop where
  pos : 0 < N
  pp : cfg.pp.Lawful
  codec : RoundTrip cfg

/-- No path in the tree of `M` has `d` branches: the other keys branch off a key at fewer than `d`
different bits.  (With `d` the depth limit, the whole version is within reach of all calls.  This is so
whatever `M` is if `8 N < d`, and if `M` has at most `d` keys: `heightBelow_of_bits`,
`heightBelow_of_keys`.) -/
def HeightBelow (M : Contents N V) (d : Nat) : Prop :=
  ∀ k, M k ≠ none → ∀ ps : List Nat, ps.Nodup →
    (∀ p ∈ ps, ∃ k', M k' ≠ none ∧ k' ≠ k ∧ firstDiff k k' = p) → ps.length < d

/-- No branch of the compact trie of `M` is straddled by the batch (see `Spec/Straddle.lean`). -/
def NoStraddle (cfg : Config N σ V) (M : Contents N V) (keys : List (Arr N)) : Prop :=
  ∀ T : Trie N, T.WF → Represents cfg T M → StraddleFree (sortKeys keys) 0 T

/-- The keys of a call open every place of the compact trie of `M` where `k` belongs (see
`Spec/Opened.lean`). -/
def Finds (cfg : Config N σ V) (M : Contents N V) (keys : List (Arr N)) (k : Arr N) : Prop :=
  ∀ T : Trie N, T.WF → Represents cfg T M → Opened cfg.pp k T (sortKeys keys)

/-- They do so for each of themselves.  This is exactly what it takes for a batch to be inserted
properly, see `C02_insert_exact`, `C04_insert_exact`; batches that straddle no branch have it. -/
def Handled (cfg : Config N σ V) (M : Contents N V) (keys : List (Arr N)) : Prop :=
  ∀ k ∈ keys, Finds cfg M keys k

/-- Some key of the batch is the smallest key of a subtree of `M` that the batch leaves closed. -/
def Refused (cfg : Config N σ V) (M : Contents N V) (keys : List (Arr N)) : Prop :=
  ∃ T : Trie N, T.WF ∧ Represents cfg T M ∧ ∃ u ∈ closed cfg.pp T (sortKeys keys), u.key ∈ keys

/-- The key `k` is in a subtree of `M` that the batch leaves closed, and some key of the batch agrees with
the smallest key of that subtree for at least as many bits as `k` does. -/
def Lost (cfg : Config N σ V) (M : Contents N V) (keys : List (Arr N)) (k : Arr N) : Prop :=
  ∃ T : Trie N, T.WF ∧ Represents cfg T M ∧ ∃ u ∈ closed cfg.pp T (sortKeys keys), k ∈ u.keys ∧
    ∃ k' ∈ keys, firstDiff k u.key ≤ firstDiff k' u.key

/-- What a read gives: `r`, or else a failure because of a depth limit that is not above `16 N`.  (A tree
left by a batch that is not handled may be twice as deep as keys are long.) -/
def DeepOr {α : Type} (N depth : Nat) (x : Res α) (r : α) : Prop :=
  x = .ok r ∨ depth ≤ 16 * N ∧ x = .error (.exception "Depth limit exceeded")

/-- No branch is straddled, without tries, and more than is needed: no two keys `a`, `c` of `M` and no two new keys
of the batch are such that one of the new keys leaves `a` in the byte of the last bit that `a` and `c`
share, and the other one leaves `a` in an earlier byte, but there at a later bit than that one. -/
def Clear (M : Contents N V) (keys : List (Arr N)) : Prop :=
  ∀ a c, M a ≠ none → M c ≠ none → a ≠ c → ∀ k1 ∈ keys, ∀ k2 ∈ keys, M k1 = none → M k2 = none →
    firstDiff k1 a < firstDiff k2 a → firstDiff k2 a < firstDiff a c →
    firstDiff k2 a / 8 = (firstDiff a c - 1) / 8 → firstDiff k1 a % 8 ≤ (firstDiff a c - 1) % 8

/-- At most one key of the batch is not a key of `M`. -/
def AtMostOneNew (M : Contents N V) (keys : List (Arr N)) : Prop :=
  ∀ k ∈ keys, ∀ k' ∈ keys, M k = none → M k' = none → k' = k

/-- Every key of the batch that is not a key of `M` shares its first byte with at most one key of `M`. -/
def Spread (M : Contents N V) (keys : List (Arr N)) : Prop :=
  ∀ k ∈ keys, M k = none → ∀ a c, M a ≠ none → M c ≠ none → 8 ≤ firstDiff k a → 8 ≤ firstDiff k c → a = c

/-- Roots handed out so far, with the contents they stand for. -/
abbrev Ledger (N : Nat) (V : Type) := List (Arr N × Contents N V)

/-- A previous-root argument that stands for `M`. -/
def Ledger.Prev (L : Ledger N V) : Option (Arr N) → Contents N V → Prop
  | none, M => M = Contents.empty
  | some r, M => (r, M) ∈ L

/-- The root a call returned, if any. -/
def returned : Res (Arr N) → List (Arr N)
  | .ok r => [r]
  | .error _ => []

/-- The inputs in a list, as a set. -/
abbrev Among (H : List (HIn N)) : HIn N → Prop := fun i => i ∈ H

/-- A database that dies after `n` writes: the `n + 1`st `insert`, `remove` or `batch_write` does not
happen.  A `batch_write` is all or nothing (RocksDB's `WriteBatch`). -/
def crashDb (db : Database N σ) : Database N (σ × Nat) where
  getNode s x := db.getNode s.1 x
  insert x n s := match s.2 with
    | 0 => (.error (.exception "crash"), s)
    | m + 1 => ((db.insert x n s.1).1, ((db.insert x n s.1).2, m))
  remove x s := match s.2 with
    | 0 => (.error (.exception "crash"), s)
    | m + 1 => ((db.remove x s.1).1, ((db.remove x s.1).2, m))
  batchWrite s := match s.2 with
    | 0 => (.error (.exception "crash"), s)
    | m + 1 => ((db.batchWrite s.1).1, ((db.batchWrite s.1).2, m))

/-- The tree on a database that may die. -/
abbrev Config.crash (cfg : Config N σ V) : Config N (σ × Nat) V := cfg.withDb (crashDb cfg.db)

/-- The tree with another depth limit on the same database: `decompose` and `from_db` with another
limit, or opening the database again with another limit (src/merkle_bit.rs:60-73, 908-910). -/
abbrev Config.withDepth (cfg : Config N σ V) (d : Nat) : Config N σ V := { cfg with depth := d }

/-- States reachable by inserts.  `H` is everything that was hashed, `R` all roots that were ever
returned, and `L` is the ledger: the roots whose contents are accounted for.
* `start`: an empty database.
* `anyAt`: any `insert` call whatsoever, whatever its arguments and outcome.
* `goodAt`: a successful `insert` on top of a version of the ledger (or of nothing), whose batch opens
  every place where one of its keys belongs (`Handled`); the returned root enters the ledger.
* `crashAt`: a call of `insert`, with whatever arguments, during which the process dies after some number
  of writes.
* `reopen`: the queued writes may get lost.
Every call may have its own depth limit `d`, as if the database had been taken out of one tree
(`decompose`) and put into another (`from_db`). -/
inductive Inserts (cfg : Config N σ V) (C : DbContract cfg.db) :
    List (HIn N) → List (Arr N) → Ledger N V → σ → Prop
  | start {s : σ} : C.view s = View.empty N → C.pending s = View.empty N → Inserts cfg C [] [] [] s
  | anyAt {d : Nat} {H : List (HIn N)} {R : List (Arr N)} {L : Ledger N V} {s s' : σ}
      {prev : Option (Arr N)} {keys : List (Arr N)} {values : List V} {res : Res (Arr N)} :
      Inserts cfg C H R L s → insert (cfg.withDepth d) prev keys values s = (res, s') →
      Inserts cfg C (hashedBy (cfg.withDepth d) prev keys values s ++ H) (returned res ++ R) L s'
  | goodAt {d : Nat} {H : List (HIn N)} {R : List (Arr N)} {L : Ledger N V} {s s' : σ}
      {prev : Option (Arr N)} {M : Contents N V} {keys : List (Arr N)} {values : List V}
      {r : Arr N} :
      Inserts cfg C H R L s → L.Prev prev M → Handled cfg M keys →
      insert (cfg.withDepth d) prev keys values s = (.ok r, s') →
      Inserts cfg C (hashedBy (cfg.withDepth d) prev keys values s ++ H) (r :: R)
        ((r, M.assign keys values) :: L) s'
  | crashAt {d : Nat} {H : List (HIn N)} {R : List (Arr N)} {L : Ledger N V} {s s' : σ} {n n' : Nat}
      {prev : Option (Arr N)} {keys : List (Arr N)} {values : List V} {e : Err} :
      Inserts cfg C H R L s → insert (cfg.withDepth d).crash prev keys values (s, n) = (.error e, (s', n')) →
      Inserts cfg C (hashedBy (cfg.withDepth d).crash prev keys values (s, n) ++ H) R L s'
  | reopen {H : List (HIn N)} {R : List (Arr N)} {L : Ledger N V} {s s' : σ} :
      Inserts cfg C H R L s → C.view s' = C.view s → C.pending s' = View.empty N →
      Inserts cfg C H R L s'

/-- Inserting pairs one at a time, each on top of the root before; the last root. -/
def insertEach (cfg : Config N σ V) : Option (Arr N) → List (Arr N × V) → M σ (Option (Arr N))
  | prev, [] => pure prev
  | prev, (k, v) :: rest => do
    let r ← insertOne cfg prev k v
    insertEach cfg (some r) rest

/-- The hash inputs of `insertEach`. -/
def hashedByEach (cfg : Config N σ V) : Option (Arr N) → List (Arr N × V) → σ → List (HIn N)
  | _, [], _ => []
  | prev, (k, v) :: rest, s =>
    match insertOne cfg prev k v s with
    | (.ok r, s') => hashedByEach cfg (some r) rest s' ++ hashedBy cfg prev [k] [v] s
    | (.error _, _) => hashedBy cfg prev [k] [v] s

/-- A call with the limit of `cfg`. -/
theorem Inserts.any {cfg : Config N σ V} {C : DbContract cfg.db}
    {H : List (HIn N)} {R : List (Arr N)} {L : Ledger N V} {s s' : σ}
      {prev : Option (Arr N)} {keys : List (Arr N)} {values : List V} {res : Res (Arr N)} :
      Inserts cfg C H R L s → insert cfg prev keys values s = (res, s') →
      Inserts cfg C (hashedBy cfg prev keys values s ++ H) (returned res ++ R) L s' :=
  Inserts.anyAt (d := cfg.depth)

/-- A call with the limit of `cfg`. -/
theorem Inserts.good {cfg : Config N σ V} {C : DbContract cfg.db}
    {H : List (HIn N)} {R : List (Arr N)} {L : Ledger N V} {s s' : σ}
      {prev : Option (Arr N)} {M : Contents N V} {keys : List (Arr N)} {values : List V}
      {r : Arr N} :
      Inserts cfg C H R L s → L.Prev prev M → Handled cfg M keys →
      insert cfg prev keys values s = (.ok r, s') →
      Inserts cfg C (hashedBy cfg prev keys values s ++ H) (r :: R)
        ((r, M.assign keys values) :: L) s' :=
  Inserts.goodAt (d := cfg.depth)

/-- A call with the limit of `cfg`. -/
theorem Inserts.crash {cfg : Config N σ V} {C : DbContract cfg.db}
    {H : List (HIn N)} {R : List (Arr N)} {L : Ledger N V} {s s' : σ} {n n' : Nat}
      {prev : Option (Arr N)} {keys : List (Arr N)} {values : List V} {e : Err} :
      Inserts cfg C H R L s → insert cfg.crash prev keys values (s, n) = (.error e, (s', n')) →
      Inserts cfg C (hashedBy cfg.crash prev keys values (s, n) ++ H) R L s' :=
  Inserts.crashAt (d := cfg.depth)

end MerkleBit
