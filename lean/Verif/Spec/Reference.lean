import Verif.Spec.Session
import Verif.Spec.Sparse
import Verif.Spec.Live
/-!
# Specification vocabulary: a reference program

A program that keeps a list of pairs for every root it has given out, and answers calls from these lists: what it gives out
are roots and paths of sparse Merkle trees.  Calls and answers are taken down byte for byte.
-/

namespace MerkleBit
variable {N : Nat} {σ τ V : Type}

/-! ## Calls and answers -/

/-- A call, with all its arguments.
* `prove`: `generate_inclusion_proof`.
* `verify`: `verify_inclusion_proof`.
* `reopen`: the database is closed and opened again.
* `dies`: `insert`, but the process dies after `n` writes, and the database is opened again. (Left out if the call makes
  fewer writes.)
* `removeDies`: `remove`, but the process dies after `n` writes or after the call, and the database is opened again. -/
inductive Ask (N : Nat) (V : Type) where
  | insert (prev : Option (Arr N)) (keys : List (Arr N)) (values : List V)
  | insertOne (prev : Option (Arr N)) (key : Arr N) (value : V)
  | get (root : Arr N) (keys : List (Arr N))
  | getOne (root : Arr N) (key : Arr N)
  | prove (root : Arr N) (key : Arr N)
  | verify (root : Arr N) (key : Arr N) (value : V) (proof : List (Arr N × Bool))
  | reopen
  | dies (n : Nat) (prev : Option (Arr N)) (keys : List (Arr N)) (values : List V)
  | remove (root : Arr N)
  | removeDies (n : Nat) (root : Arr N)

/-- An answer: what the call returns (for `get`, the entry of every key of the request), an error, or nothing. -/
inductive Said (N : Nat) (V : Type) where
  | root (r : Arr N)
  | value (v : Option V)
  | values (vs : List (Option (Option V)))
  | proof (p : List (Arr N × Bool))
  | accepted
  | removed
  | refused
  | nothing
deriving DecidableEq

/-! ## The reference program -/

/-- The value of a key in a list of pairs. -/
def mapOf (pairs : List (Arr N × V)) : Contents N V := fun k => (pairs.find? fun e => e.1 = k).map Prod.snd

/-- The pairs with encoded values. -/
def encoded (encode : V → Res (List UInt8)) (pairs : List (Arr N × V)) : List (Arr N × List UInt8) :=
  pairs.filterMap fun e => (encode e.2).toOption.map fun b => (e.1, b)

/-- The lists of the roots given out. -/
abbrev Book (N : Nat) (V : Type) := List (Arr N × List (Arr N × V))

/-- The list of a root. -/
def Book.pairs (book : Book N V) (r : Arr N) : Option (List (Arr N × V)) :=
  (book.find? fun e => e.1 = r).map Prod.snd

/-- The list an insert starts from. -/
def Book.base (book : Book N V) : Option (Arr N) → Option (List (Arr N × V))
  | none => some []
  | some r => book.pairs r

/-- A removal strikes out the root, once. -/
def Book.strike (book : Book N V) (r : Arr N) : Book N V := book.eraseP fun e => e.1 = r

/-- Arguments of an insert that are in order. -/
def inOrder (encode : V → Res (List UInt8)) (keys : List (Arr N)) (values : List V) : Bool :=
  keys.length = values.length && !keys.isEmpty && keys.Nodup && values.all fun v => (encode v).toOption.isSome

/-- An insert puts the pairs of the batch in and gives out the new root. -/
def Book.insert (H : Hasher N) (encode : V → Res (List UInt8)) (book : Book N V) (prev : Option (Arr N))
    (keys : List (Arr N)) (values : List V) : Said N V × Book N V :=
  if inOrder encode keys values then
    match book.base prev with
    | none => (.refused, book)
    | some pairs =>
      let new := putPairs pairs (keys.zip values)
      match sparseRoot H (encoded encode new) with
      | none => (.refused, book)
      | some r => (.root r, (r, new) :: book)
  else (.refused, book)

/-- The proof of a pair: the hash of its data, that of its leaf, and the hashes beside the way to its key. -/
def sparseProof (H : Hasher N) (pairs : List (Arr N × List UInt8)) (k : Arr N) (b : List UInt8) : List (Arr N × Bool) :=
  ((HIn.data k b).hash H, false) :: (pairHash H k b, false) :: sparsePath H k (8 * N) pairs

/-- The answer to a call, and the lists after it.  Under roots that were not given out there is nothing. -/
def Ask.answer (H : Hasher N) (encode : V → Res (List UInt8)) (book : Book N V) : Ask N V → Said N V × Book N V
  | .insert prev keys values => book.insert H encode prev keys values
  | .insertOne prev k v => book.insert H encode prev [k] [v]
  | .get r keys => match book.pairs r with
    | none => (.values (keys.map fun _ => some none), book)
    | some pairs => (.values (keys.map fun k => some (mapOf pairs k)), book)
  | .getOne r k => match book.pairs r with
    | none => (.value none, book)
    | some pairs => (.value (mapOf pairs k), book)
  | .prove r k => match book.pairs r with
    | none => (.refused, book)
    | some pairs => match mapOf (encoded encode pairs) k with
      | none => (.refused, book)
      | some b => (.proof (sparseProof H (encoded encode pairs) k b), book)
  | .verify r k v p => match book.pairs r with
    | none => (.refused, book)
    | some pairs => match encode v with
      | .error _ => (.refused, book)
      | .ok b =>
        -- the sides in the first two entries are not looked at
        if mapOf (encoded encode pairs) k = some b ∧
            p.map Prod.fst = (sparseProof H (encoded encode pairs) k b).map Prod.fst ∧
            p.drop 2 = (sparseProof H (encoded encode pairs) k b).drop 2 then (.accepted, book)
        else (.refused, book)
  | .reopen => (.nothing, book)
  | .dies _ _ _ _ => (.nothing, book)
  | .remove r => (.removed, book.strike r)
  | .removeDies _ r => (.nothing, book.strike r)

/-- The answers to all calls. -/
def answers (H : Hasher N) (encode : V → Res (List UInt8)) : List (Ask N V) → Book N V → List (Said N V)
  | [], _ => []
  | c :: cs, book => (c.answer H encode book).1 :: answers H encode cs (c.answer H encode book).2

/-! ## The crate -/

/-- The answer to an insert. -/
def Said.ofInsert : Res (Arr N) → Said N V
  | .ok r => .root r
  | .error _ => .refused

/-- A call of the crate: the answer, and the tree after it. -/
def Ask.run (A : Api N V τ) (t : τ) : Ask N V → Said N V × τ
  | .insert prev keys values => (.ofInsert (A.insert t prev keys values).1, (A.insert t prev keys values).2)
  | .insertOne prev k v => (.ofInsert (A.insertOne t prev k v).1, (A.insertOne t prev k v).2)
  | .get r keys => match A.get t r keys with
    | .ok m => (.values (keys.map fun k => m.get? k), t)
    | .error _ => (.refused, t)
  | .getOne r k => match A.getOne t r k with
    | .ok o => (.value o, t)
    | .error _ => (.refused, t)
  | .prove r k => match A.generateInclusionProof t r k with
    | .ok p => (.proof p, t)
    | .error _ => (.refused, t)
  | .verify r k v p => match A.verifyInclusionProof r k v p with
    | .ok _ => (.accepted, t)
    | .error _ => (.refused, t)
  | .reopen => (.nothing, A.reopen t)
  | .dies n prev keys values => (.nothing, (A.insertDies n t prev keys values).getD t)
  | .remove r => match A.remove t r with
    | (.ok _, t') => (.removed, t')
    | (.error _, t') => (.refused, t')
  | .removeDies n r => (.nothing, A.removeDies n t r)

/-- The answers of the crate to all calls. -/
def runAsks (A : Api N V τ) : List (Ask N V) → τ → List (Said N V)
  | [], _ => []
  | c :: cs, t => (c.run A t).1 :: runAsks A cs (c.run A t).2

/-- Everything that a call hashes. -/
def Ask.hashed (cfg : Config N σ V) (s : σ) : Ask N V → List (HIn N)
  | .insert prev keys values => hashedBy cfg prev keys values s
  | .insertOne prev k v => hashedBy cfg prev [k] [v] s
  | .verify _ k v p => match cfg.encode v with
    | .ok b => verifyInputs cfg.hasher k b p
    | .error _ => []
  | .dies n prev keys values => hashedBy cfg.crash prev keys values (s, n)
  | _ => []

/-- Everything that the calls hash. -/
def hashedByAsks (cfg : Config N σ V) (ρ : σ → σ) : List (Ask N V) → σ → List (HIn N)
  | [], _ => []
  | c :: cs, s => hashedByAsks cfg ρ cs (c.run (cfg.api ρ) s).2 ++ c.hashed cfg s

/-- Everything that the reference program hashes for the root it gives out. -/
def Ask.rootInputs (H : Hasher N) (encode : V → Res (List UInt8)) (book : Book N V) : Ask N V → List (HIn N)
  | .insert prev keys values => match book.base prev with
    | none => []
    | some pairs => sparseInputs H (8 * N) (encoded encode (putPairs pairs (keys.zip values)))
  | .insertOne prev k v => match book.base prev with
    | none => []
    | some pairs => sparseInputs H (8 * N) (encoded encode (putPairs pairs [(k, v)]))
  | _ => []

/-- And for all roots it gives out. -/
def rootInputsOfAsks (H : Hasher N) (encode : V → Res (List UInt8)) : List (Ask N V) → Book N V → List (HIn N)
  | [], _ => []
  | c :: cs, book => rootInputsOfAsks H encode cs (c.answer H encode book).2 ++ c.rootInputs H encode book

/-! ## Calls that are answered in this way -/

/-- The depth limit is above the heights of the trees of the lists (`Spec/History.lean`), for example above the number of
key bits. -/
def Book.Shallow (depth : Nat) (book : Book N V) : Prop := ∀ e ∈ book, HeightBelow (mapOf e.2) depth

/-- It is so at every call. -/
def ShallowAsks (H : Hasher N) (encode : V → Res (List UInt8)) (depth : Nat) : List (Ask N V) → Book N V → Prop
  | [], _ => True
  | c :: cs, book => book.Shallow depth ∧ ShallowAsks H encode depth cs (c.answer H encode book).2

/-- Roots were given out before, except where the call is refused for its other arguments or dies, and inserts on
top of a version and `get` have keys that are clear for the version (`Spec/History.lean`), for example at most one that
the version does not have.  Nothing is removed. -/
def Ask.Fair (encode : V → Res (List UInt8)) (book : Book N V) : Ask N V → Prop
  | .insert prev keys values => inOrder encode keys values →
      ∃ pairs, book.base prev = some pairs ∧ Clear (mapOf pairs) keys
  | .insertOne prev k v => inOrder encode [k] [v] → ∃ pairs, book.base prev = some pairs
  | .get r keys => ∃ pairs, book.pairs r = some pairs ∧ Clear (mapOf pairs) keys
  | .getOne r _ => ∃ pairs, book.pairs r = some pairs
  | .prove r _ => ∃ pairs, book.pairs r = some pairs
  | .verify r _ _ _ => ∃ pairs, book.pairs r = some pairs
  | .reopen => True
  | .dies _ _ _ _ => True
  | .remove _ => False
  | .removeDies _ _ => False

/-- All calls are so. -/
def FairAsks (H : Hasher N) (encode : V → Res (List UInt8)) : List (Ask N V) → Book N V → Prop
  | [], _ => True
  | c :: cs, book => c.Fair encode book ∧ FairAsks H encode cs (c.answer H encode book).2

/-- A root from elsewhere: it is not the hash of anything that was hashed. -/
def Strange (H : Hasher N) (seen : List (HIn N)) (r : Arr N) : Prop := ∀ i ∈ seen, i.hash H ≠ r

/-- A root that was given out before, or a strange one. -/
def Book.Root (H : Hasher N) (seen : List (HIn N)) (book : Book N V) (r : Arr N) : Prop :=
  book.pairs r = none → Strange H seen r

/-- Roots were given out before or are strange, except where the call is refused for its other arguments or dies.  Nothing
is removed. -/
def Ask.Known (H : Hasher N) (encode : V → Res (List UInt8)) (seen : List (HIn N)) (book : Book N V) : Ask N V → Prop
  | .insert prev keys values => inOrder encode keys values → ∀ r ∈ prev, book.Root H seen r
  | .insertOne prev k v => inOrder encode [k] [v] → ∀ r ∈ prev, book.Root H seen r
  | .get r _ => book.Root H seen r
  | .getOne r _ => book.Root H seen r
  | .prove r _ => book.Root H seen r
  | .verify r _ _ _ => book.Root H seen r
  | .reopen => True
  | .dies _ _ _ _ => True
  | .remove _ => False
  | .removeDies _ _ => False

/-- All calls are so; `seen` is what was hashed before. -/
def KnownAsks (cfg : Config N σ V) (ρ : σ → σ) : List (Ask N V) → List (HIn N) → Book N V → σ → Prop
  | [], _, _, _ => True
  | c :: cs, seen, book, s => c.Known cfg.hasher cfg.encode (c.hashed cfg s ++ seen) book ∧
      KnownAsks cfg ρ cs (c.hashed cfg s ++ seen) (c.answer cfg.hasher cfg.encode book).2 (c.run (cfg.api ρ) s).2

/-- The keys of an insert on top of a version, those of `get` as far as the version has them, open every place where they
belong (`Handled`, `Finds`, `Spec/History.lean`). -/
def Ask.Opens (cfg : Config N σ V) (book : Book N V) : Ask N V → Prop
  | .insert prev keys values => inOrder cfg.encode keys values →
      ∀ pairs, book.base prev = some pairs → Handled cfg (mapOf pairs) keys
  | .get r keys => ∀ pairs, book.pairs r = some pairs →
      ∀ k ∈ keys, mapOf pairs k = none ∨ Finds cfg (mapOf pairs) keys k
  | _ => True

/-- The keys of all calls do so. -/
def OpensAsks (cfg : Config N σ V) : List (Ask N V) → Book N V → Prop
  | [], _ => True
  | c :: cs, book => c.Opens cfg book ∧ OpensAsks cfg cs (c.answer cfg.hasher cfg.encode book).2

/-- A batch on top of the list `pairs` that writes no group of at least two pairs again that a list of the book has
(`Rewrites`, `Spec/Live.lean`), for example one none of whose pairs is in a list of the book. -/
def Book.Fresh (book : Book N V) (pairs : List (Arr N × V)) (keys : List (Arr N)) (values : List V) : Prop :=
  ∀ e ∈ book, ¬ Rewrites (mapOf e.2) ((mapOf pairs).assign keys values) keys

/-- With removals: roots were given out before and not removed, or are strange; removed are those in the book; keys are
clear; and no insert writes a group of pairs again that a live version has. -/
def Ask.Tidy (H : Hasher N) (encode : V → Res (List UInt8)) (seen : List (HIn N)) (book : Book N V) : Ask N V → Prop
  | .insert prev keys values => inOrder encode keys values → (∀ r ∈ prev, book.Root H seen r) ∧
      ∀ pairs, book.base prev = some pairs → Clear (mapOf pairs) keys ∧ book.Fresh pairs keys values
  | .insertOne prev k v => inOrder encode [k] [v] → (∀ r ∈ prev, book.Root H seen r) ∧
      ∀ pairs, book.base prev = some pairs → book.Fresh pairs [k] [v]
  | .dies _ prev keys values => keys.Nodup ∧
      ∃ pairs, book.base prev = some pairs ∧ Clear (mapOf pairs) keys ∧ book.Fresh pairs keys values
  | .remove r => ∃ pairs, book.pairs r = some pairs
  | .removeDies _ r => ∃ pairs, book.pairs r = some pairs
  | .get r keys => book.Root H seen r ∧ ∀ pairs, book.pairs r = some pairs → Clear (mapOf pairs) keys
  | c => c.Known H encode seen book

/-- All calls are so; `seen` is what was hashed before. -/
def TidyAsks (cfg : Config N σ V) (ρ : σ → σ) : List (Ask N V) → List (HIn N) → Book N V → σ → Prop
  | [], _, _, _ => True
  | c :: cs, seen, book, s => c.Tidy cfg.hasher cfg.encode (c.hashed cfg s ++ seen) book ∧
      TidyAsks cfg ρ cs (c.hashed cfg s ++ seen) (c.answer cfg.hasher cfg.encode book).2 (c.run (cfg.api ρ) s).2

end MerkleBit
