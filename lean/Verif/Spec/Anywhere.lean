import Verif.Spec.Reference
/-!
# Specification vocabulary: the reference program under any root

The reference program (`Spec/Reference.lean`) is extended so that it answers reads under all bytes that can be given as a
root.  It goes through its lists: under the hash of the data of a pair it refuses to read; under the root of the sparse
Merkle tree of those pairs of a list whose keys begin with the same bits it reads these pairs; under all other bytes it finds
nothing.  Inserts may be on top of such parts of lists, too.
-/

namespace MerkleBit
variable {N : Nat} {σ τ V : Type}

/-- The pairs of a list whose keys begin with the same bits as some key of the list, for any number of bits. -/
def partsOf (pairs : List (Arr N × V)) : List (List (Arr N × V)) :=
  pairs.flatMap fun e => (List.range (8 * N + 1)).map fun d => pairs.filter fun e' => d ≤ firstDiff e.1 e'.1

/-- All parts of the lists, with their roots. -/
def Book.spread (H : Hasher N) (encode : V → Res (List UInt8)) (book : Book N V) : Book N V :=
  book.flatMap fun e => (partsOf e.2).filterMap fun q => (sparseRoot H (encoded encode q)).map fun r => (r, q)

/-- The bytes are the hash of the data of a pair. -/
def Book.dataAt (H : Hasher N) (encode : V → Res (List UInt8)) (book : Book N V) (r : Arr N) : Bool :=
  book.any fun e => (encoded encode e.2).any fun p => (HIn.data p.1 p.2).hash H = r

/-- An insert on top of a list or of a part of one. -/
def Book.insertOn (H : Hasher N) (encode : V → Res (List UInt8)) (book : Book N V) (prev : Option (Arr N))
    (keys : List (Arr N)) (values : List V) : Said N V × Book N V :=
  if inOrder encode keys values then
    match (book.spread H encode).base prev with
    | none => (.refused, book)
    | some pairs =>
      let new := putPairs pairs (keys.zip values)
      match sparseRoot H (encoded encode new) with
      | none => (.refused, book)
      | some r => (.root r, (r, new) :: book)
  else (.refused, book)

/-- The lists after a call. -/
def Ask.after (H : Hasher N) (encode : V → Res (List UInt8)) (book : Book N V) : Ask N V → Book N V
  | .insert prev keys values => (book.insertOn H encode prev keys values).2
  | .insertOne prev k v => (book.insertOn H encode prev [k] [v]).2
  | c => (c.answer H encode book).2

/-- The answer to a call. -/
def Ask.say (H : Hasher N) (encode : V → Res (List UInt8)) (book : Book N V) : Ask N V → Said N V
  | .insert prev keys values => (book.insertOn H encode prev keys values).1
  | .insertOne prev k v => (book.insertOn H encode prev [k] [v]).1
  | .get r keys => if book.dataAt H encode r && !keys.isEmpty then .refused
    else ((Ask.get r keys).answer H encode (book.spread H encode)).1
  | .getOne r k => if book.dataAt H encode r then .refused
    else ((Ask.getOne r k).answer H encode (book.spread H encode)).1
  | .prove r k => if book.dataAt H encode r then .refused
    else ((Ask.prove r k).answer H encode (book.spread H encode)).1
  | .verify r k v p => if book.dataAt H encode r then .refused
    else ((Ask.verify r k v p).answer H encode (book.spread H encode)).1
  | c => (c.answer H encode book).1

/-- The answers to all calls. -/
def sayAll (H : Hasher N) (encode : V → Res (List UInt8)) : List (Ask N V) → Book N V → List (Said N V)
  | [], _ => []
  | c :: cs, book => c.say H encode book :: sayAll H encode cs (c.after H encode book)

/-- At every call the heights of the versions are below the depth limit (`Spec/Reference.lean`). -/
def ShallowSays (H : Hasher N) (encode : V → Res (List UInt8)) (depth : Nat) : List (Ask N V) → Book N V → Prop
  | [], _ => True
  | c :: cs, book => book.Shallow depth ∧ ShallowSays H encode depth cs (c.after H encode book)

/-- No list has a pair of the batch. -/
def Book.New (book : Book N V) (keys : List (Arr N)) (values : List V) : Prop :=
  ∀ e ∈ book, ∀ p ∈ keys.zip values, mapOf e.2 p.1 ≠ some p.2

/-- Calls that are answered in this way.  Reads may be given any bytes as the root; `get` has keys that are clear for what is
read under it (`Spec/History.lean`).  Inserts are on top of lists in the book or of parts of them, their keys are clear, none of their
pairs is in the book, and they are only refused for the numbers of their arguments.  Removed are roots that are in the book,
and calls do not die.  Proofs are verified against roots under which there is something, or that are strange. -/
def Ask.Neat (H : Hasher N) (encode : V → Res (List UInt8)) (seen : List (HIn N)) (book : Book N V) : Ask N V → Prop
  | .insert prev keys values => keys.length = values.length → keys ≠ [] → inOrder encode keys values ∧
      ∃ pairs, (book.spread H encode).base prev = some pairs ∧ Clear (mapOf pairs) keys ∧ book.New keys values
  | .insertOne prev k v => inOrder encode [k] [v] ∧ ∃ pairs, (book.spread H encode).base prev = some pairs ∧ book.New [k] [v]
  | .get r keys => ∀ pairs, (book.spread H encode).pairs r = some pairs → Clear (mapOf pairs) keys
  | .getOne _ _ => True
  | .prove _ _ => True
  | .verify r _ _ _ => book.dataAt H encode r ∨ (book.spread H encode).Root H seen r
  | .reopen => True
  | .remove r => ∃ pairs, book.pairs r = some pairs
  | .dies _ _ _ _ => False
  | .removeDies _ _ => False

/-- All calls are so; `seen` is what was hashed before. -/
def NeatAsks (cfg : Config N σ V) (ρ : σ → σ) : List (Ask N V) → List (HIn N) → Book N V → σ → Prop
  | [], _, _, _ => True
  | c :: cs, seen, book, s => c.Neat cfg.hasher cfg.encode (c.hashed cfg s ++ seen) book ∧
      NeatAsks cfg ρ cs (c.hashed cfg s ++ seen) (c.after cfg.hasher cfg.encode book) (c.run (cfg.api ρ) s).2

/-! ## Where single pairs are inserted again

Then more is stored than the versions need (C87).  The reference program keeps a list of the pairs whose leaves are left over,
and one of the pairs whose data is left over. -/

/-- The pairs whose leaves and whose data are left over. -/
structure Rest (N : Nat) (V : Type) where
  leaves : List (Arr N × V)
  data : List (Arr N × V)

/-- The pair is in the list, with the same encoded value. -/
def pairIn (encode : V → Res (List UInt8)) (pairs : List (Arr N × V)) (p : Arr N × V) : Bool :=
  (encoded encode [p]).any fun q => q ∈ encoded encode pairs

/-- What is left over after a batch on top of the list `base`.  Of every pair that is in some list, or whose leaf is left
over, data is left over; of every pair that `base` has, the leaf, if writes show at once. -/
def Rest.batch (encode : V → Res (List UInt8)) (shows : Bool) (book : Book N V) (rest : Rest N V) (base : List (Arr N × V))
    (pairs : List (Arr N × V)) : Rest N V where
  leaves := (pairs.filter fun p => shows && pairIn encode base p) ++ rest.leaves
  data := (pairs.filter fun p => (book.any fun e => pairIn encode e.2 p) || pairIn encode rest.leaves p) ++ rest.data

/-- What is left over after a call. -/
def Rest.call (H : Hasher N) (encode : V → Res (List UInt8)) (shows : Bool) (book : Book N V) (rest : Rest N V) :
    Ask N V → Rest N V
  | .insert prev keys values => if inOrder encode keys values then
      match (book.spread H encode).base prev with
      | none => rest
      | some base => rest.batch encode shows book base (keys.zip values)
    else rest
  | .insertOne prev k v => match (book.spread H encode).base prev with
    | none => rest
    | some base => rest.batch encode shows book base [(k, v)]
  | _ => rest

/-- All parts of the lists and all pairs whose leaves are left over, with their roots. -/
def Book.spreadWith (H : Hasher N) (encode : V → Res (List UInt8)) (book : Book N V) (rest : Rest N V) : Book N V :=
  book.spread H encode ++
    rest.leaves.filterMap fun p => (sparseRoot H (encoded encode [p])).map fun r => (r, [p])

/-- The bytes are the hash of the data of a pair, in a list or left over. -/
def Book.dataWith (H : Hasher N) (encode : V → Res (List UInt8)) (book : Book N V) (rest : Rest N V) (r : Arr N) : Bool :=
  book.dataAt H encode r || (encoded encode rest.data).any fun p => (HIn.data p.1 p.2).hash H = r

/-- The answer to a call. -/
def Ask.sayWith (H : Hasher N) (encode : V → Res (List UInt8)) (book : Book N V) (rest : Rest N V) : Ask N V → Said N V
  | .insert prev keys values => (book.insertOn H encode prev keys values).1
  | .insertOne prev k v => (book.insertOn H encode prev [k] [v]).1
  | .get r keys => if book.dataWith H encode rest r && !keys.isEmpty then .refused
    else ((Ask.get r keys).answer H encode (book.spreadWith H encode rest)).1
  | .getOne r k => if book.dataWith H encode rest r then .refused
    else ((Ask.getOne r k).answer H encode (book.spreadWith H encode rest)).1
  | .prove r k => if book.dataWith H encode rest r then .refused
    else ((Ask.prove r k).answer H encode (book.spreadWith H encode rest)).1
  | .verify r k v p => if book.dataWith H encode rest r then .refused
    else ((Ask.verify r k v p).answer H encode (book.spreadWith H encode rest)).1
  | c => (c.answer H encode book).1

/-- The answers to all calls, where writes show at once (`shows`) or are queued. -/
def sayAllWith (H : Hasher N) (encode : V → Res (List UInt8)) (shows : Bool) :
    List (Ask N V) → Book N V → Rest N V → List (Said N V)
  | [], _, _ => []
  | c :: cs, book, rest => c.sayWith H encode book rest ::
      sayAllWith H encode shows cs (c.after H encode book) (rest.call H encode shows book c)

/-- Calls that are answered in this way: as before, but batches may have pairs that lists have already, as long as they write
no group of two or more pairs of a list again (`Book.Fresh`). -/
def Ask.NeatWith (H : Hasher N) (encode : V → Res (List UInt8)) (seen : List (HIn N)) (book : Book N V) (rest : Rest N V) :
    Ask N V → Prop
  | .insert prev keys values => keys.length = values.length → keys ≠ [] → inOrder encode keys values ∧
      ∃ pairs, (book.spread H encode).base prev = some pairs ∧ Clear (mapOf pairs) keys ∧ book.Fresh pairs keys values
  | .insertOne prev k v => inOrder encode [k] [v] ∧
      ∃ pairs, (book.spread H encode).base prev = some pairs ∧ book.Fresh pairs [k] [v]
  | .get r keys => ∀ pairs, (book.spreadWith H encode rest).pairs r = some pairs → Clear (mapOf pairs) keys
  | .getOne _ _ => True
  | .prove _ _ => True
  | .verify r _ _ _ => book.dataWith H encode rest r ∨ (book.spreadWith H encode rest).Root H seen r
  | .reopen => True
  | .remove r => ∃ pairs, book.pairs r = some pairs
  | .dies _ _ _ _ => False
  | .removeDies _ _ => False

/-- All calls are so; `seen` is what was hashed before. -/
def NeatAsksWith (cfg : Config N σ V) (ρ : σ → σ) (shows : Bool) :
    List (Ask N V) → List (HIn N) → Book N V → Rest N V → σ → Prop
  | [], _, _, _, _ => True
  | c :: cs, seen, book, rest, s => c.NeatWith cfg.hasher cfg.encode (c.hashed cfg s ++ seen) book rest ∧
      NeatAsksWith cfg ρ shows cs (c.hashed cfg s ++ seen) (c.after cfg.hasher cfg.encode book)
        (rest.call cfg.hasher cfg.encode shows book c) (c.run (cfg.api ρ) s).2

end MerkleBit
