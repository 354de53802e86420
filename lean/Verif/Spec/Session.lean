import Verif.Spec.History
import Verif.Spec.Inclusion
import Verif.Spec.Live
import Verif.Model.Trees
/-!
# Specification vocabulary: sessions

A session is a list of calls that refer to versions by number, in the order in which they were made.
`specSession` answers them with a list of maps, `runSession` with the calls of the crate.
-/

namespace MerkleBit
variable {N : Nat} {σ τ V : Type}

/-! ## Calls and answers -/

/-- A call of a session.
* `put`: `insert` of a batch on top of a version, or of nothing.
* `putOne`: `insert_one`.
* `read`: `get`.
* `readOne`: `get_one`.
* `prove`: `generate_inclusion_proof` for a key, then `verify_inclusion_proof` with a value.
* `same`: comparison of the roots of two versions.
* `remove`: `remove` of a version; the program forgets its root.
* `reopen`: the database is closed and opened again.
* `crash`: `insert`, but the process dies after `n` writes, and the database is opened again.  (Left out if
  the call makes fewer writes.)
* `crashRemove`: `remove`, but the process dies after `n` writes or after the call, and the database is opened
  again; the program does not use the version any more. -/
inductive Cmd (N : Nat) (V : Type) where
  | put (prev : Option Nat) (keys : List (Arr N)) (values : List V)
  | putOne (prev : Option Nat) (key : Arr N) (value : V)
  | read (i : Nat) (keys : List (Arr N))
  | readOne (i : Nat) (key : Arr N)
  | prove (i : Nat) (key : Arr N) (value : V)
  | same (i j : Nat)
  | remove (i : Nat)
  | reopen
  | crash (n : Nat) (prev : Option Nat) (keys : List (Arr N)) (values : List V)
  | crashRemove (n : Nat) (i : Nat)

/-- The answer to a call: the number of the new version, an error, what was asked for, that a removal is
done, or nothing (also if the version the call refers to was not made, or was removed). -/
inductive Reply (V : Type) where
  | version (i : Nat)
  | refused
  | value (v : Option V)
  | values (vs : List (Option (Option V)))
  | verdict (b : Bool)
  | done
  | nothing
deriving DecidableEq

/-- The version with the given number, unless it is removed or was never made. -/
def at? {α : Type} (vs : List (Option α)) (i : Nat) : Option α := vs[i]?.join

/-- What an insert starts from: the version with the given number, or `e` if none is given. -/
def base? {α : Type} (e : α) (vs : List (Option α)) : Option Nat → Option α
  | none => some e
  | some i => at? vs i

/-- Contents with one pair added or changed. -/
def Contents.set (M : Contents N V) (k : Arr N) (v : V) : Contents N V :=
  fun k' => if k' = k then some v else M k'

/-! ## Maps -/

open Classical in
/-- The answer to a call, and the versions after it. -/
noncomputable def Cmd.spec (encode : V → Res (List UInt8)) (Ms : List (Option (Contents N V))) :
    Cmd N V → Reply V × List (Option (Contents N V))
  | .put prev keys values => match base? Contents.empty Ms prev with
    | none => (.nothing, Ms)
    | some M =>
      if keys.length = values.length ∧ keys ≠ [] ∧ keys.Nodup ∧ ∀ v ∈ values, ∃ b, encode v = .ok b then
        (.version Ms.length, Ms ++ [some (M.assign keys values)])
      else (.refused, Ms)
  | .putOne prev k v => match base? Contents.empty Ms prev with
    | none => (.nothing, Ms)
    | some M =>
      if ∃ b, encode v = .ok b then (.version Ms.length, Ms ++ [some (M.set k v)]) else (.refused, Ms)
  | .read i keys => match at? Ms i with
    | none => (.nothing, Ms)
    | some M => (.values (keys.map fun k => some (M k)), Ms)
  | .readOne i k => match at? Ms i with
    | none => (.nothing, Ms)
    | some M => (.value (M k), Ms)
  | .prove i k v => match at? Ms i with
    | none => (.nothing, Ms)
    | some M => (.verdict (decide (M k = some v)), Ms)
  | .same i j => match at? Ms i, at? Ms j with
    | some M, some M' => (.verdict (decide (M = M')), Ms)
    | _, _ => (.nothing, Ms)
  | .remove i => match at? Ms i with
    | none => (.nothing, Ms)
    | some _ => (.done, Ms.set i none)
  | .reopen => (.nothing, Ms)
  | .crash _ _ _ _ => (.nothing, Ms)
  | .crashRemove _ i => (.nothing, Ms.set i none)

/-- The answers to all calls of a session. -/
noncomputable def specSession (encode : V → Res (List UInt8)) :
    List (Cmd N V) → List (Option (Contents N V)) → List (Reply V)
  | [], _ => []
  | c :: cs, Ms => (c.spec encode Ms).1 :: specSession encode cs (c.spec encode Ms).2

/-- The versions after all calls of a session. -/
noncomputable def specVersions (encode : V → Res (List UInt8)) :
    List (Cmd N V) → List (Option (Contents N V)) → List (Option (Contents N V))
  | [], Ms => Ms
  | c :: cs, Ms => specVersions encode cs (c.spec encode Ms).2

/-! ## The crate -/

/-- The methods of a tree, as a program uses them, and what can happen to its process.  `insertDies n` is the
tree after the process died in the course of an insert, after `n` writes (`none` if the insert makes fewer
writes); `removeDies n` after it died in the course of a removal, after `n` writes, or after the call. -/
structure Api (N : Nat) (V τ : Type) where
  get : τ → Arr N → List (Arr N) → Res (AMap (Arr N) (Option V))
  getOne : τ → Arr N → Arr N → Res (Option V)
  insert : τ → Option (Arr N) → List (Arr N) → List V → Res (Arr N) × τ
  insertOne : τ → Option (Arr N) → Arr N → V → Res (Arr N) × τ
  remove : τ → Arr N → Res Unit × τ
  generateInclusionProof : τ → Arr N → Arr N → Res (List (Arr N × Bool))
  verifyInclusionProof : Arr N → Arr N → V → List (Arr N × Bool) → Res Unit
  reopen : τ → τ
  insertDies : Nat → τ → Option (Arr N) → List (Arr N) → List V → Option τ
  removeDies : Nat → τ → Arr N → τ

/-- The methods of `MerkleBIT` on a database; `ρ` is what closing and opening does to it. -/
def Config.api (cfg : Config N σ V) (ρ : σ → σ) : Api N V σ where
  get := MerkleBit.get cfg
  getOne := MerkleBit.getOne cfg
  insert s prev keys values := MerkleBit.insert cfg prev keys values s
  insertOne s prev k v := MerkleBit.insertOne cfg prev k v s
  remove s r := MerkleBit.remove cfg r s
  generateInclusionProof := MerkleBit.generateInclusionProof cfg
  verifyInclusionProof := MerkleBit.verifyInclusionProof cfg.hasher cfg.encode
  reopen := ρ
  insertDies n s prev keys values := match MerkleBit.insert cfg.crash prev keys values (s, n) with
    | (.ok _, _) => none
    | (.error _, (s', _)) => some (ρ s')
  removeDies n s r := match MerkleBit.remove cfg.crash r (s, n) with
    | (.ok _, _) => ρ (MerkleBit.remove cfg r s).2
    | (.error _, (s', _)) => ρ s'

/-- The methods of `HashTree`.  Its database lives as long as the tree: nothing is lost when the process does
not get to the end of a call, and there is nothing to close. -/
def HashTree.api (ty : TreeTypes N V) : Api N V (HashTree N) where
  get := HashTree.get ty
  getOne := HashTree.getOne ty
  insert := HashTree.insert ty
  insertOne := HashTree.insertOne ty
  remove := HashTree.remove ty
  generateInclusionProof := HashTree.generateInclusionProof ty
  verifyInclusionProof := HashTree.verifyInclusionProof ty
  reopen t := t
  insertDies n t prev keys values :=
    ((ty.hashConfig t.decompose.2).api id).insertDies n t.decompose.1 prev keys values |>.map
      fun db => ⟨⟨db, t.decompose.2⟩⟩
  removeDies n t r := ⟨⟨((ty.hashConfig t.decompose.2).api id).removeDies n t.decompose.1 r, t.decompose.2⟩⟩

/-- `RocksTree::open` on what is on disk. -/
def RocksTree.openAt (db : AMap (Arr N) (List UInt8)) (depth : Nat) (old : RocksTree N) : RocksTree N :=
  match RocksTree.open (.ok db) depth with
  | .ok t => t
  | .error _ => old

/-- The methods of `RocksTree`, whose directory is closed and opened again. -/
def RocksTree.api (ty : TreeTypes N V) (codec : NodeCodec N) (env : RocksEnv N) : Api N V (RocksTree N) where
  get := RocksTree.get ty codec env
  getOne := RocksTree.getOne ty codec env
  insert := RocksTree.insert ty codec env
  insertOne := RocksTree.insertOne ty codec env
  remove := RocksTree.remove ty codec env
  generateInclusionProof := RocksTree.generateInclusionProof ty codec env
  verifyInclusionProof := RocksTree.verifyInclusionProof ty
  reopen t := t.openAt t.decompose.1.decompose t.decompose.2
  insertDies n t prev keys values :=
    ((ty.rocksConfig codec env t.decompose.2).api id).insertDies n t.decompose.1 prev keys values |>.map
      fun db => t.openAt db.decompose t.decompose.2
  removeDies n t r := t.openAt
    (((ty.rocksConfig codec env t.decompose.2).api id).removeDies n t.decompose.1 r).decompose t.decompose.2

/-- What `insert` or `insert_one` returned, as an answer, and the roots after it. -/
def Reply.ofInsert (rs : List (Option (Arr N))) : Res (Arr N) → Reply V × List (Option (Arr N))
  | .ok r => (.version rs.length, rs ++ [some r])
  | .error _ => (.refused, rs)

/-- The root argument with the given number. -/
def root? (rs : List (Option (Arr N))) (prev : Option Nat) : Option (Option (Arr N)) :=
  base? none (rs.map (Option.map some)) prev

/-- The answer of the crate to a call, the roots and the tree after it. -/
def Cmd.run (A : Api N V τ) (rs : List (Option (Arr N))) (t : τ) :
    Cmd N V → (Reply V × List (Option (Arr N))) × τ
  | .put prev keys values => match root? rs prev with
    | none => ((.nothing, rs), t)
    | some r => (Reply.ofInsert rs (A.insert t r keys values).1, (A.insert t r keys values).2)
  | .putOne prev k v => match root? rs prev with
    | none => ((.nothing, rs), t)
    | some r => (Reply.ofInsert rs (A.insertOne t r k v).1, (A.insertOne t r k v).2)
  | .read i keys => match at? rs i with
    | none => ((.nothing, rs), t)
    | some r => match A.get t r keys with
      | .ok m => ((.values (keys.map fun k => m.get? k), rs), t)
      | .error _ => ((.refused, rs), t)
  | .readOne i k => match at? rs i with
    | none => ((.nothing, rs), t)
    | some r => match A.getOne t r k with
      | .ok o => ((.value o, rs), t)
      | .error _ => ((.refused, rs), t)
  | .prove i k v => match at? rs i with
    | none => ((.nothing, rs), t)
    | some r => match A.generateInclusionProof t r k with
      | .ok p => match A.verifyInclusionProof r k v p with
        | .ok _ => ((.verdict true, rs), t)
        | .error _ => ((.verdict false, rs), t)
      | .error _ => ((.verdict false, rs), t)
  | .same i j => match at? rs i, at? rs j with
    | some r, some r' => ((.verdict (decide (r = r')), rs), t)
    | _, _ => ((.nothing, rs), t)
  | .remove i => match at? rs i with
    | none => ((.nothing, rs), t)
    | some r => match A.remove t r with
      | (.ok _, t') => ((.done, rs.set i none), t')
      | (.error _, t') => ((.refused, rs.set i none), t')
  | .reopen => ((.nothing, rs), A.reopen t)
  | .crash n prev keys values => match root? rs prev with
    | none => ((.nothing, rs), t)
    | some r => match A.insertDies n t r keys values with
      | none => ((.nothing, rs), t)
      | some t' => ((.nothing, rs), t')
  | .crashRemove n i => match at? rs i with
    | none => ((.nothing, rs), t)
    | some r => ((.nothing, rs.set i none), A.removeDies n t r)

/-- The answers of the crate to all calls of a session. -/
def runSession (A : Api N V τ) : List (Cmd N V) → List (Option (Arr N)) → τ → List (Reply V)
  | [], _, _ => []
  | c :: cs, rs, t => (c.run A rs t).1.1 :: runSession A cs (c.run A rs t).1.2 (c.run A rs t).2

/-- The tree after all calls of a session. -/
def treeAfter (A : Api N V τ) : List (Cmd N V) → List (Option (Arr N)) → τ → τ
  | [], _, t => t
  | c :: cs, rs, t => treeAfter A cs (c.run A rs t).1.2 (c.run A rs t).2

/-- Everything that a call hashes. -/
def Cmd.hashed (cfg : Config N σ V) (rs : List (Option (Arr N))) (s : σ) : Cmd N V → List (HIn N)
  | .put prev keys values => match root? rs prev with
    | none => []
    | some r => hashedBy cfg r keys values s
  | .putOne prev k v => match root? rs prev with
    | none => []
    | some r => hashedBy cfg r [k] [v] s
  | .prove i k v => match at? rs i with
    | none => []
    | some r => match generateInclusionProof cfg s r k, cfg.encode v with
      | .ok p, .ok b => verifyInputs cfg.hasher k b p
      | _, _ => []
  | .crash n prev keys values => match root? rs prev with
    | none => []
    | some r => hashedBy cfg.crash r keys values (s, n)
  | _ => []

/-- Everything that the calls of a session hash. -/
def hashedBySession (cfg : Config N σ V) (ρ : σ → σ) :
    List (Cmd N V) → List (Option (Arr N)) → σ → List (HIn N)
  | [], _, _ => []
  | c :: cs, rs, s =>
    hashedBySession cfg ρ cs (c.run (cfg.api ρ) rs s).1.2 (c.run (cfg.api ρ) rs s).2 ++ c.hashed cfg rs s

/-! ## Calls that are answered correctly -/

/-- Nothing is removed, and `insert` on top of a version and `get` get batches that are clear for the version
(`Spec/History.lean`), for example batches with at most one key that the version does not store. -/
def Cmd.Careful (Ms : List (Option (Contents N V))) : Cmd N V → Prop
  | .put prev keys _ => ∀ M, base? Contents.empty Ms prev = some M → Clear M keys
  | .read i keys => ∀ M, at? Ms i = some M → Clear M keys
  | .remove _ => False
  | .crashRemove _ _ => False
  | _ => True

/-- All calls of the session are careful. -/
def CarefulSession (encode : V → Res (List UInt8)) : List (Cmd N V) → List (Option (Contents N V)) → Prop
  | [], _ => True
  | c :: cs, Ms => c.Careful Ms ∧ CarefulSession encode cs (c.spec encode Ms).2

/-- The call is about one key at a time, or a batch on top of nothing. -/
def Cmd.OneAtATime : Cmd N V → Prop
  | .put prev keys _ => prev = none ∨ keys.length ≤ 1
  | .read _ keys => keys.length ≤ 1
  | _ => True

/-- The call does not remove. -/
def Cmd.Keeps : Cmd N V → Prop
  | .remove _ => False
  | .crashRemove _ _ => False
  | _ => True

/-! ## Sessions with removals -/

/-- An insert that keeps reference counts right: the keys are distinct and clear for the version, and no group of pairs of a live version is written again; if `strict`, not
even a single pair. -/
structure TidyInsert (strict : Prop) (Ms : List (Option (Contents N V))) (prev : Option Nat)
    (keys : List (Arr N)) (values : List V) : Prop where
  distinct : keys.Nodup
  clear : ∀ M, base? Contents.empty Ms prev = some M → Clear M keys
  fresh : ∀ M, base? Contents.empty Ms prev = some M → ∀ M', some M' ∈ Ms →
    ¬ Rewrites M' (M.assign keys values) keys
  new : strict → ∀ M', some M' ∈ Ms → ∀ p ∈ keys.zip values, M' p.1 ≠ some p.2

/-- Arguments of an insert that are accepted. -/
def GoodBatch (encode : V → Res (List UInt8)) (keys : List (Arr N)) (values : List V) : Prop :=
  keys.length = values.length ∧ keys ≠ [] ∧ keys.Nodup ∧ ∀ v ∈ values, ∃ b, encode v = .ok b

/-- The call is an insert that is tidy or that is refused, a `get` of keys that are clear for the version, or
any other call.  If `strict`, the process does not die, and inserts are only refused for the numbers of their
arguments. -/
def Cmd.Tidy (strict : Prop) (encode : V → Res (List UInt8)) (Ms : List (Option (Contents N V))) :
    Cmd N V → Prop
  | .put prev keys values => (GoodBatch encode keys values → TidyInsert strict Ms prev keys values) ∧
      (strict → keys.length = values.length → keys ≠ [] → GoodBatch encode keys values)
  | .putOne prev k v => ((∃ b, encode v = .ok b) → TidyInsert strict Ms prev [k] [v]) ∧
      (strict → ∃ b, encode v = .ok b)
  | .read i keys => ∀ M, at? Ms i = some M → Clear M keys
  | .crash _ prev keys values => ¬ strict ∧ TidyInsert strict Ms prev keys values
  | .crashRemove _ _ => ¬ strict
  | _ => True

/-- All calls of the session are tidy. -/
def TidySession (strict : Prop) (encode : V → Res (List UInt8)) :
    List (Cmd N V) → List (Option (Contents N V)) → Prop
  | [], _ => True
  | c :: cs, Ms => c.Tidy strict encode Ms ∧ TidySession strict encode cs (c.spec encode Ms).2

/-- An insert none of whose pairs a live version has, an insert that is refused, or any other call. -/
def Cmd.NewPairs (encode : V → Res (List UInt8)) (Ms : List (Option (Contents N V))) : Cmd N V → Prop
  | .put _ keys values => GoodBatch encode keys values →
      ∀ M, some M ∈ Ms → ∀ p ∈ keys.zip values, M p.1 ≠ some p.2
  | .putOne _ k v => (∃ b, encode v = .ok b) → ∀ M, some M ∈ Ms → M k ≠ some v
  | .crash _ prev keys values => (prev = none ∨ keys.length ≤ 1) ∧ keys.length = values.length ∧ keys.Nodup ∧
      ∀ M, some M ∈ Ms → ∀ p ∈ keys.zip values, M p.1 ≠ some p.2
  | _ => True

/-- The call is an insert with arguments that are refused. -/
def Cmd.Bad (encode : V → Res (List UInt8)) : Cmd N V → Prop
  | .put _ keys values => ¬ GoodBatch encode keys values
  | .putOne _ _ v => ¬ ∃ b, encode v = .ok b
  | _ => False

/-- In all inserts of the session. -/
def NewPairsSession (encode : V → Res (List UInt8)) :
    List (Cmd N V) → List (Option (Contents N V)) → Prop
  | [], _ => True
  | c :: cs, Ms => c.NewPairs encode Ms ∧ NewPairsSession encode cs (c.spec encode Ms).2

/-- The process does not die during the call, and if it is an insert, its arguments are good. -/
def Cmd.Smooth (encode : V → Res (List UInt8)) : Cmd N V → Prop
  | .put _ keys values => GoodBatch encode keys values
  | .putOne _ _ v => ∃ b, encode v = .ok b
  | .crash _ _ _ _ => False
  | .crashRemove _ _ => False
  | _ => True

end MerkleBit
