import Verif.Spec.Parts
/-!
# Specification vocabulary: a client that follows updates without the database
-/

namespace MerkleBit
variable {N : Nat} {V : Type}

/-- How many elements two lists have in common at the start. -/
def commonStart {α : Type} [DecidableEq α] : List α → List α → Nat
  | a :: as, b :: bs => if a = b then commonStart as bs + 1 else 0
  | _, _ => 0

/-- How many elements two lists have in common at the end. -/
def commonEnd {α : Type} [DecidableEq α] (as bs : List α) : Nat := commonStart as.reverse bs.reverse

/-- The hash of a pair. -/
def pairHash (H : Hasher N) (k : Arr N) (b : List UInt8) : Arr N := (HIn.leaf k ((HIn.data k b).hash H)).hash H

/-- Hashing upwards: every entry is put on its side of the hash so far. -/
def climb (H : Hasher N) (x : Arr N) (entries : List (Arr N × Bool)) : Arr N :=
  entries.foldl (fun x e => if e.2 then (HIn.branch x e.1).hash H else (HIn.branch e.1 x).hash H) x

/-- A client: the root it believes in, and the proofs it keeps. -/
structure Client (N : Nat) where
  root : Arr N
  proofs : Arr N → Option (List (Arr N × Bool))

/-- The proof of another key after the value of `k`, whose proof was `p`, became `b`.  The proofs of the two keys have the
same end.  The entry before it is the place where the other key looks at `k`; its hash is computed again. -/
def follow (H : Hasher N) (k : Arr N) (b : List UInt8) (p other : List (Arr N × Bool)) : List (Arr N × Bool) :=
  let c := commonEnd p other
  other.modify (other.length - c - 1) fun e =>
    (climb H (pairHash H k b) ((p.drop 2).take (p.length - c - 3)), e.2)

/-- The client hears that `k` got the value `v`.  It must have a proof of `k`. -/
def Client.update (H : Hasher N) (encode : V → Res (List UInt8)) (c : Client N) (k : Arr N) (v : V) : Option (Client N) :=
  match c.proofs k, encode v with
  | some p, .ok b => some
    { root := climb H (pairHash H k b) (p.drop 2)
      proofs := fun k' =>
        if k' = k then some (((HIn.data k b).hash H, false) :: (pairHash H k b, false) :: p.drop 2)
        else (c.proofs k').map (follow H k b p) }
  | _, _ => none

/-- The client hears of updates. -/
def Client.updates (H : Hasher N) (encode : V → Res (List UInt8)) : Client N → List (Arr N × V) → Option (Client N)
  | c, [] => some c
  | c, (k, v) :: rest => (c.update H encode k v).bind fun c' => Client.updates H encode c' rest

/-- What a client hears: a stored key got another value, or a pair was added.  With a new key comes one of the stored
keys that are closest to it, and how many entries of the proof of that key belong to bits before the first difference. -/
inductive News (N : Nat) (V : Type) where
  | update (k : Arr N) (v : V)
  | add (k : Arr N) (v : V) (near : Arr N) (above : Nat)

/-- The pair that was inserted. -/
def News.pair : News N V → Arr N × V
  | .update k v => (k, v)
  | .add k v _ _ => (k, v)

/-- `near` is one of the keys of `M` that are closest to `k`, and `above` is the number of bits before its first
difference from `k` at which keys of `M` differ from `near` for the first time. -/
def Near (M : Contents N V) (k near : Arr N) (above : Nat) : Prop :=
  M near ≠ none ∧ (∀ k', M k' ≠ none → firstDiff k k' ≤ firstDiff k near) ∧
    ∀ bits, PartBits M near bits → (bits.filter (fun b => decide (b < firstDiff k near))).length = above

/-- News about `M`, for someone who has the proofs of the keys in `has`. -/
def NewsFits (depth : Nat) : Contents N V → (Arr N → Prop) → List (News N V) → Prop
  | _, _, [] => True
  | M, has, .update k v :: rest => has k ∧ NewsFits depth (M.assign [k] [v]) has rest
  | M, has, .add k v near above :: rest => M k = none ∧ Near M k near above ∧ has near ∧
      HeightBelow (M.assign [k] [v]) depth ∧ NewsFits depth (M.assign [k] [v]) (fun k' => k' = k ∨ has k') rest

/-- The proof of a new pair: beside it is the part of the tree that `near` is in. -/
def newProof (H : Hasher N) (k : Arr N) (b : List UInt8) (near : Arr N) (above : Nat) (p : List (Arr N × Bool)) :
    List (Arr N × Bool) :=
  let top := p.drop (p.length - above)
  match p.take (p.length - above) with
  | _ :: leaf :: way =>
    ((HIn.data k b).hash H, false) :: (pairHash H k b, false) :: (climb H leaf.1 way, !k.bit (firstDiff k near)) :: top
  | _ => []

/-- The client hears that `k` with the value `v` was added. -/
def Client.add (H : Hasher N) (encode : V → Res (List UInt8)) (c : Client N) (k : Arr N) (v : V) (near : Arr N)
    (above : Nat) : Option (Client N) :=
  match c.proofs near, encode v with
  | some p0, .ok b =>
    let p := newProof H k b near above p0
    some
    { root := climb H (pairHash H k b) (p.drop 2)
      proofs := fun k' =>
        if k' = k then some p
        else (c.proofs k').map fun other =>
          if firstDiff k k' = firstDiff k near then
            other.take (other.length - above) ++ (pairHash H k b, !k'.bit (firstDiff k k')) ::
              other.drop (other.length - above)
          else follow H k b p other }
  | _, _ => none

/-- The client hears one piece of news. -/
def Client.hear (H : Hasher N) (encode : V → Res (List UInt8)) (c : Client N) : News N V → Option (Client N)
  | .update k v => c.update H encode k v
  | .add k v near above => c.add H encode k v near above

/-- The client hears the news one after the other. -/
def Client.hearAll (H : Hasher N) (encode : V → Res (List UInt8)) : Client N → List (News N V) → Option (Client N)
  | c, [] => some c
  | c, e :: rest => (c.hear H encode e).bind fun c' => Client.hearAll H encode c' rest

/-- A key of the list that is closest to `k`. -/
def nearest (k : Arr N) : List (Arr N) → Option (Arr N)
  | [] => none
  | a :: keys =>
    match nearest k keys with
    | none => some a
    | some b => if firstDiff k a < firstDiff k b then some b else some a

/-- How many different bits before `b` there are at which keys of the list differ from `near` for the first time. -/
def bitsBefore (near : Arr N) (b : Nat) (keys : List (Arr N)) : Nat :=
  ((List.range b).filter fun i => keys.any fun k => decide (firstDiff near k = i)).length

/-- The news of one insert, for someone who knows all keys. -/
def newsOf (keys : List (Arr N)) (k : Arr N) (v : V) : News N V :=
  if k ∈ keys then .update k v
  else match nearest k keys with
    | some near => .add k v near (bitsBefore near (firstDiff k near) keys)
    | none => .update k v

/-- A mirror: a client that knows all keys and has all proofs, and hears nothing but the pairs that are inserted. -/
def Client.mirror (H : Hasher N) (encode : V → Res (List UInt8)) :
    Client N → List (Arr N) → List (Arr N × V) → Option (Client N)
  | c, _, [] => some c
  | c, keys, (k, v) :: rest => (c.hear H encode (newsOf keys k v)).bind fun c' => Client.mirror H encode c' (k :: keys) rest

/-- Every version on the way is within the limit. -/
def HeightsBelow (depth : Nat) : Contents N V → List (Arr N × V) → Prop
  | _, [] => True
  | M, (k, v) :: rest => HeightBelow (M.assign [k] [v]) depth ∧ HeightsBelow depth (M.assign [k] [v]) rest

end MerkleBit
