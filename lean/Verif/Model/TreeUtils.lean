import Verif.Model.Nodes
/-!
# src/utils/tree_utils.rs

`usize::try_from(u8)` is infallible and omitted.
-/

namespace MerkleBit
variable {N : Nat}

/-- `MULTIPLY_DE_BRUIJN_BIT_POSITION` (src/constants.rs:6). -/
def multiplyDeBruijnBitPosition : List UInt8 := [0, 5, 1, 6, 4, 3, 2, 7]

/-- `fast_log_2` (src/utils/tree_utils.rs:172-178).  The table index is a `u8` shifted right by 5,
hence below 8 (`fastLog2_index_lt`), so the default of `getD` is never used. -/
def fastLog2 (num : UInt8) : UInt8 :=
  let log := num
  let log := log ||| (log >>> 1)
  let log := log ||| (log >>> 2)
  let log := log ||| (log >>> 4)
  multiplyDeBruijnBitPosition.getD ((UInt8.ofNat (0x1d * log.toNat)) >>> 5).toNat 0

/-- `choose_zero` (src/utils/tree_utils.rs:27-35). -/
def chooseZero (key : Arr N) (bit : Nat) : Res Bool :=
  let index := bit >>> 3
  let shift := bit % 8
  match key.bytes[index]? with
  | some v =>
    let extractedBit := (v.toNat >>> (7 - shift)) &&& 1
    .ok (extractedBit == 0)
  | none => .error (.exception "Designated bit exceeds key length")

/-- `slice::partition_point`: the standard library only specifies its result on a partitioned
slice, so it is a parameter of the model; see `PartitionPoint.Lawful`. -/
structure PartitionPoint (N : Nat) where
  run : List (Arr N) → (Arr N → Bool) → Nat

/-- Documented contract of `slice::partition_point`: the result is an index into the slice (or its
length), and on a slice partitioned by `p` it is the number of elements satisfying `p`. -/
structure PartitionPoint.Lawful (pp : PartitionPoint N) : Prop where
  le_length : ∀ l p, pp.run l p ≤ l.length
  partitioned : ∀ zs os p, (∀ z ∈ zs, p z = true) → (∀ o ∈ os, p o = false) →
    pp.run (zs ++ os) p = zs.length

/-- `split_pairs` (src/utils/tree_utils.rs:42-71).  `split_at` panics past the end of the slice. -/
def splitPairs (pp : PartitionPoint N) (sortedPairs : List (Arr N)) (bit : Nat) :
    Res (List (Arr N) × List (Arr N)) :=
  match sortedPairs.getLast?, sortedPairs.head? with
  | some last, some first =>
    match chooseZero last bit with
    | .error e => .error e
    | .ok true => .ok (sortedPairs, [])
    | .ok false =>
      match chooseZero first bit with
      | .error e => .error e
      | .ok false => .ok ([], sortedPairs)
      | .ok true =>
        let i := pp.run sortedPairs (fun v =>
          match chooseZero v bit with
          | .ok b => b
          | .error _ => false)
        if i ≤ sortedPairs.length then .ok (sortedPairs.take i, sortedPairs.drop i)
        else .error (.panic "split_at: mid > len")
  | _, _ => .ok ([], [])

/-- The positions `(min..split).step_by(8)` (src/utils/tree_utils.rs:89). -/
def stepBy8 (min split : Nat) : List Nat :=
  (List.range ((split - min + 7) / 8)).map (fun t => min + 8 * t)

/-- Inner loop of `check_descendants` (src/utils/tree_utils.rs:88-100): whether one key is a
descendant.  Indexing past the end of a key panics. -/
def isDescendant (branchKey key : List UInt8) (branchSplitIndex : Nat) : List Nat → Res Bool
  | [] => .ok true
  | j :: js =>
    let byte := j >>> 3
    match branchKey[byte]?, key[byte]? with
    | some b, some k =>
      if b = k then isDescendant branchKey key branchSplitIndex js
      else
        let xorKey := b ^^^ k
        let splitBit := (byte <<< 3) + 7 - (fastLog2 xorKey).toNat
        if splitBit < branchSplitIndex then .ok false
        else isDescendant branchKey key branchSplitIndex js
    | _, _ => .error (.panic "index out of bounds")

/-- Outer loop of `check_descendants` (src/utils/tree_utils.rs:86-113) with its mutable `start`,
`end` and `found_start`; returns the final `(start, end)`. -/
def descendantRange (desc : Arr N → Res Bool) (len : Nat) :
    Nat → List (Arr N) → Nat → Nat → Bool → Res (Nat × Nat)
  | _, [], start, stop, _ => .ok (start, stop)
  | i, k :: ks, start, stop, foundStart =>
    match desc k with
    | .error e => .error e
    | .ok descendant =>
      let start' := if descendant && !foundStart then i else start
      let foundStart' := if descendant && !foundStart then true else foundStart
      if !descendant && foundStart' then .ok (start', i)
      else if descendant && i == len - 1 && foundStart' then .ok (start', i + 1)
      else descendantRange desc len (i + 1) ks start' stop foundStart'

/-- `&keys[start..end]`, panicking when out of range (src/utils/tree_utils.rs:114). -/
def slice (keys : List (Arr N)) (start stop : Nat) : Res (List (Arr N)) :=
  if start ≤ stop ∧ stop ≤ keys.length then .ok ((keys.take stop).drop start)
  else .error (.panic "slice index out of range")

/-- `check_descendants` (src/utils/tree_utils.rs:77-115). -/
def checkDescendants (keys : List (Arr N)) (branchSplitIndex : Nat) (branchKey : Arr N)
    (minSplitIndex : Nat) : Res (List (Arr N)) :=
  match descendantRange
      (fun k => isDescendant branchKey.bytes k.bytes branchSplitIndex
        (stepBy8 minSplitIndex branchSplitIndex))
      keys.length 0 keys 0 0 false with
  | .error e => .error e
  | .ok (start, stop) => slice keys start stop

/-- Byte loop of `calc_min_split_index` (src/utils/tree_utils.rs:143-151), starting at byte `i`. -/
def minSplitLoop (default : Nat) : Nat → List UInt8 → List UInt8 → Res Nat
  | _, [], _ => .ok default
  | _, _ :: _, [] => .error (.panic "index out of bounds")
  | i, a :: as, b :: bs =>
    if a = b then minSplitLoop default (i + 1) as bs
    else
      let xorKey := a ^^^ b
      .ok ((i <<< 3) + 7 - (fastLog2 xorKey).toNat)

/-- `calc_min_split_index` (src/utils/tree_utils.rs:122-153).  For `N = 0` the expression
`N * 8 - 1` overflows: modelled as a panic (checked build). -/
def calcMinSplitIndex (keys : List (Arr N)) (branchKey : Arr N) : Res Nat :=
  match keys.head? with
  | none => .error (.exception "Failed to get min key from list of keys.")
  | some first =>
    match keys.getLast? with
    | none => .error (.exception "Failed to get max key from list of keys.")
    | some last =>
      let minKey := if Arr.lt branchKey first then branchKey else first
      let maxKey := if Arr.lt branchKey first then last
        else if Arr.lt last branchKey then branchKey else last
      if N = 0 then .error (.panic "attempt to subtract with overflow")
      else minSplitLoop (N * 8 - 1) 0 minKey.bytes maxKey.bytes

/-- `generate_leaf_map` (src/utils/tree_utils.rs:159-167). -/
def generateLeafMap {ν : Type} (keys : List (Arr N)) : AMap (Arr N) (Option ν) :=
  keys.foldl (fun m k => m.insert k none) AMap.empty

/-- Byte loop of `generate_tree_ref_queue` (src/utils/tree_utils.rs:194-219) from byte `j`:
`some bit` when the keys diverge, `none` when the loop ends without a `break` (only for `N = 0`). -/
def splitBitLoop (keyLen : Nat) : Nat → List UInt8 → List UInt8 → Res (Option Nat)
  | _, [], _ => .ok none
  | _, _ :: _, [] => .error (.panic "index out of bounds")
  | j, l :: ls, r :: rs =>
    if j = keyLen - 1 ∧ l = r then
      .error (.exception "Attempted to insert item with duplicate keys")
    else if l = r then splitBitLoop keyLen (j + 1) ls rs
    else
      let xorKey := l ^^^ r
      .ok (some (j * 8 + 7 - (fastLog2 xorKey).toNat))

/-- An entry `(split_index, tree_ref_pointer, next_tree_ref_pointer)` of the queue. -/
abbrev QueueItem := Nat × Nat × Nat

/-- `tree_ref_queue.entry(split_bit)` push (src/utils/tree_utils.rs:211-216). -/
def pushItem (q : AMap Nat (List QueueItem)) (bit : Nat) (item : QueueItem) :
    AMap Nat (List QueueItem) :=
  match q.get? bit with
  | some items => q.insert bit (items ++ [item])
  | none => q.insert bit [item]

/-- `HashSet::insert` (src/utils/tree_utils.rs:209), the set being kept as a list without
repetitions. -/
def setInsert (s : List Nat) (x : Nat) : List Nat := if x ∈ s then s else s ++ [x]

/-- Outer loop of `generate_tree_ref_queue` (src/utils/tree_utils.rs:189-220) at index `i`, over the
remaining references. -/
def queueLoop : Nat → List (TreeRef N) → AMap Nat (List QueueItem) → List Nat →
    Res (AMap Nat (List QueueItem) × List Nat)
  | i, l :: r :: rest, q, bits =>
    match splitBitLoop l.key.bytes.length 0 l.key.bytes r.key.bytes with
    | .error e => .error e
    | .ok none => queueLoop (i + 1) (r :: rest) q bits
    | .ok (some bit) =>
      queueLoop (i + 1) (r :: rest) (pushItem q bit (bit, i, i + 1)) (setInsert bits bit)
  | _, _, q, bits => .ok (q, bits)

/-- `generate_tree_ref_queue` (src/utils/tree_utils.rs:184-222) on an initially empty queue: the
queue and the set of split bits.  `0..tree_refs.len() - 1` overflows on an empty vector. -/
def generateTreeRefQueue (refs : List (TreeRef N)) :
    Res (AMap Nat (List QueueItem) × List Nat) :=
  if refs.isEmpty then .error (.panic "attempt to subtract with overflow")
  else queueLoop 0 refs AMap.empty []

end MerkleBit
