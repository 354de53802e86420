import Verif.Spec.Trie
/-!
# Specification vocabulary: batches that defeat the descendant scan

`check_descendants` compares a key with a branch at bits `m, m + 8, m + 16, ...` below the split
index `s` of the branch, where `m` is the first bit on which the whole batch diverges.  When
`m % 8 > (s - 1) % 8` the byte of bit `s - 1` is skipped, and a key that differs from the branch
only there is mistaken for a descendant.  `StraddleFree` excludes exactly this situation.
-/

namespace MerkleBit
variable {N : Nat}

/-- The bits examined by `check_descendants` start at bit `m` and advance by 8, so they may stop one
byte short of the byte that holds bit `s - 1`. -/
def MissesLastByte (m s : Nat) : Prop := m < s ∧ (s - 1) % 8 < m % 8

/-- Some key of `D` makes the scan of a branch (key `b`, split index `s`) stop a byte short, and some
key of `D` first differs from the branch in the skipped byte. -/
def Straddle (D : List (Arr N)) (b : Arr N) (s : Nat) : Prop :=
  ∃ k1 ∈ D, (∀ k ∈ D, firstDiff k1 b ≤ firstDiff k b) ∧ firstDiff k1 b < s ∧
    (s - 1) % 8 < firstDiff k1 b % 8 ∧
    ∃ k2 ∈ D, firstDiff k2 b < s ∧ firstDiff k2 b / 8 = (s - 1) / 8

/-- No branch at or below a subtree, reached by the keys of `Q` that share its first `p` bits,
is straddled. -/
def StraddleFree (Q : List (Arr N)) : Nat → Trie N → Prop
  | _, .leaf _ _ => True
  | p, .node l r =>
    ¬ Straddle (Q.filter (fun k => p ≤ firstDiff k l.key)) l.key (firstDiff l.key r.key) ∧
      StraddleFree Q (firstDiff l.key r.key + 1) l ∧
      StraddleFree Q (firstDiff l.key r.key + 1) r

end MerkleBit
