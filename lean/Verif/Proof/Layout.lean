import Verif.Spec.Layout
import Verif.Proof.Bincode
/-!
# The bytes of a node under bincode
-/

namespace MerkleBit.Bincode
variable {N : Nat}

theorem putLE_eq : ∀ (w n : Nat), putLE w n = le w n
  | 0, n => rfl
  | w + 1, n => by
    rw [putLE, putLE_eq w, le, le, List.range_succ_eq_map, List.map_cons, List.map_map]
    congr 1
    · simp
    · apply List.map_congr_left
      intro i _
      simp only [Function.comp_apply, Nat.pow_succ', Nat.div_div_eq_div_mul]

theorem putBytes_eq (bs : List UInt8) : putBytes bs = chunk bs := by
  rw [putBytes, putU64, putLE_eq, chunk]

theorem putVariant_eq (x : Variant N) : putVariant x = layout x := by
  cases x <;>
    simp only [putVariant, putBranch, putLeaf, putData, putArr, putU64, putLE_eq, putBytes_eq, layout,
      List.append_assoc]

theorem getLE_inv (w : Nat) : ∀ {bs rest : List UInt8} {n : Nat}, getLE w bs = some (n, rest) →
    bs = putLE w n ++ rest ∧ n < 256 ^ w := by
  induction w with
  | zero => intro bs rest n h; cases h; exact ⟨rfl, by simp⟩
  | succ w ih =>
    intro bs rest n h
    cases bs with
    | nil => cases h
    | cons b bs =>
      simp only [getLE] at h
      split at h
      · next m rest' hm =>
        cases h
        obtain ⟨rfl, hlt⟩ := ih hm
        have hb : b.toNat < 256 := b.toNat_lt
        refine ⟨?_, ?_⟩
        · have h1 : (b.toNat + 256 * m) / 256 = m := by omega
          have h2 : UInt8.ofNat (b.toNat + 256 * m) = b := by
            apply UInt8.toNat_inj.1
            simp only [UInt8.toNat_ofNat']
            omega
          rw [putLE, h1, h2]; rfl
        · rw [Nat.pow_succ]; omega
      · cases h

theorem getU64_iff {bs rest : List UInt8} {n : Nat} :
    getU64 bs = some (n, rest) ↔ bs = le 8 n ++ rest ∧ n < 2 ^ 64 := by
  constructor
  · intro h
    obtain ⟨h1, h2⟩ := getLE_inv 8 h
    exact ⟨by rwa [putLE_eq] at h1, by simpa using h2⟩
  · rintro ⟨rfl, h⟩
    rw [← putLE_eq]
    exact getU64_putU64 rest h

theorem getBytes_iff {bs v rest : List UInt8} :
    getBytes bs = some (v, rest) ↔ bs = chunk v ++ rest ∧ v.length < 2 ^ 64 := by
  constructor
  · intro h
    unfold getBytes at h
    split at h
    · next n r hn =>
      obtain ⟨rfl, hlt⟩ := getU64_iff.1 hn
      split at h
      · cases h
      · next hle =>
        cases h
        have : (r.take n).length = n := by simp; omega
        refine ⟨?_, by omega⟩
        rw [chunk, this, List.append_assoc, List.take_append_drop]
    · cases h
  · rintro ⟨rfl, h⟩
    rw [← putBytes_eq]
    exact getBytes_putBytes v rest h

theorem getArr_iff {bs rest : List UInt8} {a : Arr N} : getArr N bs = some (a, rest) ↔
    ∃ v, bs = chunk v ++ rest ∧ v.length < 2 ^ 64 ∧ Padded a v := by
  unfold getArr
  constructor
  · intro h
    split at h
    · next v r hv =>
      cases h
      obtain ⟨h1, h2⟩ := getBytes_iff.1 hv
      exact ⟨v, h1, h2, rfl⟩
    · cases h
  · rintro ⟨v, h1, h2, h3⟩
    rw [getBytes_iff.2 ⟨h1, h2⟩]
    have : visitBytes N v = a := by
      cases a
      simp only [Padded] at h3
      simp only [visitBytes, h3]
    simp only [this]

theorem bind_iff {α β : Type} {x : Option (α × List UInt8)} {f : α × List UInt8 → Option (β × List UInt8)}
    {b : β} {rest : List UInt8} :
    (x.bind f) = some (b, rest) ↔ ∃ a r, x = some (a, r) ∧ f (a, r) = some (b, rest) := by
  rw [Option.bind_eq_some_iff]
  constructor
  · rintro ⟨⟨a, r⟩, h1, h2⟩; exact ⟨a, r, h1, h2⟩
  · rintro ⟨a, r, h1, h2⟩; exact ⟨⟨a, r⟩, h1, h2⟩

theorem getVariant_iff {bs rest : List UInt8} {x : Variant N} : getVariant N bs = some (x, rest) ↔
    ∃ body, bs = body ++ rest ∧ LaidOut x body := by
  constructor
  · intro h
    simp only [getVariant, Option.bind_eq_bind] at h
    obtain ⟨tag, r0, h0, h⟩ := bind_iff.1 h
    obtain ⟨e0, -⟩ := getLE_inv 4 h0
    rw [putLE_eq] at e0
    dsimp only at h
    split at h
    · next ht =>
      subst ht
      obtain ⟨b, r1, hb, h⟩ := bind_iff.1 h
      cases h
      simp only [getBranch, Option.bind_eq_bind] at hb
      obtain ⟨count, s1, h1, hb⟩ := bind_iff.1 hb
      obtain ⟨zero, s2, h2, hb⟩ := bind_iff.1 hb
      obtain ⟨one, s3, h3, hb⟩ := bind_iff.1 hb
      obtain ⟨split, s4, h4, hb⟩ := bind_iff.1 hb
      obtain ⟨key, s5, h5, hb⟩ := bind_iff.1 hb
      cases hb
      obtain ⟨rfl, l1⟩ := getU64_iff.1 h1
      obtain ⟨zs, rfl, l2, p2⟩ := getArr_iff.1 h2
      obtain ⟨os, rfl, l3, p3⟩ := getArr_iff.1 h3
      obtain ⟨rfl, l4⟩ := getU64_iff.1 h4
      obtain ⟨ks, rfl, l5, p5⟩ := getArr_iff.1 h5
      exact ⟨_, by rw [e0]; simp only [List.append_assoc], .branch l1 l4 p2 l2 p3 l3 p5 l5⟩
    split at h
    · next ht =>
      subst ht
      obtain ⟨b, r1, hb, h⟩ := bind_iff.1 h
      cases h
      simp only [getLeaf, Option.bind_eq_bind] at hb
      obtain ⟨key, s1, h1, hb⟩ := bind_iff.1 hb
      obtain ⟨data, s2, h2, hb⟩ := bind_iff.1 hb
      cases hb
      obtain ⟨ks, rfl, l1, p1⟩ := getArr_iff.1 h1
      obtain ⟨ds, rfl, l2, p2⟩ := getArr_iff.1 h2
      exact ⟨_, by rw [e0]; simp only [List.append_assoc], .leaf p1 l1 p2 l2⟩
    split at h
    · next ht =>
      subst ht
      obtain ⟨b, r1, hb, h⟩ := bind_iff.1 h
      cases h
      simp only [getData, Option.bind_eq_bind] at hb
      obtain ⟨val, s1, h1, hb⟩ := bind_iff.1 hb
      cases hb
      obtain ⟨rfl, l1⟩ := getBytes_iff.1 h1
      exact ⟨_, by rw [e0]; simp only [List.append_assoc], .data l1⟩
    · cases h
  · rintro ⟨body, rfl, h⟩
    have tag : ∀ t < 3, ∀ r, getLE 4 (le 4 t ++ r) = some (t, r) := fun t ht r => by
      rw [← putLE_eq]; exact getLE_putLE 4 t r (by omega)
    cases h with
    | branch l1 l4 p2 l2 p3 l3 p5 l5 =>
      simp only [getVariant, Option.bind_eq_bind, List.append_assoc]
      rw [tag 0 (by omega)]
      simp only [Option.bind_some, if_pos, getBranch, Option.bind_eq_bind]
      rw [getU64_iff.2 ⟨rfl, l1⟩, Option.bind_some, getArr_iff.2 ⟨_, rfl, l2, p2⟩, Option.bind_some,
        getArr_iff.2 ⟨_, rfl, l3, p3⟩, Option.bind_some, getU64_iff.2 ⟨rfl, l4⟩, Option.bind_some,
        getArr_iff.2 ⟨_, rfl, l5, p5⟩]
      rfl
    | leaf p1 l1 p2 l2 =>
      simp only [getVariant, Option.bind_eq_bind, List.append_assoc]
      rw [tag 1 (by omega)]
      simp only [Option.bind_some, getLeaf, Option.bind_eq_bind]
      rw [if_neg (by decide), if_pos trivial, getArr_iff.2 ⟨_, rfl, l1, p1⟩, Option.bind_some,
        getArr_iff.2 ⟨_, rfl, l2, p2⟩]
      rfl
    | data l1 =>
      simp only [getVariant, Option.bind_eq_bind, List.append_assoc]
      rw [tag 2 (by omega)]
      simp only [Option.bind_some, getData, Option.bind_eq_bind]
      rw [if_neg (by decide), if_neg (by decide), if_pos trivial, getBytes_iff.2 ⟨rfl, l1⟩]
      rfl

theorem getNode_iff {bs rest : List UInt8} {n : Node N} : getNode N bs = some (n, rest) ↔
    ∃ body, bs = le 8 n.references ++ body ++ rest ∧ n.references < 2 ^ 64 ∧ LaidOut n.variant body := by
  simp only [getNode, Option.bind_eq_bind]
  constructor
  · intro h
    obtain ⟨c, r0, h0, h⟩ := bind_iff.1 h
    obtain ⟨x, r1, h1, h⟩ := bind_iff.1 h
    cases h
    obtain ⟨rfl, hc⟩ := getU64_iff.1 h0
    obtain ⟨body, rfl, hb⟩ := getVariant_iff.1 h1
    exact ⟨body, by simp only [List.append_assoc], hc, hb⟩
  · rintro ⟨body, rfl, hc, hb⟩
    rw [List.append_assoc, getU64_iff.2 ⟨rfl, hc⟩, Option.bind_some, getVariant_iff.2 ⟨body, rfl, hb⟩]
    rfl

theorem le_length (w n : Nat) : (le w n).length = w := by simp [le]

end MerkleBit.Bincode
