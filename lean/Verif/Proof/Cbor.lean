import Verif.Proof.Serde
/-!
# CBOR reads back what it wrote
-/

namespace MerkleBit.Serde.Cbor

theorem takeBytes_append (l r : List UInt8) : takeBytes l.length (l ++ r) = some (l, r) := by
  rw [takeBytes, if_neg (by simp)]
  simp

theorem takeBytes_more {n : Nat} {bs v r : List UInt8} (q : List UInt8) (h : takeBytes n bs = some (v, r)) :
    takeBytes n (bs ++ q) = some (v, r ++ q) := by
  unfold takeBytes at h ⊢
  split at h
  · cases h
  · next hl =>
    cases h
    rw [if_neg (by simp only [List.length_append]; omega), List.take_append_of_le_length (by omega),
      List.drop_append_of_le_length (by omega)]

@[simp] theorem putBE_length : ∀ k n, (putBE k n).length = k
  | 0, _ => rfl
  | k + 1, n => by rw [putBE, List.length_cons, putBE_length k]

theorem foldl_putBE : ∀ (k n acc : Nat), n < 256 ^ k →
    (putBE k n).foldl (fun n b => n * 256 + b.toNat) acc = acc * 256 ^ k + n
  | 0, n, acc, h => by
    have : n = 0 := by simpa using h
    simp [putBE, this]
  | k + 1, n, acc, h => by
    have hp : 0 < 256 ^ k := Nat.pos_of_ne_zero (by simp)
    have hd : n / 256 ^ k < 256 := by
      rw [Nat.div_lt_iff_lt_mul hp]
      rwa [Nat.pow_succ, Nat.mul_comm] at h
    rw [putBE, List.foldl_cons, foldl_putBE k _ _ (Nat.mod_lt _ hp)]
    rw [show (UInt8.ofNat (n / 256 ^ k)).toNat = n / 256 ^ k from by simp; omega]
    have := Nat.div_add_mod n (256 ^ k)
    rw [Nat.pow_succ, Nat.add_mul, Nat.add_assoc, Nat.mul_comm (n / 256 ^ k), this]
    ring

theorem getBE_putBE {k n : Nat} (h : n < 256 ^ k) : getBE (putBE k n) = n := by
  rw [getBE, foldl_putBE k n 0 h]
  simp

theorem readHead_cons {major i : Nat} (hm : major < 8) (hi : i < 32) (bs : List UInt8) :
    readHead (UInt8.ofNat (major * 32 + i) :: bs) =
      if i < 24 then some ((major, i), bs)
      else if i < 28 then (takeBytes (2 ^ (i - 24)) bs).map (fun (n, rest) => ((major, getBE n), rest))
      else none := by
  have h : (UInt8.ofNat (major * 32 + i)).toNat = major * 32 + i := by simp; omega
  have h1 : (major * 32 + i) / 32 = major := by omega
  have h2 : (major * 32 + i) % 32 = i := by omega
  simp only [readHead, h, h1, h2]

theorem readHead_head {major n : Nat} (hm : major < 8) (hn : n < 2 ^ 64) (rest : List UInt8) :
    readHead (head major n ++ rest) = some ((major, n), rest) := by
  have hbe : ∀ k, n < 256 ^ k → takeBytes k (putBE k n ++ rest) = some (putBE k n, rest) := by
    intro k _
    have := takeBytes_append (putBE k n) rest
    rwa [putBE_length] at this
  unfold head
  split
  · next h => rw [List.singleton_append, readHead_cons hm (by omega), if_pos h]
  split
  · next h =>
    rw [List.cons_append, readHead_cons hm (by omega), if_neg (by omega), if_pos (by omega)]
    rw [show 2 ^ (24 - 24) = 1 from rfl, hbe 1 (by simpa using h), Option.map_some]
    dsimp only
    rw [getBE_putBE (k := 1) (by simpa using h)]
  split
  · next h =>
    have h' : n < 256 ^ 2 := by simpa using h
    rw [List.cons_append, readHead_cons hm (by omega), if_neg (by omega), if_pos (by omega)]
    rw [show 2 ^ (25 - 24) = 2 from rfl, hbe 2 h', Option.map_some]
    dsimp only
    rw [getBE_putBE h']
  split
  · next h =>
    have h' : n < 256 ^ 4 := by simpa using h
    rw [List.cons_append, readHead_cons hm (by omega), if_neg (by omega), if_pos (by omega)]
    rw [show 2 ^ (26 - 24) = 4 from rfl, hbe 4 h', Option.map_some]
    dsimp only
    rw [getBE_putBE h']
  · have h' : n < 256 ^ 8 := by simpa using hn
    rw [List.cons_append, readHead_cons hm (by omega), if_neg (by omega), if_pos (by omega)]
    rw [show 2 ^ (27 - 24) = 8 from rfl, hbe 8 h', Option.map_some]
    dsimp only
    rw [getBE_putBE h']

theorem readHead_more {bs r : List UInt8} {x : Nat × Nat} (q : List UInt8) (h : readHead bs = some (x, r)) :
    readHead (bs ++ q) = some (x, r ++ q) := by
  cases bs with
  | nil => cases h
  | cons b bs =>
    simp only [readHead, List.cons_append] at h ⊢
    split at h
    · next hi => cases h; rw [if_pos hi]
    · next hi =>
      rw [if_neg hi]
      split at h
      · next hi =>
        rw [if_pos hi]
        obtain ⟨⟨v, r'⟩, h1, h2⟩ := Option.map_eq_some_iff.1 h
        cases h2
        rw [takeBytes_more q h1]; rfl
      · cases h

theorem head_length (major n : Nat) : 1 ≤ (head major n).length := by
  unfold head
  repeat' split
  all_goals simp

mutual
/-- Values whose numbers and lengths are below `2 ^ 64`. -/
def Small : SVal → Prop
  | .num n => n < 2 ^ 64
  | .bytes bs => bs.length < 2 ^ 64
  | .seq xs => xs.length < 2 ^ 64 ∧ SmallAll xs
  | .map fs => fs.length < 2 ^ 64 ∧ SmallFields fs
def SmallAll : List SVal → Prop
  | [] => True
  | x :: xs => Small x ∧ SmallAll xs
def SmallFields : List (List UInt8 × SVal) → Prop
  | [] => True
  | (k, v) :: fs => k.length < 2 ^ 64 ∧ Small v ∧ SmallFields fs
end

mutual
/-- The fuel that reading a value takes. -/
def need : SVal → Nat
  | .num _ => 1
  | .bytes _ => 1
  | .seq xs => needAll xs + 1
  | .map fs => needFields fs + 1
def needAll : List SVal → Nat
  | [] => 0
  | x :: xs => need x + needAll xs + 1
def needFields : List (List UInt8 × SVal) → Nat
  | [] => 0
  | (_, v) :: fs => need v + needFields fs + 1
end

mutual
theorem readValue_write : ∀ (v : SVal), Small v → ∀ fuel rest, need v ≤ fuel →
    readValue fuel (write v ++ rest) = some (v, rest)
  | v, hv, 0, rest, hf => by cases v <;> simp [need] at hf
  | .num n, hv, fuel + 1, rest, hf => by
    rw [readValue, write, readHead_head (by decide) hv]; rfl
  | .bytes bs, hv, fuel + 1, rest, hf => by
    rw [readValue, write, List.append_assoc, readHead_head (by decide) hv]
    simp [takeBytes_append]
  | .seq xs, hv, fuel + 1, rest, hf => by
    rw [Small] at hv
    rw [readValue, write, List.append_assoc, readHead_head (by decide) hv.1]
    simp [readAll_write xs hv.2 fuel rest (by simpa [need] using hf)]
  | .map fs, hv, fuel + 1, rest, hf => by
    rw [Small] at hv
    rw [readValue, write, List.append_assoc, readHead_head (by decide) hv.1]
    simp [readFields_write fs hv.2 fuel rest (by simpa [need] using hf)]
theorem readAll_write : ∀ (xs : List SVal), SmallAll xs → ∀ fuel rest, needAll xs ≤ fuel →
    readAll fuel xs.length (writeAll xs ++ rest) = some (xs, rest)
  | [], _, fuel, rest, _ => by simp [readAll, writeAll]
  | x :: xs, _, 0, rest, hf => by simp [needAll] at hf
  | x :: xs, hv, fuel + 1, rest, hf => by
    rw [SmallAll] at hv
    rw [needAll] at hf
    rw [List.length_cons, readAll, writeAll, List.append_assoc, readValue_write x hv.1 _ _ (by omega),
      Option.bind_some]
    dsimp only
    rw [readAll_write xs hv.2 _ _ (by omega)]
    rfl
theorem readFields_write : ∀ (fs : List (List UInt8 × SVal)), SmallFields fs → ∀ fuel rest,
    needFields fs ≤ fuel → readFields fuel fs.length (writeFields fs ++ rest) = some (fs, rest)
  | [], _, fuel, rest, _ => by simp [readFields, writeFields]
  | (k, v) :: fs, _, 0, rest, hf => by simp [needFields] at hf
  | (k, v) :: fs, hv, fuel + 1, rest, hf => by
    rw [SmallFields] at hv
    rw [needFields] at hf
    rw [List.length_cons, readFields, writeFields, List.append_assoc, readHead_head (by decide) hv.1,
      Option.bind_some]
    dsimp only
    rw [if_pos rfl, List.append_assoc, takeBytes_append, Option.bind_some]
    dsimp only
    rw [List.append_assoc, readValue_write v hv.2.1 _ _ (by omega), Option.bind_some]
    dsimp only
    rw [readFields_write fs hv.2.2 _ _ (by omega)]
    rfl
end

mutual
theorem need_le : ∀ v, need v + 1 ≤ 2 * (write v).length
  | .num n => by have := head_length 0 n; rw [need, write]; omega
  | .bytes bs => by have := head_length 2 bs.length; rw [need, write, List.length_append]; omega
  | .seq xs => by
    have := head_length 4 xs.length
    have := needAll_le xs
    rw [need, write, List.length_append]; omega
  | .map fs => by
    have := head_length 5 fs.length
    have := needFields_le fs
    rw [need, write, List.length_append]; omega
theorem needAll_le : ∀ xs, needAll xs ≤ 2 * (writeAll xs).length
  | [] => by simp [needAll]
  | x :: xs => by
    have := need_le x
    have := needAll_le xs
    rw [needAll, writeAll, List.length_append]; omega
theorem needFields_le : ∀ fs, needFields fs ≤ 2 * (writeFields fs).length
  | [] => by simp [needFields]
  | (k, v) :: fs => by
    have := need_le v
    have := needFields_le fs
    rw [needFields, writeFields]
    simp only [List.length_append]; omega
end

theorem read_write {v : SVal} (h : Small v) (q : List UInt8) : read (write v ++ q) = some v := by
  have := need_le v
  rw [read, readValue_write v h _ q (by simp only [List.length_append]; omega)]
  rfl

/-- What is read of a text is read of every continuation. -/
theorem read_more (q : List UInt8) : ∀ (f f' : Nat), f ≤ f' →
    (∀ {bs v r}, readValue f bs = some (v, r) → readValue f' (bs ++ q) = some (v, r ++ q)) ∧
    (∀ {n bs v r}, readAll f n bs = some (v, r) → readAll f' n (bs ++ q) = some (v, r ++ q)) ∧
    (∀ {n bs v r}, readFields f n bs = some (v, r) → readFields f' n (bs ++ q) = some (v, r ++ q)) := by
  intro f
  induction f with
  | zero =>
    intro f' _
    refine ⟨fun h => by simp [readValue] at h, fun {n} _ _ _ h => ?_, fun {n} _ _ _ h => ?_⟩
    · cases n with
      | zero => simp only [readAll, Option.some.injEq, Prod.mk.injEq] at h ⊢; obtain ⟨rfl, rfl⟩ := h; exact ⟨rfl, rfl⟩
      | succ n => simp [readAll] at h
    · cases n with
      | zero =>
        simp only [readFields, Option.some.injEq, Prod.mk.injEq] at h ⊢; obtain ⟨rfl, rfl⟩ := h; exact ⟨rfl, rfl⟩
      | succ n => simp [readFields] at h
  | succ f ih =>
    intro f' hf
    obtain ⟨f', rfl⟩ : ∃ g, f' = g + 1 := ⟨f' - 1, by omega⟩
    obtain ⟨ihv, iha, ihf⟩ := ih f' (by omega)
    refine ⟨fun {bs v r} h => ?_, fun {n bs v r} h => ?_, fun {n bs v r} h => ?_⟩
    · rw [readValue] at h ⊢
      obtain ⟨⟨⟨m, n⟩, bs'⟩, h1, h2⟩ := Option.bind_eq_some_iff.1 h
      rw [readHead_more q h1, Option.bind_some]
      dsimp only at h2 ⊢
      split at h2
      · next hm => cases h2; rw [if_pos hm]
      · next hm =>
        rw [if_neg hm]
        split at h2
        · next hm =>
          rw [if_pos hm]
          obtain ⟨⟨w, r'⟩, h3, h4⟩ := Option.map_eq_some_iff.1 h2
          cases h4
          rw [takeBytes_more q h3]; rfl
        · next hm =>
          rw [if_neg hm]
          split at h2
          · next hm =>
            rw [if_pos hm]
            obtain ⟨⟨w, r'⟩, h3, h4⟩ := Option.map_eq_some_iff.1 h2
            cases h4
            rw [iha h3]; rfl
          · next hm =>
            rw [if_neg hm]
            split at h2
            · next hm =>
              rw [if_pos hm]
              obtain ⟨⟨w, r'⟩, h3, h4⟩ := Option.map_eq_some_iff.1 h2
              cases h4
              rw [ihf h3]; rfl
            · cases h2
    · cases n with
      | zero => simp only [readAll, Option.some.injEq, Prod.mk.injEq] at h ⊢; obtain ⟨rfl, rfl⟩ := h; exact ⟨rfl, rfl⟩
      | succ n =>
        rw [readAll] at h ⊢
        obtain ⟨⟨x, bs'⟩, h1, h2⟩ := Option.bind_eq_some_iff.1 h
        obtain ⟨⟨w, r'⟩, h3, h4⟩ := Option.map_eq_some_iff.1 h2
        cases h4
        rw [ihv h1, Option.bind_some]
        dsimp only
        rw [iha h3]; rfl
    · cases n with
      | zero =>
        simp only [readFields, Option.some.injEq, Prod.mk.injEq] at h ⊢; obtain ⟨rfl, rfl⟩ := h; exact ⟨rfl, rfl⟩
      | succ n =>
        rw [readFields] at h ⊢
        obtain ⟨⟨⟨m, len⟩, bs'⟩, h1, h2⟩ := Option.bind_eq_some_iff.1 h
        rw [readHead_more q h1, Option.bind_some]
        dsimp only at h2 ⊢
        split at h2
        · next hm =>
          rw [if_pos hm]
          obtain ⟨⟨k, b3⟩, h3, h4⟩ := Option.bind_eq_some_iff.1 h2
          obtain ⟨⟨x, b4⟩, h5, h6⟩ := Option.bind_eq_some_iff.1 h4
          obtain ⟨⟨w, r'⟩, h7, h8⟩ := Option.map_eq_some_iff.1 h6
          cases h8
          rw [takeBytes_more q h3, Option.bind_some]
          dsimp only
          rw [ihv h5, Option.bind_some]
          dsimp only
          rw [ihf h7]; rfl
        · cases h2

/-- No part of a text that was written is read. -/
theorem read_part {v : SVal} (h : Small v) {p q : List UInt8} (hpq : write v = p ++ q) (hq : q ≠ []) :
    read p = none := by
  by_contra hne
  obtain ⟨x, hx⟩ := Option.ne_none_iff_exists'.1 hne
  obtain ⟨⟨y, r⟩, h1, -⟩ := Option.map_eq_some_iff.1 hx
  have h2 := (read_more q _ (2 * (p ++ q).length + 2) (by simp)).1 h1
  have h3 := need_le v
  have h4 := readValue_write v h (2 * (p ++ q).length + 2) [] (by rw [← hpq]; omega)
  rw [List.append_nil, hpq, h2] at h4
  injection h4 with h4
  injection h4 with _ h4
  exact hq (List.append_eq_nil_iff.1 h4).2

theorem small_bytes {bs : List UInt8} (h : bs.length < 2 ^ 64) : Small (serBytes bs) := by
  rw [serBytes, Small]
  refine ⟨by simpa using h, ?_⟩
  clear h
  induction bs with
  | nil => simp [SmallAll]
  | cons b bs ih =>
    refine ⟨?_, ih⟩
    rw [Small]
    have := b.toNat_lt
    omega

theorem small_node {N : Nat} {n : Node N} (h : Fits n) : Small (serNode n) := by
  obtain ⟨r, b | l | d⟩ := n
  · obtain ⟨h1, h2, h3, h4⟩ := h
    have h1 : r < 2 ^ 64 := h1
    have hb : ∀ a : Arr N, Small (serBytes a.bytes) := fun a => small_bytes (by rw [a.len]; exact h4)
    simp only [serNode, serVariant, serBranch, Small, SmallFields, hb, and_true, true_and, h1, h2, h3,
      List.length_cons, List.length_nil]
    decide
  · obtain ⟨h1, h4⟩ := h
    have h1 : r < 2 ^ 64 := h1
    have hb : ∀ a : Arr N, Small (serBytes a.bytes) := fun a => small_bytes (by rw [a.len]; exact h4)
    simp only [serNode, serVariant, serLeaf, Small, SmallFields, hb, and_true, true_and, h1,
      List.length_cons, List.length_nil]
    decide
  · obtain ⟨h1, h4⟩ := h
    have h1 : r < 2 ^ 64 := h1
    have h4 : d.value.length < 2 ^ 64 := h4
    simp only [serNode, serVariant, serData, Small, SmallFields, small_bytes h4, and_true, true_and, h1,
      List.length_cons, List.length_nil]
    decide

/-- CBOR as a format. -/
def format : Format :=
  ⟨write, read, fun _ n h => by simpa using read_write (small_node h) []⟩

end MerkleBit.Serde.Cbor
