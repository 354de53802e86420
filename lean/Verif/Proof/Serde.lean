import Verif.Model.Serde
import Verif.Proof.Backends
import Verif.Proof.History
import Verif.Proof.Cost
import Verif.Spec.Script
/-!
# The five text and binary formats that describe themselves

`Json.format` reads back what it writes.
-/

namespace MerkleBit.Serde
namespace Json

mutual
/-- A value without byte strings, whose names contain no quote. -/
def Plain : SVal → Prop
  | .num _ => True
  | .bytes _ => False
  | .seq xs => PlainAll xs
  | .map fs => PlainFields fs
/-- Every element is plain. -/
def PlainAll : List SVal → Prop
  | [] => True
  | x :: xs => Plain x ∧ PlainAll xs
/-- Every entry is plain. -/
def PlainFields : List (List UInt8 × SVal) → Prop
  | [] => True
  | (k, v) :: fs => (34 ∉ k) ∧ Plain v ∧ PlainFields fs
end

mutual
/-- Steps to read a value. -/
def need : SVal → Nat
  | .num _ => 1
  | .bytes _ => 1
  | .seq xs => 1 + needAll xs
  | .map fs => 1 + needFields fs
/-- Steps to read the elements of a sequence. -/
def needAll : List SVal → Nat
  | [] => 0
  | x :: xs => 1 + need x + needAll xs
/-- Steps to read the entries of a map. -/
def needFields : List (List UInt8 × SVal) → Nat
  | [] => 0
  | (_, v) :: fs => 1 + need v + needFields fs
end

/-- Does not go on with a digit. -/
def Stops (rest : List UInt8) : Prop := ∀ b bs, rest = b :: bs → isDigit b = false

theorem readDigits_append (ds rest : List UInt8) (h : ∀ b ∈ ds, isDigit b = true) (hr : Stops rest) :
    ∀ acc, readDigits acc (ds ++ rest) = (ds.foldl (fun a b => 10 * a + (b.toNat - 48)) acc, rest) := by
  induction ds with
  | nil =>
    intro acc
    cases rest with
    | nil => rfl
    | cons b bs => simp [readDigits, hr b bs rfl]
  | cons d ds ih =>
    intro acc
    rw [List.cons_append, readDigits, if_pos (h d (by simp)), ih (fun b hb => h b (by simp [hb]))]
    rfl

theorem digit_toNat {k : Nat} (h : k < 10) : (UInt8.ofNat (48 + k)).toNat = 48 + k := by
  rw [UInt8.toNat_ofNat', Nat.mod_eq_of_lt (by omega)]

theorem isDigit_digit {k : Nat} (h : k < 10) : isDigit (UInt8.ofNat (48 + k)) = true := by
  have := digit_toNat h
  simp only [isDigit, Bool.and_eq_true, decide_eq_true_eq, UInt8.le_iff_toNat_le, this]
  exact ⟨by show 48 ≤ _; omega, by show _ ≤ 57; omega⟩

theorem revDigits_digit : ∀ fuel n, ∀ b ∈ revDigits fuel n, isDigit b = true := by
  intro fuel
  induction fuel with
  | zero => intro n b hb; simp [revDigits] at hb
  | succ fuel ih =>
    intro n b hb
    rw [revDigits, List.mem_cons] at hb
    rcases hb with rfl | hb
    · exact isDigit_digit (Nat.mod_lt _ (by omega))
    · split at hb
      · simp at hb
      · exact ih _ _ hb

theorem revDigits_value : ∀ fuel n, n < fuel →
    (revDigits fuel n).foldr (fun b a => 10 * a + (b.toNat - 48)) 0 = n := by
  intro fuel
  induction fuel with
  | zero => intro n h; omega
  | succ fuel ih =>
    intro n h
    rw [revDigits, List.foldr_cons, digit_toNat (Nat.mod_lt _ (by omega))]
    split
    · simp only [List.foldr_nil]; omega
    · rw [ih _ (by omega)]; omega

theorem digits_cons (n : Nat) : ∃ b bs, digits n = b :: bs ∧ isDigit b = true := by
  have h1 : digits n ≠ [] := by simp [digits, revDigits]
  obtain ⟨b, bs, h⟩ := List.exists_cons_of_ne_nil h1
  refine ⟨b, bs, h, revDigits_digit (n + 1) n b ?_⟩
  rw [← List.mem_reverse]
  have h2 : (revDigits (n + 1) n).reverse = b :: bs := h
  rw [h2]; simp

theorem readDigits_digits (n : Nat) {rest : List UInt8} (hr : Stops rest) :
    readDigits 0 (digits n ++ rest) = (n, rest) := by
  rw [readDigits_append _ _ _ hr]
  · rw [digits, List.foldl_reverse, revDigits_value _ _ (by omega)]
  · intro b hb
    exact revDigits_digit _ _ b (by simpa [digits] using hb)

theorem readName_append (k rest : List UInt8) (h : 34 ∉ k) :
    readName (k ++ 34 :: rest) = some (k, rest) := by
  induction k with
  | nil => simp [readName]
  | cons b k ih =>
    rw [List.mem_cons, not_or] at h
    rw [List.cons_append, readName, if_neg (fun e => h.1 e.symm), ih h.2]
    rfl

theorem stops_cons {b : UInt8} {bs : List UInt8} (h : isDigit b = false) : Stops (b :: bs) := by
  intro c cs e; cases e; exact h

theorem write_ne (v : SVal) : ∃ b bs, write v = b :: bs ∧ b ≠ 93 ∧ b ≠ 125 := by
  cases v with
  | num n =>
    obtain ⟨b, bs, h, hd⟩ := digits_cons n
    refine ⟨b, bs, by rw [write, h], ?_, ?_⟩ <;> rintro rfl <;> revert hd <;> decide
  | bytes bs => exact ⟨_, _, by rw [write], by decide, by decide⟩
  | seq xs => exact ⟨_, _, by rw [write], by decide, by decide⟩
  | map fs => exact ⟨_, _, by rw [write], by decide, by decide⟩

theorem commas_cons (x : List UInt8) {xs : List (List UInt8)} (h : xs ≠ []) :
    commas (x :: xs) = x ++ 44 :: commas xs := by
  cases xs with
  | nil => exact absurd rfl h
  | cons y ys => rfl

theorem writeAll_ne {x : SVal} {xs : List SVal} : writeAll (x :: xs) ≠ [] := by simp [writeAll]

theorem writeFields_ne {f : List UInt8 × SVal} {fs : List (List UInt8 × SVal)} :
    writeFields (f :: fs) ≠ [] := by cases f; simp [writeFields]

theorem commas_writeAll (x : SVal) (xs : List SVal) (rest : List UInt8) :
    ∃ b bs, commas (writeAll (x :: xs)) ++ rest = b :: bs ∧ b ≠ 93 := by
  obtain ⟨b, bs, h, h1, -⟩ := write_ne x
  rw [writeAll]
  cases xs with
  | nil => exact ⟨b, bs ++ rest, by simp [writeAll, commas, h], h1⟩
  | cons y ys => exact ⟨b, _, by rw [commas_cons _ writeAll_ne, h]; rfl, h1⟩

theorem commas_writeFields (k : List UInt8) (v : SVal) (fs : List (List UInt8 × SVal)) (rest : List UInt8) :
    ∃ bs, commas (writeFields ((k, v) :: fs)) ++ rest = 34 :: bs := by
  rw [writeFields]
  cases fs with
  | nil => exact ⟨_, by simp [writeFields, commas]; rfl⟩
  | cons y ys => exact ⟨_, by rw [commas_cons _ writeFields_ne]; rfl⟩

mutual
theorem readValue_write : ∀ (v : SVal), Plain v → ∀ fuel rest, need v ≤ fuel → Stops rest →
    readValue fuel (write v ++ rest) = some (v, rest)
  | .num n, _, fuel, rest, hf, hr => by
    obtain ⟨b, bs, h, hd⟩ := digits_cons n
    have hb1 : b ≠ 91 := by rintro rfl; revert hd; decide
    have hb2 : b ≠ 123 := by rintro rfl; revert hd; decide
    cases fuel with
    | zero => simp [need] at hf
    | succ fuel =>
      have := readDigits_digits n hr
      rw [h] at this
      rw [write, h, List.cons_append, readValue, if_neg hb1, if_neg hb2, if_pos hd,
        ← List.cons_append, this]
  | .bytes bs, hp, _, _, _, _ => by simp [Plain] at hp
  | .seq [], _, fuel, rest, hf, hr => by
    cases fuel with
    | zero => simp [need] at hf
    | succ fuel => simp [write, writeAll, commas, readValue]
  | .seq (x :: xs), hp, fuel, rest, hf, hr => by
    cases fuel with
    | zero => simp [need] at hf
    | succ fuel =>
      have ih := readAll_write x xs (by simpa only [Plain] using hp) fuel rest
        (by simp only [need] at hf ⊢; omega)
      obtain ⟨b, bs, h, hb⟩ := commas_writeAll x xs (93 :: rest)
      rw [h] at ih
      rw [write, List.cons_append, List.append_assoc, List.singleton_append, h, readValue, if_pos rfl]
      rw [if_neg (by simpa using hb), ih]; rfl
  | .map [], _, fuel, rest, hf, hr => by
    cases fuel with
    | zero => simp [need] at hf
    | succ fuel => simp [write, writeFields, commas, readValue]
  | .map ((k, v) :: fs), hp, fuel, rest, hf, hr => by
    cases fuel with
    | zero => simp [need] at hf
    | succ fuel =>
      have ih := readFields_write k v fs (by simpa only [Plain] using hp) fuel rest
        (by simp only [need] at hf ⊢; omega)
      obtain ⟨bs, h⟩ := commas_writeFields k v fs (125 :: rest)
      rw [h] at ih
      rw [write, List.cons_append, List.append_assoc, List.singleton_append, h, readValue,
        if_neg (by decide), if_pos rfl]
      rw [if_neg (by simp), ih]; rfl
termination_by _ _ fuel => fuel
theorem readAll_write : ∀ (x : SVal) (xs : List SVal), PlainAll (x :: xs) → ∀ fuel rest,
    needAll (x :: xs) ≤ fuel →
    readAll fuel (commas (writeAll (x :: xs)) ++ 93 :: rest) = some (x :: xs, rest)
  | x, [], hp, fuel, rest, hf => by
    cases fuel with
    | zero => simp [needAll] at hf
    | succ fuel =>
      rw [PlainAll] at hp
      have ih := readValue_write x hp.1 fuel (93 :: rest) (by simp only [needAll] at hf; omega)
        (stops_cons (by decide))
      rw [readAll, writeAll, writeAll, commas, ih]
      simp
  | x, y :: ys, hp, fuel, rest, hf => by
    cases fuel with
    | zero => simp [needAll] at hf
    | succ fuel =>
      rw [PlainAll] at hp
      have ih := readValue_write x hp.1 fuel (44 :: (commas (writeAll (y :: ys)) ++ 93 :: rest))
        (by simp only [needAll] at hf; omega) (stops_cons (by decide))
      have ih2 := readAll_write y ys hp.2 fuel rest (by rw [needAll] at hf; omega)
      rw [readAll, writeAll, commas_cons _ writeAll_ne, List.append_assoc, List.cons_append, ih]
      simp [ih2]
termination_by _ _ _ fuel => fuel
theorem readFields_write : ∀ (k : List UInt8) (v : SVal) (fs : List (List UInt8 × SVal)),
    PlainFields ((k, v) :: fs) → ∀ fuel rest, needFields ((k, v) :: fs) ≤ fuel →
    readFields fuel (commas (writeFields ((k, v) :: fs)) ++ 125 :: rest) = some ((k, v) :: fs, rest)
  | k, v, [], hp, fuel, rest, hf => by
    cases fuel with
    | zero => simp [needFields] at hf
    | succ fuel =>
      rw [PlainFields] at hp
      have ih := readValue_write v hp.2.1 fuel (125 :: rest) (by simp only [needFields] at hf; omega)
        (stops_cons (by decide))
      rw [writeFields, writeFields, commas, List.cons_append, List.append_assoc, List.cons_append,
        List.cons_append, readFields]
      simp [readName_append _ _ hp.1, ih]
  | k, v, (k', v') :: fs, hp, fuel, rest, hf => by
    cases fuel with
    | zero => simp [needFields] at hf
    | succ fuel =>
      rw [PlainFields] at hp
      have ih := readValue_write v hp.2.1 fuel
        (44 :: (commas (writeFields ((k', v') :: fs)) ++ 125 :: rest))
        (by simp only [needFields] at hf; omega) (stops_cons (by decide))
      have ih2 := readFields_write k' v' fs hp.2.2 fuel rest (by rw [needFields] at hf; omega)
      rw [writeFields, commas_cons _ writeFields_ne, List.append_assoc, List.cons_append, List.cons_append,
        List.append_assoc, List.cons_append, List.cons_append, readFields]
      simp [readName_append _ _ hp.1, ih, ih2]
termination_by _ _ _ _ fuel => fuel
end

mutual
theorem need_le : ∀ v, need v + 1 ≤ 2 * (write v).length
  | .num n => by
    obtain ⟨b, bs, h, -⟩ := digits_cons n
    rw [need, write, h, List.length_cons]; omega
  | .bytes bs => by simp only [need, write, List.length_cons, List.length_append]; omega
  | .seq xs => by
    have := needAll_le xs
    simp only [need, write, List.length_cons, List.length_append]; omega
  | .map fs => by
    have := needFields_le fs
    simp only [need, write, List.length_cons, List.length_append]; omega
theorem needAll_le : ∀ xs, needAll xs ≤ 2 * (commas (writeAll xs)).length
  | [] => by simp [needAll]
  | [x] => by
    have := need_le x
    simp only [needAll, writeAll, commas]; omega
  | x :: y :: ys => by
    have h1 := need_le x
    have h2 := needAll_le (y :: ys)
    rw [needAll, writeAll, commas_cons _ writeAll_ne]
    simp only [List.length_cons, List.length_append]; omega
theorem needFields_le : ∀ fs, needFields fs ≤ 2 * (commas (writeFields fs)).length
  | [] => by simp [needFields]
  | [(k, v)] => by
    have := need_le v
    simp only [needFields, writeFields, commas, List.length_cons, List.length_append]; omega
  | (k, v) :: f :: fs => by
    have h1 := need_le v
    have h2 := needFields_le (f :: fs)
    rw [needFields, writeFields, commas_cons _ writeFields_ne]
    simp only [List.length_cons, List.length_append]; omega
end

theorem read_write {v : SVal} (h : Plain v) : read (write v) = some v := by
  have h1 := need_le v
  have h2 := readValue_write v h (2 * (write v).length + 1) [] (by omega) (by intro b bs e; cases e)
  rw [List.append_nil] at h2
  rw [read, h2]

/-! ## Texts that are cut off or go on -/

theorem readDigits_more (q : List UInt8) : ∀ (bs : List UInt8) (acc : Nat),
    (readDigits acc bs).2 ≠ [] → readDigits acc (bs ++ q) =
      ((readDigits acc bs).1, (readDigits acc bs).2 ++ q)
  | [], acc, h => absurd rfl h
  | b :: bs, acc, h => by
    by_cases hb : isDigit b = true
    · simp only [List.cons_append, readDigits, if_pos hb] at h ⊢
      exact readDigits_more q bs _ h
    · simp only [List.cons_append, readDigits, if_neg hb] at h ⊢

theorem readName_more (q : List UInt8) : ∀ {bs k r : List UInt8}, readName bs = some (k, r) →
    readName (bs ++ q) = some (k, r ++ q)
  | [], _, _, h => by simp [readName] at h
  | b :: bs, k, r, h => by
    rw [List.cons_append]
    rw [readName] at h ⊢
    split at h
    · next hb => rw [if_pos hb]; cases h; rfl
    · next hb =>
      rw [if_neg hb]
      obtain ⟨⟨k', r'⟩, h1, h2⟩ := Option.map_eq_some_iff.1 h
      cases h2
      rw [readName_more q h1]; rfl

theorem head_more {bs : List UInt8} {b : UInt8} (q : List UInt8) (h : bs.head? = some b) :
    (bs ++ q).head? = some b ∧ (bs ++ q).tail = bs.tail ++ q := by
  cases bs with
  | nil => cases h
  | cons c cs => exact ⟨h, rfl⟩

theorem read_more (q : List UInt8) : ∀ (f f' : Nat), f ≤ f' →
    (∀ {bs x r}, readValue f bs = some (x, r) → (r ≠ [] ∨ bs.head? = some 123) →
      readValue f' (bs ++ q) = some (x, r ++ q)) ∧
    (∀ {bs xs r}, readAll f bs = some (xs, r) → readAll f' (bs ++ q) = some (xs, r ++ q)) ∧
    (∀ {bs fs r}, readFields f bs = some (fs, r) → readFields f' (bs ++ q) = some (fs, r ++ q)) := by
  intro f
  induction f with
  | zero =>
    intro f' _
    exact ⟨fun h => by simp [readValue] at h, fun h => by simp [readAll] at h,
      fun h => by simp [readFields] at h⟩
  | succ f ih =>
    intro f' hf
    obtain ⟨f', rfl⟩ : ∃ g, f' = g + 1 := ⟨f' - 1, by omega⟩
    obtain ⟨ihv, iha, ihf⟩ := ih f' (by omega)
    refine ⟨?_, ?_, ?_⟩
    · intro bs x r h hr
      cases bs with
      | nil => simp [readValue] at h
      | cons b bs =>
        rw [List.cons_append]
        rw [readValue] at h ⊢
        by_cases h1 : b = 91
        · rw [if_pos h1] at h ⊢
          by_cases h2 : bs.head? = some 93
          · rw [if_pos h2] at h
            obtain ⟨h3, h4⟩ := head_more q h2
            rw [if_pos h3, h4]
            cases h; rfl
          · rw [if_neg h2] at h
            obtain ⟨⟨xs, r'⟩, h3, h4⟩ := Option.map_eq_some_iff.1 h
            cases h4
            rw [if_neg, iha h3]
            · rfl
            · intro h5
              cases bs with
              | cons c cs => exact h2 h5
              | nil =>
                rcases f with _ | _ | f
                · simp [readAll] at h3
                · simp [readAll, readValue] at h3
                · simp [readAll, readValue] at h3
        · rw [if_neg h1] at h ⊢
          by_cases h0 : b = 123
          · rw [if_pos h0] at h ⊢
            by_cases h2 : bs.head? = some 125
            · rw [if_pos h2] at h
              obtain ⟨h3, h4⟩ := head_more q h2
              rw [if_pos h3, h4]
              cases h; rfl
            · rw [if_neg h2] at h
              obtain ⟨⟨xs, r'⟩, h3, h4⟩ := Option.map_eq_some_iff.1 h
              cases h4
              rw [if_neg, ihf h3]
              · rfl
              · intro h5
                cases bs with
                | cons c cs => exact h2 h5
                | nil => cases f <;> simp [readFields] at h3
          · rw [if_neg h0] at h ⊢
            by_cases hd : isDigit b = true
            · rw [if_pos hd] at h ⊢
              cases h
              have hr' : (readDigits 0 (b :: bs)).2 ≠ [] := by
                rcases hr with hr | hr
                · exact hr
                · exact absurd (Option.some.inj hr) h0
              have := readDigits_more q (b :: bs) 0 hr'
              rw [List.cons_append] at this
              rw [this]
            · rw [if_neg hd] at h; cases h
    · intro bs xs r h
      rw [readAll] at h ⊢
      obtain ⟨⟨x, rest⟩, h1, h2⟩ := Option.bind_eq_some_iff.1 h
      have hne : rest ≠ [] := by rintro rfl; simp at h2
      rw [ihv h1 (.inl hne), Option.bind_some]
      dsimp only at h2 ⊢
      by_cases h3 : rest.head? = some 44
      · rw [if_pos h3] at h2
        obtain ⟨h4, h5⟩ := head_more q h3
        obtain ⟨⟨ys, r'⟩, h6, h7⟩ := Option.map_eq_some_iff.1 h2
        cases h7
        rw [if_pos h4, h5, iha h6]; rfl
      · rw [if_neg h3] at h2
        split at h2
        · next h4 =>
          obtain ⟨h5, h6⟩ := head_more q h4
          cases h2
          rw [if_neg (by rw [h5]; decide), if_pos h5, h6]
        · cases h2
    · intro bs fs r h
      rw [readFields] at h ⊢
      split at h
      · next h0 =>
        obtain ⟨h0, h0'⟩ := head_more q h0
        rw [if_pos h0, h0']
        obtain ⟨⟨k, cs⟩, h1, h⟩ := Option.bind_eq_some_iff.1 h
        rw [readName_more q h1, Option.bind_some]
        dsimp only at h ⊢
        split at h
        · next h2 =>
          obtain ⟨h2, h2'⟩ := head_more q h2
          rw [if_pos h2, h2']
          obtain ⟨⟨x, rest⟩, h1, h2⟩ := Option.bind_eq_some_iff.1 h
          have hne : rest ≠ [] := by rintro rfl; simp at h2
          rw [ihv h1 (.inl hne), Option.bind_some]
          dsimp only at h2 ⊢
          by_cases h3 : rest.head? = some 44
          · rw [if_pos h3] at h2
            obtain ⟨h4, h5⟩ := head_more q h3
            obtain ⟨⟨ys, r'⟩, h6, h7⟩ := Option.map_eq_some_iff.1 h2
            cases h7
            rw [if_pos h4, h5, ihf h6]; rfl
          · rw [if_neg h3] at h2
            split at h2
            · next h4 =>
              obtain ⟨h5, h6⟩ := head_more q h4
              cases h2
              rw [if_neg (by rw [h5]; decide), if_pos h5, h6]
            · cases h2
        · cases h
      · cases h

/-- Of a text that begins with a brace and is read, no part is read and no continuation. -/
theorem read_whole {p q : List UInt8} (hp : p.head? = some 123) (h : (read p).isSome) (hq : q ≠ []) :
    read (p ++ q) = none := by
  have hv : ∃ x, readValue (2 * p.length + 1) p = some (x, []) := by
    unfold read at h
    split at h
    · next v e => exact ⟨v, e⟩
    · cases h
  obtain ⟨x, hx⟩ := hv
  have := (read_more q _ (2 * (p ++ q).length + 1) (by simp)).1 hx (.inr hp)
  cases q with
  | nil => exact absurd rfl hq
  | cons b q =>
    rw [read, this]; rfl

theorem write_head {N : Nat} (n : Node N) : (write (serNode n)).head? = some 123 := rfl

theorem plain_bytes (bs : List UInt8) : Plain (serBytes bs) := by
  rw [serBytes, Plain]
  induction bs with
  | nil => simp [PlainAll]
  | cons b bs ih => exact ⟨trivial, ih⟩

theorem plain_node {N : Nat} (n : Node N) : Plain (serNode n) := by
  obtain ⟨r, v⟩ := n
  cases v <;>
  simp only [serNode, serVariant, serBranch, serLeaf, serData, Plain, PlainFields, plain_bytes, and_true,
    true_and] <;> decide

/-- JSON as a format. -/
def format : Format := ⟨write, read, fun _ n _ => read_write (plain_node n)⟩

end Json

variable {N : Nat}

/-! ## Which nodes are read back -/

theorem mapM_deByte (bs : List UInt8) :
    (bs.map (fun b => SVal.num b.toNat)).mapM deByte = some bs := by
  induction bs with
  | nil => rfl
  | cons b bs ih =>
    rw [List.map_cons, List.mapM_cons, ih]
    simp [deByte, b.toNat_lt]

theorem deArr_serBytes (bs : List UInt8) : deArr N (serBytes bs) = none := rfl

theorem deNode_branch (c : Nat) (b : Branch N) : deNode N (serNode ⟨c, .branch b⟩) = none := by
  have h1 : field "node" (serNode (⟨c, .branch b⟩ : Node N)) = some (serVariant (.branch b)) := rfl
  have h2 : deVariant N (serVariant (.branch b)) = none := by
    show (deBranch N (serBranch b)).map Variant.branch = none
    have h3 : (field "zero" (serBranch b)).bind (deArr N) = none := rfl
    simp only [deBranch, h3]
    cases (field "count" (serBranch b)).bind deNum <;> rfl
  simp only [deNode, h1, Option.bind_some, h2]
  cases (field "references" (serNode (⟨c, .branch b⟩ : Node N))).bind deNum <;> rfl

theorem deNode_leaf (c : Nat) (l : Leaf N) : deNode N (serNode ⟨c, .leaf l⟩) = none := by
  have h1 : field "node" (serNode (⟨c, .leaf l⟩ : Node N)) = some (serVariant (.leaf l)) := rfl
  have h2 : deVariant N (serVariant (.leaf l)) = none := rfl
  simp only [deNode, h1, Option.bind_some, h2]
  cases (field "references" (serNode (⟨c, .leaf l⟩ : Node N))).bind deNum <;> rfl

theorem deNode_data (c : Nat) (d : Data) :
    deNode N (serNode (⟨c, .data d⟩ : Node N)) = if c < 2 ^ 64 then some ⟨c, .data d⟩ else none := by
  have h1 : field "node" (serNode (⟨c, .data d⟩ : Node N)) = some (serVariant (.data d : Variant N)) := rfl
  have h0 : field "references" (serNode (⟨c, .data d⟩ : Node N)) = some (.num c) := rfl
  have h2 : deVariant N (serVariant (.data d : Variant N)) = some (.data d) := by
    show (deData (serData d)).map Variant.data = _
    have h3 : field "value" (serData d) = some (serBytes d.value) := rfl
    simp only [deData, h3, serBytes, Option.bind_some, deBytes, mapM_deByte]
    rfl
  simp only [deNode, h1, h0, Option.bind_some, h2, deNum]
  split <;> rfl

/-- What is read back is what was written. -/
theorem deNode_serNode {n m : Node N} (h : deNode N (serNode n) = some m) :
    m = n ∧ ∃ d, n.variant = .data d := by
  obtain ⟨c, v⟩ := n
  cases v with
  | branch b => rw [deNode_branch] at h; cases h
  | leaf l => rw [deNode_leaf] at h; cases h
  | data d =>
    rw [deNode_data] at h
    split at h
    · cases h; exact ⟨rfl, d, rfl⟩
    · cases h

theorem serBytes_inj {a b : List UInt8} (h : serBytes a = serBytes b) : a = b := by
  have h1 := mapM_deByte a
  rw [serBytes, serBytes, SVal.seq.injEq] at h
  rw [h, mapM_deByte] at h1
  exact (Option.some.inj h1).symm

theorem arr_ext {a b : Arr N} (h : serBytes a.bytes = serBytes b.bytes) : a = b := by
  obtain ⟨x, hx⟩ := a
  obtain ⟨y, hy⟩ := b
  have := serBytes_inj h
  dsimp only at this
  subst this
  rfl

theorem serNode_inj {m n : Node N} (h : serNode m = serNode n) : m = n := by
  obtain ⟨c, v⟩ := m
  obtain ⟨c', v'⟩ := n
  simp only [serNode, SVal.map.injEq, List.cons.injEq, Prod.mk.injEq, SVal.num.injEq, true_and,
    and_true] at h
  obtain ⟨rfl, h⟩ := h
  have hBL : name "Branch" ≠ name "Leaf" := by decide
  have hBD : name "Branch" ≠ name "Data" := by decide
  have hLD : name "Leaf" ≠ name "Data" := by decide
  cases v <;> cases v' <;>
    simp only [serVariant, SVal.map.injEq, List.cons.injEq, Prod.mk.injEq, true_and, and_true,
      hBL, hBD, hLD, hBL.symm, hBD.symm, hLD.symm, false_and] at h
  case branch b b' =>
    obtain ⟨c1, z, o, i, k⟩ := b
    obtain ⟨c2, z', o', i', k'⟩ := b'
    simp only [serBranch, SVal.map.injEq, List.cons.injEq, Prod.mk.injEq, SVal.num.injEq, true_and,
      and_true] at h
    obtain ⟨h1, h2, h3, h4, h5⟩ := h
    have e2 := arr_ext h2
    have e3 := arr_ext h3
    have e5 := arr_ext h5
    subst h1 e2 e3 h4 e5
    rfl
  case leaf b b' =>
    obtain ⟨k, d⟩ := b
    obtain ⟨k', d'⟩ := b'
    simp only [serLeaf, SVal.map.injEq, List.cons.injEq, Prod.mk.injEq, true_and, and_true] at h
    have e2 := arr_ext h.1
    have e3 := arr_ext h.2
    subst e2 e3
    rfl
  case data b b' =>
    obtain ⟨d⟩ := b
    obtain ⟨d'⟩ := b'
    simp only [serData, SVal.map.injEq, List.cons.injEq, Prod.mk.injEq, true_and, and_true] at h
    rw [serBytes_inj h]

variable {F : Format}

theorem write_inj {m n : Node N} (hm : Fits m) (hn : Fits n)
    (h : F.write (serNode m) = F.write (serNode n)) : m = n := by
  have h1 := F.reads_back N m hm
  rw [h, F.reads_back N n hn] at h1
  exact serNode_inj (Option.some.inj h1).symm

theorem decode_write {n : Node N} (hn : Fits n) : (F.codec N).decode (F.write (serNode n)) =
    match n.variant with
    | .data _ => .ok n
    | _ => .error (.exception "serde") := by
  obtain ⟨c, v⟩ := n
  simp only [Format.codec, F.reads_back N _ hn, Option.bind_some]
  cases v with
  | branch b => rw [deNode_branch]
  | leaf l => rw [deNode_leaf]
  | data d => rw [deNode_data, if_pos hn.1]

/-! ## RocksDB with such a format -/

open Classical in
/-- The node that was written, or that would be read. -/
noncomputable def meaning (F : Format) (N : Nat) (b : List UInt8) : Node N :=
  if h : ∃ n : Node N, Fits n ∧ b = F.write (serNode n) then h.choose else decodeOr (F.codec N) b

theorem meaning_write {n : Node N} (hn : Fits n) : meaning F N (F.write (serNode n)) = n := by
  have h : ∃ m : Node N, Fits m ∧ F.write (serNode n) = F.write (serNode m) := ⟨n, hn, rfl⟩
  rw [meaning, dif_pos h]
  exact (write_inj hn h.choose_spec.1 h.choose_spec.2).symm

theorem meaning_decode {b : List UInt8} {n : Node N} (h : (F.codec N).decode b = .ok n) :
    meaning F N b = n := by
  by_cases hw : ∃ m : Node N, Fits m ∧ b = F.write (serNode m)
  · obtain ⟨m, hm, rfl⟩ := hw
    rw [meaning_write hm]
    rw [decode_write hm] at h
    obtain ⟨c, v⟩ := m
    cases v <;> dsimp only at h <;> cases h
    rfl
  · rw [meaning, dif_neg hw, decodeOr, h]

/-- RocksDB with such a format meets the database contract, except that any of its calls may fail. -/
noncomputable def contract (F : Format) (env : RocksEnv N) : DbContract (rocksDatabase (F.codec N) env) where
  view s := fun x => (s.db.get? x).map (meaning F N)
  pending s := fun x => (queued (s.pending.getD []) x).map (meaning F N)
  alive _ := False
  getNode_ok := by
    intro s x r h
    simp only [rocksDatabase] at h
    split at h
    · cases h
    · split at h
      · next hb =>
        split at h
        · next hn => cases h; simp [hb, meaning_decode hn]
        · cases h
      · next hb => cases h; simp [hb]
  getNode_err := by
    intro s x e h
    refine ⟨id, ?_⟩
    simp only [rocksDatabase] at h
    split at h
    · cases h; exact ⟨_, rfl⟩
    · split at h
      · split at h
        · cases h
        · next he =>
          cases h
          simp only [Format.codec] at he
          split at he
          · cases he
          · cases he; exact ⟨_, rfl⟩
      · cases h
  insert_ok := by
    intro s s' x n h
    refine ⟨False.elim, .inr ?_⟩
    simp only [rocksDatabase, Format.codec] at h
    by_cases hn : Fits n
    · simp only [if_pos hn] at h
      have hq : ∀ batch y, (queued (batch ++ [(x, F.write (serNode n))]) y).map (meaning F N) =
          View.put (fun y => (queued batch y).map (meaning F N)) x n y := by
        intro batch y
        rw [queued_snoc]
        unfold View.put
        split
        · simp [meaning_write hn]
        · rfl
      cases hp : s.pending with
      | some wb =>
        rw [hp] at h
        cases h
        exact ⟨rfl, by funext y; simpa using hq wb y⟩
      | none =>
        rw [hp] at h
        cases h
        exact ⟨rfl, by funext y; simpa using hq [] y⟩
    · simp only [if_neg hn] at h
      cases h
  insert_err := by
    intro s s' x n e h
    simp only [rocksDatabase, Format.codec] at h
    by_cases hn : Fits n
    · simp only [if_pos hn] at h
      split at h <;> cases h
    · simp only [if_neg hn] at h
      cases h
      exact ⟨id, ⟨_, rfl⟩, rfl, rfl⟩
  remove_ok := by
    intro s s' x h
    simp only [rocksDatabase] at h
    split at h
    · cases h
    · cases h
      refine ⟨False.elim, ?_, rfl⟩
      funext y
      simp only [AMap.get?_erase, View.del]
      split <;> rfl
  remove_err := by
    intro s s' x e h
    simp only [rocksDatabase] at h
    split at h
    · cases h; exact ⟨id, ⟨_, rfl⟩, rfl, rfl⟩
    · cases h
  batchWrite_ok := by
    intro s s' h
    refine ⟨False.elim, ?_⟩
    simp only [rocksDatabase] at h
    cases hp : s.pending with
    | none =>
      rw [hp] at h
      cases h
      refine ⟨?_, ?_⟩
      · funext y; simp [View.overlay, queued]
      · funext y; simp [hp, queued, View.empty]
    | some wb =>
      rw [hp] at h
      dsimp only at h
      split at h
      · cases h
      · cases h
        refine ⟨?_, ?_⟩
        · funext y
          simp only [applyBatch_get?, View.overlay, Option.getD_some]
          cases queued wb y <;> simp
        · funext y; simp [queued, View.empty]
  batchWrite_err := by
    intro s s' e h
    simp only [rocksDatabase] at h
    split at h
    · split at h
      · cases h
        refine ⟨id, ⟨_, rfl⟩, rfl, .inr ?_⟩
        funext y; simp [queued, View.empty]
      · cases h
    · cases h

/-- Everything stored and queued was written for a node. -/
def Written (F : Format) (s : RocksDB N) : Prop :=
  (∀ x b, s.db.get? x = some b → ∃ n : Node N, Fits n ∧ b = F.write (serNode n)) ∧
  ∀ x b, queued (s.pending.getD []) x = some b → ∃ n : Node N, Fits n ∧ b = F.write (serNode n)

theorem Written.open : Written F (RocksDB.open N) :=
  And.intro (fun x b h => by cases h) (fun x b h => by cases h)

variable {env : RocksEnv N} {s : RocksDB N}

theorem Written.insert (h : Written F s) (x : Arr N) (n : Node N) :
    Written F ((rocksDatabase (F.codec N) env).insert x n s).2 := by
  simp only [rocksDatabase, Format.codec]
  by_cases hn : Fits n
  · simp only [if_pos hn]
    have hq : ∀ batch : List (Arr N × List UInt8),
        (∀ y b, queued batch y = some b → ∃ n : Node N, Fits n ∧ b = F.write (serNode n)) →
        ∀ y b, queued (batch ++ [(x, F.write (serNode n))]) y = some b →
          ∃ n : Node N, Fits n ∧ b = F.write (serNode n) := by
      intro batch hb y b hy
      rw [queued_snoc] at hy
      split at hy
      · cases hy; exact ⟨n, hn, rfl⟩
      · exact hb y b hy
    obtain ⟨h1, h2⟩ := h
    cases hp : s.pending with
    | some wb => rw [hp] at h2; exact ⟨h1, hq wb h2⟩
    | none => rw [hp] at h2; exact ⟨h1, hq [] h2⟩
  · simp only [if_neg hn]
    exact h

theorem Written.remove (h : Written F s) (x : Arr N) :
    Written F ((rocksDatabase (F.codec N) env).remove x s).2 := by
  simp only [rocksDatabase]
  split
  · exact h
  · refine ⟨fun y b hy => ?_, h.2⟩
    simp only [AMap.get?_erase] at hy
    split at hy
    · cases hy
    · exact h.1 y b hy

theorem Written.flush (h : Written F s) : Written F ((rocksDatabase (F.codec N) env).batchWrite s).2 := by
  obtain ⟨h1, h2⟩ := h
  simp only [rocksDatabase]
  split
  · next wb hp =>
    rw [hp] at h2
    split
    · exact ⟨h1, fun x b hb => by simp [queued] at hb⟩
    · refine ⟨fun x b hb => ?_, fun x b hb => by simp [queued] at hb⟩
      simp only [applyBatch_get?] at hb
      cases hq : queued wb x with
      | none => rw [hq] at hb; exact h1 x b hb
      | some c => rw [hq] at hb; cases hb; exact h2 x _ hq
  · exact ⟨h1, h2⟩

/-- A branch or a leaf is never read. -/
theorem Written.getNode (h : Written F s) {x : Arr N} {n : Node N}
    (hn : (rocksDatabase (F.codec N) env).getNode s x = .ok (some n)) : ∃ d, n.variant = .data d := by
  simp only [rocksDatabase] at hn
  split at hn
  · cases hn
  · split at hn
    · next b hb =>
      obtain ⟨m, hm, rfl⟩ := h.1 x b hb
      rw [decode_write hm] at hn
      obtain ⟨c, v⟩ := m
      cases v <;> dsimp only at hn <;> cases hn
      exact ⟨_, rfl⟩
    · cases hn

/-- Following the invariant through a run. -/
def meter (F : Format) (env : RocksEnv N) :
    Meter (rocksDatabase (F.codec N) env) (rocksDatabase (F.codec N) env) where
  I _ _ s s' := s' = s ∧ Written F s
  Seen _ _ := True
  mono h _ _ := h
  get h := by rw [h.1]
  seen _ := trivial
  fresh h := by rw [h.1]; exact ⟨rfl, rfl, h.2.insert _ _⟩
  again _ h := by rw [h.1]; exact ⟨rfl, h.2.insert _ _⟩
  flush h := by rw [h.1]; exact ⟨rfl, rfl, h.2.flush⟩
  insert_seen _ := trivial
  flush_seen _ := trivial

section
variable {V : Type} {cfg : Config N (RocksDB N) V}

theorem Written.insertCall (hdb : cfg.db = rocksDatabase (F.codec N) env) (h : Written F s)
    (prev : Option (Arr N)) (keys : List (Arr N)) (values : List V) :
    Written F (MerkleBit.insert cfg prev keys values s).2 := by
  obtain ⟨db, hasher, enc, dec, pp, depth⟩ := cfg
  dsimp only at hdb
  subst hdb
  exact (costs_insert (K := meter F env) (P := fun _ => True)
    (cfg := ⟨rocksDatabase (F.codec N) env, hasher, enc, dec, pp, depth⟩)
    prev keys values 0 0 s s trivial ⟨rfl, h⟩).2.1.2

theorem Written.insertLeaves (hdb : cfg.db = rocksDatabase (F.codec N) env) (h : Written F s)
    (vm : AMap (Arr N) V) (ks : List (Arr N)) :
    Written F (MerkleBit.insertLeaves cfg vm ks s).2 := by
  obtain ⟨db, hasher, enc, dec, pp, depth⟩ := cfg
  dsimp only at hdb
  subst hdb
  exact (costs_insertLeaves (K := meter F env)
    (cfg := ⟨rocksDatabase (F.codec N) env, hasher, enc, dec, pp, depth⟩)
    vm ks 0 0 s s trivial ⟨rfl, h⟩).2.1.2

/-- A tree cannot be built on top of another one. -/
theorem Written.extend (hdb : cfg.db = rocksDatabase (F.codec N) env) (h : Written F s)
    (r : Arr N) (ks : List (Arr N)) (km : AMap (Arr N) (Arr N)) (v : List (TreeRef N)) :
    (generateTreerefs cfg r ks km s).1 ≠ .ok v := by
  intro hv
  unfold generateTreerefs at hv
  change ((M.bind (dbGet cfg r) _) s).1 = _ at hv
  simp only [M.bind, dbGet, M.read] at hv
  cases hg : cfg.db.getNode s r with
  | error e => rw [hg] at hv; cases hv
  | ok o =>
    rw [hg] at hv
    cases o with
    | none => cases hv
    | some n =>
      rw [hdb] at hg
      obtain ⟨d, hd⟩ := h.getNode hg
      dsimp only at hv
      rw [traversalFuel, traverseTree, if_neg (by simp)] at hv
      simp only [hd] at hv
      cases hv

/-- A root that is held cannot be read. -/
theorem Written.root (hdb : cfg.db = rocksDatabase (F.codec N) env) (h : Written F s) {r : Arr N}
    (ht : HasTree cfg ((contract F env).view s) r) :
    ∃ msg, cfg.db.getNode s r = .error (.exception msg) := by
  have key : ∀ {c v}, (contract F env).view s r = some ⟨c, v⟩ → (∀ d, v ≠ .data d) →
      ∃ msg, cfg.db.getNode s r = .error (.exception msg) := by
    intro c v hv hd
    change (s.db.get? r).map (meaning F N) = _ at hv
    rw [Option.map_eq_some_iff] at hv
    obtain ⟨b, hb, hm⟩ := hv
    rw [hdb]
    simp only [rocksDatabase, hb]
    split
    · exact ⟨_, rfl⟩
    · obtain ⟨n, hn, rfl⟩ := h.1 r b hb
      rw [meaning_write hn] at hm
      subst hm
      rw [decode_write hn]
      cases v with
      | data d => exact absurd rfl (hd d)
      | branch b => exact ⟨_, rfl⟩
      | leaf l => exact ⟨_, rfl⟩
  obtain ⟨T, rfl, -, hs⟩ := ht
  cases T with
  | leaf k v =>
    obtain ⟨c, hc⟩ := hs.1
    exact key hc (fun d h => by cases h)
  | node a b =>
    obtain ⟨c, hc⟩ := hs.1
    exact key hc (fun d h => by cases h)

theorem Written.removeLoop (hdb : cfg.db = rocksDatabase (F.codec N) env) : ∀ fuel nodes (s : RocksDB N),
    Written F s → Written F (MerkleBit.removeLoop cfg fuel nodes s).2
  | _, [], s, h => by rw [MerkleBit.removeLoop]; exact h
  | 0, _ :: _, s, h => h
  | fuel + 1, x :: nodes, s, h => by
    rw [MerkleBit.removeLoop]
    show Written F ((M.bind (dbGet cfg x) _) s).2
    simp only [M.bind, dbGet, M.read, hdb]
    cases hg : (rocksDatabase (F.codec N) env).getNode s x with
    | error e => exact h
    | ok o =>
      cases o with
      | none => exact Written.removeLoop hdb fuel nodes s h
      | some n =>
        have hrm : ∀ q, Written F ((M.bind ((rocksDatabase (F.codec N) env).remove x)
            (fun _ => MerkleBit.removeLoop cfg fuel q)) s).2 := by
          intro q
          have hr := h.remove (env := env) x
          simp only [M.bind]
          rcases hx : (rocksDatabase (F.codec N) env).remove x s with ⟨r, s'⟩
          rw [hx] at hr
          cases r with
          | error e => exact hr
          | ok u => exact Written.removeLoop hdb fuel q s' hr
        have hin : ∀ q m, Written F ((M.bind ((rocksDatabase (F.codec N) env).insert x m)
            (fun _ => MerkleBit.removeLoop cfg fuel q)) s).2 := by
          intro q m
          have hr := h.insert (env := env) x m
          simp only [M.bind]
          rcases hx : (rocksDatabase (F.codec N) env).insert x m s with ⟨r, s'⟩
          rw [hx] at hr
          cases r with
          | error e => exact hr
          | ok u => exact Written.removeLoop hdb fuel q s' hr
        dsimp only
        split
        · cases n.variant with
          | branch b => exact hrm _
          | leaf l => exact hrm _
          | data d => exact hrm _
        · exact hin _ _

theorem Written.removeCall (hdb : cfg.db = rocksDatabase (F.codec N) env) (h : Written F s) (r : Arr N) :
    Written F (MerkleBit.remove cfg r s).2 := by
  have h1 := Written.removeLoop hdb (removeFuel N) [r] s h
  unfold MerkleBit.remove
  show Written F ((M.bind _ _) s).2
  unfold M.bind
  rcases hx : MerkleBit.removeLoop cfg (removeFuel N) [r] s with ⟨res, s'⟩
  rw [hx] at h1
  cases res with
  | error e => exact h1
  | ok u =>
    dsimp only
    rw [hdb]
    exact h1.flush

end

end MerkleBit.Serde
