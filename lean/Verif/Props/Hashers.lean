import Verif.Model.Hashers
import Verif.Props.Structure
/-!
# C44: hasher adapters
-/

namespace MerkleBit
variable {N : Nat}

/-- The digest cut off or padded with zeros to `N` bytes. -/
def fitted (N : Nat) (d : List UInt8) : List UInt8 := d.take N ++ List.replicate (N - d.length) 0

theorem finalize64_eq {d : List UInt8} (hd : d.length = 8) :
    ∃ v, finalize64 N d = .ok v ∧ v.bytes = fitted N d := by
  unfold finalize64 fitted
  split
  · next h =>
    refine ⟨_, by rw [copyTo, dif_pos ⟨h, hd⟩], ?_⟩
    simp [Arr.zero, hd, List.take_of_length_le (show d.length ≤ N by omega)]
  · next h =>
    have h1 : sliceTo d N = .ok (d.take N) := if_pos (by omega)
    simp only [h1, Bind.bind, Except.bind]
    refine ⟨_, by rw [copyTo, dif_pos ⟨Nat.le_refl _, by simp; omega⟩], ?_⟩
    simp [Arr.zero]; omega

theorem finalizeSha256_eq {d : List UInt8} (hd : d.length = 32) :
    ∃ v, finalizeSha256 N d = .ok v ∧ v.bytes = fitted N d := by
  unfold finalizeSha256 fitted
  split
  · next h =>
    refine ⟨_, by rw [copyTo, dif_pos ⟨by omega, hd⟩], ?_⟩
    simp [Arr.zero, hd, List.take_of_length_le (show d.length ≤ N by omega)]
  · next h =>
    have h1 : sliceTo d N = .ok (d.take N) := if_pos (by omega)
    simp only [h1, Bind.bind, Except.bind]
    refine ⟨_, by rw [copyTo, dif_pos ⟨Nat.le_refl _, by simp; omega⟩], ?_⟩
    simp [Arr.zero]; omega

theorem finalizeDigest_eq (d : List UInt8) :
    ∃ v, finalizeDigest N d = .ok v ∧ v.bytes = fitted N d := by
  unfold finalizeDigest fitted
  by_cases h : N > d.length
  · simp only [h, if_true]
    have h1 : sliceTo d d.length = .ok d := by
      rw [sliceTo, if_pos (Nat.le_refl _), List.take_length]
    simp only [h1, Bind.bind, Except.bind]
    refine ⟨_, by rw [copyTo, dif_pos ⟨by omega, rfl⟩], ?_⟩
    simp [Arr.zero, List.take_of_length_le (show d.length ≤ N by omega)]
  · simp only [h, if_false]
    have h1 : sliceTo d N = .ok (d.take N) := if_pos (by omega)
    simp only [h1, Bind.bind, Except.bind]
    refine ⟨_, by rw [copyTo, dif_pos ⟨Nat.le_refl _, by simp; omega⟩], ?_⟩
    simp [Arr.zero]; omega

/-- C44: the 64-bit hashers, SHA-256 and the `Digest` adapter never panic and yield the digest cut
off or zero-padded to `N` bytes, for every `N`. -/
theorem C44_truncate_or_pad (N : Nat) :
    (∀ d, d.length = 8 → ∃ v, finalize64 N d = .ok v ∧ v.bytes = fitted N d) ∧
    (∀ d, d.length = 32 → ∃ v, finalizeSha256 N d = .ok v ∧ v.bytes = fitted N d) ∧
    (∀ d, ∃ v, finalizeDigest N d = .ok v ∧ v.bytes = fitted N d) :=
  ⟨fun _ h => finalize64_eq h, fun _ h => finalizeSha256_eq h, finalizeDigest_eq⟩

theorem fitted_inj {d d' : List UInt8} (hl : d.length = d'.length)
    (h : fitted N d = fitted N d') : d.take N = d'.take N := by
  unfold fitted at h
  exact (List.append_inj h (by simp [hl])).1

/-- C44: two digests that differ in their first `N` bytes give different locations. -/
theorem C44_prefixes_kept {d d' : List UInt8} (hl : d.length = d'.length)
    (hne : d.take N ≠ d'.take N) :
    (d.length = 8 → finalize64 N d ≠ finalize64 N d') ∧
    (d.length = 32 → finalizeSha256 N d ≠ finalizeSha256 N d') ∧
    finalizeDigest N d ≠ finalizeDigest N d' := by
  have key : ∀ {f : List UInt8 → Res (Arr N)}, (∃ v, f d = .ok v ∧ v.bytes = fitted N d) →
      (∃ v, f d' = .ok v ∧ v.bytes = fitted N d') → f d ≠ f d' := by
    rintro f ⟨v, h1, h2⟩ ⟨v', h1', h2'⟩ h
    rw [h1, h1'] at h
    cases h
    exact hne (fitted_inj hl (h2.symm.trans h2'))
  exact ⟨fun h => key (finalize64_eq h) (finalize64_eq (hl ▸ h)),
    fun h => key (finalizeSha256_eq h) (finalizeSha256_eq (hl ▸ h)),
    key (finalizeDigest_eq d) (finalizeDigest_eq d')⟩

/-- C44: the converse: with `N` at least the digest length nothing of the digest is lost; with a
smaller `N` exactly the bytes after the first `N` are. -/
theorem C44_only_prefix_matters {d d' : List UInt8} (hl : d.length = d'.length)
    (he : d.take N = d'.take N) : finalizeDigest N d = finalizeDigest N d' := by
  obtain ⟨v, h1, h2⟩ := finalizeDigest_eq (N := N) d
  obtain ⟨v', h1', h2'⟩ := finalizeDigest_eq (N := N) d'
  rw [h1, h1', Arr.ext (h2.trans ((by simp only [fitted, he, hl] : fitted N d = fitted N d').trans
    h2'.symm))]

/-- C44: the BLAKE2b adapter yields the digest itself when the digest has `N` bytes, as requested
from the hash function by `new(N)`, and panics otherwise. -/
theorem C44_blake2b (d : List UInt8) :
    (∀ h : d.length = N, finalizeBlake2b N d = .ok ⟨d, h⟩) ∧
    (d.length ≠ N → ∃ w, finalizeBlake2b N d = .error (.panic w)) := by
  refine ⟨fun h => ?_, fun h => ?_⟩
  · subst h
    simp [finalizeBlake2b, copyTo, Arr.zero]
  · exact ⟨_, by rw [finalizeBlake2b, copyTo, dif_neg (fun h' => h h'.2)]⟩

/-- C44: a tree whose hasher is a `Digest` has no two different nodes with the same location, as long
as the first `N` digest bytes of the node contents that occur are different. -/
theorem C44_collision_free (D : RawDigest) (hs : ∀ st a b, D.update (D.update st a) b =
      D.update st (a ++ b)) (hlen : ∀ st st', (D.finish st).length = (D.finish st').length)
    {U : HIn N → Prop}
    (hcol : ∀ i j, U i → U j → (D.finish (D.update D.init i.bytes)).take N =
      (D.finish (D.update D.init j.bytes)).take N → i.bytes = j.bytes) :
    CollisionFree (adapted D (finalizeDigest N)) U := by
  refine C38_collision_free (fun st a b => hs st a b) fun i j hi hj he => hcol i j hi hj ?_
  obtain ⟨v, h1, h2⟩ := finalizeDigest_eq (N := N) (D.finish (D.update D.init i.bytes))
  obtain ⟨v', h1', h2'⟩ := finalizeDigest_eq (N := N) (D.finish (D.update D.init j.bytes))
  simp only [adapted, h1, h1'] at he
  subst he
  exact fitted_inj (hlen _ _) (h2.symm.trans h2')

/-- C44: the same for the 64-bit hashers, SHA-256 and BLAKE2b. -/
theorem C44_collision_free_all (D : RawDigest) (hs : ∀ st a b, D.update (D.update st a) b = D.update st (a ++ b))
    {U : HIn N → Prop}
    (hcol : ∀ i j, U i → U j → (D.finish (D.update D.init i.bytes)).take N =
      (D.finish (D.update D.init j.bytes)).take N → i.bytes = j.bytes) :
    ((∀ st, (D.finish st).length = 8) → CollisionFree (adapted D (finalize64 N)) U) ∧
    ((∀ st, (D.finish st).length = 32) → CollisionFree (adapted D (finalizeSha256 N)) U) ∧
    ((∀ st, (D.finish st).length = N) → CollisionFree (adapted D (finalizeBlake2b N)) U) := by
  have key : ∀ {f : List UInt8 → Res (Arr N)} {n : Nat}, (∀ st, (D.finish st).length = n) →
      (∀ d, d.length = n → ∃ v, f d = .ok v ∧ v.bytes = fitted N d) → CollisionFree (adapted D f) U := by
    intro f n hn hf
    refine C38_collision_free (fun st a b => hs st a b) fun i j hi hj he => hcol i j hi hj ?_
    obtain ⟨v, h1, h2⟩ := hf (D.finish (D.update D.init i.bytes)) (hn _)
    obtain ⟨v', h1', h2'⟩ := hf (D.finish (D.update D.init j.bytes)) (hn _)
    simp only [adapted, h1, h1'] at he
    subst he
    exact fitted_inj ((hn _).trans (hn _).symm) (h2.symm.trans h2')
  refine ⟨fun h => key h fun d => finalize64_eq, fun h => key h fun d => finalizeSha256_eq,
    fun h => key h fun d hd => ⟨⟨d, hd⟩, (C44_blake2b d).1 hd, ?_⟩⟩
  simp [fitted, List.take_of_length_le (Nat.le_of_eq hd), hd]

/-- C44: the Keccak and SHA-3 adapters squeeze `N` bytes: of a longer array the beginning, and nothing is padded. -/
theorem C44_squeezed (out : Nat → UInt8) : (∀ i, i < N → (finalizeSqueeze N out).bytes[i]? = some (out i)) ∧
    ∀ K, N ≤ K → (finalizeSqueeze N out).bytes = (finalizeSqueeze K out).bytes.take N := by
  refine ⟨fun i hi => by simp [finalizeSqueeze, hi], fun K hK => ?_⟩
  simp [finalizeSqueeze, ← List.map_take, List.take_range, Nat.min_eq_left hK]

/-- C44: and different squeezed bytes give different locations. -/
theorem C44_squeezed_collision_free (D : RawSponge) (hs : ∀ st a b, D.update (D.update st a) b = D.update st (a ++ b))
    {U : HIn N → Prop}
    (hcol : ∀ i j, U i → U j → (∀ n, n < N → D.squeeze (D.update D.init i.bytes) n =
      D.squeeze (D.update D.init j.bytes) n) → i.bytes = j.bytes) :
    CollisionFree (sponged N D) U := by
  refine C38_collision_free (fun st a b => hs st a b) fun i j hi hj he => hcol i j hi hj fun n hn => ?_
  have h1 := (C44_squeezed (N := N) (D.squeeze (D.update D.init i.bytes))).1 n hn
  have h2 := (C44_squeezed (N := N) (D.squeeze (D.update D.init j.bytes))).1 n hn
  have he : finalizeSqueeze N (D.squeeze (D.update D.init i.bytes)) =
    finalizeSqueeze N (D.squeeze (D.update D.init j.bytes)) := he
  rw [he, h2] at h1
  exact (Option.some.inj h1).symm

/-- A two-byte digest in the style of the toy hasher. -/
def Toy.digest : RawDigest :=
  ⟨List UInt8, [], fun s d => s ++ d, fun s => (Toy.key (Toy.fin s)).bytes⟩

example : CollisionFree (N := 2) (adapted Toy.digest (finalizeDigest 2))
    (fun i => i ∈ [HIn.data (Toy.key 1) [7], HIn.leaf (Toy.key 1) (Toy.key 2),
      HIn.branch (Toy.key 1) (Toy.key 2)]) := by
  refine C44_collision_free Toy.digest (fun st a b => List.append_assoc st a b) (fun _ _ => rfl) ?_
  simp only [List.mem_cons, List.not_mem_nil, or_false]
  rintro i j (rfl | rfl | rfl) (rfl | rfl | rfl) <;> decide +kernel

/-- As a sponge, and as a digest that has the requested length. -/
example : CollisionFree (sponged 2 ⟨List UInt8, [], fun s d => s ++ d, fun s n => (Toy.key (Toy.fin s)).bytes.getD n 0⟩)
    (fun i => i ∈ [HIn.data (Toy.key 1) [7], HIn.leaf (Toy.key 1) (Toy.key 2),
      HIn.branch (Toy.key 1) (Toy.key 2)]) := by
  refine C44_squeezed_collision_free _ (fun st a b => List.append_assoc st a b) ?_
  simp only [List.mem_cons, List.not_mem_nil, or_false]
  rintro i j (rfl | rfl | rfl) (rfl | rfl | rfl) h <;> first | rfl | exact absurd (h 1 (by decide)) (by decide +kernel)
example : CollisionFree (N := 2) (adapted Toy.digest (finalizeBlake2b 2))
    (fun i => i ∈ [HIn.data (Toy.key 1) [7], HIn.leaf (Toy.key 1) (Toy.key 2),
      HIn.branch (Toy.key 1) (Toy.key 2)]) := by
  refine (C44_collision_free_all Toy.digest (fun st a b => List.append_assoc st a b) ?_).2.2
    (fun st => (Toy.key (Toy.fin st)).len)
  simp only [List.mem_cons, List.not_mem_nil, or_false]
  rintro i j (rfl | rfl | rfl) (rfl | rfl | rfl) <;> decide +kernel

/-- An eight-byte digest in two, eight and ten bytes. -/
example : (finalize64 2 [1, 2, 3, 4, 5, 6, 7, 8]).toOption.map Arr.bytes = some [1, 2] ∧
    (finalize64 8 [1, 2, 3, 4, 5, 6, 7, 8]).toOption.map Arr.bytes =
      some [1, 2, 3, 4, 5, 6, 7, 8] ∧
    (finalizeDigest 10 [1, 2, 3, 4, 5, 6, 7, 8]).toOption.map Arr.bytes =
      some [1, 2, 3, 4, 5, 6, 7, 8, 0, 0] := by decide

end MerkleBit
