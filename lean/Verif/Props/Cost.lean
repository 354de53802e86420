import Verif.Proof.Reads
import Verif.Props.Storage
/-!
# Work and growth: C52 to C55

Bounds on what single calls read, write and add, for every database meeting the contract (or any database
at all), every state, all arguments and every outcome.  Nothing is assumed about the hash function, about
where the root comes from, or about the key batch.
-/

namespace MerkleBit
variable {N : Nat} {σ V : Type} {cfg : Config N σ V}

/-- C52: an insert of `m` pairs, successful or not, adds nodes at no more than `m (depth + 4)` new places; on
top of nothing, at no more than `3 m - 1`.  A place is new when neither a stored nor a queued node was there. -/
theorem C52_insert_growth (C : DbContract cfg.db) (prev : Option (Arr N)) (keys : List (Arr N))
    (values : List V) (s : σ) :
    AtMost (if prev = none then 3 * keys.length - 1 else keys.length * (cfg.depth + 4))
      (fun x => C.view (insert cfg prev keys values s).2 x ≠ none ∧ C.view s x = none ∧
        C.pending s x = none) := by
  have h := (costs_insert (K := growthMeter C s) (P := fun _ => True) (cfg := cfg) prev keys values
    0 0 s s trivial ⟨rfl, [], by simp, fun x hx => absurd hx.1 hx.2⟩).2.1
  obtain ⟨-, xs, h1, h2⟩ := h
  refine ⟨xs, ?_, fun x hx => h2 x ⟨.inl hx.1, ?_⟩⟩
  · cases prev <;> simpa [newWrites] using h1
  · rintro (h | h)
    · exact h hx.2.1
    · exact h hx.2.2

/-- Two pairs on top of the first root of the concrete history: at most 42 new nodes (there are 7). -/
example : AtMost 42 (fun x => Toy.C.view (insert Toy.cfg (some Toy.r1) Toy.ks2 Toy.vs2 Toy.s1).2 x ≠ none ∧
    Toy.C.view Toy.s1 x = none ∧ Toy.C.pending Toy.s1 x = none) :=
  C52_insert_growth Toy.C (some Toy.r1) Toy.ks2 Toy.vs2 Toy.s1

/-- C53: an insert of `m` pairs asks the database for no more than `m (2 depth + 5) + 1` writes (`3 m - 1` on
top of nothing), and counting them changes neither the outcome nor the database. -/
theorem C53_insert_writes (prev : Option (Arr N)) (keys : List (Arr N)) (values : List V) (s : σ) :
    ∃ n, n ≤ (if prev = none then 3 * keys.length - 1 else keys.length * (2 * cfg.depth + 5) + 1) ∧
      insert cfg.counted prev keys values (s, 0) =
        ((insert cfg prev keys values s).1, ((insert cfg prev keys values s).2, n)) := by
  have h := costs_insert (K := countMeter cfg.db) (P := fun _ => True) (cfg := cfg) prev keys values
    0 0 s (s, 0) trivial ⟨rfl, Nat.le_refl _⟩
  obtain ⟨h1, ⟨h2, h3⟩, -⟩ := h
  refine ⟨_, ?_, Prod.ext h1 (Prod.ext h2 rfl)⟩
  refine le_trans h3 ?_
  cases prev with
  | none => simp [newWrites, oldWrites]
  | some r =>
    simp only [newWrites, oldWrites, reduceCtorEq, if_false]
    have : keys.length * (2 * cfg.depth + 5) =
        keys.length * (cfg.depth + 4) + keys.length * (cfg.depth + 1) := by
      rw [← Nat.mul_add]; congr 1; omega
    omega

/-- The second insert of the concrete history, counted. -/
example : (insert Toy.cfg.counted (some Toy.r1) Toy.ks2 Toy.vs2 (Toy.s1, 0)).1 = .ok Toy.r2 ∧
    0 < (insert Toy.cfg.counted (some Toy.r1) Toy.ks2 Toy.vs2 (Toy.s1, 0)).2.2 ∧
    (insert Toy.cfg.counted (some Toy.r1) Toy.ks2 Toy.vs2 (Toy.s1, 0)).2.2 ≤ 79 := by
  decide +kernel

/-- C54: `get_one` looks at no more than `depth + 1` nodes: two database states that agree on them give the
same answer. -/
theorem C54_get_one_reads (s : σ) (root key : Arr N) :
    ∃ xs : List (Arr N), xs.length ≤ cfg.depth + 1 ∧ ∀ s', AgreeOn cfg.db xs s s' →
      getOne cfg s' root key = getOne cfg s root key :=
  getOneLoop_reads s key (cfg.depth + 2) [root] false 0

/-- C54: `generate_inclusion_proof` looks at no more than `depth + 1` nodes. -/
theorem C54_proof_reads (s : σ) (root key : Arr N) :
    ∃ xs : List (Arr N), xs.length ≤ cfg.depth + 1 ∧ ∀ s', AgreeOn cfg.db xs s s' →
      generateInclusionProof cfg s' root key = generateInclusionProof cfg s root key := by
  obtain ⟨xs, h1, h2⟩ := proofLoop_reads (cfg := cfg) s key (cfg.depth + 2) [root] [] false 0
  refine ⟨xs, h1, fun s' h => ?_⟩
  refine generateInclusionProof_congr rfl ?_
  unfold inclusionProof
  rw [h2 s' h]

/-- C54: `get` of `m` keys looks at no more than `2 m (depth + 2) + 1` nodes. -/
theorem C54_get_reads (s : σ) (root : Arr N) (keys : List (Arr N)) :
    ∃ xs : List (Arr N), xs.length ≤ 2 * (keys.length * (cfg.depth + 2)) + 1 ∧
      ∀ s', AgreeOn cfg.db xs s s' → get cfg s' root keys = get cfg s root keys :=
  get_reads s root keys

/-- The four nodes on the way to key 1 under the first root: a database that differs elsewhere agrees on them
and gives the same answer; one that lacks the last of them does not. -/
example : AgreeOn Toy.cfg.db [Toy.r1, Toy.key 0xE93C, Toy.key 0x6161, Toy.key 0xF95F] Toy.s1
      (Toy.ins none [0x4000] [9] Toy.s1).2 ∧
    (Toy.ins none [0x4000] [9] Toy.s1).2 ≠ Toy.s1 ∧
    getOne Toy.cfg (Toy.ins none [0x4000] [9] Toy.s1).2 Toy.r1 (Toy.key 1) = .ok (some [10]) ∧
    getOne Toy.cfg (Toy.cfg.db.remove (Toy.key 0xF95F) Toy.s1).2 Toy.r1 (Toy.key 1) ≠ .ok (some [10]) := by
  refine ⟨?_, ?_, by decide +kernel, by decide +kernel⟩
  · intro x hx
    simp only [List.mem_cons, List.not_mem_nil, or_false] at hx
    rcases hx with rfl | rfl | rfl | rfl <;> decide +kernel
  · intro h
    exact absurd (congrArg (fun s => Toy.cfg.db.getNode s (Toy.key 0x6D9D)) h) (by decide +kernel)

/-- C55: a generated inclusion proof has no more than `depth + 1` entries, whatever the database holds. -/
theorem C55_proof_length {s : σ} {root key : Arr N} {p : List (Arr N × Bool)}
    (h : generateInclusionProof cfg s root key = .ok p) : p.length ≤ cfg.depth + 1 := by
  have h := generateInclusionProof_ok h
  unfold inclusionProof at h
  split at h
  · cases h
  · rename_i p' hp
    cases h
    simpa using proofLoop_length s key _ _ _ _ _ _ hp

/-- A proof under the second root of the concrete history. -/
example : ∃ p, generateInclusionProof Toy.cfg Toy.s2 Toy.r2 (Toy.key 1) = .ok p ∧ 2 < p.length ∧
    p.length ≤ 18 := by
  have h : (generateInclusionProof Toy.cfg Toy.s2 Toy.r2 (Toy.key 1)).toOption.isSome := by decide +kernel
  have h2 : 2 < ((generateInclusionProof Toy.cfg Toy.s2 Toy.r2 (Toy.key 1)).toOption.getD []).length := by
    decide +kernel
  rcases hp : generateInclusionProof Toy.cfg Toy.s2 Toy.r2 (Toy.key 1) with e | p
  · rw [hp] at h; cases h
  · rw [hp] at h2
    exact ⟨p, rfl, h2, C55_proof_length hp⟩

end MerkleBit
