import Verif.Spec.Database
import Verif.Model.HashDB
import Verif.Model.RocksDB
import Verif.Proof.AMap
/-!
# The backends satisfy the database contract
-/

namespace MerkleBit
variable {N : Nat}

/-- The in-memory database satisfies the contract, never fails and queues nothing. -/
def hashContract (N : Nat) : DbContract (hashDatabase N) where
  view s := fun x => s.map.get? x
  pending _ := View.empty N
  alive _ := True
  getNode_ok h := by cases h; rfl
  getNode_err h := by cases h
  insert_ok h := by
    cases h
    refine ⟨id, .inl ⟨rfl, ?_, rfl⟩⟩
    funext y; simp only [AMap.get?_insert, View.put]
  insert_err h := by cases h
  remove_ok h := by
    cases h
    refine ⟨id, ?_, rfl⟩
    funext y; simp only [AMap.get?_erase, View.del]
  remove_err h := by cases h
  batchWrite_ok h := by
    cases h
    refine ⟨id, ?_, rfl⟩
    funext y; simp [View.overlay, View.empty]
  batchWrite_err h := by cases h

/-- The serialization of nodes is total and invertible, and a failure to decode is an ordinary
error. -/
structure LawfulCodec (codec : NodeCodec N) : Prop where
  round : ∀ n, ∃ b, codec.encode n = .ok b ∧ codec.decode b = .ok n
  err : ∀ b e, codec.decode b = .error e → e.IsException

/-- A node for bytes that do not decode (never the case when the database is `alive`). -/
def decodeOr (codec : NodeCodec N) (b : List UInt8) : Node N :=
  match codec.decode b with
  | .ok n => n
  | .error _ => ⟨0, .data ⟨[]⟩⟩

/-- The last value queued for a key. -/
def queued (batch : List (Arr N × List UInt8)) (x : Arr N) : Option (List UInt8) :=
  (batch.reverse.find? (fun e => e.1 = x)).map (·.2)

theorem applyBatch_get? (batch : List (Arr N × List UInt8)) (x : Arr N) :
    ∀ db : AMap (Arr N) (List UInt8),
      (applyBatch db batch).get? x = (queued batch x).or (db.get? x) := by
  unfold applyBatch queued
  induction batch with
  | nil => intro db; simp
  | cons a l ih =>
    intro db
    rw [List.foldl_cons, ih, AMap.get?_insert, List.reverse_cons, List.find?_append]
    cases h : l.reverse.find? (fun e => e.1 = x) with
    | some e => simp
    | none =>
      by_cases hk : x = a.1
      · simp [hk]
      · have : ¬ a.1 = x := fun h => hk h.symm
        simp [hk, this]

theorem queued_snoc (batch : List (Arr N × List UInt8)) (x y : Arr N) (b : List UInt8) :
    queued (batch ++ [(x, b)]) y = if y = x then some b else queued batch y := by
  unfold queued
  rw [List.reverse_append]
  simp only [List.reverse_cons, List.reverse_nil, List.nil_append, List.singleton_append,
    List.find?_cons]
  by_cases h : y = x
  · simp [h]
  · have : ¬ x = y := fun h' => h h'.symm
    simp [h, this]

/-- The RocksDB database satisfies the contract under every failure environment; it is `alive`
when no later RocksDB call fails and all stored bytes decode. -/
def rocksContract {codec : NodeCodec N} (hc : LawfulCodec codec) (env : RocksEnv N) :
    DbContract (rocksDatabase codec env) where
  view s := fun x => (s.db.get? x).map (decodeOr codec)
  pending s := fun x => (queued (s.pending.getD []) x).map (decodeOr codec)
  alive s := (∀ c ≥ s.clock, env.writeFails c = false ∧ ∀ x, env.readFails c x = false) ∧
    (∀ x b, s.db.get? x = some b → ∃ n, codec.decode b = .ok n) ∧
    (∀ x b, queued (s.pending.getD []) x = some b → ∃ n, codec.decode b = .ok n)
  getNode_ok := by
    intro s x r h
    simp only [rocksDatabase] at h
    split at h
    · cases h
    · split at h
      · next hb =>
        split at h
        · next hn => cases h; simp [hb, decodeOr, hn]
        · cases h
      · next hb => cases h; simp [hb]
  getNode_err := by
    intro s x e h
    simp only [rocksDatabase] at h
    split at h
    · next hf =>
      cases h
      refine ⟨?_, _, rfl⟩
      rintro ⟨h1, -⟩
      rw [(h1 s.clock (Nat.le_refl _)).2 x] at hf
      cases hf
    · split at h
      · next hb =>
        split at h
        · cases h
        · next he =>
          cases h
          refine ⟨?_, hc.err _ _ he⟩
          rintro ⟨-, h2, -⟩
          obtain ⟨n, hn⟩ := h2 _ _ hb
          rw [hn] at he; cases he
      · cases h
  insert_ok := by
    intro s s' x n h
    obtain ⟨b, hb, hd⟩ := hc.round n
    have hq : ∀ batch y, (queued (batch ++ [(x, b)]) y).map (decodeOr codec) =
        View.put (fun y => (queued batch y).map (decodeOr codec)) x n y := by
      intro batch y
      rw [queued_snoc]
      unfold View.put
      split
      · simp [decodeOr, hd]
      · rfl
    have hal : ∀ batch : List (Arr N × List UInt8),
        (∀ x b, queued batch x = some b → ∃ n, codec.decode b = .ok n) →
        ∀ y c, queued (batch ++ [(x, b)]) y = some c → ∃ n, codec.decode c = .ok n := by
      intro batch hbatch y c hy
      rw [queued_snoc] at hy
      split at hy
      · cases hy; exact ⟨n, hd⟩
      · exact hbatch y c hy
    simp only [rocksDatabase, hb] at h
    cases hp : s.pending with
    | some wb =>
      rw [hp] at h
      cases h
      refine ⟨?_, .inr ⟨rfl, ?_⟩⟩
      · rintro ⟨h1, h2, h3⟩
        simp only [Option.getD_some] at h3 ⊢
        exact ⟨h1, h2, hal wb h3⟩
      · funext y; simpa using hq wb y
    | none =>
      rw [hp] at h
      cases h
      refine ⟨?_, .inr ⟨rfl, ?_⟩⟩
      · rintro ⟨h1, h2, h3⟩
        simp only [Option.getD_none] at h3
        simp only [Option.getD_some]
        exact ⟨h1, h2, hal [] h3⟩
      · funext y; simpa using hq [] y
  insert_err := by
    intro s s' x n e h
    obtain ⟨b, hb, -⟩ := hc.round n
    simp only [rocksDatabase, hb] at h
    split at h <;> cases h
  remove_ok := by
    intro s s' x h
    simp only [rocksDatabase] at h
    split at h
    · cases h
    · cases h
      refine ⟨?_, ?_, rfl⟩
      · rintro ⟨h1, h2, h3⟩
        refine ⟨fun c hc => h1 c (by simp only at hc; omega), ?_, h3⟩
        intro y b hy
        simp only [AMap.get?_erase] at hy
        split at hy
        · cases hy
        · exact h2 y b hy
      · funext y
        simp only [AMap.get?_erase, View.del]
        split <;> rfl
  remove_err := by
    intro s s' x e h
    simp only [rocksDatabase] at h
    split at h
    · next hf =>
      cases h
      refine ⟨?_, ⟨_, rfl⟩, rfl, rfl⟩
      rintro ⟨h1, -⟩
      rw [(h1 s.clock (Nat.le_refl _)).1] at hf
      cases hf
    · cases h
  batchWrite_ok := by
    intro s s' h
    simp only [rocksDatabase] at h
    cases hp : s.pending with
    | none =>
      rw [hp] at h
      cases h
      refine ⟨fun h => by simpa [hp] using h, ?_, ?_⟩
      · funext y; simp [View.overlay, queued]
      · funext y; simp [hp, queued, View.empty]
    | some wb =>
      rw [hp] at h
      dsimp only at h
      split at h
      · cases h
      · cases h
        refine ⟨?_, ?_, ?_⟩
        · rintro ⟨h1, h2, h3⟩
          refine ⟨fun c hc => h1 c (by simp only at hc; omega), ?_, by simp [queued]⟩
          intro y b hy
          simp only [applyBatch_get?] at hy
          simp only [Option.getD_some] at h3
          cases hq : queued wb y with
          | some c => rw [hq] at hy; simp at hy; exact hy ▸ h3 y c hq
          | none => rw [hq] at hy; simp at hy; exact h2 y b hy
        · funext y
          simp only [applyBatch_get?, View.overlay, Option.getD_some]
          cases queued wb y <;> simp
        · funext y; simp [queued, View.empty]
  batchWrite_err := by
    intro s s' e h
    simp only [rocksDatabase] at h
    split at h
    · split at h
      · next hf =>
        cases h
        refine ⟨?_, ⟨_, rfl⟩, rfl, .inr ?_⟩
        · rintro ⟨h1, -⟩
          rw [(h1 s.clock (Nat.le_refl _)).1] at hf
          cases hf
        · funext y; simp [queued, View.empty]
      · cases h
    · cases h

end MerkleBit
