import Verif.Spec.Structure
import Verif.Proof.Addressed
import Verif.Proof.Batches
import Verif.Props.Versions
import Verif.Props.Failures
/-!
# C32, C33, C38: what the stored nodes look like
-/

namespace MerkleBit
variable {N : Nat} {σ V : Type} {cfg : Config N σ V} {C : DbContract cfg.db}
  {H : List (HIn N)} {R : List (Arr N)} {L : Ledger N V} {s : σ}

/-! ## Following the nodes of a stored tree -/

theorem Stored.leaves {h : Hasher N} {v : View N} : ∀ {t : Trie N}, Stored h v t →
    Leaves v (t.loc h) t.keys
  | .leaf _ _, hs => .leaf hs.1
  | .node l r, hs => by
    rw [Trie.keys_node]
    exact .branch hs.1 hs.2.1.leaves hs.2.2.leaves

theorem Stored.reaches {h : Hasher N} {v : View N} {x y : Arr N} (hr : Reaches v x y) :
    ∀ {t : Trie N}, Stored h v t → t.loc h = x → View.Has v y (.branch b) →
      ∃ l r : Trie N, (Trie.node l r).Sub t ∧ y = (Trie.node l r).loc h ∧
        (Trie.node l r).variant h = .branch b := by
  induction hr with
  | refl x =>
    rintro t hs rfl ⟨rf, hx⟩
    obtain ⟨rf', hx'⟩ := hs.root
    rw [hx] at hx'
    cases t with
    | leaf k val => simp [Trie.variant] at hx'
    | node l r =>
      refine ⟨l, r, Trie.Sub.refl _, rfl, ?_⟩
      simp only [Option.some.injEq, Node.mk.injEq] at hx'
      exact hx'.2.symm
  | @zero x y b hx _ ih =>
    rintro t hs rfl hy
    obtain ⟨rf, hx⟩ := hx
    obtain ⟨rf', hx'⟩ := hs.root
    rw [hx] at hx'
    cases t with
    | leaf k val => simp [Trie.variant] at hx'
    | node l r =>
      simp only [Option.some.injEq, Node.mk.injEq, Trie.variant, Variant.branch.injEq] at hx'
      obtain ⟨-, rfl⟩ := hx'
      obtain ⟨l', r', h1, h2, h3⟩ := ih hs.2.1 rfl hy
      exact ⟨l', r', h1.trans (Trie.Sub.left l r), h2, h3⟩
  | @one x y b hx _ ih =>
    rintro t hs rfl hy
    obtain ⟨rf, hx⟩ := hx
    obtain ⟨rf', hx'⟩ := hs.root
    rw [hx] at hx'
    cases t with
    | leaf k val => simp [Trie.variant] at hx'
    | node l r =>
      simp only [Option.some.injEq, Node.mk.injEq, Trie.variant, Variant.branch.injEq] at hx'
      obtain ⟨-, rfl⟩ := hx'
      obtain ⟨l', r', h1, h2, h3⟩ := ih hs.2.2 rfl hy
      exact ⟨l', r', h1.trans (Trie.Sub.right l r), h2, h3⟩

theorem Trie.Norm.key_min : ∀ {t : Trie N}, t.Norm → ∀ k ∈ t.keys, k = t.key ∨ Arr.lt t.key k
  | .leaf k v, _, k', hk => by
    simp [Trie.keys, Trie.entries] at hk
    exact .inl hk
  | .node l r, h, k', hk => by
    rw [Trie.keys_node, List.mem_append] at hk
    rcases hk with hk | hk
    · exact h.1.key_min k' hk
    · right
      rcases h.2.1.key_min k' hk with rfl | hlt
      · exact h.2.2
      · exact Arr.lt_trans h.2.2 hlt

/-! ## C32 -/

/-- C32, count and key, under every root ever returned: every branch below it says how many leaves
hang below and which of their keys is the smallest. -/
theorem C32_count_and_key (hc : Sane cfg) (h : Inserts cfg C H R L s)
    (hcf : CollisionFree cfg.hasher (Among H)) {r x : Arr N} (hr : r ∈ R)
    (hx : Reaches (C.view s) r x) {n : Node N} {b : Branch N} (hn : C.view s x = some n)
    (hb : n.variant = .branch b) :
    ∃ ks ks', Leaves (C.view s) b.zero ks ∧ Leaves (C.view s) b.one ks' ∧ Describes b ks ks' := by
  obtain ⟨hso, -, hR⟩ := inserts_inv hc.pos hc.pp h hcf
  obtain ⟨T, rfl, hnorm, hst⟩ := hR r hr
  obtain ⟨l, r, hsub, rfl, hv⟩ := hst.reaches hx rfl (b := b) ⟨n.references, by rw [hn, ← hb]⟩
  have hst' := hst.sub hsub
  simp only [Trie.variant, Variant.branch.injEq] at hv
  subst hv
  refine ⟨l.keys, r.keys, hst'.2.1.leaves, hst'.2.2.leaves, ?_, ?_, ?_⟩
  · simp [Trie.size, Trie.entries, Trie.keys]
  · exact l.key_mem
  · intro k hk
    exact (hsub.norm hnorm).key_min k (by rw [Trie.keys_node]; exact hk)

/-- C32, under every version of the ledger: every branch below its root says how many leaves hang
below it and which of their keys is the smallest, and its split index is the first bit in which those
keys differ, with the 0-keys on the zero side and the 1-keys on the one side.  Missing for the full
C32: the split index under roots built by straddling batches, for which it is false (`C32_false`). -/
theorem C32_branches_describe_partial (hc : Sane cfg) (h : Inserts cfg C H R L s)
    (hcf : CollisionFree cfg.hasher (Among H)) {r x : Arr N} {M : Contents N V} (hr : (r, M) ∈ L)
    (hx : Reaches (C.view s) r x) {n : Node N} {b : Branch N} (hn : C.view s x = some n)
    (hb : n.variant = .branch b) :
    ∃ ks ks', Leaves (C.view s) b.zero ks ∧ Leaves (C.view s) b.one ks' ∧ Describes b ks ks' ∧
      Splits b ks ks' := by
  obtain ⟨T, hwf, rfl, hst, -⟩ := h.version hc hcf hr
  obtain ⟨l, r, hsub, rfl, hv⟩ := hst.reaches hx rfl (b := b) ⟨n.references, by rw [hn, ← hb]⟩
  have hst' := hst.sub hsub
  have hwf' := hsub.wf hwf
  simp only [Trie.variant, Variant.branch.injEq] at hv
  subst hv
  refine ⟨l.keys, r.keys, hst'.2.1.leaves, hst'.2.2.leaves, ⟨?_, ?_, ?_⟩, ⟨?_, ?_, ?_, ?_⟩⟩
  · simp [Trie.size, Trie.entries, Trie.keys]
  · exact l.key_mem
  · intro k hk
    exact hwf'.norm.key_min k (by rw [Trie.keys_node]; exact hk)
  · exact hwf'.split_lt
  · exact fun k hk => hwf'.bit_left hk
  · exact fun k hk => hwf'.bit_right hk
  · have hag : ∀ k ∈ l.keys ++ r.keys, ∀ i < (Trie.node l r).split, k.bit i = l.key.bit i := by
      intro k hk i hi
      have := hwf'.agree k (by rw [Trie.keys_node]; exact hk)
      exact bit_eq_of_lt_firstDiff (lt_of_lt_of_le hi this)
    intro k hk k' hk' i hi
    rw [hag k hk i hi, hag k' hk' i hi]

/-- The leaves below the root of a version are its keys, each once and in order; in particular the
count of a root branch is the number of keys. -/
theorem C32_root_lists_keys (hc : Sane cfg) (h : Inserts cfg C H R L s)
    (hcf : CollisionFree cfg.hasher (Among H)) {r : Arr N} {M : Contents N V} (hr : (r, M) ∈ L) :
    ∃ ks, Leaves (C.view s) r ks ∧ ks.Pairwise Arr.lt ∧ ∀ k, k ∈ ks ↔ M k ≠ none := by
  obtain ⟨T, hwf, rfl, hst, hM⟩ := h.version hc hcf hr
  exact ⟨T.keys, hst.leaves, hwf.sorted, fun k => hM.mem⟩

/-- The root of the second version of the concrete history is a branch over four keys. -/
example : ∃ n b, Toy.C.view Toy.s3 Toy.r2 = some n ∧ n.variant = .branch b ∧ b.count = 4 ∧
    ∃ ks ks', Leaves (Toy.C.view Toy.s3) b.zero ks ∧ Leaves (Toy.C.view Toy.s3) b.one ks' ∧
      Describes b ks ks' ∧ Splits b ks ks' := by
  have h : ((Toy.C.view Toy.s3 Toy.r2).bind (fun n => match n.variant with
      | .branch b => some b.count
      | _ => none)) = some 4 := by decide +kernel
  cases hn : Toy.C.view Toy.s3 Toy.r2 with
  | none => rw [hn] at h; cases h
  | some n =>
    rw [hn] at h
    cases hb : n.variant with
    | branch b =>
      simp only [Option.bind_some, hb, Option.some.injEq] at h
      exact ⟨n, b, rfl, hb, h, C32_branches_describe_partial Toy.sane Toy.hist3 Toy.free3
        (r := Toy.r2) (M := Toy.M2) (by simp) (.refl _) hn hb⟩
    | leaf l => simp [hb] at h
    | data d => simp [hb] at h

namespace Toy

/-- Following branches down, `true` for the one side. -/
def follow (s : HashDB 2) : Arr 2 → List Bool → Option (Arr 2)
  | x, [] => some x
  | x, d :: ds => match s.map.get? x with
    | some ⟨_, .branch b⟩ => follow s (if d then b.one else b.zero) ds
    | _ => none

theorem follow_reaches (s : HashDB 2) : ∀ (ds : List Bool) (x : Arr 2) {y : Arr 2},
    follow s x ds = some y → Reaches (Toy.C.view s) x y
  | [], x, y, h => by cases h; exact .refl _
  | d :: ds, x, y, h => by
    unfold follow at h
    split at h
    · next rf b hx =>
      cases d with
      | true => exact .one ⟨rf, hx⟩ (follow_reaches s ds _ h)
      | false => exact .zero ⟨rf, hx⟩ (follow_reaches s ds _ h)
    · cases h

end Toy

/-- C32 is false of roots built by straddling batches: below such a root there is a branch with a key
on its zero side whose bit at the split index is 1. -/
theorem C32_false : ∃ (H : List (HIn 2)) (R : List (Arr 2)) (L : Ledger 2 (List UInt8))
    (s : HashDB 2) (r x y : Arr 2) (n m : Node 2) (b : Branch 2) (l : Leaf 2),
    Sane Toy.cfg ∧ Inserts Toy.cfg Toy.C H R L s ∧ CollisionFree Toy.cfg.hasher (Among H) ∧ r ∈ R ∧
    Reaches (Toy.C.view s) r x ∧ Toy.C.view s x = some n ∧ n.variant = .branch b ∧
    Reaches (Toy.C.view s) b.zero y ∧ Toy.C.view s y = some m ∧ m.variant = .leaf l ∧
    l.key.bit b.splitIndex = true := by
  have hx : (Toy.lossAfter.2.map.get? (Toy.key 58784)).any (fun n => match n.variant with
      | .branch b => match (Toy.follow Toy.lossAfter.2 b.zero [false, true]).bind
          Toy.lossAfter.2.map.get? with
        | some ⟨_, .leaf l⟩ => l.key.bit b.splitIndex
        | _ => false
      | _ => false) = true := by decide +kernel
  cases hn : Toy.lossAfter.2.map.get? (Toy.key 58784) with
  | none => rw [hn] at hx; cases hx
  | some n =>
    rw [hn, Option.any_some] at hx
    cases hb : n.variant with
    | leaf l => simp [hb] at hx
    | data d => simp [hb] at hx
    | branch b =>
      simp only [hb] at hx
      cases hy : Toy.follow Toy.lossAfter.2 b.zero [false, true] with
      | none => simp [hy] at hx
      | some y =>
        rw [hy, Option.bind_some] at hx
        split at hx
        · next rf l hm =>
          exact ⟨_, _, _, Toy.lossAfter.2, Toy.key 29102, Toy.key 58784, y, n, ⟨rf, .leaf l⟩, b, l,
            Toy.sane, .any Toy.lossHist (prev := some (Toy.key 31137))
              (keys := [0x40, 0x90, 0xC0, 0x100].map Toy.key) (values := [[5], [6], [7], [8]])
              (res := .ok (Toy.key 29102)) (outcome (by decide +kernel)),
            collisionFree_of_check (by decide +kernel), by simp [returned],
            Toy.follow_reaches _ [false, true, false] _ (by decide +kernel), hn, hb,
            Toy.follow_reaches _ _ _ hy, hm, rfl, hx⟩
        · cases hx

/-! ## C33 -/

/-- C33, locations: in every state reachable by any inserts and removes, with any arguments and
outcomes and interrupted or not, every node is stored under the hash of its tagged contents (and has a
positive reference count). -/
theorem C33_nodes_at_their_hash (hN : 0 < N) (hpp : cfg.pp.Lawful) (h : Calls cfg C H s)
    (hcf : CollisionFree cfg.hasher (Among H)) {x : Arr N} {n : Node N}
    (hx : C.view s x = some n) : n.variant.At cfg.hasher x ∧ 0 < n.references := by
  obtain ⟨h1, h2⟩ := (calls_inPlace hN hpp h hcf).1 x n hx
  refine ⟨?_, h1⟩
  rcases h2 with ⟨k, v, rfl, hv, -⟩ | ⟨t, -, rfl, hv, -⟩
  · rw [hv]; exact ⟨k, rfl⟩
  · rw [hv]
    cases t with
    | leaf k v => rfl
    | node l r => rfl

/-- C33, contents: a location never holds two different contents.  Whatever calls lead from `s` to
`s'` (or if the two histories are unrelated, as long as all hash inputs of both are free of
collisions), a location occupied in both has the same contents in both. -/
theorem C33_contents_never_change (hN : 0 < N) (hpp : cfg.pp.Lawful) {H' : List (HIn N)} {s' : σ}
    (h : Calls cfg C H s) (h' : Calls cfg C H' s')
    (hcf : CollisionFree cfg.hasher (Among (H' ++ H))) {x : Arr N} {n n' : Node N}
    (hx : C.view s x = some n) (hx' : C.view s' x = some n') : n'.variant = n.variant := by
  have hsub : ∀ i, Among H i → Among (H' ++ H) i := fun i hi => List.mem_append_right _ hi
  have hsub' : ∀ i, Among H' i → Among (H' ++ H) i := fun i hi => List.mem_append_left _ hi
  have h1 := ((calls_inPlace hN hpp h (hcf.mono hsub)).1 x n hx).2.mono hsub
  have h2 := ((calls_inPlace hN hpp h' (hcf.mono hsub')).1 x n' hx').2.mono hsub'
  exact h2.unique hcf h1

/-- C33, inserts only add: after any insert, every node that was stored is stored with the same
contents, also in states reached by removes. -/
theorem C33_inserts_only_add (hN : 0 < N) (hpp : cfg.pp.Lawful) (h : Calls cfg C H s) {s' : σ}
    {prev : Option (Arr N)} {keys : List (Arr N)} {values : List V} {res : Res (Arr N)}
    (hcf : CollisionFree cfg.hasher (Among (hashedBy cfg prev keys values s ++ H)))
    (hrun : insert cfg prev keys values s = (res, s')) {x : Arr N} {n : Node N}
    (hx : C.view s x = some n) : ∃ n', C.view s' x = some n' ∧ n'.variant = n.variant := by
  have hsub : ∀ i, Among H i → Among (hashedBy cfg prev keys values s ++ H) i :=
    fun i hi => List.mem_append_right _ hi
  have hi := (calls_inPlace hN hpp h (hcf.mono hsub)).mono hsub
  have := insert_placed (C := C) hN hpp hcf prev keys values (s := s)
    (fun i hi => List.mem_append_left _ hi) ⟨hi.1, hi.2, View.Ext.refl _⟩
  unfold Ends at this
  rw [hrun] at this
  cases res with
  | ok r =>
    obtain ⟨rf, h1⟩ := this.2.ext x n.variant ⟨n.references, hx⟩
    exact ⟨_, h1, rfl⟩
  | error e =>
    obtain ⟨rf, h1⟩ := this.2.ext x n.variant ⟨n.references, hx⟩
    exact ⟨_, h1, rfl⟩

/-- C33, removes add nothing: after any remove, every stored node was stored (or queued) before, with
the same contents. -/
theorem C33_removes_add_nothing (hN : 0 < N) (hpp : cfg.pp.Lawful) (h : Calls cfg C H s) {s' : σ}
    {r : Arr N} {res : Res Unit} (hcf : CollisionFree cfg.hasher (Among H))
    (hrun : remove cfg r s = (res, s')) {x : Arr N} {n' : Node N} (hx : C.view s' x = some n') :
    ∃ n, (C.view s x = some n ∨ C.pending s x = some n) ∧ n.variant = n'.variant := by
  have hi := calls_inPlace hN hpp h hcf
  have := remove_shrunk (C := C) (U := Among H)
    (v0 := fun x c => View.Has (C.view s) x c ∨ View.Has (C.pending s) x c) r
    ⟨hi.1, hi.2, fun _ _ => .inl, fun _ _ => .inr⟩ hrun
  rcases this.sub x n'.variant ⟨n'.references, hx⟩ with ⟨rf, h⟩ | ⟨rf, h⟩
  · exact ⟨_, .inl h, rfl⟩
  · exact ⟨_, .inr h, rfl⟩

namespace Toy

/-- The database after removing the first root of the concrete history. -/
def sr : HashDB 2 := (remove Toy.cfg r1 s2).2

theorem calls2 : Calls Toy.cfg Toy.C H2 s2 :=
  .insert (.insert (.start rfl rfl) run1) run2
theorem callsr : Calls Toy.cfg Toy.C H2 sr :=
  .remove calls2 (res := .ok ()) (outcome (by decide +kernel))

end Toy

/-- A history with a remove: it deleted the first root, and what is left is in its place. -/
example : Toy.C.view Toy.s2 Toy.r1 ≠ none ∧ Toy.C.view Toy.sr Toy.r1 = none ∧
    Toy.C.view Toy.sr Toy.r2 ≠ none ∧
    ∀ x n, Toy.C.view Toy.sr x = some n → n.variant.At Toy.hasher x := by
  refine ⟨?_, ?_, ?_, fun x n hx => (C33_nodes_at_their_hash (by decide) Toy.sane.pp Toy.callsr
    Toy.free2 hx).1⟩
  · have : (Toy.s2.map.get? Toy.r1).isSome := by decide +kernel
    intro h
    change Toy.s2.map.get? Toy.r1 = none at h
    rw [h] at this; cases this
  · have : (Toy.sr.map.get? Toy.r1).isNone := by decide +kernel
    exact Option.isNone_iff_eq_none.1 this
  · have : (Toy.sr.map.get? Toy.r2).isSome := by decide +kernel
    intro h
    change Toy.sr.map.get? Toy.r2 = none at h
    rw [h] at this; cases this

/-! ## C38 -/

theorem Arr.ext {a b : Arr N} (h : a.bytes = b.bytes) : a = b := by
  cases a; cases b; cases h; rfl

/-- C38: the bytes fed to the hasher determine the kind of node and its fields. -/
theorem C38_hash_inputs_injective {i j : HIn N} (h : i.bytes = j.bytes) : i = j := by
  have key : ∀ {a a' : Arr N} {u u' : List UInt8}, a.bytes ++ u = a'.bytes ++ u' →
      a = a' ∧ u = u' := by
    intro a a' u u' h
    have hl : a.bytes.length = a'.bytes.length := by rw [a.len, a'.len]
    obtain ⟨h1, h2⟩ := List.append_inj h hl
    exact ⟨Arr.ext h1, h2⟩
  cases i <;> cases j <;>
    simp only [HIn.bytes, tagD, tagL, tagB, List.cons_append, List.nil_append, List.cons.injEq] at h
  case data.data =>
    obtain ⟨rfl, rfl⟩ := key h.2; rfl
  case leaf.leaf =>
    obtain ⟨rfl, h2⟩ := key h.2
    rw [Arr.ext h2]
  case branch.branch =>
    obtain ⟨rfl, h2⟩ := key h.2
    rw [Arr.ext h2]
  all_goals exact absurd h.1 (by decide)

/-- The location of a node is a function of those bytes, for every hasher that may be fed piece by
piece. -/
theorem C38_hash_of_bytes {h : Hasher N} (hs : h.Streaming) (i : HIn N) :
    i.hash h = h.finalize (h.update (h.new N) i.bytes) := by
  cases i <;> simp only [HIn.hash, Hasher.hash3, HIn.bytes] <;> rw [hs, hs, List.append_assoc]

/-- Hence a hash function without collisions on byte strings has none on nodes. -/
theorem C38_collision_free {h : Hasher N} (hs : h.Streaming) {U : HIn N → Prop}
    (hb : ∀ i j, U i → U j → h.finalize (h.update (h.new N) i.bytes) =
      h.finalize (h.update (h.new N) j.bytes) → i.bytes = j.bytes) : CollisionFree h U := by
  intro i j hi hj he
  rw [C38_hash_of_bytes hs, C38_hash_of_bytes hs] at he
  exact C38_hash_inputs_injective (hb i j hi hj he)

/-- The toy hasher may be fed piece by piece, and a data input and a leaf input with the same fields
differ. -/
example : Toy.hasher.Streaming ∧
    (HIn.data (Toy.key 1) (Toy.key 2).bytes).bytes ≠ (HIn.leaf (Toy.key 1) (Toy.key 2)).bytes :=
  ⟨fun st a b => List.append_assoc st a b, fun h => by cases C38_hash_inputs_injective h⟩

end MerkleBit
