import Verif.Proof.Looked
import Verif.Props.Counts
import Verif.Props.Session
/-!
# C81: what an insert needs

`Events` are histories of calls with any arguments and outcomes, with process deaths and losses of queued
writes, so the database may have lost nodes of any version; `countsOf` are the reference counts of trees and
data nodes, 0 for what is not stored; `lookedAt` are the subtrees of the previous version whose root nodes a
batch looks at.
-/

namespace MerkleBit

section
variable {N : Nat} {σ V : Type} {cfg : Config N σ V} {C : DbContract cfg.db}
  {H : List (HIn N)} {L : Ledger N V} {s : σ}

/-- C81: an insert of a valid batch on top of a returned root, in whatever state the database is, succeeds
if and only if the root nodes of all subtrees that it looks at are stored; a leaf that is lost does no harm
if the batch writes the very same pair and writes show at once.  Where it does not succeed, it says so. -/
theorem C81_insert_needs (hc : Sane cfg) (h : Events cfg C H L s) (hs : C.alive s)
    (hp : C.pending s = View.empty N) {shows : Bool} (hw : WritesShow C shows)
    {r : Arr N} {M : Contents N V} (hr : (r, M) ∈ L) (hd : HeightBelow M (cfg.depth + 1))
    {keys : List (Arr N)} {values : List V} (hh : Handled cfg M keys)
    (hlen : keys.length = values.length) (hne : keys ≠ []) (hnd : keys.Nodup)
    (henc : ∀ v ∈ values, ∃ b, cfg.encode v = .ok b)
    (hcf : CollisionFree cfg.hasher (Among (hashedBy cfg (some r) keys values s ++ H))) :
    ∃ T : Trie N, T.WF ∧ T.loc cfg.hasher = r ∧ Represents cfg T M ∧
      ((∃ r', (insert cfg (some r) keys values s).1 = .ok r') ↔
        ∀ t ∈ lookedAt cfg.pp T (sortKeys keys), 0 < countsOf cfg.hasher (C.view s) (.tree t) ∨
          shows = true ∧ ∃ e ∈ encodedPairs cfg keys values, t = .leaf e.1 e.2) ∧
      ((∃ r', (insert cfg (some r) keys values s).1 = .ok r') ∨
        ∃ e, (insert cfg (some r) keys values s).1 = .error e ∧ e.IsException) := by
  have hsub : ∀ i, Among H i → Among (hashedBy cfg (some r) keys values s ++ H) i :=
    fun i hi => List.mem_append_right _ hi
  obtain ⟨T, hT, hl, hTU, hM⟩ :=
    (events_records (C := C) hc.pos hc.pp h (hcf.mono hsub) _ hr).mono hsub
  change T.loc cfg.hasher = r at hl
  subst hl
  have hdep := (heightBelow_iff hT hM).1 hd
  obtain ⟨h1, h2⟩ := insert_needs (C := C) hc.pos hc.pp hcf hw
    (fun i hi => List.mem_append_left _ hi)
    ((calls_inPlace (C := C) hc.pos hc.pp h.calls (hcf.mono hsub)).mono hsub) hp hT hTU hM hh (by omega)
    hlen hne hnd henc
  refine ⟨T, hT, rfl, hM, ?_⟩
  unfold Ends at h1 h2
  have hiff : ∀ t, ¬ Unfound cfg.hasher shows (C.view s) (encodedPairs cfg keys values) t ↔
      0 < countsOf cfg.hasher (C.view s) (.tree t) ∨
        shows = true ∧ ∃ e ∈ encodedPairs cfg keys values, t = .leaf e.1 e.2 := by
    intro t
    unfold Unfound
    constructor
    · intro hn
      by_cases h0 : countsOf cfg.hasher (C.view s) (.tree t) = 0
      · refine .inr ?_
        by_contra hx
        refine hn ⟨h0, fun hs e he ht => hx ⟨hs, e, he, ht⟩⟩
      · exact .inl (by omega)
    · rintro (h0 | ⟨hs, e, he, ht⟩) ⟨hz, hx⟩
      · omega
      · exact hx hs e he ht
  simp only [← hiff]
  rcases hrun : insert cfg (some (T.loc cfg.hasher)) keys values s with ⟨res, s'⟩
  rw [hrun] at h1 h2
  by_cases hall : ∀ t ∈ lookedAt cfg.pp T (sortKeys keys),
      ¬ Unfound cfg.hasher shows (C.view s) (encodedPairs cfg keys values) t
  · have h1 := h1 hall
    cases res with
    | ok r' => exact ⟨⟨fun _ => hall, fun _ => ⟨r', rfl⟩⟩, .inl ⟨r', rfl⟩⟩
    | error e =>
      rcases h1.1 with ⟨h, -⟩ | ⟨h, -⟩
      · exact h.elim
      · exact absurd hs h
  · have h2 := h2 (by simpa using hall)
    cases res with
    | ok r' => exact h2.2.elim
    | error e =>
      refine ⟨⟨?_, fun h => absurd h hall⟩, .inr ⟨e, rfl, ?_⟩⟩
      · rintro ⟨r', h⟩; cases h
      · rcases h2.1 with ⟨h, -⟩ | ⟨h, -⟩
        · exact h
        · exact absurd hs h

/-- C81: where writes are queued (as in `RocksDB`), it depends on the keys of the batch alone whether an
insert of a valid batch succeeds. -/
theorem C81_values_do_not_matter (hc : Sane cfg) (h : Events cfg C H L s) (hs : C.alive s)
    (hp : C.pending s = View.empty N) (hw : WritesShow C false)
    {r : Arr N} {M : Contents N V} (hr : (r, M) ∈ L) (hd : HeightBelow M (cfg.depth + 1))
    {keys : List (Arr N)} {values values' : List V} (hh : Handled cfg M keys)
    (hlen : keys.length = values.length) (hlen' : keys.length = values'.length)
    (hne : keys ≠ []) (hnd : keys.Nodup)
    (henc : ∀ v ∈ values, ∃ b, cfg.encode v = .ok b) (henc' : ∀ v ∈ values', ∃ b, cfg.encode v = .ok b)
    (hcf : CollisionFree cfg.hasher (Among (hashedBy cfg (some r) keys values s ++ H)))
    (hcf' : CollisionFree cfg.hasher (Among (hashedBy cfg (some r) keys values' s ++ H))) :
    (∃ r', (insert cfg (some r) keys values s).1 = .ok r') ↔
      ∃ r', (insert cfg (some r) keys values' s).1 = .ok r' := by
  obtain ⟨T, hT, -, hM, h1, -⟩ := C81_insert_needs hc h hs hp hw hr hd hh hlen hne hnd henc hcf
  obtain ⟨T', hT', -, hM', h2, -⟩ := C81_insert_needs hc h hs hp hw hr hd hh hlen' hne hnd henc' hcf'
  cases Represents.unique hT hT' hM hM'
  rw [h1, h2]
  simp

end

/-! ## Concrete cases -/

namespace Toy

/-- The second version of `C19_false`, after the leaf of key 1 was given to `remove` as if it were a root
and is gone. -/
def nd := (remove cfg ((Trie.leaf (key 1) [10]).loc cfg.hasher) d2.2).2

theorem nevents : Events cfg C (hashedBy cfg (some (key 59708)) [key 0x8000] [[30]] d1.2 ++
      (hashedBy cfg none [key 1, key 2] [[10], [20]] db0 ++ []))
    [(key 24207, D2), (key 59708, D1)] nd :=
  .remove (.good (.good (.start rfl rfl) (prev := none) rfl (handled_empty _)
    (outcome (by decide +kernel))) (prev := some (key 59708)) (by simp [Ledger.Prev, D1])
    (handled_single sane _) (outcome (by decide +kernel)))
    (r := (Trie.leaf (key 1) [10]).loc cfg.hasher) (res := .ok ()) (outcome (by decide +kernel))

/-- What batches look at in the second version, and what is lost of it. -/
example :
    countsOf cfg.hasher (C.view nd) (.tree (.leaf (key 1) [10])) = 0 ∧
    (∀ i ∈ [Item.tree dT2, .tree dT1, .tree (.leaf (key 2) [20]), .tree (.leaf (key 0x8000) [30])],
      0 < countsOf cfg.hasher (C.view nd) i) ∧
    lookedAt cfg.pp dT2 [key 0x9000] = [dT2, dT1, .leaf (key 0x8000) [30]] ∧
    lookedAt cfg.pp dT2 [key 3] =
      [dT2, dT1, .leaf (key 1) [10], .leaf (key 2) [20], .leaf (key 0x8000) [30]] := by decide +kernel

theorem dT2_D2 : Represents cfg dT2 D2 := by
  intro k
  have h12 : key 1 ≠ key 2 := by decide +kernel
  have h18 : key 1 ≠ key 0x8000 := by decide +kernel
  have h28 : key 2 ≠ key 0x8000 := by decide +kernel
  by_cases h1 : key 1 = k
  · subst h1
    refine ⟨[10], rfl, ?_⟩
    decide +kernel
  by_cases h2 : key 2 = k
  · subst h2
    refine ⟨[20], rfl, ?_⟩
    decide +kernel
  by_cases h3 : key 0x8000 = k
  · subst h3
    refine ⟨[30], rfl, ?_⟩
    decide +kernel
  have hD : D2 k = none := by
    simp [D2, D1, Contents.assign, Contents.empty, h1, h2, h3]
  rw [hD]
  show dT2.lookup k = none
  simp [dT2, dT1, Trie.lookup, Trie.entries, h1, h2, h3]

theorem nneeds {k : Arr 2} {v : List UInt8}
    (hcf : CollisionFree cfg.hasher (Among (hashedBy cfg (some (key 24207)) [k] [v] nd ++
      (hashedBy cfg (some (key 59708)) [key 0x8000] [[30]] d1.2 ++
      (hashedBy cfg none [key 1, key 2] [[10], [20]] db0 ++ []))))) :
    (∃ r', (insert cfg (some (key 24207)) [k] [v] nd).1 = .ok r') ↔
        ∀ t ∈ lookedAt cfg.pp dT2 (sortKeys [k]), 0 < countsOf cfg.hasher (C.view nd) (.tree t) ∨
          true = true ∧ ∃ e ∈ encodedPairs cfg [k] [v], t = .leaf e.1 e.2 := by
  obtain ⟨T, hT, hl, hM, h, -⟩ := C81_insert_needs sane nevents (alive _) rfl hash_writesShow
    (r := key 24207) (M := D2) (by simp) (heightBelow_of_bits _ (by decide)) (keys := [k])
    (values := [v]) (handled_single sane _) rfl (by simp) (by simp) (fun v _ => ⟨v, rfl⟩) hcf
  cases Represents.unique hT dT2_wf hM dT2_D2
  exact h

end Toy

/-- C81 there: an insert that does not come near the lost leaf succeeds, and so does one that writes the
lost leaf again. -/
example : (∃ r', (insert Toy.cfg (some (Toy.key 24207)) [Toy.key 0x9000] [[7]] Toy.nd).1 = .ok r') ∧
    ∃ r', (insert Toy.cfg (some (Toy.key 24207)) [Toy.key 1] [[10]] Toy.nd).1 = .ok r' :=
  ⟨(Toy.nneeds (collisionFree_of_check (by decide +kernel))).2 (by decide +kernel),
    (Toy.nneeds (collisionFree_of_check (by decide +kernel))).2 (by decide +kernel)⟩

/-- C81 there: an insert that looks at the lost leaf fails, and so does one that writes another value to its
key. -/
example : (¬ ∃ r', (insert Toy.cfg (some (Toy.key 24207)) [Toy.key 3] [[7]] Toy.nd).1 = .ok r') ∧
    ¬ ∃ r', (insert Toy.cfg (some (Toy.key 24207)) [Toy.key 1] [[11]] Toy.nd).1 = .ok r' := by
  constructor <;>
  · intro h
    have := (Toy.nneeds (collisionFree_of_check (by decide +kernel))).1 h
    revert this
    decide +kernel

namespace Toy

/-- The contract of RocksDB. -/
abbrev RC : DbContract rocks.db := rocksContract ToyCodec.lawful (.reliable 2)

/-- The same history on RocksDB. -/
def n1 := insert rocks none [key 1, key 2] [[10], [20]] (RocksDB.open 2)
/-- Its second insert. -/
def n2 := insert rocks (some (key 59708)) [key 0x8000] [[30]] n1.2
/-- Its removal. -/
def n3 := remove rocks ((Trie.leaf (key 1) [10]).loc rocks.hasher) n2.2

theorem rsane : Sane rocks := ⟨sane.pos, sane.pp, sane.codec⟩

theorem revents : Events rocks RC (hashedBy rocks (some (key 59708)) [key 0x8000] [[30]] n1.2 ++
      (hashedBy rocks none [key 1, key 2] [[10], [20]] (RocksDB.open 2) ++ []))
    [(key 24207, D2), (key 59708, D1)] n3.2 :=
  .remove (.good (.good (.start rfl rfl) (prev := none) rfl (handled_empty _)
    (outcome (by decide +kernel))) (prev := some (key 59708)) (by simp [Ledger.Prev, D1])
    (handled_single rsane _) (outcome (by decide +kernel)))
    (r := (Trie.leaf (key 1) [10]).loc cfg.hasher) (res := .ok ()) (outcome (by decide +kernel))

theorem ralive : RC.alive n3.2 := by
  have h1 : RC.alive n1.2 := insert_alive (cfg := rocks) (C := RC) (rocks_empty ToyCodec.lawful) _ _ _
  have h2 : RC.alive n2.2 := insert_alive (cfg := rocks) (C := RC) h1 _ _ _
  obtain ⟨s', h3, h4⟩ := remove_alive (cfg := rocks) (C := RC) h2
    ((Trie.leaf (key 1) [10]).loc rocks.hasher)
  have : n3.2 = s' := by rw [n3, h3]
  rw [this]; exact h4

theorem rflushed {s : RocksDB 2} (h : s.pending = none) : RC.pending s = View.empty 2 := by
  funext x
  show (queued (s.pending.getD []) x).map _ = none
  rw [h]
  rfl

end Toy

/-- C81 on RocksDB: whatever is written to key 1, inserts fail there. -/
example : ¬ (∃ r', (insert Toy.rocks (some (Toy.key 24207)) [Toy.key 1] [[10]] Toy.n3.2).1 = .ok r') ∧
    ((∃ r', (insert Toy.rocks (some (Toy.key 24207)) [Toy.key 1] [[10]] Toy.n3.2).1 = .ok r') ↔
      ∃ r', (insert Toy.rocks (some (Toy.key 24207)) [Toy.key 1] [[11]] Toy.n3.2).1 = .ok r') := by
  refine ⟨?_, C81_values_do_not_matter Toy.rsane Toy.revents Toy.ralive (Toy.rflushed (by decide +kernel)) (rocks_writesShow _ _)
    (r := Toy.key 24207) (M := Toy.D2) (by simp) (heightBelow_of_bits _ (by decide))
    (handled_single Toy.rsane _) rfl rfl (by simp) (by simp) (fun v _ => ⟨v, rfl⟩) (fun v _ => ⟨v, rfl⟩)
    (collisionFree_of_check (by decide +kernel)) (collisionFree_of_check (by decide +kernel))⟩
  rintro ⟨r', h⟩
  have : (insert Toy.rocks (some (Toy.key 24207)) [Toy.key 1] [[10]] Toy.n3.2).1.toOption = none := by
    decide +kernel
  rw [h] at this; cases this

end MerkleBit
