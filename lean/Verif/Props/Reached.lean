import Verif.Proof.Whole
import Verif.Props.Counts
/-!
# C85: batch reads of damaged databases

`Events` are histories of calls with any arguments and outcomes, with process deaths and losses of queued
writes; `reached` are the leaves a request comes to in a tree of which nodes may be missing.
-/

namespace MerkleBit

section
variable {N : Nat} {σ V : Type} {cfg : Config N σ V} {C : DbContract cfg.db}
  {H : List (HIn N)} {L : Ledger N V} {s : σ}

/-- C85: exactly what `get` returns under the root of a version, in whatever state the database is.  If some
leaf the request comes to has lost its data, the whole call fails.  Otherwise it returns an entry for each
key of the request and no other: the value of the version if the request comes to the leaf of the key, and
nothing if it does not. -/
theorem C85_get_exact (hc : Sane cfg) (h : Events cfg C H L s) (hs : C.alive s)
    (hcf : CollisionFree cfg.hasher (Among H)) {r : Arr N} {M : Contents N V} (hr : (r, M) ∈ L)
    (hd : HeightBelow M (cfg.depth + 1)) :
    ∃ T : Trie N, T.WF ∧ T.loc cfg.hasher = r ∧ Represents cfg T M ∧ ∀ keys,
      ((∃ e ∈ reached cfg.pp (countsOf cfg.hasher (C.view s)) T (sortKeys keys),
          countsOf cfg.hasher (C.view s) (.data e.1 e.2) = 0) →
        get cfg s r keys =
          .error (.exception "Corrupt merkle tree: Failed to get leaf node from DB")) ∧
      ((∀ e ∈ reached cfg.pp (countsOf cfg.hasher (C.view s)) T (sortKeys keys),
          0 < countsOf cfg.hasher (C.view s) (.data e.1 e.2)) →
        ∃ m, get cfg s r keys = .ok m ∧ ∀ k, m.get? k =
          if k ∈ keys then some (if k ∈ (reached cfg.pp (countsOf cfg.hasher (C.view s)) T
            (sortKeys keys)).map (·.1) then M k else none) else none) := by
  obtain ⟨T, hT, hin⟩ := events_remnant hc.pos hc.pp h hcf hr
  have hv := (calls_inPlace hc.pos hc.pp h.calls hcf).1
  exact ⟨T, hT.1, hT.2.1, hT.2.2.2, fun keys =>
    remnant_get_exact hc.pos hc.pp hc.codec hs hd hT (told_of_honest hcf hv hT.1.norm hin) keys⟩

/-- C85: the leaves a request comes to are those of stored keys that it opens, with all trees on the way
still there. -/
theorem C85_reached {pp : PartitionPoint N} {c : Item N → Nat} {T : Trie N} (hT : T.WF)
    (D : List (Arr N)) (k : Arr N) (b : List UInt8) :
    (k, b) ∈ reached pp c T D ↔
      (k, b) ∈ T.entries ∧ Opened pp k T D ∧ ∀ t, Item.tree t ∈ way k T → 0 < c (.tree t) :=
  ⟨fun h => ⟨reached_sub _ _ _ h, (reached_iff hT (reached_sub _ _ _ h)).1 h⟩,
    fun h => (reached_iff hT h.1).2 h.2⟩

/-- C85: if `get` succeeds, it agrees with `get_one` on the keys that it opens, and has nothing for those it
does not. -/
theorem C85_agrees_with_get_one (hc : Sane cfg) (h : Events cfg C H L s) (hs : C.alive s)
    (hcf : CollisionFree cfg.hasher (Among H)) {r : Arr N} {M : Contents N V} (hr : (r, M) ∈ L)
    (hd : HeightBelow M cfg.depth) {keys : List (Arr N)} {m : AMap (Arr N) (Option V)}
    (hrun : get cfg s r keys = .ok m) :
    ∃ T : Trie N, T.WF ∧ T.loc cfg.hasher = r ∧ Represents cfg T M ∧ ∀ k ∈ keys,
      (Opened cfg.pp k T (sortKeys keys) → ∃ a, getOne cfg s r k = .ok a ∧ m.get? k = some a) ∧
      (¬ Opened cfg.pp k T (sortKeys keys) → m.get? k = some none) := by
  obtain ⟨T, hT, rfl, hM, hget⟩ := C85_get_exact hc h hs hcf hr hd.succ
  obtain ⟨T', hT', -, hM', hone⟩ := C80_read_by_counts hc h hs hcf hr hd
  cases Represents.unique hT' hT hM' hM
  refine ⟨T, hT, rfl, hM, fun k hk => ?_⟩
  have hall : ∀ e ∈ reached cfg.pp (countsOf cfg.hasher (C.view s)) T (sortKeys keys),
      0 < countsOf cfg.hasher (C.view s) (.data e.1 e.2) := by
    intro e he
    by_contra hz
    have := (hget keys).1 ⟨e, he, by omega⟩
    rw [hrun] at this
    cases this
  obtain ⟨m', h1, h2⟩ := (hget keys).2 hall
  rw [hrun] at h1
  cases h1
  have h2 := h2 k
  rw [if_pos hk] at h2
  have hmem : k ∈ (reached cfg.pp (countsOf cfg.hasher (C.view s)) T (sortKeys keys)).map (·.1) ↔
      ∃ b, (k, b) ∈ reached cfg.pp (countsOf cfg.hasher (C.view s)) T (sortKeys keys) := by
    constructor
    · intro h
      obtain ⟨e, he, rfl⟩ := List.mem_map.1 h
      exact ⟨e.2, he⟩
    · rintro ⟨b, hb⟩
      exact List.mem_map_of_mem (f := Prod.fst) hb
  constructor
  · intro ho
    by_cases hin : k ∈ (reached cfg.pp (countsOf cfg.hasher (C.view s)) T (sortKeys keys)).map (·.1)
    · rw [if_pos hin] at h2
      obtain ⟨b, hb⟩ := hmem.1 hin
      obtain ⟨he, -, hway⟩ := (C85_reached hT _ k b).1 hb
      exact ⟨_, (hone k).1 ((way_iff hT he).2 ⟨hway, hall _ hb⟩), h2⟩
    · rw [if_neg hin] at h2
      refine ⟨none, ?_, h2⟩
      by_cases hpos : ∀ i ∈ way k T, 0 < countsOf cfg.hasher (C.view s) i
      · rw [(hone k).1 hpos]
        cases hMk : M k with
        | none => rfl
        | some v =>
          obtain ⟨b, he, -⟩ := hM.entry hT hMk
          exact absurd (hmem.2 ⟨b, (C85_reached hT _ k b).2 ⟨he, ho, ((way_iff hT he).1 hpos).1⟩⟩) hin
      · exact (hone k).2 hpos
  · intro ho
    rw [h2, if_neg]
    intro hin
    obtain ⟨b, hb⟩ := hmem.1 hin
    exact ho ((C85_reached hT _ k b).1 hb).2.1

/-- C85: if removes are gentle (`Gentle`: not of the place of a leaf's data, and not while writes of a
failed insert are queued), stored leaves have their data, whatever else happens. -/
theorem C85_leaves_have_data (hc : Sane cfg) (h : Gentle cfg C H L s)
    (hcf : CollisionFree cfg.hasher (Among H)) : (C.view s).Whole :=
  (h.whole hc.pos hc.pp hcf).1

/-- C85: after gentle removes no batch read of a version fails, whatever was removed. -/
theorem C85_gentle_get (hc : Sane cfg) (h : Gentle cfg C H L s) (hs : C.alive s)
    (hcf : CollisionFree cfg.hasher (Among H)) {r : Arr N} {M : Contents N V} (hr : (r, M) ∈ L)
    (hd : HeightBelow M (cfg.depth + 1)) (keys : List (Arr N)) : ∃ m, get cfg s r keys = .ok m := by
  obtain ⟨T, hT, hin⟩ := events_remnant hc.pos hc.pp h.events hcf hr
  have hv := (calls_inPlace hc.pos hc.pp h.events.calls hcf).1
  have htold := told_of_honest (cfg := cfg) hcf hv hT.1.norm hin
  obtain ⟨m, hm, -⟩ := (remnant_get_exact hc.pos hc.pp hc.codec hs hd hT htold keys).2 (by
    intro e he
    obtain ⟨h1, -, h2⟩ := (C85_reached hT.1 _ e.1 e.2).1 he
    obtain ⟨t, ht, hw⟩ := way_leaf hT.1 h1
    have hh := (htold.1 t ht).2 (h2 t hw.1)
    rw [hw.2] at hh
    obtain ⟨refs, hx⟩ := hh
    have := C85_leaves_have_data hc h hcf _ _ _ hx rfl
    unfold countsOf
    change 0 < match C.view s (Trie.dataLoc cfg.hasher e.1 e.2) with | some n => n.references | none => 0
    cases hd : C.view s (Trie.dataLoc cfg.hasher e.1 e.2) with
    | none => exact absurd hd this
    | some n => exact (hv _ n hd).1)
  exact ⟨m, hm⟩

/-- C85: returned roots are no places of data. -/
theorem C85_roots_are_no_data (hc : Sane cfg) (h : Events cfg C H L s)
    (hcf : CollisionFree cfg.hasher (Among H)) {r : Arr N} {M : Contents N V} (hr : (r, M) ∈ L) :
    (C.view s).NoData r := by
  obtain ⟨T, -, rfl, hin, -⟩ := events_records hc.pos hc.pp h hcf _ hr
  exact (calls_inPlace hc.pos hc.pp h.calls hcf).1.noData hcf hin

end

/-! ## Concrete cases -/

namespace Toy

/-- The history of `C19_false` is gentle. -/
theorem dgentle : Gentle Toy.cfg Toy.C DH [(key 24207, D3), (key 24207, D2), (key 59708, D1)] d4.2 := by
  have h : Gentle Toy.cfg Toy.C DH [(key 24207, D3), (key 24207, D2), (key 59708, D1)] d3.2 :=
    .goodAt (d := 17) (.goodAt (d := 17) (.goodAt (d := 17) (.start rfl rfl) (prev := none) rfl
        (handled_empty _) (outcome (by decide +kernel))) (prev := some (key 59708))
      (by simp [Ledger.Prev, D1]) (handled_single sane _) (outcome (by decide +kernel)))
      (prev := some (key 24207)) (by simp [Ledger.Prev, D2]) (handled_single sane _)
      (outcome (by decide +kernel))
  exact h.remove (r := key 59708) (res := .ok ()) rfl
    (C85_roots_are_no_data sane h.events dfree (M := D1) (by simp))
    (outcome (x := remove Toy.cfg (key 59708) d3.2) (a := .ok ()) (by decide +kernel))

/-- The two keys of the first version, with the data of key 1 removed by the place where it is stored. -/
def lost : HashDB 2 := (remove Toy.cfg (Trie.dataLoc Toy.cfg.hasher (key 1) [10]) d1.2).2

theorem elost : Events Toy.cfg Toy.C (hashedBy Toy.cfg none [key 1, key 2] [[10], [20]] db0 ++ [])
    [(key 59708, D1)] lost :=
  .remove (.good (.start rfl rfl) (prev := none) rfl (handled_empty _)
    (outcome (x := insert Toy.cfg none [key 1, key 2] [[10], [20]] db0) (a := .ok (key 59708))
      (by decide +kernel))) (res := .ok ()) (outcome (by decide +kernel))

end Toy

/-- C85 after the removal of `C19_false`: the branch of keys 1 and 2 is gone, so a request for four keys comes
to one leaf, and succeeds. -/
example : reached Toy.cfg.pp (countsOf Toy.cfg.hasher (Toy.C.view Toy.d4.2)) Toy.dT2
      (sortKeys [Toy.key 2, Toy.key 1, Toy.key 0x9000, Toy.key 0x8000]) = [(Toy.key 0x8000, [30])] ∧
    (∃ m, get Toy.cfg Toy.d4.2 (Toy.key 24207)
      [Toy.key 2, Toy.key 1, Toy.key 0x9000, Toy.key 0x8000] = .ok m) ∧
    ((get Toy.cfg Toy.d4.2 (Toy.key 24207) [Toy.key 2, Toy.key 1, Toy.key 0x9000, Toy.key 0x8000]).toOption.map
      fun m => [Toy.key 2, Toy.key 1, Toy.key 0x9000, Toy.key 0x8000].map m.get?) =
        some [some none, some none, some none, some (some [30])] :=
  ⟨by decide +kernel, C85_gentle_get Toy.sane Toy.dgentle (Toy.alive _) Toy.dfree
    (M := Toy.D2) (by simp) (Toy.deep _).succ _, by decide +kernel⟩

/-- C85, what lost data does to a batch read: a request that comes to the leaf fails as a whole, also when it
is for other keys, or for a key that is not stored, while `get_one` reads the other key.  (The place of a data
node was removed as if it were a root.) -/
theorem C85_lost_data_fails_all : ∃ (s : HashDB 2) (H : List (HIn 2)) (L : Ledger 2 (List UInt8)) (r : Arr 2),
    Events Toy.cfg Toy.C H L s ∧ CollisionFree Toy.cfg.hasher (Among H) ∧ (r, Toy.D1) ∈ L ∧
    (∀ keys ∈ [[Toy.key 1, Toy.key 2], [Toy.key 0]],
      get Toy.cfg s r keys =
        .error (.exception "Corrupt merkle tree: Failed to get leaf node from DB")) ∧
    getOne Toy.cfg s r (Toy.key 2) = .ok (some [20]) ∧ getOne Toy.cfg s r (Toy.key 1) = .ok none ∧
    getOne Toy.cfg s r (Toy.key 0) = .ok none := by
  have hfree : CollisionFree Toy.cfg.hasher
      (Among (hashedBy Toy.cfg none [Toy.key 1, Toy.key 2] [[10], [20]] Toy.db0 ++ [])) :=
    collisionFree_of_check (by decide +kernel)
  refine ⟨Toy.lost, _, _, Toy.key 59708, Toy.elost, hfree, by simp, ?_, by decide +kernel,
    by decide +kernel, by decide +kernel⟩
  obtain ⟨T, hT, -, hM, hget⟩ := C85_get_exact Toy.sane Toy.elost (Toy.alive _) hfree
    (r := Toy.key 59708) (M := Toy.D1) (by simp) (Toy.deep _).succ
  intro keys hk
  cases hres : get Toy.cfg Toy.lost (Toy.key 59708) keys with
  | ok m =>
    exfalso
    have : ∀ keys ∈ [[Toy.key 1, Toy.key 2], [Toy.key 0]],
        (get Toy.cfg Toy.lost (Toy.key 59708) keys).toOption.isNone = true := by decide +kernel
    have := this keys hk
    rw [hres] at this
    cases this
  | error e =>
    by_cases hz : ∃ e ∈ reached Toy.cfg.pp (countsOf Toy.cfg.hasher (Toy.C.view Toy.lost)) T (sortKeys keys),
        countsOf Toy.cfg.hasher (Toy.C.view Toy.lost) (.data e.1 e.2) = 0
    · rw [← hres]; exact (hget keys).1 hz
    · obtain ⟨m, hm, -⟩ := (hget keys).2 fun e he => by
        by_contra hc
        exact hz ⟨e, he, by omega⟩
      rw [hres] at hm
      cases hm

/-- C85, what removing while writes of a failed insert are queued does in `RocksDB`: the removed leaf comes back
with the queued writes, but without its data, and a batch read fails.  Without the failed insert it returns
nothing for the key, as `get_one` does in both cases. -/
theorem C85_queued_leaf_comes_back : ∃ (r r' k : Arr 2) (v : List UInt8),
    let cfg := Toy.rocks.withDepth 1
    let b1 := insert cfg none [k] [v] (RocksDB.open 2)
    let b2 := insert cfg (some r) [Toy.key 1, Toy.key 2] [[10], [20]] b1.2
    let b3 := remove cfg r b2.2
    let b4 := insert cfg (some r') [Toy.key 3] [[40]] b3.2
    let b5 := remove cfg r' b4.2
    let b6 := remove cfg r' b3.2
    b1.1 = .ok r ∧ b2.1 = .ok r' ∧ b3.1 = .ok () ∧ b4.1.toOption = none ∧ b5.1 = .ok () ∧
    (get cfg b5.2 r [k]).toOption.isNone = true ∧ getOne cfg b5.2 r k = .ok none ∧
    ((get cfg b6.2 r [k]).toOption.map fun m => m.get? k) = some (some none) ∧
    getOne cfg b6.2 r k = .ok none :=
  ⟨⟨[125, 1], rfl⟩, ⟨[94, 143], rfl⟩, Toy.key 0x8000, [30], by decide +kernel⟩

end MerkleBit
