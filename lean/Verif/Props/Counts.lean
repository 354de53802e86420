import Verif.Proof.CountsEvents
import Verif.Props.Damage
import Verif.Props.Backends
/-!
# C78-C80: what calls do to reference counts

`Events` are histories of calls with any arguments and outcomes, with process deaths and losses of queued
writes; `countsOf` are the reference counts of trees and data nodes, 0 for what is not stored.
-/

namespace MerkleBit

section
variable {N : Nat} {σ V : Type} {cfg : Config N σ V} {C : DbContract cfg.db}
  {H : List (HIn N)} {L : Ledger N V} {s s' : σ}

/-! ## C78 -/

/-- C78: what removing a tree does to every reference count, in whatever state the database is.  One
reference to the tree is given up.  Where the last one is, the node is deleted and one reference to each of
its children is given up.  Nothing else changes. -/
theorem C78_effect_of_remove (hc : Sane cfg) (h : Events cfg C H L s) (hp : C.pending s = View.empty N)
    (hcf : CollisionFree cfg.hasher (Among H)) {T : Trie N} (hT : T.WF)
    (hin : ∀ x ∈ T.inputs cfg.hasher, x ∈ H)
    (hrun : remove cfg (T.loc cfg.hasher) s = (.ok (), s')) :
    C.pending s' = View.empty N ∧ ∀ i : Item N, i.Norm → (∀ x ∈ i.inputs cfg.hasher, x ∈ H) →
      (GivenUp (countsOf cfg.hasher (C.view s)) (.tree T) i →
        countsOf cfg.hasher (C.view s') i = countsOf cfg.hasher (C.view s) i - 1) ∧
      (¬ GivenUp (countsOf cfg.hasher (C.view s)) (.tree T) i →
        countsOf cfg.hasher (C.view s') i = countsOf cfg.hasher (C.view s) i) := by
  obtain ⟨h1, h2⟩ := remove_tally (C := C) hcf hT hin (calls_inPlace hc.pos hc.pp h.calls hcf) hp hrun
  exact ⟨h1, fun i hn hi => h2 i (Item.ok_iff.2 ⟨hn, hi⟩)⟩

/-- C78 for the roots that batches returned: their trees are such trees. -/
theorem C78_versions_are_trees (hc : Sane cfg) (h : Events cfg C H L s)
    (hcf : CollisionFree cfg.hasher (Among H)) {r : Arr N} {M : Contents N V} (hr : (r, M) ∈ L) :
    ∃ T : Trie N, T.WF ∧ T.loc cfg.hasher = r ∧ (∀ x ∈ T.inputs cfg.hasher, x ∈ H) ∧
      Represents cfg T M :=
  events_records hc.pos hc.pp h hcf _ hr

/-! ## C79 -/

/-- C79: what inserting a batch that opens what it has to (`Handled`) does to every reference count, in
whatever state the database is: exactly what `afterInsert` says, where a leaf whose pair was there before
gets two more references if writes show at once (as in `HashDB`), and one more if they are queued (as in
`RocksDB`). -/
theorem C79_effect_of_insert (hc : Sane cfg) (h : Events cfg C H L s) (hp : C.pending s = View.empty N)
    {shows : Bool} (hw : WritesShow C shows) {prev : Option (Arr N)} {M : Contents N V}
    {keys : List (Arr N)} {values : List V}
    (hcf : CollisionFree cfg.hasher (Among (hashedBy cfg prev keys values s ++ H)))
    (hprev : L.Prev prev M) (hh : prev ≠ none → Handled cfg M keys) {r : Arr N}
    (hrun : insert cfg prev keys values s = (.ok r, s')) :
    C.pending s' = View.empty N ∧
    ∃ (P : Option (Trie N)) (T' : Trie N),
      P.map (·.loc cfg.hasher) = prev ∧ (∀ T, P = some T → T.WF ∧ Represents cfg T M) ∧
      T'.WF ∧ T'.loc cfg.hasher = r ∧ Represents cfg T' (M.assign keys values) ∧
      ∀ i : Item N, i.Norm → (∀ x ∈ i.inputs cfg.hasher, x ∈ hashedBy cfg prev keys values s ++ H) →
        countsOf cfg.hasher (C.view s') i =
          afterInsert (if shows then 2 else 1) P (keptOf cfg.pp keys P) (encodedPairs cfg keys values) T'
            (countsOf cfg.hasher (C.view s)) i := by
  have hsub : ∀ i, Among H i → Among (hashedBy cfg prev keys values s ++ H) i :=
    fun i hi => List.mem_append_right _ hi
  have hL := fun e he => (events_records (C := C) hc.pos hc.pp h (hcf.mono hsub) e he).mono hsub
  obtain ⟨pt, hpt⟩ := hprev.trie hL
  obtain ⟨h1, T', h2, h3, h4, h5, h6⟩ := insert_tally (C := C) hc.pos hc.pp hcf hw
    (fun i hi => List.mem_append_left _ hi)
    ((calls_inPlace (C := C) hc.pos hc.pp h.calls (hcf.mono hsub)).mono hsub) hp hpt hh hrun
  exact ⟨h1, pt, T', hpt.1.symm, fun T hT => ⟨(hpt.2.1 T hT).1, (hpt.2.1 T hT).2.2⟩, h2, h3, h5,
    fun i hn hi => h6 i (Item.ok_iff.2 ⟨hn, hi⟩)⟩

/-- C79: `HashDB` shows writes at once, `RocksDB` queues them. -/
theorem C79_databases (N : Nat) :
    WritesShow (hashContract N) true ∧
    ∀ {codec : NodeCodec N} (hl : LawfulCodec codec) (env : RocksEnv N),
      WritesShow (rocksContract hl env) false :=
  ⟨hash_writesShow, fun hl env => rocks_writesShow hl env⟩

/-! ## C80 -/

/-- C80: in whatever state the database is, a key reads its value under the root of a version if and only
if the counts of the nodes on the way to it are positive, and otherwise nothing. -/
theorem C80_read_by_counts (hc : Sane cfg) (h : Events cfg C H L s) (hs : C.alive s)
    (hcf : CollisionFree cfg.hasher (Among H)) {r : Arr N} {M : Contents N V} (hr : (r, M) ∈ L)
    (hd : HeightBelow M cfg.depth) :
    ∃ T : Trie N, T.WF ∧ T.loc cfg.hasher = r ∧ Represents cfg T M ∧ ∀ k,
      ((∀ i ∈ way k T, 0 < countsOf cfg.hasher (C.view s) i) → getOne cfg s r k = .ok (M k)) ∧
      (¬ (∀ i ∈ way k T, 0 < countsOf cfg.hasher (C.view s) i) → getOne cfg s r k = .ok none) := by
  obtain ⟨T, hT, hin⟩ := events_remnant hc.pos hc.pp h hcf hr
  have hv := (calls_inPlace hc.pos hc.pp h.calls hcf).1
  refine ⟨T, hT.1, hT.2.1, hT.2.2.2, fun k => ?_⟩
  rw [← pathStored_iff hcf hv k hT.1.norm hin]
  rcases remnant_getOne (C := C) hc.pos hc.codec hd hT k with ⟨h1, h2⟩ | ⟨h1, h2⟩
  · exact ⟨fun _ => h2.alive hs, fun h => absurd h1 h⟩
  · exact ⟨fun h => absurd h h1, fun _ => h2.alive hs⟩

/-- C80: exactly which keys can be read under the root of a version after any version was removed: those
with all nodes on the way stored, none of which lost its last reference. -/
theorem C80_read_after_remove (hc : Sane cfg) (h : Events cfg C H L s) (hp : C.pending s = View.empty N)
    (hcf : CollisionFree cfg.hasher (Among H)) {r r' : Arr N} {M M' : Contents N V} (hr : (r, M) ∈ L)
    (hr' : (r', M') ∈ L) (hd : HeightBelow M' cfg.depth) (hrun : remove cfg r s = (.ok (), s'))
    (hs : C.alive s') :
    ∃ T T' : Trie N, T.WF ∧ T.loc cfg.hasher = r ∧ Represents cfg T M ∧
      T'.WF ∧ T'.loc cfg.hasher = r' ∧ Represents cfg T' M' ∧ ∀ k,
      ((∀ i ∈ way k T', 0 < countsOf cfg.hasher (C.view s) i ∧
          (GivenUp (countsOf cfg.hasher (C.view s)) (.tree T) i → 1 < countsOf cfg.hasher (C.view s) i)) →
        getOne cfg s' r' k = .ok (M' k)) ∧
      (¬ (∀ i ∈ way k T', 0 < countsOf cfg.hasher (C.view s) i ∧
          (GivenUp (countsOf cfg.hasher (C.view s)) (.tree T) i → 1 < countsOf cfg.hasher (C.view s) i)) →
        getOne cfg s' r' k = .ok none) := by
  obtain ⟨T, hT, rfl, hin, hM⟩ := events_records hc.pos hc.pp h hcf _ hr
  obtain ⟨T', hT', rfl, hin', hM'⟩ := events_records hc.pos hc.pp h hcf _ hr'
  refine ⟨T, T', hT, rfl, hM, hT', rfl, hM', fun k => ?_⟩
  obtain ⟨T'', hT'', hl, hM'', hread⟩ := C80_read_by_counts hc (h.remove hrun) hs hcf hr' hd
  cases Represents.unique hT'' hT' hM'' hM'
  obtain ⟨-, h2⟩ := remove_tally (C := C) hcf hT hin (calls_inPlace hc.pos hc.pp h.calls hcf) hp hrun
  have hiff : (∀ i ∈ way k T', 0 < countsOf cfg.hasher (C.view s') i) ↔
      ∀ i ∈ way k T', 0 < countsOf cfg.hasher (C.view s) i ∧
        (GivenUp (countsOf cfg.hasher (C.view s)) (.tree T) i →
          1 < countsOf cfg.hasher (C.view s) i) := by
    refine forall₂_congr fun i hi => ?_
    obtain ⟨h3, h4⟩ := h2 i (way_ok k hT'.norm hin' i hi)
    by_cases hg : GivenUp (countsOf cfg.hasher (C.view s)) (.tree T) i
    · rw [h3 hg]
      constructor
      · intro; exact ⟨by omega, fun _ => by omega⟩
      · rintro ⟨-, h⟩; have := h hg; omega
    · rw [h4 hg]
      exact ⟨fun h => ⟨h, fun h' => absurd h' hg⟩, fun h => h.1⟩
  rw [← hiff]
  exact hread k

/-- C80: a root that is counted twice can be removed without any answer changing. -/
theorem C80_shared_roots (hc : Sane cfg) (h : Events cfg C H L s) (hp : C.pending s = View.empty N)
    (hcf : CollisionFree cfg.hasher (Among H)) {r r' : Arr N} {M M' : Contents N V} (hr : (r, M) ∈ L)
    (hr' : (r', M') ∈ L) (hd : HeightBelow M' cfg.depth) (hrun : remove cfg r s = (.ok (), s'))
    (hs : C.alive s) (hs' : C.alive s') {n : Node N} (hn : C.view s r = some n) (h2 : 1 < n.references)
    (k : Arr N) : getOne cfg s' r' k = getOne cfg s r' k := by
  obtain ⟨T, T', hT, hl, -, hT', -, hM', hread'⟩ := C80_read_after_remove hc h hp hcf hr hr' hd hrun hs'
  obtain ⟨T'', hT'', -, hM'', hread⟩ := C80_read_by_counts hc h hs hcf hr' hd
  cases Represents.unique hT'' hT' hM'' hM'
  have hcount : countsOf cfg.hasher (C.view s) (.tree T) = n.references := by
    unfold countsOf
    change (match C.view s (T.loc cfg.hasher) with | some n => n.references | none => 0) = _
    rw [hl, hn]
  have hiff : ∀ i, GivenUp (countsOf cfg.hasher (C.view s)) (.tree T) i →
      1 < countsOf cfg.hasher (C.view s) i := by
    intro i hg
    cases hg with
    | here => omega
    | under h => omega
  by_cases hall : ∀ i ∈ way k T', 0 < countsOf cfg.hasher (C.view s) i
  · rw [(hread' k).1 fun i hi => ⟨hall i hi, hiff i⟩, (hread k).1 hall]
  · rw [(hread' k).2 fun h => hall fun i hi => (h i hi).1, (hread k).2 hall]

end

/-! ## Concrete cases -/

namespace Toy

/-- The trie of the first version of `C19_false`. -/
def dT1 : Trie 2 := .node (.leaf (key 1) [10]) (.leaf (key 2) [20])

/-- The trie of its second and third version. -/
def dT2 : Trie 2 := .node dT1 (.leaf (key 0x8000) [30])

theorem dT1_wf : dT1.WF := by
  refine ⟨trivial, trivial, ?_, ?_, ?_⟩ <;> decide +kernel

theorem dT2_wf : dT2.WF := by
  refine ⟨⟨trivial, trivial, ?_, ?_, ?_⟩, trivial, ?_, ?_, ?_⟩ <;> decide +kernel

/-- The counts before the removal: a leaf inserted again on top of a version that has it counts for three,
and the first version for one although the second points at it. -/
example : countsOf cfg.hasher (C.view d3.2) (.tree dT1) = 1 ∧
    countsOf cfg.hasher (C.view d3.2) (.tree dT2) = 1 ∧
    countsOf cfg.hasher (C.view d3.2) (.tree (.leaf (key 1) [10])) = 3 ∧
    countsOf cfg.hasher (C.view d3.2) (.tree (.leaf (key 2) [20])) = 2 ∧
    countsOf cfg.hasher (C.view d3.2) (.data (key 1) [10]) = 2 ∧
    countsOf cfg.hasher (C.view d3.2) (.data (key 2) [20]) = 1 := by decide +kernel

end Toy

/-- C78 on the removal of `C19_false`: the first version goes, and its leaves lose a reference each; their
data nodes do not. -/
example : (∀ i ∈ [Item.tree Toy.dT1, .tree (.leaf (Toy.key 1) [10]), .tree (.leaf (Toy.key 2) [20])],
      GivenUp (countsOf Toy.cfg.hasher (Toy.C.view Toy.d3.2)) (.tree Toy.dT1) i ∧
      countsOf Toy.cfg.hasher (Toy.C.view Toy.d4.2) i =
        countsOf Toy.cfg.hasher (Toy.C.view Toy.d3.2) i - 1) ∧
    countsOf Toy.cfg.hasher (Toy.C.view Toy.d4.2) (.data (Toy.key 2) [20]) = 1 := by
  have h := (C78_effect_of_remove Toy.sane Toy.devents3 rfl Toy.dfree Toy.dT1_wf
    (by decide +kernel) (s' := Toy.d4.2)
    (outcome (x := remove Toy.cfg (Toy.key 59708) Toy.d3.2) (a := .ok ()) (by decide +kernel))).2
  have h1 : countsOf Toy.cfg.hasher (Toy.C.view Toy.d3.2) (.tree Toy.dT1) = 1 := by decide +kernel
  refine ⟨fun i hi => ?_, by decide +kernel⟩
  have hg : GivenUp (countsOf Toy.cfg.hasher (Toy.C.view Toy.d3.2)) (.tree Toy.dT1) i := by
    simp only [List.mem_cons, List.not_mem_nil, or_false] at hi
    rcases hi with rfl | rfl | rfl
    · exact .here
    · exact .under h1 (by decide +kernel) .here
    · exact .under h1 (by decide +kernel) .here
  refine ⟨hg, (h i ?_ ?_).1 hg⟩
  · simp only [List.mem_cons, List.not_mem_nil, or_false] at hi
    rcases hi with rfl | rfl | rfl
    · exact Toy.dT1_wf.norm
    · trivial
    · trivial
  · simp only [List.mem_cons, List.not_mem_nil, or_false] at hi
    rcases hi with rfl | rfl | rfl <;> decide +kernel

/-- C79 on the last insert of `C19_false`: its hypotheses hold. -/
example : ∃ H L, Events Toy.cfg Toy.C H L Toy.d2.2 ∧ WritesShow Toy.C true ∧
    L.Prev (some (Toy.key 24207)) Toy.D2 ∧ Handled Toy.cfg Toy.D2 [Toy.key 1] ∧
    CollisionFree Toy.cfg.hasher
      (Among (hashedBy Toy.cfg (some (Toy.key 24207)) [Toy.key 1] [[10]] Toy.d2.2 ++ H)) ∧
    (insert Toy.cfg (some (Toy.key 24207)) [Toy.key 1] [[10]] Toy.d2.2).1 = .ok (Toy.key 24207) :=
  ⟨_, [(Toy.key 24207, Toy.D2), (Toy.key 59708, Toy.D1)],
    .good (.good (.start rfl rfl) (prev := none) rfl (handled_empty _)
      (outcome (by decide +kernel))) (prev := some (Toy.key 59708)) (by simp [Ledger.Prev, Toy.D1])
      (handled_single Toy.sane _) (outcome (by decide +kernel)),
    hash_writesShow, by simp [Ledger.Prev], handled_single Toy.sane _, Toy.dfree, by decide +kernel⟩

/-- What `afterInsert` says there: the pair was there, so its leaf gets two more; the other two leaves are
taken over; the branch of both leaves is made anew, and its count of 2 becomes 1. -/
example :
    keptOf Toy.cfg.pp [Toy.key 1] (some Toy.dT2) = [.leaf (Toy.key 2) [20], .leaf (Toy.key 0x8000) [30]] ∧
    countsOf Toy.cfg.hasher (Toy.C.view Toy.d2.2) (.tree Toy.dT1) = 2 ∧
    ∀ i ∈ [Item.tree Toy.dT1, .tree Toy.dT2, .tree (.leaf (Toy.key 1) [10]),
        .tree (.leaf (Toy.key 2) [20]), .tree (.leaf (Toy.key 0x8000) [30]), .data (Toy.key 1) [10],
        .data (Toy.key 2) [20], .data (Toy.key 0x8000) [30]],
      countsOf Toy.cfg.hasher (Toy.C.view Toy.d3.2) i =
        afterInsert 2 (some Toy.dT2) [.leaf (Toy.key 2) [20], .leaf (Toy.key 0x8000) [30]]
          [(Toy.key 1, [10])] Toy.dT2 (countsOf Toy.cfg.hasher (Toy.C.view Toy.d2.2)) i := by
  decide +kernel

/-- C80 on `C19_false`: the branch of keys 1 and 2 lost its last reference with the removal of the first
version, so key 2 is gone under the second root too, and key 0x8000 is not. -/
example : GivenUp (countsOf Toy.cfg.hasher (Toy.C.view Toy.d3.2)) (.tree Toy.dT1) (.tree Toy.dT1) ∧
    countsOf Toy.cfg.hasher (Toy.C.view Toy.d3.2) (.tree Toy.dT1) = 1 ∧
    Item.tree Toy.dT1 ∈ way (Toy.key 2) Toy.dT2 ∧ Item.tree Toy.dT1 ∉ way (Toy.key 0x8000) Toy.dT2 ∧
    (Toy.key 59708, Toy.D1) ∈ [(Toy.key 24207, Toy.D3), (Toy.key 24207, Toy.D2), (Toy.key 59708, Toy.D1)] ∧
    getOne Toy.cfg Toy.d4.2 (Toy.key 24207) (Toy.key 2) = .ok none ∧
    getOne Toy.cfg Toy.d4.2 (Toy.key 24207) (Toy.key 0x8000) = .ok (some [30]) :=
  ⟨.here, by decide +kernel, by decide +kernel, by decide +kernel, by simp, by decide +kernel,
    by decide +kernel⟩

/-- C79, what the difference between the databases leads to: the same program, of inserts on top of a live
root and removals of returned roots, leaves a version readable in memory that is gone on RocksDB. -/
theorem C79_databases_differ : ∃ (r k : Arr 2) (v : List UInt8),
    let a1 := insert Toy.cfg none [k] [v] (HashDB.open 2)
    let a2 := insert Toy.cfg (some r) [k] [v] a1.2
    let a3 := remove Toy.cfg r (remove Toy.cfg r a2.2).2
    let b1 := insert Toy.rocks none [k] [v] (RocksDB.open 2)
    let b2 := insert Toy.rocks (some r) [k] [v] b1.2
    let b3 := remove Toy.rocks r (remove Toy.rocks r b2.2).2
    a1.1 = .ok r ∧ a2.1 = .ok r ∧ b1.1 = .ok r ∧ b2.1 = .ok r ∧
    getOne Toy.cfg a3.2 r k = .ok (some v) ∧ getOne Toy.rocks b3.2 r k = .ok none :=
  ⟨Toy.key 24929, Toy.key 1, [10], by decide +kernel⟩

end MerkleBit
