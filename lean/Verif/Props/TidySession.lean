import Verif.Props.Session
import Verif.Props.Storage
/-!
# C76: sessions with removals

The live versions of a session with removals are maps, and what is stored is a function of the live maps.
-/

namespace MerkleBit
section
variable {N : Nat} {σ V : Type} {cfg : Config N σ V} {C : DbContract cfg.db} {s : σ} {ρ : σ → σ} {strict : Prop}

/-- C76: in a session with removals the live versions answer like maps, as long as inserts that are accepted
have at most one key that is new to their version, and do not write again a group of pairs (two or more keys
with a common prefix) that a live version has.  Inserts may be refused for any reason, also if the database
keeps what they queued and writes it with the next call; and the process may die during inserts and removals. -/
theorem C76_tidy_sessions (hc : Sane cfg) (hroom : cfg.Room) (hd : 8 * N < cfg.depth)
    (hρ : ∀ s, C.view (ρ s) = C.view s ∧ C.pending (ρ s) = View.empty N ∧ (C.alive s → C.alive (ρ s)))
    (hw : ¬ strict → ∃ b, WritesShow C b)
    (h0 : C.view s = View.empty N) (h1 : C.pending s = View.empty N) (hs : C.alive s)
    (cs : List (Cmd N V)) (htidy : TidySession strict cfg.encode cs [])
    (hcf : CollisionFree cfg.hasher (Among (hashedBySession cfg ρ cs [] s))) :
    runSession (cfg.api ρ) cs [] s = specSession cfg.encode cs [] :=
  (tidy_eq hc hroom hd hρ hw cs (H := []) (by rwa [List.append_nil])
    ⟨[], [], [], rfl, rfl, fun _ h => h, .start h0 h1, hs, .inl h1, .nil⟩ htidy).1

/-- Inserts of pairs that no live version has are tidy. -/
theorem tidy_of_newPairs {encode : V → Res (List UInt8)} : ∀ (cs : List (Cmd N V))
    (Ms : List (Option (Contents N V))), (∀ c ∈ cs, c.OneAtATime ∨ c.Bad encode) → NewPairsSession encode cs Ms →
    (strict → ∀ c ∈ cs, c.Smooth encode) → TidySession strict encode cs Ms
  | [], _, _, _, _ => trivial
  | c :: cs, Ms, hone, hnew, hsur => by
    refine ⟨?_, tidy_of_newPairs cs _ (fun c hc => hone c (List.mem_cons_of_mem _ hc)) hnew.2
      (fun h c hc => hsur h c (List.mem_cons_of_mem _ hc))⟩
    have hone := hone c List.mem_cons_self
    replace hnew := hnew.1
    have ins : ∀ {prev : Option Nat} {keys : List (Arr N)} {values : List V},
        (prev = none ∨ keys.length ≤ 1) → keys.length = values.length → keys.Nodup →
        (∀ M, some M ∈ Ms → ∀ p ∈ keys.zip values, M p.1 ≠ some p.2) →
        TidyInsert strict Ms prev keys values := by
      intro prev keys values h1 h2 h3 h4
      refine ⟨h3, fun M hM => ?_, ?_, fun _ => h4⟩
      · rcases h1 with rfl | h1
        · cases hM; exact clear_empty _
        · exact clear_of_short h1
      rintro M - M' hM' ⟨k, hk, d, ⟨k', -, hd, -⟩, hag⟩
      rw [← zip_keys h2] at hk
      obtain ⟨p, hp, rfl⟩ := List.mem_map.1 hk
      have h5 := hag p.1 (by
        rw [firstDiff_self]
        exact Nat.le_trans hd (firstDiff_le _ _))
      rw [assign_mem _ h2 h3 hp] at h5
      exact h4 M' hM' p hp h5
    cases c with
    | put prev keys values =>
      exact ⟨fun hg => ins (hone.resolve_right (absurd hg)) hg.1 hg.2.2.1 (hnew hg), fun h _ _ => hsur h _ List.mem_cons_self⟩
    | putOne prev k v =>
      exact ⟨fun hg => ins (.inr (by simp)) rfl (by simp) (by simpa using hnew hg),
        fun h => hsur h _ List.mem_cons_self⟩
    | read i keys => exact fun M _ => clear_of_short (hone.resolve_right id)
    | crash n prev keys values =>
      obtain ⟨h1, h2, h3, h4⟩ := hnew
      exact ⟨fun h => hsur h _ List.mem_cons_self, ins h1 h2 h3 h4⟩
    | crashRemove n i => exact fun h => hsur h _ List.mem_cons_self
    | _ => trivial

/-- C76, with simple conditions: reads and inserts that are accepted have one key each (or insert a batch on top
of nothing), and no insert that is accepted gives a pair that a live version has. -/
theorem C76_new_pairs (hc : Sane cfg) (hroom : cfg.Room) (hd : 8 * N < cfg.depth)
    (hρ : ∀ s, C.view (ρ s) = C.view s ∧ C.pending (ρ s) = View.empty N ∧ (C.alive s → C.alive (ρ s)))
    (hw : ∃ b, WritesShow C b)
    (h0 : C.view s = View.empty N) (h1 : C.pending s = View.empty N) (hs : C.alive s)
    (cs : List (Cmd N V)) (hone : ∀ c ∈ cs, c.OneAtATime ∨ c.Bad cfg.encode) (hnew : NewPairsSession cfg.encode cs [])
    (hcf : CollisionFree cfg.hasher (Among (hashedBySession cfg ρ cs [] s))) :
    runSession (cfg.api ρ) cs [] s = specSession cfg.encode cs [] :=
  C76_tidy_sessions (strict := False) hc hroom hd hρ (fun _ => hw) h0 h1 hs cs
    (tidy_of_newPairs cs [] hone hnew False.elim) hcf

/-- C76, what is left: if in addition no pair of a live version was given to an insert, no insert was refused for
its values or for a repeated key, and no process died, what is stored after the session depends only on the maps of the live versions, whatever the sessions were,
whatever the databases are and however the versions are numbered. -/
theorem C76_storage_is_canonical {σ' : Type} {cfg' : Config N σ' V} {C' : DbContract cfg'.db} {s' : σ'}
    {ρ' : σ' → σ'} (hc : Sane cfg) (hc' : Sane cfg') (hroom : cfg.Room) (hroom' : cfg'.Room)
    (hhash : cfg'.hasher = cfg.hasher) (henc : cfg'.encode = cfg.encode)
    (hd : 8 * N < cfg.depth) (hd' : 8 * N < cfg'.depth)
    (hρ : ∀ s, C.view (ρ s) = C.view s ∧ C.pending (ρ s) = View.empty N ∧ (C.alive s → C.alive (ρ s)))
    (hρ' : ∀ s, C'.view (ρ' s) = C'.view s ∧ C'.pending (ρ' s) = View.empty N ∧ (C'.alive s → C'.alive (ρ' s)))
    (h0 : C.view s = View.empty N) (h1 : C.pending s = View.empty N) (hs : C.alive s)
    (h0' : C'.view s' = View.empty N) (h1' : C'.pending s' = View.empty N) (hs' : C'.alive s')
    (cs cs' : List (Cmd N V)) (htidy : TidySession True cfg.encode cs [])
    (htidy' : TidySession True cfg.encode cs' [])
    (hcf : CollisionFree cfg.hasher (Among (hashedBySession cfg ρ cs [] s ++ hashedBySession cfg' ρ' cs' [] s')))
    (hlive : (specVersions cfg.encode cs []).reduceOption.Perm (specVersions cfg.encode cs' []).reduceOption) :
    C.view (treeAfter (cfg.api ρ) cs [] s) = C'.view (treeAfter (cfg'.api ρ') cs' [] s') := by
  have hcf1 : CollisionFree cfg.hasher (Among (hashedBySession cfg ρ cs [] s ++ [])) := by
    rw [List.append_nil]; exact hcf.mono (fun _ h => List.mem_append_left _ h)
  have hcf2 : CollisionFree cfg'.hasher (Among (hashedBySession cfg' ρ' cs' [] s' ++ [])) := by
    rw [List.append_nil, hhash]; exact hcf.mono (fun _ h => List.mem_append_right _ h)
  obtain ⟨-, -, vs, H0, L, -, e, hH, h, -, -, hL⟩ := tidy_eq hc hroom hd hρ (absurd trivial) cs hcf1
    ⟨[], [], [], rfl, rfl, fun _ h => h, .start h0 h1, hs, .inl h1, .nil⟩ htidy
  obtain ⟨-, -, vs', H0', L', -, e', hH', h', -, -, hL'⟩ := tidy_eq hc' hroom' hd' hρ' (absurd trivial) cs' hcf2
    ⟨[], [], [], rfl, rfl, fun _ h => h, .start h0' h1' , hs', .inl h1', .nil⟩ (by rw [henc]; exact htidy')
  rw [List.append_nil] at hH hH'
  rw [henc] at e'
  refine C48_storage_is_canonical_partial hc hc' hhash henc h h' (hcf.mono ?_) ?_
  · intro i hi
    exact (List.mem_append.1 hi).elim (fun h => List.mem_append_left _ (hH i h))
      (fun h => List.mem_append_right _ (hH' i h))
  · replace e : specVersions cfg.encode cs [] = contentsOf vs := e
    replace e' : specVersions cfg.encode cs' [] = contentsOf vs' := e'
    rw [e, e'] at hlive
    unfold contentsOf at hlive
    rw [List.reduceOption_map, List.reduceOption_map] at hlive
    exact ((hL.map Prod.snd).trans hlive).trans (hL'.map Prod.snd).symm

/-- C76, at the end: after a session in which every version was removed, nothing is stored. -/
theorem C76_clean_slate (hc : Sane cfg) (hroom : cfg.Room) (hd : 8 * N < cfg.depth)
    (hρ : ∀ s, C.view (ρ s) = C.view s ∧ C.pending (ρ s) = View.empty N ∧ (C.alive s → C.alive (ρ s)))
    (h0 : C.view s = View.empty N) (h1 : C.pending s = View.empty N) (hs : C.alive s)
    (cs : List (Cmd N V)) (htidy : TidySession True cfg.encode cs [])
    (hcf : CollisionFree cfg.hasher (Among (hashedBySession cfg ρ cs [] s)))
    (hgone : ∀ M, some M ∉ specVersions cfg.encode cs []) :
    C.view (treeAfter (cfg.api ρ) cs [] s) = View.empty N := by
  obtain ⟨-, -, vs, H0, L, -, e, hH, h, -, -, hL⟩ := tidy_eq hc hroom hd hρ (absurd trivial) cs (H := [])
    (by rwa [List.append_nil]) ⟨[], [], [], rfl, rfl, fun _ h => h, .start h0 h1, hs, .inl h1, .nil⟩ htidy
  rw [List.append_nil] at hH
  have hLe : L = [] := by
    cases L with
    | nil => rfl
    | cons e0 L =>
      refine absurd ?_ (hgone e0.2)
      replace e : specVersions cfg.encode cs [] = contentsOf vs := e
      rw [e]
      exact mem_contentsOf hL List.mem_cons_self
  subst hLe
  exact C21_all_removed_empty_partial hc h (hcf.mono hH)

/-- C76 for `HashTree`. -/
theorem C76_hash_tree (ty : TreeTypes N V) (depth : Nat) (hc : Sane (ty.hashConfig depth))
    (hroom : (ty.hashConfig depth).Room) (hd : 8 * N < depth) (cs : List (Cmd N V))
    (htidy : TidySession strict ty.encode cs [])
    (hcf : CollisionFree ty.hasher (Among (hashedBySession (ty.hashConfig depth) id cs [] (HashDB.open N)))) :
    ∃ t, HashTree.new N depth = .ok t ∧
      runSession (HashTree.api ty) cs [] t = specSession ty.encode cs [] ∧
      (strict → (∀ M, some M ∉ specVersions ty.encode cs []) →
        ∀ x, (hashDatabase N).getNode (treeAfter (HashTree.api ty) cs [] t).decompose.1 x = .ok none) := by
  refine ⟨_, rfl, ?_, ?_⟩
  · refine ((hashTree_hom ty depth).runSession cs [] (HashDB.open N)).1.trans ?_
    exact C76_tidy_sessions (cfg := ty.hashConfig depth) (C := hashContract N) hc hroom hd
      (fun s => ⟨rfl, rfl, id⟩) (fun _ => ⟨_, hash_writesShow⟩) rfl rfl trivial cs htidy hcf
  · intro hst hgone x
    have e : treeAfter (HashTree.api ty) cs [] ⟨⟨HashDB.open N, depth⟩⟩ =
      ⟨⟨treeAfter ((ty.hashConfig depth).api id) cs [] (HashDB.open N), depth⟩⟩ :=
      ((hashTree_hom ty depth).runSession cs [] (HashDB.open N)).2
    rw [e]
    have ht : TidySession True ty.encode cs [] := by simpa [hst] using htidy
    have := C76_clean_slate (cfg := ty.hashConfig depth) (C := hashContract N) (ρ := id) hc hroom hd
      (fun s => ⟨rfl, rfl, id⟩) rfl rfl trivial cs ht hcf hgone
    refine (alive_get (C := hashContract N) (s := treeAfter ((ty.hashConfig depth).api id) cs [] (HashDB.open N))
      trivial x).trans ?_
    rw [this]
    rfl

/-- C76 for `RocksTree`, with any codec that reads back what it wrote. -/
theorem C76_rocks_tree (ty : TreeTypes N V) {codec : NodeCodec N} (hl : LawfulCodec codec) (depth : Nat)
    (hc : Sane (ty.rocksConfig codec (.reliable N) depth))
    (hroom : (ty.rocksConfig codec (.reliable N) depth).Room) (hd : 8 * N < depth) (cs : List (Cmd N V))
    (htidy : TidySession strict ty.encode cs [])
    (hcf : CollisionFree ty.hasher (Among (hashedBySession (ty.rocksConfig codec (.reliable N) depth)
      (fun s => RocksDB.new s.decompose) cs [] (RocksDB.new AMap.empty)))) :
    ∃ t, RocksTree.open (.ok AMap.empty) depth = .ok t ∧
      runSession (RocksTree.api ty codec (.reliable N)) cs [] t = specSession ty.encode cs [] ∧
      (strict → (∀ M, some M ∉ specVersions ty.encode cs []) → ∀ x, (rocksDatabase codec (.reliable N)).getNode
        (treeAfter (RocksTree.api ty codec (.reliable N)) cs [] t).decompose.1 x = .ok none) := by
  refine ⟨_, rfl, ?_, ?_⟩
  · refine ((rocksTree_hom ty codec (.reliable N) depth).runSession cs [] (RocksDB.new AMap.empty)).1.trans ?_
    exact C76_tidy_sessions (cfg := ty.rocksConfig codec (.reliable N) depth)
      (C := rocksContract hl (.reliable N)) (s := RocksDB.new AMap.empty)
      (ρ := fun s => RocksDB.new s.decompose) hc hroom hd (rocks_reopen hl) (fun _ => ⟨_, rocks_writesShow hl _⟩)
      rfl rfl (rocks_empty hl) cs htidy hcf
  · intro hst hgone x
    have e : treeAfter (RocksTree.api ty codec (.reliable N)) cs [] ⟨⟨RocksDB.new AMap.empty, depth⟩⟩ =
      ⟨⟨treeAfter ((ty.rocksConfig codec (.reliable N) depth).api (fun s => RocksDB.new s.decompose)) cs []
        (RocksDB.new AMap.empty), depth⟩⟩ :=
      ((rocksTree_hom ty codec (.reliable N) depth).runSession cs [] (RocksDB.new AMap.empty)).2
    have ht : TidySession True ty.encode cs [] := by simpa [hst] using htidy
    have := C76_clean_slate (cfg := ty.rocksConfig codec (.reliable N) depth)
      (C := rocksContract hl (.reliable N)) (s := RocksDB.new AMap.empty)
      (ρ := fun s => RocksDB.new s.decompose) hc hroom hd (rocks_reopen hl) rfl rfl (rocks_empty hl) cs ht hcf hgone
    obtain ⟨-, -, -, -, -, -, -, -, -, hal, -, -⟩ := tidy_eq (cfg := ty.rocksConfig codec (.reliable N) depth)
      (C := rocksContract hl (.reliable N)) (s := RocksDB.new AMap.empty) (rs := []) (Ms := [])
      (ρ := fun s => RocksDB.new s.decompose) hc hroom hd (rocks_reopen hl) (absurd trivial) cs (H := [])
      (by rwa [List.append_nil])
      ⟨[], [], [], rfl, rfl, fun _ h => h, .start rfl rfl, rocks_empty hl, .inl rfl, .nil⟩ ht
    refine (congrArg (fun t => (rocksDatabase codec (.reliable N)).getNode t.decompose.1 x) e).trans ?_
    refine (alive_get (C := rocksContract hl (.reliable N)) hal x).trans ?_
    rw [this]
    rfl

end

/-! ## Concrete sessions -/

namespace Toy

/-- Three versions; the first is removed in the middle, a removal dies and so does an insert; an insert gives a
key twice and is refused before the next removal. -/
def tidySession : List (Cmd 2 (List UInt8)) :=
  [.put none [key 1, key 2, key 0x8000] [[1], [2], [3]], .putOne (some 0) (key 2) [4],
    .putOne (some 1) (key 3) [5], .remove 0, .readOne 1 (key 1), .readOne 0 (key 1), .crash 3 (some 1) [key 1] [[6]],
    .crashRemove 1 1, .readOne 2 (key 1), .read 2 [key 2], .prove 2 (key 2) [4], .putOne (some 2) (key 1) [9],
    .readOne 3 (key 1), .put (some 2) [key 1, key 2, key 2] [[6], [7], [8]], .remove 2, .remove 2,
    .readOne 3 (key 2)]

/-- The answers of the crate. -/
example : runSession (cfg.api id) tidySession [] db0 =
    [.version 0, .version 1, .version 2, .done, .value (some [1]), .nothing, .nothing, .nothing,
      .value (some [1]), .values [some (some [4])], .verdict true, .version 3, .value (some [9]), .refused, .done,
      .nothing, .value (some [4])] := by
  decide +kernel

/-- Versions made and removed again. -/
def cleanSession : List (Cmd 2 (List UInt8)) :=
  [.put none [key 1, key 2, key 0x8000] [[1], [2], [3]], .putOne (some 0) (key 2) [4], .remove 0, .reopen,
    .readOne 1 (key 1), .remove 1]

/-- A session that gives a stored pair to an insert. -/
def untidySession : List (Cmd 2 (List UInt8)) :=
  [.put none [key 1, key 2] [[10], [20]], .putOne (some 0) (key 0x8000) [30], .putOne (some 1) (key 1) [10],
    .remove 0, .readOne 1 (key 1)]

theorem encodes (v : List UInt8) : ∃ b, cfg.encode v = .ok b := ⟨v, rfl⟩

theorem types_encodes (v : List UInt8) : ∃ b, types.encode v = .ok b := ⟨v, rfl⟩

theorem keys3 : [key 1, key 2, key 0x8000].Nodup := by decide

theorem clean_new : NewPairsSession cfg.encode cleanSession [] := by
  simp [cleanSession, NewPairsSession, Cmd.NewPairs, GoodBatch, Cmd.spec, base?, encodes, -List.nodup_cons, keys3]
  decide

theorem clean_gone : specVersions cfg.encode cleanSession [] = [none, none] := by
  simp [cleanSession, specVersions, Cmd.spec, base?, at?, encodes, -List.nodup_cons, keys3]

/-- The hypotheses of `C76_clean_slate` are met. -/
example : C.view (treeAfter (cfg.api id) cleanSession [] db0) = View.empty 2 :=
  C76_clean_slate (C := C) sane room (by decide) (fun _ => ⟨rfl, rfl, id⟩) rfl rfl (alive _) cleanSession
    (tidy_of_newPairs _ _ (by simp [cleanSession, Cmd.OneAtATime, Cmd.Bad]) clean_new
      (by simp [cleanSession, Cmd.Smooth, GoodBatch, encodes, -List.nodup_cons, keys3]))
    (collisionFree_of_check (by decide +kernel)) (by simp [clean_gone])

/-- Before the last call something is stored. -/
example : ∃ x, (C.view (treeAfter (cfg.api id) cleanSession.dropLast [] db0) x).isSome := by
  refine ⟨Trie.dataLoc hasher (key 1) [1], ?_⟩
  decide +kernel

theorem keys3_twice : ¬ [key 1, key 2, key 2].Nodup := by decide

theorem tidy_new : NewPairsSession cfg.encode tidySession [] := by
  simp [tidySession, NewPairsSession, Cmd.NewPairs, GoodBatch, Cmd.spec, base?, at?, encodes, -List.nodup_cons, keys3, keys3_twice]
  decide

theorem tidy_one : ∀ c ∈ tidySession, c.OneAtATime ∨ c.Bad cfg.encode := by
  simp [tidySession, Cmd.OneAtATime, Cmd.Bad, GoodBatch, -List.nodup_cons, keys3_twice]

/-- The hypotheses of `C76_new_pairs` are met. -/
example : runSession (cfg.api id) tidySession [] db0 = specSession cfg.encode tidySession [] :=
  C76_new_pairs (C := C) sane room (by decide) (fun _ => ⟨rfl, rfl, id⟩) ⟨_, hash_writesShow⟩ rfl rfl (alive _) tidySession
    tidy_one tidy_new (collisionFree_of_check (by decide +kernel))

/-- The hypotheses of `C76_hash_tree` are met. -/
example : ∃ t, HashTree.new 2 17 = .ok t ∧
    runSession (HashTree.api types) cleanSession [] t = specSession types.encode cleanSession [] ∧
    (True → (∀ M, some M ∉ specVersions types.encode cleanSession []) →
      ∀ x, (hashDatabase 2).getNode (treeAfter (HashTree.api types) cleanSession [] t).decompose.1 x = .ok none) :=
  C76_hash_tree types 17 sane room (by decide) cleanSession
    (tidy_of_newPairs _ _ (by simp [cleanSession, Cmd.OneAtATime, Cmd.Bad]) clean_new (by simp [cleanSession, Cmd.Smooth, GoodBatch, types_encodes, -List.nodup_cons, keys3]))
    (collisionFree_of_check (by decide +kernel))

/-- The hypotheses of `C76_rocks_tree` are met. -/
example : ∃ t, RocksTree.open (.ok AMap.empty) 17 = .ok t ∧
    runSession (RocksTree.api types ToyCodec.codec (.reliable 2)) cleanSession [] t =
      specSession types.encode cleanSession [] ∧
    (True → (∀ M, some M ∉ specVersions types.encode cleanSession []) →
      ∀ x, (rocksDatabase ToyCodec.codec (.reliable 2)).getNode
        (treeAfter (RocksTree.api types ToyCodec.codec (.reliable 2)) cleanSession [] t).decompose.1 x = .ok none) :=
  C76_rocks_tree types ToyCodec.lawful 17 ⟨sane.1, sane.2, sane.3⟩ room (by decide) cleanSession
    (tidy_of_newPairs _ _ (by simp [cleanSession, Cmd.OneAtATime, Cmd.Bad]) clean_new (by simp [cleanSession, Cmd.Smooth, GoodBatch, types_encodes, -List.nodup_cons, keys3]))
    (collisionFree_of_check (by decide +kernel))

/-- The hypotheses of `C76_rocks_tree` are met by a session with an insert that is refused when it has queued
writes. -/
example : ∃ t, RocksTree.open (.ok AMap.empty) 17 = .ok t ∧
    runSession (RocksTree.api types ToyCodec.codec (.reliable 2)) tidySession [] t =
      specSession types.encode tidySession [] :=
  (C76_rocks_tree types ToyCodec.lawful 17 ⟨sane.1, sane.2, sane.3⟩ room (by decide) tidySession
    (strict := False) (tidy_of_newPairs _ _ tidy_one tidy_new False.elim)
    (collisionFree_of_check (by decide +kernel))).imp fun _ h => ⟨h.1, h.2.1⟩

/-- Two ways to the same map. -/
def wayA : List (Cmd 2 (List UInt8)) :=
  [.put none [key 1, key 2, key 0x8000] [[1], [2], [3]], .putOne (some 0) (key 2) [4], .remove 0]
@[inherit_doc wayA]
def wayB : List (Cmd 2 (List UInt8)) := [.put none [key 1, key 2, key 0x8000] [[1], [4], [3]]]

theorem wayA_new : NewPairsSession cfg.encode wayA [] := by
  simp [wayA, NewPairsSession, Cmd.NewPairs, GoodBatch, Cmd.spec, base?, encodes, -List.nodup_cons, keys3]
  decide

theorem wayB_new : NewPairsSession cfg.encode wayB [] := by
  simp [wayB, NewPairsSession, Cmd.NewPairs, GoodBatch, encodes, -List.nodup_cons, keys3]

theorem ways_meet : (specVersions cfg.encode wayA []).reduceOption.Perm
    (specVersions cfg.encode wayB []).reduceOption := by
  simp [wayA, wayB, specVersions, Cmd.spec, base?, at?, encodes, -List.nodup_cons, keys3, List.reduceOption]
  funext k
  have h1 : key 1 ≠ key 2 := by decide
  simp only [Contents.set, Contents.assign]
  by_cases h : k = key 2
  · subst h
    simp [h1]
  · rw [if_neg h]
    simp only [List.zip_cons_cons, List.zip_nil_right, List.find?_cons, Ne.symm h, decide_false]

/-- The hypotheses of `C76_storage_is_canonical` are met. -/
example : C.view (treeAfter (cfg.api id) wayA [] db0) = C.view (treeAfter (cfg.api id) wayB [] db0) :=
  C76_storage_is_canonical (C := C) (C' := C) sane sane room room rfl rfl (by decide) (by decide)
    (fun _ => ⟨rfl, rfl, id⟩) (fun _ => ⟨rfl, rfl, id⟩) rfl rfl (alive _) rfl rfl (alive _) wayA wayB
    (tidy_of_newPairs _ _ (by simp [wayA, Cmd.OneAtATime]) wayA_new (by simp [wayA, Cmd.Smooth, GoodBatch, encodes, -List.nodup_cons, keys3]))
    (tidy_of_newPairs _ _ (by simp [wayB, Cmd.OneAtATime]) wayB_new (by simp [wayB, Cmd.Smooth, GoodBatch, encodes, -List.nodup_cons, keys3]))
    (collisionFree_of_check (by decide +kernel)) ways_meet

end Toy

/-- The limit of C76: after an insert of a pair that a live version has, the removal of one version takes keys
from another (no hash collision is involved). -/
theorem C76_stored_pairs_differ : ∃ cs : List (Cmd 2 (List UInt8)), (∀ c ∈ cs, c.OneAtATime) ∧
    CollisionFree Toy.cfg.hasher (Among (hashedBySession Toy.cfg id cs [] Toy.db0)) ∧
    runSession (Toy.cfg.api id) cs [] Toy.db0 = [.version 0, .version 1, .version 2, .done, .value none] ∧
    specSession Toy.cfg.encode cs [] = [.version 0, .version 1, .version 2, .done, .value (some [10])] := by
  refine ⟨Toy.untidySession, by simp [Toy.untidySession, Cmd.OneAtATime],
    collisionFree_of_check (by decide +kernel), by decide +kernel, ?_⟩
  have hn : [Toy.key 1, Toy.key 2].Nodup := by decide
  simp [Toy.untidySession, specSession, Cmd.spec, base?, at?, Toy.encodes, -List.nodup_cons, hn]
  decide

end MerkleBit
