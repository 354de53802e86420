import Verif.Spec.Undamaged
import Verif.Props.AllOrNothing
import Verif.Proof.Storage
/-!
# C95: every version in full or not at all
-/

namespace MerkleBit
open Trie
variable {N : Nat} {σ σ' V : Type} {cfg : Config N σ V} {C : DbContract cfg.db} {cfg' : Config N σ' V} {C' : DbContract cfg'.db}
  {H H' : List (HIn N)} {s s1 : σ} {s' : σ'} {r : Arr N} {M : Contents N V}

theorem undamaged_sound (hc : Sane cfg) (h : Undamaged cfg C H s) {U : HIn N → Prop} (hU : CollisionFree cfg.hasher U)
    (hin : ∀ i ∈ H, U i) : Sound C U s := by
  induction h with
  | start h1 h2 =>
    have hsub : ∀ i, Among [] i → U i := fun i hi => absurd hi (by simp [Among])
    exact ((inserts_inv hc.pos hc.pp (Inserts.start h1 h2) (hU.mono hsub)).1.inv.mono hsub).sound
  | keeps hsh h => exact keeps_sound hc hsh h hU hin
  | removal hsh h hrun =>
    rcases hrun with hrun | hrun
    · exact keeps_sound hc hsh (h.remove hrun) hU hin
    · exact stopped_sound hc hsh h hrun hU hin
  | more _ h' ih =>
    exact more_sound hc hU h' (fun i hi => hin i (List.mem_append_left _ hi))
      (ih (fun i hi => hin i (List.mem_append_right _ hi)))

/-- C95: histories of inserts, with any arguments and outcomes, destroy nothing. -/
theorem C95_inserts_destroy_nothing {R : List (Arr N)} {L : Ledger N V} (h : Inserts cfg C H R L s) : Undamaged cfg C H s := by
  induction h with
  | start h1 h2 => exact .start h1 h2
  | anyAt _ hrun ih => simpa using Undamaged.more ih (.insertAt .start hrun)
  | goodAt _ _ _ hrun ih => simpa using Undamaged.more ih (.insertAt .start hrun)
  | crashAt _ hrun ih => simpa using Undamaged.more ih (.crashAt .start hrun)
  | reopen _ h1 h2 ih => simpa using Undamaged.more ih (.reopen .start h1 h2)

/-- Inserts take nothing away. -/
theorem more_ext (hc : Sane cfg) {U : HIn N → Prop} (hU : CollisionFree cfg.hasher U) {H' : List (HIn N)}
    (h : MoreInserts cfg C s H' s1) (hin : ∀ i ∈ H', U i) (hs : Sound C U s) : (C.view s).Ext (C.view s1) := by
  induction h with
  | start => exact .refl _
  | @insertAt d H s1 s2 prev keys values res hm hrun ih =>
    have hin' := fun i hi => hin i (List.mem_append_right _ hi)
    have hso := more_sound hc hU hm hin' hs
    have := insert_any (cfg := cfg.withDepth d) (C := C) hc.pos hc.pp hU prev keys values (s := s1)
      (fun i hi => hin i (List.mem_append_left _ hi)) (hso.inv.toDepth d)
    unfold Ends at this
    rw [hrun] at this
    cases res with
    | ok r =>
      obtain ⟨-, -, ht, hi⟩ := this
      exact (ih hin').trans hi.ofDepth.ext
    | error e => exact (ih hin').trans this.2.ofDepth.ext
  | @crashAt d H s1 s2 n n' prev keys values e hm hrun ih =>
    have hin' := fun i hi => hin i (List.mem_append_right _ hi)
    have hso := more_sound hc hU hm hin' hs
    have := insert_any (cfg := (cfg.withDepth d).crash) (C := C.crash) hc.pos hc.pp hU prev keys values (s := (s1, n))
      (fun i hi => hin i (List.mem_append_left _ hi)) (hso.inv.toDepth d).toCrash
    unfold Ends at this
    rw [hrun] at this
    exact (ih hin').trans (Inv.ofCrash (cfg := cfg.withDepth d) (C := C) this.2).ofDepth.ext
  | reopen _ h1 h2 ih => rw [h1]; exact ih hin

theorem givenOut_trie (hc : Sane cfg) (h : GivenOut cfg C H r M) {U : HIn N → Prop} (hU : CollisionFree cfg.hasher U)
    (hin : ∀ i ∈ H, U i) : ∃ T, Accounted cfg U (r, M) T := by
  rcases h with ⟨R, L, s, h, hr⟩ | ⟨shows, L, P, s, hsh, h, hr⟩
  · have hcf := hU.mono (fun i (hi : Among H i) => hin i hi)
    obtain ⟨hso, hL, -⟩ := inserts_inv hc.pos hc.pp h hcf
    obtain ⟨T, hwf, hl, hst, hrep⟩ := hL _ hr
    exact ⟨T, hwf, hl, fun i hi => hin i ((hst.honest hcf hso.view).2 i hi), hrep⟩
  · exact (keeps_acct hc.pos hc.pp hc.codec hsh h U hU hin).1 _ hr

/-- C95: a root that was given out for some contents, in whatever history and on whatever database with the same hash function and
encoding, is read in every database in which nothing was destroyed as these contents, in full, or as nothing. -/
theorem C95_in_full_or_not_at_all (hc : Sane cfg) (hc' : Sane cfg') (hhash : cfg'.hasher = cfg.hasher)
    (henc : cfg'.encode = cfg.encode) (hroom : cfg'.Room) (hr : GivenOut cfg C H r M) (h' : Undamaged cfg' C' H' s')
    (hs' : C'.alive s') (hcf : CollisionFree cfg.hasher (Among (H' ++ H))) (hd : HeightBelow M cfg'.depth) :
    Tells cfg' s' r M ∨ Tells cfg' s' r (Contents.empty (V := V)) := by
  by_cases hx : C'.view s' r = none
  · exact .inr (nothing_reads hroom hs' hx)
  · left
    have hcf' : CollisionFree cfg'.hasher (Among (H' ++ H)) := by rwa [hhash]
    obtain ⟨T, hwf, hl, hi, hrep⟩ := givenOut_trie hc hr hcf (fun i hi => List.mem_append_right _ hi)
    have hso := undamaged_sound hc' h' hcf' (fun i hi => List.mem_append_left _ hi)
    rw [← hhash] at hl hi
    refine version_reads hc' hroom hs' hd ⟨T, hwf, hl, ?_, hrep.congr henc.symm⟩
    rw [show r = T.loc cfg'.hasher from hl.symm] at hx
    exact stored_of_closed hcf' hso.view hso.closed hwf.norm hi hx

/-- C95: in particular an insert that is interrupted after any number of its writes leaves all of the version that it would have
made, or nothing of it that could be read under its root. -/
theorem C95_interrupted_insert_all_or_nothing (hc : Sane cfg) (hroom : cfg.Room) {R : List (Arr N)} {L : Ledger N V}
    (h : Inserts cfg C H R L s) {prev : Option (Arr N)} {P : Contents N V} (hprev : L.Prev prev P) {keys : List (Arr N)}
    {values : List V} (hns : Handled cfg P keys) {t : σ} (hrun : insert cfg prev keys values s = (.ok r, t)) {n n' : Nat} {e : Err}
    (hcrash : insert cfg.crash prev keys values (s, n) = (.error e, (s1, n'))) {s2 : σ} (hv : C.view s2 = C.view s1)
    (hs2 : C.alive s2) (hcf : CollisionFree cfg.hasher (Among
      (hashedBy cfg.crash prev keys values (s, n) ++ H ++ (hashedBy cfg prev keys values s ++ H))))
    (hd : HeightBelow (P.assign keys values) cfg.depth) :
    Tells cfg s2 r (P.assign keys values) ∨ Tells cfg s2 r (Contents.empty (V := V)) := by
  by_cases hx : C.view s2 r = none
  · exact .inr (nothing_reads hroom hs2 hx)
  · left
    obtain ⟨T, hwf, hl, hi, hrep⟩ := givenOut_trie hc (r := r) (M := P.assign keys values)
      (.inl ⟨_, _, _, h.good hprev hns hrun, by simp⟩) hcf
      (fun i hi => List.mem_append_right _ hi)
    have hsub : ∀ i, Among (hashedBy cfg.crash prev keys values (s, n) ++ H) i → Among
        (hashedBy cfg.crash prev keys values (s, n) ++ H ++ (hashedBy cfg prev keys values s ++ H)) i :=
      fun i hi => List.mem_append_left _ hi
    obtain ⟨hso, -, -⟩ := inserts_inv hc.pos hc.pp (h.crash hcrash) (hcf.mono hsub)
    have hso := (hso.inv.mono hsub).sound
    cases (show T.loc cfg.hasher = r from hl)
    refine version_reads hc hroom hs2 hd ⟨T, hwf, rfl, ?_, hrep⟩
    rw [hv] at hx ⊢
    exact stored_of_closed hcf hso.view hso.closed hwf.norm hi hx

/-- C95: inserts, whatever they are called with, however they end and however many, change no read: whatever bytes are given as a
root, either all reads under them are as before, or nothing was found under them before. -/
theorem C95_inserts_change_no_reads (hc : Sane cfg) (hroom : cfg.Room) (h : Undamaged cfg C H s) (h' : MoreInserts cfg C s H' s1)
    (hs : C.alive s) (hs1 : C.alive s1) (hcf : CollisionFree cfg.hasher (Among (H' ++ H))) (x : Arr N) :
    ReadsSame cfg s s1 x ∨ Tells cfg s x (Contents.empty (V := V)) := by
  by_cases hx : C.view s x = none
  · exact .inr (nothing_reads hroom hs hx)
  · left
    have h0 := undamaged_sound hc h hcf (fun i hi => List.mem_append_right _ hi)
    have hin : ∀ i ∈ H', Among (H' ++ H) i := fun i hi => List.mem_append_left _ hi
    have hext := more_ext hc hcf h' hin h0
    have h1 := more_sound hc hcf h' hin h0
    refine reads_same_of_both hc hcf h0.view h0.closed h1.view h1.closed hs hs1 hx ?_
    obtain ⟨n, hn⟩ := Option.ne_none_iff_exists'.1 hx
    obtain ⟨m, hm⟩ := hext x n.variant ⟨_, hn⟩
    rw [hm]; simp

/-- C95: two databases in which nothing was destroyed never contradict each other: whatever bytes are given as a root, all reads
under them have the same results in both, or nothing is found under them in one of the two. -/
theorem C95_databases_never_contradict (hc : Sane cfg) (hroom : cfg.Room) (h : Undamaged cfg C H s) (h' : Undamaged cfg C H' s1)
    (hs : C.alive s) (hs1 : C.alive s1) (hcf : CollisionFree cfg.hasher (Among (H' ++ H))) (x : Arr N) :
    ReadsSame cfg s s1 x ∨ Tells cfg s x (Contents.empty (V := V)) ∨ Tells cfg s1 x (Contents.empty (V := V)) := by
  by_cases hx : C.view s x = none
  · exact .inr (.inl (nothing_reads hroom hs hx))
  by_cases hx1 : C.view s1 x = none
  · exact .inr (.inr (nothing_reads hroom hs1 hx1))
  have h0 := undamaged_sound hc h hcf (fun i hi => List.mem_append_right _ hi)
  have h1 := undamaged_sound hc h' hcf (fun i hi => List.mem_append_left _ hi)
  exact .inl (reads_same_of_both hc hcf h0.view h0.closed h1.view h1.closed hs hs1 hx hx1)

/-! ## Concrete cases -/

namespace Toy

/-- Inserts, the last one refused. -/
example : Undamaged Toy.cfg Toy.C H3 s3 := C95_inserts_destroy_nothing hist3

/-- After a removal that was interrupted, and a further insert that was refused, nothing is destroyed. -/
theorem undamaged_cut : Undamaged Toy.cfg Toy.C (hashedBy Toy.cfg (some r2) [key 7, key 7] [[1], [2]] cut ++ [] ++ H2)
    (insert Toy.cfg (some r2) [key 7, key 7] [[1], [2]] cut).2 :=
  .more (.removal hash_writesShow keeps2 (.inr cut_run)) (.insertAt (d := 17) (res := (insert Toy.cfg (some r2) [key 7, key 7]
    [[1], [2]] cut).1) .start rfl)

theorem free_cut : CollisionFree Toy.cfg.hasher
    (Among (hashedBy Toy.cfg (some r2) [key 7, key 7] [[1], [2]] cut ++ [] ++ H2 ++ H2)) :=
  collisionFree_of_check (by decide +kernel)

/-- Both versions are there in full or not at all; here the first is not, and the second is. -/
example : Tells Toy.cfg (insert Toy.cfg (some r2) [key 7, key 7] [[1], [2]] cut).2 r2 M2 ∧
    Tells Toy.cfg (insert Toy.cfg (some r2) [key 7, key 7] [[1], [2]] cut).2 r1 (Contents.empty (V := List UInt8)) := by
  constructor
  · rcases C95_in_full_or_not_at_all (r := r2) sane sane rfl rfl room (.inl ⟨_, _, _, hist2, by simp⟩) undamaged_cut (alive _) free_cut
      (deep M2) with h | h
    · exact h
    · exfalso
      have := h.one (key 1)
      revert this
      decide +kernel
  · rcases C95_in_full_or_not_at_all (r := r1) sane sane rfl rfl room (.inl ⟨_, _, _, hist2, by simp⟩) undamaged_cut (alive _) free_cut
      (deep M1) with h | h
    · exfalso
      have := h.one (key 1)
      revert this
      decide +kernel
    · exact h

/-- The second insert dies at its fourth write: nothing can be read under the root that it would have returned. -/
example : Tells Toy.cfg (insert Toy.cfg.crash (some r1) ks2 vs2 (Toy.s1, 3)).2.1 r2 (Contents.empty (V := List UInt8)) := by
  rcases C95_interrupted_insert_all_or_nothing sane room hist1 (prev := some r1) (P := M1) (by simp [Ledger.Prev])
    (noStraddle2.handled sane) run2 (e := .exception "crash") (n := 3) (n' := (insert Toy.cfg.crash (some r1) ks2 vs2 (Toy.s1, 3)).2.2)
    (s1 := (insert Toy.cfg.crash (some r1) ks2 vs2 (Toy.s1, 3)).2.1) (outcome (by decide +kernel)) rfl (alive _)
    (collisionFree_of_check (by decide +kernel)) (deep _) with h | h
  · exfalso
    have := h.one (key 1)
    revert this
    decide +kernel
  · exact h

/-- A root that RocksDB gave out for a single pair is asked for in a database in memory that never gave it out: the pair is a part
of what is stored there, and is read in full. -/
example : Tells Toy.cfg s3 (key 24929) LP1 := by
  rcases C95_in_full_or_not_at_all (r := key 24929) (M := LP1) rsane sane rfl rfl room
    (.inr ⟨_, _, _, _, rocks_writesShow _ _, lq_keeps, by simp⟩) (C95_inserts_destroy_nothing hist3) (alive _)
    (collisionFree_of_check (by decide +kernel)) (deep _) with h | h
  · exact h
  · exfalso
    have := h.one (key 1)
    revert this
    decide +kernel

/-- The database after two inserts and a refused one, and one in which a removal was interrupted. -/
example (x : Arr 2) := C95_databases_never_contradict sane room (C95_inserts_destroy_nothing hist3) undamaged_cut (alive _)
  (alive _) (collisionFree_of_check (by decide +kernel)) x

/-- What was read before the refused insert is read after it. -/
example (x : Arr 2) := C95_inserts_change_no_reads sane room (.removal hash_writesShow keeps2 (.inr cut_run))
  (.insertAt (d := 17) (prev := some r2) (keys := [key 7, key 7]) (values := [[1], [2]]) .start rfl) (alive _) (alive _)
  (free_cut.mono (fun _ h => List.mem_append_left _ h)) x

end Toy

end MerkleBit
