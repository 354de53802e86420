import Verif.Proof.Fresh
import Verif.Proof.PartOf
import Verif.Proof.AccountInsert
import Verif.Proof.AccountRemove
import Verif.Proof.Batches
import Verif.Proof.Addressed
import Verif.Proof.Lifted
/-! # Histories of careful inserts and removals -/

namespace MerkleBit
variable {N : Nat} {σ V : Type}

theorem Ledger.Prev.base {cfg : Config N σ V} {L : Ledger N V} {v : View N} {prev : Option (Arr N)} {M : Contents N V}
    (h : L.Prev prev M) : L.Base cfg v prev M := by
  cases prev with
  | none => exact h
  | some r => exact .inl h

/-- What an insert is on top of, is in a live version. -/
theorem Ledger.Base.sub {cfg : Config N σ V} {L : Ledger N V} {v : View N} {prev : Option (Arr N)} {M : Contents N V}
    (h : L.Base cfg v prev M) {k : Arr N} {w : V} (hk : M k = some w) : ∃ e ∈ L, e.2 k = some w := by
  cases prev with
  | none => rw [show M = Contents.empty from h] at hk; cases hk
  | some r =>
    rcases h with h | ⟨e, he, ⟨k', d, hp⟩, -⟩
    · exact ⟨_, h, hk⟩
    · refine ⟨e, he, ?_⟩
      rw [hp k] at hk
      split at hk
      · exact hk
      · cases hk

/-- What the ledger says about a root, and that its hashes are among `U`. -/
structure Accounted (cfg : Config N σ V) (U : HIn N → Prop) (e : Arr N × Contents N V) (T : Trie N) :
    Prop where
  wf : T.WF
  loc : T.loc cfg.hasher = e.1
  inputs : ∀ i ∈ T.inputs cfg.hasher, U i
  rep : Represents cfg T e.2

theorem Accounted.ok {cfg : Config N σ V} {U : HIn N → Prop} {e : Arr N × Contents N V} {T : Trie N}
    (h : Accounted cfg U e T) : TreeOk cfg.hasher U T := ⟨h.wf.norm, h.inputs⟩

section
variable {cfg : Config N σ V} {C : DbContract cfg.db} {U : HIn N → Prop} {strict : Prop}

theorem Accounted.toDepth (d : Nat) {e : Arr N × Contents N V} {T : Trie N}
    (h : Accounted cfg U e T) : Accounted (cfg.withDepth d) U e T := ⟨h.wf, h.loc, h.inputs, h.rep⟩

theorem Accounted.ofDepth {d : Nat} {e : Arr N × Contents N V} {T : Trie N}
    (h : Accounted (cfg.withDepth d) U e T) : Accounted cfg U e T := ⟨h.wf, h.loc, h.inputs, h.rep⟩

theorem Careful.toDepth (d : Nat) {L : Ledger N V} {s : σ} {prev : Option (Arr N)}
    {M : Contents N V} {keys : List (Arr N)} {values : List V}
    (h : Careful cfg C strict L s prev M keys values) :
    Careful (cfg.withDepth d) C strict L s prev M keys values :=
  ⟨h.confirmed, h.prev, h.distinct, h.straddle, h.fresh, h.new⟩

theorem Confirmed.own {s : σ} (h : Confirmed C strict s) (hq : Honest cfg.hasher U (C.pending s)) :
    Own C.toG U strict (View.empty N) s := by
  refine Own.start hq fun x n hx => ?_
  rcases h with hp | ⟨hn, hp⟩
  · change C.pending s x = _ at hx
    rw [hp] at hx
    cases hx
  · refine ⟨hn, ?_⟩
    change refsOf (C.view s) x ≤ _
    unfold refsOf
    cases hv : C.view s x with
    | none => exact Nat.zero_le _
    | some m => exact hp x n m hx hv

/-- One careful insert. -/
theorem insert_careful (hN : 0 < N) (hpp : cfg.pp.Lawful) (hcod : RoundTrip cfg)
    (hU : CollisionFree cfg.hasher U) {L : Ledger N V} {s : σ} {prev : Option (Arr N)}
    {M : Contents N V} {keys : List (Arr N)} {values : List V}
    (hc : Careful cfg C strict L s prev M keys values)
    (hin : ∀ i ∈ hashedBy cfg prev keys values s, U i)
    (hL : ∀ e ∈ L, ∃ T, Accounted cfg U e T)
    (hs : Acct cfg.hasher U strict (C.view s) (L.map Prod.fst))
    (hq : Honest cfg.hasher U (C.pending s)) :
    Ends C (fun _ => BadBatch cfg M keys values) (insert cfg prev keys values) s
      (fun r s' => (∃ T, Accounted cfg U (r, M.assign keys values) T) ∧
        Acct cfg.hasher U strict (C.view s') (r :: L.map Prod.fst) ∧ C.pending s' = View.empty N)
      (fun s' => Acct cfg.hasher U False (C.view s') (L.map Prod.fst)) := by
  by_cases hlen : keys.length = values.length
  swap
  · unfold insert Ends
    rw [if_pos hlen]
    exact ⟨.inl ⟨.inl hlen, id⟩, hs.weak⟩
  by_cases hne : keys = []
  · unfold insert Ends
    rw [if_neg (by simpa using hlen), if_pos (by simp [hne])]
    exact ⟨.inl ⟨.inr (.inl hne), id⟩, hs.weak⟩
  have : Nonempty (Trie N) := by
    cases keys with
    | nil => exact absurd rfl hne
    | cons k _ => exact ⟨.leaf k []⟩
  choose! g hg using hL
  have hmap : L.map Prod.fst = (L.map g).map (Trie.loc cfg.hasher) := by
    rw [List.map_map]
    apply List.map_congr_left
    intro e he
    exact (hg e he).loc.symm
  obtain ⟨pt, rfl, hpt, hM⟩ : ∃ pt : Option (Trie N), prev = pt.map (·.loc cfg.hasher) ∧
      (∀ T, pt = some T → (∃ T0 ∈ L.map g, T.Sub T0) ∧ T.WF ∧ Represents cfg T M) ∧
      ∀ k, Encodes cfg (M k) (lookupO pt k) := by
    have := hc.prev
    cases prev with
    | none =>
      simp only [Ledger.Base] at this
      subst this
      exact ⟨none, rfl, by simp, fun k => by simp [Contents.empty, lookupO, Encodes]⟩
    | some r =>
      rcases this with he | ⟨e, he, hp, T, h1, h2, -, h4⟩
      · have h := hg _ he
        refine ⟨some (g (r, M)), by simp [h.loc], ?_, fun k => by simpa [lookupO] using h.rep k⟩
        rintro T hT
        cases hT
        exact ⟨⟨_, List.mem_map_of_mem he, Trie.Sub.refl _⟩, h.wf, h.rep⟩
      · refine ⟨some T, by simp [h2], ?_, fun k => by simpa [lookupO] using h4 k⟩
        rintro T' hT'
        cases hT'
        exact ⟨⟨_, List.mem_map_of_mem he, sub_of_partOf h1 (hg e he).wf h4 (hg e he).rep hp⟩, h1, h4⟩
  have hfine : BatchFine keys pt := by
    intro T hT
    obtain ⟨-, h1, h3⟩ := hpt T hT
    exact ⟨h1, hc.straddle T h1 h3⟩
  have hnew : ∀ k ∈ keys, encodedOf cfg (valueMap keys values) k = .ok (encOf cfg keys values k) →
      ∃ v, (k, v) ∈ keys.zip values ∧ cfg.encode v = .ok (encOf cfg keys values k) := by
    intro k hk hok
    obtain ⟨v, h1, h2⟩ := valueMap_mem hlen hk
    refine ⟨v, h2, ?_⟩
    unfold encodedOf at hok
    rw [h1] at hok
    exact hok
  rw [hmap] at hs ⊢
  refine ends_of_guard (C := C) hin (triple_conseq (insert_acct (cfg := gcfg U cfg)
    (C := C.guard U) (ex := strict) (f := encOf cfg keys values) (prev := pt) (Ls := L.map g)
    hN hpp hU (guardDb_guards U cfg.db) hlen hne hc.distinct ?_ ?_ ?_ ?_ ?_ (hfine.ok hN hpp) ?_ ?_)
    (P' := fun s' => s' = (s, false)) ?_ ?_ (fun _ h => h)) rfl
  · intro k hk
    rcases encodedOf_cases cfg hlen hk with ⟨h1, _⟩ | ⟨v, hv, e, h1, h2⟩
    · exact .inl h1
    · exact .inr ⟨e, h2, .inr (.inr (.inr (.inl ⟨v, hv, e, h1⟩)))⟩
  · intro T hT
    obtain ⟨-, h1, h3⟩ := hpt T hT
    by_cases hd : HeightBelow M (cfg.depth + 1)
    · left
      have := hd.height h1 h3
      change T.height ≤ cfg.depth
      omega
    · exact .inr (.inr (.inr (.inr (.inr hd))))
  · intro k hk hok
    refine ⟨trivial, ?_⟩
    rcases encodedOf_cases cfg hlen hk with ⟨_, h⟩ | ⟨v, _, e, _, h⟩
    · exact fun i hi => hin _ (mem_hashedBy h _ hi)
    · exact absurd (hok.symm.trans h) (by simp)
  · intro T hT
    obtain ⟨e, he, rfl⟩ := List.mem_map.1 hT
    exact (hg e he).ok
  · exact fun T hT => (hpt T hT).1
  · intro hall ts T hp hasm a b hab hnot T0 hT0 hsub
    obtain ⟨e, he, rfl⟩ := List.mem_map.1 hT0
    obtain ⟨h1, h2⟩ := assembled_batch hN hpp hne hc.distinct (hfine.ok hN hpp) hp hasm
    obtain ⟨k, hk, hku⟩ := written_has_key hN hpp hne hc.distinct hfine hp hasm hab hnot
    exact hc.fresh e he (rewrites_of_sub hcod (hg e he).wf h1 (hg e he).rep
      (represents_assign hlen hc.distinct hM hall h2) hsub hab hk hku)
  · intro hst k hk hok T0 hT0 hsub
    obtain ⟨e, he, rfl⟩ := List.mem_map.1 hT0
    obtain ⟨v, hv, hev⟩ := hnew k hk hok
    refine hc.new hst e he _ hv ?_
    have hlk : (g e).lookup k = some (encOf cfg keys values k) :=
      (Trie.lookup_eq_some_iff (hg e he).wf).2 (hsub.entries.subset (by simp [Trie.entries]))
    have h1 := (hg e he).rep k
    rw [hlk] at h1
    exact h1.unique hcod ⟨_, hev, rfl⟩
  · rintro _ rfl
    have ho := hc.confirmed.own hq
    exact ⟨hs, ⟨ho.sub, ho.rest⟩⟩
  · rintro r s' ⟨hall, ts, T, hp, hasm, rfl, hok, hacct, hpend⟩
    obtain ⟨h1, h2⟩ := assembled_batch hN hpp hne hc.distinct (hfine.ok hN hpp) hp hasm
    exact ⟨⟨T, h1, rfl, hok.2, represents_assign hlen hc.distinct hM hall h2⟩, hacct, hpend⟩

theorem Careful.crash {L : Ledger N V} {s : σ} {n : Nat} {prev : Option (Arr N)}
    {M : Contents N V} {keys : List (Arr N)} {values : List V}
    (h : Careful cfg C strict L s prev M keys values) :
    Careful cfg.crash C.crash strict L (s, n) prev M keys values :=
  ⟨h.confirmed, h.prev, h.distinct, h.straddle, h.fresh, h.new⟩

theorem Accounted.crash {e : Arr N × Contents N V} {T : Trie N} (h : Accounted cfg U e T) :
    Accounted cfg.crash U e T := ⟨h.wf, h.loc, h.inputs, h.rep⟩

/-- One removal of a live root. -/
theorem remove_careful (hU : CollisionFree cfg.hasher U) {L1 L2 : Ledger N V} {s : σ} {r : Arr N}
    {M : Contents N V} (hT : ∃ T, Accounted cfg U (r, M) T)
    (hs : Acct cfg.hasher U strict (C.view s) ((L1 ++ (r, M) :: L2).map Prod.fst))
    (hp : Confirmed C strict s) (hq : Honest cfg.hasher U (C.pending s)) :
    Ends C (fun _ => True) (remove cfg r) s
      (fun _ s' => Acct cfg.hasher U strict (C.view s') ((L1 ++ L2).map Prod.fst) ∧
        C.pending s' = View.empty N)
      (fun s' => Acct cfg.hasher U False (C.view s') ((L1 ++ L2).map Prod.fst)) := by
  obtain ⟨T, hwf, rfl, hin, -⟩ := hT
  have hperm : ((L1 ++ (T.loc cfg.hasher, M) :: L2).map Prod.fst).Perm
      (T.loc cfg.hasher :: (L1 ++ L2).map Prod.fst) := by
    have h : (L1 ++ (T.loc cfg.hasher, M) :: L2).Perm ((T.loc cfg.hasher, M) :: (L1 ++ L2)) :=
      List.perm_middle
    exact h.map Prod.fst
  have h := remove_acct (cfg := cfg) (C := C.toG) (ex := strict) (live := (L1 ++ L2).map Prod.fst)
    hU hwf hin s ⟨hs.perm hperm, hp.own hq⟩
  unfold Ends
  rcases hm : remove cfg (T.loc cfg.hasher) s with ⟨res, s'⟩
  dsimp only at h
  rw [hm] at h
  cases res with
  | ok a => exact h
  | error e =>
    rcases h with h | h
    · cases h
    · exact h

/-- Live versions have a history of calls. -/
theorem Uses.calls {H : List (HIn N)} {L : Ledger N V} {s : σ} (h : Uses cfg C strict H L s) :
    Calls cfg C H s := by
  induction h with
  | start h1 h2 => exact .start h1 h2
  | insertAt _ _ hrun ih => exact ih.insertAt hrun
  | insertFailedAt _ _ _ hrun ih => exact ih.insertAt hrun
  | insertCrashedAt _ _ _ hrun ih => exact ih.crashInsertAt hrun
  | refusedAt _ _ _ hrun ih => exact ih.insertAt hrun
  | remove _ _ hrun ih => exact ih.remove hrun
  | removeFailed _ _ _ hrun ih => exact ih.remove hrun
  | removeCrashed _ _ _ hrun ih => exact ih.crashRemove hrun
  | reopen _ h1 h2 ih => exact ih.reopen h1 h2

theorem Uses.inPlace (hN : 0 < N) (hpp : cfg.pp.Lawful) {H : List (HIn N)} {L : Ledger N V} {s : σ}
    (h : Uses cfg C strict H L s) (hU : CollisionFree cfg.hasher U) (hin : ∀ i ∈ H, U i) : InPlace C U s :=
  (calls_inPlace hN hpp h.calls (hU.mono hin)).mono hin

/-- The reference counts along a history. -/
theorem uses_acct (hN : 0 < N) (hpp : cfg.pp.Lawful) (hcod : RoundTrip cfg) {H : List (HIn N)}
    {L : Ledger N V} {s : σ} (h : Uses cfg C strict H L s) :
    ∀ U, CollisionFree cfg.hasher U → (∀ i ∈ H, U i) →
    (∀ e ∈ L, ∃ T, Accounted cfg U e T) ∧
      Acct cfg.hasher U strict (C.view s) (L.map Prod.fst) := by
  induction h with
  | start h1 h2 =>
    intro U hU _
    refine ⟨by simp, ?_⟩
    rw [h1]
    exact Acct.empty
  | @insertAt d H L s s' prev M keys values r hu hc hrun ih =>
    intro U hU hin
    obtain ⟨hL, hs⟩ := ih U hU (fun i hi => hin i (List.mem_append_right _ hi))
    have hq := (hu.inPlace hN hpp hU (fun i hi => hin i (List.mem_append_right _ hi))).2
    have := insert_careful (cfg := cfg.withDepth d) (C := C) hN hpp hcod hU (hc.toDepth d)
      (fun i hi => hin i (List.mem_append_left _ hi))
      (fun e he => (hL e he).imp fun _ h => h.toDepth d) hs hq
    unfold Ends at this
    rw [hrun] at this
    obtain ⟨-, hT, ha, -⟩ := this
    refine ⟨?_, ha⟩
    intro e he
    rcases List.mem_cons.1 he with rfl | he
    · exact hT.imp fun _ h => h.ofDepth
    · exact hL e he
  | @insertFailedAt d H L s s' prev M keys values e hns hu hc hrun ih =>
    intro U hU hin
    obtain ⟨hL, hs⟩ := ih U hU (fun i hi => hin i (List.mem_append_right _ hi))
    have hq := (hu.inPlace hN hpp hU (fun i hi => hin i (List.mem_append_right _ hi))).2
    have := insert_careful (cfg := cfg.withDepth d) (C := C) hN hpp hcod hU (hc.toDepth d)
      (fun i hi => hin i (List.mem_append_left _ hi))
      (fun e he => (hL e he).imp fun _ h => h.toDepth d) hs hq
    unfold Ends at this
    rw [hrun] at this
    exact ⟨hL, this.2.honest, this.2.le, fun h => absurd h hns⟩
  | @insertCrashedAt d H L s s' n n' prev M keys values e hns hu hc hrun ih =>
    intro U hU hin
    obtain ⟨hL, hs⟩ := ih U hU (fun i hi => hin i (List.mem_append_right _ hi))
    have hq := (hu.inPlace hN hpp hU (fun i hi => hin i (List.mem_append_right _ hi))).2
    have := insert_careful (cfg := (cfg.withDepth d).crash) (C := C.crash) (U := U) (s := (s, n)) hN hpp hcod hU
      (hc.toDepth d).crash (fun i hi => hin i (List.mem_append_left _ hi))
      (fun e he => (hL e he).imp fun _ h => (h.toDepth d).crash) hs hq
    unfold Ends at this
    rw [hrun] at this
    exact ⟨hL, this.2.honest, this.2.le, fun h => absurd h hns⟩
  | @refusedAt d H L s s' prev keys values e hns hu hal hrun ih =>
    intro U hU hin
    obtain ⟨hL, hs⟩ := ih U hU (fun i hi => hin i (List.mem_append_right _ hi))
    have hp : InPlace C U s' := (hu.refusedAt hns hal hrun).inPlace hN hpp hU hin
    exact ⟨hL, hs.rise hp.1 (refused_lifted_view (cfg := cfg.withDepth d) (C := C) hN hal hrun)
      fun h => absurd h hns⟩
  | @remove H L1 L2 s s' r M hu hp hrun ih =>
    intro U hU hin
    have hq := (hu.inPlace hN hpp hU hin).2
    obtain ⟨hL, hs⟩ := ih U hU hin
    have := remove_careful hU (hL (r, M) (by simp)) hs hp hq
    unfold Ends at this
    rw [hrun] at this
    refine ⟨fun e he => hL e ?_, this.2.1⟩
    rcases List.mem_append.1 he with h | h <;> simp [h]
  | @removeFailed H L1 L2 s s' r M e hns hu hp hrun ih =>
    intro U hU hin
    have hq := (hu.inPlace hN hpp hU hin).2
    obtain ⟨hL, hs⟩ := ih U hU hin
    have := remove_careful hU (hL (r, M) (by simp)) hs hp hq
    unfold Ends at this
    rw [hrun] at this
    refine ⟨fun e he => hL e ?_, this.2.honest, this.2.le, fun h => absurd h hns⟩
    rcases List.mem_append.1 he with h | h <;> simp [h]
  | @removeCrashed H L1 L2 s s' n n' r M e hns hu hp hrun ih =>
    intro U hU hin
    have hq := (hu.inPlace hN hpp hU hin).2
    obtain ⟨hL, hs⟩ := ih U hU hin
    have := remove_careful (cfg := cfg.crash) (C := C.crash) (U := U) (s := (s, n)) hU
      ((hL (r, M) (by simp)).imp fun _ h => h.crash) hs hp hq
    unfold Ends at this
    rw [hrun] at this
    refine ⟨fun e he => hL e ?_, this.2.honest, this.2.le, fun h => absurd h hns⟩
    rcases List.mem_append.1 he with h | h <;> simp [h]
  | @reopen H L s s' _ h1 h2 ih =>
    intro U hU hin
    obtain ⟨hL, hs⟩ := ih U hU hin
    refine ⟨hL, ?_⟩
    rw [h1]
    exact hs

/-- Live versions are stored. -/
theorem uses_versions (hN : 0 < N) (hpp : cfg.pp.Lawful) (hcod : RoundTrip cfg) {H : List (HIn N)}
    {L : Ledger N V} {s : σ} (h : Uses cfg C strict H L s)
    (hU : CollisionFree cfg.hasher (Among H)) : ∀ e ∈ L, IsVersion cfg (C.view s) e.1 e.2 := by
  intro e he
  obtain ⟨hL, hs⟩ := uses_acct hN hpp hcod h (Among H) hU (fun _ hi => hi)
  obtain ⟨T, hT⟩ := hL e he
  refine ⟨T, hT.wf, hT.loc, ?_, hT.rep⟩
  refine hs.stored hU hT.wf.norm hT.inputs (.root ?_)
  rw [hT.loc]
  exact List.mem_map_of_mem he

end
end MerkleBit

namespace MerkleBit
variable {N : Nat} {σ V : Type} {cfg : Config N σ V} {C : DbContract cfg.db} {strict strict' : Prop}
  {H : List (HIn N)} {L L' : Ledger N V} {s s' : σ}

theorem Confirmed.weak (hs : strict' → strict) (h : Confirmed C strict s) : Confirmed C strict' s :=
  h.imp id (And.imp_left (mt hs))

theorem Careful.weak (hs : strict' → strict) {prev : Option (Arr N)} {M : Contents N V}
    {keys : List (Arr N)} {values : List V} (h : Careful cfg C strict L s prev M keys values) :
    Careful cfg C strict' L s prev M keys values :=
  ⟨h.confirmed.weak hs, h.prev, h.distinct, h.straddle, h.fresh, fun hs' => h.new (hs hs')⟩

/-- Strict histories are histories. -/
theorem Uses.weak (hs : strict' → strict) (h : Uses cfg C strict H L s) : Uses cfg C strict' H L s := by
  induction h with
  | start h1 h2 => exact .start h1 h2
  | insertAt _ hc hrun ih => exact .insertAt ih (hc.weak hs) hrun
  | insertFailedAt hn _ hc hrun ih => exact .insertFailedAt (mt hs hn) ih (hc.weak hs) hrun
  | insertCrashedAt hn _ hc hrun ih => exact .insertCrashedAt (mt hs hn) ih (hc.weak hs) hrun
  | refusedAt hn _ hal hrun ih => exact .refusedAt (mt hs hn) ih hal hrun
  | remove _ hp hrun ih => exact .remove ih (hp.weak hs) hrun
  | removeFailed hn _ hp hrun ih => exact .removeFailed (mt hs hn) ih (hp.weak hs) hrun
  | removeCrashed hn _ hp hrun ih => exact .removeCrashed (mt hs hn) ih (hp.weak hs) hrun
  | reopen _ h1 h2 ih => exact .reopen ih h1 h2

/-- A live version reads the same in all states in which it is live. -/
theorem uses_reads (hc : Sane cfg) (h : Uses cfg C strict H L s) (h' : Uses cfg C strict' H L' s')
    (hcf : CollisionFree cfg.hasher (Among H)) (hs : C.alive s) (hs' : C.alive s')
    {e : Arr N × Contents N V} (he : e ∈ L) (he' : e ∈ L') :
    (HeightBelow e.2 cfg.depth → ∀ k, getOne cfg s' e.1 k = .ok (e.2 k)) ∧
      (∀ k, getOne cfg s' e.1 k = getOne cfg s e.1 k) ∧
      (∀ ks, get cfg s' e.1 ks = get cfg s e.1 ks) ∧
      (∀ k, inclusionProof cfg s' e.1 k = inclusionProof cfg s e.1 k) := by
  obtain ⟨hL, ha⟩ := uses_acct hc.pos hc.pp hc.codec h (Among H) hcf (fun _ hi => hi)
  obtain ⟨-, ha'⟩ := uses_acct hc.pos hc.pp hc.codec h' (Among H) hcf (fun _ hi => hi)
  have hv := uses_versions hc.pos hc.pp hc.codec h' hcf e he'
  obtain ⟨T, hT⟩ := hL e he
  have hn := hT.wf.norm
  have hst := ha.stored hcf hn hT.inputs (.root (by rw [hT.loc]; exact List.mem_map_of_mem he))
  have hst' := ha'.stored hcf hn hT.inputs (.root (by rw [hT.loc]; exact List.mem_map_of_mem he'))
  rw [← hT.loc] at hv ⊢
  exact ⟨fun hd k => (version_getOne (C := C) hc.pos hc.codec hd hv k).alive hs',
    fun k => by
      rw [(getOne_stored (C := C) hc.pos hn hst k).alive hs,
        (getOne_stored (C := C) hc.pos hn hst' k).alive hs'],
    fun ks => by
      rw [(get_stored (C := C) hc.pos hc.pp hn hst ks).alive hs,
        (get_stored (C := C) hc.pos hc.pp hn hst' ks).alive hs'],
    fun k => by
      rw [(proof_stored (C := C) hc.pos hn hst k).alive hs,
        (proof_stored (C := C) hc.pos hn hst' k).alive hs']⟩

/-- Reachable by hash inputs is reachable by stored nodes. -/
theorem Acct.below {U : HIn N → Prop} {Hs : Hasher N} {ex : Prop} {v : View N} {R : List (Arr N)}
    (hU : CollisionFree Hs U) (h : Acct Hs U ex v R) {x : Arr N} :
    Reach (childrenOf Hs U) R x ↔ Below v R x := by
  constructor
  · intro hx
    induction hx with
    | root hx => exact .root hx
    | child hy hxy ih =>
      obtain ⟨n, hn⟩ := h.present hy
      exact .child ih hn (by rwa [childrenOf_eq hU (h.honest _ n hn).2] at hxy)
  · intro hx
    induction hx with
    | root hx => exact .root hx
    | @child x y n hy hn hxy ih =>
      exact .child ih (by rwa [childrenOf_eq hU (h.honest _ n hn).2])

theorem Acct.pointers_eq {U : HIn N → Prop} {Hs : Hasher N} {ex : Prop} {v : View N} {R : List (Arr N)}
    (hU : CollisionFree Hs U) (h : Acct Hs U ex v R) (x : Arr N) :
    load (childrenOf Hs U) R x = pointers v (Below v R) x + R.count x := by
  unfold load inR pointers
  congr 1
  apply Finset.sum_congr rfl
  intro y _
  by_cases hy : Below v R y
  · have hr := (h.below hU).2 hy
    obtain ⟨n, hn⟩ := h.present hr
    rw [if_pos hr, if_pos hy, hn, childrenOf_eq hU (h.honest _ n hn).2]
  · rw [if_neg hy, if_neg (mt (h.below hU).1 hy)]

end MerkleBit
