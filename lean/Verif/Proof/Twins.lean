import Verif.Spec.Twins
import Verif.Proof.Looked
import Verif.Proof.Simulation
import Verif.Proof.Sessions
/-!
# The same program on two databases
-/

namespace MerkleBit
variable {N : Nat} {σ τ V : Type} {cfg : Config N σ V} {C : DbContract cfg.db} {db' : Database N τ}
  {C' : DbContract (cfg.withDb db').db} {U : HIn N → Prop}

/-- The counts are all there is to a view of nodes in their places. -/
theorem Honest.view_eq {H : Hasher N} (hU : CollisionFree H U) {v v' : View N} (hv : Honest H U v)
    (hv' : Honest H U v') (hc : ∀ i : Item N, i.Ok H U → countsOf H v i = countsOf H v' i) : v = v' := by
  have hitem : ∀ x w, Belongs H U x w → ∃ i : Item N, i.Ok H U ∧ i.loc H = x := by
    rintro x w (⟨k, b, rfl, -, hu⟩ | ⟨t, hn, rfl, -, hu⟩)
    · exact ⟨.data k b, hu, rfl⟩
    · exact ⟨.tree t, ⟨hn, hu⟩, rfl⟩
  funext x
  cases h : v x with
  | none =>
    cases h' : v' x with
    | none => rfl
    | some n' =>
      obtain ⟨h1, h2⟩ := hv' x n' h'
      obtain ⟨i, hi, rfl⟩ := hitem _ _ h2
      have := hc i hi
      unfold countsOf at this
      rw [h, h'] at this
      simp only at this
      omega
  | some n =>
    obtain ⟨h1, h2⟩ := hv x n h
    obtain ⟨i, hi, rfl⟩ := hitem _ _ h2
    have := hc i hi
    unfold countsOf at this
    rw [h] at this
    cases h' : v' (i.loc H) with
    | none => rw [h'] at this; simp only at this; omega
    | some n' =>
      rw [h'] at this
      simp only at this
      have hw := h2.unique hU (hv' _ _ h').2
      cases n; cases n'
      simp only at this hw
      subst this hw
      rfl

/-- No pair of a batch is in a tree. -/
def NoneOf (P : Option (Trie N)) (es : List (Arr N × List UInt8)) : Prop :=
  ∀ e ∈ es, ∀ T ∈ P, e ∉ T.entries

theorem afterInsert_again {a a' : Nat} {P : Option (Trie N)} {kept : List (Trie N)}
    {es : List (Arr N × List UInt8)} {T' : Trie N} {c : Item N → Nat} (h : a = a' ∨ NoneOf P es) :
    afterInsert a P kept es T' c = afterInsert a' P kept es T' c := by
  rcases h with rfl | h
  · rfl
  funext i
  cases i with
  | data k v => rfl
  | tree t =>
    cases t with
    | node l r => rfl
    | leaf k v =>
      simp only [afterInsert]
      by_cases he : (k, v) ∈ es
      · have : ¬ ∃ T ∈ P, (k, v) ∈ T.entries := fun ⟨T, hT, hm⟩ => h _ he T hT hm
        rw [if_pos he, if_pos he, if_neg this, if_neg this]
      · rw [if_neg he, if_neg he]

theorem noneOf_fresh (hrt : RoundTrip cfg) {pt : Option (Trie N)} {prev : Option (Arr N)}
    {M : Contents N V} (hpt : PrevTrie cfg U pt prev M) {keys : List (Arr N)} {values : List V}
    (hf : ∀ p ∈ keys.zip values, M p.1 ≠ some p.2) : NoneOf pt (encodedPairs cfg keys values) := by
  rintro ⟨k, b⟩ he T hT hm
  obtain ⟨v, hv, hb⟩ := encodedPairs_encode he
  obtain ⟨h1, -, h3⟩ := hpt.2.1 T hT
  obtain ⟨v', h4, h5, h6⟩ := h3.decode h1 hrt hm
  have h7 := hrt v b hb
  rw [h5] at h7
  cases h7
  exact hf _ hv h4

/-- Where one of the runs succeeds, the other one does, and returns the same. -/
theorem insert_transfer (hc : Sane cfg) (hU : CollisionFree cfg.hasher U) {shows shows' : Bool}
    (hsh : WritesShow C shows) (hsh' : WritesShow C' shows') {s s' : σ} {t : τ}
    (hv : C'.view t = C.view s) (hs : InPlace C U s) (ht : InPlace C' U t)
    (hp : C.pending s = View.empty N) (hp' : C'.pending t = View.empty N) (hal : C'.alive t)
    {prev : Option (Arr N)} {M : Contents N V} {keys : List (Arr N)} {values : List V}
    (hin : ∀ i ∈ hashedBy cfg prev keys values s, U i)
    (hin' : ∀ i ∈ hashedBy (cfg.withDb db') prev keys values t, U i)
    {pt : Option (Trie N)} (hpt : PrevTrie cfg U pt prev M) (hd : HeightBelow M (cfg.depth + 1))
    (hns : prev ≠ none → Handled cfg M keys)
    (hnone : shows = shows' ∨ NoneOf pt (encodedPairs cfg keys values)) {r : Arr N}
    (hrun : insert cfg prev keys values s = (.ok r, s')) :
    ∃ t', insert (cfg.withDb db') prev keys values t = (.ok r, t') := by
  have hrec := insert_record (C := C) (v0 := C.view s) hc.pos hc.pp hU hin ⟨hs.1, hs.2, View.Ext.refl _⟩ hpt
    hns False (.inr id)
  unfold Ends at hrec
  rw [hrun] at hrec
  obtain ⟨-, hlen, hne, hnd, ⟨T', h1, h2, -, h4, -⟩, -, -⟩ := hrec
  have henc : ∀ v ∈ values, ∃ b, cfg.encode v = .ok b := by
    intro v hv
    obtain ⟨i, hi, rfl⟩ := List.mem_iff_getElem.1 hv
    have hm : (keys[i]'(by omega), values[i]) ∈ keys.zip values := by
      rw [List.mem_iff_getElem]
      exact ⟨i, by simp; omega, by simp⟩
    have := h4 (keys[i]'(by omega))
    rw [assign_mem M hlen hnd hm] at this
    obtain ⟨b, hb, -⟩ := this
    exact ⟨b, hb⟩
  have hsame : ∀ r' t', insert (cfg.withDb db') prev keys values t = (.ok r', t') → r' = r := by
    intro r' t' hrun'
    have hpt' : PrevTrie (cfg.withDb db') U pt prev M := hpt
    have := insert_record (C := C') (v0 := C'.view t) hc.pos hc.pp hU hin' ⟨ht.1, ht.2, View.Ext.refl _⟩ hpt'
      hns False (.inr id)
    unfold Ends at this
    rw [hrun'] at this
    obtain ⟨-, -, -, -, ⟨T'', h1', h2', -, h4', -⟩, -, -⟩ := this
    have h4' : Represents cfg T'' (M.assign keys values) := h4'
    cases Represents.unique h1 h1' h4 h4'
    exact h2'.symm.trans h2
  suffices h : ∃ r' t', insert (cfg.withDb db') prev keys values t = (.ok r', t') by
    obtain ⟨r', t', h⟩ := h
    have := hsame r' t' h
    subst this
    exact ⟨t', h⟩
  cases pt with
  | none =>
    have hpn : prev = none := hpt.1
    subst hpn
    obtain ⟨r', t', h, -⟩ := good_insert_version (cfg := cfg.withDb db') (C := C') ⟨hc.pos, hc.pp, hc.codec⟩ hU
      ht hal (pt := none) hpt hd hns (fun T h => by cases h) hlen hne hnd henc hin'
    exact ⟨r', t', h⟩
  | some T =>
    have hps : prev = some (T.loc cfg.hasher) := hpt.1
    subst hps
    obtain ⟨hT, hTU, hM⟩ := hpt.2.1 T rfl
    have hh := hns (by simp)
    have hdep : T.height ≤ cfg.depth := by
      have := (heightBelow_iff hT hM).1 hd
      omega
    have hn1 := (insert_needs (C := C) hc.pos hc.pp hU hsh hin hs hp hT hTU hM hh hdep hlen hne hnd henc).2
    have hn2 := (insert_needs (cfg := cfg.withDb db') (C := C') hc.pos hc.pp hU hsh' hin' ht hp' hT hTU hM hh
      hdep hlen hne hnd henc).1
    have hall : ∀ u ∈ lookedAt cfg.pp T (sortKeys keys),
        ¬ Unfound cfg.hasher shows (C.view s) (encodedPairs cfg keys values) u := by
      intro u hu hx
      have := hn1 ⟨u, hu, hx⟩
      unfold Ends at this
      rw [hrun] at this
      exact this.2
    have hn : T.keys.Nodup := hT.sorted.imp Arr.ne_of_lt
    have := hn2 (fun u hu hx => hall u hu ⟨by rw [← hv]; exact hx.1, fun hsh e he heq => by
      rcases hnone with h | h
      · exact hx.2 (h ▸ hsh) e he heq
      · have hsub := ((mem_lookedAt (Q := []) hn).1 hu).1
        refine h e he T rfl ?_
        refine hsub.entries.subset ?_
        rw [heq]
        simp [Trie.entries]⟩)
    unfold Ends at this
    rcases hr : insert (cfg.withDb db') (some (T.loc cfg.hasher)) keys values t with ⟨res, t'⟩
    have hl : T.loc (cfg.withDb db').hasher = T.loc cfg.hasher := rfl
    rw [hl, hr] at this
    cases res with
    | ok r' => exact ⟨r', t', rfl⟩
    | error e =>
      rcases this.1 with ⟨h, -⟩ | ⟨h, -⟩
      · exact h.elim
      · exact absurd hal h

/-- What is kept. -/
structure Twin (cfg : Config N σ V) (C : DbContract cfg.db) (db' : Database N τ)
    (C' : DbContract (cfg.withDb db').db) (U : HIn N → Prop) (L : Ledger N V) (s : σ) (t : τ) : Prop where
  view : C'.view t = C.view s
  pending : C.pending s = View.empty N
  pending' : C'.pending t = View.empty N
  alive : C.alive s
  alive' : C'.alive t
  place : InPlace C U s
  place' : InPlace C' U t
  records : ∀ e ∈ L, IsRecord cfg U e.1 e.2

theorem Twin.mono {U' : HIn N → Prop} (h : ∀ i, U i → U' i) {L : Ledger N V} {s : σ} {t : τ}
    (ht : Twin cfg C db' C' U L s t) : Twin cfg C db' C' U' L s t :=
  ⟨ht.view, ht.pending, ht.pending', ht.alive, ht.alive', ht.place.mono h, ht.place'.mono h,
    fun e he => (ht.records e he).mono h⟩

theorem Twin.insert (hc : Sane cfg) (hU : CollisionFree cfg.hasher U) {shows shows' : Bool}
    (hsh : WritesShow C shows) (hsh' : WritesShow C' shows') {L : Ledger N V} {s s' : σ} {t t' : τ}
    (h : Twin cfg C db' C' U L s t)
    {prev : Option (Arr N)} {M : Contents N V} {keys : List (Arr N)} {values : List V}
    (hin : ∀ i ∈ hashedBy cfg prev keys values s, U i)
    (hin' : ∀ i ∈ hashedBy (cfg.withDb db') prev keys values t, U i)
    (hprev : L.Prev prev M) (hd : HeightBelow M (cfg.depth + 1))
    (hns : prev ≠ none → Handled cfg M keys)
    (hf : shows = shows' ∨ ∀ p ∈ keys.zip values, M p.1 ≠ some p.2) {r : Arr N} {res : Res (Arr N)}
    (hrun : MerkleBit.insert cfg prev keys values s = (.ok r, s'))
    (hrun' : MerkleBit.insert (cfg.withDb db') prev keys values t = (res, t')) :
    res = .ok r ∧ Twin cfg C db' C' U ((r, M.assign keys values) :: L) s' t' := by
  obtain ⟨pt, hpt⟩ := hprev.trie h.records
  have hnone : shows = shows' ∨ NoneOf pt (encodedPairs cfg keys values) :=
    hf.imp id (noneOf_fresh hc.codec hpt)
  obtain ⟨t'', hok⟩ := insert_transfer hc hU hsh hsh' h.view h.place h.place' h.pending h.pending' h.alive' hin
    hin' hpt hd hns hnone hrun
  rw [hrun'] at hok
  cases hok
  refine ⟨rfl, ?_⟩
  have ha := insert_alive (cfg := cfg) (C := C) h.alive prev keys values
  have ha' := insert_alive (cfg := cfg.withDb db') (C := C') h.alive' prev keys values
  rw [hrun] at ha
  rw [hrun'] at ha'
  obtain ⟨e1, T1, e2, e3, e4, e5, e6⟩ := insert_tally (C := C) hc.pos hc.pp hU hsh hin h.place h.pending hpt hns
    hrun
  have hpt' : PrevTrie (cfg.withDb db') U pt prev M := hpt
  obtain ⟨g1, T2, g2, g3, g4, g5, g6⟩ := insert_tally (C := C') hc.pos hc.pp hU hsh' hin' h.place' h.pending'
    hpt' hns hrun'
  have g5 : Represents cfg T2 (M.assign keys values) := g5
  cases Represents.unique e2 g2 e5 g5
  have hpl : InPlace C U s' := by
    have := insert_placed (C := C) (v0 := C.view s) hc.pos hc.pp hU prev keys values hin
      ⟨h.place.1, h.place.2, View.Ext.refl _⟩
    unfold Ends at this
    rw [hrun] at this
    exact ⟨this.2.view, this.2.pending⟩
  have hpl' : InPlace C' U t' := by
    have := insert_placed (cfg := cfg.withDb db') (C := C') (v0 := C'.view t) hc.pos hc.pp hU prev keys values
      hin' ⟨h.place'.1, h.place'.2, View.Ext.refl _⟩
    unfold Ends at this
    rw [hrun'] at this
    exact ⟨this.2.view, this.2.pending⟩
  refine ⟨?_, e1, g1, ha, ha', hpl, hpl', ?_⟩
  · refine Honest.view_eq hU hpl'.1 hpl.1 (fun i hi => ?_)
    rw [e6 i hi]
    refine (g6 i hi).trans ?_
    rw [h.view]
    refine congrFun (afterInsert_again (hnone.imp (fun h => by rw [h]) id)) i
  · intro e he
    rcases List.mem_cons.1 he with rfl | he
    · exact ⟨T1, e2, e3, e4, e5⟩
    · exact h.records e he

theorem Twin.remove (hU : CollisionFree cfg.hasher U) {L : Ledger N V} {s s' : σ} {t t' : τ}
    (h : Twin cfg C db' C' U L s t) {r : Arr N} {M : Contents N V} (hr : (r, M) ∈ L)
    {res res' : Res Unit} (hrun : MerkleBit.remove cfg r s = (res, s'))
    (hrun' : MerkleBit.remove (cfg.withDb db') r t = (res', t')) :
    res = .ok () ∧ res' = .ok () ∧ Twin cfg C db' C' U L s' t' := by
  obtain ⟨s1, hs1, ha⟩ := remove_alive (cfg := cfg) (C := C) h.alive r
  obtain ⟨t1, ht1, ha'⟩ := remove_alive (cfg := cfg.withDb db') (C := C') h.alive' r
  rw [hrun] at hs1
  rw [hrun'] at ht1
  cases hs1
  cases ht1
  obtain ⟨T, hT, hl, hTU, hM⟩ := h.records _ hr
  change T.loc cfg.hasher = r at hl
  subst hl
  obtain ⟨e1, e2⟩ := remove_tally (C := C) hU hT hTU h.place h.pending hrun
  obtain ⟨g1, g2⟩ := remove_tally (cfg := cfg.withDb db') (C := C') hU hT hTU h.place' h.pending' hrun'
  have hpl : InPlace C U s' := by
    have := remove_shrunk (C := C) (v0 := fun _ _ => True) (T.loc cfg.hasher)
      ⟨h.place.1, h.place.2, fun _ _ _ => trivial, fun _ _ _ => trivial⟩ hrun
    exact ⟨this.view, this.pending⟩
  have hpl' : InPlace C' U t' := by
    have := remove_shrunk (cfg := cfg.withDb db') (C := C') (v0 := fun _ _ => True) (T.loc cfg.hasher)
      ⟨h.place'.1, h.place'.2, fun _ _ _ => trivial, fun _ _ _ => trivial⟩ hrun'
    exact ⟨this.view, this.pending⟩
  refine ⟨rfl, rfl, ?_, e1, g1, ha, ha', hpl, hpl', h.records⟩
  refine Honest.view_eq hU hpl'.1 hpl.1 (fun i hi => ?_)
  have g2 := g2 i hi
  rw [h.view] at g2
  by_cases hg : GivenUp (countsOf cfg.hasher (C.view s)) (.tree T) i
  · rw [(e2 i hi).1 hg]; exact g2.1 hg
  · rw [(e2 i hi).2 hg]; exact g2.2 hg

theorem Twins.twin (hc : Sane cfg) {shows shows' : Bool} (hsh : WritesShow C shows)
    (hsh' : WritesShow C' shows') {fresh : Prop} (hf : shows = shows' ∨ fresh) {H : List (HIn N)}
    {L : Ledger N V} {s : σ} {t : τ} (h : Twins cfg C db' C' fresh H L s t) :
    CollisionFree cfg.hasher (Among H) → Twin cfg C db' C' (Among H) L s t := by
  induction h with
  | start h1 h2 h3 h4 h5 h6 =>
    intro _
    refine ⟨by rw [h1, h4], h2, h5, h3, h6, ?_, ?_, by simp⟩
    · unfold InPlace; rw [h1, h2]; exact ⟨Honest.empty _ _, Honest.empty _ _⟩
    · unfold InPlace; rw [h4, h5]; exact ⟨Honest.empty _ _, Honest.empty _ _⟩
  | @insert H L s s' t t' prev M keys values r res _ h1 h2 h3 h4 h5 h6 ih =>
    intro hU
    have hsub : ∀ i, Among H i → Among (hashedBy cfg prev keys values s ++
        (hashedBy (cfg.withDb db') prev keys values t ++ H)) i :=
      fun i hi => List.mem_append_right _ (List.mem_append_right _ hi)
    exact (((ih (hU.mono hsub)).mono hsub).insert hc hU hsh hsh' (fun i hi => List.mem_append_left _ hi)
      (fun i hi => List.mem_append_right _ (List.mem_append_left _ hi)) h1 h2 h3 (hf.imp id h4) h5 h6).2
  | remove _ h1 h2 h3 ih =>
    intro hU
    exact ((ih hU).remove hU h1 h2 h3).2.2

end MerkleBit
