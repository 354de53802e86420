import Verif.Proof.Keeps
import Verif.Props.Counts
import Verif.Props.Storage
import Verif.Props.Needs
/-!
# C87: what repeated pairs leave behind

C21, C40, C48 and C51 fail when a pair is inserted that a live version has already.  For histories in which
single pairs are inserted again, as often as one likes, what is in excess is known exactly.
-/

namespace MerkleBit
section
variable {N : Nat} {σ V : Type} {cfg : Config N σ V} {C : DbContract cfg.db} {shows : Bool}
  {H : List (HIn N)} {L L1 L2 : Ledger N V} {P : List (Item N)} {s s' : σ}

theorem leaf_left {prev : Option (Arr N)} {M : Contents N V} {keys : List (Arr N)} {values : List V}
    {w : View N} (hL : L.Base cfg w prev M) {k : Arr N} {v : List UInt8}
    (h : .tree (.leaf k v) ∈ leftBy cfg shows L P M keys values) :
    .data k v ∈ leftBy cfg shows L P M keys values ∧ shows = true := by
  unfold leftBy at h ⊢
  obtain ⟨e, he, h⟩ := List.mem_flatMap.1 h
  rcases List.mem_append.1 h with h | h
  · split at h <;> simp at h
  · split at h
    · next hc =>
      simp only [List.mem_singleton, Item.tree.injEq, Trie.leaf.injEq] at h
      obtain ⟨rfl, rfl⟩ := h
      refine ⟨List.mem_flatMap.2 ⟨e, he, List.mem_append_left _ ?_⟩, hc.1⟩
      rw [if_pos]
      · simp
      · left
        obtain ⟨v, hv, hb⟩ := hc.2
        obtain ⟨x, hx, hxv⟩ := hL.sub hv
        exact ⟨x, hx, v, hxv, hb⟩
    · simp at h

/-- With a leaf, its data node is left over; and if writes are queued, only data nodes are. -/
theorem Keeps.leaf (h : Keeps cfg C shows H L P s) {k : Arr N} {v : List UInt8}
    (hk : .tree (.leaf k v) ∈ P) : .data k v ∈ P ∧ shows = true := by
  induction h with
  | start => simp at hk
  | insertAt _ hc _ ih =>
    rcases List.mem_append.1 hk with hk | hk
    · obtain ⟨h1, h2⟩ := leaf_left hc.prev hk
      exact ⟨List.mem_append_left _ h1, h2⟩
    · exact ⟨List.mem_append_right _ (ih hk).1, (ih hk).2⟩
  | remove _ _ ih => exact ih hk
  | reopen _ _ _ ih => exact ih hk

theorem Keeps.stored_below (hc : Sane cfg) (hsh : WritesShow C shows) (h : Keeps cfg C shows H L P s)
    (hcf : CollisionFree cfg.hasher (Among H)) {x : Arr N} :
    C.view s x ≠ none ↔ Below (C.view s) (L.map Prod.fst ++ P.map (Item.loc cfg.hasher)) x := by
  obtain ⟨-, -, ha, -⟩ := keeps_acct hc.pos hc.pp hc.codec hsh h (Among H) hcf (fun _ hi => hi)
  constructor
  · intro hx
    obtain ⟨n, hn⟩ := Option.ne_none_iff_exists'.1 hx
    refine (ha.below hcf).1 (load_pos.1 ?_)
    rw [← ha.eq trivial x, refsOf_some hn]
    exact (ha.honest x n hn).1
  · intro hx
    obtain ⟨n, hn⟩ := ha.present ((ha.below hcf).2 hx)
    simp [hn]

theorem below_nil {f : View N} {x : Arr N} : ¬ Below f [] x := by
  intro h
  induction h with
  | root hx => simp at hx
  | child _ _ _ ih => exact ih

/-- C87: the reference count of every stored node is the number of pointers at it that stored nodes hold,
plus the number of times it is a live root, plus the number of references to it that are left over. -/
theorem C87_counts_exact (hc : Sane cfg) (hsh : WritesShow C shows) (h : Keeps cfg C shows H L P s)
    (hcf : CollisionFree cfg.hasher (Among H)) {x : Arr N} {n : Node N} (hx : C.view s x = some n) :
    n.references = pointers (C.view s) (fun _ => True) x + (L.map Prod.fst).count x +
      (P.map (Item.loc cfg.hasher)).count x := by
  obtain ⟨-, -, ha, -⟩ := keeps_acct hc.pos hc.pp hc.codec hsh h (Among H) hcf (fun _ hi => hi)
  have h1 := ha.eq trivial x
  rw [refsOf_some hx, ha.pointers_eq hcf] at h1
  rw [h1, List.count_append, ← Nat.add_assoc]
  congr 2
  unfold pointers
  apply Finset.sum_congr rfl
  intro y _
  rw [if_pos trivial]
  by_cases hy : Below (C.view s) (L.map Prod.fst ++ P.map (Item.loc cfg.hasher)) y
  · rw [if_pos hy]
  · rw [if_neg hy]
    cases hv : C.view s y with
    | none => rfl
    | some m => exact absurd ((h.stored_below hc hsh hcf).1 (by simp [hv])) hy

/-- C87: what is stored is what can be reached from the live roots, and the leaves and data nodes to which
references are left over. -/
theorem C87_stored (hc : Sane cfg) (hsh : WritesShow C shows) (h : Keeps cfg C shows H L P s)
    (hcf : CollisionFree cfg.hasher (Among H)) (x : Arr N) :
    C.view s x ≠ none ↔
      Below (C.view s) (L.map Prod.fst) x ∨ ∃ i ∈ P, i.loc cfg.hasher = x := by
  rw [h.stored_below hc hsh hcf]
  obtain ⟨-, hP, ha, -⟩ := keeps_acct hc.pos hc.pp hc.codec hsh h (Among H) hcf (fun _ hi => hi)
  constructor
  · intro hx
    induction hx with
    | root hx =>
      rcases List.mem_append.1 hx with hx | hx
      · exact .inl (.root hx)
      · exact .inr (List.mem_map.1 hx)
    | @child x y n _ hn hxy ih =>
      rcases ih with ih | ⟨i, hi, rfl⟩
      · exact .inl (.child ih hn hxy)
      · right
        have hv := (ha.honest _ n hn).2.unique hcf (hP i hi).1.belongs
        rw [hv, Item.children_loc] at hxy
        obtain ⟨j, hj, rfl⟩ := List.mem_map.1 hxy
        cases i with
        | data k v => simp [Item.children] at hj
        | tree t =>
          cases t with
          | node l r => exact absurd rfl ((hP _ hi).2 l r)
          | leaf k v =>
            simp only [Item.children, List.mem_singleton] at hj
            subst hj
            exact ⟨_, (h.leaf hi).1, rfl⟩
  · rintro (hx | ⟨i, hi, rfl⟩)
    · induction hx with
      | root hx => exact .root (List.mem_append_left _ hx)
      | child _ hn hxy ih => exact .child ih hn hxy
    · exact .root (List.mem_append_right _ (List.mem_map_of_mem hi))

/-- C87: when every root has been removed, what is stored are exactly the leaves and data nodes to which
references are left over.  A leaf has as many as are left over; a data node has one more than are left over if
its leaf is stored. -/
theorem C87_all_removed (hc : Sane cfg) (hsh : WritesShow C shows) (h : Keeps cfg C shows H ([] : Ledger N V) P s)
    (hcf : CollisionFree cfg.hasher (Among H)) :
    (∀ x, C.view s x ≠ none ↔ ∃ i ∈ P, i.loc cfg.hasher = x) ∧
    (∀ i ∈ P, countsOf cfg.hasher (C.view s) i = P.count i + match i with
      | .data k v => if .tree (.leaf k v) ∈ P then 1 else 0
      | .tree _ => 0) := by
  classical
  obtain ⟨-, hP, ha, -⟩ := keeps_acct hc.pos hc.pp hc.codec hsh h (Among H) hcf (fun _ hi => hi)
  constructor
  · intro x
    rw [C87_stored hc hsh h hcf x]
    refine ⟨?_, .inr⟩
    rintro (hx | hx)
    · exact absurd hx below_nil
    · exact hx
  · intro i hi
    have hPok : ∀ i ∈ P, i.Ok cfg.hasher (Among H) := fun i hi => (hP i hi).1
    have hcount : (P.map (Item.loc cfg.hasher)).count (i.loc cfg.hasher) = P.count i := by
      clear ha h
      have key : ∀ Q : List (Item N), (∀ q ∈ Q, q.Ok cfg.hasher (Among H)) →
          (Q.map (Item.loc cfg.hasher)).count (i.loc cfg.hasher) = Q.count i := by
        intro Q hQ
        induction Q with
        | nil => rfl
        | cons q Q ih =>
          rw [List.map_cons, List.count_cons, List.count_cons, ih (fun q hq => hQ q (by simp [hq]))]
          congr 1
          have := loc_eq_iff hcf (hP i hi).1 (hQ q (by simp))
          by_cases hq : q = i
          · simp [hq]
          · simp [hq, mt this.1 hq]
      exact key P hPok
    have h1 := ha.eq trivial (i.loc cfg.hasher)
    have h0 : (([] : Ledger N V).map Prod.fst ++ P.map (Item.loc cfg.hasher)) = P.map (Item.loc cfg.hasher) := rfl
    rw [h0] at h1
    rw [countsOf_eq, h1]
    unfold load
    rw [hcount, Nat.add_comm]
    congr 1
    have hreach : ∀ y, Reach (childrenOf cfg.hasher (Among H)) (P.map (Item.loc cfg.hasher)) y →
        ∃ j ∈ P, j.loc cfg.hasher = y := by
      intro y hy
      have := (ha.below hcf (x := y)).1 (by rw [h0]; exact hy)
      have := (h.stored_below hc hsh hcf).2 this
      rcases (C87_stored hc hsh h hcf y).1 this with hb | hb
      · exact absurd hb below_nil
      · exact hb
    have hinR : ∀ {x : Arr N}, (∀ j ∈ P, (j.children.map (Item.loc cfg.hasher)).count x = 0) →
        inR (childrenOf cfg.hasher (Among H)) (P.map (Item.loc cfg.hasher)) x = 0 := by
      intro x hx
      by_contra hne
      obtain ⟨y, hy, hxy⟩ := inR_exists hne
      obtain ⟨j, hj, rfl⟩ := hreach y hy
      rw [(hPok j hj).childrenOf hcf] at hxy
      have := hx j hj
      rw [List.count_eq_zero] at this
      exact this hxy
    cases i with
    | tree t =>
      refine hinR fun j hj => ?_
      rw [List.count_eq_zero]
      intro hm
      obtain ⟨c, hcj, hce⟩ := List.mem_map.1 hm
      have := Item.eq_of_loc hcf ((hPok j hj).children c hcj) (hPok _ hi) hce
      subst this
      cases j with
      | data k v => simp [Item.children] at hcj
      | tree u =>
        cases u with
        | leaf k v => simp [Item.children] at hcj
        | node l r => exact absurd rfl ((hP _ hj).2 l r)
    | data k v =>
      dsimp only
      have hchild : ∀ j ∈ P, .data k v ∈ j.children → j = .tree (.leaf k v) := by
        intro j hj hcj
        cases j with
        | data k v => simp [Item.children] at hcj
        | tree u =>
          cases u with
          | leaf k' v' =>
            simp only [Item.children, List.mem_singleton] at hcj
            cases hcj
            rfl
          | node l r => exact absurd rfl ((hP _ hj).2 l r)
      split
      · next hl =>
        unfold inR
        rw [Finset.sum_eq_single ((Item.tree (.leaf k v)).loc cfg.hasher)]
        · rw [if_pos (.root (List.mem_map_of_mem hl)), (hPok _ hl).childrenOf hcf]
          simp [Item.children]
        · intro y _ hy
          split
          · next hr =>
            obtain ⟨j, hj, rfl⟩ := hreach y hr
            rw [(hPok j hj).childrenOf hcf, List.count_eq_zero]
            intro hm
            obtain ⟨c, hcj, hce⟩ := List.mem_map.1 hm
            have := Item.eq_of_loc hcf ((hPok j hj).children c hcj) (hPok _ hi) hce
            subst this
            exact hy (by rw [hchild j hj hcj])
          · rfl
        · simp
      · next hl =>
        refine hinR fun j hj => ?_
        rw [List.count_eq_zero]
        intro hm
        obtain ⟨c, hcj, hce⟩ := List.mem_map.1 hm
        have := Item.eq_of_loc hcf ((hPok j hj).children c hcj) (hPok _ hi) hce
        subst this
        exact hl (hchild j hj hcj ▸ hj)

/-- C87 for databases that queue writes, as `RocksDB` does: only data nodes are left over. -/
theorem C87_queued_leaves_only_data (h : Keeps cfg C false H L P s) (hc : Sane cfg) (hsh : WritesShow C false)
    (hcf : CollisionFree cfg.hasher (Among H)) : ∀ i ∈ P, ∃ k v, i = .data k v := by
  obtain ⟨-, hP, -⟩ := keeps_acct hc.pos hc.pp hc.codec hsh h (Among H) hcf (fun _ hi => hi)
  intro i hi
  cases i with
  | data k v => exact ⟨k, v, rfl⟩
  | tree t =>
    cases t with
    | leaf k v => exact absurd (h.leaf hi).2 (by simp)
    | node l r => exact absurd rfl ((hP _ hi).2 l r)

/-- C87: what the database holds, reference counts included, depends only on the contents of the live
versions and on what is left over. -/
theorem C87_storage_is_determined {σ' : Type} {cfg' : Config N σ' V} {C' : DbContract cfg'.db} {shows' : Bool}
    {H' : List (HIn N)} {L' : Ledger N V} {P' : List (Item N)} {s' : σ'} (hc : Sane cfg) (hc' : Sane cfg')
    (hhash : cfg'.hasher = cfg.hasher) (henc : cfg'.encode = cfg.encode)
    (hsh : WritesShow C shows) (hsh' : WritesShow C' shows')
    (h : Keeps cfg C shows H L P s) (h' : Keeps cfg' C' shows' H' L' P' s')
    (hcf : CollisionFree cfg.hasher (Among (H ++ H')))
    (hp : (L.map Prod.snd).Perm (L'.map Prod.snd)) (hq : P.Perm P') : C.view s = C'.view s' := by
  obtain ⟨hL, -, ha, -⟩ := keeps_acct hc.pos hc.pp hc.codec hsh h (Among (H ++ H')) hcf
    (fun _ hi => List.mem_append_left _ hi)
  obtain ⟨hL', -, ha', -⟩ := keeps_acct hc'.pos hc'.pp hc'.codec hsh' h' (Among (H ++ H')) (by rwa [hhash])
    (fun _ hi => List.mem_append_right _ hi)
  have hL2 : ∀ e ∈ L', ∃ T, Accounted cfg (Among (H ++ H')) e T := by
    intro e he
    obtain ⟨T, h1, h2, h3, h4⟩ := hL' e he
    exact ⟨T, h1, by rw [← hhash]; exact h2, by rw [← hhash]; exact h3, h4.congr henc⟩
  rw [hhash] at ha'
  refine Acct.view_eq hcf ha ha' ?_
  rw [rootFor_ledger hL, rootFor_ledger hL2]
  exact (hp.map _).append (hq.map _)

theorem leftBy_nil {M : Contents N V} {keys : List (Arr N)} {values : List V} (hcod : RoundTrip cfg)
    (h : ∀ e ∈ L, ∀ p ∈ keys.zip values, e.2 p.1 ≠ some p.2)
    (hM : ∀ p ∈ keys.zip values, M p.1 ≠ some p.2) : leftBy cfg shows L [] M keys values = [] := by
  have hhas : ∀ {M : Contents N V} {e : Arr N × List UInt8}, e ∈ encodedPairs cfg keys values →
      (∀ p ∈ keys.zip values, M p.1 ≠ some p.2) → ¬ M.Has cfg e.1 e.2 := by
    rintro M e he hM ⟨v, hv, hev⟩
    obtain ⟨v', h1, h2⟩ := encodedPairs_encode (k := e.1) (b := e.2) he
    refine hM _ h1 ?_
    rw [hv]
    exact Encodes.unique hcod (o := some v) (o' := some v') ⟨_, hev, rfl⟩ ⟨_, h2, rfl⟩
  unfold leftBy
  rw [List.flatMap_eq_nil_iff]
  intro e he
  rw [if_neg, if_neg]
  · rfl
  · exact fun h => hhas he hM h.2
  · rintro (⟨x, hx, hh⟩ | hh)
    · exact hhas he (h x hx) hh
    · simp at hh

/-- C87: nothing is left over as long as no pair of a live version is inserted again. -/
theorem C87_nothing_left_if_new (hc : Sane cfg) (h : Uses cfg C True H L s) : Keeps cfg C shows H L [] s := by
  induction h with
  | start h1 h2 => exact .start h1 h2
  | @insertAt d H L s s' prev M keys values r _ hcar hrun ih =>
    have := Keeps.insertAt ih (hcar.weak False.elim) hrun
    rwa [leftBy_nil hc.codec (hcar.new trivial), List.append_nil] at this
    intro p hp hMp
    obtain ⟨x, hx, hxv⟩ := hcar.prev.sub hMp
    exact hcar.new trivial _ hx p hp hxv
  | insertFailedAt hn => exact absurd trivial hn
  | insertCrashedAt hn => exact absurd trivial hn
  | refusedAt hn => exact absurd trivial hn
  | remove _ _ hrun ih => exact ih.remove hrun
  | removeFailed hn => exact absurd trivial hn
  | removeCrashed hn => exact absurd trivial hn
  | reopen _ h1 h2 ih => exact ih.reopen h1 h2

/-- C87: these histories are careful ones, so all live versions read their contents (C19, C47). -/
theorem C87_keeps_versions (hc : Sane cfg) (hsh : WritesShow C shows) (h : Keeps cfg C shows H L P s)
    (hcf : CollisionFree cfg.hasher (Among H)) : Uses cfg C False H L s := by
  induction h with
  | start h1 h2 => exact .start h1 h2
  | insertAt _ hcar hrun ih => exact (ih (hcf.mono fun i hi => List.mem_append_right _ hi)).insertAt hcar hrun
  | remove hk hrun ih =>
    obtain ⟨-, -, -, hp⟩ := keeps_acct hc.pos hc.pp hc.codec hsh hk (Among _) hcf (fun _ hi => hi)
    exact (ih hcf).remove (.inl hp) hrun
  | reopen _ h1 h2 ih => exact (ih hcf).reopen h1 h2

end

/-! ## Concrete cases -/

namespace Toy

/-- Keys 1 and 2 are inserted, and then key 1 again, with the same value and together with key 3. -/
def lo1 : Res (Arr 2) × HashDB 2 := insert cfg none [key 1, key 2] [[10], [20]] db0
def lo2 : Res (Arr 2) × HashDB 2 := insert cfg (some (key 59708)) [key 1, key 3] [[10], [30]] lo1.2
/-- Both versions are removed. -/
def lo4 : Res Unit × HashDB 2 := remove cfg (key 57707) (remove cfg (key 59708) lo2.2).2

def LO1 : Contents 2 (List UInt8) := Contents.empty.assign [key 1, key 2] [[10], [20]]

theorem lo_fresh : ¬ Rewrites LO1 (LO1.assign [key 1, key 3] [[10], [30]]) [key 1, key 3] := by
  have h3 : ∀ k : Arr 2, LO1.assign [key 1, key 3] [[10], [30]] k ≠ none → k = key 1 ∨ k = key 2 ∨ k = key 3 := by
    intro k hk
    by_contra hcon
    simp only [not_or] at hcon
    refine hk ?_
    simp [LO1, Contents.assign, Contents.empty, Ne.symm hcon.1, Ne.symm hcon.2.1, Ne.symm hcon.2.2]
  have hd3 : LO1 (key 3) ≠ LO1.assign [key 1, key 3] [[10], [30]] (key 3) := by decide +kernel
  rintro ⟨k, hk, d, ⟨k', hk', hd, hne⟩, hag⟩
  simp only [List.mem_cons, List.not_mem_nil, or_false] at hk
  refine hd3 (hag (key 3) ?_)
  rcases hk with rfl | rfl
  · have hd' : d ≤ 14 := by
      refine Nat.le_trans hd ?_
      rcases h3 k' hne with rfl | rfl | rfl
      · exact absurd rfl hk'
      · decide +kernel
      · decide +kernel
    refine Nat.le_trans hd' ?_
    decide +kernel
  · refine Nat.le_trans hd ?_
    rw [firstDiff_self]
    exact firstDiff_le _ _

/-- What is left over: key 1 with its value is in the first version, on top of which it was inserted again. -/
def loLeft : List (Item 2) := [.data (key 1) [10], .tree (.leaf (key 1) [10])]

theorem lo_left : leftBy cfg true [(key 59708, LO1)] [] LO1 [key 1, key 3] [[10], [30]] = loLeft := by
  have h1 : LO1.Has cfg (key 1) [10] := ⟨[10], by decide +kernel, rfl⟩
  have h3 : ¬ LO1.Has cfg (key 3) [30] := by
    rintro ⟨v, hv, -⟩
    have : LO1 (key 3) = none := by decide +kernel
    rw [this] at hv
    cases hv
  have he : encodedPairs cfg [key 1, key 3] [[10], [30]] = [(key 1, [10]), (key 3, [30])] := rfl
  unfold leftBy
  rw [he]
  simp [h1, h3, loLeft]

theorem lo_keeps : Keeps cfg C true
    (hashedBy cfg (some (key 59708)) [key 1, key 3] [[10], [30]] lo1.2 ++
      (hashedBy cfg none [key 1, key 2] [[10], [20]] db0 ++ []))
    [(key 57707, LO1.assign [key 1, key 3] [[10], [30]]), (key 59708, LO1)] loLeft lo2.2 := by
  have h1 : Keeps cfg C true (hashedBy cfg none [key 1, key 2] [[10], [20]] db0 ++ []) [(key 59708, LO1)] [] lo1.2 := by
    have := Keeps.insert (cfg := cfg) (C := C) (shows := true) (s := db0) (s' := lo1.2) (.start rfl rfl)
      (keys := [key 1, key 2]) (values := [[10], [20]]) (prev := none) (M := Contents.empty) (r := key 59708)
      ⟨.inl rfl, rfl, by decide, noStraddle_empty _, by simp, by simp⟩ (outcome (by decide +kernel))
    rw [leftBy_nil sane.codec (by simp) (by simp [Contents.empty])] at this
    exact this
  have h2 := h1.insert (prev := some (key 59708)) (M := LO1) (keys := [key 1, key 3]) (values := [[10], [30]])
    (r := key 57707) (s' := lo2.2)
    ⟨.inl rfl, by simp [Ledger.Base], by decide, ?_, ?_, fun h => h.elim⟩ (outcome (by decide +kernel))
  · rw [lo_left] at h2
    exact h2
  · refine noStraddle_of_new ?_
    have h0 : LO1 (key 1) ≠ none := by decide +kernel
    have hd : ∀ k ∈ [key 1, key 3], LO1 k = none → k = key 3 := by
      intro k hk h
      simp only [List.mem_cons, List.not_mem_nil, or_false] at hk
      rcases hk with rfl | rfl
      · exact absurd h h0
      · rfl
    intro k hk k' hk' h1 h2
    rw [hd k hk h1, hd k' hk' h2]
  · intro e he
    rw [List.mem_singleton] at he
    subst he
    exact lo_fresh

theorem lo_free : CollisionFree cfg.hasher (Among
    (hashedBy cfg (some (key 59708)) [key 1, key 3] [[10], [30]] lo1.2 ++
      (hashedBy cfg none [key 1, key 2] [[10], [20]] db0 ++ []))) := collisionFree_of_check (by decide +kernel)

end Toy

theorem Toy.lo_gone : Keeps Toy.cfg Toy.C true
    (hashedBy Toy.cfg (some (Toy.key 59708)) [Toy.key 1, Toy.key 3] [[10], [30]] Toy.lo1.2 ++
      (hashedBy Toy.cfg none [Toy.key 1, Toy.key 2] [[10], [20]] Toy.db0 ++ [])) [] Toy.loLeft Toy.lo4.2 :=
  (Toy.lo_keeps.remove (s' := (remove Toy.cfg (Toy.key 59708) Toy.lo2.2).2) (r := Toy.key 59708)
      (M := Toy.LO1) (L1 := [_]) (L2 := []) (outcome (by decide +kernel))).remove
    (s' := Toy.lo4.2) (L1 := []) (L2 := []) (outcome (by decide +kernel))

/-- After both versions are removed, the leaf of key 1 is stored with one reference and its data node with
two, and nothing else. -/
example : (∀ x, Toy.C.view Toy.lo4.2 x ≠ none ↔ ∃ i ∈ Toy.loLeft, i.loc Toy.hasher = x) ∧
    countsOf Toy.hasher (Toy.C.view Toy.lo4.2) (.tree (.leaf (Toy.key 1) [10])) = 1 ∧
    countsOf Toy.hasher (Toy.C.view Toy.lo4.2) (.data (Toy.key 1) [10]) = 2 := by
  obtain ⟨h1, h2⟩ := C87_all_removed Toy.sane hash_writesShow Toy.lo_gone Toy.lo_free
  refine ⟨h1, ?_, ?_⟩
  · have := h2 (.tree (.leaf (Toy.key 1) [10])) (by simp [Toy.loLeft])
    refine this.trans ?_
    simp [Toy.loLeft]
  · have := h2 (.data (Toy.key 1) [10]) (by simp [Toy.loLeft])
    refine this.trans ?_
    simp [Toy.loLeft]

/-- While both versions are live, the leaf of key 1 is a child of a branch of either version; one of its
references is left over, and so is one of the references to its data node. -/
example {x : Arr 2} {n : Node 2} (hx : Toy.C.view Toy.lo2.2 x = some n) :
    n.references = pointers (Toy.C.view Toy.lo2.2) (fun _ => True) x +
      [Toy.key 57707, Toy.key 59708].count x + (Toy.loLeft.map (Item.loc Toy.hasher)).count x :=
  C87_counts_exact Toy.sane hash_writesShow Toy.lo_keeps Toy.lo_free hx

/-- Nothing is left over by a history in which every pair is new. -/
example : ∃ H, Keeps Toy.cfg Toy.C true H [(Toy.key 24929, Contents.empty.assign [Toy.key 1] [[10]])] []
    (insert Toy.cfg none [Toy.key 1] [[10]] Toy.db0).2 :=
  ⟨_, C87_nothing_left_if_new Toy.sane ((Uses.start rfl rfl).insert
    (prev := none) ⟨.inl rfl, rfl, by simp, noStraddle_empty _, by simp, by simp⟩ (outcome (by decide +kernel)))⟩

namespace Toy

def LP1 : Contents 2 (List UInt8) := Contents.empty.assign [key 1] [[10]]

theorem lp_fresh (M : Contents 2 (List UInt8)) : ¬ Rewrites M LP1 [key 1] := by
  rintro ⟨k, hk, d, ⟨k', hk', hd, hne⟩, -⟩
  rw [List.mem_singleton] at hk
  subst hk
  refine hne ?_
  simp [LP1, Contents.assign, Contents.empty, Ne.symm hk']

theorem lp_left {σ : Type} {c : Config 2 σ (List UInt8)} (hc : c.encode = cfg.encode) (b : Bool) :
    leftBy c b [(key 24929, LP1)] [] Contents.empty [key 1] [[10]] = [.data (key 1) [10]] := by
  have h1 : LP1.Has c (key 1) [10] := ⟨[10], by decide +kernel, by rw [hc]; rfl⟩
  have h2 : ¬ (Contents.empty : Contents 2 (List UInt8)).Has c (key 1) [10] := by
    rintro ⟨v, hv, -⟩
    cases hv
  have he : encodedPairs c [key 1] [[10]] = [(key 1, [10])] := by
    have : encodedPairs c [key 1] [[10]] = encodedPairs cfg [key 1] [[10]] := by
      unfold encodedPairs
      rw [hc]
    rw [this]
    rfl
  unfold leftBy
  rw [he]
  simp [h1, h2]

/-- One pair is inserted twice, each time as a new tree, in a database in memory and in RocksDB. -/
def lp1 : Res (Arr 2) × HashDB 2 := insert cfg none [key 1] [[10]] db0
def lp2 : Res (Arr 2) × HashDB 2 := insert cfg none [key 1] [[10]] lp1.2
def lq1 : Res (Arr 2) × RocksDB 2 := insert rocks none [key 1] [[10]] (RocksDB.open 2)
def lq2 : Res (Arr 2) × RocksDB 2 := insert rocks none [key 1] [[10]] lq1.2

theorem lp_keeps : Keeps cfg C true (hashedBy cfg none [key 1] [[10]] lp1.2 ++
    (hashedBy cfg none [key 1] [[10]] db0 ++ [])) [(key 24929, LP1), (key 24929, LP1)]
    [.data (key 1) [10]] lp2.2 := by
  have h1 := Keeps.insert (cfg := cfg) (C := C) (shows := true) (s := db0) (s' := lp1.2) (.start rfl rfl)
    (keys := [key 1]) (values := [[10]]) (prev := none) (M := Contents.empty) (r := key 24929)
    ⟨.inl rfl, rfl, by decide, noStraddle_empty _, by simp, by simp⟩ (outcome (by decide +kernel))
  rw [leftBy_nil sane.codec (by simp) (by simp [Contents.empty])] at h1
  have h2 := h1.insert (s' := lp2.2)
    (keys := [key 1]) (values := [[10]]) (prev := none) (M := Contents.empty) (r := key 24929)
    ⟨.inl rfl, rfl, by decide, noStraddle_empty _, fun e _ => lp_fresh _, by simp⟩ (outcome (by decide +kernel))
  have h3 := lp_left (c := cfg) rfl true
  have h4 : leftBy cfg true [(key 24929, Contents.empty.assign [key 1] [[10]])] ([] ++ []) Contents.empty
      [key 1] [[10]] ++ ([] ++ []) = [.data (key 1) [10]] := by
    rw [List.append_nil, List.append_nil]
    exact h3
  rw [h4] at h2
  exact h2

theorem lq_keeps : Keeps rocks RC false (hashedBy rocks none [key 1] [[10]] lq1.2 ++
    (hashedBy rocks none [key 1] [[10]] (RocksDB.open 2) ++ [])) [(key 24929, LP1), (key 24929, LP1)]
    [.data (key 1) [10]] lq2.2 := by
  have h1 := Keeps.insert (cfg := rocks) (C := RC) (shows := false) (s := RocksDB.open 2) (s' := lq1.2)
    (.start rfl rfl)
    (keys := [key 1]) (values := [[10]]) (prev := none) (M := Contents.empty) (r := key 24929)
    ⟨.inl rfl, rfl, by decide, noStraddle_empty _, by simp, by simp⟩ (outcome (by decide +kernel))
  rw [leftBy_nil rsane.codec (by simp) (by simp [Contents.empty])] at h1
  have h2 := h1.insert (s' := lq2.2)
    (keys := [key 1]) (values := [[10]]) (prev := none) (M := Contents.empty) (r := key 24929)
    ⟨.inl (rflushed (by decide +kernel)), rfl, by decide, noStraddle_empty _, fun e _ => lp_fresh _, by simp⟩
    (outcome (by decide +kernel))
  have h3 := lp_left (c := rocks) rfl false
  have h4 : leftBy rocks false [(key 24929, Contents.empty.assign [key 1] [[10]])] ([] ++ []) Contents.empty
      [key 1] [[10]] ++ ([] ++ []) = [.data (key 1) [10]] := by
    rw [List.append_nil, List.append_nil]
    exact h3
  rw [h4] at h2
  exact h2

end Toy

/-- Both hold the same nodes with the same reference counts, though the pair was written twice. -/
example : Toy.C.view Toy.lp2.2 = Toy.RC.view Toy.lq2.2 :=
  C87_storage_is_determined Toy.sane Toy.rsane rfl rfl hash_writesShow (rocks_writesShow _ _)
    Toy.lp_keeps Toy.lq_keeps (collisionFree_of_check (by decide +kernel)) (.refl _) (.refl _)

/-- What is left over in RocksDB is a data node. -/
example : ∀ i ∈ [Item.data (Toy.key 1) [10]], ∃ k v, i = .data k v :=
  C87_queued_leaves_only_data Toy.lq_keeps Toy.rsane (rocks_writesShow _ _)
    (collisionFree_of_check (by decide +kernel))

end MerkleBit
