import Verif.Proof.MachineCheck
/-! # Counters of the machine's width: batches that do not fit -/

namespace MerkleBit
variable {N : Nat} {σ V α : Type} {cfg : Config N σ V}
open Shape

/-! ## All references count themselves, in any state -/

theorem splitNodes_count {d : Nat} {x : Arr N} {ks : List (Arr N)} {s s' : σ} {r : TreeRef N}
    (h : splitNodes cfg d x ks s = (.ok (.ref r), s')) : r.count = 1 := by
  unfold splitNodes at h
  obtain ⟨o, s1, -, h⟩ := bind_ok h
  cases o with
  | none => cases h
  | some n =>
    dsimp only at h
    split at h
    · cases hv : n.variant with
      | branch b =>
        rw [hv] at h
        obtain ⟨_, _, -, h⟩ := bind_ok h
        cases h; rfl
      | leaf b =>
        rw [hv] at h
        obtain ⟨_, _, -, h⟩ := bind_ok h
        cases h; rfl
      | data b => rw [hv] at h; cases h
    · cases h

theorem traverseTree_count (km : AMap (Arr N) (Arr N)) : ∀ fuel (pn : List (TreeRef N)) q (s s' : σ) refs,
    (∀ r ∈ pn, r.count = 1) → traverseTree cfg km fuel pn q s = (.ok refs, s') → ∀ r ∈ refs, r.count = 1
  | _, pn, [], s, s', refs, hpn, h => by
    unfold traverseTree at h
    cases h; exact hpn
  | 0, _, _ :: _, s, s', refs, _, h => by unfold traverseTree at h; cases h
  | fuel + 1, pn, cell :: q, s, s', refs, hpn, h => by
    have ih := traverseTree_count km fuel
    have more : ∀ t : TreeRef N, t.count = 1 → ∀ r ∈ pn ++ [t], r.count = 1 := by
      intro t ht r hr
      rcases List.mem_append.1 hr with hr | hr
      · exact hpn r hr
      · rw [List.mem_singleton.1 hr]; exact ht
    have push : ∀ {t : SplitNodeType N} {pn' : List (TreeRef N)} {q' : List (TreeCell N)} {d : Nat}
        {x : Arr N} {ks : List (Arr N)} {s s' : σ}, splitNodes cfg d x ks s = (.ok t, s') →
        (∀ r ∈ pn', r.count = 1) → ∀ r ∈ (pushSplit pn' q' t).1, r.count = 1 := by
      intro t pn' q' d x ks s s' ht hpn' r hr
      cases t with
      | cell c => exact hpn' r hr
      | ref u =>
        simp only [pushSplit] at hr
        rcases List.mem_append.1 hr with hr | hr
        · exact hpn' r hr
        · rw [List.mem_singleton.1 hr]; exact splitNodes_count ht
    unfold traverseTree at h
    split at h
    · cases h
    · cases hv : cell.node.variant with
      | leaf n =>
        rw [hv] at h
        dsimp only at h
        cases hk : km.get? n.key with
        | some loc =>
          rw [hk] at h
          dsimp only at h
          split at h
          · obtain ⟨_, _, -, h⟩ := bind_ok h
            exact ih _ _ _ _ _ hpn h
          · exact ih _ _ _ _ _ hpn h
        | none =>
          rw [hk] at h
          obtain ⟨_, _, -, h⟩ := bind_ok h
          exact ih _ _ _ _ _ (more _ rfl) h
      | data d => rw [hv] at h; cases h
      | branch b =>
        rw [hv] at h
        obtain ⟨_, _, -, h⟩ := bind_ok h
        obtain ⟨_, _, -, h⟩ := bind_ok h
        split at h
        · obtain ⟨_, _, -, h⟩ := bind_ok h
          exact ih _ _ _ _ _ (more _ rfl) h
        · obtain ⟨⟨zs, os⟩, _, -, h⟩ := bind_ok h
          obtain ⟨one, _, h1, h⟩ := bind_ok h
          obtain ⟨zero, _, h2, h⟩ := bind_ok h
          exact ih _ _ _ _ _ (push h2 (push h1 hpn)) h

theorem batchRefs_count {prev : Option (Arr N)} {vm : AMap (Arr N) V} {ks : List (Arr N)} {s s' : σ}
    {refs : List (TreeRef N)} (h : batchRefs cfg prev vm ks s = (.ok refs, s')) :
    ks.length ≤ refs.length ∧ ∀ r ∈ refs, r.count = 1 := by
  unfold batchRefs at h
  obtain ⟨nodes, s1, h1, h⟩ := bind_ok h
  obtain ⟨pn, s2, h2, h⟩ := bind_ok h
  cases h
  have hl : nodes.length = ks.length :=
    (costs_insertLeaves (cfg := cfg) (K := countMeter cfg.db) vm ks 0 0 s (s, 0) trivial
      ⟨rfl, Nat.le_refl _⟩).2.2.2 nodes (by rw [h1])
  refine ⟨by simp [leafRefs, hl], fun r hr => ?_⟩
  rcases List.mem_append.1 hr with hr | hr
  · unfold leafRefs at hr
    obtain ⟨x, -, rfl⟩ := List.mem_map.1 hr
    rfl
  · cases prev with
    | none => cases h2; cases hr
    | some root =>
      unfold generateTreerefs at h2
      obtain ⟨o, s3, -, h2⟩ := bind_ok h2
      cases o with
      | none => cases h2
      | some n => exact traverseTree_count _ _ _ _ _ _ _ (by simp) h2 r hr

/-! ## Merging with overflow checks -/

theorem checked_ok {a b c : Nat} (h : Arith.checked.add a b = .ok c) : c = a + b := by
  unfold Arith.checked at h
  dsimp only at h
  split at h <;> cases h
  rfl

theorem checked_ok32 {a b c : Nat} (h : Arith.checked.add32 a b = .ok c) : c = a + b ∧ a + b < 2 ^ 32 := by
  unfold Arith.checked at h
  dsimp only at h
  split at h <;> cases h
  exact ⟨rfl, by assumption⟩

theorem lift_ok {r : Res α} {a : α} {s s' : σ} (h : (M.lift r : M σ α) s = (.ok a, s')) :
    r = .ok a ∧ s' = s := by
  cases r <;> cases h
  exact ⟨rfl, rfl⟩

theorem checked_mergeLoop {F : Shape N} : ∀ (level rest : List QueueItem) (gs : List (Shape N))
    (root : Arr N) (s s' : σ) (r : List (TreeRef N) × Arr N), Sched gs (level ++ rest) F →
    (∀ g ∈ gs, g.width < 2 ^ 32) →
    Machine.mergeLoop .checked cfg level (layouts cfg.hasher gs) root s = (.ok r, s') →
    ∃ gs', r.1 = layouts cfg.hasher gs' ∧ Sched gs' rest F ∧ (∀ g ∈ gs', g.width < 2 ^ 32) ∧
      widths gs' = widths gs
  | [], rest, gs, root, s, s', r, hv, hw, h => by
    unfold Machine.mergeLoop at h
    cases h
    exact ⟨gs, rfl, hv, hw, rfl⟩
  | it :: level, rest, gs, root, s, s', r, hv, hw, h => by
    rw [List.cons_append] at hv
    cases hv with
    | step pre a b post i items F hi hsorted hmax hv =>
      obtain ⟨h1, hlook, h2, hupd⟩ := merge_facts cfg.hasher i pre post a b hi
      unfold Machine.mergeLoop at h
      obtain ⟨t, s1, e1, h⟩ := bind_ok h
      obtain ⟨e1, rfl⟩ := lift_ok e1
      rw [h1] at e1
      cases e1
      obtain ⟨⟨lp, lc⟩, s1, e1, h⟩ := bind_ok h
      obtain ⟨e1, rfl⟩ := lift_ok e1
      rcases Overflow.lookahead Overflow.adds_checked (layouts cfg.hasher (pre ++ a :: b :: post)) i (i + 1)
        with e | ⟨-, e⟩
      swap
      · rw [e] at e1; cases e1
      rw [e, hlook] at e1
      cases e1
      dsimp only at h
      obtain ⟨t, s1, e1, h⟩ := bind_ok h
      obtain ⟨e1, rfl⟩ := lift_ok e1
      rw [h2] at e1
      cases e1
      obtain ⟨c, s1, e1, h⟩ := bind_ok h
      obtain ⟨e3, rfl⟩ := lift_ok e1
      obtain rfl := checked_ok e3
      obtain ⟨_, s1, -, h⟩ := bind_ok h
      obtain ⟨c, s2, e2, h⟩ := bind_ok h
      obtain ⟨e4, rfl⟩ := lift_ok e2
      obtain ⟨rfl, hlt⟩ := checked_ok32 e4
      have hnew : (⟨(a.ref cfg.hasher).key, cfg.hasher.hash3 root.bytes.length tagB
          (a.ref cfg.hasher).location.bytes (b.ref cfg.hasher).location.bytes,
          (a.ref cfg.hasher).nodeCount + (b.ref cfg.hasher).nodeCount,
          b.width + (a.ref cfg.hasher).count⟩ : TreeRef N) = (Shape.join a b).ref cfg.hasher := by
        simp only [ref, key, loc, nodeCount, width, root.len]
        congr 1
        omega
      rw [hnew, hupd] at h
      have hw' : ∀ g ∈ pre ++ Shape.join a b :: post, g.width < 2 ^ 32 := by
        intro g hg
        rcases List.mem_append.1 hg with hg | hg
        · exact hw g (by simp [hg])
        · rcases List.mem_cons.1 hg with rfl | hg
          · simp only [ref] at hlt
            simp only [width]
            omega
          · exact hw g (by simp [hg])
      obtain ⟨gs', g1, g2, g3, g4⟩ := checked_mergeLoop level rest _ _ _ _ _ hv hw' h
      refine ⟨gs', g1, g2, g3, g4.trans ?_⟩
      simp only [widths, List.map_append, List.map_cons, List.sum_append, List.sum_cons, width]
      omega

theorem checked_levelsLoop {F : Shape N} (items : List QueueItem) :
    ∀ (idx : List Nat) (q : AMap Nat (List QueueItem)) (gs : List (Shape N)) (root : Option (Arr N))
      (s s' : σ) (r : Option (Arr N)),
      (∀ b ∈ idx, q.get? b = some (items.filter (fun it => it.1 = b))) → idx.Nodup →
      Sched gs (schedule items idx) F → (∀ g ∈ gs, g.width < 2 ^ 32) →
      Machine.levelsLoop .checked cfg idx q (layouts cfg.hasher gs) root s = (.ok r, s') →
      widths gs < 2 ^ 32
  | [], q, gs, root, s, s', r, _, _, hs, hw, _ => by
    cases hs
    simpa [widths] using hw F (by simp)
  | b :: idx, q, gs, root, s, s', r, hq, hnd, hs, hw, h => by
    have hget := hq b (by simp)
    have hs' : Sched gs (items.filter (fun it => it.1 = b) ++ schedule items idx) F := by
      simpa [schedule] using hs
    unfold Machine.levelsLoop at h
    rw [hget] at h
    obtain ⟨⟨refs', root'⟩, s1, h1, h⟩ := bind_ok h
    unfold Machine.mergeNodes at h1
    obtain ⟨x, s2, h2, h1⟩ := bind_ok h1
    obtain ⟨_, s3, -, h1⟩ := bind_ok h1
    cases h1
    obtain ⟨gs', g1, g2, g3, g4⟩ := checked_mergeLoop _ _ _ _ _ _ _ hs' hw h2
    simp only at g1
    subst g1
    rw [List.nodup_cons] at hnd
    rw [← g4]
    refine checked_levelsLoop items idx (q.erase b) gs' _ _ _ _ ?_ hnd.2 g2 g3 h
    intro c hc
    rw [AMap.get?_erase, if_neg, hq c (by simp [hc])]
    rintro rfl
    exact hnd.1 hc

theorem checked_createTree (hN : 0 < N) {refs : List (TreeRef N)} (h1 : ∀ r ∈ refs, r.count = 1)
    {s s' : σ} {r : Arr N} (h : Machine.createTree .checked cfg refs s = (.ok r, s')) :
    refs.length < 2 ^ 32 := by
  unfold Machine.createTree at h
  split at h
  · cases h
  · simp
  · next hne _ =>
    have hperm := sortRefs_perm refs
    have hne' : sortRefs refs ≠ [] := by
      intro h
      exact hne (by simpa [h] using hperm.symm)
    obtain ⟨⟨q, bits⟩, s1, hl, hrest⟩ := bind_ok h
    obtain ⟨hq, rfl⟩ := lift_ok hl
    by_cases hch : ((sortRefs refs).map (·.key)).IsChain (· ≠ ·)
    · obtain ⟨q', bits', hq', hhold⟩ := generateTreeRefQueue_ok hne' hch
      rw [hq] at hq'
      cases hq'
      have hlt := strict_of_chain (sortRefs_sorted refs) hch
      obtain ⟨F, hF⟩ := (valid_schedule hne' hlt hhold).sched
      have hbits : (sortIndices bits).Perm bits :=
        (List.reverse_perm _).trans (List.perm_insertionSort _ _)
      have hlay : layouts cfg.hasher ((sortRefs refs).map blk) = sortRefs refs :=
        layouts_blks _ (fun r hr => h1 r (hperm.mem_iff.1 hr))
      obtain ⟨o, s2, hlev, -⟩ := bind_ok hrest
      rw [← hperm.length_eq, ← widths_blks]
      rw [← hlay] at hlev
      refine checked_levelsLoop _ (sortIndices bits) q _ none _ _ _ ?_
        (hbits.nodup_iff.2 hhold.nodup) hF ?_ hlev
      · intro b hb
        rw [hhold.get, if_neg]
        obtain ⟨it, hit, h1⟩ := (hhold.mem b).1 (hbits.mem_iff.1 hb)
        intro h
        have : it ∈ (boundaries 0 ((sortRefs refs).map (·.key))).filter (fun it => it.1 = b) := by
          simp [hit, h1]
        rw [h] at this
        simp at this
      · intro g hg
        obtain ⟨x, -, rfl⟩ := List.mem_map.1 hg
        simp [width]
    · rw [generateTreeRefQueue_err hN hch] at hq
      cases hq

/-- With overflow checks, no insert of `2 ^ 32` keys is accepted, in any state. -/
theorem checked_insert (hN : 0 < N) {prev : Option (Arr N)} {keys : List (Arr N)} {values : List V}
    {s s' : σ} {r : Arr N} (h : Machine.insert .checked cfg prev keys values s = (.ok r, s')) :
    keys.length < 2 ^ 32 := by
  by_cases hlen : keys.length = values.length
  swap
  · unfold Machine.insert at h
    rw [if_pos hlen] at h
    cases h
  by_cases hne : keys = []
  · simp [hne]
  rw [insertA_eq_batchRefs cfg prev hlen hne] at h
  obtain ⟨refs, s1, h1, h⟩ := bind_ok h
  have hor : Overflow.OrM True (batchRefs cfg prev (valueMap keys values) (sortKeys keys))
      (batchRefsA .checked cfg prev (valueMap keys values) (sortKeys keys)) := by
    unfold batchRefs batchRefsA
    refine (Overflow.insertLeaves Overflow.adds_checked _ _).bind fun nodes => ?_
    refine Overflow.OrM.bind ?_ fun _ => .refl _
    cases prev with
    | none => exact .refl _
    | some r => exact Overflow.generateTreerefs Overflow.adds_checked _ _ _
  rcases hor s with he | ⟨-, he⟩
  · rw [he] at h1
    obtain ⟨h2, h3⟩ := batchRefs_count h1
    have := checked_createTree hN h3 h
    rw [(sortKeys_perm keys).length_eq] at h2
    omega
  · rw [h1] at he
    cases he

/-! ## Inserts on top of nothing are accepted -/

section
variable {β : Type} {C : DbContract cfg.db}

/-- On a database that works, the program succeeds. -/
def Works (C : DbContract cfg.db) (m : M σ α) (Q : α → Prop) : Prop :=
  ∀ s, C.alive s → ∃ a s', m s = (.ok a, s') ∧ C.alive s' ∧ Q a

variable {Q : α → Prop}

theorem works_pure {a : α} (h : Q a) : Works C (M.pure a) Q := fun s hs => ⟨a, s, rfl, hs, h⟩

theorem works_bind {m : M σ α} {f : α → M σ β} {R : β → Prop} (h1 : Works C m Q)
    (h2 : ∀ a, Q a → Works C (f a) R) : Works C (M.bind m f) R := by
  intro s hs
  obtain ⟨a, s1, e1, hs1, ha⟩ := h1 s hs
  obtain ⟨b, s2, e2, hs2, hb⟩ := h2 a ha s1 hs1
  refine ⟨b, s2, ?_, hs2, hb⟩
  unfold M.bind
  rw [e1]
  exact e2

theorem works_insert {x : Arr N} {n : Node N} : Works C (cfg.db.insert x n) (fun _ => True) := by
  intro s hs
  rcases hi : cfg.db.insert x n s with ⟨r, s'⟩
  cases r with
  | ok _ => exact ⟨(), s', rfl, (C.insert_ok hi).1 hs, trivial⟩
  | error e => exact absurd hs (C.insert_err hi).1

theorem works_flush : Works C cfg.db.batchWrite (fun _ => True) := by
  intro s hs
  rcases hi : cfg.db.batchWrite s with ⟨r, s'⟩
  cases r with
  | ok _ => exact ⟨(), s', rfl, (C.batchWrite_ok hi).1 hs, trivial⟩
  | error e => exact absurd hs (C.batchWrite_err hi).1

theorem works_dbGet {x : Arr N} : Works C (dbGet cfg x) (fun _ => True) := by
  intro s hs
  cases hi : cfg.db.getNode s x with
  | ok o => exact ⟨o, s, by unfold dbGet M.read; simp only [hi], hs, trivial⟩
  | error e => exact absurd hs (C.getNode_err hi).1

theorem works_insertLeaves {vm : AMap (Arr N) V} : ∀ {ks : List (Arr N)},
    (∀ k ∈ ks, ∃ b, encodedOf cfg vm k = .ok b) →
    Works C (insertLeaves cfg vm ks) (fun v => v.length = ks.length)
  | [], _ => by unfold insertLeaves; exact works_pure rfl
  | k :: ks, h => by
    obtain ⟨b, hb⟩ := h k (by simp)
    rw [insertLeaves_cons, hb, M.lift_ok_bind]
    refine works_bind (Q := fun _ => True) ?_ fun l _ =>
      works_bind (works_insertLeaves fun k hk => h k (by simp [hk])) fun v hv => works_pure (by simp [hv])
    unfold leafBody
    simp only [M.bind_eq, M.pure_eq]
    exact works_bind works_dbGet fun _ _ => works_bind works_dbGet fun _ _ => works_bind works_insert
      fun _ _ => works_bind works_insert fun _ _ => works_pure trivial

theorem works_mergeLoop {F : Shape N} :
    ∀ (level rest : List QueueItem) (gs : List (Shape N)) (root : Arr N), Sched gs (level ++ rest) F →
      Works C (mergeLoop cfg level (layouts cfg.hasher gs) root)
        (fun r => ∃ gs', r.1 = layouts cfg.hasher gs' ∧ Sched gs' rest F)
  | [], rest, gs, root, hv => by
    unfold mergeLoop
    exact works_pure ⟨gs, rfl, hv⟩
  | it :: level, rest, gs, root, hv => by
    rw [List.cons_append] at hv
    cases hv with
    | step pre a b post i items F hi hsorted hmax h =>
      rw [mergeLoop_step cfg _ i level pre post a b root hi]
      exact works_bind works_insert fun _ _ => works_mergeLoop level rest _ _ h

theorem works_levelsLoop {F : Shape N} (items : List QueueItem) :
    ∀ (idx : List Nat) (q : AMap Nat (List QueueItem)) (gs : List (Shape N)) (root : Option (Arr N)),
      (∀ b ∈ idx, q.get? b = some (items.filter (fun it => it.1 = b))) → idx.Nodup →
      Sched gs (schedule items idx) F → (root = none → idx ≠ []) →
      Works C (levelsLoop cfg idx q (layouts cfg.hasher gs) root) (fun o => o ≠ none)
  | [], q, gs, root, _, _, _, hr => by
    unfold levelsLoop
    exact works_pure (fun h => hr h rfl)
  | b :: idx, q, gs, root, hq, hnd, hs, _ => by
    have hget := hq b (by simp)
    have hs' : Sched gs (items.filter (fun it => it.1 = b) ++ schedule items idx) F := by
      simpa [schedule] using hs
    unfold levelsLoop
    rw [hget]
    simp only [M.bind_eq]
    refine works_bind (Q := fun r => ∃ gs', r.1 = layouts cfg.hasher gs' ∧ Sched gs' (schedule items idx) F)
      ?_ ?_
    · unfold mergeNodes
      simp only [M.bind_eq, M.pure_eq]
      exact works_bind (works_mergeLoop _ _ gs _ hs') fun r hr => works_bind works_flush fun _ _ =>
        works_pure hr
    rintro ⟨refs', root'⟩ ⟨gs', h1, h2⟩
    simp only at h1
    subst h1
    rw [List.nodup_cons] at hnd
    refine works_levelsLoop items idx (q.erase b) gs' (some root') ?_ hnd.2 h2 (by simp)
    intro c hc
    rw [AMap.get?_erase, if_neg, hq c (by simp [hc])]
    rintro rfl
    exact hnd.1 hc

theorem works_createTree {refs : List (TreeRef N)} (h1 : ∀ r ∈ refs, r.count = 1) (hne : refs ≠ [])
    (hnd : (refs.map (·.key)).Nodup) : Works C (createTree cfg refs) (fun _ => True) := by
  unfold createTree
  split
  · exact absurd rfl hne
  · simp only [M.bind_eq, M.pure_eq]
    exact works_bind works_flush fun _ _ => works_pure trivial
  · next hne1 =>
    have hperm := sortRefs_perm refs
    have hne' : sortRefs refs ≠ [] := by
      intro h
      exact hne (by simpa [h] using hperm.symm)
    have hch : ((sortRefs refs).map (·.key)).IsChain (· ≠ ·) :=
      ((hperm.map _).nodup_iff.2 hnd).isChain
    obtain ⟨q, bits, hq, hhold⟩ := generateTreeRefQueue_ok hne' hch
    have hlt := strict_of_chain (sortRefs_sorted refs) hch
    obtain ⟨F, hF⟩ := (valid_schedule hne' hlt hhold).sched
    have hbits : (sortIndices bits).Perm bits :=
      (List.reverse_perm _).trans (List.perm_insertionSort _ _)
    have hlay : layouts cfg.hasher ((sortRefs refs).map blk) = sortRefs refs :=
      layouts_blks _ (fun r hr => h1 r (hperm.mem_iff.1 hr))
    simp only [M.bind_eq, M.pure_eq]
    rw [hq]
    simp only [M.lift_ok_bind]
    have := works_levelsLoop (C := C) (cfg := cfg) _ (sortIndices bits) q _ none ?_
      (hbits.nodup_iff.2 hhold.nodup) hF ?_
    · rw [hlay] at this
      refine works_bind this fun o ho => ?_
      cases o with
      | none => exact absurd rfl ho
      | some r => exact works_pure trivial
    · intro b hb
      rw [hhold.get, if_neg]
      obtain ⟨it, hit, h1⟩ := (hhold.mem b).1 (hbits.mem_iff.1 hb)
      intro h
      have : it ∈ (boundaries 0 ((sortRefs refs).map (·.key))).filter (fun it => it.1 = b) := by
        simp [hit, h1]
      rw [h] at this
      simp at this
    · intro _ h
      rw [h] at hF
      have single : ∀ {gs : List (Shape N)} {l : List QueueItem} {G : Shape N}, Sched gs l G → l = [] →
          gs.length = 1 := by
        rintro gs l G (_ | _) hl
        · rfl
        · cases hl
      have hlen : ((sortRefs refs).map blk).length = 1 := single hF rfl
      rw [List.length_map, hperm.length_eq] at hlen
      obtain ⟨x, rfl⟩ := List.length_eq_one_iff.1 hlen
      exact hne1 x rfl

/-- On a database that works, an insert of distinct keys on top of nothing is accepted, in any state. -/
theorem works_insertNone {keys : List (Arr N)} {values : List V} (hlen : keys.length = values.length)
    (hne : keys ≠ []) (hnd : keys.Nodup) (henc : ∀ v ∈ values, ∃ b, cfg.encode v = .ok b) :
    Works C (insert cfg none keys values) (fun _ => True) := by
  have hperm := sortKeys_perm keys
  rw [insert_eq_batchRefs cfg none hlen hne]
  unfold batchRefs
  rw [M.bind_assoc]
  refine works_bind (works_insertLeaves (fun k hk => ?_)) fun nodes hnodes => ?_
  · rcases encodedOf_cases cfg hlen (hperm.mem_iff.1 hk) with ⟨h, -⟩ | ⟨v, hv, e, h, -⟩
    · exact ⟨_, h⟩
    · obtain ⟨b, hb⟩ := henc v hv
      rw [hb] at h
      cases h
  · simp only [M.pure_bind, List.append_nil]
    have hk : (leafRefs (sortKeys keys) nodes).map (·.key) = sortKeys keys := by
      unfold leafRefs
      rw [List.map_map]
      change (nodes.zip (sortKeys keys)).map Prod.snd = _
      exact List.map_snd_zip (by omega)
    refine works_createTree (fun r hr => ?_) ?_ (by rw [hk]; exact hperm.nodup_iff.2 hnd)
    · unfold leafRefs at hr
      obtain ⟨x, -, rfl⟩ := List.mem_map.1 hr
      rfl
    · intro h
      rw [h] at hk
      have := hperm.length_eq
      rw [← hk] at this
      exact hne (List.length_eq_zero_iff.1 this.symm)

end
end MerkleBit
