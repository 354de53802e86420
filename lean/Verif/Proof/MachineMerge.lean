import Verif.Model.Machine
import Verif.Proof.CreateTree
/-! # Counters of the machine's width: `create_tree` -/

namespace MerkleBit
variable {N : Nat} {σ V α β : Type} {cfg : Config N σ V} {A : Arith}
open Shape

/-- No stored or queued branch counts more than `K` leaves. -/
def CountsBelow {db : Database N σ} (C : DbContract db) (K : Nat) (s : σ) : Prop :=
  ∀ x n, C.view s x = some n ∨ C.pending s x = some n → ∀ b, n.variant = .branch b → b.count ≤ K

theorem CountsBelow.mono {db : Database N σ} {C : DbContract db} {K K' : Nat} {s : σ} (h : K ≤ K')
    (hs : CountsBelow C K s) : CountsBelow C K' s :=
  fun x n hx b hb => Nat.le_trans (hs x n hx b hb) h

section
variable {C : DbContract cfg.db} {K : Nat}

/-- The program with machine arithmetic is the program, leaf counts stay in bounds and results satisfy
`Q`. -/
def Fits (C : DbContract cfg.db) (K : Nat) (m mA : M σ α) (Q : α → Prop) : Prop :=
  mA = m ∧ (∀ s, CountsBelow C K s → CountsBelow C K (m s).2) ∧ ∀ s a, (m s).1 = .ok a → Q a

variable {Q : α → Prop}

theorem fits_pure {a : α} (h : Q a) : Fits C K (M.pure a) (M.pure a) Q :=
  ⟨rfl, fun _ h => h, fun _ b hb => by cases hb; exact h⟩

theorem fits_throw {e : Err} : Fits C K (M.throw e : M σ α) (M.throw e) Q :=
  ⟨rfl, fun _ h => h, fun _ b hb => by cases hb⟩

theorem fits_bind {m mA : M σ α} {f fA : α → M σ β} {R : β → Prop} (h1 : Fits C K m mA Q)
    (h2 : ∀ a, Q a → Fits C K (f a) (fA a) R) : Fits C K (M.bind m f) (M.bind mA fA) R := by
  obtain ⟨rfl, h3, h4⟩ := h1
  refine ⟨?_, fun s hs => ?_, fun s b => ?_⟩
  · funext s
    unfold M.bind
    rcases hm : mA s with ⟨r, s'⟩
    cases r with
    | error e => rfl
    | ok a => simp only [(h2 a (h4 s a (by rw [hm]))).1]
  · have := h3 s hs
    unfold M.bind
    rcases hm : mA s with ⟨r, s'⟩
    rw [hm] at this
    cases r with
    | error e => exact this
    | ok a => exact (h2 a (h4 s a (by rw [hm]))).2.1 s' this
  · unfold M.bind
    rcases hm : mA s with ⟨r, s'⟩
    cases r with
    | error e => intro h; cases h
    | ok a => exact (h2 a (h4 s a (by rw [hm]))).2.2 s' b

theorem counts_insert {x : Arr N} {n : Node N} {s : σ} (h : ∀ b, n.variant = .branch b → b.count ≤ K)
    (hs : CountsBelow C K s) : CountsBelow C K (cfg.db.insert x n s).2 := by
  intro y m hm
  rcases hi : cfg.db.insert x n s with ⟨r, s'⟩
  rw [hi] at hm
  dsimp only at hm
  cases r with
  | ok _ =>
    rcases (C.insert_ok hi).2 with ⟨-, h2, h3⟩ | ⟨h2, h3⟩
    · rw [h2, h3] at hm
      rcases hm with hm | hm
      · unfold View.put at hm
        split at hm
        · cases hm; exact h
        · exact hs y m (.inl hm)
      · cases hm
    · rw [h2, h3] at hm
      rcases hm with hm | hm
      · exact hs y m (.inl hm)
      · unfold View.put at hm
        split at hm
        · cases hm; exact h
        · exact hs y m (.inr hm)
  | error e =>
    obtain ⟨-, -, h2, h3⟩ := C.insert_err hi
    rw [h2, h3] at hm
    exact hs y m hm

theorem counts_flush {s : σ} (hs : CountsBelow C K s) : CountsBelow C K (cfg.db.batchWrite s).2 := by
  intro y m hm
  refine hs y m ?_
  rcases hi : cfg.db.batchWrite s with ⟨r, s'⟩
  rw [hi] at hm
  dsimp only at hm
  cases r with
  | ok _ =>
    obtain ⟨-, h2, h3⟩ := C.batchWrite_ok hi
    rw [h2, h3] at hm
    rcases hm with hm | hm
    · unfold View.overlay at hm
      cases hp : C.pending s y with
      | none => rw [hp] at hm; exact .inl hm
      | some n => rw [hp] at hm; exact .inr (by simpa using hm)
    · cases hm
  | error e =>
    obtain ⟨-, -, h2, h3⟩ := C.batchWrite_err hi
    rw [h2] at hm
    rcases hm with hm | hm
    · exact .inl hm
    · rcases h3 with h3 | h3
      · rw [h3] at hm; exact .inr hm
      · rw [h3] at hm; cases hm

theorem fits_insert {x : Arr N} {n : Node N} (h : ∀ b, n.variant = .branch b → b.count ≤ K) :
    Fits C K (cfg.db.insert x n) (cfg.db.insert x n) (fun _ => True) :=
  ⟨rfl, fun _ hs => counts_insert h hs, fun _ _ _ => trivial⟩

theorem fits_flush : Fits C K cfg.db.batchWrite cfg.db.batchWrite (fun _ => True) :=
  ⟨rfl, fun _ hs => counts_flush hs, fun _ _ _ => trivial⟩

/-! ## Merging -/

theorem lookaheadLoop_fits {refs : List (TreeRef N)} (hl : refs.length < 2 ^ 64) {p : Nat} :
    ∀ (fuel count : Nat) {r : Nat × Nat}, lookaheadLoop refs p fuel count = .ok r →
      Machine.lookaheadLoop A refs p fuel count = .ok r
  | 0, _, _, h => by cases h
  | fuel + 1, count, r, h => by
    unfold lookaheadLoop at h
    unfold Machine.lookaheadLoop
    dsimp only at h
    cases hr : refAt refs (p + count) with
    | error e => rw [hr] at h; cases h
    | ok t =>
      have hlt : p + count < refs.length := by
        unfold refAt at hr
        by_contra hge
        rw [List.getElem?_eq_none (by omega)] at hr
        cases hr
      rw [A.exact (by omega)]
      rw [hr] at h
      simp only [hr] at h ⊢
      split at h
      · next hgt => rw [if_pos hgt]; exact lookaheadLoop_fits hl fuel _ h
      · next hgt => rw [if_neg hgt]; exact h

theorem lookahead_fits {refs : List (TreeRef N)} (hl : refs.length < 2 ^ 64) {p q : Nat} {r : Nat × Nat}
    (h : lookahead refs p q = .ok r) : Machine.lookahead A refs p q = .ok r := by
  unfold lookahead at h
  unfold Machine.lookahead
  cases hr : refAt refs q with
  | error e => rw [hr] at h; cases h
  | ok t =>
    simp only [hr] at h ⊢
    split at h
    · next hgt => rw [if_pos hgt]; exact lookaheadLoop_fits hl _ _ h
    · next hgt => rw [if_neg hgt]; exact h

/-- The leaves under a list of groups. -/
def counts (gs : List (Shape N)) : Nat := (gs.map nodeCount).sum

theorem mergeLoop_step_machine (s i : Nat) (items : List QueueItem) (pre post : List (Shape N))
    (a b : Shape N) (root : Arr N) (hi : i + 1 = widths pre + a.width)
    (hw : widths (pre ++ a :: b :: post) < 2 ^ 32) (hc : counts (pre ++ a :: b :: post) < 2 ^ 64) :
    Machine.mergeLoop A cfg ((s, i, i + 1) :: items) (layouts cfg.hasher (pre ++ a :: b :: post)) root =
      M.bind (cfg.db.insert ((join a b).loc cfg.hasher)
        ⟨1, .branch ⟨(join a b).nodeCount, a.loc cfg.hasher, b.loc cfg.hasher, s, a.key⟩⟩)
        (fun _ => Machine.mergeLoop A cfg items (layouts cfg.hasher (pre ++ join a b :: post))
          ((join a b).loc cfg.hasher)) := by
  set H := cfg.hasher with hH
  obtain ⟨h1, hlook, h2, hupd⟩ := merge_facts H i pre post a b hi
  conv_lhs => unfold Machine.mergeLoop
  have hlook' := lookahead_fits (A := A) (by rw [length_layouts]; omega) hlook
  have e1 : A.add (a.ref H).nodeCount (b.ref H).nodeCount = .ok (join a b).nodeCount := by
    apply A.exact
    simp only [ref]
    simp only [counts, List.map_append, List.map_cons, List.sum_append, List.sum_cons] at hc
    omega
  have e2 : A.add32 b.width (a.ref H).count = .ok (b.width + a.width) := by
    apply A.exact32
    simp only [ref]
    simp only [widths, List.map_append, List.map_cons, List.sum_append, List.sum_cons] at hw
    omega
  simp only [M.bind_eq, h1, M.lift_ok_bind, hlook', h2, e1, e2]
  have hnew : (⟨(a.ref H).key, H.hash3 root.bytes.length tagB (a.ref H).location.bytes
      (b.ref H).location.bytes, (join a b).nodeCount,
      b.width + a.width⟩ : TreeRef N) = (join a b).ref H := by
    simp only [ref, key, loc, nodeCount, width, root.len]
    congr 1
    omega
  have hloc : H.hash3 root.bytes.length tagB (a.ref H).location.bytes (b.ref H).location.bytes =
      (join a b).loc H := by
    simp only [ref, loc, root.len]
  rw [← hH, hnew, hupd, hloc]
  rfl

theorem fits_mergeLoop {F : Shape N} (hK : K < 2 ^ 64) :
    ∀ (level rest : List QueueItem) (gs : List (Shape N)) (root : Arr N),
      Sched gs (level ++ rest) F → widths gs < 2 ^ 32 → counts gs ≤ K →
      Fits C K (mergeLoop cfg level (layouts cfg.hasher gs) root)
        (Machine.mergeLoop A cfg level (layouts cfg.hasher gs) root)
        (fun r => ∃ gs', r.1 = layouts cfg.hasher gs' ∧ Sched gs' rest F ∧ widths gs' < 2 ^ 32 ∧
          counts gs' ≤ K)
  | [], rest, gs, root, hv, hw, hc => by
    unfold mergeLoop Machine.mergeLoop
    exact fits_pure ⟨gs, rfl, hv, hw, hc⟩
  | it :: level, rest, gs, root, hv, hw, hc => by
    rw [List.cons_append] at hv
    cases hv with
    | step pre a b post i items F hi hsorted hmax h =>
      rw [mergeLoop_step cfg _ i level pre post a b root hi,
        mergeLoop_step_machine _ i level pre post a b root hi hw (by omega)]
      refine fits_bind (fits_insert ?_) (fun _ _ => fits_mergeLoop hK level rest _ _ h ?_ ?_)
      · rintro _ ⟨⟩
        simp only [counts, List.map_append, List.map_cons, List.sum_append, List.sum_cons] at hc
        simp only [nodeCount]
        omega
      · simp only [widths, List.map_append, List.map_cons, List.sum_append, List.sum_cons, width] at hw ⊢
        omega
      · simp only [counts, List.map_append, List.map_cons, List.sum_append, List.sum_cons,
          nodeCount] at hc ⊢
        omega

theorem fits_mergeNodes {F : Shape N} (hK : K < 2 ^ 64) (level rest : List QueueItem)
    (gs : List (Shape N)) (hv : Sched gs (level ++ rest) F) (hw : widths gs < 2 ^ 32)
    (hc : counts gs ≤ K) :
    Fits C K (mergeNodes cfg (layouts cfg.hasher gs) level)
      (Machine.mergeNodes A cfg (layouts cfg.hasher gs) level)
      (fun r => ∃ gs', r.1 = layouts cfg.hasher gs' ∧ Sched gs' rest F ∧ widths gs' < 2 ^ 32 ∧
        counts gs' ≤ K) := by
  unfold mergeNodes Machine.mergeNodes
  simp only [M.bind_eq, M.pure_eq]
  exact fits_bind (fits_mergeLoop hK level rest gs _ hv hw hc)
    (fun r hr => fits_bind fits_flush (fun _ _ => fits_pure hr))

theorem fits_levelsLoop {F : Shape N} (hK : K < 2 ^ 64) (items : List QueueItem) :
    ∀ (idx : List Nat) (q : AMap Nat (List QueueItem)) (gs : List (Shape N)) (root : Option (Arr N)),
      (∀ b ∈ idx, q.get? b = some (items.filter (fun it => it.1 = b))) → idx.Nodup →
      Sched gs (schedule items idx) F → widths gs < 2 ^ 32 → counts gs ≤ K →
      Fits C K (levelsLoop cfg idx q (layouts cfg.hasher gs) root)
        (Machine.levelsLoop A cfg idx q (layouts cfg.hasher gs) root) (fun _ => True)
  | [], q, gs, root, _, _, _, _, _ => by
    unfold levelsLoop Machine.levelsLoop
    exact fits_pure trivial
  | b :: idx, q, gs, root, hq, hnd, hs, hw, hc => by
    have hget := hq b (by simp)
    have hs' : Sched gs (items.filter (fun it => it.1 = b) ++ schedule items idx) F := by
      simpa [schedule] using hs
    unfold levelsLoop Machine.levelsLoop
    rw [hget]
    simp only [M.bind_eq]
    refine fits_bind (fits_mergeNodes hK _ _ gs hs' hw hc) ?_
    rintro ⟨refs', root'⟩ ⟨gs', h1, h2, h3, h4⟩
    simp only at h1
    subst h1
    rw [List.nodup_cons] at hnd
    refine fits_levelsLoop hK items idx (q.erase b) gs' (some root') ?_ hnd.2 h2 h3 h4
    intro c hc
    rw [AMap.get?_erase, if_neg, hq c (by simp [hc])]
    rintro rfl
    exact hnd.1 hc

theorem widths_blks (refs : List (TreeRef N)) : widths (refs.map blk) = refs.length := by
  unfold widths
  rw [List.map_map]
  induction refs with
  | nil => rfl
  | cons r refs ih => simp only [List.map_cons, List.sum_cons, List.length_cons, ih,
      Function.comp_apply, width]; omega

theorem counts_blks (refs : List (TreeRef N)) :
    counts (refs.map blk) = (refs.map TreeRef.nodeCount).sum := by
  unfold counts
  rw [List.map_map]
  rfl

/-- `create_tree`, when the number of references and the number of leaves fit. -/
theorem fits_createTree (hN : 0 < N) (hK : K < 2 ^ 64) {refs : List (TreeRef N)}
    (h1 : ∀ r ∈ refs, r.count = 1) (hl : refs.length < 2 ^ 32)
    (hc : (refs.map TreeRef.nodeCount).sum ≤ K) :
    Fits C K (createTree cfg refs) (Machine.createTree A cfg refs) (fun _ => True) := by
  unfold createTree Machine.createTree
  split
  · exact fits_throw
  · simp only [M.bind_eq, M.pure_eq]
    exact fits_bind fits_flush (fun _ _ => fits_pure trivial)
  · next hne _ =>
    have hperm := sortRefs_perm refs
    have hne' : sortRefs refs ≠ [] := by
      intro h
      exact hne (by simpa [h] using hperm.symm)
    simp only [M.bind_eq, M.pure_eq]
    by_cases hch : ((sortRefs refs).map (·.key)).IsChain (· ≠ ·)
    · obtain ⟨q, bits, hq, hhold⟩ := generateTreeRefQueue_ok hne' hch
      have hlt := strict_of_chain (sortRefs_sorted refs) hch
      obtain ⟨F, hF⟩ := (valid_schedule hne' hlt hhold).sched
      have hbits : (sortIndices bits).Perm bits :=
        (List.reverse_perm _).trans (List.perm_insertionSort _ _)
      have hlay : layouts cfg.hasher ((sortRefs refs).map blk) = sortRefs refs :=
        layouts_blks _ (fun r hr => h1 r (hperm.mem_iff.1 hr))
      rw [hq]
      simp only [M.lift_ok_bind]
      have := fits_levelsLoop (A := A) (C := C) (cfg := cfg) hK _ (sortIndices bits) q _ none ?_
        (hbits.nodup_iff.2 hhold.nodup) hF
        (by rw [widths_blks, hperm.length_eq]; exact hl)
        (by rw [counts_blks, (hperm.map _).sum_nat]; exact hc)
      · rw [hlay] at this
        refine fits_bind this (fun o _ => ?_)
        cases o with
        | none => exact fits_throw
        | some r => exact fits_pure trivial
      · intro b hb
        rw [hhold.get, if_neg]
        obtain ⟨it, hit, h1⟩ := (hhold.mem b).1 (hbits.mem_iff.1 hb)
        intro h
        have : it ∈ (boundaries 0 ((sortRefs refs).map (·.key))).filter (fun it => it.1 = b) := by
          simp [hit, h1]
        rw [h] at this
        simp at this
    · rw [generateTreeRefQueue_err hN hch]
      simp only [M.lift_error_bind]
      exact fits_throw

end
end MerkleBit
