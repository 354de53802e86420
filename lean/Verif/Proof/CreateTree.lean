import Verif.Proof.Merge
import Verif.Proof.Trie
import Mathlib.Data.List.Perm.Basic
import Mathlib.Data.List.Chain
/-! # The merge schedule of `create_tree` -/

namespace MerkleBit
variable {N : Nat} {σ V : Type}
open Shape

/-- Items between adjacent groups; `off` is the array position of the first group. -/
def gbounds : Nat → List (Shape N) → List QueueItem
  | off, a :: b :: rest =>
    (firstDiff a.key b.key, off + a.width - 1, off + a.width - 1 + 1) ::
      gbounds (off + a.width) (b :: rest)
  | _, _ => []

theorem gbounds_append (off : Nat) (pre : List (Shape N)) (a : Shape N) (rest : List (Shape N)) :
    gbounds off (pre ++ a :: rest) =
      gbounds off (pre ++ [a]) ++ gbounds (off + widths pre) (a :: rest) := by
  induction pre generalizing off with
  | nil => simp [gbounds, widths]
  | cons p pre ih =>
    cases pre with
    | nil => simp [gbounds, widths]
    | cons p' pre =>
      have := ih (off + p.width)
      simp only [List.cons_append, gbounds] at this ⊢
      rw [this]
      simp only [widths, List.map_cons, List.sum_cons]
      rw [show off + p.width + (p'.width + (List.map width pre).sum) =
        off + (p.width + (p'.width + (List.map width pre).sum)) by omega]

theorem gbounds_last (off : Nat) (pre : List (Shape N)) {a b : Shape N} (h : a.key = b.key) :
    gbounds off (pre ++ [a]) = gbounds off (pre ++ [b]) := by
  induction pre generalizing off with
  | nil => simp [gbounds]
  | cons p pre ih =>
    cases pre with
    | nil => simp [gbounds, h]
    | cons p' pre =>
      have := ih (off + p.width)
      simp only [List.cons_append, gbounds] at this ⊢
      rw [this]

theorem mem_gbounds {off : Nat} {gs : List (Shape N)} {it : QueueItem} (h : it ∈ gbounds off gs) :
    ∃ pre a b post, gs = pre ++ a :: b :: post ∧
      it = (firstDiff a.key b.key, off + widths pre + a.width - 1,
        off + widths pre + a.width - 1 + 1) := by
  induction gs generalizing off with
  | nil => simp [gbounds] at h
  | cons g gs ih =>
    cases gs with
    | nil => simp [gbounds] at h
    | cons g' gs =>
      simp only [gbounds, List.mem_cons] at h
      rcases h with rfl | h
      · exact ⟨[], g, g', gs, rfl, by simp [widths]⟩
      · obtain ⟨pre, a, b, post, h1, h2⟩ := ih h
        refine ⟨g :: pre, a, b, post, by simp [h1], ?_⟩
        rw [h2]
        simp only [widths, List.map_cons, List.sum_cons]
        rw [show off + g.width + (List.map width pre).sum + a.width =
          off + (g.width + (List.map width pre).sum) + a.width by omega]

/-- A list of groups together with the merges that are still scheduled. -/
structure Valid (gs : List (Shape N)) (items : List QueueItem) : Prop where
  ne : gs ≠ []
  sorted : (gs.map key).Pairwise Arr.lt
  perm : items.Perm (gbounds 0 gs)
  desc : items.Pairwise (fun x y => y.1 ≤ x.1)

/-- The next scheduled merge is between two adjacent groups and has the largest split index. -/
theorem Valid.next {gs : List (Shape N)} {it : QueueItem} {items : List QueueItem}
    (h : Valid gs (it :: items)) :
    ∃ pre a b post, gs = pre ++ a :: b :: post ∧
      it.1 = firstDiff a.key b.key ∧ it.2.1 + 1 = widths pre + a.width ∧ it.2.2 = it.2.1 + 1 ∧
      (∀ x ∈ gbounds 0 gs, x.1 ≤ firstDiff a.key b.key) ∧
      Valid (pre ++ join a b :: post) items := by
  have hmem : it ∈ gbounds 0 gs := h.perm.mem_iff.1 (by simp)
  obtain ⟨pre, a, b, post, rfl, hit⟩ := mem_gbounds hmem
  have hmax : ∀ x ∈ gbounds 0 (pre ++ a :: b :: post), x.1 ≤ firstDiff a.key b.key := by
    intro x hx
    have hx' := h.perm.mem_iff.2 hx
    have : it.1 = firstDiff a.key b.key := by rw [hit]
    rw [← this]
    rcases List.mem_cons.1 hx' with rfl | hx'
    · exact Nat.le_refl _
    · exact List.rel_of_pairwise_cons h.desc hx'
  have hwa := width_pos a
  refine ⟨pre, a, b, post, rfl, by rw [hit], by rw [hit]; simp only; omega, by rw [hit], hmax, ?_⟩
  have hsort := h.sorted
  have hg : gbounds 0 (pre ++ a :: b :: post) = gbounds 0 (pre ++ [a]) ++
      it :: gbounds (widths pre + a.width) (b :: post) := by
    rw [gbounds_append 0 pre a (b :: post)]
    simp only [gbounds, Nat.zero_add]
    rw [hit]; simp
  have hg' : gbounds 0 (pre ++ join a b :: post) = gbounds 0 (pre ++ [a]) ++
      gbounds (widths pre + a.width) (b :: post) := by
    rw [gbounds_append 0 pre (join a b) post, gbounds_last 0 pre (a := join a b) (b := a) rfl]
    congr 1
    cases post with
    | nil => simp [gbounds]
    | cons c post =>
      have hbc : firstDiff b.key c.key ≤ firstDiff a.key b.key := by
        apply hmax (firstDiff b.key c.key, widths pre + a.width + b.width - 1,
          widths pre + a.width + b.width - 1 + 1)
        rw [hg]; simp [gbounds]
      have hlt : Arr.lt a.key b.key ∧ Arr.lt b.key c.key := by
        simp only [List.map_append, List.map_cons, List.pairwise_append,
          List.pairwise_cons, List.mem_cons] at hsort
        exact ⟨hsort.2.1.1 _ (.inl rfl), hsort.2.1.2.1 _ (.inl rfl)⟩
      have hne := firstDiff_ne_of_lt hlt.1 hlt.2
      have hac : firstDiff a.key c.key = firstDiff b.key c.key := by
        rw [firstDiff_sorted (Arr.le_of_lt hlt.1) (Arr.le_of_lt hlt.2)]; omega
      simp only [gbounds, key, width, Nat.zero_add, hac, Nat.add_assoc]
  refine ⟨by simp, ?_, ?_, List.Pairwise.of_cons h.desc⟩
  · have : (pre ++ join a b :: post).map key = pre.map key ++ a.key :: post.map key := by
      simp [key]
    rw [this]
    exact List.Pairwise.sublist (by simp) hsort
  · rw [hg']
    have hp := h.perm
    rw [hg] at hp
    exact (List.perm_cons it).1 (hp.trans List.perm_middle)

theorem Valid.singleton {gs : List (Shape N)} (h : Valid gs []) : ∃ g, gs = [g] := by
  have hp := h.perm.symm.eq_nil
  cases gs with
  | nil => exact absurd rfl h.ne
  | cons g gs =>
    cases gs with
    | nil => exact ⟨g, rfl⟩
    | cons g' gs => simp [gbounds] at hp

/-- The whole run of scheduled merges, ending in the single group `F`. -/
inductive Sched : List (Shape N) → List QueueItem → Shape N → Prop where
  | done (F : Shape N) : Sched [F] [] F
  | step (pre : List (Shape N)) (a b : Shape N) (post : List (Shape N)) (i : Nat)
      (items : List QueueItem) (F : Shape N)
      (hi : i + 1 = widths pre + a.width)
      (hsorted : ((pre ++ a :: b :: post).map key).Pairwise Arr.lt)
      (hmax : ∀ x ∈ gbounds 0 (pre ++ a :: b :: post), x.1 ≤ firstDiff a.key b.key)
      (h : Sched (pre ++ join a b :: post) items F) :
      Sched (pre ++ a :: b :: post) ((firstDiff a.key b.key, i, i + 1) :: items) F

theorem Valid.sched : ∀ {items : List QueueItem} {gs : List (Shape N)}, Valid gs items →
    ∃ F, Sched gs items F
  | [], gs, h => by
    obtain ⟨g, rfl⟩ := h.singleton
    exact ⟨g, .done g⟩
  | it :: items, gs, h => by
    obtain ⟨pre, a, b, post, rfl, h1, h2, h3, hmax, hv⟩ := h.next
    obtain ⟨F, hF⟩ := hv.sched
    obtain ⟨s0, i, j⟩ := it
    simp only at h1 h2 h3
    subst h1 h3
    exact ⟨F, .step pre a b post i items F h2 h.sorted hmax hF⟩

/-- A group represents a trie. -/
def Rep (H : Hasher N) : Shape N → Trie N → Prop
  | blk r, t => r.key = t.key ∧ r.location = t.loc H ∧ r.nodeCount = t.size ∧ r.count = 1
  | join a b, .node l r => Rep H a l ∧ Rep H b r
  | join _ _, .leaf _ _ => False

theorem rep_join {H : Hasher N} {a b : Shape N} {l r : Trie N} :
    Rep H (join a b) (.node l r) ↔ Rep H a l ∧ Rep H b r := Iff.rfl

theorem Rep.key {H : Hasher N} {sh : Shape N} : ∀ {t : Trie N}, Rep H sh t → sh.key = t.key := by
  induction sh with
  | blk r => intro t h; exact h.1
  | join a b iha _ =>
    intro t h
    cases t with
    | leaf => exact h.elim
    | node l r =>
      have := iha (rep_join.1 h).1
      simpa only [Shape.key, Trie.key] using this

theorem Rep.loc {H : Hasher N} {sh : Shape N} : ∀ {t : Trie N}, Rep H sh t →
    sh.loc H = t.loc H := by
  induction sh with
  | blk r => intro t h; exact h.2.1
  | join a b iha ihb =>
    intro t h
    cases t with
    | leaf => exact h.elim
    | node l r =>
      simp only [Shape.loc, Trie.loc, HIn.hash, iha (rep_join.1 h).1, ihb (rep_join.1 h).2]

theorem Rep.nodeCount {H : Hasher N} {sh : Shape N} : ∀ {t : Trie N}, Rep H sh t →
    sh.nodeCount = t.size := by
  induction sh with
  | blk r => intro t h; exact h.2.2.1
  | join a b iha ihb =>
    intro t h
    cases t with
    | leaf => exact h.elim
    | node l r =>
      simp only [Shape.nodeCount, Trie.size_node, iha (rep_join.1 h).1, ihb (rep_join.1 h).2]

theorem forall₂_append_left {α β : Type} {R : α → β → Prop} : ∀ {l1 l2 : List α} {l : List β},
    List.Forall₂ R (l1 ++ l2) l → ∃ a b, List.Forall₂ R l1 a ∧ List.Forall₂ R l2 b ∧ l = a ++ b
  | [], _, l, h => ⟨[], l, .nil, h, rfl⟩
  | _ :: _, _, _, h => by
    obtain ⟨b, u', hb, hu, rfl⟩ := List.forall₂_cons_left_iff.1 h
    obtain ⟨x, y, h1, h2, rfl⟩ := forall₂_append_left hu
    exact ⟨b :: x, y, .cons hb h1, h2, rfl⟩

/-- A run of scheduled merges on the level of tries, ending in `t`. -/
inductive Run (H : Hasher N) : List (Shape N) → List (Trie N) → List QueueItem → Trie N → Prop where
  | done (F : Shape N) (t : Trie N) (h : Rep H F t) : Run H [F] [t] [] t
  | step (pre : List (Shape N)) (a b : Shape N) (post : List (Shape N)) (i : Nat)
      (items : List QueueItem) (tpre : List (Trie N)) (ta tb : Trie N) (tpost : List (Trie N))
      (t : Trie N) (hi : i + 1 = widths pre + a.width)
      (ha : Rep H a ta) (hb : Rep H b tb)
      (hsorted : ((tpre ++ ta :: tb :: tpost).map Trie.key).Pairwise Arr.lt)
      (hsub : (Trie.node ta tb).Sub t)
      (h : Run H (pre ++ join a b :: post) (tpre ++ .node ta tb :: tpost) items t) :
      Run H (pre ++ a :: b :: post) (tpre ++ ta :: tb :: tpost)
        ((firstDiff a.key b.key, i, i + 1) :: items) t

theorem rep_keys {H : Hasher N} {gs : List (Shape N)} {ts : List (Trie N)}
    (h : List.Forall₂ (Rep H) gs ts) : gs.map key = ts.map Trie.key := by
  induction h with
  | nil => rfl
  | cons h1 _ ih => simp [h1.key, ih]

/-- Adjacent tries split from each other before they split internally. -/
def Spaced (ts : List (Trie N)) : Prop :=
  ts.IsChain (fun a b => firstDiff a.key b.key < a.split ∧ firstDiff a.key b.key < b.split)

theorem mem_gbounds_adj {off : Nat} {pre post : List (Shape N)} {a b : Shape N} :
    ∃ x ∈ gbounds off (pre ++ a :: b :: post), x.1 = firstDiff a.key b.key := by
  rw [gbounds_append off pre a (b :: post)]
  exact ⟨_, List.mem_append.2 (.inr (by simp only [gbounds]; exact List.mem_cons_self)), rfl⟩

/-- A trie laid out like a group: the blocks of the group stand, in order, for the tries `ts` with the
same keys. -/
inductive Tiled : List (Trie N) → Shape N → Trie N → Prop where
  | blk (r : TreeRef N) (u : Trie N) (hk : r.key = u.key) : Tiled [u] (blk r) u
  | join (xs ys : List (Trie N)) (a b : Shape N) (l r : Trie N) (ha : Tiled xs a l)
      (hb : Tiled ys b r) : Tiled (xs ++ ys) (join a b) (.node l r)

theorem Sched.trie {H : Hasher N} {gs : List (Shape N)} {items : List QueueItem} {F : Shape N}
    (h : Sched gs items F) : ∀ {ts : List (Trie N)}, List.Forall₂ (Rep H) gs ts →
    ∃ t, Run H gs ts items t ∧ t.entries = ts.flatMap Trie.entries ∧ (∀ u ∈ ts, u.Sub t) ∧
      ((∀ u ∈ ts, u.Norm) → t.Norm) ∧ ((∀ u ∈ ts, u.WF) → Spaced ts → t.WF) ∧
      ∀ tss, List.Forall₂ (fun p t => Tiled p.1 p.2 t) (List.zip tss gs) ts → tss.length = gs.length →
        Tiled tss.flatten F t := by
  induction h with
  | done F =>
    intro ts hts
    obtain ⟨t, rfl, ht⟩ : ∃ t, ts = [t] ∧ Rep H F t := by
      cases hts with
      | cons h1 h2 => cases h2; exact ⟨_, rfl, h1⟩
    refine ⟨t, .done F t ht, by simp, by simp [Trie.Sub.refl], by simp, fun h _ => h t (by simp), ?_⟩
    intro tss h0 hl
    obtain ⟨x, rfl⟩ := List.length_eq_one_iff.1 hl
    cases h0 with
    | cons h _ => simpa using h
  | step pre a b post i items F hi hsorted hmax hsched ih =>
    intro ts hts
    obtain ⟨tpre, trest, hpre, hrest, rfl⟩ := forall₂_append_left hts
    obtain ⟨ta, _, ha, hrest', rfl⟩ := List.forall₂_cons_left_iff.1 hrest
    obtain ⟨tb, tpost, hb, hpost, rfl⟩ := List.forall₂_cons_left_iff.1 hrest'
    have hlt : Arr.lt ta.key tb.key := by
      rw [← ha.key, ← hb.key]
      simp only [List.map_append, List.map_cons, List.pairwise_append, List.pairwise_cons,
        List.mem_cons] at hsorted
      exact hsorted.2.1.1 _ (.inl rfl)
    obtain ⟨t, h1, h2, h3, h4, h5, h6⟩ := ih (ts := tpre ++ .node ta tb :: tpost)
      (List.rel_append hpre (List.Forall₂.cons ⟨ha, hb⟩ hpost))
    refine ⟨t, .step pre a b post i items tpre ta tb tpost t hi ha hb
      (by rw [← rep_keys hts]; exact hsorted) (h3 _ (by simp)) h1, ?_, ?_, ?_, ?_, ?_⟩
    rotate_left 4
    · intro tss h0 hlen
      obtain ⟨xpre, xrest, rfl, hx1⟩ : ∃ x y, tss = x ++ y ∧ x.length = pre.length :=
        ⟨tss.take pre.length, tss.drop pre.length, (List.take_append_drop _ _).symm, by
          rw [List.length_take, hlen]; simp⟩
      obtain ⟨xa, xb, xpost, rfl⟩ : ∃ xa xb xpost, xrest = xa :: xb :: xpost := by
        simp only [List.length_append, hx1, List.length_cons] at hlen
        rcases xrest with _ | ⟨xa, _ | ⟨xb, xpost⟩⟩
        · simp at hlen
        · simp at hlen
        · exact ⟨xa, xb, xpost, rfl⟩
      rw [List.zip_append hx1] at h0
      simp only [List.zip_cons_cons] at h0
      obtain ⟨t1, t2, k1, k2, k3⟩ := forall₂_append_left h0
      obtain ⟨ta', _, ka, k2', rfl⟩ := List.forall₂_cons_left_iff.1 k2
      obtain ⟨tb', tpost', kb, k4, rfl⟩ := List.forall₂_cons_left_iff.1 k2'
      have hl : tpre.length = t1.length := by
        rw [← hpre.length_eq, ← k1.length_eq, List.length_zip, hx1, Nat.min_self]
      obtain ⟨rfl, k5⟩ := List.append_inj k3 hl
      cases k5
      have := h6 (xpre ++ (xa ++ xb) :: xpost) (by
        rw [List.zip_append hx1]
        exact List.rel_append k1 (.cons (.join _ _ a b _ _ ka kb) k4)) (by
        simp only [List.length_append, List.length_cons] at hlen ⊢; omega)
      simpa using this
    · rw [h2]; simp [Trie.entries]
    · intro u hu
      simp only [List.mem_append, List.mem_cons] at hu h3
      rcases hu with hu | rfl | rfl | hu
      · exact h3 u (.inl hu)
      · exact (Trie.Sub.left _ _).trans (h3 _ (.inr (.inl rfl)))
      · exact (Trie.Sub.right _ _).trans (h3 _ (.inr (.inl rfl)))
      · exact h3 u (.inr (.inr hu))
    · intro hn
      apply h4
      intro u hu
      simp only [List.mem_append, List.mem_cons] at hu hn
      rcases hu with hu | rfl | hu
      · exact hn u (.inl hu)
      · exact ⟨hn _ (.inr (.inl rfl)), hn _ (.inr (.inr (.inl rfl))), hlt⟩
      · exact hn u (.inr (.inr (.inr hu)))
    · intro hwf hsp
      unfold Spaced at hsp
      have hspab : firstDiff ta.key tb.key < ta.split ∧ firstDiff ta.key tb.key < tb.split :=
        (List.isChain_append.1 hsp).2.1.rel_head
      apply h5
      · intro u hu
        simp only [List.mem_append, List.mem_cons] at hu hwf
        rcases hu with hu | rfl | hu
        · exact hwf u (.inl hu)
        · exact ⟨hwf _ (.inr (.inl rfl)), hwf _ (.inr (.inr (.inl rfl))), hlt, hspab.1, hspab.2⟩
        · exact hwf u (.inr (.inr (.inr hu)))
      · unfold Spaced
        rw [List.isChain_append] at hsp ⊢
        obtain ⟨sp1, sp2, sp3⟩ := hsp
        refine ⟨sp1, ?_, ?_⟩
        · cases hpost with
          | nil => simp
          | @cons c tc cs tcs hc hcs =>
            rw [List.isChain_cons_cons] at sp2 ⊢
            have sp2' := List.isChain_cons_cons.1 sp2.2
            refine ⟨?_, sp2'.2⟩
            have hbc : Arr.lt tb.key tc.key := by
              rw [← hb.key, ← hc.key]
              simp only [List.map_append, List.map_cons, List.pairwise_append,
                List.pairwise_cons, List.mem_cons] at hsorted
              exact hsorted.2.1.2.1 _ (.inl rfl)
            have hle : firstDiff tb.key tc.key ≤ firstDiff ta.key tb.key := by
              obtain ⟨x, hx, hx'⟩ := mem_gbounds_adj (off := 0) (pre := pre ++ [a]) (a := b) (b := c)
                (post := cs)
              have := hmax x (by simpa using hx)
              rwa [hx', ha.key, hb.key, hc.key] at this
            have hne := firstDiff_ne_of_lt hlt hbc
            have hac : firstDiff ta.key tc.key = firstDiff tb.key tc.key := by
              rw [firstDiff_sorted (Arr.le_of_lt hlt) (Arr.le_of_lt hbc)]; omega
            simp only [Trie.key, Trie.split]
            rw [hac]
            exact ⟨by omega, sp2'.1.2⟩
        · intro x hx y hy
          simp only [List.head?_cons, Option.mem_some_iff] at hy
          subst hy
          have hxa := sp3 x hx ta (by simp)
          obtain ⟨tpre', rfl⟩ : ∃ l, tpre = l ++ [x] := List.getLast?_eq_some_iff.1 hx
          obtain ⟨pre', gx, rfl, hgx⟩ : ∃ l g, pre = l ++ [g] ∧ Rep H g x := by
            have hr := List.forall₂_reverse_iff.2 hpre
            rw [List.reverse_append] at hr
            simp only [List.reverse_cons, List.reverse_nil, List.nil_append,
              List.singleton_append] at hr
            obtain ⟨g, gs, hg, _, hgs⟩ := List.forall₂_cons_right_iff.1 hr
            refine ⟨gs.reverse, g, ?_, hg⟩
            have := congrArg List.reverse hgs
            simpa using this
          have hxlt : Arr.lt x.key ta.key := by
            rw [← hgx.key, ← ha.key]
            simp only [List.map_append, List.map_cons, List.pairwise_append,
              List.mem_append, List.mem_cons] at hsorted
            exact hsorted.2.2 _ (.inr (by simp)) _ (.inl rfl)
          have hle : firstDiff x.key ta.key ≤ firstDiff ta.key tb.key := by
            obtain ⟨z, hz, hz'⟩ := mem_gbounds_adj (off := 0) (pre := pre') (a := gx) (b := a)
              (post := b :: post)
            have := hmax z (by simpa using hz)
            rwa [hz', hgx.key, ha.key, hb.key] at this
          have hne := firstDiff_ne_of_lt hxlt hlt
          simp only [Trie.key, Trie.split]
          exact ⟨hxa.1, by omega⟩

section Rules
variable {cfg : Config N σ V} {C : GContract cfg.db} {Ex : Err → Prop} {E : σ → Prop}
  {J : List (Trie N) → σ → Prop} {T : Trie N}

/-- What has to be shown about one merge on the way to `T`. -/
def MergeStep (C : GContract cfg.db) (Ex : Err → Prop) (J : List (Trie N) → σ → Prop)
    (T : Trie N) (E : σ → Prop) : Prop :=
  ∀ (pre post : List (Trie N)) (a b : Trie N),
    ((pre ++ a :: b :: post).map Trie.key).Pairwise Arr.lt → (Trie.node a b).Sub T →
    Triple C Ex (J (pre ++ a :: b :: post))
      (cfg.db.insert ((Trie.node a b).loc cfg.hasher) ⟨1, (Trie.node a b).variant cfg.hasher⟩)
      (fun _ => J (pre ++ .node a b :: post)) E

/-- Confirming the queued writes. -/
def FlushStep (C : GContract cfg.db) (Ex : Err → Prop) (J : List (Trie N) → σ → Prop)
    (E : σ → Prop) : Prop :=
  ∀ ts, Triple C Ex (J ts) cfg.db.batchWrite
    (fun _ s => J ts s ∧ C.pending s = View.empty N) E

theorem mergeLoop_rule (hstep : MergeStep C Ex J T E) :
    ∀ (level rest : List QueueItem) (gs : List (Shape N)) (ts : List (Trie N)) (root : Arr N),
      Run cfg.hasher gs ts (level ++ rest) T →
      Triple C Ex (J ts) (mergeLoop cfg level (layouts cfg.hasher gs) root)
        (fun r s => ∃ gs' ts', r.1 = layouts cfg.hasher gs' ∧ Run cfg.hasher gs' ts' rest T ∧
          J ts' s ∧ (level = [] → r.2 = root ∧ ts' = ts) ∧
          (level ≠ [] → ∃ t ∈ ts', r.2 = t.loc cfg.hasher)) E
  | [], rest, gs, ts, root, hv => by
    apply triple_pure
    intro s hs
    exact ⟨gs, ts, rfl, hv, hs, fun _ => ⟨rfl, rfl⟩, fun h => absurd rfl h⟩
  | it :: level, rest, gs, ts, root, hv => by
    rw [List.cons_append] at hv
    cases hv with
    | step pre a b post i items tpre ta tb tpost t hi ha hb hsorted hsub h =>
      rw [mergeLoop_step cfg _ i level pre post a b root hi]
      have hrep : Rep cfg.hasher (join a b) (.node ta tb) := ⟨ha, hb⟩
      have hnode : (⟨1, .branch ⟨(join a b).nodeCount, a.loc cfg.hasher, b.loc cfg.hasher,
          firstDiff a.key b.key, a.key⟩⟩ : Node N) =
          ⟨1, (Trie.node ta tb).variant cfg.hasher⟩ := by
        simp only [Trie.variant, hrep.nodeCount, ha.loc, hb.loc, ha.key, hb.key]
      rw [hnode, hrep.loc]
      apply triple_bind (hstep tpre tpost ta tb hsorted hsub)
      intro _
      apply triple_conseq (mergeLoop_rule hstep level rest _ _ _ h) (fun _ h => h) _ (fun _ h => h)
      rintro r s ⟨gs', ts', hr, hvr, hj, hnil, hcons⟩
      refine ⟨gs', ts', hr, hvr, hj, fun h => by simp at h, fun _ => ?_⟩
      by_cases hl : level = []
      · obtain ⟨h1, rfl⟩ := hnil hl
        exact ⟨.node ta tb, by simp, h1⟩
      · exact hcons hl

theorem mergeNodes_rule (hstep : MergeStep C Ex J T E) (hflush : FlushStep C Ex J E)
    (level rest : List QueueItem) (gs : List (Shape N)) (ts : List (Trie N)) (hl : level ≠ [])
    (hv : Run cfg.hasher gs ts (level ++ rest) T) :
    Triple C Ex (J ts) (mergeNodes cfg (layouts cfg.hasher gs) level)
      (fun r s => ∃ gs' ts', r.1 = layouts cfg.hasher gs' ∧ Run cfg.hasher gs' ts' rest T ∧
        (∃ t ∈ ts', r.2 = t.loc cfg.hasher) ∧ J ts' s ∧ C.pending s = View.empty N) E := by
  unfold mergeNodes
  simp only [M.bind_eq, M.pure_eq]
  apply triple_bind (mergeLoop_rule hstep level rest gs ts _ hv)
  intro r
  apply triple_exists
  intro gs'
  apply triple_exists
  intro ts'
  apply triple_pre
  intro h1
  apply triple_pre
  intro h2
  apply triple_bind (R := fun _ s => (J ts' s ∧ C.pending s = View.empty N) ∧
    (∃ t ∈ ts', r.2 = t.loc cfg.hasher))
  · intro s hs
    have := hflush ts' s hs.1
    rcases hb : cfg.db.batchWrite s with ⟨res, s'⟩
    rw [hb] at this
    cases res with
    | ok u => exact ⟨this.1, this.2, hs.2.2 hl⟩
    | error e => exact this
  · intro _
    apply triple_pure
    rintro s ⟨hj, hroot⟩
    exact ⟨gs', ts', h1, h2, hroot, hj⟩

/-- The schedule of merges read off a queue. -/
def schedule (items : List QueueItem) (idx : List Nat) : List QueueItem :=
  idx.flatMap (fun b => items.filter (fun it => it.1 = b))

theorem levelsLoop_rule (hstep : MergeStep C Ex J T E) (hflush : FlushStep C Ex J E)
    (items : List QueueItem) :
    ∀ (idx : List Nat) (q : AMap Nat (List QueueItem)) (gs : List (Shape N)) (ts : List (Trie N))
      (root : Option (Arr N)),
      (∀ b ∈ idx, items.filter (fun it => it.1 = b) ≠ [] ∧
        q.get? b = some (items.filter (fun it => it.1 = b))) →
      idx.Nodup → Run cfg.hasher gs ts (schedule items idx) T →
      (idx = [] → root = some (T.loc cfg.hasher)) →
      Triple C Ex (fun s => J ts s ∧ (idx = [] → C.pending s = View.empty N))
        (levelsLoop cfg idx q (layouts cfg.hasher gs) root)
        (fun r s => r = some (T.loc cfg.hasher) ∧ J [T] s ∧ C.pending s = View.empty N) E
  | [], q, gs, ts, root, _, _, hrun, hroot => by
    apply triple_pure
    intro s hs
    cases hrun with
    | done F t h => exact ⟨hroot rfl, hs.1, hs.2 rfl⟩
  | b :: idx, q, gs, ts, root, hq, hnd, hrun, _ => by
    obtain ⟨hne, hget⟩ := hq b (by simp)
    unfold levelsLoop
    rw [hget]
    simp only [M.bind_eq]
    have hrun' : Run cfg.hasher gs ts
        (items.filter (fun it => it.1 = b) ++ schedule items idx) T := by
      simpa [schedule] using hrun
    apply triple_bind (triple_conseq (mergeNodes_rule hstep hflush _ _ gs ts hne hrun')
      (fun _ h => h.1) (fun _ _ h => h) (fun _ h => h))
    rintro ⟨refs', root'⟩
    apply triple_exists
    intro gs'
    apply triple_exists
    intro ts'
    apply triple_pre
    intro h1
    apply triple_pre
    intro h2
    apply triple_pre
    intro h3
    simp only at h1 h3
    subst h1
    rw [List.nodup_cons] at hnd
    refine triple_conseq (levelsLoop_rule hstep hflush items idx (q.erase b) gs' ts' (some root') ?_
      hnd.2 h2 ?_) (fun s h => ⟨h.1, fun _ => h.2⟩) (fun _ _ h => h) (fun _ h => h)
    rotate_left
    · rintro rfl
      cases h2 with
      | done F t h =>
        obtain ⟨t', ht', hroot⟩ := h3
        simp only [List.mem_singleton] at ht'
        subst ht'
        rw [hroot]
    · intro c hc
      obtain ⟨h4, h5⟩ := hq c (by simp [hc])
      refine ⟨h4, ?_⟩
      rw [AMap.get?_erase, if_neg, h5]
      rintro rfl
      exact hnd.1 hc

theorem schedule_perm {items : List QueueItem} : ∀ {idx : List Nat}, idx.Nodup →
    (schedule items idx).Perm (items.filter (fun it => it.1 ∈ idx))
  | [], _ => by simp [schedule]
  | b :: idx, hnd => by
    rw [List.nodup_cons] at hnd
    have ih := schedule_perm (items := items) hnd.2
    have h1 : schedule items (b :: idx) =
        items.filter (fun it => it.1 = b) ++ schedule items idx := by simp [schedule]
    rw [h1]
    have h2 := List.filter_append_perm (fun it : QueueItem => decide (it.1 = b))
      (items.filter (fun it => it.1 ∈ b :: idx))
    refine List.Perm.trans ?_ h2
    rw [List.filter_filter, List.filter_filter]
    apply List.Perm.append
    · apply List.Perm.of_eq
      apply List.filter_congr
      intro it _
      by_cases h : it.1 = b <;> simp [h]
    · refine ih.trans (List.Perm.of_eq ?_)
      apply List.filter_congr
      intro it _
      by_cases h : it.1 = b
      · simp [h, hnd.1]
      · simp [h]

theorem schedule_desc {items : List QueueItem} : ∀ {idx : List Nat},
    idx.Pairwise (fun x y => y ≤ x) →
    (schedule items idx).Pairwise (fun x y => y.1 ≤ x.1)
  | [], _ => by simp [schedule]
  | b :: idx, h => by
    rw [List.pairwise_cons] at h
    have h1 : schedule items (b :: idx) =
        items.filter (fun it => it.1 = b) ++ schedule items idx := by simp [schedule]
    rw [h1, List.pairwise_append]
    refine ⟨?_, schedule_desc h.2, ?_⟩
    · rw [List.pairwise_iff_forall_sublist]
      intro x y hxy
      have hx := hxy.subset (show x ∈ [x, y] by simp)
      have hy := hxy.subset (show y ∈ [x, y] by simp)
      simp only [List.mem_filter, decide_eq_true_eq] at hx hy
      omega
    · intro x hx y hy
      simp only [schedule, List.mem_flatMap, List.mem_filter, decide_eq_true_eq] at hx hy
      obtain ⟨c, hc, hy⟩ := hy
      have := h.1 c hc
      omega

theorem gbounds_blks (off : Nat) (refs : List (TreeRef N)) :
    gbounds off (refs.map blk) = boundaries off (refs.map (·.key)) := by
  induction refs generalizing off with
  | nil => rfl
  | cons r refs ih =>
    cases refs with
    | nil => rfl
    | cons r' refs =>
      have := ih (off + 1)
      simp only [List.map_cons, gbounds, boundaries, width, key] at this ⊢
      rw [this]
      simp

theorem layouts_blks (H : Hasher N) {refs : List (TreeRef N)} (h : ∀ r ∈ refs, r.count = 1) :
    layouts H (refs.map blk) = refs := by
  induction refs with
  | nil => rfl
  | cons r refs ih =>
    have h1 := h r (by simp)
    have h2 := ih (fun r hr => h r (by simp [hr]))
    simp only [layouts, List.map_cons, List.flatMap_cons] at h2 ⊢
    rw [h2]
    cases r
    simp_all [layout, inits, ref, key, loc, nodeCount, width]

theorem sortRefs_perm (refs : List (TreeRef N)) : (sortRefs refs).Perm refs :=
  List.perm_insertionSort _ _

instance : Std.Total (TreeRef.le (N := N)) := ⟨fun a b => Arr.le_total a.key b.key⟩
instance : IsTrans (TreeRef N) TreeRef.le := ⟨fun _ _ _ h1 h2 => Arr.le_trans h1 h2⟩

theorem sortRefs_sorted (refs : List (TreeRef N)) :
    ((sortRefs refs).map (·.key)).Pairwise Arr.le := by
  rw [List.pairwise_map]
  exact List.pairwise_insertionSort TreeRef.le refs

theorem strict_of_chain {ks : List (Arr N)} (h1 : ks.Pairwise Arr.le) (h2 : ks.IsChain (· ≠ ·)) :
    ks.Pairwise Arr.lt := by
  induction ks with
  | nil => exact List.Pairwise.nil
  | cons a ks ih =>
    rw [List.pairwise_cons] at h1 ⊢
    cases ks with
    | nil => simp
    | cons b ks =>
      rw [List.isChain_cons_cons] at h2
      refine ⟨?_, ih h1.2 h2.2⟩
      intro c hc
      have hab : Arr.lt a b := by
        rcases Arr.lt_or_eq_of_le (h1.1 b (by simp)) with h | h
        · exact h
        · exact absurd h h2.1
      rcases List.mem_cons.1 hc with rfl | hc
      · exact hab
      · exact Arr.lt_of_lt_of_le hab (List.rel_of_pairwise_cons h1.2 hc)

/-- A tree reference describes a trie. -/
def RefRep (H : Hasher N) (r : TreeRef N) (t : Trie N) : Prop :=
  r.key = t.key ∧ r.location = t.loc H ∧ r.nodeCount = t.size ∧ r.count = 1

theorem rep_blks {H : Hasher N} {refs : List (TreeRef N)} {ts : List (Trie N)}
    (h : List.Forall₂ (RefRep H) refs ts) : List.Forall₂ (Rep H) (refs.map blk) ts := by
  induction h with
  | nil => exact .nil
  | cons h1 _ ih => exact .cons h1 ih

/-- The queue of strictly sorted references schedules a valid sequence of merges. -/
theorem valid_schedule {refs : List (TreeRef N)} {q : AMap Nat (List QueueItem)} {bits : List Nat}
    (h0 : refs ≠ []) (hs : (refs.map (·.key)).Pairwise Arr.lt)
    (hq : QueueHolds (boundaries 0 (refs.map (·.key))) q bits) :
    Valid (refs.map blk) (schedule (boundaries 0 (refs.map (·.key))) (sortIndices bits)) := by
  have hperm : (sortIndices bits).Perm bits :=
    (List.reverse_perm _).trans (List.perm_insertionSort _ _)
  refine ⟨by simpa using h0, ?_, ?_, ?_⟩
  · rw [List.map_map]; exact hs
  · rw [gbounds_blks]
    refine (schedule_perm (hperm.nodup_iff.2 hq.nodup)).trans (List.Perm.of_eq ?_)
    rw [List.filter_eq_self]
    intro it hit
    simp only [decide_eq_true_eq]
    exact hperm.mem_iff.2 ((hq.mem _).2 ⟨it, hit, rfl⟩)
  · apply schedule_desc
    unfold sortIndices
    rw [List.pairwise_reverse]
    exact List.pairwise_insertionSort (· ≤ ·) bits

/-- `T` has the subtrees `ts` side by side, and every branch above them separates their keys. -/
inductive Joins : List (Trie N) → Trie N → Prop where
  | one (t : Trie N) : Joins [t] t
  | join (xs ys : List (Trie N)) (a b : Trie N) (ha : Joins xs a) (hb : Joins ys b)
      (hx : ∀ u ∈ xs, u.key.bit (firstDiff a.key b.key) = false)
      (hy : ∀ u ∈ ys, u.key.bit (firstDiff a.key b.key) = true) : Joins (xs ++ ys) (.node a b)

/-- `T` is put together from the subtrees `ts` by merging neighbours. -/
structure Assembled (ts : List (Trie N)) (T : Trie N) : Prop where
  sorted : (ts.map Trie.key).Pairwise Arr.lt
  entries : T.entries = ts.flatMap Trie.entries
  sub : ∀ u ∈ ts, u.Sub T
  norm : (∀ u ∈ ts, u.Norm) → T.Norm
  wf : (∀ u ∈ ts, u.WF) → Spaced ts → T.WF
  path : ∀ u ∈ ts, ∃ n ≤ 8 * N, Trie.PathTo u.key u T n
  joins : Joins ts T

theorem Assembled.single (t : Trie N) : Assembled [t] t :=
  ⟨by simp, by simp, fun u hu => by simp only [List.mem_singleton] at hu; exact hu ▸ Trie.Sub.refl t,
    fun h => h t (by simp), fun h _ => h t (by simp), fun u hu => by
      simp only [List.mem_singleton] at hu
      subst hu
      exact ⟨0, by omega, .here⟩, .one t⟩

/-- The branches above the blocks. -/
def Shape.skel : Shape N → Trie N
  | blk r => .leaf r.key []
  | join a b => .node a.skel b.skel

theorem Shape.skel_key : ∀ sh : Shape N, sh.skel.key = sh.key
  | blk _ => rfl
  | join a _ => by simp only [skel, Trie.key, Shape.key]; exact a.skel_key

theorem Shape.skel_split (a b : Shape N) : (Shape.join a b).skel.split = firstDiff a.key b.key := by
  simp only [skel, Trie.split, skel_key]

/-- The branches above the blocks form a compact trie of the keys of the blocks. -/
theorem skel_sched {gs : List (Shape N)} {items : List QueueItem} {F : Shape N}
    (h : Sched gs items F) : F.skel.entries = gs.flatMap (fun g => g.skel.entries) ∧
      ((∀ g ∈ gs, g.skel.WF) → Spaced (gs.map Shape.skel) → F.skel.WF) := by
  induction h with
  | done F => exact ⟨by simp, fun h _ => h F (by simp)⟩
  | step pre a b post i items F hi hsorted hmax hsched ih =>
    refine ⟨by rw [ih.1]; simp [Shape.skel, Trie.entries], fun hwf hsp => ?_⟩
    have hlt : Arr.lt a.key b.key := by
      simp only [List.map_append, List.map_cons, List.pairwise_append, List.pairwise_cons,
        List.mem_cons] at hsorted
      exact hsorted.2.1.1 _ (.inl rfl)
    unfold Spaced at hsp
    rw [List.map_append, List.map_cons, List.map_cons] at hsp
    have hspab := (List.isChain_append.1 hsp).2.1.rel_head
    rw [a.skel_key, b.skel_key] at hspab
    apply ih.2
    · intro u hu
      simp only [List.mem_append, List.mem_cons] at hu hwf
      rcases hu with hu | rfl | hu
      · exact hwf u (.inl hu)
      · refine ⟨hwf _ (.inr (.inl rfl)), hwf _ (.inr (.inr (.inl rfl))), ?_⟩
        rw [a.skel_key, b.skel_key]
        exact ⟨hlt, hspab.1, hspab.2⟩
      · exact hwf u (.inr (.inr (.inr hu)))
    · unfold Spaced
      rw [List.map_append, List.map_cons]
      rw [List.isChain_append] at hsp ⊢
      obtain ⟨sp1, sp2, sp3⟩ := hsp
      refine ⟨sp1, ?_, ?_⟩
      · cases post with
        | nil => simp
        | cons c cs =>
          rw [List.map_cons] at sp2 ⊢
          rw [List.isChain_cons_cons] at sp2 ⊢
          have sp2' := List.isChain_cons_cons.1 sp2.2
          refine ⟨?_, sp2'.2⟩
          have hbc : Arr.lt b.key c.key := by
            simp only [List.map_append, List.map_cons, List.pairwise_append,
              List.pairwise_cons, List.mem_cons] at hsorted
            exact hsorted.2.1.2.1 _ (.inl rfl)
          have hle : firstDiff b.key c.key ≤ firstDiff a.key b.key := by
            obtain ⟨x, hx, hx'⟩ := mem_gbounds_adj (off := 0) (pre := pre ++ [a]) (a := b) (b := c)
              (post := cs)
            have := hmax x (by simpa using hx)
            rwa [hx'] at this
          have hne := firstDiff_ne_of_lt hlt hbc
          have hac : firstDiff a.key c.key = firstDiff b.key c.key := by
            rw [firstDiff_sorted (Arr.le_of_lt hlt) (Arr.le_of_lt hbc)]; omega
          have := sp2'.1.2
          simp only [Shape.skel_key, Shape.key, Shape.skel_split] at this ⊢
          rw [hac]
          exact ⟨by omega, this⟩
      · intro x hx y hy
        simp only [List.head?_cons, Option.mem_some_iff] at hy
        subst hy
        have hxa := sp3 x hx a.skel (by simp)
        rw [List.getLast?_map] at hx
        obtain ⟨gx, hgx, rfl⟩ := Option.mem_map.1 hx
        obtain ⟨pre', rfl⟩ : ∃ l, pre = l ++ [gx] := List.getLast?_eq_some_iff.1 hgx
        have hxlt : Arr.lt gx.key a.key := by
          simp only [List.map_append, List.map_cons, List.pairwise_append,
            List.mem_append, List.mem_cons] at hsorted
          exact hsorted.2.2 _ (.inr (by simp)) _ (.inl rfl)
        have hle : firstDiff gx.key a.key ≤ firstDiff a.key b.key := by
          obtain ⟨z, hz, hz'⟩ := mem_gbounds_adj (off := 0) (pre := pre') (a := gx) (b := a)
            (post := b :: post)
          have := hmax z (by simpa using hz)
          rwa [hz'] at this
        have hne := firstDiff_ne_of_lt hxlt hlt
        simp only [Shape.skel_key, Shape.key, Shape.skel_split] at hxa ⊢
        exact ⟨hxa.1, by omega⟩

/-- The way down to a block is the way of its key. -/
theorem Tiled.path {ts : List (Trie N)} {F : Shape N} {t : Trie N} (h : Tiled ts F t) :
    t.key = F.key ∧ (F.skel.WF → ∀ k ∈ F.skel.keys, ∃ u ∈ ts, u.key = k ∧
      ∃ n ≤ F.skel.height, Trie.PathTo k u t n) := by
  induction h with
  | blk r u hk =>
    refine ⟨hk.symm, fun _ k hkm => ?_⟩
    simp only [Shape.skel, Trie.keys, Trie.entries, List.map_cons, List.map_nil,
      List.mem_singleton] at hkm
    subst hkm
    exact ⟨u, by simp, hk.symm, 0, by omega, .here⟩
  | join xs ys a b l r _ _ iha ihb =>
    refine ⟨by simpa only [Trie.key, Shape.key] using iha.1, fun hwf k hkm => ?_⟩
    have hag := hwf.agree k hkm
    simp only [Shape.skel, Trie.keys_node, List.mem_append] at hkm
    simp only [Shape.skel] at hwf hag ⊢
    simp only [Trie.split, Trie.key, Shape.skel_key] at hag
    rw [← iha.1, ← ihb.1] at hag
    rcases hkm with hkm | hkm
    · obtain ⟨u, hu, h1, n, h2, h3⟩ := iha.2 hwf.1 k hkm
      have hb := hwf.bit_left hkm
      simp only [Trie.split, Shape.skel_key] at hb
      rw [← iha.1, ← ihb.1] at hb
      exact ⟨u, by simp [hu], h1, n + 1, by simp only [Trie.height]; omega, .left hag hb h3⟩
    · obtain ⟨u, hu, h1, n, h2, h3⟩ := ihb.2 hwf.2.1 k hkm
      have hb := hwf.bit_right hkm
      simp only [Trie.split, Shape.skel_key] at hb
      rw [← iha.1, ← ihb.1] at hb
      exact ⟨u, by simp [hu], h1, n + 1, by simp only [Trie.height]; omega, .right hag hb h3⟩

theorem Tiled.keys {ts : List (Trie N)} {F : Shape N} {t : Trie N} (h : Tiled ts F t) :
    F.skel.keys = ts.map Trie.key := by
  induction h with
  | blk r u hk => simp [Shape.skel, Trie.keys, Trie.entries, hk]
  | join xs ys a b l r _ _ iha ihb => simp [Shape.skel, Trie.keys_node, iha, ihb]

theorem Tiled.joins {ts : List (Trie N)} {F : Shape N} {t : Trie N} (h : Tiled ts F t) :
    F.skel.WF → Joins ts t := by
  induction h with
  | blk r u hk => intro _; exact .one u
  | join xs ys a b l r ha hb iha ihb =>
    intro hwf
    have e : (Shape.skel (Shape.join a b)).split = firstDiff l.key r.key := by
      rw [Shape.skel_split, ha.path.1, hb.path.1]
    refine .join xs ys l r (iha hwf.1) (ihb hwf.2.1) (fun u hu => ?_) (fun u hu => ?_)
    · rw [← e]
      exact hwf.bit_left (by rw [ha.keys]; exact List.mem_map_of_mem hu)
    · rw [← e]
      exact hwf.bit_right (by rw [hb.keys]; exact List.mem_map_of_mem hu)

theorem refRep_perm {H : Hasher N} {refs refs' : List (TreeRef N)} (hp : refs'.Perm refs) :
    ∀ {ts : List (Trie N)}, List.Forall₂ (RefRep H) refs ts →
    ∃ ts', ts'.Perm ts ∧ List.Forall₂ (RefRep H) refs' ts' := by
  induction hp with
  | nil => intro ts h; exact ⟨ts, .refl _, h⟩
  | cons x _ ih =>
    intro ts h
    cases h with
    | cons h1 h2 =>
      obtain ⟨ts', h3, h4⟩ := ih h2
      exact ⟨_, h3.cons _, .cons h1 h4⟩
  | swap x y l =>
    intro ts h
    cases h with
    | cons h1 h2 =>
      cases h2 with
      | cons h3 h4 => exact ⟨_, List.Perm.swap _ _ _, .cons h3 (.cons h1 h4)⟩
  | trans _ _ ih1 ih2 =>
    intro ts h
    obtain ⟨t1, h1, h2⟩ := ih2 h
    obtain ⟨t2, h3, h4⟩ := ih1 h2
    exact ⟨t2, h3.trans h1, h4⟩

theorem refRep_keys {H : Hasher N} {refs : List (TreeRef N)} {ts : List (Trie N)}
    (h : List.Forall₂ (RefRep H) refs ts) : refs.map (·.key) = ts.map Trie.key := by
  induction h with
  | nil => rfl
  | cons h1 _ ih => simp [h1.1, ih]

theorem refRep_count {H : Hasher N} {refs : List (TreeRef N)} {ts : List (Trie N)}
    (h : List.Forall₂ (RefRep H) refs ts) : ∀ r ∈ refs, r.count = 1 := by
  induction h with
  | nil => simp
  | cons h1 _ ih =>
    intro r hr
    rcases List.mem_cons.1 hr with rfl | hr
    · exact h1.2.2.2
    · exact ih r hr

theorem tiled_blks {H : Hasher N} {refs : List (TreeRef N)} {ts : List (Trie N)}
    (h : List.Forall₂ (RefRep H) refs ts) :
    List.Forall₂ (fun p t => Tiled p.1 p.2 t) (List.zip (ts.map (fun u => [u])) (refs.map blk)) ts ∧
      (ts.map (fun u => [u])).length = (refs.map blk).length := by
  refine ⟨?_, by simp [h.length_eq]⟩
  induction h with
  | nil => exact .nil
  | cons h1 _ ih => exact .cons (.blk _ _ h1.1) ih

theorem path_blks {H : Hasher N} {refs : List (TreeRef N)} {ts : List (Trie N)}
    {items : List QueueItem} {F : Shape N} {T : Trie N}
    (hsort : (ts.map Trie.key).Pairwise Arr.lt)
    (hrep : List.Forall₂ (RefRep H) refs ts) (hF : Sched (refs.map blk) items F)
    (ht : Tiled ts F T) : (∀ u ∈ ts, ∃ n ≤ 8 * N, Trie.PathTo u.key u T n) ∧ Joins ts T := by
  have hk := refRep_keys hrep
  obtain ⟨he, hwf⟩ := skel_sched hF
  have hwf : F.skel.WF := by
    apply hwf
    · intro g hg
      obtain ⟨r, _, rfl⟩ := List.mem_map.1 hg
      trivial
    · unfold Spaced
      rw [List.map_map, List.isChain_map]
      rw [← hk, List.pairwise_map] at hsort
      refine hsort.isChain.imp ?_
      intro a b hab
      have := (Arr.lt_bits hab).1
      exact ⟨this, this⟩
  refine ⟨fun u hu => ?_, ht.joins hwf⟩
  have hmem : u.key ∈ F.skel.keys := by
    have : u.key ∈ refs.map (·.key) := by rw [hk]; exact List.mem_map_of_mem hu
    obtain ⟨r, hr, hrk⟩ := List.mem_map.1 this
    unfold Trie.keys
    rw [he]
    simp only [List.flatMap_map, List.mem_map, List.mem_flatMap]
    exact ⟨(r.key, []), ⟨r, hr, by simp [Shape.skel, Trie.entries]⟩, hrk⟩
  obtain ⟨u', hu', h1, n, h2, h3⟩ := ht.path.2 hwf u.key hmem
  have hnd : (ts.map Trie.key).Nodup := hsort.imp Arr.ne_of_lt
  have : u' = u := List.inj_on_of_nodup_map hnd hu' hu h1
  subst this
  have := hwf.height_le
  exact ⟨n, by omega, h3⟩

/-- What `create_tree` does, given what one merge does. -/
theorem createTree_rule (hN : 0 < N) {refs : List (TreeRef N)} {ts : List (Trie N)}
    (hne : refs ≠ []) (hrep : List.Forall₂ (RefRep cfg.hasher) refs ts) {P : σ → Prop}
    (hdup : ¬ (ts.map Trie.key).Nodup →
      Ex (.exception "Attempted to insert item with duplicate keys") ∧ ∀ s, P s → E s)
    (hflush : FlushStep C Ex J E)
    (hok : ∀ ts' T, ts'.Perm ts → Assembled ts' T → MergeStep C Ex J T E ∧ ∀ s, P s → J ts' s)
    {Q : Arr N → σ → Prop}
    (hQ : ∀ ts' T, ts'.Perm ts → Assembled ts' T →
      ∀ s, J [T] s → C.pending s = View.empty N → Q (T.loc cfg.hasher) s) :
    Triple C Ex P (createTree cfg refs) Q E := by
  unfold createTree
  split
  · exact absurd rfl hne
  · cases hrep with
    | cons h1 h2 =>
      cases h2
      rename_i node t
      simp only [M.bind_eq, M.pure_eq]
      obtain ⟨hm, hp⟩ := hok [t] t (List.Perm.refl _) (Assembled.single t)
      apply triple_bind (triple_conseq (hflush [t]) hp (fun _ _ h => h) (fun _ h => h))
      intro _
      apply triple_pure
      intro s hs
      rw [h1.2.1]
      exact hQ [t] t (List.Perm.refl _) (Assembled.single t) s hs.1 hs.2
  · obtain ⟨ts', hperm, hrep'⟩ := refRep_perm (sortRefs_perm refs) hrep
    have hsorted := sortRefs_sorted refs
    have hne' : sortRefs refs ≠ [] := by
      intro h
      exact hne (by simpa [h] using (sortRefs_perm refs).symm)
    simp only [M.bind_eq, M.pure_eq]
    by_cases hch : ((sortRefs refs).map (·.key)).IsChain (· ≠ ·)
    · obtain ⟨q, bits, hq, hhold⟩ := generateTreeRefQueue_ok hne' hch
      have hlt := strict_of_chain hsorted hch
      obtain ⟨F, hF⟩ := (valid_schedule hne' hlt hhold).sched
      obtain ⟨T, hrun, he, hsub, hnorm, hwf, htile⟩ := hF.trie (rep_blks hrep')
      have hsort' : (ts'.map Trie.key).Pairwise Arr.lt := by rw [← refRep_keys hrep']; exact hlt
      have htiled : Tiled ts' F T := by
        have := htile _ (tiled_blks hrep').1 (tiled_blks hrep').2
        rwa [show (ts'.map (fun u => [u])).flatten = ts' by simp [← List.flatMap_def]] at this
      have hpb := path_blks hsort' hrep' hF htiled
      have hasm : Assembled ts' T := ⟨hsort', he, hsub, hnorm, hwf, hpb.1, hpb.2⟩
      obtain ⟨hm, hp⟩ := hok ts' T hperm hasm
      rw [hq]
      simp only [M.lift_ok_bind]
      have hlay : sortRefs refs = layouts cfg.hasher ((sortRefs refs).map blk) :=
        (layouts_blks _ (refRep_count hrep')).symm
      have hbits : (sortIndices bits).Perm bits :=
        (List.reverse_perm _).trans (List.perm_insertionSort _ _)
      rw [hlay]
      have hlen : 2 ≤ (sortRefs refs).length := by
        rw [(sortRefs_perm refs).length_eq]
        rename_i hn1 hn2
        rcases refs with _ | ⟨a, _ | ⟨b, refs⟩⟩
        · exact absurd rfl hne
        · exact absurd rfl (hn2 a)
        · simp
      have hidx : sortIndices bits ≠ [] := by
        obtain ⟨a, b, l, hl⟩ : ∃ a b l, sortRefs refs = a :: b :: l := by
          rcases hs : sortRefs refs with _ | ⟨a, _ | ⟨b, l⟩⟩
          · simp [hs] at hlen
          · simp [hs] at hlen
          · exact ⟨a, b, l, rfl⟩
        have : firstDiff a.key b.key ∈ bits := by
          rw [hhold.mem, hl]
          exact ⟨_, by simp only [List.map_cons, boundaries]; exact List.mem_cons_self, rfl⟩
        intro h
        have := hbits.mem_iff.2 this
        simp [h] at this
      apply triple_bind (triple_conseq (levelsLoop_rule hm hflush _ (sortIndices bits) q _ ts' none
        ?_ (hbits.nodup_iff.2 hhold.nodup) hrun (fun h => absurd h hidx))
        (fun s hs => ⟨hp s hs, fun h => absurd h hidx⟩) (fun _ _ h => h) (fun _ h => h))
      · rintro r
        apply triple_pre
        rintro rfl
        apply triple_pure
        intro s hs
        exact hQ ts' T hperm hasm s hs.1 hs.2
      · intro b hb
        have hne2 : (boundaries 0 ((sortRefs refs).map (·.key))).filter (fun it => it.1 = b) ≠ [] := by
          obtain ⟨it, hit, h1⟩ := (hhold.mem b).1 (hbits.mem_iff.1 hb)
          intro h
          have : it ∈ (boundaries 0 ((sortRefs refs).map (·.key))).filter (fun it => it.1 = b) := by
            simp [hit, h1]
          rw [h] at this
          simp at this
        refine ⟨hne2, ?_⟩
        rw [hhold.get, if_neg hne2]
    · rw [generateTreeRefQueue_err hN hch]
      simp only [M.lift_error_bind]
      have : ¬ (ts.map Trie.key).Nodup := by
        intro hnd
        apply hch
        rw [refRep_keys hrep']
        have : (ts'.map Trie.key).Nodup := ((hperm.map _).nodup_iff).2 hnd
        exact List.Pairwise.isChain this
      exact triple_throw (hdup this).1 (hdup this).2

end Rules
end MerkleBit
