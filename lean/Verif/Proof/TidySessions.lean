import Verif.Proof.Sessions
import Verif.Proof.Touched
import Verif.Proof.Refused
import Verif.Proof.Flush
import Mathlib.Data.List.ReduceOption
/-! # Sessions with removals, and sessions of `HashTree` and `RocksTree` -/

namespace MerkleBit
variable {N : Nat} {σ τ V : Type} {cfg : Config N σ V} {C : DbContract cfg.db}

/-! ## A database that works keeps working -/

theorem removeLoop_crash_alive : ∀ fuel q (t : σ × Nat), C.alive t.1 →
    C.alive (removeLoop cfg.crash fuel q t).2.1 := by
  intro fuel
  induction fuel with
  | zero => intro q t ht; cases q <;> exact ht
  | succ fuel ih =>
    intro q t ht
    cases q with
    | nil => exact ht
    | cons x q =>
      rw [removeLoop_succ]
      cases cfg.crash.db.getNode t x with
      | error e => exact ht
      | ok o =>
        cases o with
        | none => exact ih q t ht
        | some n =>
          dsimp only
          obtain ⟨t, m⟩ := t
          split
          · cases m with
            | zero => exact ht
            | succ m =>
              have e : cfg.crash.db.remove x (t, m + 1) = ((cfg.db.remove x t).1, (cfg.db.remove x t).2, m) := rfl
              rw [e]
              rcases hr : cfg.db.remove x t with ⟨r, s'⟩
              cases r with
              | error e => exact absurd ht (C.remove_err hr).1
              | ok u => exact ih _ _ ((C.remove_ok hr).1 ht)
          · cases m with
            | zero => exact ht
            | succ m =>
              have e : cfg.crash.db.insert x ⟨n.references - 1, n.variant⟩ (t, m + 1) =
                ((cfg.db.insert x ⟨n.references - 1, n.variant⟩ t).1,
                  (cfg.db.insert x ⟨n.references - 1, n.variant⟩ t).2, m) := rfl
              rw [e]
              rcases hr : cfg.db.insert x ⟨n.references - 1, n.variant⟩ t with ⟨r, s'⟩
              cases r with
              | error e => exact absurd ht (C.insert_err hr).1
              | ok u => exact ih _ _ ((C.insert_ok hr).1 ht)

theorem remove_crash_alive {s : σ} (hs : C.alive s) (n : Nat) (r : Arr N) :
    C.alive (remove cfg.crash r (s, n)).2.1 := by
  have h := removeLoop_crash_alive (C := C) (removeFuel N) [r] (s, n) hs
  unfold remove
  simp only [M.bind_eq]
  unfold M.bind
  rcases hl : removeLoop cfg.crash (removeFuel N) [r] (s, n) with ⟨res, t, m⟩
  rw [hl] at h
  cases res with
  | error e => exact h
  | ok u =>
    cases m with
    | zero => exact h
    | succ m =>
      obtain ⟨s', h1, h2⟩ := alive_flush (C := C) h
      exact (congrArg (fun q => C.alive q.2) h1).mpr h2

/-- Nothing is queued after a successful removal. -/
theorem remove_flushed {s s' : σ} {r : Arr N} (h : remove cfg r s = (.ok (), s')) :
    C.pending s' = View.empty N := by
  have := remove_endsIn (cfg := cfg) (F := fun s => C.pending s = View.empty N) (by
    intro s a h
    rcases hb : cfg.db.batchWrite s with ⟨x, s'⟩
    rw [hb] at h
    cases h
    exact (C.batchWrite_ok hb).2.2) r s () (by rw [h])
  rwa [h] at this

/-! ## Live versions -/

section
variable {α : Type}

theorem at?_split {vs : List (Option α)} {i : Nat} {a : α} (h : at? vs i = some a) :
    ∃ l1 l2, vs = l1 ++ some a :: l2 ∧ vs.set i none = l1 ++ none :: l2 := by
  unfold at? at h
  cases hi : vs[i]? with
  | none => rw [hi] at h; cases h
  | some o =>
    rw [hi] at h
    cases h
    obtain ⟨hlt, hget⟩ := List.getElem?_eq_some_iff.1 hi
    refine ⟨vs.take i, vs.drop (i + 1), ?_, ?_⟩
    · rw [← hget]; simp
    · rw [List.set_eq_take_append_cons_drop, if_pos hlt]

theorem set_none {vs : List (Option α)} {i : Nat} (h : at? vs i = none) : vs.set i none = vs := by
  unfold at? at h
  apply List.ext_getElem?
  intro j
  by_cases hj : i = j
  · subst hj
    cases hi : vs[i]? with
    | none => simpa using hi
    | some o =>
      rw [hi] at h
      cases o with
      | some a => cases h
      | none =>
        rw [List.getElem?_set_self (List.getElem?_eq_some_iff.1 hi).1]
  · rw [List.getElem?_set_ne hj]

end

variable {H : List (HIn N)} {L : Ledger N V} {s : σ} {rs : List (Option (Arr N))}
  {Ms : List (Option (Contents N V))} {vs : List (Option (Arr N × Contents N V))} {ρ : σ → σ}
  {strict : Prop}

theorem rootsOf_set (i : Nat) : rootsOf (vs.set i none) = (rootsOf vs).set i none := by
  unfold rootsOf; rw [List.map_set]; rfl

theorem contentsOf_set (i : Nat) : contentsOf (vs.set i none) = (contentsOf vs).set i none := by
  unfold contentsOf; rw [List.map_set]; rfl

/-- What may be queued in a tidy session. -/
def Waiting (C : DbContract cfg.db) (strict : Prop) (s : σ) : Prop :=
  C.pending s = View.empty N ∨ (¬ strict ∧ WritesShow C false ∧ NothingLess C s)

theorem Waiting.confirmed (h : Waiting C strict s) : Confirmed C strict s :=
  h.imp id fun h => ⟨h.1, h.2.2⟩

/-- The state of a tidy session. -/
def InTidy (cfg : Config N σ V) (C : DbContract cfg.db) (strict : Prop) (H : List (HIn N))
    (rs : List (Option (Arr N))) (Ms : List (Option (Contents N V))) (s : σ) : Prop :=
  ∃ vs H0 L, rs = rootsOf vs ∧ Ms = contentsOf vs ∧ (∀ i ∈ H0, i ∈ H) ∧ Uses cfg C strict H0 L s ∧
    C.alive s ∧ Waiting C strict s ∧ L.Perm vs.reduceOption

theorem live_mem (hL : L.Perm vs.reduceOption) : ∀ e, some e ∈ vs → e ∈ L :=
  fun _ he => hL.mem_iff.2 (List.reduceOption_mem_iff.2 he)

theorem mem_contentsOf (hL : L.Perm vs.reduceOption) {e : Arr N × Contents N V} (he : e ∈ L) :
    some e.2 ∈ contentsOf vs :=
  List.mem_map.2 ⟨some e, List.reduceOption_mem_iff.1 (hL.mem_iff.1 he), rfl⟩

theorem push_perm {e : Arr N × Contents N V} (hL : L.Perm vs.reduceOption) :
    (e :: L).Perm (vs ++ [some e]).reduceOption := by
  rw [List.reduceOption_append]
  refine List.Perm.trans ?_ (List.perm_append_comm)
  simpa [List.reduceOption] using hL

theorem take_perm {i : Nat} {e : Arr N × Contents N V} (hL : L.Perm vs.reduceOption)
    (hi : at? vs i = some e) : ∃ L1 L2, L = L1 ++ e :: L2 ∧ (L1 ++ L2).Perm (vs.set i none).reduceOption := by
  obtain ⟨l1, l2, h1, h2⟩ := at?_split hi
  obtain ⟨L1, L2, rfl⟩ := List.append_of_mem (live_mem hL e (at?_mem hi))
  refine ⟨L1, L2, rfl, ?_⟩
  rw [h2]
  rw [h1] at hL
  simp only [List.reduceOption_append, List.reduceOption_cons_of_some, List.reduceOption_cons_of_none] at hL ⊢
  exact ((List.perm_middle.symm.trans hL).trans List.perm_middle).cons_inv

theorem TidyInsert.careful (hL : L.Perm vs.reduceOption)
    (hp : Waiting C strict s)
    {prev : Option Nat} {keys : List (Arr N)} {values : List V} {r : Option (Arr N)} {M : Contents N V}
    (h : TidyInsert strict (contentsOf vs) prev keys values)
    (hM : base? Contents.empty (contentsOf vs) prev = some M) (hr : L.Prev r M) :
    Careful cfg C strict L s r M keys values where
  confirmed := hp.confirmed
  prev := hr.base
  distinct := h.distinct
  straddle := noStraddle_of_clear (h.clear M hM)
  fresh e he := h.fresh M hM e.2 (mem_contentsOf hL he)
  new hs e he := h.new hs e.2 (mem_contentsOf hL he)

/-- What a refused insert queues. -/
theorem Waiting.refused (hN : 0 < N) (hns : ¬ strict)
    (hw : ∃ b, WritesShow C b) (hs : C.alive s) (hp : Waiting C strict s)
    {r : Option (Arr N)} {keys : List (Arr N)} {values : List V} {s' : σ} {e : Err}
    (hrun : insert cfg r keys values s = (.error e, s')) : Waiting C strict s' := by
  have hless : NothingLess C s := by
    rcases hp with hp | hp
    · intro x n m hx
      rw [hp] at hx
      cases hx
    · exact hp.2.2
  have quiet : WritesShow C false → Waiting C strict s' := by
    intro hw
    refine .inr ⟨hns, hw, fun x n m hn hm => ?_⟩
    have h1 := refused_quiet hN hw hs hrun
    have h2 := refused_lifted (b := True) (v0 := C.view s) hN hs
      ⟨fun _ => Nat.le_refl _, fun _ x n hx => by
        unfold refsOf
        cases hv : C.view s x with
        | none => exact Nat.zero_le _
        | some m => exact hless x n m hx hv⟩ hrun
    rw [h1] at hm
    have := h2.2 trivial x n hn
    rwa [refsOf_some hm] at this
  obtain ⟨b, hw⟩ := hw
  cases b with
  | false => exact quiet hw
  | true =>
    rcases hp with hp | ⟨-, hw', -⟩
    · exact .inl (refused_rise hN hw hs hp hrun).1
    · exact quiet hw'

theorem tidy_insert (hc : Sane cfg) (hd : 8 * N < cfg.depth) {r : Option (Arr N)}
    {M : Contents N V} {keys : List (Arr N)} {values : List V} {H0 : List (HIn N)} (hH : ∀ i ∈ H0, i ∈ H)
    (hcf : CollisionFree cfg.hasher (Among (hashedBy cfg r keys values s ++ H)))
    (h : Uses cfg C strict H0 L s) (hs : C.alive s) (hL : L.Perm vs.reduceOption)
    (hcare : Careful cfg C strict L s r M keys values) (h1 : keys.length = values.length)
    (h2 : keys ≠ []) (h3 : ∀ v ∈ values, ∃ b, cfg.encode v = .ok b) :
    ∃ rs', Reply.ofInsert (V := V) (rootsOf vs) (insert cfg r keys values s).1 =
        (.version (contentsOf vs).length, rs') ∧
      InTidy cfg C strict (hashedBy cfg r keys values s ++ H) rs'
        (contentsOf vs ++ [some (M.assign keys values)]) (insert cfg r keys values s).2 := by
  obtain ⟨r', s', hrun, hs', hp', h'⟩ := C47_live_roots_accept_partial hc h hs (hcf.mono (append_sub hH))
    hcare h1 h2 h3 (heightBelow_of_bits M (by omega))
  refine ⟨rootsOf vs ++ [some r'], ?_, ?_⟩
  · rw [hrun, ← len_rootsOf]; rfl
  · rw [hrun]
    exact ⟨vs ++ [some (r', M.assign keys values)], _, _, (rootsOf_push (r', M.assign keys values)).symm,
      (contentsOf_push (r', M.assign keys values)).symm, append_sub hH, h', hs', .inl hp', push_perm hL⟩

theorem tidy_step (hc : Sane cfg) (hroom : cfg.Room) (hd : 8 * N < cfg.depth)
    (hρ : ∀ s, C.view (ρ s) = C.view s ∧ C.pending (ρ s) = View.empty N ∧ (C.alive s → C.alive (ρ s)))
    (hw : ¬ strict → ∃ b, WritesShow C b)
    {c : Cmd N V} (hcf : CollisionFree cfg.hasher (Among (c.hashed cfg rs s ++ H)))
    (h : InTidy cfg C strict H rs Ms s) (htidy : c.Tidy strict cfg.encode Ms) :
    (c.run (cfg.api ρ) rs s).1.1 = (c.spec cfg.encode Ms).1 ∧
    InTidy cfg C strict (c.hashed cfg rs s ++ H)
      (c.run (cfg.api ρ) rs s).1.2 (c.spec cfg.encode Ms).2 (c.run (cfg.api ρ) rs s).2 := by
  obtain ⟨vs, H0, L, rfl, rfl, hH, h, hs, hp, hL⟩ := h
  have hcf0 : CollisionFree cfg.hasher (Among H0) :=
    hcf.mono (fun i hi => List.mem_append_right _ (hH i hi))
  have hH' : ∀ (A : List (HIn N)), ∀ i ∈ H0, i ∈ A ++ H := fun _ i hi => List.mem_append_right _ (hH i hi)
  have asks : ∀ {c : Cmd N V}, c.Asks → CollisionFree cfg.hasher (Among (c.hashed cfg (rootsOf vs) s ++ H)) →
      c.Tidy strict cfg.encode (contentsOf vs) →
      (c.run (cfg.api ρ) (rootsOf vs) s).1.1 = (c.spec cfg.encode (contentsOf vs)).1 ∧
      InTidy cfg C strict (c.hashed cfg (rootsOf vs) s ++ H) (c.run (cfg.api ρ) (rootsOf vs) s).1.2
        (c.spec cfg.encode (contentsOf vs)).2 (c.run (cfg.api ρ) (rootsOf vs) s).2 := by
    intro c hask hcf htidy
    obtain ⟨h1, h2, h3, h4⟩ := session_asks (ρ := ρ) hc hroom hd hask (hcf.mono (append_sub hH))
      (⟨hs, (uses_acct hc.pos hc.pp hc.codec h (Among H0) hcf0 (fun _ hi => hi)).2.honest,
        fun e he => uses_versions hc.pos hc.pp hc.codec h hcf0 e (live_mem hL e he)⟩ : Answers cfg C H0 vs s)
      (by rintro i keys rfl; exact htidy)
    refine ⟨h1, ?_⟩
    rw [h2, h3, h4]
    exact ⟨vs, _, _, rfl, rfl, hH' _, h, hs, hp, hL⟩
  have idle : ∀ (A : List (HIn N)),
      InTidy cfg C strict (A ++ H) (rootsOf vs) (contentsOf vs) s :=
    fun A => ⟨vs, _, _, rfl, rfl, hH' A, h, hs, hp, hL⟩
  have refused : ∀ {r : Option (Arr N)} {keys : List (Arr N)} {values : List V}, ¬ strict →
      ¬ GoodBatch cfg.encode keys values →
      ∃ rs', Reply.ofInsert (V := V) (rootsOf vs) (insert cfg r keys values s).1 = (.refused, rs') ∧
        InTidy cfg C strict (hashedBy cfg r keys values s ++ H) rs' (contentsOf vs)
          (insert cfg r keys values s).2 := by
    intro r keys values hns hbad
    obtain ⟨e, he⟩ := insert_refuses (cfg := cfg) hc.pos (r := r) hbad s
    rcases hrun : insert cfg r keys values s with ⟨res, s'⟩
    rw [hrun] at he
    dsimp only at he
    subst he
    have ha := insert_alive (cfg := cfg) hs r keys values
    rw [hrun] at ha
    exact ⟨rootsOf vs, rfl, vs, _, _, rfl, rfl, append_sub hH, .refused hns h hs hrun, ha,
      hp.refused hc.pos hns (hw hns) hs hrun, hL⟩
  cases c with
  | put prev keys values =>
    rcases base_cases (live_mem hL) prev with ⟨h1, h2⟩ | ⟨r, M, h1, h2, h3⟩
    · simp only [Cmd.run, Cmd.spec, Cmd.hashed, h1, h2]
      exact ⟨trivial, idle []⟩
    · simp only [Cmd.hashed, h1] at hcf
      simp only [Cmd.run, Cmd.spec, Cmd.hashed, h1, h2, Config.api]
      by_cases hg : GoodBatch cfg.encode keys values
      · have ht := htidy.1 hg
        obtain ⟨rs', e1, h4⟩ := tidy_insert hc hd hH hcf h hs hL (ht.careful hL hp h2 h3) hg.1 hg.2.1 hg.2.2.2
        have hg' : keys.length = values.length ∧ keys ≠ [] ∧ keys.Nodup ∧
          ∀ v ∈ values, ∃ b, cfg.encode v = .ok b := hg
        rw [if_pos hg', e1]
        exact ⟨rfl, h4⟩
      have hg' : ¬ (keys.length = values.length ∧ keys ≠ [] ∧ keys.Nodup ∧
        ∀ v ∈ values, ∃ b, cfg.encode v = .ok b) := hg
      rw [if_neg hg']
      by_cases hl : keys.length = values.length ∧ keys ≠ []
      · obtain ⟨rs', e1, h4⟩ := refused (r := r)
          (fun hst => hg (htidy.2 hst hl.1 hl.2)) hg
        rw [e1]
        exact ⟨rfl, h4⟩
      · obtain ⟨msg, hm⟩ := C12_bad_arguments cfg r keys values (by
          by_cases h : keys.length = values.length
          · exact .inr (by by_contra hne; exact hl ⟨h, hne⟩)
          · exact .inl h) s
        rw [hm]
        exact ⟨rfl, idle _⟩
  | putOne prev k v =>
    rcases base_cases (live_mem hL) prev with ⟨h1, h2⟩ | ⟨r, M, h1, h2, h3⟩
    · simp only [Cmd.run, Cmd.spec, Cmd.hashed, h1, h2]
      exact ⟨trivial, idle []⟩
    · simp only [Cmd.hashed, h1] at hcf
      simp only [Cmd.run, Cmd.spec, Cmd.hashed, h1, h2, Config.api, C10_insert_one_is_insert,
        set_eq_assign]
      by_cases henc : ∃ b, cfg.encode v = .ok b
      · have ht := htidy.1 henc
        obtain ⟨rs', e1, h4⟩ := tidy_insert hc hd hH hcf h hs hL (ht.careful hL hp h2 h3) rfl (by simp)
          (by simpa using henc)
        rw [if_pos henc, e1]
        exact ⟨rfl, h4⟩
      · rw [if_neg henc]
        obtain ⟨rs', e1, h4⟩ := refused (r := r) (keys := [k]) (values := [v])
          (fun hst => henc (htidy.2 hst)) (fun hg => henc (hg.2.2.2 v (by simp)))
        rw [e1]
        exact ⟨rfl, h4⟩
  | read i keys => exact asks trivial hcf htidy
  | readOne i k => exact asks trivial hcf htidy
  | prove i k v => exact asks trivial hcf htidy
  | same i j => exact asks trivial hcf htidy
  | remove i =>
    simp only [Cmd.run, Cmd.spec, Cmd.hashed, at?_rootsOf, at?_contentsOf]
    cases hi : at? vs i with
    | none => exact ⟨rfl, idle []⟩
    | some e =>
      obtain ⟨s', hrun, hs'⟩ := remove_alive (C := C) (cfg := cfg) hs e.1
      have hrun' : (cfg.api ρ).remove s e.1 = (.ok (), s') := hrun
      simp only [Option.map_some, hrun']
      obtain ⟨L1, L2, rfl, h5⟩ := take_perm hL hi
      exact ⟨trivial, vs.set i none, _, _, (rootsOf_set i).symm, (contentsOf_set i).symm, hH,
        Uses.remove h hp.confirmed hrun, hs', .inl (remove_flushed hrun), h5⟩
  | crashRemove n i =>
    simp only [Cmd.run, Cmd.spec, Cmd.hashed, at?_rootsOf]
    cases hi : at? vs i with
    | none =>
      rw [set_none (vs := contentsOf vs) (by rw [at?_contentsOf, hi]; rfl)]
      exact ⟨rfl, idle []⟩
    | some e =>
      obtain ⟨L1, L2, rfl, h5⟩ := take_perm hL hi
      simp only [Option.map_some, Config.api]
      rcases hrun : remove cfg.crash e.1 (s, n) with ⟨res, s', n'⟩
      cases res with
      | ok u =>
        obtain ⟨s', hrun, hs'⟩ := remove_alive (C := C) (cfg := cfg) hs e.1
        obtain ⟨e1, e2, e3⟩ := hρ s'
        rw [hrun]
        exact ⟨trivial, vs.set i none, _, _, (rootsOf_set i).symm, (contentsOf_set i).symm, hH,
          .reopen (Uses.remove h hp.confirmed hrun) e1 e2, e3 hs', .inl e2, h5⟩
      | error err =>
        obtain ⟨e1, e2, e3⟩ := hρ s'
        have ha := remove_crash_alive (cfg := cfg) hs n e.1
        rw [hrun] at ha
        exact ⟨trivial, vs.set i none, _, _, (rootsOf_set i).symm, (contentsOf_set i).symm, hH,
          .reopen (Uses.removeCrashed htidy h hp.confirmed hrun) e1 e2, e3 ha, .inl e2, h5⟩
  | reopen =>
    obtain ⟨e1, e2, e3⟩ := hρ s
    exact ⟨rfl, vs, _, _, rfl, rfl, hH, .reopen h e1 e2, e3 hs, .inl e2, hL⟩
  | crash n prev keys values =>
    rcases base_cases (live_mem hL) prev with ⟨h1, h2⟩ | ⟨r, M, h1, h2, h3⟩
    · simp only [Cmd.run, Cmd.spec, Cmd.hashed, h1]
      exact ⟨trivial, idle []⟩
    · simp only [Cmd.run, Cmd.spec, Cmd.hashed, h1, Config.api]
      rcases hrun : insert cfg.crash r keys values (s, n) with ⟨res, s', n'⟩
      cases res with
      | ok r' => exact ⟨rfl, idle _⟩
      | error e =>
        obtain ⟨e1, e2, e3⟩ := hρ s'
        have ha := insert_crash_alive (cfg := cfg) hs n r keys values
        rw [hrun] at ha
        exact ⟨rfl, vs, _, _, rfl, rfl, append_sub hH,
          .reopen (.insertCrashed htidy.1 h (htidy.2.careful hL hp h2 h3) hrun) e1 e2, e3 ha, .inl e2, hL⟩

theorem tidy_eq (hc : Sane cfg) (hroom : cfg.Room) (hd : 8 * N < cfg.depth)
    (hρ : ∀ s, C.view (ρ s) = C.view s ∧ C.pending (ρ s) = View.empty N ∧ (C.alive s → C.alive (ρ s)))
    (hw : ¬ strict → ∃ b, WritesShow C b) :
    ∀ (cs : List (Cmd N V)) {H : List (HIn N)} {rs : List (Option (Arr N))}
      {Ms : List (Option (Contents N V))} {s : σ},
    CollisionFree cfg.hasher (Among (hashedBySession cfg ρ cs rs s ++ H)) →
    InTidy cfg C strict H rs Ms s → TidySession strict cfg.encode cs Ms →
    runSession (cfg.api ρ) cs rs s = specSession cfg.encode cs Ms ∧
    ∃ rs', InTidy cfg C strict (hashedBySession cfg ρ cs rs s ++ H) rs'
      (specVersions cfg.encode cs Ms) (treeAfter (cfg.api ρ) cs rs s)
  | [], _, _, _, _, _, h, _ => ⟨rfl, _, h⟩
  | c :: cs, H, rs, Ms, s, hcf, h, htidy => by
    obtain ⟨h1, h2⟩ := tidy_step hc hroom hd hρ hw
      (hcf.mono (U := Among (c.hashed cfg rs s ++ H)) (fun i hi => by
        rw [hashedBySession, List.append_assoc]
        exact List.mem_append_right _ hi)) h htidy.1
    have h3 := tidy_eq hc hroom hd hρ hw cs (by
      rw [hashedBySession, List.append_assoc] at hcf
      exact hcf) h2 htidy.2
    rw [runSession, specSession, h1, h3.1, specVersions, treeAfter, hashedBySession, List.append_assoc]
    exact ⟨rfl, h3.2⟩

/-! ## Other trees -/

/-- `f` takes the states of one tree to the states of another that behaves the same. -/
structure Api.Hom (A : Api N V σ) (B : Api N V τ) (f : σ → τ) : Prop where
  get : ∀ s, B.get (f s) = A.get s
  getOne : ∀ s, B.getOne (f s) = A.getOne s
  insert : ∀ s p ks vs, B.insert (f s) p ks vs = ((A.insert s p ks vs).1, f (A.insert s p ks vs).2)
  insertOne : ∀ s p k v, B.insertOne (f s) p k v = ((A.insertOne s p k v).1, f (A.insertOne s p k v).2)
  remove : ∀ s r, B.remove (f s) r = ((A.remove s r).1, f (A.remove s r).2)
  generateInclusionProof : ∀ s, B.generateInclusionProof (f s) = A.generateInclusionProof s
  verifyInclusionProof : B.verifyInclusionProof = A.verifyInclusionProof
  reopen : ∀ s, B.reopen (f s) = f (A.reopen s)
  insertDies : ∀ n s p ks vs, B.insertDies n (f s) p ks vs = (A.insertDies n s p ks vs).map f
  removeDies : ∀ n s r, B.removeDies n (f s) r = f (A.removeDies n s r)

theorem Api.Hom.run {A : Api N V σ} {B : Api N V τ} {f : σ → τ} (h : A.Hom B f)
    (rs : List (Option (Arr N))) (s : σ) (c : Cmd N V) :
    c.run B rs (f s) = ((c.run A rs s).1, f (c.run A rs s).2) := by
  cases c with
  | put prev keys values =>
    simp only [Cmd.run, h.insert]
    cases root? rs prev <;> rfl
  | putOne prev k v =>
    simp only [Cmd.run, h.insertOne]
    cases root? rs prev <;> rfl
  | read i keys =>
    simp only [Cmd.run, h.get]
    cases at? rs i with
    | none => rfl
    | some r => dsimp only; cases A.get s r keys <;> rfl
  | readOne i k =>
    simp only [Cmd.run, h.getOne]
    cases at? rs i with
    | none => rfl
    | some r => dsimp only; cases A.getOne s r k <;> rfl
  | prove i k v =>
    simp only [Cmd.run, h.generateInclusionProof, h.verifyInclusionProof]
    cases at? rs i with
    | none => rfl
    | some r =>
      dsimp only
      cases A.generateInclusionProof s r k with
      | error e => rfl
      | ok p => dsimp only; cases A.verifyInclusionProof r k v p <;> rfl
  | same i j =>
    simp only [Cmd.run]
    cases at? rs i with
    | none => rfl
    | some r => cases at? rs j <;> rfl
  | remove i =>
    simp only [Cmd.run, h.remove]
    cases at? rs i with
    | none => rfl
    | some r =>
      dsimp only
      rcases A.remove s r with ⟨_ | _, s'⟩ <;> rfl
  | reopen => simp only [Cmd.run, h.reopen]
  | crash n prev keys values =>
    simp only [Cmd.run, h.insertDies]
    cases root? rs prev with
    | none => rfl
    | some r => dsimp only; cases A.insertDies n s r keys values <;> rfl
  | crashRemove n i =>
    simp only [Cmd.run, h.removeDies]
    cases at? rs i <;> rfl

theorem Api.Hom.runSession {A : Api N V σ} {B : Api N V τ} {f : σ → τ} (h : A.Hom B f) :
    ∀ (cs : List (Cmd N V)) (rs : List (Option (Arr N))) (s : σ),
      MerkleBit.runSession B cs rs (f s) = MerkleBit.runSession A cs rs s ∧
      treeAfter B cs rs (f s) = f (treeAfter A cs rs s)
  | [], _, _ => ⟨rfl, rfl⟩
  | c :: cs, rs, s => by
    have := Api.Hom.runSession h cs (c.run A rs s).1.2 (c.run A rs s).2
    simp only [MerkleBit.runSession, treeAfter, h.run rs s c]
    exact ⟨by rw [this.1], this.2⟩

theorem hashTree_hom (ty : TreeTypes N V) (depth : Nat) :
    ((ty.hashConfig depth).api id).Hom (HashTree.api ty) (fun db => ⟨⟨db, depth⟩⟩) where
  get _ := rfl
  getOne _ := rfl
  insert _ _ _ _ := rfl
  insertOne _ _ _ _ := rfl
  remove _ _ := rfl
  generateInclusionProof _ := rfl
  verifyInclusionProof := rfl
  reopen _ := rfl
  insertDies _ _ _ _ _ := rfl
  removeDies _ _ _ := rfl

theorem rocksTree_hom (ty : TreeTypes N V) (codec : NodeCodec N) (env : RocksEnv N) (depth : Nat) :
    ((ty.rocksConfig codec env depth).api (fun s => RocksDB.new s.decompose)).Hom
      (RocksTree.api ty codec env) (fun db => ⟨⟨db, depth⟩⟩) where
  get _ := rfl
  getOne _ := rfl
  insert _ _ _ _ := rfl
  insertOne _ _ _ _ := rfl
  remove _ _ := rfl
  generateInclusionProof _ := rfl
  verifyInclusionProof := rfl
  reopen _ := rfl
  insertDies n s p ks vs := by
    simp only [RocksTree.api, Config.api, RocksTree.decompose, MerkleBIT.decompose]
    rcases insert (ty.rocksConfig codec env depth).crash p ks vs (s, n) with ⟨_ | _, s', n'⟩ <;> rfl
  removeDies n s r := by
    simp only [RocksTree.api, Config.api, RocksTree.decompose, MerkleBIT.decompose]
    rcases remove (ty.rocksConfig codec env depth).crash r (s, n) with ⟨_ | _, s', n'⟩ <;> rfl

end MerkleBit
