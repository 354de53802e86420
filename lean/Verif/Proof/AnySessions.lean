import Verif.Spec.AnySession
import Verif.Proof.Sessions
import Verif.Proof.Effect
import Verif.Proof.Addressed
/-!
# Sessions of any calls
-/

namespace MerkleBit
variable {N : Nat} {σ V : Type} {cfg : Config N σ V} {C : DbContract cfg.db} {ρ : σ → σ}
  {H : List (HIn N)} {R : List (Arr N)} {L : Ledger N V} {s s' : σ}

/-- Single reads under `r` are those of `M`. -/
def ReadsAs (cfg : Config N σ V) (v : View N) (r : Arr N) (M : Contents N V) : Prop :=
  ∃ T : Trie N, T.loc cfg.hasher = r ∧ T.Norm ∧ Stored cfg.hasher v T ∧
    ∀ k, DeepOr N cfg.depth (readOne cfg k T 0) (M k)

theorem ReadsAs.mono {v v' : View N} (h : v.Ext v') {r : Arr N} {M : Contents N V}
    (hr : ReadsAs cfg v r M) : ReadsAs cfg v' r M := by
  obtain ⟨T, h1, h2, h3, h4⟩ := hr
  exact ⟨T, h1, h2, h3.mono h, h4⟩

/-- What is known of a root. -/
def IsKnown (cfg : Config N σ V) (L : Ledger N V) (v : View N) (r : Arr N) : Ver N V → Prop
  | .map M => (r, M) ∈ L
  | .only M => ReadsAs cfg v r M
  | .any => True

/-- The state of a session. -/
structure InAny (cfg : Config N σ V) (C : DbContract cfg.db) (H : List (HIn N)) (es : List (Arr N × Ver N V))
    (L : Ledger N V) (s : σ) : Prop where
  inserts : ∃ H0 R, (∀ i ∈ H0, i ∈ H) ∧ Inserts cfg C H0 R L s
  alive : C.alive s
  known : ∀ e ∈ es, IsKnown cfg L (C.view s) e.1 e.2

theorem IsKnown.mono {L' : Ledger N V} (hL : ∀ e ∈ L, e ∈ L') {v v' : View N} (h : v.Ext v') {r : Arr N} :
    ∀ {b : Ver N V}, IsKnown cfg L v r b → IsKnown cfg L' v' r b
  | .map _, hr => hL _ hr
  | .only _, hr => ReadsAs.mono h hr
  | .any, _ => trivial

theorem insert_ext (hc : Sane cfg) {U : HIn N → Prop} (hU : CollisionFree cfg.hasher U)
    {prev : Option (Arr N)} {keys : List (Arr N)} {values : List V}
    (hin : ∀ i ∈ hashedBy cfg prev keys values s, U i) (hs : InPlace C U s) :
    (C.view s).Ext (C.view (insert cfg prev keys values s).2) := by
  have := insert_placed (C := C) (v0 := C.view s) hc.pos hc.pp hU prev keys values hin
    ⟨hs.1, hs.2, View.Ext.refl _⟩
  unfold Ends at this
  rcases hrun : insert cfg prev keys values s with ⟨res, s'⟩
  rw [hrun] at this
  cases res with
  | ok r => exact this.2.ext
  | error e => exact this.2.ext

theorem insert_crash_ext (hc : Sane cfg) {U : HIn N → Prop} (hU : CollisionFree cfg.hasher U) {n : Nat}
    {prev : Option (Arr N)} {keys : List (Arr N)} {values : List V}
    (hin : ∀ i ∈ hashedBy cfg.crash prev keys values (s, n), U i) (hs : InPlace C U s) :
    (C.view s).Ext (C.view (insert cfg.crash prev keys values (s, n)).2.1) := by
  have := insert_placed (cfg := cfg.crash) (C := C.crash) (v0 := C.view s) hc.pos hc.pp hU prev keys values
    (s := (s, n)) hin ⟨hs.1, hs.2, View.Ext.refl _⟩
  unfold Ends at this
  rcases hrun : insert cfg.crash prev keys values (s, n) with ⟨res, s', n'⟩
  rw [hrun] at this
  cases res with
  | ok r => exact this.2.ext
  | error e => exact this.2.ext

/-- One insert. -/
theorem any_insert (hc : Sane cfg) (hd : 8 * N < cfg.depth) {es : List (Arr N × Ver N V)}
    (h : InAny cfg C H es L s) {r : Option (Arr N)} {b : Ver N V}
    (hb : r = none ∧ b = .map Contents.empty ∨ ∃ e ∈ es, r = some e.1 ∧ b = e.2)
    {keys : List (Arr N)} {values : List V}
    (hcf : CollisionFree cfg.hasher (Among (hashedBy cfg r keys values s ++ H))) :
    ∃ new, AllowedInsert cfg keys values b new ∧
      ((new = none ∧ ∃ e, (insert cfg r keys values s).1 = .error e) ∧
          InAny cfg C (hashedBy cfg r keys values s ++ H) es L (insert cfg r keys values s).2 ∨
        ∃ r' k L', new = some k ∧ (insert cfg r keys values s).1 = .ok r' ∧
          InAny cfg C (hashedBy cfg r keys values s ++ H) (es ++ [(r', k)]) L'
            (insert cfg r keys values s).2) := by
  obtain ⟨⟨H0, R, hH, hins⟩, hal, hkn⟩ := h
  have hcf1 : CollisionFree cfg.hasher (Among (hashedBy cfg r keys values s ++ H0)) := hcf.mono (append_sub hH)
  have hcf0 : CollisionFree cfg.hasher (Among H0) := hcf1.mono (fun i hi => List.mem_append_right _ hi)
  have hsound := hins.sound hc hcf0
  have hext := insert_ext (C := C) hc hcf1 (prev := r) (keys := keys) (values := values)
    (fun i hi => List.mem_append_left _ hi)
    (⟨hsound.view.mono (fun i hi => List.mem_append_right _ hi),
      hsound.pending.mono (fun i hi => List.mem_append_right _ hi)⟩ : InPlace C _ s)
  have hal' := insert_alive (cfg := cfg) (C := C) hal r keys values
  have hsame : InAny cfg C (hashedBy cfg r keys values s ++ H) es L (insert cfg r keys values s).2 :=
    ⟨⟨_, _, append_sub hH, Inserts.any hins rfl⟩, hal', fun e he => (hkn e he).mono (fun _ h => h) hext⟩
  have hpush : ∀ r' k, IsKnown cfg L (C.view (insert cfg r keys values s).2) r' k →
      InAny cfg C (hashedBy cfg r keys values s ++ H) (es ++ [(r', k)]) L (insert cfg r keys values s).2 := by
    intro r' k hk
    refine ⟨hsame.inserts, hal', fun e he => ?_⟩
    rcases List.mem_append.1 he with he | he
    · exact hsame.known e he
    · cases List.mem_singleton.1 he; exact hk
  by_cases hok : GoodBatch cfg.encode keys values
  swap
  · obtain ⟨e, he⟩ := insert_refuses (r := r) hc.pos hok s
    exact ⟨none, ⟨fun _ => rfl, fun h => absurd h hok⟩, .inl ⟨⟨rfl, e, he⟩, hsame⟩⟩
  obtain ⟨h1, h2, h3, h4⟩ := hok
  have hok : GoodBatch cfg.encode keys values := ⟨h1, h2, h3, h4⟩
  have wild : (∀ M, b ≠ .map M) → ∃ new, AllowedInsert cfg keys values b new ∧
      ((new = none ∧ ∃ e, (insert cfg r keys values s).1 = .error e) ∧
          InAny cfg C (hashedBy cfg r keys values s ++ H) es L (insert cfg r keys values s).2 ∨
        ∃ r' k L', new = some k ∧ (insert cfg r keys values s).1 = .ok r' ∧
          InAny cfg C (hashedBy cfg r keys values s ++ H) (es ++ [(r', k)]) L'
            (insert cfg r keys values s).2) := by
    intro hb
    cases hres : (insert cfg r keys values s).1 with
    | error e =>
      refine ⟨none, ⟨fun _ => rfl, fun _ => ?_⟩, .inl ⟨⟨rfl, e, rfl⟩, hsame⟩⟩
      cases b with
      | map M => exact absurd rfl (hb M)
      | only M => exact .inl rfl
      | any => exact .inl rfl
    | ok r' =>
      refine ⟨some .any, ⟨fun h => absurd hok h, fun _ => ?_⟩, .inr ⟨r', _, L, rfl, rfl, hpush r' .any trivial⟩⟩
      cases b with
      | map M => exact absurd rfl (hb M)
      | only M => exact .inr rfl
      | any => exact .inr rfl
  cases b with
  | only M => exact wild (fun _ => by simp)
  | any => exact wild (fun _ => by simp)
  | map M =>
    have hprev : L.Prev r M := by
      rcases hb with ⟨rfl, hb⟩ | ⟨e, he, rfl, hb⟩
      · cases hb; rfl
      · have := hkn e he
        rw [← hb] at this
        exact this
    by_cases hh : Handled cfg M keys
    · obtain ⟨r', s', hrun, hs', h'⟩ := hins.insert_ok hc hal hcf1 hprev
        (heightBelow_of_bits M (by omega)) hh h1 h2 h3 h4
      refine ⟨some (.map (M.assign keys values)), ⟨fun h => absurd hok h, fun _ => ⟨fun _ => rfl,
        fun h => absurd hh h, fun h => absurd hh h⟩⟩,
        .inr ⟨r', _, (r', M.assign keys values) :: L, rfl, by rw [hrun], ?_⟩⟩
      rw [hrun] at hext ⊢
      refine ⟨⟨_, _, append_sub hH, h'⟩, hs', fun e he => ?_⟩
      rcases List.mem_append.1 he with he | he
      · exact (hkn e he).mono (fun _ h => List.mem_cons_of_mem _ h) hext
      · cases List.mem_singleton.1 he; exact List.mem_cons_self
    · have hr : ∃ r0, r = some r0 := by
        cases r with
        | some r0 => exact ⟨r0, rfl⟩
        | none =>
          have : M = Contents.empty := hprev
          subst this
          exact absurd (handled_empty keys) hh
      obtain ⟨r0, rfl⟩ := hr
      have := insert_effect (C := C) hc.pos hc.pp hc.codec hcf1 (keys := keys) (values := values)
        (fun i hi => List.mem_append_left _ hi)
        ((hsound.inv.mono (fun i hi => List.mem_append_right _ hi)).sound)
        (hins.version hc hcf0 hprev) h1 h2 h3 h4 hd
      unfold Ends at this
      rcases hrun : insert cfg (some r0) keys values s with ⟨res, s'⟩
      rw [hrun] at this
      cases res with
      | error e =>
        rcases this.1 with ⟨⟨rfl, hrf⟩, -⟩ | ⟨hx, -⟩
        · rw [hrun] at hsame
          exact ⟨none, ⟨fun _ => rfl, fun _ => ⟨fun h => absurd h hh, fun _ _ => rfl, fun _ h => absurd hrf h⟩⟩,
            .inl ⟨⟨rfl, _, rfl⟩, hsame⟩⟩
        · exact absurd hal hx
      | ok r' =>
        obtain ⟨-, hnr, T, rfl, hn, hst, hbt, ho⟩ := this
        rw [hrun] at hpush
        refine ⟨some (.only (M.bent cfg keys values)), ⟨fun h => absurd hok h, fun _ => ⟨fun h => absurd h hh,
          fun _ h => absurd h hnr, fun _ _ => rfl⟩⟩, .inr ⟨_, _, L, rfl, rfl, hpush _ _ ⟨T, rfl, hn, hst, fun k => ?_⟩⟩⟩
        by_cases hk : k ∈ keys
        · obtain ⟨i, hi, rfl⟩ := List.mem_iff_getElem.1 hk
          have hm : (keys[i], values[i]'(by omega)) ∈ keys.zip values := by
            rw [List.mem_iff_getElem]
            exact ⟨i, by simp; omega, by simp⟩
          unfold Contents.bent
          rw [assign_mem _ h1 h3 hm]
          exact .inl (hbt _ hm)
        · unfold Contents.bent
          rw [assign_not_mem _ _ hk]
          by_cases hl : Lost cfg M keys k
          · rw [if_pos hl]; exact (ho k hk).1 hl
          · rw [if_neg hl]; exact (ho k hk).2 hl

/-- The roots of a session. -/
def rootsIn (es : List (Arr N × Ver N V)) : List (Option (Arr N)) := es.map fun e => some e.1

/-- What is known of them. -/
def versIn (es : List (Arr N × Ver N V)) : List (Ver N V) := es.map Prod.snd

theorem at?_rootsIn (es : List (Arr N × Ver N V)) (i : Nat) : at? (rootsIn es) i = es[i]?.map Prod.fst := by
  simp only [at?, rootsIn, List.getElem?_map]
  cases es[i]? <;> rfl

theorem getElem?_versIn (es : List (Arr N × Ver N V)) (i : Nat) : (versIn es)[i]? = es[i]?.map Prod.snd := by
  simp [versIn]

theorem root?_rootsIn (es : List (Arr N × Ver N V)) (prev : Option Nat) :
    root? (rootsIn es) prev = none ∧ Ver.base (versIn es) prev = none ∨
    ∃ r b, root? (rootsIn es) prev = some r ∧ Ver.base (versIn es) prev = some b ∧
      (r = none ∧ b = .map Contents.empty ∨ ∃ e ∈ es, r = some e.1 ∧ b = e.2) := by
  cases prev with
  | none => exact .inr ⟨none, _, rfl, rfl, .inl ⟨rfl, rfl⟩⟩
  | some i =>
    have h1 : root? (rootsIn es) (some i) = es[i]?.map (fun e => some e.1) := by
      simp only [root?, base?, at?, rootsIn, List.map_map, List.getElem?_map]
      cases es[i]? <;> rfl
    have h2 : Ver.base (versIn es) (some i) = es[i]?.map Prod.snd := by
      simp [Ver.base, versIn]
    rw [h1, h2]
    cases hi : es[i]? with
    | none => exact .inl ⟨rfl, rfl⟩
    | some e => exact .inr ⟨_, _, rfl, rfl, .inr ⟨e, List.mem_of_getElem? hi, rfl, rfl⟩⟩

theorem InAny.version (hc : Sane cfg) (hcf : CollisionFree cfg.hasher (Among H)) {es : List (Arr N × Ver N V)}
    (h : InAny cfg C H es L s) {r : Arr N} {M : Contents N V} (he : (r, Ver.map M) ∈ es) :
    IsVersion cfg (C.view s) r M := by
  obtain ⟨⟨H0, R, hH, hins⟩, -, hkn⟩ := h
  exact hins.version hc (hcf.mono hH) (hkn _ he)

/-- Questions about maps. -/
theorem InAny.answers (hc : Sane cfg) (hcf : CollisionFree cfg.hasher (Among H)) {es : List (Arr N × Ver N V)}
    (h : InAny cfg C H es L s) {vs : List (Option (Arr N × Contents N V))}
    (hvs : ∀ e, some e ∈ vs → (e.1, Ver.map e.2) ∈ es) : Answers cfg C H vs s := by
  obtain ⟨⟨H0, R, hH, hins⟩, hal, hkn⟩ := h
  refine ⟨hal, (hins.sound hc (hcf.mono hH)).view.mono hH, fun e he => ?_⟩
  exact hins.version hc (hcf.mono hH) (hkn _ (hvs e he))

theorem InAny.more {es : List (Arr N × Ver N V)} (h : InAny cfg C H es L s) (A : List (HIn N)) :
    InAny cfg C (A ++ H) es L s := by
  obtain ⟨⟨H0, R, hH, hins⟩, hal, hkn⟩ := h
  exact ⟨⟨H0, R, fun i hi => List.mem_append_right _ (hH i hi), hins⟩, hal, hkn⟩

/-- One call. -/
theorem any_step (hc : Sane cfg) (hroom : cfg.Room) (hd : 8 * N < cfg.depth)
    (hρ : ∀ s, C.view (ρ s) = C.view s ∧ C.pending (ρ s) = View.empty N ∧ (C.alive s → C.alive (ρ s)))
    {es : List (Arr N × Ver N V)} {c : Cmd N V}
    (hcf : CollisionFree cfg.hasher (Among (c.hashed cfg (rootsIn es) s ++ H)))
    (h : InAny cfg C H es L s) (hk : c.Keeps) :
    ∃ es' L', c.Allowed cfg (versIn es) (c.run (cfg.api ρ) (rootsIn es) s).1.1 (versIn es') ∧
      (c.run (cfg.api ρ) (rootsIn es) s).1.2 = rootsIn es' ∧
      InAny cfg C (c.hashed cfg (rootsIn es) s ++ H) es' L' (c.run (cfg.api ρ) (rootsIn es) s).2 := by
  have hcf0 : CollisionFree cfg.hasher (Among H) := hcf.mono (fun i hi => List.mem_append_right _ hi)
  have hb := fun (M : Contents N V) => heightBelow_of_bits M hd
  have put : ∀ {r : Option (Arr N)} {b : Ver N V} {keys : List (Arr N)} {values : List V},
      (r = none ∧ b = .map Contents.empty ∨ ∃ e ∈ es, r = some e.1 ∧ b = e.2) →
      CollisionFree cfg.hasher (Among (hashedBy cfg r keys values s ++ H)) →
      ∃ es' L' new, AllowedInsert cfg keys values b new ∧
        (Reply.ofInsert (V := V) (rootsIn es) (insert cfg r keys values s).1).1 =
          (if new.isSome then .version (versIn es).length else .refused) ∧
        versIn es' = versIn es ++ new.toList ∧
        (Reply.ofInsert (V := V) (rootsIn es) (insert cfg r keys values s).1).2 = rootsIn es' ∧
        InAny cfg C (hashedBy cfg r keys values s ++ H) es' L' (insert cfg r keys values s).2 := by
    intro r b keys values hbase hcf
    obtain ⟨new, hnew, hcase⟩ := any_insert hc hd h hbase hcf
    rcases hcase with ⟨⟨rfl, e, he⟩, hin⟩ | ⟨r', k, L', rfl, hok, hin⟩
    · exact ⟨es, L, none, hnew, by rw [he]; rfl, by simp, by rw [he]; rfl, hin⟩
    · refine ⟨_, L', _, hnew, ?_, by simp [versIn], ?_, hin⟩
      · rw [hok]; simp [Reply.ofInsert, rootsIn, versIn]
      · rw [hok]; simp [Reply.ofInsert, rootsIn]
  cases c with
  | put prev keys values =>
    rcases root?_rootsIn es prev with ⟨h1, h2⟩ | ⟨r, b, h1, h2, h3⟩
    · refine ⟨es, L, ?_⟩
      simp only [Cmd.run, Cmd.Allowed, Cmd.hashed, h1, h2]
      exact ⟨⟨by trivial, by trivial⟩, by trivial, h⟩
    · simp only [Cmd.hashed, h1] at hcf
      obtain ⟨es', L', new, q1, q2, q3, q4, q5⟩ := put h3 hcf
      refine ⟨es', L', ?_⟩
      simp only [Cmd.run, Cmd.Allowed, Cmd.hashed, h1, h2]
      exact ⟨⟨new, q1, q2, q3⟩, q4, q5⟩
  | putOne prev k v =>
    rcases root?_rootsIn es prev with ⟨h1, h2⟩ | ⟨r, b, h1, h2, h3⟩
    · refine ⟨es, L, ?_⟩
      simp only [Cmd.run, Cmd.Allowed, Cmd.hashed, h1, h2]
      exact ⟨⟨by trivial, by trivial⟩, by trivial, h⟩
    · simp only [Cmd.hashed, h1] at hcf
      obtain ⟨es', L', new, q1, q2, q3, q4, q5⟩ := put h3 hcf
      refine ⟨es', L', ?_⟩
      simp only [Cmd.run, Cmd.Allowed, Cmd.hashed, h1, h2, Config.api, C10_insert_one_is_insert]
      exact ⟨⟨new, q1, q2, q3⟩, q4, q5⟩
  | read i keys =>
    refine ⟨es, L, ?_⟩
    simp only [Cmd.run, Cmd.Allowed, Cmd.hashed, at?_rootsIn, getElem?_versIn]
    cases hi : es[i]? with
    | none => exact ⟨⟨by trivial, by trivial⟩, by trivial, h⟩
    | some e =>
      obtain ⟨r, b⟩ := e
      have hmem := List.mem_of_getElem? hi
      simp only [Option.map_some]
      cases b with
      | map M =>
        obtain ⟨m, h1, -, h3, h4⟩ := version_get (C := C) hc.pos hc.pp hc.codec (hb M).succ
          (h.version hc hcf0 hmem) keys
        have hm : (cfg.api ρ).get s r keys = .ok m := h1.alive h.alive
        simp only [hm]
        refine ⟨⟨by trivial, ?_⟩, by trivial, h⟩
        refine congrArg Reply.values (List.map_congr_left fun k hk => ?_)
        by_cases hf : Finds cfg M keys k
        · rw [if_pos hf]; exact (h4 k hk).2 (.inr hf)
        · rw [if_neg hf]
          rcases h3 k hk with h5 | h5
          · rcases (h4 k hk).1 h5 with h6 | h6
            · rw [h5, h6]
            · exact absurd h6 hf
          · exact h5
      | only M => cases (cfg.api ρ).get s r keys <;> exact ⟨⟨by trivial, by trivial⟩, by trivial, h⟩
      | any => cases (cfg.api ρ).get s r keys <;> exact ⟨⟨by trivial, by trivial⟩, by trivial, h⟩
  | readOne i k =>
    refine ⟨es, L, ?_⟩
    simp only [Cmd.run, Cmd.Allowed, Cmd.hashed, at?_rootsIn, getElem?_versIn]
    cases hi : es[i]? with
    | none => exact ⟨⟨by trivial, by trivial⟩, by trivial, h⟩
    | some e =>
      obtain ⟨r, b⟩ := e
      have hmem := List.mem_of_getElem? hi
      simp only [Option.map_some]
      cases b with
      | map M =>
        have hm : (cfg.api ρ).getOne s r k = .ok (M k) :=
          (version_getOne (C := C) hc.pos hc.codec (hb M) (h.version hc hcf0 hmem) k).alive h.alive
        simp only [hm]
        exact ⟨⟨by trivial, by trivial⟩, by trivial, h⟩
      | only M =>
        obtain ⟨T, rfl, hn, hst, hM⟩ := h.known _ hmem
        have hm : (cfg.api ρ).getOne s (T.loc cfg.hasher) k = readOne cfg k T 0 :=
          (getOne_stored (C := C) hc.pos hn hst k).alive h.alive
        simp only [hm]
        rcases hM k with h5 | ⟨h5, h6⟩
        · rw [h5]; exact ⟨⟨by trivial, .inl rfl⟩, by trivial, h⟩
        · rw [h6]; exact ⟨⟨by trivial, .inr ⟨h5, rfl⟩⟩, by trivial, h⟩
      | any => cases (cfg.api ρ).getOne s r k <;> exact ⟨⟨by trivial, by trivial⟩, by trivial, h⟩
  | prove i k v =>
    refine ⟨es, L, ?_⟩
    cases hi : es[i]? with
    | none =>
      simp only [Cmd.run, Cmd.Allowed, Cmd.hashed, at?_rootsIn, getElem?_versIn, hi]
      exact ⟨⟨by trivial, by trivial⟩, by trivial, h⟩
    | some e =>
      obtain ⟨r, b⟩ := e
      have hmem := List.mem_of_getElem? hi
      cases b with
      | map M =>
        have := session_asks (ρ := ρ) (vs := [some (r, M)]) (c := .prove 0 k v) hc hroom hd trivial
          (by
            simp only [Cmd.hashed, at?_rootsIn, hi] at hcf
            exact hcf)
          (h.answers hc hcf0 (by rintro e he; cases List.mem_singleton.1 he; exact hmem)) (by rintro _ _ ⟨⟩)
        obtain ⟨a1, a2, a3, a4⟩ := this
        simp only [Cmd.run, Cmd.spec, Cmd.Allowed, Cmd.hashed, at?_rootsIn, getElem?_versIn, hi, at?_rootsOf,
          at?_contentsOf, Option.map_some] at a1 ⊢
        refine ⟨⟨by trivial, ?_⟩, ?_, ?_⟩
        · refine Eq.trans ?_ a1
          simp only [at?, List.getElem?_cons_zero, Option.join_some, Option.map_some]
          repeat' split
          all_goals simp_all
        · repeat' split
          all_goals rfl
        · have h' := h.more (Cmd.hashed cfg (rootsIn es) s (.prove i k v))
          simp only [Cmd.hashed, at?_rootsIn, hi, Option.map_some] at h'
          rcases (cfg.api ρ).generateInclusionProof s r k with _ | p
          · exact h'
          · rcases hv : (cfg.api ρ).verifyInclusionProof r k v p with _ | _
            all_goals simp only [hv]
            all_goals exact h'
      | only M =>
        have h' := h.more (Cmd.hashed cfg (rootsIn es) s (.prove i k v))
        simp only [Cmd.run, Cmd.Allowed, Cmd.hashed, at?_rootsIn, getElem?_versIn, hi, Option.map_some] at h' ⊢
        rcases (cfg.api ρ).generateInclusionProof s r k with _ | p
        · exact ⟨⟨by trivial, _, rfl⟩, by trivial, h'⟩
        · rcases hv : (cfg.api ρ).verifyInclusionProof r k v p with _ | _
          all_goals simp only [hv]
          all_goals exact ⟨⟨by trivial, _, rfl⟩, by trivial, h'⟩
      | any =>
        have h' := h.more (Cmd.hashed cfg (rootsIn es) s (.prove i k v))
        simp only [Cmd.run, Cmd.Allowed, Cmd.hashed, at?_rootsIn, getElem?_versIn, hi, Option.map_some] at h' ⊢
        rcases (cfg.api ρ).generateInclusionProof s r k with _ | p
        · exact ⟨⟨by trivial, _, rfl⟩, by trivial, h'⟩
        · rcases hv : (cfg.api ρ).verifyInclusionProof r k v p with _ | _
          all_goals simp only [hv]
          all_goals exact ⟨⟨by trivial, _, rfl⟩, by trivial, h'⟩
  | same i j =>
    refine ⟨es, L, ?_⟩
    simp only [Cmd.run, Cmd.Allowed, Cmd.hashed, at?_rootsIn, getElem?_versIn]
    cases hi : es[i]? with
    | none => exact ⟨⟨by trivial, by trivial⟩, by trivial, h⟩
    | some e =>
      cases hj : es[j]? with
      | none =>
        obtain ⟨r, b⟩ := e
        cases b <;> exact ⟨⟨by trivial, by trivial⟩, by trivial, h⟩
      | some e' =>
        obtain ⟨r, b⟩ := e
        obtain ⟨r', b'⟩ := e'
        have hmem := List.mem_of_getElem? hi
        have hmem' := List.mem_of_getElem? hj
        simp only [Option.map_some]
        refine ⟨⟨trivial, ?_⟩, trivial, h⟩
        cases b <;> cases b' <;> first | exact ⟨_, rfl⟩ | skip
        rename_i M M'
        have := session_asks (ρ := ρ) (vs := [some (r, M), some (r', M')]) (c := .same 0 1) hc hroom hd trivial
          hcf0 (h.answers hc hcf0 (by
            rintro e he
            rcases List.mem_cons.1 he with he | he
            · cases he; exact hmem
            · cases List.mem_singleton.1 he; exact hmem')) (by rintro _ _ ⟨⟩)
        exact this.1
  | remove i => exact hk.elim
  | crashRemove n i => exact hk.elim
  | reopen =>
    obtain ⟨e1, e2, e3⟩ := hρ s
    obtain ⟨⟨H0, R, hH, hins⟩, hal, hkn⟩ := h
    refine ⟨es, L, ⟨rfl, rfl⟩, rfl, ⟨_, _, hH, .reopen hins e1 e2⟩, e3 hal, fun e he => ?_⟩
    have := hkn e he
    rw [← e1] at this
    exact this
  | crash n prev keys values =>
    rcases root?_rootsIn es prev with ⟨h1, h2⟩ | ⟨r, b, h1, h2, h3⟩
    · refine ⟨es, L, ?_⟩
      simp only [Cmd.run, Cmd.Allowed, Cmd.hashed, h1]
      exact ⟨⟨trivial, trivial⟩, trivial, h⟩
    · refine ⟨es, L, ?_⟩
      simp only [Cmd.hashed, h1] at hcf
      simp only [Cmd.run, Cmd.Allowed, Cmd.hashed, h1, Config.api]
      have hext : (C.view s).Ext (C.view (insert cfg.crash r keys values (s, n)).2.1) := by
        obtain ⟨⟨H0, R, hH, hins⟩, hal, hkn⟩ := h
        have hsound := hins.sound hc (hcf0.mono hH)
        exact insert_crash_ext (C := C) hc hcf (fun i hi => List.mem_append_left _ hi)
          ⟨hsound.view.mono (fun i hi => List.mem_append_right _ (hH i hi)),
            hsound.pending.mono (fun i hi => List.mem_append_right _ (hH i hi))⟩
      have ha := insert_crash_alive (cfg := cfg) h.alive n r keys values
      rcases hrun : insert cfg.crash r keys values (s, n) with ⟨res, s', n'⟩
      rw [hrun] at ha hext
      cases res with
      | ok r' => exact ⟨⟨by trivial, by trivial⟩, by trivial, h.more _⟩
      | error e =>
        obtain ⟨e1, e2, e3⟩ := hρ s'
        obtain ⟨⟨H0, R, hH, hins⟩, hal, hkn⟩ := h
        refine ⟨⟨by trivial, by trivial⟩, by trivial, ⟨_, _, append_sub hH, .reopen (.crash hins hrun) e1 e2⟩, e3 ha, fun e he => ?_⟩
        have := (hkn e he).mono (fun _ h => h) hext
        rw [← e1] at this
        exact this

/-- All calls. -/
theorem any_session (hc : Sane cfg) (hroom : cfg.Room) (hd : 8 * N < cfg.depth)
    (hρ : ∀ s, C.view (ρ s) = C.view s ∧ C.pending (ρ s) = View.empty N ∧ (C.alive s → C.alive (ρ s))) :
    ∀ (cs : List (Cmd N V)) {H : List (HIn N)} {es : List (Arr N × Ver N V)} {L : Ledger N V} {s : σ},
    CollisionFree cfg.hasher (Among (hashedBySession cfg ρ cs (rootsIn es) s ++ H)) →
    InAny cfg C H es L s → (∀ c ∈ cs, c.Keeps) →
    AllowedSession cfg cs (runSession (cfg.api ρ) cs (rootsIn es) s) (versIn es)
  | [], _, _, _, _, _, _, _ => rfl
  | c :: cs, H, es, L, s, hcf, h, hk => by
    obtain ⟨es', L', h1, h2, h3⟩ := any_step hc hroom hd hρ
      (hcf.mono (U := Among (c.hashed cfg (rootsIn es) s ++ H)) (fun i hi => by
        rw [hashedBySession, List.append_assoc]
        exact List.mem_append_right _ hi)) h (hk c List.mem_cons_self)
    rw [hashedBySession, List.append_assoc, h2] at hcf
    have h4 := any_session hc hroom hd hρ cs hcf h3 (fun c hc => hk c (List.mem_cons_of_mem _ hc))
    refine ⟨_, _, _, rfl, h1, ?_⟩
    rw [h2]
    exact h4

end MerkleBit
