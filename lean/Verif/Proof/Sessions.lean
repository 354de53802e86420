import Verif.Spec.Session
import Verif.Proof.Reads
import Verif.Proof.Mirror
import Verif.Proof.Heights
import Verif.Props.Versions
import Verif.Props.InclusionProofs
import Verif.Props.Calls
import Verif.Props.Remove
import Verif.Props.Live
/-! # Sessions -/

namespace MerkleBit
variable {N : Nat} {σ τ V : Type} {cfg : Config N σ V} {C : DbContract cfg.db}

/-! ## A database that works keeps working -/

/-- A state on which no call fails, before and after. -/
def aliveMeter {db : Database N σ} (C : DbContract db) : Meter db db where
  I _ _ s t := t = s ∧ C.alive s
  Seen _ _ := True
  mono h _ _ := h
  get h := by rw [h.1]
  seen _ := trivial
  fresh := by
    rintro i j s _ x n ⟨rfl, hs⟩
    obtain ⟨s', h1, h2, -⟩ := alive_put hs x n
    exact ⟨rfl, rfl, by rw [h1]; exact h2⟩
  again := by
    rintro i j s _ x n - ⟨rfl, hs⟩
    obtain ⟨s', h1, h2, -⟩ := alive_put hs x n
    exact ⟨rfl, by rw [h1]; exact h2⟩
  flush := by
    rintro i j s _ ⟨rfl, hs⟩
    obtain ⟨s', h1, h2⟩ := alive_flush hs
    exact ⟨rfl, rfl, by rw [h1]; exact h2⟩
  insert_seen h := h
  flush_seen h := h

theorem insert_alive {s : σ} (hs : C.alive s) (prev : Option (Arr N)) (keys : List (Arr N))
    (values : List V) : C.alive (insert cfg prev keys values s).2 :=
  (costs_insert (K := aliveMeter C) (P := fun _ => True) (cfg := cfg) prev keys values 0 0 s s trivial
    ⟨rfl, hs⟩).2.1.2

/-- Also if the process dies on the way. -/
def aliveCrashMeter {db : Database N σ} (C : DbContract db) : Meter (crashDb db) (crashDb db) where
  I _ _ s t := t = s ∧ C.alive s.1
  Seen _ _ := True
  mono h _ _ := h
  get h := by rw [h.1]
  seen _ := trivial
  fresh := by
    rintro i j ⟨s, m⟩ _ x n ⟨rfl, hs⟩
    obtain ⟨s', h1, h2, -⟩ := alive_put hs x n
    refine ⟨rfl, rfl, ?_⟩
    cases m with
    | zero => exact hs
    | succ m => exact (congrArg (fun q => C.alive q.2) h1).mpr h2
  again := by
    rintro i j ⟨s, m⟩ _ x n - ⟨rfl, hs⟩
    obtain ⟨s', h1, h2, -⟩ := alive_put hs x n
    refine ⟨rfl, ?_⟩
    cases m with
    | zero => exact hs
    | succ m => exact (congrArg (fun q => C.alive q.2) h1).mpr h2
  flush := by
    rintro i j ⟨s, m⟩ _ ⟨rfl, hs⟩
    obtain ⟨s', h1, h2⟩ := alive_flush hs
    refine ⟨rfl, rfl, ?_⟩
    cases m with
    | zero => exact hs
    | succ m => exact (congrArg (fun q => C.alive q.2) h1).mpr h2
  insert_seen h := h
  flush_seen h := h

theorem insert_crash_alive {s : σ} (hs : C.alive s) (n : Nat) (prev : Option (Arr N))
    (keys : List (Arr N)) (values : List V) : C.alive (insert cfg.crash prev keys values (s, n)).2.1 :=
  (costs_insert (K := aliveCrashMeter C) (P := fun _ => True) (cfg := cfg.crash) prev keys values 0 0
    (s, n) (s, n) trivial ⟨rfl, hs⟩).2.1.2

/-! ## Contents -/

theorem set_eq_assign (M : Contents N V) (k : Arr N) (v : V) : M.set k v = M.assign [k] [v] := by
  funext k'
  unfold Contents.set Contents.assign
  by_cases h : k' = k
  · simp [h]
  · simp [h, Ne.symm h]

/-! ## Versions and roots -/

section
variable {α β : Type}

theorem at?_map (f : α → β) (vs : List (Option α)) (i : Nat) :
    at? (vs.map (Option.map f)) i = (at? vs i).map f := by
  unfold at?
  rw [List.getElem?_map]
  cases vs[i]? with
  | none => rfl
  | some o => cases o <;> rfl

theorem at?_mem {vs : List (Option α)} {i : Nat} {a : α} (h : at? vs i = some a) : some a ∈ vs := by
  unfold at? at h
  cases hi : vs[i]? with
  | none => rw [hi] at h; cases h
  | some o =>
    rw [hi] at h
    cases h
    exact List.mem_of_getElem? hi

end

/-- The roots of versions. -/
def rootsOf (vs : List (Option (Arr N × Contents N V))) : List (Option (Arr N)) := vs.map (Option.map Prod.fst)

/-- The contents of versions. -/
def contentsOf (vs : List (Option (Arr N × Contents N V))) : List (Option (Contents N V)) :=
  vs.map (Option.map Prod.snd)

variable {H : List (HIn N)} {R : List (Arr N)} {L : Ledger N V} {s : σ} {rs : List (Option (Arr N))}
  {Ms : List (Option (Contents N V))} {vs : List (Option (Arr N × Contents N V))}

theorem at?_rootsOf (i : Nat) : at? (rootsOf vs) i = (at? vs i).map Prod.fst := at?_map _ _ _

theorem at?_contentsOf (i : Nat) : at? (contentsOf vs) i = (at? vs i).map Prod.snd := at?_map _ _ _

theorem len_rootsOf : (rootsOf vs).length = (contentsOf vs).length := by simp [rootsOf, contentsOf]

theorem base_cases (hL : ∀ e, some e ∈ vs → e ∈ L) (prev : Option Nat) :
    (root? (rootsOf vs) prev = none ∧ base? Contents.empty (contentsOf vs) prev = none) ∨
    ∃ r M, root? (rootsOf vs) prev = some r ∧ base? Contents.empty (contentsOf vs) prev = some M ∧
      L.Prev r M := by
  cases prev with
  | none => exact .inr ⟨none, Contents.empty, rfl, rfl, rfl⟩
  | some i =>
    have e1 : root? (rootsOf vs) (some i) = (at? vs i).map (fun e => some e.1) := by
      show at? (List.map (Option.map some) (rootsOf vs)) i = _
      rw [at?_map, at?_rootsOf]
      cases at? vs i <;> rfl
    have e2 : base? Contents.empty (contentsOf vs) (some i) = (at? vs i).map Prod.snd := at?_contentsOf i
    rw [e1, e2]
    cases h : at? vs i with
    | none => exact .inl ⟨rfl, rfl⟩
    | some e => exact .inr ⟨_, _, rfl, rfl, hL e (at?_mem h)⟩

/-! ## Questions -/

variable {ρ : σ → σ}

/-- What is needed to answer questions: a database that works, in which all versions are stored. -/
structure Answers (cfg : Config N σ V) (C : DbContract cfg.db) (H : List (HIn N))
    (vs : List (Option (Arr N × Contents N V))) (s : σ) : Prop where
  alive : C.alive s
  honest : Honest cfg.hasher (Among H) (C.view s)
  version : ∀ e, some e ∈ vs → IsVersion cfg (C.view s) e.1 e.2

theorem answers_same (h : Answers cfg C H vs s) (hc : Sane cfg) (hcf : CollisionFree cfg.hasher (Among H))
    {e e' : Arr N × Contents N V} (he : some e ∈ vs) (he' : some e' ∈ vs) : e.1 = e'.1 ↔ e.2 = e'.2 := by
  obtain ⟨T, hwf, hl, hst, hM⟩ := h.version e he
  obtain ⟨T', hwf', hl', hst', hM'⟩ := h.version e' he'
  constructor
  · intro heq
    have : T = T' := Trie.eq_of_loc hcf (hst.honest hcf h.honest).2 (hst'.honest hcf h.honest).2
      (hl.trans (heq.trans hl'.symm))
    subst this
    funext k
    have h1 := hM k
    have h2 := hM' k
    exact h1.unique hc.codec h2
  · intro heq
    rw [heq] at hM
    have : T = T' := Represents.unique hwf hwf' hM hM'
    rw [← hl, ← hl', this]

theorem answers_prove (h : Answers cfg C H vs s) (hc : Sane cfg) {e : Arr N × Contents N V}
    (he : some e ∈ vs) {k : Arr N} {v : V} {p : List (Arr N × Bool)}
    (hcf : ∀ b, cfg.encode v = .ok b → CollisionFree cfg.hasher (Among (verifyInputs cfg.hasher k b p ++ H)))
    (hv : verifyInclusionProof cfg.hasher cfg.encode e.1 k v p = .ok ()) : e.2 k = some v := by
  obtain ⟨b0, _, _, _, hb0, -, -⟩ := (verify_iff _ _ _ _ _ _).1 hv
  have hU := hcf b0 hb0
  obtain ⟨T, hwf, hl, hst, hM⟩ := h.version e he
  have hU0 : CollisionFree cfg.hasher (Among H) := hU.mono (fun _ hi => List.mem_append_right _ hi)
  rw [← hl] at hv
  obtain ⟨b, -, -, hb, hmem, -⟩ := version_verify hU hwf
    (fun i hi => List.mem_append_right _ ((hst.honest hU0 h.honest).2 i hi)) (by
      intro b hb i hi
      rw [hb0] at hb
      cases hb
      exact List.mem_append_left _ hi) hv
  obtain ⟨w, h1, h2, -⟩ := hM.decode hwf hc.codec hmem
  rw [hc.codec v b hb] at h2
  cases h2
  exact h1

/-- The questions of a session. -/
def Cmd.Asks : Cmd N V → Prop
  | .read _ _ => True
  | .readOne _ _ => True
  | .prove _ _ _ => True
  | .same _ _ => True
  | _ => False

theorem session_asks (hc : Sane cfg) (hroom : cfg.Room) (hd : 8 * N < cfg.depth)
    {c : Cmd N V} (hask : c.Asks)
    (hcf : CollisionFree cfg.hasher (Among (c.hashed cfg (rootsOf vs) s ++ H)))
    (h : Answers cfg C H vs s)
    (hone : ∀ i keys, c = .read i keys → ∀ M, at? (contentsOf vs) i = some M → Clear M keys) :
    (c.run (cfg.api ρ) (rootsOf vs) s).1.1 = (c.spec cfg.encode (contentsOf vs)).1 ∧
    (c.run (cfg.api ρ) (rootsOf vs) s).1.2 = rootsOf vs ∧
    (c.spec cfg.encode (contentsOf vs)).2 = contentsOf vs ∧
    (c.run (cfg.api ρ) (rootsOf vs) s).2 = s := by
  have hcf0 : CollisionFree cfg.hasher (Among H) := hcf.mono (fun i hi => List.mem_append_right _ hi)
  have hb := fun (M : Contents N V) => heightBelow_of_bits M hd
  cases c with
  | read i keys =>
    replace hone := hone i keys rfl
    rw [at?_contentsOf] at hone
    simp only [Cmd.run, Cmd.spec, at?_rootsOf, at?_contentsOf]
    cases hi : at? vs i with
    | none => exact ⟨rfl, rfl, rfl, rfl⟩
    | some e =>
      rw [hi] at hone
      obtain ⟨m, h1, -, -, h4⟩ := version_get (C := C) hc.pos hc.pp hc.codec (hb e.2).succ
        (h.version e (at?_mem hi)) keys
      have hm : (cfg.api ρ).get s e.1 keys = .ok m := h1.alive h.alive
      simp only [Option.map_some, hm]
      refine ⟨?_, trivial, trivial, trivial⟩
      rw [List.map_congr_left (fun k hk => (h4 k hk).2 (.inr (handled_of_clear hc (hone e.2 rfl) k hk)))]
  | readOne i k =>
    simp only [Cmd.run, Cmd.spec, at?_rootsOf, at?_contentsOf]
    cases hi : at? vs i with
    | none => exact ⟨rfl, rfl, rfl, rfl⟩
    | some e =>
      have hm : (cfg.api ρ).getOne s e.1 k = .ok (e.2 k) :=
        (version_getOne (C := C) hc.pos hc.codec (hb e.2) (h.version e (at?_mem hi)) k).alive h.alive
      simp only [Option.map_some, hm]
      exact ⟨trivial, trivial, trivial, trivial⟩
  | prove i k v =>
    simp only [Cmd.run, Cmd.spec, at?_rootsOf, at?_contentsOf]
    simp only [Cmd.hashed, at?_rootsOf] at hcf
    cases hi : at? vs i with
    | none => exact ⟨rfl, rfl, rfl, rfl⟩
    | some e =>
      rw [hi] at hcf
      simp only [Option.map_some] at hcf ⊢
      cases hMk : e.2 k with
      | none =>
        obtain ⟨msg, hm⟩ := version_no_proof (C := C) hc.pos (h.version e (at?_mem hi)) hMk
        have hm' : (cfg.api ρ).generateInclusionProof s e.1 k = .error (.exception msg) := by
          show generateInclusionProof cfg s e.1 k = _
          rw [generateInclusionProof_room hroom, hm]
        rw [hm']
        simp
      | some w =>
        obtain ⟨p, hgen, hver⟩ := version_proof (C := C) hc.pos (hb e.2) (h.version e (at?_mem hi)) hMk
        have hg : generateInclusionProof cfg s e.1 k = .ok p := by
          rw [generateInclusionProof_room hroom]; exact hgen.alive h.alive
        have hg' : (cfg.api ρ).generateInclusionProof s e.1 k = .ok p := hg
        simp only [hg']
        by_cases hvw : w = v
        · subst hvw
          have : (cfg.api ρ).verifyInclusionProof e.1 k w p = .ok () := hver
          rw [this]
          simp
        · cases hv : (cfg.api ρ).verifyInclusionProof e.1 k v p with
          | error e => simp [hvw]
          | ok u =>
            exfalso
            have := answers_prove h hc (at?_mem hi) (k := k) (v := v) (p := p) (by
              intro b hbv
              simp only [hg, hbv] at hcf
              exact hcf) hv
            rw [hMk] at this
            exact hvw (Option.some.inj this)
  | same i j =>
    simp only [Cmd.run, Cmd.spec, at?_rootsOf, at?_contentsOf]
    cases hi : at? vs i with
    | none => exact ⟨rfl, rfl, rfl, rfl⟩
    | some e =>
      cases hj : at? vs j with
      | none => exact ⟨rfl, rfl, rfl, rfl⟩
      | some e' =>
        simp only [Option.map_some]
        refine ⟨?_, trivial, trivial, trivial⟩
        congr 1
        exact decide_eq_decide.2 (answers_same h hc hcf0 (at?_mem hi) (at?_mem hj))
  | _ => exact hask.elim

/-! ## Sessions without removals -/

/-- The state of a session. -/
def InSession (cfg : Config N σ V) (C : DbContract cfg.db) (H : List (HIn N)) (rs : List (Option (Arr N)))
    (Ms : List (Option (Contents N V))) (s : σ) : Prop :=
  ∃ vs H0 R L, rs = rootsOf vs ∧ Ms = contentsOf vs ∧ (∀ i ∈ H0, i ∈ H) ∧ Inserts cfg C H0 R L s ∧
    C.alive s ∧ ∀ e, some e ∈ vs → e ∈ L

theorem push_mem {e : Arr N × Contents N V} (hL : ∀ e, some e ∈ vs → e ∈ L) :
    ∀ e', some e' ∈ vs ++ [some e] → e' ∈ e :: L := by
  intro e' he
  rcases List.mem_append.1 he with he | he
  · exact List.mem_cons_of_mem _ (hL e' he)
  · simp at he; rw [he]; exact List.mem_cons_self

theorem rootsOf_push (e : Arr N × Contents N V) : rootsOf (vs ++ [some e]) = rootsOf vs ++ [some e.1] := by
  simp [rootsOf]

theorem contentsOf_push (e : Arr N × Contents N V) :
    contentsOf (vs ++ [some e]) = contentsOf vs ++ [some e.2] := by
  simp [contentsOf]

/-- An insert is refused if its arguments are bad. -/
theorem insert_refuses (hN : 0 < N) {r : Option (Arr N)} {keys : List (Arr N)} {values : List V}
    (hok : ¬ (keys.length = values.length ∧ keys ≠ [] ∧ keys.Nodup ∧
      ∀ v ∈ values, ∃ b, cfg.encode v = .ok b)) (s : σ) : ∃ e, (insert cfg r keys values s).1 = .error e := by
  by_cases h1 : keys.length = values.length
  · by_cases h2 : keys = []
    · obtain ⟨msg, h⟩ := C12_bad_arguments cfg r keys values (.inr h2) s
      exact ⟨_, by rw [h]⟩
    · by_cases h3 : keys.Nodup
      · have h4 : ¬ ∀ v ∈ values, ∃ b, cfg.encode v = .ok b := fun h4 => hok ⟨h1, h2, h3, h4⟩
        push Not at h4
        obtain ⟨v, hv, hne⟩ := h4
        cases he : cfg.encode v with
        | ok b => exact absurd he (hne b)
        | error e => exact C42_unencodable_rejected hN cfg r keys values hv he s
      · exact C13_duplicates_rejected hN cfg r keys values h3 s
  · obtain ⟨msg, h⟩ := C12_bad_arguments cfg r keys values (.inl h1) s
    exact ⟨_, by rw [h]⟩

theorem append_sub {A B B' : List (HIn N)} (h : ∀ i ∈ B, i ∈ B') : ∀ i ∈ A ++ B, i ∈ A ++ B' :=
  fun i hi => (List.mem_append.1 hi).elim (List.mem_append_left _) (fun h' => List.mem_append_right _ (h i h'))

open Classical in
theorem session_insert (hc : Sane cfg) (hd : 8 * N < cfg.depth) {r : Option (Arr N)}
    {M : Contents N V} {keys : List (Arr N)} {values : List V}
    {H0 : List (HIn N)} (hH : ∀ i ∈ H0, i ∈ H)
    (hcf : CollisionFree cfg.hasher (Among (hashedBy cfg r keys values s ++ H)))
    (h : Inserts cfg C H0 R L s) (hs : C.alive s) (hL : ∀ e, some e ∈ vs → e ∈ L) (hr : L.Prev r M)
    (hns : Handled cfg M keys) :
    ∃ rs' Ms', Reply.ofInsert (V := V) (rootsOf vs) (insert cfg r keys values s).1 =
        ((if keys.length = values.length ∧ keys ≠ [] ∧ keys.Nodup ∧
          ∀ v ∈ values, ∃ b, cfg.encode v = .ok b then .version (contentsOf vs).length else .refused), rs') ∧
      Ms' = (if keys.length = values.length ∧ keys ≠ [] ∧ keys.Nodup ∧
          ∀ v ∈ values, ∃ b, cfg.encode v = .ok b then contentsOf vs ++ [some (M.assign keys values)]
        else contentsOf vs) ∧
      InSession cfg C (hashedBy cfg r keys values s ++ H) rs' Ms' (insert cfg r keys values s).2 := by
  replace hcf : CollisionFree cfg.hasher (Among (hashedBy cfg r keys values s ++ H0)) := hcf.mono (append_sub hH)
  by_cases hok : keys.length = values.length ∧ keys ≠ [] ∧ keys.Nodup ∧
      ∀ v ∈ values, ∃ b, cfg.encode v = .ok b
  · obtain ⟨h1, h2, h3, h4⟩ := hok
    obtain ⟨r', s', hrun, hs', h'⟩ := h.insert_ok hc hs hcf hr
      (heightBelow_of_bits M (by omega)) hns h1 h2 h3 h4
    refine ⟨rootsOf vs ++ [some r'], contentsOf vs ++ [some (M.assign keys values)], ?_, ?_, ?_⟩
    · rw [hrun, if_pos ⟨h1, h2, h3, h4⟩, ← len_rootsOf]; rfl
    · rw [if_pos ⟨h1, h2, h3, h4⟩]
    · rw [hrun]
      exact ⟨vs ++ [some (r', M.assign keys values)], _, _, _, (rootsOf_push (r', M.assign keys values)).symm,
        (contentsOf_push (r', M.assign keys values)).symm,
        append_sub hH, h', hs', push_mem hL⟩
  · obtain ⟨e, he⟩ := insert_refuses (r := r) hc.pos hok s
    refine ⟨rootsOf vs, contentsOf vs, ?_, ?_, ?_⟩
    · rw [he, if_neg hok]; rfl
    · rw [if_neg hok]
    · exact ⟨vs, _, _, L, rfl, rfl, append_sub hH, Inserts.any h rfl, insert_alive hs r keys values, hL⟩

theorem session_step (hc : Sane cfg) (hroom : cfg.Room) (hd : 8 * N < cfg.depth)
    (hρ : ∀ s, C.view (ρ s) = C.view s ∧ C.pending (ρ s) = View.empty N ∧ (C.alive s → C.alive (ρ s)))
    {c : Cmd N V} (hcf : CollisionFree cfg.hasher (Among (c.hashed cfg rs s ++ H)))
    (h : InSession cfg C H rs Ms s) (hcare : c.Careful Ms) :
    (c.run (cfg.api ρ) rs s).1.1 = (c.spec cfg.encode Ms).1 ∧
    InSession cfg C (c.hashed cfg rs s ++ H) (c.run (cfg.api ρ) rs s).1.2 (c.spec cfg.encode Ms).2
      (c.run (cfg.api ρ) rs s).2 := by
  obtain ⟨vs, H0, R, L, rfl, rfl, hH, h, hs, hL⟩ := h
  have hcf0 : CollisionFree cfg.hasher (Among H0) :=
    hcf.mono (fun i hi => List.mem_append_right _ (hH i hi))
  have hH' : ∀ (A : List (HIn N)), ∀ i ∈ H0, i ∈ A ++ H := fun _ i hi => List.mem_append_right _ (hH i hi)
  have asks : ∀ {c : Cmd N V}, c.Asks → CollisionFree cfg.hasher (Among (c.hashed cfg (rootsOf vs) s ++ H)) →
      c.Careful (contentsOf vs) →
      (c.run (cfg.api ρ) (rootsOf vs) s).1.1 = (c.spec cfg.encode (contentsOf vs)).1 ∧
      InSession cfg C (c.hashed cfg (rootsOf vs) s ++ H) (c.run (cfg.api ρ) (rootsOf vs) s).1.2
        (c.spec cfg.encode (contentsOf vs)).2 (c.run (cfg.api ρ) (rootsOf vs) s).2 := by
    intro c hask hcf hcare
    obtain ⟨h1, h2, h3, h4⟩ := session_asks (ρ := ρ) hc hroom hd hask (hcf.mono (append_sub hH))
      (⟨hs, (h.sound hc hcf0).view, fun e he => h.version hc hcf0 (hL e he)⟩ : Answers cfg C H0 vs s)
      (by rintro i keys rfl; exact hcare)
    refine ⟨h1, ?_⟩
    rw [h2, h3, h4]
    exact ⟨vs, _, _, _, rfl, rfl, hH' _, h, hs, hL⟩
  have none : ∀ A : List (HIn N), InSession cfg C (A ++ H) (rootsOf vs) (contentsOf vs) s :=
    fun A => ⟨vs, _, _, _, rfl, rfl, hH' A, h, hs, hL⟩
  cases c with
  | put prev keys values =>
    rcases base_cases hL prev with ⟨h1, h2⟩ | ⟨r, M, h1, h2, h3⟩
    · simp only [Cmd.run, Cmd.spec, Cmd.hashed, h1, h2]
      exact ⟨trivial, none []⟩
    · simp only [Cmd.hashed, h1] at hcf
      have hns : Handled cfg M keys := handled_of_clear hc (hcare M h2)
      obtain ⟨rs', Ms', e1, e2, h4⟩ := session_insert hc hd hH hcf h hs hL h3 hns
      simp only [Cmd.run, Cmd.spec, Cmd.hashed, h1, h2, Config.api, e1]
      rw [e2] at h4
      split
      · rename_i hok
        rw [if_pos hok] at h4
        exact ⟨rfl, h4⟩
      · rename_i hok
        rw [if_neg hok] at h4
        exact ⟨rfl, h4⟩
  | putOne prev k v =>
    rcases base_cases hL prev with ⟨h1, h2⟩ | ⟨r, M, h1, h2, h3⟩
    · simp only [Cmd.run, Cmd.spec, Cmd.hashed, h1, h2]
      exact ⟨trivial, none []⟩
    · simp only [Cmd.hashed, h1] at hcf
      obtain ⟨rs', Ms', e1, e2, h4⟩ := session_insert hc hd hH hcf h hs hL h3 (handled_single hc k)
      have hiff : ([k].length = [v].length ∧ [k] ≠ [] ∧ [k].Nodup ∧
          ∀ v' ∈ [v], ∃ b, cfg.encode v' = .ok b) ↔ ∃ b, cfg.encode v = .ok b := by simp
      simp only [Cmd.run, Cmd.spec, Cmd.hashed, h1, h2, Config.api, C10_insert_one_is_insert, e1, set_eq_assign]
      rw [e2] at h4
      by_cases hok : ∃ b, cfg.encode v = .ok b
      · rw [if_pos (hiff.2 hok)] at h4 ⊢
        rw [if_pos hok]
        exact ⟨rfl, h4⟩
      · rw [if_neg (fun h => hok (hiff.1 h))] at h4 ⊢
        rw [if_neg hok]
        exact ⟨rfl, h4⟩
  | read i keys => exact asks trivial hcf hcare
  | readOne i k => exact asks trivial hcf hcare
  | prove i k v => exact asks trivial hcf hcare
  | same i j => exact asks trivial hcf hcare
  | remove i => exact hcare.elim
  | crashRemove n i => exact hcare.elim
  | reopen =>
    obtain ⟨e1, e2, e3⟩ := hρ s
    exact ⟨rfl, vs, _, _, _, rfl, rfl, hH, .reopen h e1 e2, e3 hs, hL⟩
  | crash n prev keys values =>
    rcases base_cases hL prev with ⟨h1, h2⟩ | ⟨r, M, h1, h2, h3⟩
    · simp only [Cmd.run, Cmd.spec, Cmd.hashed, h1]
      exact ⟨trivial, none []⟩
    · simp only [Cmd.run, Cmd.spec, Cmd.hashed, h1, Config.api]
      rcases hrun : insert cfg.crash r keys values (s, n) with ⟨res, s', n'⟩
      cases res with
      | ok r' => exact ⟨rfl, none _⟩
      | error e =>
        obtain ⟨e1, e2, e3⟩ := hρ s'
        have ha := insert_crash_alive (cfg := cfg) hs n r keys values
        rw [hrun] at ha
        exact ⟨rfl, vs, _, _, _, rfl, rfl, append_sub hH, .reopen (.crash h hrun) e1 e2, e3 ha, hL⟩

theorem session_eq (hc : Sane cfg) (hroom : cfg.Room) (hd : 8 * N < cfg.depth)
    (hρ : ∀ s, C.view (ρ s) = C.view s ∧ C.pending (ρ s) = View.empty N ∧ (C.alive s → C.alive (ρ s))) :
    ∀ (cs : List (Cmd N V)) {H : List (HIn N)} {rs : List (Option (Arr N))}
      {Ms : List (Option (Contents N V))} {s : σ},
    CollisionFree cfg.hasher (Among (hashedBySession cfg ρ cs rs s ++ H)) →
    InSession cfg C H rs Ms s → CarefulSession cfg.encode cs Ms →
    runSession (cfg.api ρ) cs rs s = specSession cfg.encode cs Ms
  | [], _, _, _, _, _, _, _ => rfl
  | c :: cs, H, rs, Ms, s, hcf, h, hcare => by
    obtain ⟨h1, h2⟩ := session_step hc hroom hd hρ
      (hcf.mono (U := Among (c.hashed cfg rs s ++ H)) (fun i hi => by
        rw [hashedBySession, List.append_assoc]
        exact List.mem_append_right _ hi)) h hcare.1
    have h3 := session_eq hc hroom hd hρ cs (by
      rw [hashedBySession, List.append_assoc] at hcf
      exact hcf) h2 hcare.2
    rw [runSession, specSession, h1, h3]

/-- Calls with one key each are careful. -/
theorem careful_oneAtATime {encode : V → Res (List UInt8)} : ∀ (cs : List (Cmd N V))
    (Ms : List (Option (Contents N V))), (∀ c ∈ cs, c.OneAtATime) → (∀ c ∈ cs, c.Keeps) → CarefulSession encode cs Ms
  | [], _, _, _ => trivial
  | c :: cs, Ms, h, hk => by
    refine ⟨?_, careful_oneAtATime cs _ (fun c hc => h c (List.mem_cons_of_mem _ hc))
      (fun c hc => hk c (List.mem_cons_of_mem _ hc))⟩
    have hc := h c List.mem_cons_self
    have hk := hk c List.mem_cons_self
    cases c with
    | put prev keys values =>
      intro M hM
      rcases hc with rfl | hc
      · cases hM; exact clear_empty _
      · exact clear_of_short hc
    | read i keys => exact fun M _ => clear_of_short hc
    | remove i => exact hk.elim
    | crashRemove n i => exact hk.elim
    | _ => trivial

end MerkleBit
