import Verif.Proof.Touched
import Verif.Proof.Live
import Verif.Props.Remove
/-!
# C73, C74: what calls depend on and what `remove` touches

No history is assumed: the database may hold any nodes at all, also with wrong reference counts, and the
root may be any location.  `Below v [r]` are the places reached from `r` by following pointers.
-/

namespace MerkleBit
section
variable {N : Nat} {σ V : Type} {cfg : Config N σ V} {C : DbContract cfg.db} {s s' : σ}

/-! ## C73 -/

/-- C73, removes: whatever is stored, and whether the call succeeds or not, `remove` changes nothing that
cannot be reached from its root; a node that is still there points where it pointed and has no more
references than before. -/
theorem C73_remove_stays_below (hp : C.pending s = View.empty N) (r : Arr N) :
    (∀ y, ¬ Below (C.view s) [r] y → C.view (remove cfg r s).2 y = C.view s y) ∧
    ∀ y n, C.view (remove cfg r s).2 y = some n →
      ∃ m, C.view s y = some m ∧ n.variant = m.variant ∧ n.references ≤ m.references :=
  have h := remove_within (C := C) hp r
  ⟨fun y hy => (h.out y hy).1, fun y n hn => h.sub y n (.inl hn)⟩

/-- C73, removes that are interrupted: likewise when the process dies after `n` of the database calls. -/
theorem C73_interrupted_remove_stays_below (hp : C.pending s = View.empty N) (n : Nat) (r : Arr N) :
    (∀ y, ¬ Below (C.view s) [r] y → C.view (remove cfg.crash r (s, n)).2.1 y = C.view s y) ∧
    ∀ y n', C.view (remove cfg.crash r (s, n)).2.1 y = some n' →
      ∃ m, C.view s y = some m ∧ n'.variant = m.variant ∧ n'.references ≤ m.references :=
  have h := remove_within (cfg := cfg.crash) (C := C.crash) (s := (s, n)) hp r
  ⟨fun y hy => (h.out y hy).1, fun y n' hn => h.sub y n' (.inl hn)⟩

/-- C73, reads: two databases that agree on what is below `r` answer alike: every `get`, `get_one` and
`generate_inclusion_proof` under `r`, errors included. -/
theorem C73_reads_look_below (hs : C.alive s) (hs' : C.alive s') {r : Arr N}
    (h : ∀ x, Below (C.view s) [r] x → C.view s' x = C.view s x) :
    (∀ k, getOne cfg s' r k = getOne cfg s r k) ∧ (∀ ks, get cfg s' r ks = get cfg s r ks) ∧
    ∀ k, generateInclusionProof cfg s' r k = generateInclusionProof cfg s r k := by
  have hc := closed_below (C := C) hs hs' h
  have hr : Below (C.view s) [r] r := .root List.mem_cons_self
  exact ⟨getOne_closed hc hr, get_closed hc hr, proof_closed hc hr⟩

/-- C73: removing `r` succeeds and leaves all answers under a root `r'` as they were, if nothing can be
reached from both. -/
theorem C73_remove_spares_unrelated (hs : C.alive s) (hp : C.pending s = View.empty N) {r r' : Arr N}
    (h : ∀ x, Below (C.view s) [r] x → ¬ Below (C.view s) [r'] x) :
    ∃ s', remove cfg r s = (.ok (), s') ∧ (∀ k, getOne cfg s' r' k = getOne cfg s r' k) ∧
      (∀ ks, get cfg s' r' ks = get cfg s r' ks) ∧
      ∀ k, generateInclusionProof cfg s' r' k = generateInclusionProof cfg s r' k := by
  obtain ⟨s', hr, hs'⟩ := remove_alive (cfg := cfg) hs r
  refine ⟨s', hr, C73_reads_look_below hs hs' fun x hx => ?_⟩
  have := (C73_remove_stays_below (cfg := cfg) hp r).1 x (fun hx' => h x hx' hx)
  rwa [hr] at this

/-! ## C74 -/

/-- C74: whatever is stored, and whether the call succeeds or not, `remove` deletes no place twice, deletes
and writes only at places that hold a node and can be reached from its root, and writes at most one time
more often than it deletes.  (`Config.touched` keeps lists of these places and behaves the same otherwise,
as the last two lines say.) -/
theorem C74_work_of_remove (hp : C.pending s = View.empty N) (r : Arr N) :
    ∃ (written deleted : List (Arr N)),
      remove cfg.touched r (s, [], []) = ((remove cfg r s).1, (remove cfg r s).2, written, deleted) ∧
      deleted.Nodup ∧
      (∀ x ∈ deleted, Below (C.view s) [r] x ∧ C.view s x ≠ none) ∧
      (∀ x ∈ written, Below (C.view s) [r] x ∧ C.view s x ≠ none) ∧
      written.length ≤ deleted.length + 1 := by
  obtain ⟨h1, h2, h3, h4⟩ := remove_work (cfg := cfg) hp r
  obtain ⟨e1, e2⟩ := remove_touched (cfg := cfg) r s
  exact ⟨_, _, Prod.ext e1 (Prod.ext e2 rfl), h1, h2, h3, by rw [Nat.add_comm]; exact h4⟩

/-- No pointer leaves a set of places. -/
def closedCheck (v : View N) (S : List (Arr N)) : Bool :=
  S.all fun x => match v x with
    | none => true
    | some n => n.variant.children.all fun y => decide (y ∈ S)

/-- Such a set holds everything below its members. -/
theorem below_subset {v : View N} {R S : List (Arr N)} (hR : ∀ x ∈ R, x ∈ S) (hS : closedCheck v S = true)
    {x : Arr N} (h : Below v R x) : x ∈ S := by
  induction h with
  | root hx => exact hR _ hx
  | @child x y n _ hn hx ih =>
    have := List.all_eq_true.1 hS y ih
    rw [hn] at this
    exact of_decide_eq_true (List.all_eq_true.1 this x hx)

end

/-! ## A concrete case -/

namespace Toy

/-- A database with two versions that have nothing in common, and a third that extends the first. -/
def apart : List (Arr 2) × HashDB 2 :=
  match insert cfg none [key 1, key 2] [[1], [2]] db0 with
  | (.ok r, s) => match insert cfg none [key 3, key 0x8000] [[3], [4]] s with
    | (.ok r', s) => match insert cfg (some r) [key 5] [[5]] s with
      | (.ok r'', s) => ([r, r', r''], s)
      | (_, s) => ([], s)
    | (_, s) => ([], s)
  | (_, s) => ([], s)

theorem apart_roots : apart.1 = [key 54938, key 43697, key 46985] := by decide +kernel

/-- What is below the second root, and what is below the third. -/
theorem apart_below : (∀ x, Below (C.view apart.2) [key 43697] x →
      x ∈ [43697, 26494, 31975, 118, 64346].map key) ∧
    ∀ x, Below (C.view apart.2) [key 46985] x →
      x ∈ [46985, 54938, 28068, 64862, 24920, 25707, 64088, 63830].map key :=
  ⟨fun _ h => below_subset (by simp) (by decide +kernel) h,
    fun _ h => below_subset (by simp) (by decide +kernel) h⟩

/-- The hypothesis of C73 is met: the second version is removed, the third reads as before. -/
example : ∃ s', remove cfg (key 43697) apart.2 = (.ok (), s') ∧
    getOne cfg s' (key 46985) (key 2) = .ok (some [2]) ∧ getOne cfg s' (key 46985) (key 5) = .ok (some [5]) ∧
    getOne cfg s' (key 43697) (key 3) = .ok none := by
  obtain ⟨s', h1, h2, -⟩ := C73_remove_spares_unrelated (cfg := cfg) (C := C) (s := apart.2) (alive _) rfl
    (r := key 43697) (r' := key 46985) (fun x h h' => by
      have : ∀ x ∈ [43697, 26494, 31975, 118, 64346].map key,
        x ∉ [46985, 54938, 28068, 64862, 24920, 25707, 64088, 63830].map key := by simp [key]
      exact this x (apart_below.1 x h) (apart_below.2 x h'))
  refine ⟨s', h1, (h2 _).trans (by decide +kernel), (h2 _).trans (by decide +kernel), ?_⟩
  have : s' = (remove cfg (key 43697) apart.2).2 := by rw [h1]
  rw [this]
  decide +kernel

/-- Removing the second version deletes its five nodes. -/
example : (remove cfg.touched (key 43697) (apart.2, [], [])).2.2 =
    ([], [118, 64346, 31975, 26494, 43697].map key) := by decide +kernel

/-- Removing the first, which the third uses, writes once and deletes nothing: the bound of C74 is
reached. -/
example : (remove cfg.touched (key 54938) (apart.2, [], [])).2.2 = ([key 54938], []) := by decide +kernel

end Toy

/-- The limit of C73: a version that shares places with the removed one may be damaged.  (The reference
counts are wrong here, as in `C19_false`: a pair was inserted again.) -/
theorem C73_shared_places_matter : ∃ (s : HashDB 2) (r r' k : Arr 2),
    Toy.C.pending s = View.empty 2 ∧ getOne Toy.cfg s r' k = .ok (some [20]) ∧
    (∃ x, Below (Toy.C.view s) [r] x ∧ Below (Toy.C.view s) [r'] x) ∧
    getOne Toy.cfg (remove Toy.cfg r s).2 r' k = .ok none := by
  refine ⟨Toy.d3.2, Toy.key 59708, Toy.key 24207, Toy.key 2, rfl, by decide +kernel,
    ⟨Toy.key 59708, .root List.mem_cons_self, ?_⟩, by decide +kernel⟩
  have h : ((Toy.C.view Toy.d3.2 (Toy.key 24207)).any fun n =>
      decide (Toy.key 59708 ∈ n.variant.children)) = true := by decide +kernel
  obtain ⟨n, hn, hc⟩ := (Option.any_eq_true _ _).1 h
  exact .child (.root List.mem_cons_self) hn (of_decide_eq_true hc)

end MerkleBit
