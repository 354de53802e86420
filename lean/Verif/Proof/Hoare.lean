import Verif.Model.MerkleBit
import Verif.Spec.Database
/-! # Hoare triples over faulty databases -/

namespace MerkleBit
variable {N : Nat} {σ V α β : Type}

/-! ## Equations of `M` -/

@[simp] theorem M.pure_eq (a : α) : (Pure.pure a : M σ α) = M.pure a := rfl
@[simp] theorem M.bind_eq (m : M σ α) (f : α → M σ β) : (m >>= f) = M.bind m f := rfl
@[simp] theorem M.pure_bind (a : α) (f : α → M σ β) : M.bind (M.pure a) f = f a := rfl
@[simp] theorem M.lift_ok_bind (a : α) (f : α → M σ β) : M.bind (M.lift (.ok a)) f = f a := rfl
@[simp] theorem M.lift_error_bind (e : Err) (f : α → M σ β) :
    M.bind (M.lift (.error e)) f = M.throw e := rfl
@[simp] theorem M.lift_ok (a : α) : (M.lift (.ok a) : M σ α) = M.pure a := rfl
@[simp] theorem M.lift_error (e : Err) : (M.lift (.error e) : M σ α) = M.throw e := rfl
@[simp] theorem M.throw_bind (e : Err) (f : α → M σ β) : M.bind (M.throw e) f = M.throw e := rfl

theorem M.bind_assoc {γ : Type} (m : M σ α) (f : α → M σ β) (g : β → M σ γ) :
    M.bind (M.bind m f) g = M.bind m (fun a => M.bind (f a) g) := by
  funext s
  simp only [M.bind]
  rcases m s with ⟨r, s'⟩
  cases r <;> rfl

/-! ## Triples -/

/-- The contract of a database (`DbContract`) with ghost states that are `bad`: an `insert` may also
fail by going bad. -/
structure GContract (db : Database N σ) where
  view : σ → View N
  pending : σ → View N
  alive : σ → Prop
  bad : σ → Prop
  getNode_ok : ∀ {s x r}, db.getNode s x = .ok r → r = view s x
  getNode_err : ∀ {s x e}, db.getNode s x = .error e → ¬ alive s ∧ e.IsException
  insert_ok : ∀ {s s' x n}, db.insert x n s = (.ok (), s') → (alive s → alive s') ∧
    ((pending s = View.empty N ∧ view s' = (view s).put x n ∧ pending s' = View.empty N) ∨
      (view s' = view s ∧ pending s' = (pending s).put x n))
  insert_err : ∀ {s s' x n e}, db.insert x n s = (.error e, s') →
    bad s' ∨ (¬ alive s ∧ e.IsException ∧ view s' = view s ∧ pending s' = pending s)
  remove_ok : ∀ {s s' x}, db.remove x s = (.ok (), s') → (alive s → alive s') ∧
    view s' = (view s).del x ∧ pending s' = pending s
  remove_err : ∀ {s s' x e}, db.remove x s = (.error e, s') →
    ¬ alive s ∧ e.IsException ∧ view s' = view s ∧ pending s' = pending s
  batchWrite_ok : ∀ {s s'}, db.batchWrite s = (.ok (), s') → (alive s → alive s') ∧
    view s' = (view s).overlay (pending s) ∧ pending s' = View.empty N
  batchWrite_err : ∀ {s s' e}, db.batchWrite s = (.error e, s') →
    ¬ alive s ∧ e.IsException ∧ view s' = view s ∧
      (pending s' = pending s ∨ pending s' = View.empty N)

/-- What `get_node` will read once the queued writes are confirmed. -/
def GContract.settled {db : Database N σ} (C : GContract db) (s : σ) : View N :=
  (C.view s).overlay (C.pending s)

/-- No bad states. -/
def DbContract.toG {db : Database N σ} (C : DbContract db) : GContract db where
  view := C.view
  pending := C.pending
  alive := C.alive
  bad _ := False
  getNode_ok := C.getNode_ok
  getNode_err := C.getNode_err
  insert_ok := C.insert_ok
  insert_err h := .inr (C.insert_err h)
  remove_ok := C.remove_ok
  remove_err := C.remove_err
  batchWrite_ok := C.batchWrite_ok
  batchWrite_err := C.batchWrite_err

variable {db : Database N σ} (C : GContract db)

/-- `m` started in a state satisfying `P` ends with result and state satisfying `Q`, or with an
error and a state satisfying `E`.  The error satisfies `Ex` unless the database misbehaved, and a
well-behaved database stays well-behaved.  Nothing is said about runs that went bad. -/
def Triple (Ex : Err → Prop) (P : σ → Prop) (m : M σ α) (Q : α → σ → Prop) (E : σ → Prop) : Prop :=
  ∀ s, P s → match m s with
    | (.ok a, s') => (C.alive s → C.alive s') ∧ Q a s'
    | (.error e, s') => C.bad s' ∨
      (((Ex e ∧ (C.alive s → C.alive s')) ∨ (¬ C.alive s ∧ e.IsException)) ∧ E s')

variable {C} {Ex : Err → Prop} {P : σ → Prop} {Q : α → σ → Prop} {E : σ → Prop}

theorem triple_pure {a : α} (h : ∀ s, P s → Q a s) : Triple C Ex P (M.pure a) Q E :=
  fun s hs => ⟨id, h s hs⟩

theorem triple_throw {e : Err} (hex : Ex e) (h : ∀ s, P s → E s) :
    Triple C Ex P (M.throw e : M σ α) Q E :=
  fun s hs => .inr ⟨.inl ⟨hex, id⟩, h s hs⟩

theorem triple_bind {m : M σ α} {f : α → M σ β} {R : α → σ → Prop} {Q : β → σ → Prop}
    (h1 : Triple C Ex P m R E) (h2 : ∀ a, Triple C Ex (R a) (f a) Q E) :
    Triple C Ex P (M.bind m f) Q E := by
  intro s hs
  have h1 := h1 s hs
  unfold M.bind
  rcases hm : m s with ⟨r, s'⟩
  rw [hm] at h1
  cases r with
  | error e => exact h1
  | ok a =>
    have h2 := h2 a s' h1.2
    rcases hf : f a s' with ⟨r, s''⟩
    rw [hf] at h2
    simp only [hf]
    cases r with
    | ok b => exact ⟨fun h => h2.1 (h1.1 h), h2.2⟩
    | error e =>
      rcases h2 with h2 | h2
      · exact .inl h2
      refine .inr ⟨?_, h2.2⟩
      rcases h2.1 with ⟨hex, hal⟩ | ⟨hal, hex⟩
      · exact .inl ⟨hex, fun h => hal (h1.1 h)⟩
      · exact .inr ⟨fun h => hal (h1.1 h), hex⟩

theorem triple_conseq {m : M σ α} {P' : σ → Prop} {Q' : α → σ → Prop} {E' : σ → Prop}
    (h : Triple C Ex P m Q E) (hP : ∀ s, P' s → P s) (hQ : ∀ a s, Q a s → Q' a s)
    (hE : ∀ s, E s → E' s) : Triple C Ex P' m Q' E' := by
  intro s hs
  have h := h s (hP s hs)
  rcases hm : m s with ⟨r, s'⟩
  rw [hm] at h
  cases r with
  | ok a => exact ⟨h.1, hQ _ _ h.2⟩
  | error e => exact h.imp id (fun h => ⟨h.1, hE _ h.2⟩)

/-- Two triples about the same program; the second one may ignore errors. -/
theorem triple_and {m : M σ α} {P' : σ → Prop} {φ : α → Prop} {Q1 Q2 : σ → Prop}
    (h1 : Triple C Ex P m (fun a s => φ a ∧ Q1 s) E)
    (h2 : Triple C Ex P' m (fun _ s => Q2 s) (fun _ => True)) :
    Triple C Ex (fun s => P s ∧ P' s) m (fun a s => φ a ∧ Q1 s ∧ Q2 s) E := by
  intro s hs
  have h1 := h1 s hs.1
  have h2 := h2 s hs.2
  rcases hm : m s with ⟨r, s'⟩
  rw [hm] at h1 h2
  cases r with
  | ok a => exact ⟨h1.1, h1.2.1, h1.2.2, h2.2⟩
  | error e => exact h1

/-- Pull a pure fact out of the precondition. -/
theorem triple_exists {ι : Type} {m : M σ α} {P : ι → σ → Prop}
    (h : ∀ i, Triple C Ex (P i) m Q E) : Triple C Ex (fun s => ∃ i, P i s) m Q E := by
  rintro s ⟨i, hs⟩
  exact h i s hs

theorem triple_pre {m : M σ α} {φ : Prop} (h : φ → Triple C Ex P m Q E) :
    Triple C Ex (fun s => φ ∧ P s) m Q E := by
  rintro s ⟨hφ, hs⟩
  exact h hφ s hs

theorem triple_false {m : M σ α} (h : ∀ s, ¬ P s) : Triple C Ex P m Q E :=
  fun s hs => absurd hs (h s)

theorem triple_dbGet {cfg : Config N σ V} {C : GContract cfg.db} {x : Arr N}
    {Q : Option (Node N) → σ → Prop} (h : ∀ s, P s → Q (C.view s x) s) (hE : ∀ s, P s → E s) :
    Triple C Ex P (dbGet cfg x) Q E := by
  intro s hs
  unfold dbGet M.read
  dsimp only
  cases hg : cfg.db.getNode s x with
  | ok r => exact ⟨id, C.getNode_ok hg ▸ h s hs⟩
  | error e => exact .inr ⟨.inr (C.getNode_err hg), hE s hs⟩

/-- The two ways a successful `insert` can take effect. -/
def Wrote (C : GContract db) (s s' : σ) (x : Arr N) (n : Node N) : Prop :=
  (C.pending s = View.empty N ∧ C.view s' = (C.view s).put x n ∧ C.pending s' = View.empty N) ∨
    (C.view s' = C.view s ∧ C.pending s' = (C.pending s).put x n)

theorem triple_insert {x : Arr N} {n : Node N} {Q : Unit → σ → Prop}
    (h : ∀ s s', P s → Wrote C s s' x n → Q () s')
    (hE : ∀ s s', P s → C.view s' = C.view s → C.pending s' = C.pending s → E s') :
    Triple C Ex P (db.insert x n) Q E := by
  intro s hs
  rcases hi : db.insert x n s with ⟨r, s'⟩
  cases r with
  | ok u => exact ⟨(C.insert_ok hi).1, h s s' hs (C.insert_ok hi).2⟩
  | error e =>
    rcases C.insert_err hi with this | this
    · exact .inl this
    · exact .inr ⟨.inr ⟨this.1, this.2.1⟩, hE s s' hs this.2.2.1 this.2.2.2⟩

theorem triple_remove {x : Arr N} {Q : Unit → σ → Prop}
    (h : ∀ s s', P s → C.view s' = (C.view s).del x → C.pending s' = C.pending s → Q () s')
    (hE : ∀ s s', P s → C.view s' = C.view s → C.pending s' = C.pending s → E s') :
    Triple C Ex P (db.remove x) Q E := by
  intro s hs
  rcases hi : db.remove x s with ⟨r, s'⟩
  cases r with
  | ok u =>
    have := C.remove_ok hi
    exact ⟨this.1, h s s' hs this.2.1 this.2.2⟩
  | error e =>
    have := C.remove_err hi
    exact .inr ⟨.inr ⟨this.1, this.2.1⟩, hE s s' hs this.2.2.1 this.2.2.2⟩

theorem triple_batchWrite {Q : Unit → σ → Prop}
    (h : ∀ s s', P s → C.view s' = C.settled s → C.pending s' = View.empty N → Q () s')
    (hE : ∀ s s', P s → C.view s' = C.view s →
      (C.pending s' = C.pending s ∨ C.pending s' = View.empty N) → E s') :
    Triple C Ex P db.batchWrite Q E := by
  intro s hs
  rcases hi : db.batchWrite s with ⟨r, s'⟩
  cases r with
  | ok u =>
    have := C.batchWrite_ok hi
    exact ⟨this.1, h s s' hs this.2.1 this.2.2⟩
  | error e =>
    have := C.batchWrite_err hi
    exact .inr ⟨.inr ⟨this.1, this.2.1⟩, hE s s' hs this.2.2.1 this.2.2.2⟩

theorem settled_of_wrote {s s' : σ} {x : Arr N} {n : Node N} (h : Wrote C s s' x n) :
    C.settled s' = (C.settled s).put x n := by
  funext y
  unfold GContract.settled View.overlay View.put
  rcases h with ⟨h0, h1, h2⟩ | ⟨h1, h2⟩
  · rw [h0, h1, h2]
    unfold View.put
    by_cases hy : y = x <;> simp [hy, View.empty]
  · rw [h1, h2]
    unfold View.put
    by_cases hy : y = x <;> simp [hy]

end MerkleBit
