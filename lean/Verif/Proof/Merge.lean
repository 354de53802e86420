import Verif.Proof.Hoare
import Verif.Proof.Utils2
/-! # The array manipulation of `merge_nodes` -/

namespace MerkleBit
variable {N : Nat} {σ V : Type}

/-- A partially merged group of adjacent tree references. -/
inductive Shape (N : Nat) where
  | blk (r : TreeRef N)
  | join (a b : Shape N)

namespace Shape

def key : Shape N → Arr N
  | blk r => r.key
  | join a _ => a.key

def loc (H : Hasher N) : Shape N → Arr N
  | blk r => r.location
  | join a b => H.hash3 N tagB (a.loc H).bytes (b.loc H).bytes

def nodeCount : Shape N → Nat
  | blk r => r.nodeCount
  | join a b => a.nodeCount + b.nodeCount

def width : Shape N → Nat
  | blk _ => 1
  | join a b => a.width + b.width

/-- The reference describing a whole group. -/
def ref (H : Hasher N) (sh : Shape N) : TreeRef N := ⟨sh.key, sh.loc H, sh.nodeCount, sh.width⟩

/-- Array contents of a group except its last position. -/
def inits (H : Hasher N) : Shape N → List (TreeRef N)
  | blk _ => []
  | join a b => a.inits H ++ (join a b).ref H :: b.inits H

/-- Array contents of a group. -/
def layout (H : Hasher N) (sh : Shape N) : List (TreeRef N) := sh.inits H ++ [sh.ref H]

theorem width_pos (sh : Shape N) : 0 < sh.width := by
  induction sh with
  | blk => simp [width]
  | join a b iha ihb => simp [width]; omega

theorem length_inits (H : Hasher N) (sh : Shape N) : (sh.inits H).length + 1 = sh.width := by
  induction sh with
  | blk => simp [inits, width]
  | join a b iha ihb => simp [inits, width]; omega

theorem length_layout (H : Hasher N) (sh : Shape N) : (sh.layout H).length = sh.width := by
  simp [layout, length_inits]

end Shape

open Shape

/-- Array contents of a list of groups. -/
def layouts (H : Hasher N) (gs : List (Shape N)) : List (TreeRef N) := gs.flatMap (layout H)

def widths (gs : List (Shape N)) : Nat := (gs.map width).sum

theorem length_layouts (H : Hasher N) (gs : List (Shape N)) :
    (layouts H gs).length = widths gs := by
  induction gs with
  | nil => rfl
  | cons g gs ih =>
    simp only [layouts, widths, List.flatMap_cons, List.length_append, List.map_cons,
      List.sum_cons, length_layout] at *
    omega

theorem refAt_append {pre post : List (TreeRef N)} {r : TreeRef N} {i : Nat} (h : i = pre.length) :
    refAt (pre ++ r :: post) i = .ok r := by
  subst h
  simp [refAt]

/-- The first reference of a group's array part. -/
def firstRef (H : Hasher N) (sh : Shape N) (x : TreeRef N) : TreeRef N :=
  (sh.inits H).headD x

/-- Following the counts from the first reference of a group leads to its last position. -/
theorem lookaheadLoop_reach (H : Hasher N) : ∀ (a b : Shape N) (x : TreeRef N)
    (pre post : List (TreeRef N)) (p : Nat), p + 1 = pre.length →
    ∃ j, j ≤ (join a b).width ∧ ∀ fuel,
      lookaheadLoop (pre ++ ((join a b).inits H ++ x :: post)) p (fuel + j)
        (firstRef H (join a b) x).count =
      lookaheadLoop (pre ++ ((join a b).inits H ++ x :: post)) p fuel (join a b).width := by
  intro a
  induction a with
  | blk r =>
    intro b x pre post p _
    exact ⟨0, by omega, by simp [firstRef, inits, ref]⟩
  | join a1 a2 ih _ =>
    intro b x pre post p hp
    obtain ⟨j, hj, ih⟩ := ih a2 ((join (join a1 a2) b).ref H) pre (b.inits H ++ x :: post) p hp
    refine ⟨j + 1, by simp only [width] at *; have := width_pos b; omega, fun fuel => ?_⟩
    have harr : pre ++ ((join (join a1 a2) b).inits H ++ x :: post) =
        pre ++ ((join a1 a2).inits H ++ (join (join a1 a2) b).ref H :: (b.inits H ++ x :: post)) := by
      simp [inits]
    have hfirst : firstRef H (join (join a1 a2) b) x =
        firstRef H (join a1 a2) ((join (join a1 a2) b).ref H) := by
      unfold firstRef
      have hi : (join (join a1 a2) b).inits H =
          (join a1 a2).inits H ++ (join (join a1 a2) b).ref H :: b.inits H := rfl
      rw [hi]
      cases (join a1 a2).inits H <;> rfl
    rw [harr, hfirst, show fuel + (j + 1) = fuel + 1 + j by omega, ih]
    have hidx : p + (join a1 a2).width = (pre ++ (join a1 a2).inits H).length := by
      have := length_inits H (join a1 a2)
      simp only [List.length_append]; omega
    have hat : refAt (pre ++ ((join a1 a2).inits H ++
        (join (join a1 a2) b).ref H :: (b.inits H ++ x :: post))) (p + (join a1 a2).width) =
        .ok ((join (join a1 a2) b).ref H) := by
      rw [← List.append_assoc]
      exact refAt_append hidx
    conv_lhs => unfold lookaheadLoop
    simp only [hat]
    have hgt : ((join (join a1 a2) b).ref H).count > (join a1 a2).width := by
      simp only [ref, width]
      have := width_pos b
      omega
    simp only [hgt, if_true]
    simp [ref]

/-- `merge_nodes` finds the end of the right group. -/
theorem lookahead_eq (H : Hasher N) (b : Shape N) (pre post : List (TreeRef N)) (p : Nat)
    (hp : p + 1 = pre.length) :
    lookahead (pre ++ (b.layout H ++ post)) p (p + 1) = .ok (p + b.width, b.width) := by
  cases b with
  | blk r =>
    unfold lookahead
    simp only [layout, inits, List.nil_append, List.singleton_append]
    rw [refAt_append hp]
    simp [ref, width]
  | join a b =>
    obtain ⟨j, hj, h⟩ := lookaheadLoop_reach H a b ((join a b).ref H) pre post p hp
    have harr : pre ++ ((join a b).layout H ++ post) =
        pre ++ ((join a b).inits H ++ (join a b).ref H :: post) := by simp [layout]
    have hfirst : refAt (pre ++ ((join a b).inits H ++ (join a b).ref H :: post)) (p + 1) =
        .ok (firstRef H (join a b) ((join a b).ref H)) := by
      unfold firstRef
      cases hi : (join a b).inits H with
      | nil => exact refAt_append hp
      | cons r rs => exact refAt_append hp
    have hcount : 1 < (firstRef H (join a b) ((join a b).ref H)).count := by
      have hall : ∀ (sh : Shape N), ∀ r ∈ sh.inits H, 1 < r.count := by
        intro sh
        induction sh with
        | blk => simp [inits]
        | join a b iha ihb =>
          intro r hr
          simp only [inits, List.mem_append, List.mem_cons] at hr
          rcases hr with hr | rfl | hr
          · exact iha r hr
          · simp only [ref, width]
            have := width_pos a
            have := width_pos b
            omega
          · exact ihb r hr
      have hmem : firstRef H (join a b) ((join a b).ref H) ∈
          (join a b).inits H ++ [(join a b).ref H] := by
        unfold firstRef
        cases (join a b).inits H <;> simp
      rcases List.mem_append.1 hmem with hr | hr
      · exact hall _ _ hr
      · simp only [List.mem_singleton] at hr
        rw [hr]
        simp only [ref, width]
        have := width_pos a
        have := width_pos b
        omega
    unfold lookahead
    rw [harr, hfirst]
    simp only [hcount, if_true]
    have hlen : (join a b).width ≤
        (pre ++ ((join a b).inits H ++ (join a b).ref H :: post)).length := by
      have := length_inits H (join a b)
      simp only [List.length_append, List.length_cons]
      omega
    obtain ⟨f, hf⟩ : ∃ f, (pre ++ ((join a b).inits H ++ (join a b).ref H :: post)).length + 1 =
        (f + 1) + j :=
      ⟨(pre ++ ((join a b).inits H ++ (join a b).ref H :: post)).length - j, by omega⟩
    rw [hf, h (f + 1)]
    unfold lookaheadLoop
    have hat : refAt (pre ++ ((join a b).inits H ++ (join a b).ref H :: post))
        (p + (join a b).width) = .ok ((join a b).ref H) := by
      rw [← List.append_assoc]
      apply refAt_append
      have := length_inits H (join a b)
      simp only [List.length_append]; omega
    simp only [hat]
    simp [ref]

theorem layout_join (H : Hasher N) (a b : Shape N) :
    (join a b).layout H = a.inits H ++ (join a b).ref H :: (b.inits H ++ [(join a b).ref H]) := by
  simp [layout, inits]

/-- What the array says about two adjacent groups, and what merging them makes of the array. -/
theorem merge_facts (H : Hasher N) (i : Nat) (pre post : List (Shape N)) (a b : Shape N)
    (hi : i + 1 = widths pre + a.width) :
    refAt (layouts H (pre ++ a :: b :: post)) i = .ok (a.ref H) ∧
    lookahead (layouts H (pre ++ a :: b :: post)) i (i + 1) = .ok (i + b.width, b.width) ∧
    refAt (layouts H (pre ++ a :: b :: post)) (i + b.width) = .ok (b.ref H) ∧
    updateRefs (layouts H (pre ++ a :: b :: post)) i (i + b.width) ((join a b).ref H) =
      layouts H (pre ++ join a b :: post) := by
  have harr : layouts H (pre ++ a :: b :: post) =
      (layouts H pre ++ a.inits H) ++ a.ref H :: (b.inits H ++ b.ref H :: layouts H post) := by
    simp [layouts, layout]
  have harr' : layouts H (pre ++ join a b :: post) =
      (layouts H pre ++ a.inits H) ++ (join a b).ref H ::
        (b.inits H ++ (join a b).ref H :: layouts H post) := by
    simp only [layouts, List.flatMap_append, List.flatMap_cons, layout_join]
    simp
  have hla : (layouts H pre ++ a.inits H).length = i := by
    have := length_inits H a
    simp only [List.length_append, length_layouts]; omega
  have h1 : refAt (layouts H (pre ++ a :: b :: post)) i = .ok (a.ref H) := by
    rw [harr]; exact refAt_append hla.symm
  have hlook : lookahead (layouts H (pre ++ a :: b :: post)) i (i + 1) =
      .ok (i + b.width, b.width) := by
    have : layouts H (pre ++ a :: b :: post) =
        (layouts H pre ++ a.layout H) ++ (b.layout H ++ layouts H post) := by
      simp [layouts]
    rw [this]
    apply lookahead_eq
    simp only [List.length_append, length_layouts, length_layout]; omega
  have hlb : i + b.width = ((layouts H pre ++ a.inits H) ++ a.ref H :: b.inits H).length := by
    have := length_inits H b
    simp only [List.length_append, List.length_cons] at *; omega
  have h2 : refAt (layouts H (pre ++ a :: b :: post)) (i + b.width) = .ok (b.ref H) := by
    rw [harr]
    have : (layouts H pre ++ a.inits H) ++ a.ref H :: (b.inits H ++ b.ref H :: layouts H post) =
        ((layouts H pre ++ a.inits H) ++ a.ref H :: b.inits H) ++ b.ref H :: layouts H post := by
      simp
    rw [this]
    exact refAt_append hlb
  have hupd : updateRefs (layouts H (pre ++ a :: b :: post)) i (i + b.width) ((join a b).ref H) =
      layouts H (pre ++ join a b :: post) := by
    rw [harr, harr']
    unfold updateRefs
    have e1 : (layouts H pre ++ a.inits H) ++ a.ref H :: (b.inits H ++ b.ref H :: layouts H post) =
        ((layouts H pre ++ a.inits H) ++ a.ref H :: b.inits H) ++ b.ref H :: layouts H post := by
      simp
    rw [e1, hlb, List.set_append_right _ _ (Nat.le_refl _)]
    simp only [Nat.sub_self, List.set_cons_zero]
    have e2 : ((layouts H pre ++ a.inits H) ++ a.ref H :: b.inits H) ++
        (join a b).ref H :: layouts H post =
        (layouts H pre ++ a.inits H) ++ a.ref H :: (b.inits H ++ (join a b).ref H :: layouts H post) := by
      simp
    rw [e2, ← hla, List.set_append_right _ _ (Nat.le_refl _)]
    simp only [Nat.sub_self, List.set_cons_zero]
  exact ⟨h1, hlook, h2, hupd⟩

/-- One iteration of the loop of `merge_nodes` merges two adjacent groups. -/
theorem mergeLoop_step (cfg : Config N σ V) (s i : Nat) (items : List QueueItem)
    (pre post : List (Shape N)) (a b : Shape N) (root : Arr N)
    (hi : i + 1 = widths pre + a.width) :
    mergeLoop cfg ((s, i, i + 1) :: items) (layouts cfg.hasher (pre ++ a :: b :: post)) root =
      M.bind (cfg.db.insert ((join a b).loc cfg.hasher)
        ⟨1, .branch ⟨(join a b).nodeCount, a.loc cfg.hasher, b.loc cfg.hasher, s, a.key⟩⟩)
        (fun _ => mergeLoop cfg items (layouts cfg.hasher (pre ++ join a b :: post))
          ((join a b).loc cfg.hasher)) := by
  set H := cfg.hasher with hH
  obtain ⟨h1, hlook, h2, hupd⟩ := merge_facts H i pre post a b hi
  conv_lhs => unfold mergeLoop
  simp only [M.bind_eq, h1, M.lift_ok_bind, hlook, h2]
  have hnew : (⟨(a.ref H).key, H.hash3 root.bytes.length tagB (a.ref H).location.bytes
      (b.ref H).location.bytes, (a.ref H).nodeCount + (b.ref H).nodeCount,
      b.width + (a.ref H).count⟩ : TreeRef N) = (join a b).ref H := by
    simp only [ref, key, loc, nodeCount, width, root.len]
    congr 1
    omega
  have hloc : H.hash3 root.bytes.length tagB (a.ref H).location.bytes (b.ref H).location.bytes =
      (join a b).loc H := by
    simp only [ref, loc, root.len]
  rw [← hH, hnew, hupd, hloc]
  rfl

end MerkleBit
