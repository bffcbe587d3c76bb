/-
C68: specification of two neighbouring cells of a mesh, each the image of a reference cell.

FIAT builds an element on a reference cell; the mesh code numbers the dofs of a cell by its entities, gives the dofs of an entity
shared by two cells the same values, and maps the functions of the reference cell with the map the element names in `mapping()`.
Nothing here refers to the model of an element.
-/
import Verif.Lemmas.CurlBlocks
import Verif.Props.NedelecElement

namespace FIAT
open MvPolynomial
section
variable {D : ℕ}

/-- The affine map from the reference cell to a cell of the mesh. -/
def cellMap (A : Matrix (Fin D) (Fin D) ℝ) (b x : Fin D → ℝ) : Fin D → ℝ := A.mulVec x + b

/-- The cell with reference cell `s` and map `(A, b)` has the mesh vertices `g 0, ..., g D`, whose coordinates are in `X`, and is
ordered as UFC prescribes: the vertices of every entity are listed by increasing global number. -/
structure InMesh (X : ℕ → Fin D → ℝ) (s : SimplexCell (Fin D → ℝ)) (A : Matrix (Fin D) (Fin D) ℝ) (b : Fin D → ℝ) (g : ℕ → ℕ) : Prop where
  regular : A.det ≠ 0
  vertices : ∀ a < D + 1, cellMap A b (s.v a) = X (g a)
  ordered : ∀ d e t, HasEntity s.topo d e t → (t.map g).Pairwise (· < ·)

/-- Entity `t` of one cell and entity `t'` of another are the same entity of the mesh: they have the same mesh vertices. -/
def SharedEntity (g : ℕ → ℕ) (t : List ℕ) (g' : ℕ → ℕ) (t' : List ℕ) : Prop := ∀ i, i ∈ t.map g ↔ i ∈ t'.map g'

/-- The covariant Piola map `A⁻ᵀ w`, at the image of `x`. -/
noncomputable def covariant (A : Matrix (Fin D) (Fin D) ℝ) (w : Fin D → MvPolynomial (Fin D) ℝ) (x : Fin D → ℝ) : Fin D → ℝ :=
  A⁻¹.transpose.mulVec fun j => eval x (w j)

/-- The contravariant Piola map `(det A)⁻¹ A w`, at the image of `x`. -/
noncomputable def contravariant (A : Matrix (Fin D) (Fin D) ℝ) (w : Fin D → MvPolynomial (Fin D) ℝ) (x : Fin D → ℝ) : Fin D → ℝ :=
  A.det⁻¹ • A.mulVec fun j => eval x (w j)

/-- The dofs of entity `(d, e)` of one cell and entity `(d, e')` of another agree, one by one in the order of `entity_dofs`, up to
the factor `σ`; `ev` and `ev'` evaluate a node on the function of the respective cell. -/
def DofsMatch (σ : ℝ) (nodes : List (Functional ℝ (Fin D → ℝ))) (ids : EntityIds ℕ) (ev : Functional ℝ (Fin D → ℝ) → ℝ)
    (nodes' : List (Functional ℝ (Fin D → ℝ))) (ids' : EntityIds ℕ) (ev' : Functional ℝ (Fin D → ℝ) → ℝ) (d e e' : ℕ) : Prop :=
  ∃ l l', ids.at? d e = some l ∧ ids'.at? d e' = some l' ∧
    List.Forall₂ (fun i i' => ∃ a a', nodes[i]? = some a ∧ nodes'[i']? = some a' ∧ ev a = σ * ev' a') l l'

/-- The dofs of an entity are given by `vals`. -/
def DofValues (nodes : List (Functional ℝ (Fin D → ℝ))) (ids : EntityIds ℕ) (ev : Functional ℝ (Fin D → ℝ) → ℝ) (d e : ℕ)
    (vals : List ℝ) : Prop := ∃ l, ids.at? d e = some l ∧ l.map (fun i => nodes[i]?.map ev) = vals.map some

theorem dofValues_of_block {nodes : List (Functional ℝ (Fin D → ℝ))} {ids : EntityIds ℕ} {ev : Functional ℝ (Fin D → ℝ) → ℝ} {d e : ℕ}
    {l : List ℕ} {blk : List (Functional ℝ (Fin D → ℝ))} (h : ids.at? d e = some l)
    (hb : l.map (fun i => nodes[i]?) = blk.map some) : DofValues nodes ids ev d e (blk.map ev) := by
  refine ⟨l, h, ?_⟩
  have := congrArg (List.map (Option.map ev)) hb
  rw [List.map_map, List.map_map] at this
  rw [List.map_map]
  exact this

theorem dofsMatch_iff {σ : ℝ} {nodes nodes' : List (Functional ℝ (Fin D → ℝ))} {ids ids' : EntityIds ℕ}
    {ev ev' : Functional ℝ (Fin D → ℝ) → ℝ} {d e e' : ℕ} {A B : List ℝ} (hA : DofValues nodes ids ev d e A)
    (hB : DofValues nodes' ids' ev' d e' B) : DofsMatch σ nodes ids ev nodes' ids' ev' d e e' ↔ A = B.map (σ * ·) := by
  obtain ⟨l, a1, a2⟩ := hA
  obtain ⟨l', b1, b2⟩ := hB
  have key : ∀ (l l' : List ℕ) (A B : List ℝ), l.map (fun i => nodes[i]?.map ev) = A.map some →
      l'.map (fun i => nodes'[i]?.map ev') = B.map some →
      (List.Forall₂ (fun i i' => ∃ a a', nodes[i]? = some a ∧ nodes'[i']? = some a' ∧ ev a = σ * ev' a') l l' ↔ A = B.map (σ * ·)) := by
    intro l
    induction l with
    | nil =>
      intro l' A B h1 h2
      cases A with
      | cons => simp at h1
      | nil =>
        cases l' with
        | nil =>
          cases B with
          | nil => simp
          | cons => simp at h2
        | cons =>
          cases B with
          | nil => simp at h2
          | cons => simp
    | cons i l ih =>
      intro l' A B h1 h2
      cases A with
      | nil => simp at h1
      | cons a A =>
        cases l' with
        | nil =>
          cases B with
          | nil => simp
          | cons => simp at h2
        | cons i' l' =>
          cases B with
          | nil => simp at h2
          | cons b B =>
            simp only [List.map_cons, List.cons.injEq] at h1 h2
            rw [List.forall₂_cons, ih l' A B h1.2 h2.2, List.map_cons, List.cons.injEq]
            refine and_congr_left' ?_
            obtain ⟨x, x1, x2⟩ := Option.map_eq_some_iff.1 h1.1
            obtain ⟨y, y1, y2⟩ := Option.map_eq_some_iff.1 h2.1
            rw [x1, y1]
            constructor
            · rintro ⟨a', b', ha, hb, hab⟩
              rw [Option.some.injEq] at ha hb
              rw [← x2, ← y2, ha, hb, hab]
            · intro h
              exact ⟨x, y, rfl, rfl, by rw [x2, y2, h]⟩
  unfold DofsMatch
  constructor
  · rintro ⟨m, m', h1, h2, h3⟩
    rw [a1, Option.some.injEq] at h1
    rw [b1, Option.some.injEq] at h2
    subst h1 h2
    exact (key l l' A B a2 b2).1 h3
  · intro h
    exact ⟨l, l', a1, b1, (key l l' A B a2 b2).2 h⟩

theorem cellMap_entMap (A : Matrix (Fin D) (Fin D) ℝ) (b : Fin D → ℝ) {d : ℕ} (vc : Fin (d + 1) → Fin D → ℝ) (y : Fin d → ℝ) :
    cellMap A b (entMap vc y) = entMap (fun j => cellMap A b (vc j)) y := by
  unfold cellMap entMap
  simp only [Matrix.mulVec_add, Matrix.mulVec_sum, Matrix.mulVec_smul, Matrix.mulVec_sub, add_sub_add_right_eq_sub]
  abel

theorem cellMap_injective {A : Matrix (Fin D) (Fin D) ℝ} (hA : A.det ≠ 0) (b : Fin D → ℝ) : Function.Injective (cellMap A b) := by
  intro x y h
  have h1 : A.mulVec x = A.mulVec y := add_right_cancel h
  exact Matrix.mulVec_injective_iff_isUnit.2 ((Matrix.isUnit_iff_isUnit_det _).2 (isUnit_iff_ne_zero.2 hA)) h1

variable {X : ℕ → Fin D → ℝ} {s s' : SimplexCell (Fin D → ℝ)} {A A' : Matrix (Fin D) (Fin D) ℝ} {b b' : Fin D → ℝ} {g g' : ℕ → ℕ}

/-- A shared entity has the same dimension in both cells, and its vertices are listed in the same order. -/
theorem shared_tuple (hs : ProperSimplex ℝ s) (hs' : ProperSimplex ℝ s') (hm : InMesh X s A b g) (hm' : InMesh X s' A' b' g')
    {d e d' e' : ℕ} {t t' : List ℕ} (ht : HasEntity s.topo d e t) (ht' : HasEntity s'.topo d' e' t') (h : SharedEntity g t g' t') :
    d' = d ∧ t.map g = t'.map g' := by
  have h1 := (hm.ordered d e t ht).eq_of_mem_iff (hm'.ordered d' e' t' ht') h
  refine ⟨?_, h1⟩
  have h2 := congrArg List.length h1
  rw [List.length_map, List.length_map, (hs.2.1.entity _ _ _ ht).2.1, (hs'.2.1.entity _ _ _ ht').2.1] at h2
  omega

theorem ofFn_inj' {α : Type} {n : ℕ} {f f' : Fin n → α} (h : List.ofFn f = List.ofFn f') : f = f' := List.ofFn_injective h

/-- The tuples of a shared entity. -/
theorem shared_verts (hm : InMesh X s A b g) (hm' : InMesh X s' A' b' g') {d : ℕ} {τ τ' : Fin (d + 1) → ℕ}
    (h1 : ∀ j, τ j < D + 1) (h1' : ∀ j, τ' j < D + 1) (h : (List.ofFn τ).map g = (List.ofFn τ').map g') (j : Fin (d + 1)) :
    cellMap A b (s.v (τ j)) = cellMap A' b' (s'.v (τ' j)) := by
  rw [List.map_ofFn, List.map_ofFn] at h
  have := congrFun (ofFn_inj' h) j
  simp only [Function.comp] at this
  rw [hm.vertices _ (h1 j), hm'.vertices _ (h1' j), this]

/-- Points of a shared entity with the same image have the same coordinates on the reference entity. -/
theorem shared_points (hs : ProperSimplex ℝ s) (hm : InMesh X s A b g) {d : ℕ}
    {τ τ' : Fin (d + 1) → ℕ} (hτ : Function.Injective τ) (h1 : ∀ j, τ j < D + 1)
    (h : ∀ j, cellMap A b (s.v (τ j)) = cellMap A' b' (s'.v (τ' j))) (y y' : Fin d → ℝ) :
    cellMap A b (entMap (fun j => s.v (τ j)) y) = cellMap A' b' (entMap (fun j => s'.v (τ' j)) y') ↔ y = y' := by
  have e : cellMap A' b' (entMap (fun j => s'.v (τ' j)) y') = cellMap A b (entMap (fun j => s.v (τ j)) y') := by
    rw [cellMap_entMap, cellMap_entMap]
    simp only [h]
  rw [e]
  exact ⟨fun h => entMap_injective hs τ hτ h1 (cellMap_injective hm.regular b h), fun h => by rw [h]⟩

end
end FIAT
