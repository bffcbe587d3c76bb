/-
C69: tabulating an element on an entity, and interpolation.
-/
import Verif.Model.EntityTabulate
import Verif.Props.ConformC0
import Verif.Props.EndToEnd
import Verif.Lemmas.AnyElement

namespace FIAT
open MvPolynomial
section
variable {D : ℕ}

theorem vertexOf_spec {s : SimplexCell (Fin D → ℝ)} (hs : ProperSimplex ℝ s) {e : ℕ} {t : List ℕ} (h : HasEntity s.topo 0 e t) :
    vertexOf s e = some (s.v e) := by
  obtain ⟨τ, -, -, t3, t4⟩ := entity_tuple hs h
  have h1 := hs.2.1.vertex _ _ h
  have h2 : τ 0 = e := by rw [t3] at h1; simpa using h1
  unfold vertexOf
  rw [t4, Option.bind_some]
  simp [h2]

/-- C69: `get_entity_transform(d, e)` of a UFC simplex, for an entity of the boundary, is the affine map from the reference simplex to
the entity: it sends the origin to the first vertex of the entity and the unit vectors to the others. -/
theorem entity_transform_ufc {s : SimplexCell (Fin D → ℝ)} (hs : ProperSimplex ℝ s) {d e : ℕ} (hd : d < D) (τ : Fin (d + 1) → ℕ)
    (h : HasEntity s.topo d e (List.ofFn τ)) : simplexTransform true s d e = some (entMap fun j => s.v (τ j)) := by
  obtain ⟨τ', t1, t2, t3, t4⟩ := entity_tuple hs h
  obtain rfl := ofFn_inj' t3
  unfold simplexTransform
  by_cases h0 : d = 0
  · subst h0
    have h1 := hs.2.1.vertex _ _ h
    have h2 : τ 0 = e := by simpa using h1
    rw [if_pos rfl, vertexOf_spec hs h, Option.map_some]
    congr 1
    funext y
    simp [entMap, h2]
  · rw [if_neg h0, dif_neg (by omega), if_pos rfl, t4, Option.bind_some, dif_pos (List.length_ofFn ..)]
    congr 1
    funext y
    rw [entMap_eq]
    congr 1
    funext j
    rw [List.get_ofFn]
    rfl

/-- On the cell it is the identity; there is one entity of dimension `D`. -/
theorem entity_transform_cell (ufc : Bool) (s : SimplexCell (Fin D → ℝ)) (hD : 1 ≤ D) (e : ℕ) :
    simplexTransform ufc s D e = if e = 0 then some id else none := by
  unfold simplexTransform
  rw [if_neg (by omega), dif_pos rfl]
  split_ifs
  · rfl
  · rfl

/-- C69: the other simplex classes send every point of an edge or face `e` to vertex number `e` of the cell. -/
theorem entity_transform_other {s : SimplexCell (Fin D → ℝ)} (hs : ProperSimplex ℝ s) {d e : ℕ} (hd : 1 ≤ d) (hdD : d < D)
    {t : List ℕ} (h : HasEntity s.topo 0 e t) : simplexTransform false s d e = some fun _ => s.v e := by
  unfold simplexTransform
  rw [if_neg (by omega), dif_neg (by omega), if_neg (by simp), vertexOf_spec hs h]
  rfl

/-- The value of dof `i` on a field. -/
noncomputable def dofOf (nodes : List (Functional ℝ (Fin D → ℝ))) (F : List ℕ → MvPolynomial (Fin D) ℝ) (i : ℕ) : ℝ :=
  (nodes[i]?).elim 0 fun l => l.onField F

variable {Cp : Type} [Fintype Cp]

/-- Specification of interpolation: for every field `w` of the space, the combination of the tables with the dofs of `w` is the table
of `w`.  `X` is the list of points at which the tables are taken. -/
def Reproduces {m : ℕ} (comp : Cp → List ℕ) (V : (Cp → MvPolynomial (Fin D) ℝ) → Prop) (nodes : List (Functional ℝ (Fin D → ℝ)))
    (res : Dict (List ℕ) (Fin m → Cp → ℕ → ℝ)) (order : ℕ) (X : List (Fin D → ℝ)) : Prop :=
  (∀ α, α ∈ Dict.keys res ↔ α.length = D ∧ α.sum ≤ order) ∧
  ∀ α T, Dict.get? res α = some T → ∀ w, V w → ∀ c (j : ℕ) x, X[j]? = some x →
    ∑ i : Fin m, dofOf nodes (fieldC comp w) i * T i c j = eval x (iterDeriv α (w c))

theorem nodal_reproduces {N m : ℕ} {comp : Cp → List ℕ} {V : (Cp → MvPolynomial (Fin D) ℝ) → Prop}
    {nodes : List (Functional ℝ (Fin D → ℝ))} {el : PolySet ℝ (Fin D → ℝ) N m Cp} (hlen : nodes.length = m)
    (h : IsNodalC comp V nodes el) (pts : List (Fin D → ℝ)) (order : ℕ) :
    ∃ res, el.tabulate pts order = some res ∧ Reproduces comp V nodes res order pts := by
  obtain ⟨ψ, h1, h2, h3, h4⟩ := h
  obtain ⟨res, r1, r2, r3⟩ := h4 pts order
  refine ⟨res, r1, r2, fun α T hT w hw c j x hx => ?_⟩
  obtain ⟨a, ha⟩ := (Submodule.mem_span_range_iff_exists_fun ℝ).1 (h2 w hw)
  have hdof : ∀ i : Fin m, dofOf nodes (fieldC comp w) i = a i := by
    intro i
    obtain ⟨l, hl⟩ : ∃ l, nodes[(i : ℕ)]? = some l := ⟨_, List.getElem?_eq_getElem (by omega)⟩
    unfold dofOf
    rw [hl, Option.elim_some, ← ha, onFieldC_comb, Finset.sum_eq_single i]
    · rw [h3 _ l hl, if_pos rfl, mul_one]
    · intro b _ hb
      rw [h3 _ l hl, if_neg fun h => hb (Fin.ext h.symm), mul_zero]
    · simp
  have hlin : iterDeriv α (w c) = ∑ i, C (a i) * iterDeriv α (ψ i c) := by
    rw [← ha]
    simp only [Finset.sum_apply, Pi.smul_apply, smul_eq_C_mul]
    exact iterDeriv_linear _ _ _ _
  rw [hlin, map_sum]
  refine Finset.sum_congr rfl fun i _ => ?_
  rw [hdof, r3 α T hT i c j x hx, map_mul, eval_C]

/-- C69: interpolation.  For every nodal element, every order and every list of points, the tables of `tabulate` combined with the
dofs of a field of the space give the values of all partial derivatives of that field. -/
theorem interpolation_cell (hD : 1 ≤ D) {s : SimplexCell (Fin D → ℝ)} {ufc : Bool} {N m : ℕ} {comp : Cp → List ℕ}
    {V : (Cp → MvPolynomial (Fin D) ℝ) → Prop}
    {nodes : List (Functional ℝ (Fin D → ℝ))} {el : PolySet ℝ (Fin D → ℝ) N m Cp} (hlen : nodes.length = m)
    (h : IsNodalC comp V nodes el) (pts : List (Fin D → ℝ)) (order : ℕ) :
    ∃ res, tabulateCell ufc s el order pts = some res ∧ Reproduces comp V nodes res order pts := by
  unfold tabulateCell tabulateOn
  rw [entity_transform_cell _ _ hD, if_pos rfl, Option.bind_some, List.map_id]
  exact nodal_reproduces hlen h pts order

/-- C69: the same on an entity of a UFC simplex: `tabulate(order, pts, (d, e))` gives the values at the images of the points. -/
theorem interpolation_entity {s : SimplexCell (Fin D → ℝ)} (hs : ProperSimplex ℝ s) {d e : ℕ} (hd : d < D) (τ : Fin (d + 1) → ℕ)
    (ht : HasEntity s.topo d e (List.ofFn τ)) {N m : ℕ} {comp : Cp → List ℕ}
    {V : (Cp → MvPolynomial (Fin D) ℝ) → Prop}
    {nodes : List (Functional ℝ (Fin D → ℝ))} {el : PolySet ℝ (Fin D → ℝ) N m Cp} (hlen : nodes.length = m)
    (h : IsNodalC comp V nodes el) (pts : List (Fin d → ℝ)) (order : ℕ) :
    ∃ res, tabulateOn true s el order d e pts = some res ∧
      Reproduces comp V nodes res order (pts.map (entMap fun j => s.v (τ j))) := by
  unfold tabulateOn
  rw [entity_transform_ufc hs hd τ ht, Option.bind_some]
  exact nodal_reproduces hlen h _ order

/-- Vector-valued and scalar elements as elements of a general shape. -/
theorem IsNodalElement.toC {N m : ℕ} {V : (Fin D → MvPolynomial (Fin D) ℝ) → Prop} {nodes : List (Functional ℝ (Fin D → ℝ))}
    {el : PolySet ℝ (Fin D → ℝ) N m (Fin D)} (h : IsNodalElement V nodes el) :
    IsNodalC (fun j : Fin D => [(j : ℕ)]) V nodes el := h

theorem IsNodalScalar.toC {N m : ℕ} {k : ℕ} {nodes : List (Functional ℝ (Fin D → ℝ))}
    {el : PolySet ℝ (Fin D → ℝ) N m Unit} (h : IsNodalScalar k nodes el) :
    IsNodalC (fun _ : Unit => ([] : List ℕ)) (fun w => (w ()).totalDegree ≤ k) nodes el := by
  obtain ⟨ψ, h1, h2, -, h3, h4⟩ := h
  refine ⟨fun i _ => ψ i, h1, fun w hw => ?_, fun i l hl j => ?_, fun pts order => ?_⟩
  · have := h2 _ hw
    rw [Submodule.mem_span_range_iff_exists_fun ℝ] at this ⊢
    obtain ⟨a, ha⟩ := this
    refine ⟨a, ?_⟩
    funext u
    rw [Finset.sum_apply, ← ha]
    rfl
  · rw [← h3 i l hl j]
    congr 1
    funext c
    simp [scalarField, fieldC]
  · obtain ⟨res, r1, r2, r3⟩ := h4 pts order
    exact ⟨res, r1, r2, fun α T hT i c j x hx => r3 α T hT i c j x hx⟩

end
end FIAT
