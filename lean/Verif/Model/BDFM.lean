/-
Model of FIAT/brezzi_douglas_fortin_marini.py.
-/
import Verif.Model.VectorElements

namespace FIAT
section
variable {D : ℕ}

/-- `BDFMSpace(ref_el, order)` before the union, brezzi_douglas_fortin_marini.py:64-96: the coefficient rows of `bubble_set` and of
`vec_poly_set` after `take([0, 1, 2, 6, 7, 8])`.  A bubble row is `numpy.outer(tangent, coeffs)` for an edge and the coefficients of the
Lagrange basis function of a dof of that edge. -/
noncomputable def bdfmRows (order : ℕ) (s : SimplexCell (Fin D → ℝ)) :
    Option (List (Fin D → Fin ((order + D).choose D) → ℝ) × List (Fin D → Fin ((order + D).choose D) → ℝ)) :=
  if D ≠ 2 then none else do
  let vec_poly_set ← takeRows (onVectorRows ((order + D).choose D) D) [0, 1, 2, 6, 7, 8]
  let lagrange_ele ← lagrangeElement s order
  let edge_dofs_dict ← Dict.get? lagrange_ele.2 (D - 1)
  let edge_dofs : List (ℕ × ℕ) := edge_dofs_dict.flatMap fun (p : ℕ × List ℕ) => p.2.map fun (dof : ℕ) => (p.1, dof)
  let new_coeffs ← edge_dofs.mapM fun (p : ℕ × ℕ) => (edgeTangent s p.1).bind fun tangent =>
    if h : p.2 < (order + D).choose D then
      some fun (c : Fin D) (l : Fin ((order + D).choose D)) => tangent c * lagrange_ele.1.coeffs ⟨p.2, h⟩ () l
    else none
  some (new_coeffs, vec_poly_set)

/-- `BDFMSpace(ref_el, order)`, brezzi_douglas_fortin_marini.py:64-106. -/
noncomputable def bdfmSpace (order : ℕ)
    (svd : List (Fin D → Fin ((order + D).choose D) → ℝ) → List ℝ × List (Fin D → Fin ((order + D).choose D) → ℝ))
    (s : SimplexCell (Fin D → ℝ)) : Option (Σ m, PolySet ℝ (Fin D → ℝ) ((order + D).choose D) m (Fin D)) := do
  let AB ← bdfmRows order s
  let P ← onPolynomialSet s order
  some ⟨_, PolySet.ofRows D P.base P.dmats (unionRows svd AB.1 AB.2)⟩

/-- The tangential nodes of facet `i`, brezzi_douglas_fortin_marini.py:37-43 (`PointEdgeTangentEvaluation` takes `compute_edge_tangent(i)`). -/
noncomputable def bdfmTangents (s : SimplexCell (Fin D → ℝ)) (degree i : ℕ) : Option (List (Functional ℝ (Fin D → ℝ))) :=
  (makePoints ℝ s (D - 1) i (D + degree - 1)).bind fun pts => (edgeTangent s i).map fun t =>
    pts.map fun pt => pointDirectionEvaluation D (vecNat t) pt

/-- `BDFMDualSet(ref_el, degree)`, brezzi_douglas_fortin_marini.py:7-61: nodes and `entity_ids`; `nrm` is `compute_scaled_normal`. -/
noncomputable def bdfmDual (s : SimplexCell (Fin D → ℝ)) (nrm : ℕ → Option (Fin D → ℝ)) (degree : ℕ) :
    Option (List (Functional ℝ (Fin D → ℝ)) × EntityIds ℕ) := do
  let nf ← numEnts s (D - 1)
  let facets ← (List.range nf).mapM fun (i : ℕ) => facetPointNodes s nrm degree i
  let tangents ← (List.range nf).mapM fun (i : ℕ) => bdfmTangents s degree i
  let ids ← emptyLoop s (List.range (D - 1)) []
  let pts_facet_0 ← makePoints ℝ s (D - 1) 0 (D + degree)
  let st ← sameLoop s (D - 1) pts_facet_0.length (0, ids)
  some (facets.flatten ++ tangents.flatten, Dict.put st.2 D [(0, List.range' st.1 tangents.flatten.length)])

/-- `BrezziDouglasFortinMarini(ref_el, degree)`, brezzi_douglas_fortin_marini.py:109-123. -/
noncomputable def brezziDouglasFortinMarini (degree : ℕ)
    (svd : List (Fin D → Fin ((degree + D).choose D) → ℝ) → List ℝ × List (Fin D → Fin ((degree + D).choose D) → ℝ))
    (s : SimplexCell (Fin D → ℝ)) (nrm : ℕ → Option (Fin D → ℝ)) :
    Option ((Σ m, PolySet ℝ (Fin D → ℝ) ((degree + D).choose D) m (Fin D)) × List (Functional ℝ (Fin D → ℝ)) × EntityIds ℕ) :=
  if degree ≠ 2 then none else do
  let S ← bdfmSpace degree svd s
  let dual ← bdfmDual s nrm (degree - 1)
  let el ← ciarletElement (onExpTab ((degree + D).choose D) D S.2.base S.2.dmats) (fun c : Fin D => [(c : ℕ)]) S.2 dual.1
  some (⟨S.1, el⟩, dual)

end
end FIAT
