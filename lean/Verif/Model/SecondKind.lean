/-
Model of FIAT/brezzi_douglas_marini.py, FIAT/nedelec_second_kind.py and `UFCTetrahedronFaceQuadratureRule` of
FIAT/quadrature.py.

As in Model/VectorElements.lean and Model/Nedelec.lean: floating-point numbers are reals, `numpy.linalg.svd` and the Gauss nodes
are parameters, integral variants are modelled on UFC cells.
-/
import Verif.Model.Nedelec
import Mathlib.LinearAlgebra.Matrix.Determinant.Basic

namespace FIAT
section
variable {D : ℕ}

/-- The name of the variant returned by `check_format_variant`, which is passed on to the inner elements. -/
def variantName : DualVariant → List Char
  | .point => strPoint
  | .integral _ => strIntegral

/-- `FrobeniusIntegralMoment(ref_el, Q, phi[i, :])` for every member `i`, with values `phi` (member, component, point):
brezzi_douglas_marini.py:45-48, :66-69, nedelec_second_kind.py:194-195. -/
noncomputable def fieldMoments {P : Type} [DecidableEq P] (Q : QRule ℝ P) {m : ℕ} (phis : Fin m → Fin D → ℕ → ℝ) :
    List (Functional ℝ P) :=
  (List.finRange m).map fun i => frobeniusIntegralMoment [D] ((Q.pts.zip Q.wts).zipIdx.map fun q =>
    (q.1.1, q.1.2, fun (α : List ℕ) => vecNat (fun c => phis i c q.2) (α.getD 0 0)))

/-- The polynomial set `ONPolynomialSet(ref_el, degree, (sd,))`, polynomial_set.py:124-156 (see Model/ONSet.lean for the
coefficients). -/
noncomputable def onVectorSet (s : SimplexCell (Fin D → ℝ)) (degree : ℕ) :
    Option (Σ m, PolySet ℝ (Fin D → ℝ) ((degree + D).choose D) m (Fin D)) :=
  (onPolynomialSet s degree).map fun S => ⟨_, PolySet.ofRows D S.base S.dmats (onVectorRows ((degree + D).choose D) D)⟩

/-- The facet nodes of `BDMDualSet`, brezzi_douglas_marini.py:23-34, :52-60 (as in `RTDualSet`). -/
noncomputable def bdmFacets (gj : ℕ → ℕ → List ℝ) (s : SimplexCell (Fin D → ℝ)) (nrm : ℕ → Option (Fin D → ℝ)) (degree : ℕ) :
    DualVariant → Option (List (List (Functional ℝ (Fin D → ℝ))))
  | .point => (numEnts s (D - 1)).bind fun nf => (List.range nf).mapM fun i => facetPointNodes s nrm degree i
  | .integral quad_deg => do
    let facet ← ufcSimplexCell (D - 1)
    let Q ← simplexRule gj (D - 1) facet.verts quad_deg
    let Pq ← onPolynomialSet facet degree
    let Pq_at_qpts ← Pq.values Q.pts
    let nf ← numEnts s (D - 1)
    (List.range nf).mapM fun f => facetMomentNodes s nrm Q Pq_at_qpts f

/-- The interior nodes of `BDMDualSet` for `degree > 1`, brezzi_douglas_marini.py:37-48, :63-70: moments against the nodal basis
of `Nedelec(ref_el, degree - 1, variant)`. -/
noncomputable def bdmInterior (gj : ℕ → ℕ → List ℝ) (svd : SvdFun) (T : DigitTable) (s : SimplexCell (Fin D → ℝ)) (degree : ℕ)
    (v : DualVariant) : Option (List (Functional ℝ (Fin D → ℝ))) :=
  (simplexRule gj D s.verts (interiorDeg degree v)).bind fun Q =>
  (nedelec gj (degree - 2) svd T s (some (variantName v))).bind fun Nedel =>
  (Nedel.1.2.values Q.pts).map fun Ned_at_qpts => fieldMoments Q Ned_at_qpts

/-- `BDMDualSet(ref_el, degree, variant, quad_deg)`, brezzi_douglas_marini.py:13-96. -/
noncomputable def bdmDual (gj : ℕ → ℕ → List ℝ) (svd : SvdFun) (T : DigitTable) (s : SimplexCell (Fin D → ℝ))
    (nrm : ℕ → Option (Fin D → ℝ)) (degree : ℕ) (v : DualVariant) : Option (List (Functional ℝ (Fin D → ℝ)) × EntityIds ℕ) := do
  let facets ← bdmFacets gj s nrm degree v
  let cell ← (if 1 < degree then bdmInterior gj svd T s degree v else some [])
  let ids ← facetIds s degree (if 1 < degree then some cell.length else none)
  some (facets.flatten ++ cell, ids)

/-- `BrezziDouglasMarini(ref_el, k, variant)`, brezzi_douglas_marini.py:115-129: the element's polynomial set, its nodes and
`entity_ids`. -/
noncomputable def bdm (gj : ℕ → ℕ → List ℝ) (k : ℕ) (svd : SvdFun) (T : DigitTable) (s : SimplexCell (Fin D → ℝ))
    (nrm : ℕ → Option (Fin D → ℝ)) (variant : Option (List Char)) :
    Option ((Σ m, PolySet ℝ (Fin D → ℝ) ((k + D).choose D) m (Fin D)) × List (Functional ℝ (Fin D → ℝ)) × EntityIds ℕ) := do
  let v ← dualVariant T variant k
  let S ← (if k < 1 then none else onVectorSet s k)
  let dual ← bdmDual gj svd T s nrm k v
  let el ← ciarletElement (onExpTab ((k + D).choose D) D S.2.base S.2.dmats) (fun c : Fin D => [(c : ℕ)]) S.2 dual.1
  some (⟨S.1, el⟩, dual)

/-- The dictionaries built by `_generate_edge_dofs` and `_generate_face_dofs`:
`ids[e] = list(range(offset + n * e, offset + n * e + n))`, where `n` is the number of nodes of the entity;
nedelec_second_kind.py:104-105, :119-120, :177-178. -/
def multIds {N : Type} (dim offset : ℕ) (blocks : List (List N)) (ids : EntityIds ℕ) : EntityIds ℕ :=
  blocks.zipIdx.foldl (fun (ids : EntityIds ℕ) (b : List N × ℕ) =>
    setIds ids dim b.2 (List.range' (offset + b.1.length * b.2) b.1.length)) ids

/-- `UFCTetrahedronFaceQuadratureRule(face_number, degree)`, quadrature.py:239-277: the reference rule, the Jacobian and the
mapped rule. -/
noncomputable def ufcFaceRule (gj : ℕ → ℕ → List ℝ) (face degree : ℕ) :
    Option (QRule ℝ (Fin 2 → ℝ) × Matrix (Fin 3) (Fin 2) ℝ × QRule ℝ (Fin 3 → ℝ)) :=
  (ufcSimplexCell 2).bind fun reference_triangle =>
  (simplexRule gj 2 reference_triangle.verts degree).bind fun reference_rule =>
  (ufcSimplexCell 3).bind fun reference_tet =>
  (entityVerts reference_tet 2 face).bind fun vertices => match vertices with
    | [x0, x1, x2] =>
      let J : Matrix (Fin 3) (Fin 2) ℝ := Matrix.of fun i j => if j = 0 then (x1 - x0) i else (x2 - x0) i
      some (reference_rule, J,
        ⟨reference_rule.pts.map fun p => J.mulVec p + x0, reference_rule.wts.map fun w => Real.sqrt (J.transpose * J).det * w⟩)
    | _ => none

/-- The nodes of one face, nedelec_second_kind.py:139-175 (`degree ≥ 2`); `nrm2` is `compute_scaled_normal` of the reference
triangle, on which `RaviartThomas(reference_face, degree - 1, variant)` is built. -/
noncomputable def n2FaceNodes (gj : ℕ → ℕ → List ℝ) (svd : SvdFun) (T : DigitTable) (nrm2 : ℕ → Option (Fin 2 → ℝ))
    (degree : ℕ) (v : DualVariant) (face : ℕ) : Option (List (Functional ℝ (Fin 3 → ℝ))) :=
  (ufcFaceRule gj face (2 * (degree + 1))).bind fun R =>
  (ufcSimplexCell 2).bind fun reference_face =>
  (raviartThomas gj (degree - 2) (svd 2 _) T reference_face nrm2 (some (variantName v))).bind fun RT =>
  (RT.1.2.values R.1.pts).map fun Phis =>
    let scale : ℝ := 1 / Real.sqrt (R.2.1.transpose * R.2.1).det
    fieldMoments (D := 3) R.2.2 fun i (j : Fin 3) q => scale * R.2.1.mulVec (fun c => Phis i c q) j

/-- `_generate_face_dofs`, nedelec_second_kind.py:124-180, as blocks; the assertion of the UFC convention is `isUfc`. -/
noncomputable def n2FaceBlocks (gj : ℕ → ℕ → List ℝ) (svd : SvdFun) (T : DigitTable) (s : SimplexCell (Fin 3 → ℝ)) (isUfc : Bool)
    (nrm2 : ℕ → Option (Fin 2 → ℝ)) (degree : ℕ) (v : DualVariant) : Option (List (List (Functional ℝ (Fin 3 → ℝ)))) :=
  if degree < 2 then some []
  else if isUfc then (numEnts s 2).bind fun n => (List.range n).mapM fun face => n2FaceNodes gj svd T nrm2 degree v face
  else none

/-- `_generate_cell_dofs`, nedelec_second_kind.py:182-206. -/
noncomputable def n2Cell (gj : ℕ → ℕ → List ℝ) (svd : SvdFun) (T : DigitTable) (s : SimplexCell (Fin D → ℝ))
    (nrm : ℕ → Option (Fin D → ℝ)) (degree : ℕ) (v : DualVariant) : Option (List (Functional ℝ (Fin D → ℝ))) :=
  if (D = 2 ∧ degree < 2) ∨ (D = 3 ∧ degree < 3) then some []
  else (simplexRule gj D s.verts (2 * (degree + 1))).bind fun Q =>
    (raviartThomas gj (degree - D) (svd D _) T s nrm (some (variantName v))).bind fun RT =>
    (RT.1.2.values Q.pts).map fun phi_at_qs => fieldMoments Q phi_at_qs

/-- `NedelecSecondKindDual(cell, degree, variant, quad_deg)` on a triangle, nedelec_second_kind.py:48-86. -/
noncomputable def n2Dual2 (gj : ℕ → ℕ → List ℝ) (svd : SvdFun) (T : DigitTable) (s : SimplexCell (Fin 2 → ℝ))
    (nrm : ℕ → Option (Fin 2 → ℝ)) (degree : ℕ) (v : DualVariant) : Option (List (Functional ℝ (Fin 2 → ℝ)) × EntityIds ℕ) := do
  let ids := (List.range 3).foldl (fun (ids : EntityIds ℕ) (j : ℕ) => setIds ids 0 j []) []
  let edges ← edgeBlocks gj s degree v
  let ids := multIds 1 0 edges ids
  let dofs := edges.flatten
  let cell ← n2Cell gj svd T s nrm degree v
  some (dofs ++ cell, setIds ids 2 0 (List.range' dofs.length cell.length))

/-- `NedelecSecondKindDual(cell, degree, variant, quad_deg)` on a tetrahedron, nedelec_second_kind.py:48-86. -/
noncomputable def n2Dual3 (gj : ℕ → ℕ → List ℝ) (svd : SvdFun) (T : DigitTable) (s : SimplexCell (Fin 3 → ℝ)) (isUfc : Bool)
    (nrm : ℕ → Option (Fin 3 → ℝ)) (nrm2 : ℕ → Option (Fin 2 → ℝ)) (degree : ℕ) (v : DualVariant) :
    Option (List (Functional ℝ (Fin 3 → ℝ)) × EntityIds ℕ) := do
  let ids := (List.range 4).foldl (fun (ids : EntityIds ℕ) (j : ℕ) => setIds ids 0 j []) []
  let edges ← edgeBlocks gj s degree v
  let ids := multIds 1 0 edges ids
  let dofs := edges.flatten
  let faces ← n2FaceBlocks gj svd T s isUfc nrm2 degree v
  let ids := (List.range 4).foldl (fun (ids : EntityIds ℕ) (j : ℕ) => setIds ids 2 j []) ids
  let ids := multIds 2 dofs.length faces ids
  let dofs := dofs ++ faces.flatten
  let cell ← n2Cell gj svd T s nrm degree v
  some (dofs ++ cell, setIds ids 3 0 (List.range' dofs.length cell.length))

/-- The dual; `assert d in (2, 3)`, nedelec_second_kind.py:62. -/
noncomputable def n2Dual (gj : ℕ → ℕ → List ℝ) (svd : SvdFun) (T : DigitTable) (isUfc : Bool) (nrm2 : ℕ → Option (Fin 2 → ℝ))
    (degree : ℕ) (v : DualVariant) : (D : ℕ) → SimplexCell (Fin D → ℝ) → (ℕ → Option (Fin D → ℝ)) →
      Option (List (Functional ℝ (Fin D → ℝ)) × EntityIds ℕ)
  | 2, s, nrm => n2Dual2 gj svd T s nrm degree v
  | 3, s, nrm => n2Dual3 gj svd T s isUfc nrm nrm2 degree v
  | _, _, _ => none

/-- `NedelecSecondKind(cell, k, variant)`, nedelec_second_kind.py:228-250: the element's polynomial set, its nodes and
`entity_ids`. -/
noncomputable def nedelec2 (gj : ℕ → ℕ → List ℝ) (k : ℕ) (svd : SvdFun) (T : DigitTable) (s : SimplexCell (Fin D → ℝ))
    (isUfc : Bool) (nrm : ℕ → Option (Fin D → ℝ)) (nrm2 : ℕ → Option (Fin 2 → ℝ)) (variant : Option (List Char)) :
    Option ((Σ m, PolySet ℝ (Fin D → ℝ) ((k + D).choose D) m (Fin D)) × List (Functional ℝ (Fin D → ℝ)) × EntityIds ℕ) := do
  let v ← dualVariant T variant k
  let S ← (if k < 1 then none else onVectorSet s k)
  let dual ← n2Dual gj svd T isUfc nrm2 k v D s nrm
  let el ← ciarletElement (onExpTab ((k + D).choose D) D S.2.base S.2.dmats) (fun c : Fin D => [(c : ℕ)]) S.2 dual.1
  some (⟨S.1, el⟩, dual)

end
end FIAT
