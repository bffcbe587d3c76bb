/-
Model of FIAT/regge.py, FIAT/hellan_herrmann_johnson.py and of `compute_face_edge_tangents` (reference_element.py).

Components are indexed by `Fin D × Fin D`; component `(i, j)` is `[i, j]` for the functionals.  `nrm` is
`cell.compute_scaled_normal`; its contract is `FacetNormals` (Verif/Lemmas/FacetTrace.lean), proved for the UFC triangle.
-/
import Verif.Model.VectorElements

namespace FIAT
section geometry
variable {D : ℕ}

/-- `Simplex.compute_face_edge_tangents(dim, entity_id)`, reference_element.py:340-352 (`none`: an exception). -/
def faceEdgeTangents (s : SimplexCell (Fin D → ℝ)) (dim e : ℕ) : Option (List (Fin D → ℝ)) :=
  (entityVerts s dim e).bind fun vs =>
    ((List.range dim).flatMap fun source => (List.range' (source + 1) (dim + 1 - (source + 1))).map fun dest => (source, dest)).mapM
      fun (sd : ℕ × ℕ) => (vs[sd.2]?).bind fun b => (vs[sd.1]?).map fun a => b - a

end geometry

section sets
variable {D : ℕ}

/-- The components of a matrix value, as the functionals see them. -/
def comp2 (c : Fin D × Fin D) : List ℕ := [(c.1 : ℕ), (c.2 : ℕ)]

/-- `ONSymTensorPolynomialSet(ref_el, degree)`, polynomial_set.py:229-271: the expansion set and the derivative matrices are
those of `ONPolynomialSet(ref_el, degree)`. -/
noncomputable def onSymSet (s : SimplexCell (Fin D → ℝ)) (degree : ℕ) :
    Option (PolySet ℝ (Fin D → ℝ) ((degree + D).choose D) (onSymNumMembers ((degree + D).choose D) D) (Fin D × Fin D)) := do
  let P ← onPolynomialSet s degree
  some ⟨D, P.base, fun b c k => (onSymCoeffs ((degree + D).choose D) D).1 ((b : ℕ), comp2 c, (k : ℕ)), P.dmats⟩

/-- `CiarletElement` with that set, finite_element.py:113-165. -/
noncomputable def symElement (s : SimplexCell (Fin D → ℝ)) (degree : ℕ) (nodes : List (Functional ℝ (Fin D → ℝ))) :
    Option (PolySet ℝ (Fin D → ℝ) ((degree + D).choose D) (onSymNumMembers ((degree + D).choose D) D) (Fin D × Fin D)) := do
  let Ps ← onSymSet s degree
  ciarletElement (onExpTab ((degree + D).choose D) D Ps.base Ps.dmats) comp2 Ps nodes

end sets

section duals
variable {D : ℕ}

/-- The loop of `_generate_dofs`, regge.py:71-81, `_generate_edge_dofs`, hellan_herrmann_johnson.py:56-63: entity `e` receives the
dofs `(blk e).2`, counted as `(blk e).1`.  Returns `(offset, dofs, dof_ids)`. -/
def generateDofs {N : Type} (num : ℕ) (blk : ℕ → Option (ℕ × List N)) (offset : ℕ) : Option (ℕ × List N × Dict ℕ (List ℕ)) :=
  (List.range num).foldlM (fun (st : ℕ × List N × Dict ℕ (List ℕ)) (e : ℕ) => (blk e).map fun (b : ℕ × List N) =>
    (st.1 + b.1, st.2.1 ++ b.2, Dict.put st.2.2 e (List.range' st.1 b.1))) (offset, [], [])

/-- The dofs of one entity of `ReggeDual`, regge.py:72-78: `t^T u t` for every point and every edge tangent. -/
noncomputable def reggeBlock (s : SimplexCell (Fin D → ℝ)) (degree dim e : ℕ) : Option (ℕ × List (Functional ℝ (Fin D → ℝ))) :=
  (makePoints ℝ s dim e (degree + 2)).bind fun pts => (faceEdgeTangents s dim e).map fun tangents =>
    (pts.length * tangents.length,
      pts.flatMap fun pt => tangents.map fun t => pointwiseInnerProduct D (vecNat t) (vecNat t) pt)

/-- `ReggeDual._generate_dofs(cell, entity_dim, degree, offset)`, regge.py:47-82. -/
noncomputable def reggeDofs (s : SimplexCell (Fin D → ℝ)) (dim degree offset : ℕ) :
    Option (List (Functional ℝ (Fin D → ℝ)) × Dict ℕ (List ℕ)) :=
  (numEnts s dim).bind fun num => (generateDofs num (reggeBlock s degree dim) offset).map fun r => r.2

/-- `dof_ids[0] = {i: [] for i in range(dim + 1)}`, regge.py:31, hellan_herrmann_johnson.py:32. -/
def noVertexDofs (D : ℕ) : EntityIds ℕ := Dict.put [] 0 ((List.range (D + 1)).map fun i => (i, []))

/-- `ReggeDual(cell, degree)`, regge.py:18-45: nodes and `entity_ids` (`none`: `ValueError`). -/
noncomputable def reggeDual (s : SimplexCell (Fin D → ℝ)) (degree : ℕ) : Option (List (Functional ℝ (Fin D → ℝ)) × EntityIds ℕ) :=
  if D < 2 ∨ 3 < D then none
  else do
    let r1 ← reggeDofs s 1 degree 0
    let st : List (Functional ℝ (Fin D → ℝ)) × EntityIds ℕ := (r1.1, Dict.put (noVertexDofs D) 1 r1.2)
    let st ← (if D = 3 then (reggeDofs s 2 degree st.1.length).map fun r2 =>
        (st.1 ++ r2.1, (Dict.put st.2 2 r2.2 : EntityIds ℕ))
      else some st)
    let r3 ← reggeDofs s D degree st.1.length
    some (st.1 ++ r3.1, Dict.put st.2 D r3.2)

/-- `Regge(cell, degree)`, regge.py:85-99. -/
noncomputable def regge (s : SimplexCell (Fin D → ℝ)) (degree : ℕ) :
    Option (PolySet ℝ (Fin D → ℝ) ((degree + D).choose D) (onSymNumMembers ((degree + D).choose D) D) (Fin D × Fin D) ×
      List (Functional ℝ (Fin D → ℝ)) × EntityIds ℕ) := do
  let dual ← reggeDual s degree
  let el ← symElement s degree dual.1
  some (el, dual)

/-- The dofs of one edge of `HellanHerrmannJohnsonDual`, hellan_herrmann_johnson.py:57-60. -/
noncomputable def hhjEdge (s : SimplexCell (Fin 2 → ℝ)) (nrm : ℕ → Option (Fin 2 → ℝ)) (degree e : ℕ) :
    Option (ℕ × List (Functional ℝ (Fin 2 → ℝ))) :=
  (makePoints ℝ s 1 e (degree + 2)).bind fun pts => (nrm e).map fun n =>
    (pts.length, pts.map fun pt => pointwiseInnerProduct 2 (vecNat n) (vecNat n) pt)

/-- The dofs of the triangle, hellan_herrmann_johnson.py:72-82: the components `u11`, `u12`, `u22` at the interior points. -/
noncomputable def hhjTrig (s : SimplexCell (Fin 2 → ℝ)) (degree offset : ℕ) :
    Option (List (Functional ℝ (Fin 2 → ℝ)) × Dict ℕ (List ℕ)) :=
  (makePoints ℝ s 2 0 (degree + 2)).map fun pts =>
    let e1 : Fin 2 → ℝ := ![1, 0]
    let e2 : Fin 2 → ℝ := ![0, 1]
    ([(e1, e1), (e1, e2), (e2, e2)].flatMap fun (v : (Fin 2 → ℝ) × (Fin 2 → ℝ)) =>
        pts.map fun pt => pointwiseInnerProduct 2 (vecNat v.1) (vecNat v.2) pt,
      [(0, List.range' offset (3 * pts.length))])

/-- `HellanHerrmannJohnsonDual(cell, degree)`, hellan_herrmann_johnson.py:20-46 (the test of the dimension is by type). -/
noncomputable def hhjDual (s : SimplexCell (Fin 2 → ℝ)) (nrm : ℕ → Option (Fin 2 → ℝ)) (degree : ℕ) :
    Option (List (Functional ℝ (Fin 2 → ℝ)) × EntityIds ℕ) := do
  let r1 ← generateDofs 3 (hhjEdge s nrm degree) 0
  let r2 ← hhjTrig s degree r1.2.1.length
  some (r1.2.1 ++ r2.1, Dict.put (Dict.put (noVertexDofs 2) 1 r1.2.2) 2 r2.2)

/-- `HellanHerrmannJohnson(cell, degree)`, hellan_herrmann_johnson.py:85-101. -/
noncomputable def hellanHerrmannJohnson (s : SimplexCell (Fin 2 → ℝ)) (nrm : ℕ → Option (Fin 2 → ℝ)) (degree : ℕ) :
    Option (PolySet ℝ (Fin 2 → ℝ) ((degree + 2).choose 2) (onSymNumMembers ((degree + 2).choose 2) 2) (Fin 2 × Fin 2) ×
      List (Functional ℝ (Fin 2 → ℝ)) × EntityIds ℕ) := do
  let dual ← hhjDual s nrm degree
  let el ← symElement s degree dual.1
  some (el, dual)

end duals
end FIAT
