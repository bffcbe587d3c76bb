/-
Model of FIAT/arnold_winther.py.
-/
import Verif.Model.LegendreMoments
import Verif.Model.SymTensor

namespace FIAT
section

/-- `compute_normalized_edge_tangent(i)`, reference_element.py:325-328. -/
noncomputable def normalizedTangent (s : SimplexCell (Fin 2 → ℝ)) (i : ℕ) : Option (Fin 2 → ℝ) :=
  (edgeTangent s i).map fun t => (1 / Real.sqrt (∑ j, t j ^ 2)) • t

/-- `IntegralLegendreBidirectionalMoment(cell, s1, s2, entity, mom_deg, comp_deg)`, functional.py:384-417; `sv entity` are the singular values
in `volume_of_subcomplex(1, entity)`. -/
noncomputable def legendreBiMoment (leg : ℕ → List ℝ × List ℝ) (s : SimplexCell (Fin 2 → ℝ)) (sv : ℕ → List ℝ) (s1 s2 : Fin 2 → ℝ)
    (entity mom_deg comp_deg : ℕ) : Option (Functional ℝ (Fin 2 → ℝ)) :=
  (legendreTable leg s entity mom_deg comp_deg).map fun T =>
    integralLegendreBidirectionalMoment 2 (vecNat s1) (vecNat s2) (volumeOf (sv entity) 1) T

/-- `IntegralLegendreNormalNormalMoment(cell, entity, mom_deg, comp_deg)`, functional.py:420-425; `nrm` is `compute_normal`. -/
noncomputable def legendreNN (leg : ℕ → List ℝ × List ℝ) (s : SimplexCell (Fin 2 → ℝ)) (nrm : ℕ → Option (Fin 2 → ℝ)) (sv : ℕ → List ℝ)
    (entity mom_deg comp_deg : ℕ) : Option (Functional ℝ (Fin 2 → ℝ)) :=
  (nrm entity).bind fun n => legendreBiMoment leg s sv n n entity mom_deg comp_deg

/-- `IntegralLegendreNormalTangentialMoment(cell, entity, mom_deg, comp_deg)`, functional.py:428-434. -/
noncomputable def legendreNT (leg : ℕ → List ℝ × List ℝ) (s : SimplexCell (Fin 2 → ℝ)) (nrm : ℕ → Option (Fin 2 → ℝ)) (sv : ℕ → List ℝ)
    (entity mom_deg comp_deg : ℕ) : Option (Functional ℝ (Fin 2 → ℝ)) :=
  (nrm entity).bind fun n => (normalizedTangent s entity).bind fun t => legendreBiMoment leg s sv n t entity mom_deg comp_deg

/-- The four nodes of an edge, arnold_winther.py:43-45, :120-122. -/
noncomputable def awEdge (leg : ℕ → List ℝ × List ℝ) (s : SimplexCell (Fin 2 → ℝ)) (nrm : ℕ → Option (Fin 2 → ℝ)) (sv : ℕ → List ℝ)
    (entity_id : ℕ) : Option (List (Functional ℝ (Fin 2 → ℝ))) := do
  let a ← legendreNN leg s nrm sv entity_id 0 6
  let b ← legendreNT leg s nrm sv entity_id 0 6
  let c ← legendreNN leg s nrm sv entity_id 1 6
  let d ← legendreNT leg s nrm sv entity_id 1 6
  some [a, b, c, d]

/-- The loop over the edges, arnold_winther.py:42-47, :119-124: `(dof_cur, dofs, dof_ids[1])`. -/
noncomputable def awEdges (leg : ℕ → List ℝ × List ℝ) (s : SimplexCell (Fin 2 → ℝ)) (nrm : ℕ → Option (Fin 2 → ℝ)) (sv : ℕ → List ℝ)
    (cur : ℕ) (dofs : List (Functional ℝ (Fin 2 → ℝ))) : Option (ℕ × List (Functional ℝ (Fin 2 → ℝ)) × Dict ℕ (List ℕ)) :=
  (List.range 3).foldlM (fun (r : ℕ × List (Functional ℝ (Fin 2 → ℝ)) × Dict ℕ (List ℕ)) (entity_id : ℕ) =>
    (awEdge leg s nrm sv entity_id).map fun ds => (r.1 + 4, r.2.1 ++ ds, Dict.put r.2.2 entity_id (List.range' r.1 4)))
    (cur, dofs, [(0, []), (1, []), (2, [])])

/-- `basis`, arnold_winther.py:52-54, :104-106, :129-131. -/
def awBasis : List ((Fin 2 → ℝ) × (Fin 2 → ℝ)) := [(![1, 0], ![1, 0]), (![1, 0], ![0, 1]), (![0, 1], ![0, 1])]

/-- The constant moments of the components, arnold_winther.py:50-62, :127-137. -/
noncomputable def awInterior (gj : ℕ → ℕ → List ℝ) (s : SimplexCell (Fin 2 → ℝ)) (m : ℕ) : Option (List (Functional ℝ (Fin 2 → ℝ))) :=
  (simplexRule gj 2 s.verts m).map fun Q => awBasis.map fun b =>
    frobeniusIntegralMoment [2, 2] ((Q.pts.zip Q.wts).map fun q =>
      (q.1, q.2, fun (α : List ℕ) => vecNat b.1 (α.getD 0 0) * vecNat b.2 (α.getD 1 0)))

/-- `ArnoldWintherNCDual(cell, degree)`, arnold_winther.py:28-73. -/
noncomputable def awNCDual (gj : ℕ → ℕ → List ℝ) (leg : ℕ → List ℝ × List ℝ) (s : SimplexCell (Fin 2 → ℝ)) (nrm : ℕ → Option (Fin 2 → ℝ))
    (sv : ℕ → List ℝ) : Option (List (Functional ℝ (Fin 2 → ℝ)) × EntityIds ℕ) := do
  let r ← awEdges leg s nrm sv 0 []
  let int ← awInterior gj s 2
  let r2 ← (List.range 3).foldlM (fun (q : ℕ × List (Functional ℝ (Fin 2 → ℝ)) × Dict ℕ (List ℕ)) (entity_id : ℕ) =>
    (legendreNN leg s nrm sv entity_id 2 6).bind fun dof => (Dict.get? q.2.2 entity_id).map fun l =>
      (q.1 + 1, q.2.1 ++ [dof], Dict.put q.2.2 entity_id (l ++ [q.1]))) (r.1 + 3, r.2.1 ++ int, r.2.2)
  some (r2.2.1, [(0, [(0, []), (1, []), (2, [])]), (1, r2.2.2), (2, Dict.put [(0, [])] 0 (List.range' r.1 3))])

/-- `ArnoldWintherNC(cell, degree)` on a cell of dimension 2, arnold_winther.py:76-86; `none`: the failed assertion `degree == 2`. -/
noncomputable def arnoldWintherNC (gj : ℕ → ℕ → List ℝ) (leg : ℕ → List ℝ × List ℝ) (s : SimplexCell (Fin 2 → ℝ))
    (nrm : ℕ → Option (Fin 2 → ℝ)) (sv : ℕ → List ℝ) (degree : ℕ) :
    Option (PolySet ℝ (Fin 2 → ℝ) ((degree + 2).choose 2) (onSymNumMembers ((degree + 2).choose 2) 2) (Fin 2 × Fin 2) ×
      List (Functional ℝ (Fin 2 → ℝ)) × EntityIds ℕ) :=
  if degree ≠ 2 then none else do
  let dual ← awNCDual gj leg s nrm sv
  let el ← symElement s degree dual.1
  some (el, dual)

/-- The loop over the vertices, arnold_winther.py:110-115: `(dof_cur, dofs, dof_ids[0])`. -/
noncomputable def awVertices (s : SimplexCell (Fin 2 → ℝ)) : Option (ℕ × List (Functional ℝ (Fin 2 → ℝ)) × Dict ℕ (List ℕ)) :=
  (List.range 3).foldlM (fun (r : ℕ × List (Functional ℝ (Fin 2 → ℝ)) × Dict ℕ (List ℕ)) (entity_id : ℕ) =>
    s.verts[entity_id]?.map fun node =>
      (r.1 + 3, r.2.1 ++ awBasis.map (fun b => pointwiseInnerProduct 2 (vecNat b.1) (vecNat b.2) node),
        Dict.put r.2.2 entity_id (List.range' r.1 3))) (0, [], [(0, []), (1, []), (2, [])])

/-- The constraints, arnold_winther.py:143-151. -/
noncomputable def awConstraints (gj : ℕ → ℕ → List ℝ) (s : SimplexCell (Fin 2 → ℝ)) : Option (List (Functional ℝ (Fin 2 → ℝ))) := do
  let Q ← simplexRule gj 2 s.verts 5
  let onp ← onVectorSet s 2
  let onpvals ← onp.2.values Q.pts
  (List.range' 3 3 ++ List.range' 9 3).mapM fun (i : ℕ) =>
    if h : i < onp.1 then
      some (integralMomentOfTensorDivergence 2 ((Q.pts.zip Q.wts).zipIdx.map fun q =>
        (q.1.1, q.1.2, vecNat fun c : Fin 2 => onpvals ⟨i, h⟩ c q.2)))
    else none

/-- `ArnoldWintherDual(cell, degree)`, arnold_winther.py:90-155. -/
noncomputable def awDual (gj : ℕ → ℕ → List ℝ) (leg : ℕ → List ℝ × List ℝ) (s : SimplexCell (Fin 2 → ℝ)) (nrm : ℕ → Option (Fin 2 → ℝ))
    (sv : ℕ → List ℝ) : Option (List (Functional ℝ (Fin 2 → ℝ)) × EntityIds ℕ) := do
  let v ← awVertices s
  let r ← awEdges leg s nrm sv v.1 v.2.1
  let int ← awInterior gj s 3
  let con ← awConstraints gj s
  some (r.2.1 ++ int ++ con,
    [(0, v.2.2), (1, r.2.2), (2, Dict.put [(0, [])] 0 (List.range' r.1 3 ++ List.range' (r.1 + 3) 6))])

/-- `ArnoldWinther(cell, degree)` on a cell of dimension 2, arnold_winther.py:158-167; `none`: the failed assertion `degree == 3`. -/
noncomputable def arnoldWinther (gj : ℕ → ℕ → List ℝ) (leg : ℕ → List ℝ × List ℝ) (s : SimplexCell (Fin 2 → ℝ))
    (nrm : ℕ → Option (Fin 2 → ℝ)) (sv : ℕ → List ℝ) (degree : ℕ) :
    Option (PolySet ℝ (Fin 2 → ℝ) ((degree + 2).choose 2) (onSymNumMembers ((degree + 2).choose 2) 2) (Fin 2 × Fin 2) ×
      List (Functional ℝ (Fin 2 → ℝ)) × EntityIds ℕ) :=
  if degree ≠ 3 then none else do
  let dual ← awDual gj leg s nrm sv
  let el ← symElement s degree dual.1
  some (el, dual)

end
end FIAT
