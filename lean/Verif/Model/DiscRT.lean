/-
Model of FIAT/discontinuous_raviart_thomas.py.
-/
import Verif.Model.VectorElements

namespace FIAT
section
variable {D : ℕ}

/-- The nodes of `DRTDualSet(ref_el, degree)`, discontinuous_raviart_thomas.py:25-42: the normal components at the points
`make_points(sd - 1, i, sd + degree)` of every facet (`nrm` is `compute_scaled_normal`), then, for `degree > 0`, the components at the
points `make_points(sd, 0, degree + sd)`, component by component. -/
noncomputable def drtNodes (s : SimplexCell (Fin D → ℝ)) (nrm : ℕ → Option (Fin D → ℝ)) (degree : ℕ) :
    Option (List (Functional ℝ (Fin D → ℝ))) := do
  let nf ← numEnts s (D - 1)
  let facets ← (List.range nf).mapM fun (i : ℕ) => (makePoints ℝ s (D - 1) i (D + degree)).bind fun pts => (nrm i).map fun n =>
    pts.map fun pt => pointDirectionEvaluation D (vecNat n) pt
  if 0 < degree then
    (makePoints ℝ s D 0 (degree + D)).bind fun pts =>
      ((List.range D).mapM fun (d : ℕ) => pts.mapM fun pt => componentPointEvaluation (d : ℤ) [D] pt).map fun cells =>
        facets.flatten ++ cells.flatten
  else some facets.flatten

/-- The `entity_ids` of `DRTDualSet`, discontinuous_raviart_thomas.py:44-57: nothing on the entities of dimension below `sd`, all `n` nodes
on the cell. -/
def drtIds (s : SimplexCell (Fin D → ℝ)) (n : ℕ) : Option (EntityIds ℕ) := do
  let ids ← emptyLoop s (List.range (D - 1)) []
  let ids ← emptyLoop s [D - 1] ids
  some (Dict.put ids D [(0, List.range n)])

/-- `DiscontinuousRaviartThomas(ref_el, q)` for `q = degree + 1 ≥ 1`, discontinuous_raviart_thomas.py:62-71. -/
noncomputable def discontinuousRaviartThomas (gj : ℕ → ℕ → List ℝ) (degree : ℕ)
    (svd : List (Fin D → Fin ((degree + 1 + D).choose D) → ℝ) →
      List ℝ × List (Fin D → Fin ((degree + 1 + D).choose D) → ℝ))
    (s : SimplexCell (Fin D → ℝ)) (nrm : ℕ → Option (Fin D → ℝ)) :
    Option ((Σ m, PolySet ℝ (Fin D → ℝ) ((degree + 1 + D).choose D) m (Fin D)) ×
      List (Functional ℝ (Fin D → ℝ)) × EntityIds ℕ) := do
  let S ← rtSpace gj degree svd s
  let nodes ← drtNodes s nrm degree
  let ids ← drtIds s nodes.length
  let el ← ciarletElement (onExpTab ((degree + 1 + D).choose D) D S.2.base S.2.dmats) (fun c : Fin D => [(c : ℕ)]) S.2 nodes
  some (⟨S.1, el⟩, nodes, ids)

end
end FIAT
