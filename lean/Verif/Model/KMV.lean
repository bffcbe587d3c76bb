/-
Model of the Kong-Mulder-Veldhuizen element (FIAT/kong_mulder_veldhuizen.py).
-/
import Verif.Model.NodalEnriched
import Verif.Model.QuadratureSchemes

namespace FIAT
section

/-- `dict((i, ids[i]) for i in range(len(ids)))`, the form of the tables in kong_mulder_veldhuizen.py:33-79. -/
def idsRow (ids : List (List ℕ)) : Dict ℕ (List ℕ) := ids.zipIdx.map fun (p : List ℕ × ℕ) => (p.2, p.1)

/-- `_get_entity_ids(ref_el, degree)`, kong_mulder_veldhuizen.py:25-80.  `none`: `UnboundLocalError`, for the degrees and dimensions without
a branch (for degree 1: `KeyError` if the topology has no entities of a dimension). -/
def kmvEntityIds (topo : Topology ℕ) (sd : ℕ) (degree : ℕ) : Option (EntityIds ℕ) :=
  match degree, sd with
  | 1, sd => do
    let verts ← Dict.get? topo 0
    let rest ← (List.range sd).mapM fun (d : ℕ) => (Dict.get? topo (d + 1)).map fun m => (d + 1, idsRow (List.replicate (List.length m) []))
    some ((0, idsRow ((List.range (List.length verts)).map fun (i : ℕ) => [i])) :: rest)
  | 2, 2 => some [(0, idsRow [[0], [1], [2]]), (1, idsRow [[3], [4], [5]]), (2, idsRow [[6]])]
  | 2, 3 => some [(0, idsRow [[0], [1], [2], [3]]), (1, idsRow [[4], [5], [6], [7], [8], [9]]), (2, idsRow [[10], [11], [12], [13]]),
      (3, idsRow [[14]])]
  | 3, 2 => some [(0, idsRow [[0], [1], [2]]), (1, idsRow [[3, 4], [6, 5], [7, 8]]), (2, idsRow [[9, 10, 11]])]
  | 3, 3 => some [(0, idsRow [[0], [1], [2], [3]]), (1, idsRow [[4, 5], [7, 6], [8, 9], [11, 10], [12, 13], [14, 15]]),
      (2, idsRow [[16, 17, 18], [19, 20, 21], [22, 23, 24], [25, 26, 27]]), (3, idsRow [[28, 29, 30, 31]])]
  | 4, 2 => some [(0, idsRow [[0], [1], [2]]), (1, idsRow [[6, 3, 7], [9, 4, 8], [10, 5, 11]]), (2, idsRow [[12, 13, 14, 15, 16, 17]])]
  | 5, 2 => some [(0, idsRow [[0], [1], [2]]), (1, idsRow [[9, 3, 4, 10], [12, 6, 5, 11], [13, 7, 8, 14]]),
      (2, idsRow [[15, 16, 17, 18, 19, 20, 21, 22, 23, 24, 25, 26, 27, 28, 29]])]
  | _, _ => none

/-- `bump(T, deg)`, kong_mulder_veldhuizen.py:83-102; `none`: `ValueError`. -/
def kmvBump (sd deg : ℕ) : Option (ℕ × ℕ) :=
  if deg = 1 then some (0, 0)
  else if sd = 2 then
    if deg < 5 then some (1, 1) else if deg = 5 then some (2, 2) else none
  else if sd = 3 then
    if deg < 4 then some (1, 2) else none
  else none

variable {D : ℕ}

/-- `KongMulderVeldhuizenSpace(T, deg)`, kong_mulder_veldhuizen.py:105-135: the element whose `poly_set` is returned.  `none`: an
exception, or `inds` unbound / `None` returned for a dimension other than 2, 3. -/
noncomputable def kmvSpace (s : SimplexCell (Fin D → ℝ)) (deg : ℕ) : Option (NodalPart D Unit) :=
  if deg = 1 then lagrangePart s 1
  else do
    let L ← lagrangePart s deg
    let cell ← EntityIds.at? L.ids D 0
    let not_inds ← (if D = 2 then some cell
      else if D = 3 then (Dict.get? L.ids (D - 1)).map fun (facets : Dict ℕ (List ℕ)) => cell ++ facets.flatMap fun p => p.2
      else none)
    let inds := ((List.range L.dim).filter fun (i : ℕ) => decide (i ∉ not_inds)).map fun (i : ℕ) => (i : ℤ)
    let RL ← restrictPart (fun _ : Unit => []) L inds
    let bump ← kmvBump D deg
    let bubs ← bubblePart s (deg + bump.2) 0
    if D = 2 then nodalEnriched s (fun _ : Unit => []) [RL, bubs]
    else do
      let fbubs ← bubblePart s (deg + bump.1) 1
      nodalEnriched s (fun _ : Unit => []) [RL, bubs, fbubs]

/-- `KongMulderVeldhuizen(ref_el, degree)`, kong_mulder_veldhuizen.py:138-181, on a cell with spatial dimension `D` and coordinates `data`:
the element, and the `order` passed to `CiarletElement`.  `ref_el != TRIANGLE and ref_el != TETRAHEDRON` is modelled by the dimension (for
simplices the comparison, C42 (`pyEq`), is that of the topologies).  For a degree below 1 the dual set raises `UnboundLocalError` if
nothing else did. -/
noncomputable def kmvElement (s : SimplexCell (Fin D → ℝ)) (data : CellData ℝ) (degree : ℤ) : Option (NodalPart D Unit × ℕ) :=
  if D ≠ 2 ∧ D ≠ 3 then none
  else if degree > 5 ∧ D = 2 then none
  else if degree > 3 ∧ D = 3 then none
  else if degree < 1 then none
  else do
    let S ← kmvSpace s degree.toNat
    let entity_ids ← kmvEntityIds s.topo D degree.toNat
    let lr ← kmvLumpScheme D data degree
    let nodes := lr.pts.map fun (x : List ℝ) => (pointEvaluation (toVec D x) : Functional ℝ (Fin D → ℝ))
    let bump ← kmvBump D degree.toNat
    let el ← ciarletElement (onExpTab ((S.degree + D).choose D) D S.el.base S.el.dmats) (fun _ : Unit => []) S.el nodes
    some (⟨S.degree, S.dim, el, nodes, entity_ids⟩, degree.toNat + max bump.1 bump.2)

end
end FIAT
