/-
Model of the Legendre moments of functional.py and of FIAT/mardal_tai_winther.py.

`numpy.polynomial.legendre.legval(x, [0]*m + [1])` is a library call: the Legendre polynomial of degree `m`, for which `evalJacobi 0 0 m`
is written.
-/
import Verif.Model.SecondKind
import Verif.Model.Radau
import Verif.Model.Jacobi

namespace FIAT
section

/-- The rule of `IntegralLegendreDirectionalMoment` and its subclasses, functional.py:348-349: `comp_deg + 1` Gauss-Legendre points on
`UFCInterval()`; `leg m` are the two results of numpy's `leggauss(m)`. -/
noncomputable def legendreRule (leg : ℕ → List ℝ × List ℝ) (comp_deg : ℕ) : Option (QRule ℝ (Fin 1 → ℝ)) := do
  let rline ← ufcSimplexCell 1
  gaussLegendreLineRule rline.verts (comp_deg + 1) (leg (comp_deg + 1)).1 (leg (comp_deg + 1)).2

/-- The points, weights and values of `legval(2*x - 1, [0]*mom_deg + [1])` on edge `entity`, functional.py:348-356. -/
noncomputable def legendreTable (leg : ℕ → List ℝ × List ℝ) (s : SimplexCell (Fin 2 → ℝ)) (entity mom_deg comp_deg : ℕ) :
    Option (List ((Fin 2 → ℝ) × ℝ × ℝ)) := do
  let Q ← legendreRule leg comp_deg
  let pts ← mapToEntity s 1 entity Q.pts
  some (zipRule pts Q.wts fun (j : ℕ) => evalJacobi (0 : ℝ) 0 mom_deg (2 * (Q.pts.getD j 0 0) - 1))

/-- `IntegralLegendreNormalMoment(cell, entity, mom_deg, comp_deg)`, functional.py:368-373, :342-365; `nrm` is `compute_scaled_normal`. -/
noncomputable def legendreNormalMoment (leg : ℕ → List ℝ × List ℝ) (s : SimplexCell (Fin 2 → ℝ)) (nrm : ℕ → Option (Fin 2 → ℝ))
    (entity mom_deg comp_deg : ℕ) : Option (Functional ℝ (Fin 2 → ℝ)) := do
  let n ← nrm entity
  let T ← legendreTable leg s entity mom_deg comp_deg
  some (integralLegendreDirectionalMoment (vecNat n) T)

/-- `DivergenceDubinerMoments(cell, start_deg, stop_deg, comp_deg)`, mardal_tai_winther.py:22-36: the members `start_deg (start_deg + 1) / 2`
up to `(stop_deg + 1)(stop_deg + 2) / 2` (exclusive). -/
noncomputable def divergenceDubinerMoments (gj : ℕ → ℕ → List ℝ) (s : SimplexCell (Fin 2 → ℝ)) (start_deg stop_deg comp_deg : ℕ) :
    Option (List (Functional ℝ (Fin 2 → ℝ))) := do
  let onp ← onPolynomialSet s stop_deg
  let Q ← simplexRule gj 2 s.verts comp_deg
  let vals ← onp.values Q.pts
  let lo := start_deg * (start_deg + 1) / 2
  (List.range' lo ((stop_deg + 1) * (stop_deg + 2) / 2 - lo)).mapM fun (ii : ℕ) =>
    if h : ii < (stop_deg + 2).choose 2 then
      some (integralMomentOfDivergence 2 (zipRule Q.pts Q.wts (vals ⟨ii, h⟩ ())))
    else none

/-- The three nodes of edge `f`, mardal_tai_winther.py:98-104. -/
noncomputable def mtwEdge (s : SimplexCell (Fin 2 → ℝ)) (nrm : ℕ → Option (Fin 2 → ℝ)) (Q : QRule ℝ (Fin 1 → ℝ))
    (phi0 phi1 : ℕ → ℝ) (f : ℕ) : Option (List (Functional ℝ (Fin 2 → ℝ))) := do
  let pts ← mapToEntity s 1 f Q.pts
  let n ← nrm f
  let t ← edgeTangent s f
  some [integralMomentOfDirection 2 (vecNat n) (zipRule pts Q.wts phi0),
    integralMomentOfDirection 2 (vecNat t) (zipRule pts Q.wts phi0),
    integralMomentOfDirection 2 (vecNat n) (zipRule pts Q.wts phi1)]

/-- `MardalTaiWintherDual._generate_edge_dofs(cell, degree)`, mardal_tai_winther.py:80-110: `(dofs, dof_ids)`. -/
noncomputable def mtwEdgeDofs (gj : ℕ → ℕ → List ℝ) (s : SimplexCell (Fin 2 → ℝ)) (nrm : ℕ → Option (Fin 2 → ℝ)) :
    Option (List (Functional ℝ (Fin 2 → ℝ)) × Dict ℕ (List ℕ)) := do
  let facet ← ufcSimplexCell 1
  let Q ← simplexRule gj 1 facet.verts 6
  let Pq ← onPolynomialSet facet 1
  let Pq_at_qpts ← Pq.values Q.pts
  let r ← (List.range 3).foldlM (fun (r : ℕ × List (Functional ℝ (Fin 2 → ℝ)) × Dict ℕ (List ℕ)) (f : ℕ) =>
    (mtwEdge s nrm Q (Pq_at_qpts ⟨0, by decide⟩ ()) (Pq_at_qpts ⟨1, by decide⟩ ()) f).map fun dofs =>
      (r.1 + 3, r.2.1 ++ dofs, Dict.put r.2.2 f (List.range' r.1 3))) (0, [], [])
  some r.2

/-- `MardalTaiWintherDual._generate_constraint_dofs(cell, degree, offset)`, mardal_tai_winther.py:113-144:
`(dofs, edge_dof_ids, cell_dof_ids)`. -/
noncomputable def mtwConstraints (gj : ℕ → ℕ → List ℝ) (leg : ℕ → List ℝ × List ℝ) (s : SimplexCell (Fin 2 → ℝ))
    (nrm : ℕ → Option (Fin 2 → ℝ)) (offset : ℕ) : Option (List (Functional ℝ (Fin 2 → ℝ)) × Dict ℕ (List ℕ) × List ℕ) := do
  let r ← (List.range 3).foldlM (fun (r : ℕ × List (Functional ℝ (Fin 2 → ℝ)) × Dict ℕ (List ℕ)) (e : ℕ) =>
    (legendreNormalMoment leg s nrm e 2 6).bind fun l2 => (legendreNormalMoment leg s nrm e 3 6).map fun l3 =>
      (r.1 + 2, r.2.1 ++ [l2, l3], Dict.put r.2.2 e [r.1, r.1 + 1])) (offset, [], [])
  let cell_dofs ← divergenceDubinerMoments gj s 1 2 6
  some (r.2.1 ++ cell_dofs, r.2.2, List.range' r.1 cell_dofs.length)

/-- `MardalTaiWintherDual(cell, degree)`, mardal_tai_winther.py:39-78. -/
noncomputable def mtwDual (gj : ℕ → ℕ → List ℝ) (leg : ℕ → List ℝ × List ℝ) (s : SimplexCell (Fin 2 → ℝ))
    (nrm : ℕ → Option (Fin 2 → ℝ)) : Option (List (Functional ℝ (Fin 2 → ℝ)) × EntityIds ℕ) := do
  let d ← mtwEdgeDofs gj s nrm
  let c ← mtwConstraints gj leg s nrm d.1.length
  let ids1 ← (List.range 3).foldlM (fun (m : Dict ℕ (List ℕ)) (e : ℕ) =>
    (Dict.get? m e).bind fun a => (Dict.get? c.2.1 e).map fun b => Dict.put m e (a ++ b)) d.2
  some (d.1 ++ c.1, Dict.put (Dict.put (Dict.put [] 0 ((List.range 3).map fun i => (i, []))) 1 ids1) 2 [(0, [] ++ c.2.2)])

/-- `MardalTaiWinther(cell, degree)` on a cell of dimension 2, mardal_tai_winther.py:147-164; `none`: the failed assertion
`degree == 3`.  Cells of other dimensions (also rejected by an assertion) are outside the type of the model. -/
noncomputable def mardalTaiWinther (gj : ℕ → ℕ → List ℝ) (leg : ℕ → List ℝ × List ℝ) (s : SimplexCell (Fin 2 → ℝ))
    (nrm : ℕ → Option (Fin 2 → ℝ)) (degree : ℕ) :
    Option ((Σ m, PolySet ℝ (Fin 2 → ℝ) ((degree + 2).choose 2) m (Fin 2)) × List (Functional ℝ (Fin 2 → ℝ)) × EntityIds ℕ) :=
  if degree ≠ 3 then none else do
  let S ← onVectorSet s degree
  let dual ← mtwDual gj leg s nrm
  let el ← ciarletElement (onExpTab ((degree + 2).choose 2) 2 S.2.base S.2.dmats) (fun c : Fin 2 => [(c : ℕ)]) S.2 dual.1
  some (⟨S.1, el⟩, dual)

end
end FIAT
