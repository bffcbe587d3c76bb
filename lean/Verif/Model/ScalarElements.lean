/-
Model of FIAT/hermite.py, FIAT/morley.py, FIAT/argyris.py, FIAT/bell.py, FIAT/crouzeix_raviart.py and
FIAT/discontinuous_taylor.py.

`nrm` is `ref_el.compute_normal`; its contract is `FacetNormals` (Verif/Lemmas/FacetTrace.lean), proved for the UFC cells.
The shape test `get_shape() != TRIANGLE` is by type (`Fin 2 → ℝ`).  The Gauss nodes come from the parameter `gj`.
-/
import Verif.Model.VectorElements
import Verif.Model.Combinat
import Verif.Model.Jacobi

namespace FIAT
section loops
variable {D : ℕ} {N : Type}

/-- `nodes.extend(chunk); entity_ids[d][e] += list(range(cur, cur + n)); cur += n`, with a chunk given as the pair `(n, nodes)`:
hermite.py:31-40, :58-60, argyris.py:54-56, :62-64.  The state is `(cur, nodes, entity_ids)`. -/
def chunkStep (d e : ℕ) (st : ℕ × List N × EntityIds ℕ) (chunk : ℕ × List N) : ℕ × List N × EntityIds ℕ :=
  (st.1 + chunk.1, st.2.1 ++ chunk.2, setIds st.2.2 d e ((st.2.2.at? d e).getD [] ++ List.range' st.1 chunk.1))

/-- `entity_ids[d] = {}; for e in sorted(top[d]): ...` where the body appends the chunks `blk e` of nodes and records their
numbers; no chunk: `entity_ids[d][e] = []`.  hermite.py:29-65, morley.py:30-44, argyris.py:30-64, :98-123, bell.py:33-49.
(Where the code loops over `top[d]` unsorted, hermite.py:47, :64, the body is the same for all entities.) -/
def entityLoop (s : SimplexCell (Fin D → ℝ)) (d : ℕ) (blk : ℕ → Option (List (ℕ × List N))) (st : ℕ × List N × EntityIds ℕ) :
    Option (ℕ × List N × EntityIds ℕ) :=
  (Dict.get? s.topo d).bind fun es =>
    (sortedItems es).foldlM (fun (st : ℕ × List N × EntityIds ℕ) (q : ℕ × List ℕ) => (blk q.1).map fun chunks =>
      chunks.foldl (chunkStep d q.1) (st.1, st.2.1, setIds st.2.2 d q.1 [])) (st.1, st.2.1, Dict.put st.2.2 d [])

end loops

section nodes
variable {D : ℕ}

/-- Value and first derivatives at vertex `v`: hermite.py:31-37, argyris.py:32-38. -/
noncomputable def jet1 (s : SimplexCell (Fin D → ℝ)) (v : ℕ) : Option (List (Functional ℝ (Fin D → ℝ))) :=
  (s.verts[v]?).map fun x => pointEvaluation x :: (List.range D).map fun i => pointDerivative x (unitAlpha D i)

/-- Value, first and second derivatives at vertex `v`: argyris.py:32-43, :100-111, bell.py:35-46. -/
noncomputable def jet2 (s : SimplexCell (Fin 2 → ℝ)) (v : ℕ) : Option (List (Functional ℝ (Fin 2 → ℝ))) :=
  (s.verts[v]?).map fun x => (pointEvaluation x :: (List.range 2).map fun i => pointDerivative x (unitAlpha 2 i)) ++
    [[2, 0], [1, 1], [0, 2]].map fun alpha => pointDerivative x alpha

/-- `CubicHermiteDualSet(ref_el)`, hermite.py:16-67: nodes and `entity_ids`. -/
noncomputable def hermiteDual (s : SimplexCell (Fin D → ℝ)) : Option (List (Functional ℝ (Fin D → ℝ)) × EntityIds ℕ) := do
  let st ← entityLoop s 0 (fun v => (jet1 s v).map fun l => [(1 + D, l)]) (0, [], [])
  let st ← entityLoop s 1 (fun _ => some []) st
  let st ← (if 1 < D then do
      let st ← entityLoop s 2 (fun f => (makePoints ℝ s 2 f 3).bind fun pts => pts.head?.map fun pt => [(1, [pointEvaluation pt])]) st
      (List.range' 3 (D + 1 - 3)).foldlM (fun (st : ℕ × List (Functional ℝ (Fin D → ℝ)) × EntityIds ℕ) (dim : ℕ) =>
        entityLoop s dim (fun _ => some []) st) st
    else some st)
  some (st.2.1, st.2.2)

/-- `CubicHermite(ref_el, deg)`, hermite.py:73-78. -/
noncomputable def cubicHermite (s : SimplexCell (Fin D → ℝ)) (deg : ℕ) :
    Option (PolySet ℝ (Fin D → ℝ) ((3 + D).choose D) ((3 + D).choose D) Unit × List (Functional ℝ (Fin D → ℝ)) × EntityIds ℕ) :=
  if deg ≠ 3 then none
  else do
    let dual ← hermiteDual s
    let el ← functionalElement s 3 dual.1
    some (el, dual)

/-- `PointNormalDerivative(ref_el, e, pt)` at the first point of `make_points(1, e, 2)`: morley.py:40-44, argyris.py:119-123. -/
noncomputable def midpointNormal (s : SimplexCell (Fin 2 → ℝ)) (nrm : ℕ → Option (Fin 2 → ℝ)) (e : ℕ) :
    Option (List (ℕ × List (Functional ℝ (Fin 2 → ℝ)))) :=
  (makePoints ℝ s 1 e 2).bind fun pts => pts.head?.bind fun pt => (nrm e).map fun n =>
    [(1, [pointNormalDerivative 2 (vecNat n) pt])]

/-- `MorleyDualSet(ref_el)`, morley.py:16-48. -/
noncomputable def morleyDual (s : SimplexCell (Fin 2 → ℝ)) (nrm : ℕ → Option (Fin 2 → ℝ)) :
    Option (List (Functional ℝ (Fin 2 → ℝ)) × EntityIds ℕ) := do
  let st ← entityLoop s 0 (fun v => (s.verts[v]?).map fun x => [(1, [pointEvaluation x])]) (0, [], [])
  let st ← entityLoop s 1 (fun e => midpointNormal s nrm e) st
  some (st.2.1, Dict.put st.2.2 2 [(0, [])])

/-- `Morley(ref_el)`, morley.py:54-57. -/
noncomputable def morley (s : SimplexCell (Fin 2 → ℝ)) (nrm : ℕ → Option (Fin 2 → ℝ)) :
    Option (PolySet ℝ (Fin 2 → ℝ) ((2 + 2).choose 2) ((2 + 2).choose 2) Unit × List (Functional ℝ (Fin 2 → ℝ)) × EntityIds ℕ) := do
  let dual ← morleyDual s nrm
  let el ← functionalElement s 2 dual.1
  some (el, dual)

/-- The chunks of edge `e` in `ArgyrisDualSet`, argyris.py:51-64.  (`degree - 3` negative in the code: no points, as here.) -/
noncomputable def argyrisEdge (s : SimplexCell (Fin 2 → ℝ)) (nrm : ℕ → Option (Fin 2 → ℝ)) (degree e : ℕ) :
    Option (List (ℕ × List (Functional ℝ (Fin 2 → ℝ)))) :=
  (makePoints ℝ s 1 e (degree - 3)).bind fun ndpts =>
    (ndpts.mapM fun pt => (nrm e).map fun n => pointNormalDerivative 2 (vecNat n) pt).bind fun ndnds =>
      if 5 < degree then (makePoints ℝ s 1 e (degree - 4)).map fun ptvalpts => [(ndpts.length, ndnds), (ptvalpts.length, ptvalpts.map pointEvaluation)]
      else some [(ndpts.length, ndnds)]

/-- `ArgyrisDualSet(ref_el, degree)`, argyris.py:12-77. -/
noncomputable def argyrisDual (s : SimplexCell (Fin 2 → ℝ)) (nrm : ℕ → Option (Fin 2 → ℝ)) (degree : ℕ) :
    Option (List (Functional ℝ (Fin 2 → ℝ)) × EntityIds ℕ) := do
  let st ← entityLoop s 0 (fun v => (jet2 s v).map fun l => [(6, l)]) (0, [], [])
  let st ← entityLoop s 1 (fun e => argyrisEdge s nrm degree e) st
  if 5 < degree then
    (makePoints ℝ s 2 0 (degree - 3)).map fun internalpts =>
      (st.2.1 ++ internalpts.map pointEvaluation, setIds (Dict.put st.2.2 2 []) 2 0 (List.range' st.1 internalpts.length))
  else some (st.2.1, Dict.put (Dict.put st.2.2 2 []) 2 [(0, [])])

/-- `Argyris(ref_el, degree)`, argyris.py:133-136. -/
noncomputable def argyris (s : SimplexCell (Fin 2 → ℝ)) (nrm : ℕ → Option (Fin 2 → ℝ)) (degree : ℕ) :
    Option (PolySet ℝ (Fin 2 → ℝ) ((degree + 2).choose 2) ((degree + 2).choose 2) Unit × List (Functional ℝ (Fin 2 → ℝ)) ×
      EntityIds ℕ) := do
  let dual ← argyrisDual s nrm degree
  let el ← functionalElement s degree dual.1
  some (el, dual)

/-- `QuinticArgyrisDualSet(ref_el)`, argyris.py:81-127. -/
noncomputable def quinticArgyrisDual (s : SimplexCell (Fin 2 → ℝ)) (nrm : ℕ → Option (Fin 2 → ℝ)) :
    Option (List (Functional ℝ (Fin 2 → ℝ)) × EntityIds ℕ) := do
  let st ← entityLoop s 0 (fun v => (jet2 s v).map fun l => [(6, l)]) (0, [], [])
  let st ← entityLoop s 1 (fun e => midpointNormal s nrm e) st
  some (st.2.1, Dict.put st.2.2 2 [(0, [])])

/-- `QuinticArgyris(ref_el)`, argyris.py:142-145. -/
noncomputable def quinticArgyris (s : SimplexCell (Fin 2 → ℝ)) (nrm : ℕ → Option (Fin 2 → ℝ)) :
    Option (PolySet ℝ (Fin 2 → ℝ) ((5 + 2).choose 2) ((5 + 2).choose 2) Unit × List (Functional ℝ (Fin 2 → ℝ)) × EntityIds ℕ) := do
  let dual ← quinticArgyrisDual s nrm
  let el ← functionalElement s 5 dual.1
  some (el, dual)

/-- `IntegralMomentOfNormalDerivative(ref_el, e, q1d, leg4_at_qpts)`, bell.py:52-63, functional.py:317-339. -/
noncomputable def bellEdge (s : SimplexCell (Fin 2 → ℝ)) (nrm : ℕ → Option (Fin 2 → ℝ)) (q1d : QRule ℝ (Fin 1 → ℝ)) (e : ℕ) :
    Option (Functional ℝ (Fin 2 → ℝ)) :=
  (mapToEntity s 1 e q1d.pts).bind fun dpts => (nrm e).map fun n =>
    integralMomentOfNormalDerivative 2 (vecNat n) (zipRule dpts q1d.wts fun j =>
      evalJacobi (0 : ℝ) 0 4 (2 * (q1d.pts.getD j 0 0) - 1))

/-- `BellDualSet(ref_el)`, bell.py:16-67; the edge dofs are numbered `18 + e`.  `create_quadrature(rline, 8)` on the UFC interval
is the Gauss rule with 5 points (quadrature_schemes.py:86-93). -/
noncomputable def bellDual (gj : ℕ → ℕ → List ℝ) (s : SimplexCell (Fin 2 → ℝ)) (nrm : ℕ → Option (Fin 2 → ℝ)) :
    Option (List (Functional ℝ (Fin 2 → ℝ)) × EntityIds ℕ) := do
  let st ← entityLoop s 0 (fun v => (jet2 s v).map fun l => [(6, l)]) (0, [], [])
  let rline ← ufcSimplexCell 1
  let q1d ← simplexRule gj 1 rline.verts ((8 + 1 + 1) / 2)
  let es ← Dict.get? s.topo 1
  let r ← (sortedItems es).foldlM (fun (r : List (Functional ℝ (Fin 2 → ℝ)) × EntityIds ℕ) (q : ℕ × List ℕ) =>
    (bellEdge s nrm q1d q.1).map fun node => (r.1 ++ [node], setIds r.2 1 q.1 [18 + q.1])) (st.2.1, Dict.put st.2.2 1 [])
  some (r.1, Dict.put r.2 2 [(0, [])])

/-- `Bell(ref_el)`, bell.py:73-76. -/
noncomputable def bell (gj : ℕ → ℕ → List ℝ) (s : SimplexCell (Fin 2 → ℝ)) (nrm : ℕ → Option (Fin 2 → ℝ)) :
    Option (PolySet ℝ (Fin 2 → ℝ) ((5 + 2).choose 2) ((5 + 2).choose 2) Unit × List (Functional ℝ (Fin 2 → ℝ)) × EntityIds ℕ) := do
  let dual ← bellDual gj s nrm
  let el ← functionalElement s 5 dual.1
  some (el, dual)

/-- `CrouzeixRaviartDualSet(cell, degree)`, crouzeix_raviart.py:15-21, :28-49: `nodes[i] = ...` writes into a list of `None`s (an index
out of range is an `IndexError`); an entry left `None` is an error later. -/
noncomputable def crDual (s : SimplexCell (Fin D → ℝ)) : Option (List (Functional ℝ (Fin D → ℝ)) × EntityIds ℕ) := do
  let es ← Dict.get? s.topo (D - 1)
  let r ← es.foldlM (fun (r : List (Option (Functional ℝ (Fin D → ℝ))) × EntityIds ℕ) (q : ℕ × List ℕ) =>
    (makePoints ℝ s (D - 1) q.1 D).bind fun pts => pts.head?.bind fun x =>
      if q.1 < r.1.length then
        some (r.1.set q.1 (some (pointEvaluation x)), setIds r.2 (D - 1) q.1 ((r.2.at? (D - 1) q.1).getD [] ++ [q.1]))
      else none) (List.replicate es.length none, blankIds s.topo)
  let nodes ← r.1.mapM id
  some (nodes, r.2)

/-- `CrouzeixRaviart(cell, degree)`, crouzeix_raviart.py:60-70. -/
noncomputable def crouzeixRaviart (s : SimplexCell (Fin D → ℝ)) (degree : ℕ) :
    Option (PolySet ℝ (Fin D → ℝ) ((1 + D).choose D) ((1 + D).choose D) Unit × List (Functional ℝ (Fin D → ℝ)) × EntityIds ℕ) :=
  if degree ≠ 1 then none
  else do
    let dual ← crDual s
    let el ← functionalElement s 1 dual.1
    some (el, dual)

/-- `DiscontinuousTaylorDualSet(ref_el, degree)`, discontinuous_taylor.py:19-39. -/
noncomputable def taylorDual (gj : ℕ → ℕ → List ℝ) (s : SimplexCell (Fin D → ℝ)) (degree : ℕ) :
    Option (List (Functional ℝ (Fin D → ℝ)) × EntityIds ℕ) := do
  let Q ← simplexRule gj D s.verts (2 * (degree + 1))
  let mean := integralMoment (zipRule Q.pts Q.wts fun _ => 1) []
  let midpoint := (1 / (s.verts.length : ℝ)) • s.verts.sum
  let nodes := mean :: (List.range' 1 degree).flatMap fun k => (mis D k).map fun alpha => pointDerivative midpoint alpha
  some (nodes, setIds (blankIds s.topo) D 0 (List.range' 0 nodes.length))

/-- `DiscontinuousTaylor(ref_el, degree)` for `degree ≥ 1`, discontinuous_taylor.py:45-56; for degree 0 it is `P0(ref_el)`,
P0.py:17-45. -/
noncomputable def discontinuousTaylor (gj : ℕ → ℕ → List ℝ) (s : SimplexCell (Fin D → ℝ)) (degree : ℕ) :
    Option (PolySet ℝ (Fin D → ℝ) ((degree + D).choose D) ((degree + D).choose D) Unit × List (Functional ℝ (Fin D → ℝ)) ×
      EntityIds ℕ) :=
  if degree = 0 then do
    let ids ← p0Ids s.topo
    let bary := (1 / (s.verts.length : ℝ)) • s.verts.sum
    let el ← functionalElement s degree [pointEvaluation bary]
    some (el, [pointEvaluation bary], ids)
  else do
    let dual ← taylorDual gj s degree
    let el ← functionalElement s degree dual.1
    some (el, dual)

end nodes
end FIAT
