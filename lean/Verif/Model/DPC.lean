/-
Model of FIAT/discontinuous_pc.py.
-/
import Verif.Model.ONSet
import Verif.Model.TensorCell

namespace FIAT
section
variable {D : ℕ}

/-- `l[::2]`. -/
def everyOther {α : Type} : List α → List α
  | [] => []
  | [a] => [a]
  | a :: _ :: l => a :: everyOther l

/-- `numpy.average(l, axis=0)`. -/
noncomputable def averageOf (l : List (Fin D → ℝ)) : Fin D → ℝ := (l.length : ℝ)⁻¹ • l.sum

/-- `v_`, discontinuous_pc.py:53-65, `V` the vertices of the flattened reference element, of which there is an even number
(`int(-0.5*len(V))` is the index `len(V) - len(V) // 2`). -/
noncomputable def dpcCorners (V : List (Fin D → ℝ)) : Option (List (Fin D → ℝ)) := do
  let a ← V[0]?
  let b ← V[V.length - V.length / 2]?
  let rest ← (List.range' 1 (D - 1)).mapM fun (d : ℕ) => V[D - d]?.map fun (v : Fin D → ℝ) => v + averageOf (everyOther V)
  some ([a, b] ++ rest)

/-- The nodes of `DPCDualSet`, discontinuous_pc.py:53-83: the points at which they evaluate; `s` is `hypercube_simplex_map[flat_el]`. -/
noncomputable def dpcPoints (s : SimplexCell (Fin D → ℝ)) (V : List (Fin D → ℝ)) (degree : ℕ) : Option (List (Fin D → ℝ)) := do
  let v_ ← dpcCorners V
  let Ab ← makeAffineMapping s.verts v_
  let r ← numberEntities s.topo fun d e => (makePoints ℝ s d e degree).map fun pts => pts.map fun x => Ab.1.mulVec x + Ab.2
  some r.2.1

/-- `DPC(ref_el, degree)`, discontinuous_pc.py:29-44 (`DPC0`, with `P0Dual`, P0.py:17-37), :92-112: the element, the points of its nodes
and the entity dofs; `topo` is the topology of `ref_el`, which has the vertices `V` of the flattened cell. -/
noncomputable def dpcElement {δ : Type} [LinearOrder δ] (s : SimplexCell (Fin D → ℝ)) (V : List (Fin D → ℝ)) (topo : Topology δ) (degree : ℕ) :
    Option (PolySet ℝ (Fin D → ℝ) ((degree + D).choose D) ((degree + D).choose D) Unit × List (Fin D → ℝ) × EntityIds δ) :=
  if degree = 0 then do
    let ids ← p0Ids topo
    let el ← pointElement s degree [averageOf V]
    some (el, [averageOf V], ids)
  else do
    let pts ← dpcPoints s V degree
    let ids ← cellOnly topo pts.length
    let el ← pointElement s degree pts
    some (el, pts, ids)

/-- `flatten_reference_cube` of a hypercube of dimension 1, 2 or 3, reference_element.py:1037-1050 (for a `DefaultLine` see `dpc_line`). -/
def flatCube : ℕ → CellData ℝ
  | 1 => ufcInterval
  | 2 => ufcQuadrilateral
  | _ => ufcHexahedron

/-- `hypercube_simplex_map[flat_el]`, discontinuous_pc.py:22-26. -/
def cubeSimplex : ℕ → CellData ℝ
  | 1 => ufcInterval
  | 2 => ufcTriangle
  | _ => ufcTetrahedron

/-- `DPC(ref_el, degree)` for a reference element with topology `topo` that is, or flattens to, the UFC hypercube of dimension `D`. -/
noncomputable def dpc {δ : Type} [LinearOrder δ] (D : ℕ) (topo : Topology δ) (degree : ℕ) :
    Option (PolySet ℝ (Fin D → ℝ) ((degree + D).choose D) ((degree + D).choose D) Unit × List (Fin D → ℝ) × EntityIds δ) :=
  dpcElement ((cubeSimplex D).toSimplex D) ((flatCube D).toSimplex D).verts topo degree

end
end FIAT
