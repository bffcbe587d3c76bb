/-
`get_entity_transform` of every simplex class and `CiarletElement.tabulate` on an entity.
-/
import Verif.Model.VectorElements

namespace FIAT
section
variable {D : ℕ}

/-- The vertex of entity `(0, e)`: `i, = topology[0][e]; self.get_vertices()[i]` (reference_element.py:404-405, :415). -/
def vertexOf (s : SimplexCell (Fin D → ℝ)) (e : ℕ) : Option (Fin D → ℝ) :=
  (entityVerts s 0 e).bind fun vs => match vs with
    | [x] => some x
    | _ => none

/-- `Simplex.get_entity_transform(dim, entity)`, reference_element.py:392-443.  `ufc`: the cell is a `UFCSimplex`, so
`construct_subelement(dim)` is the UFC simplex of that dimension (:461-467); for the other simplices (`DefaultLine`, `DefaultTriangle`,
`IntrepidTriangle`, `DefaultTetrahedron`, `IntrepidTetrahedron`) it raises `NotImplementedError` (:209-215), which :413-416 catches. -/
noncomputable def simplexTransform (ufc : Bool) (s : SimplexCell (Fin D → ℝ)) (dim e : ℕ) : Option ((Fin dim → ℝ) → Fin D → ℝ) :=
  if dim = 0 then (vertexOf s e).map fun x _ => x
  else if h : dim = D then (if e = 0 then some fun x i => x (i.cast h.symm) else none)
  else if ufc then (entityVerts s dim e).bind fun vs =>
    if h : vs.length = dim + 1 then some (entityTransform (ufcVerts ℝ dim) fun j => vs.get (j.cast h.symm)) else none
  else (vertexOf s e).map fun x _ => x

/-- `CiarletElement.tabulate(order, points, entity)`, finite_element.py:157-177, for `entity = (dim, e)`; `el` is the polynomial set
of the element. -/
noncomputable def tabulateOn {N m : ℕ} {C : Type} (ufc : Bool) (s : SimplexCell (Fin D → ℝ)) (el : PolySet ℝ (Fin D → ℝ) N m C)
    (order : ℕ) (dim e : ℕ) (points : List (Fin dim → ℝ)) : Option (Dict (List ℕ) (Fin m → C → ℕ → ℝ)) :=
  (simplexTransform ufc s dim e).bind fun transform => el.tabulate (points.map transform) order

/-- `CiarletElement.tabulate(order, points)`, finite_element.py:169-170: `entity = (self.ref_el.get_spatial_dimension(), 0)`. -/
noncomputable def tabulateCell {N m : ℕ} {C : Type} (ufc : Bool) (s : SimplexCell (Fin D → ℝ)) (el : PolySet ℝ (Fin D → ℝ) N m C)
    (order : ℕ) (points : List (Fin D → ℝ)) : Option (Dict (List ℕ) (Fin m → C → ℕ → ℝ)) :=
  tabulateOn ufc s el order D 0 points

/-- `IntegralMomentOfScaledNormalEvaluation(ref_el, Q, phi, f)` for every row `phi` of `phis`, functional.py:653-673, on any simplex
class: the points of the rule go through `get_entity_transform(sd - 1, f)`. -/
noncomputable def scaledNormalMoments (ufc : Bool) (s : SimplexCell (Fin D → ℝ)) (nrm : ℕ → Option (Fin D → ℝ))
    (Q : QRule ℝ (Fin (D - 1) → ℝ)) {m : ℕ} (phis : Fin m → Unit → ℕ → ℝ) (f : ℕ) : Option (List (Functional ℝ (Fin D → ℝ))) :=
  (simplexTransform ufc s (D - 1) f).bind fun transform => (nrm f).map fun n =>
    (List.finRange m).map fun i => integralMomentOfDirection D (vecNat n) (zipRule (Q.pts.map transform) Q.wts (phis i ()))

end
end FIAT
