/-
Model of nested tensor products of elements on simplices, and of `FlattenedDimensions` of such a product.
-/
import Verif.Model.TensorElement
import Verif.Model.EntityTabulate

namespace FIAT

/-- A scalar `CiarletElement` on a simplex, seen by `TensorProductElement`: `get_reference_element()`, `space_dimension()`,
`value_shape() == ()` and `tabulate(order, points, entity)` (finite_element.py:157-177).  Dimensions of a simplex are integers; another
key has no entry in its topology. -/
noncomputable def ciarletTab {D N m : ℕ} (ufc : Bool) (c : CellData ℝ) (el : PolySet ℝ (Fin D → ℝ) N m Unit) : TabElem ℝ ℝ where
  cell := c
  sd := D
  dim := m
  shape := none
  tabulate := fun order points ent => match ent.1 with
    | .int d => (tabulateOn ufc (c.toSimplex D) el order d ent.2 (points.map fun p i => (p[(i : ℕ)]?).getD 0)).map fun res =>
        res.map fun q => (q.1, fun x _ j => if h : x < m then q.2 ⟨x, h⟩ () j else 0)
    | _ => none

/-- `TensorProductElement(A, B)` of scalar elements as a factor of another product, tensor_product.py:31-47 (`ref_el` is
`TensorProductCell(A.ref_el, B.ref_el)`), :218-229 (`space_dimension`, `value_shape`) and :231-336. -/
noncomputable def productTab (A B : TabElem ℝ ℝ) : TabElem ℝ ℝ where
  cell := tensorProductCell [A.cell, B.cell]
  sd := A.sd + B.sd
  dim := A.dim * B.dim
  shape := none
  tabulate := tensorTabulate A B

/-- `entity_ids` of `FlattenedDimensions(element)`, tensor_product.py:383-386. -/
def flatIds (ids : EntityIds Key) : EntityIds Key := (flattenEntities ids).map fun q => (Key.int q.1, q.2)

/-- `FlattenedDimensions(element)` on the flat cell `c`, tensor_product.py:382-390, :396-411: `tabulate` looks the product entity up in
`compute_unflattening_map(element.ref_el.get_topology())`; a missing entity is a `KeyError`. -/
noncomputable def flatOf (E : TabElem ℝ ℝ) (c : CellData ℝ) : TabElem ℝ ℝ where
  cell := c
  sd := E.sd
  dim := E.dim
  shape := E.shape
  tabulate := fun order points ent => match ent.1 with
    | .int d => (Dict.get? (computeUnflatteningMap E.cell.topo) (d, ent.2)).bind fun pe => E.tabulate order points pe
    | _ => none

/-- The constructor, tensor_product.py:370-386: the cell is the quadrilateral or the hexahedron; `none`: the `ValueError`. -/
noncomputable def flattenedDimensions (E : TabElem ℝ ℝ) (ids : EntityIds Key) : Option (TabElem ℝ ℝ × EntityIds Key) :=
  if E.sd = 2 then some (flatOf E ufcQuadrilateral, flatIds ids)
  else if E.sd = 3 then some (flatOf E ufcHexahedron, flatIds ids)
  else none

/-- The dual set of `Lagrange` as the list of nodes `TensorProductElement` inspects, tensor_product.py:75-78: `PointEvaluation`s
(lagrange.py:14-40, functional.py:141-156). -/
noncomputable def pointNode (p : List ℝ) : TNode ℝ := ⟨.pointEval, ⟨[(p, [(1, [])])], []⟩⟩

end FIAT
