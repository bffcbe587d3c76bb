/-
Model of the reference normals and volumes of tensor-product cells: `TensorProductCell.volume` and `compute_reference_normal`
(reference_element.py:743-760) and those of `UFCQuadrilateral` (:820-828) and `UFCHexahedron` (:885-893).
-/
import Verif.Model.TensorCell
import Verif.Model.Normals

namespace FIAT

/-- What the tensor-product cell asks of its factors; `dim` is both `get_dimension()` and `get_spatial_dimension()`, which agree for cells
with an integer dimension. -/
structure CellGeom where
  data : CellData ℝ
  dim : ℕ
  refNormal : ℕ → ℕ → Option (List ℝ)
  volume : Option ℝ

/-- `TensorProductCell.volume()`, reference_element.py:743-745. -/
noncomputable def tensorVolume (cells : List CellGeom) : Option ℝ := (cells.mapM fun (c : CellGeom) => c.volume).map List.prod

/-- `numpy.nonzero(numpy.array(self.get_dimension()) - numpy.array(facet_dim))`, reference_element.py:751-752. -/
def nonzeroDims (cells : List CellGeom) (facet_dim : List ℕ) : List ℕ :=
  (((cells.zip facet_dim).zipIdx.filter fun (q : (CellGeom × ℕ) × ℕ) => decide (q.1.1.dim ≠ q.1.2))).map Prod.snd

/-- `TensorProductCell.compute_reference_normal(facet_dim, facet_i)`, reference_element.py:747-760. -/
def tensorReferenceNormal (cells : List CellGeom) (facet_dim : List ℕ) (facet : ℕ) : Option (List ℝ) :=
  if facet_dim.length ≠ cells.length then none
  else match nonzeroDims cells facet_dim with
    | [cell_i] =>
      ((cells.zip facet_dim).zipIdx.mapM fun (q : (CellGeom × ℕ) × ℕ) =>
        if cell_i = q.2 then q.1.1.refNormal q.1.2 facet else some (List.replicate q.1.1.dim 0)).map List.flatten
    | _ => none

/-- A simplex as a factor: `compute_reference_normal` (reference_element.py:386-390) with the `compute_normal` of its class, `nrm`
(`computeNormal`, Verif/Model/Normals.lean, or `ufcNormal`, Verif/Model/VectorElements.lean). -/
noncomputable def simplexGeom (c : CellData ℝ) (D : ℕ) (nrm : ℕ → Option (Fin D → ℝ)) (vol : Option ℝ) : CellGeom where
  data := c
  dim := D
  refNormal := fun facet_dim facet =>
    if facet_dim + 1 = D then (nrm facet).map fun n => List.ofFn fun i => n i / ‖n‖ else none
  volume := vol

/-- A tuple of integers. -/
def intTuple : Key → Option (List ℕ)
  | .nil => some []
  | .cons (.int n) tl => (intTuple tl).map fun l => n :: l
  | _ => none

/-- `UFCQuadrilateral.compute_reference_normal` (:824-828, `codim_dim = 1`) and `UFCHexahedron.compute_reference_normal` (:889-893,
`codim_dim = 2`): `cells` are the factors of `self.product`. -/
def flatReferenceNormal (cells : List CellGeom) (codim_dim : ℕ) (facet_dim facet : ℕ) : Option (List ℝ) :=
  if facet_dim ≠ codim_dim then none
  else do
    let q ← (computeUnflatteningMap (tensorProductCell (cells.map CellGeom.data)).topo).get? (facet_dim, facet)
    let ds ← intTuple q.1
    tensorReferenceNormal cells ds q.2

/-- `UFCQuadrilateral` and `UFCHexahedron` as factors of a product (:774-893): `c` is the flattened product of `cells`. -/
noncomputable def flatGeom (cells : List CellGeom) (c : CellData ℝ) : CellGeom where
  data := c
  dim := (cells.map CellGeom.dim).sum
  refNormal := flatReferenceNormal cells ((cells.map CellGeom.dim).sum - 1)
  volume := tensorVolume cells

end FIAT
