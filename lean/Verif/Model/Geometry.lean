/-
Model of the geometric part of FIAT/reference_element.py: `make_lattice` (:55-71),
`Simplex.get_entity_transform` (:392-445), `make_affine_mapping` (:901-934), `contains_point`
(:469-476, :762-771), UFC normals (:551-555, :658-662), `compute_tangents` (:300-308).

A numpy vector with `D` entries is `Fin D → K`; where only vector-space operations are used, an arbitrary
module `V`.
-/
import Verif.Model.Combinat
import Verif.Model.TensorCell
import Mathlib.Analysis.Real.Sqrt
import Mathlib.Data.Fin.VecNotation
import Mathlib.LinearAlgebra.Matrix.NonsingularInverse
import Mathlib.Algebra.Order.Field.Basic
import Mathlib.Algebra.Module.Basic

namespace FIAT

section lattice
variable {K V : Type*} [DivisionRing K] [AddCommGroup V] [Module K V]

/-- `numpy.array(indices).dot(hs)`: the linear combination of the rows of `hs`. -/
def natCombo (K : Type*) {V : Type*} [DivisionRing K] [AddCommGroup V] [Module K V]
    (idx : List ℕ) (hs : List V) : V :=
  (List.zipWith (fun (i : ℕ) h => (i : K) • h) idx hs).sum

/-- `make_lattice(verts, n, interior)`, reference_element.py:55-71, `verts = v0 :: vs`.
(`verts = []` is an `IndexError`.)  `/ n` is multiplication by the inverse of `n`; for `n = 0` and at
least two vertices numpy produces inf/nan, which is not modelled. -/
def makeLattice (K : Type*) {V : Type*} [DivisionRing K] [AddCommGroup V] [Module K V]
    (v0 : V) (vs : List V) (n interior : ℕ) : List V :=
  let hs := vs.map fun v => ((n : K)⁻¹) • (v - v0)
  (latticeIter interior (n + 1 - interior) hs.length).map fun idx => v0 + natCombo K idx hs

end lattice

section affine
variable {K : Type*} [Field K]

/-- Loop of `make_affine_mapping`, reference_element.py:917-927, as successive row assignments.
Row `i * dim_y + j` of `mat` receives `xs[i]` in columns `dim_x*j ..` and `1` in column
`dim_y*dim_x + j`; the same row of `rhs` receives `ys[i][j]`. -/
def affineSystem {dx dy : ℕ} (xs : List (Fin dx → K)) (ys : List (Fin dy → K)) :
    (ℕ → ℕ → K) × (ℕ → K) :=
  (xs.zip ys).zipIdx.foldl (fun acc p =>
    (List.finRange dy).foldl (fun (acc : (ℕ → ℕ → K) × (ℕ → K)) (j : Fin dy) =>
      (Function.update acc.1 (p.2 * dy + j) (fun col =>
          if col = dy * dx + j then 1
          else if h : dx * j ≤ col ∧ col - dx * j < dx then p.1.1 ⟨col - dx * j, h.2⟩
          else 0),
        Function.update acc.2 (p.2 * dy + j) (p.1.2 j))) acc)
    (fun _ _ => 0, fun _ => 0)

/-- `make_affine_mapping(xs, ys)`, reference_element.py:901-934.  `none`: lists of different length
(the explicit `raise`), more rows than the matrix has (`IndexError`), or a singular matrix (`LinAlgError`).
`numpy.linalg.solve` is the matrix inverse applied to the right-hand side; the result is
reshaped row-major. -/
noncomputable def makeAffineMapping {dx dy : ℕ} (xs : List (Fin dx → K)) (ys : List (Fin dy → K)) :
    Option (Matrix (Fin dy) (Fin dx) K × (Fin dy → K)) :=
  open Classical in
  let N := dx * dy + dy
  if xs.length ≠ ys.length then none
  else if N < xs.length * dy then none
  else
    let S := affineSystem xs ys
    let mat : Matrix (Fin N) (Fin N) K := fun r c => S.1 r c
    let rhs : Fin N → K := fun r => S.2 r
    if IsUnit mat.det then
      let sol := mat⁻¹.mulVec rhs
      some (fun j k => sol ⟨dx * j + k, by
              have h1 : dx * (j + 1) ≤ dx * dy := Nat.mul_le_mul_left _ j.2
              have := k.2; rw [Nat.mul_add] at h1; show _ < dx * dy + dy; omega⟩,
            fun j => sol ⟨dx * dy + j, by have := j.2; show _ < dx * dy + dy; omega⟩)
    else none

/-- `Simplex.get_entity_transform` for `0 < dim < celldim`, reference_element.py:418-445: `ve` are the
vertices of the reference sub-cell (`subdim + 1` of them), `vc` the entity's vertices in the cell. -/
def entityTransform {sub cd : ℕ} (ve : Fin (sub + 1) → Fin sub → K) (vc : Fin (sub + 1) → Fin cd → K) :
    (Fin sub → K) → (Fin cd → K) :=
  let A : Matrix (Fin sub) (Fin sub) K := Matrix.of fun i l =>
    (ve i.succ l - ve 0 l) / ∑ k, (ve i.succ k - ve 0 k) * (ve i.succ k - ve 0 k)
  let B : Matrix (Fin cd) (Fin sub) K := Matrix.of fun l j => vc j.succ l - vc 0 l
  let C := B * A
  let offset := vc 0 - C.mulVec (ve 0)
  fun x => offset + C.mulVec x

/-- Vertices of the UFC reference simplex: the origin and the unit vectors
(reference_element.py:513-514, :543-544, :638-639; any dimension). -/
def ufcVerts (K : Type*) [Zero K] [One K] (d : ℕ) : Fin (d + 1) → Fin d → K :=
  Fin.cases (fun _ => 0) (fun i l => if l = i then 1 else 0)

end affine

section contains
variable {K : Type*} [Field K] [LinearOrder K] [IsStrictOrderedRing K]

/-- `UFCSimplex.contains_point`, reference_element.py:469-476. -/
def simplexContains (pt : List K) (eps : K) : Bool :=
  pt.foldl (fun result c => result && decide (c + eps ≥ 0)) (decide (pt.sum - eps ≤ 1))

/-- UFC simplices and (nested) tensor products of them.  Quadrilateral and hexahedron delegate to
their product cell (reference_element.py:830-833, :895-898). -/
inductive ShapeTree where
  | simplex (d : ℕ)
  | prod (cells : List ShapeTree)

mutual
/-- `get_spatial_dimension()` (length of the first vertex: concatenation for products). -/
def ShapeTree.dim : ShapeTree → ℕ
  | .simplex d => d
  | .prod cells => ShapeTree.dims cells
/-- `sum(lengths)` with `lengths = [c.get_spatial_dimension() for c in cells]`. -/
def ShapeTree.dims : List ShapeTree → ℕ
  | [] => 0
  | c :: cs => c.dim + ShapeTree.dims cs
end

mutual
/-- `contains_point`, reference_element.py:469-476 and :762-771; `none` is the failed assertion on the
length of the point. -/
def containsPoint : ShapeTree → List K → K → Option Bool
  | .simplex _, pt, eps => some (simplexContains pt eps)
  | .prod cells, pt, eps =>
    if pt.length = ShapeTree.dims cells then containsList cells pt eps true else none
/-- The `reduce(operator.and_, (...), True)` over cells and consecutive slices of the point
(`_split_slices`, reference_element.py:697-704). -/
def containsList : List ShapeTree → List K → K → Bool → Option Bool
  | [], _, _, acc => some acc
  | c :: cs, pt, eps, acc => do
    let r ← containsPoint c (pt.take c.dim) eps
    containsList cs (pt.drop c.dim) eps (acc && r)
end

end contains

section transforms
variable {α : Type}

/-- `TensorProductCell._split_slices(lengths)` applied to a point, reference_element.py:697-704:
consecutive blocks. -/
def splitSlices : List ℕ → List α → List (List α)
  | [], _ => []
  | n :: ns, pt => pt.take n :: splitSlices ns (pt.drop n)

/-- `TensorProductCell.get_entity_transform(dim, entity_i)`, reference_element.py:720-741:
`sct c i` is the transform of factor `c`'s entity `i` of the given dimension, `counts` the numbers of
entities of that dimension in the factors, `dims` the dimensions of the factor entities. -/
def tensorTransform (dims counts : List ℕ) (sct : List (ℕ → List α → List α)) (entity : ℕ)
    (pt : List α) : List α :=
  (List.zipWith (fun (t : List α → List α) s => t s)
    (List.zipWith (fun (t : ℕ → List α → List α) i => t i) sct (unravel entity counts))
    (splitSlices dims pt)).flatten

end transforms

section normals

/-- `compute_tangents` for an entity with vertices `v0 :: vs`, reference_element.py:300-308. -/
def computeTangents {D : ℕ} (v0 : Fin D → ℝ) (vs : List (Fin D → ℝ)) : List (Fin D → ℝ) :=
  vs.map fun v => v - v0

/-- `numpy.linalg.norm`. -/
noncomputable def norm2 {D : ℕ} (v : Fin D → ℝ) : ℝ := Real.sqrt (∑ i, v i * v i)

/-- `UFCTriangle.compute_normal`, reference_element.py:551-555, for a facet with vertices `v0, v1`. -/
noncomputable def triangleNormal (v0 v1 : Fin 2 → ℝ) : Fin 2 → ℝ :=
  let t := v1 - v0
  let n : Fin 2 → ℝ := ![t 1, -t 0]
  fun i => n i / norm2 n

/-- `numpy.cross`. -/
def cross (a b : Fin 3 → ℝ) : Fin 3 → ℝ :=
  ![a 1 * b 2 - a 2 * b 1, a 2 * b 0 - a 0 * b 2, a 0 * b 1 - a 1 * b 0]

/-- `UFCTetrahedron.compute_normal`, reference_element.py:658-662, for a facet with vertices
`v0, v1, v2`. -/
noncomputable def tetNormal (v0 v1 v2 : Fin 3 → ℝ) : Fin 3 → ℝ :=
  let n := cross (v1 - v0) (v2 - v0)
  fun i => -2 * n i / norm2 n

end normals
end FIAT
