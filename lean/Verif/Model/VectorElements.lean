/-
Model of the H(div) and H(curl) elements: FIAT/raviart_thomas.py, and the parts of FIAT/polynomial_set.py,
FIAT/reference_element.py they use (`take`, `polynomial_set_union_normalized`, `compute_scaled_normal`, `volume`).

Floating-point numbers are reals.  `numpy.linalg.svd` is a parameter (the singular values and the rows of `vt`); its contract
is `IsSVD` in Verif/Props/VectorSpaces.lean.  The Gauss nodes come from the parameter `gj` as in Model/QuadratureSchemes.lean.
Integral variants are modelled for the UFC cells, whose `construct_subelement(d)` is the UFC simplex (other cells have none).
-/
import Verif.Model.ONSet
import Verif.Model.Quadrature
import Verif.Model.Blocks
import Verif.Model.PolyDim
import Verif.Model.Variant
import Verif.Model.FunctionalClasses
import Mathlib.Analysis.SpecialFunctions.Pow.Real

namespace FIAT
section geometry
variable {D : ℕ}

/-- `get_vertices_of_subcomplex(topology[dim][e])`, reference_element.py:197-200. -/
def entityVerts (s : SimplexCell (Fin D → ℝ)) (dim e : ℕ) : Option (List (Fin D → ℝ)) :=
  (Dict.get? s.topo dim).bind fun es => (Dict.get? es e).bind fun t => verticesOf s t

/-- The value of `volume(verts)` (reference_element.py:993-1016) from the singular values `sv` numpy returns for the map from
the UFC simplex of dimension `sd` to `verts`. -/
noncomputable def volumeOf (sv : List ℝ) (sd : ℕ) : ℝ := (sv.filter fun s => decide (1e-10 < s)).prod / (sd.factorial : ℝ)

/-- `UFCTriangle.compute_normal(i)` (reference_element.py:551-555) and `UFCTetrahedron.compute_normal(i)` (:658-662). -/
noncomputable def ufcNormal : (D : ℕ) → SimplexCell (Fin D → ℝ) → ℕ → Option (Fin D → ℝ)
  | 2, s, i => (entityVerts s 1 i).bind fun vs => match vs with
      | [v0, v1] => some (triangleNormal v0 v1)
      | _ => none
  | 3, s, i => (entityVerts s 2 i).bind fun vs => match vs with
      | [v0, v1, v2] => some (tetNormal v0 v1 v2)
      | _ => none
  | _, _, _ => none

/-- `compute_scaled_normal(i)`, reference_element.py:379-384; `sv i` are the singular values in `volume_of_subcomplex`. -/
noncomputable def ufcScaledNormal (s : SimplexCell (Fin D → ℝ)) (sv : ℕ → List ℝ) (i : ℕ) : Option (Fin D → ℝ) :=
  (ufcNormal D s i).map fun n => volumeOf (sv i) (D - 1) • n

/-- `compute_edge_tangent(i)`, reference_element.py:318-323. -/
def edgeTangent (s : SimplexCell (Fin D → ℝ)) (i : ℕ) : Option (Fin D → ℝ) :=
  (entityVerts s 1 i).bind fun vs => match vs with
    | [v0, v1] => some (v1 - v0)
    | _ => none

/-- `compute_face_tangents(i)`, reference_element.py:330-338. -/
def faceTangents (s : SimplexCell (Fin D → ℝ)) (i : ℕ) : Option ((Fin D → ℝ) × (Fin D → ℝ)) :=
  if D ≠ 3 then none
  else (entityVerts s 2 i).bind fun vs => match vs with
    | [v0, v1, v2] => some (v1 - v0, v2 - v0)
    | _ => none

/-- `get_entity_transform(dim, e)` of a UFC simplex (reference_element.py:392-445), applied to each point of a rule;
`0 < dim < D`. -/
noncomputable def mapToEntity (s : SimplexCell (Fin D → ℝ)) (dim e : ℕ) (pts : List (Fin dim → ℝ)) : Option (List (Fin D → ℝ)) :=
  (entityVerts s dim e).bind fun vs =>
    if h : vs.length = dim + 1 then
      some (pts.map (entityTransform (ufcVerts ℝ dim) fun j => vs.get (j.cast h.symm)))
    else none

/-- `make_quadrature(cell, m)` on a simplex, quadrature.py:280-308. -/
noncomputable def simplexRule (gj : ℕ → ℕ → List ℝ) : (D : ℕ) → List (Fin D → ℝ) → ℕ → Option (QRule ℝ (Fin D → ℝ))
  | 1, verts, m => if m = 0 then none else gaussLineRule verts m (gj 0 m)
  | 2, verts, m => if m = 0 then none else collapsedTriangleRule verts m (gj 0 m) (gj 1 m)
  | 3, verts, m => if m = 0 then none else collapsedTetrahedronRule verts m (gj 0 m) (gj 1 m) (gj 2 m)
  | _, _, _ => none

/-- The UFC simplex of dimension 1, 2, 3 (`ufc_simplex`, reference_element.py:976-990). -/
noncomputable def ufcSimplexCell : (D : ℕ) → Option (SimplexCell (Fin D → ℝ))
  | 1 => some ((ufcInterval : CellData ℝ).toSimplex 1)
  | 2 => some ((ufcTriangle : CellData ℝ).toSimplex 2)
  | 3 => some ((ufcTetrahedron : CellData ℝ).toSimplex 3)
  | _ => none

/-- A vector as the code indexes it. -/
def vecNat (v : Fin D → ℝ) (i : ℕ) : ℝ := if h : i < D then v ⟨i, h⟩ else 0

end geometry

section sets
variable {D N : ℕ}

/-- The values `tabulate(pts)[(0, ..., 0)]`: (member, component, point). -/
noncomputable def PolySet.values {P C : Type} {m : ℕ} (S : PolySet ℝ P N m C) (pts : List P) : Option (Fin m → C → ℕ → ℝ) :=
  (S.tabulate pts 0).bind fun t => Dict.get? t (List.replicate S.sd 0)

/-- The coefficient rows of `ONPolynomialSet(ref_el, degree, (D,))`, polynomial_set.py:141-152 (`onCoeffs`). -/
noncomputable def onVectorRows (N D : ℕ) : List (Fin D → Fin N → ℝ) :=
  (List.range (onNumMembers N [D])).map fun b c i => (onCoeffs N [D]).1 (b, [(c : ℕ)], (i : ℕ))

/-- `numpy.take(coeffs, items, 0)` in `PolynomialSet.take`, polynomial_set.py:118-121 (`none`: `IndexError`). -/
def takeRows {R : Type} (rows : List R) (items : List ℕ) : Option (List R) := items.mapM fun i => rows[i]?

/-- `polynomial_set_union_normalized(A, B)`, polynomial_set.py:197-226: the new coefficient rows, from the rows of `A` and
`B`.  `svd` returns the singular values and the rows of `vt`. -/
noncomputable def unionRows (svd : List (Fin D → Fin N → ℝ) → List ℝ × List (Fin D → Fin N → ℝ))
    (A B : List (Fin D → Fin N → ℝ)) : List (Fin D → Fin N → ℝ) :=
  let r := svd (A ++ B)
  let num_sv := (r.1.filter fun s => decide (1e-10 < |s|)).length
  r.2.take num_sv

/-- A polynomial set from its coefficient rows. -/
def PolySet.ofRows {P : Type} (sd : ℕ) (base : List P → ℕ → ℕ → ℝ) (dmats : List (Matrix (Fin N) (Fin N) ℝ))
    (rows : List (Fin D → Fin N → ℝ)) : PolySet ℝ P N rows.length (Fin D) :=
  ⟨sd, base, fun i => rows.get i, dmats⟩

/-- The indices of the members of `(P_lo .. P_hi)^D` in `P_(k+1)^D`:
`list(chain(*(range(i * dimPkp1 + lo, i * dimPkp1 + hi) for i in range(sd))))`, raviart_thomas.py:26-27,
nedelec.py:29-30, :94-95, :98-99. -/
def blockIndices (D dimPkp1 lo hi : ℕ) : List ℕ :=
  (List.range D).flatMap fun i => List.range' (i * dimPkp1 + lo) (hi - lo)

/-- `polynomial_dimension(ref_el, degree)` on a simplex of dimension `D` (its shape code is `D`). -/
def polyDim (D : ℕ) (degree : ℤ) : Option ℕ := (polynomialDimension D degree).map Int.toNat

/-- The coefficient rows of `PkHx`: `numpy.dot(Pkp1_at_Qpts, h * Qpts[:, j] * Qwts)`, raviart_thomas.py:46-49; `h` are the
values of a member of `PkH` at the points. -/
noncomputable def timesX {m : ℕ} (Q : QRule ℝ (Fin D → ℝ)) (vals : Fin m → Unit → ℕ → ℝ) (h : ℕ → ℝ) : Fin D → Fin m → ℝ :=
  fun j l => ((Q.pts.zip Q.wts).zipIdx.map fun q => vals l () q.2 * (h q.2 * q.1.1 j * q.1.2)).sum

/-- `RTSpace(ref_el, deg)` before the last line, raviart_thomas.py:15-58: the coefficient rows of `vec_Pk_from_Pkp1` and of
`PkHx`. -/
noncomputable def rtRows (gj : ℕ → ℕ → List ℝ) (deg : ℕ) (s : SimplexCell (Fin D → ℝ)) :
    Option (List (Fin D → Fin ((deg + 1 + D).choose D) → ℝ) × List (Fin D → Fin ((deg + 1 + D).choose D) → ℝ)) := do
  let Pkp1 ← onPolynomialSet s (deg + 1)
  let dimPkp1 ← polyDim D ((deg : ℤ) + 1)
  let dimPk ← polyDim D (deg : ℤ)
  let dimPkm1 ← polyDim D ((deg : ℤ) - 1)
  let vec_Pk ← takeRows (onVectorRows ((deg + 1 + D).choose D) D) (blockIndices D dimPkp1 0 dimPk)
  let Q ← simplexRule gj D s.verts (2 * deg + 2)
  let Pkp1_at_Qpts ← Pkp1.values Q.pts
  let PkH_at_Qpts ← takeRows (List.ofFn fun i => Pkp1_at_Qpts i ()) (List.range' dimPkm1 (dimPk - dimPkm1))
  some (vec_Pk, PkH_at_Qpts.map (timesX Q Pkp1_at_Qpts))

/-- `RTSpace(ref_el, deg)`, raviart_thomas.py:15-60: the union of the two sets, with the expansion set and the derivative
matrices of `P_(deg+1)`. -/
noncomputable def rtSpace (gj : ℕ → ℕ → List ℝ) (deg : ℕ)
    (svd : List (Fin D → Fin ((deg + 1 + D).choose D) → ℝ) → List ℝ × List (Fin D → Fin ((deg + 1 + D).choose D) → ℝ))
    (s : SimplexCell (Fin D → ℝ)) :
    Option (Σ m, PolySet ℝ (Fin D → ℝ) ((deg + 1 + D).choose D) m (Fin D)) := do
  let AB ← rtRows gj deg s
  let Pkp1 ← onPolynomialSet s (deg + 1)
  some ⟨_, PolySet.ofRows D Pkp1.base Pkp1.dmats (unionRows svd AB.1 AB.2)⟩

end sets

section duals
variable {D : ℕ}

/-- `len(t[dim])`. -/
def numEnts (s : SimplexCell (Fin D → ℝ)) (dim : ℕ) : Option ℕ := (Dict.get? s.topo dim).map List.length

/-- Points, weights and values of the moment function, as the functionals zip them. -/
def zipRule {P : Type} (pts : List P) (wts : List ℝ) (phi : ℕ → ℝ) : List (P × ℝ × ℝ) :=
  (pts.zip wts).zipIdx.map fun q => (q.1.1, q.1.2, phi q.2)

/-- The facet nodes of the point variants: `for i in range(len(t[sd - 1])): for pt in make_points(sd - 1, i, sd + degree)`
(raviart_thomas.py:98-104, brezzi_douglas_marini.py:53-59).  `nrm` is `compute_scaled_normal`. -/
noncomputable def facetPointNodes (s : SimplexCell (Fin D → ℝ)) (nrm : ℕ → Option (Fin D → ℝ)) (degree i : ℕ) :
    Option (List (Functional ℝ (Fin D → ℝ))) :=
  (makePoints ℝ s (D - 1) i (D + degree)).bind fun pts => (nrm i).map fun n =>
    pts.map fun pt => pointDirectionEvaluation D (vecNat n) pt

/-- The facet nodes of the integral variants (raviart_thomas.py:80-86, brezzi_douglas_marini.py:28-34): `Q` is the facet
rule, `phis` the values of the members of `ONPolynomialSet(facet, degree)` at its points. -/
noncomputable def facetMomentNodes (s : SimplexCell (Fin D → ℝ)) (nrm : ℕ → Option (Fin D → ℝ))
    (Q : QRule ℝ (Fin (D - 1) → ℝ)) {m : ℕ} (phis : Fin m → Unit → ℕ → ℝ) (f : ℕ) :
    Option (List (Functional ℝ (Fin D → ℝ))) :=
  (mapToEntity s (D - 1) f Q.pts).bind fun pts => (nrm f).map fun n =>
    (List.finRange m).map fun i => integralMomentOfDirection D (vecNat n) (zipRule pts Q.wts (phis i ()))

/-- Interior moments against the components of a scalar set (raviart_thomas.py:89-98, nedelec.py:168-179):
`IntegralMoment(ref_el, Q, phi, (d,), (sd,))` for every component and member. -/
noncomputable def componentMoments (Q : QRule ℝ (Fin D → ℝ)) {m : ℕ} (phis : Fin m → Unit → ℕ → ℝ) :
    List (Functional ℝ (Fin D → ℝ)) :=
  (List.range D).flatMap fun d => (List.finRange m).map fun i =>
    integralMoment (zipRule Q.pts Q.wts (phis i ())) [d]

/-- The nodes of `RTDualSet(ref_el, degree, "integral", quad_deg)`, raviart_thomas.py:74-98. -/
noncomputable def rtIntegralNodes (gj : ℕ → ℕ → List ℝ) (s : SimplexCell (Fin D → ℝ)) (nrm : ℕ → Option (Fin D → ℝ))
    (degree quad_deg : ℕ) : Option (List (Functional ℝ (Fin D → ℝ))) := do
  let facet ← ufcSimplexCell (D - 1)
  let Q ← simplexRule gj (D - 1) facet.verts quad_deg
  let Pq ← onPolynomialSet facet degree
  let Pq_at_qpts ← Pq.values Q.pts
  let nf ← numEnts s (D - 1)
  let facets ← (List.range nf).mapM fun f => facetMomentNodes s nrm Q Pq_at_qpts f
  if degree = 0 then some facets.flatten
  else (simplexRule gj D s.verts quad_deg).bind fun Q => (onPolynomialSet s (degree - 1)).bind fun Pkm1 =>
    (Pkm1.values Q.pts).map fun Pkm1_at_qpts => facets.flatten ++ componentMoments Q Pkm1_at_qpts

/-- The nodes of `RTDualSet(ref_el, degree, "point", quad_deg)`, raviart_thomas.py:100-115. -/
noncomputable def rtPointNodes (s : SimplexCell (Fin D → ℝ)) (nrm : ℕ → Option (Fin D → ℝ)) (degree : ℕ) :
    Option (List (Functional ℝ (Fin D → ℝ))) := do
  let nf ← numEnts s (D - 1)
  let facets ← (List.range nf).mapM fun i => facetPointNodes s nrm degree i
  if degree = 0 then some facets.flatten
  else (makePoints ℝ s D 0 (degree + D)).bind fun pts =>
    ((List.range D).mapM fun (d : ℕ) => pts.mapM fun pt => componentPointEvaluation (d : ℤ) [D] pt).map fun cells =>
      facets.flatten ++ cells.flatten

/-- `for i in dims: entity_ids[i] = {}; for j in range(len(t[i])): entity_ids[i][j] = []`, raviart_thomas.py:117-120,
brezzi_douglas_marini.py:72-75, nedelec.py:209-212, :324-327. -/
def emptyLoop (s : SimplexCell (Fin D → ℝ)) (dims : List ℕ) (ids : EntityIds ℕ) : Option (EntityIds ℕ) :=
  dims.foldlM (fun (ids : EntityIds ℕ) (i : ℕ) => (numEnts s i).map fun n =>
    (List.range n).foldl (fun (ids : EntityIds ℕ) (j : ℕ) => setIds ids i j []) ids) ids

/-- `for i in range(len(t[dim])): entity_ids[dim][i] = list(range(cur, cur + n)); cur += n`, raviart_thomas.py:125-129,
nedelec.py:219-221, :333-335, :340-342. -/
def sameLoop (s : SimplexCell (Fin D → ℝ)) (dim n : ℕ) (st : ℕ × EntityIds ℕ) : Option (ℕ × EntityIds ℕ) :=
  (numEnts s dim).map fun N => blockLoop (fun _ => n) ((List.range N).map fun i => (dim, i)) st

/-- The `entity_ids` of `RTDualSet`, raviart_thomas.py:117-139, and of `BDMDualSet`, brezzi_douglas_marini.py:72-94:
`internal` is the number of interior nodes, `none` when the branch is not taken. -/
noncomputable def facetIds (s : SimplexCell (Fin D → ℝ)) (degree : ℕ) (internal : Option ℕ) : Option (EntityIds ℕ) := do
  let ids ← emptyLoop s (List.range (D - 1)) []
  let pts_facet_0 ← makePoints ℝ s (D - 1) 0 (D + degree)
  let st ← sameLoop s (D - 1) pts_facet_0.length (0, ids)
  let ids := setIds st.2 D 0 []
  some (match internal with
    | none => ids
    | some n => setIds ids D 0 (List.range' st.1 n))

/-- The variant after `check_format_variant`. -/
inductive DualVariant where
  | point
  | integral (quad_deg : ℕ)

/-- `RTDualSet(ref_el, degree, variant, quad_deg)`, raviart_thomas.py:63-141: nodes and `entity_ids`. -/
noncomputable def rtDual (gj : ℕ → ℕ → List ℝ) (s : SimplexCell (Fin D → ℝ)) (nrm : ℕ → Option (Fin D → ℝ)) (degree : ℕ)
    (variant : DualVariant) : Option (List (Functional ℝ (Fin D → ℝ)) × EntityIds ℕ) := do
  let nodes ← match variant with
    | .integral quad_deg => rtIntegralNodes gj s nrm degree quad_deg
    | .point => rtPointNodes s nrm degree
  let internal ← if degree = 0 then some none
    else (polyDim D ((degree : ℤ) - 1)).map fun n => some (n * D)
  let ids ← facetIds s degree internal
  some (nodes, ids)

/-- `(variant, quad_deg) = check_format_variant(variant, degree, element)`; `none`: an exception. -/
def dualVariant (T : DigitTable) (variant : Option (List Char)) (degree : ℕ) : Option DualVariant :=
  match checkFormatVariant T variant degree with
  | .point => some .point
  | .integral q => some (.integral q)
  | _ => none

/-- `RaviartThomas(ref_el, k, variant)` for `k = degree + 1 ≥ 1`, raviart_thomas.py:161-173: the element's polynomial set,
its nodes and `entity_ids`. -/
noncomputable def raviartThomas (gj : ℕ → ℕ → List ℝ) (degree : ℕ)
    (svd : List (Fin D → Fin ((degree + 1 + D).choose D) → ℝ) →
      List ℝ × List (Fin D → Fin ((degree + 1 + D).choose D) → ℝ))
    (T : DigitTable) (s : SimplexCell (Fin D → ℝ)) (nrm : ℕ → Option (Fin D → ℝ))
    (variant : Option (List Char)) :
    Option ((Σ m, PolySet ℝ (Fin D → ℝ) ((degree + 1 + D).choose D) m (Fin D)) ×
      List (Functional ℝ (Fin D → ℝ)) × EntityIds ℕ) := do
  let v ← dualVariant T variant degree
  let S ← rtSpace gj degree svd s
  let dual ← rtDual gj s nrm degree v
  let el ← ciarletElement (onExpTab ((degree + 1 + D).choose D) D S.2.base S.2.dmats) (fun c : Fin D => [(c : ℕ)]) S.2 dual.1
  some (⟨S.1, el⟩, dual)

end duals
end FIAT
