/-
Model of `ONPolynomialSet.__init__` with scalar value shape (FIAT/polynomial_set.py:124-178) on top of the expansion sets,
and of `Lagrange.__init__` (FIAT/lagrange.py:42-49).  Floating-point numbers are reals.
-/
import Verif.Model.Expansions
import Verif.Model.PolySet
import Verif.Model.DofLayout
import Verif.Model.FunctionalClasses

namespace FIAT
section
variable {D : ℕ}

/-- `expansion_set.tabulate(n, pts)[i, j]`.  A missing entry (exception, `None`) is read as 0; `expansion_table_spec` shows
that there is none. -/
noncomputable def expTab (verts : List (Fin D → ℝ)) (n : ℕ) (pts : List (Fin D → ℝ)) (i j : ℕ) : ℝ :=
  ((pts[j]?).bind fun x => (expansionTable D verts n x).bind fun t => t.rd i).getD 0

/-- `volume(verts)` of an interval, reference_element.py:993-1014: the product of the singular values larger than 1e-10 of
the 1x1 matrix (v1 - v0), and the empty product is 1. -/
noncomputable def lineVolume (v0 v1 : ℝ) : ℝ := if 1e-10 < |v1 - v0| then |v1 - v0| else 1

/-- `expansion_set.tabulate_derivatives(n, pts)[k][j][1][i]`, expansions.py:170-193 on lines, :264-280 and :372-388 on
triangles and tetrahedra.  A missing entry is read as 0. -/
noncomputable def expDv : (D : ℕ) → (verts : List (Fin D → ℝ)) → (n : ℕ) → List (Fin D → ℝ) → ℕ → ℕ → Fin D → ℝ
  | 1, verts, n, pts, k, j, _ => (do
      let Mb ← makeAffineMapping verts (defaultVerts 1)
      let v0 : Fin 1 → ℝ ← verts[0]?
      let v1 : Fin 1 → ℝ ← verts[1]?
      let x ← pts[j]?
      (lineDerivatives Mb.1 Mb.2 (lineVolume (v0 0) (v1 0)) n x)[k]?).getD 0
  | D, verts, n, pts, k, j, i => (do
      let x ← pts[j]?
      let t ← symbolicDerivatives (d := D) verts n x
      let vg ← t[k]?
      some (vg.2 i)).getD 0

/-- `ONPolynomialSet(ref_el, degree)`, polynomial_set.py:124-178: `num_exp_functions` is
`polynomial_dimension(ref_el, degree)`, which is the binomial coefficient (C04), the coefficients are the identity matrix,
the derivative matrices come from collocation at `make_points(sd, 0, degree + sd + 1)`. -/
noncomputable def onPolynomialSet (s : SimplexCell (Fin D → ℝ)) (degree : ℕ) :
    Option (PolySet ℝ (Fin D → ℝ) ((degree + D).choose D) ((degree + D).choose D) Unit) := do
  let pts ← if degree = 0 then some [] else makePoints ℝ s D 0 (degree + D + 1)
  let dmats ← onDmats ((degree + D).choose D) D degree pts (expTab s.verts degree) (expDv D s.verts degree)
  some (onScalarSet ((degree + D).choose D) D (expTab s.verts degree) dmats)

/-- `Lagrange(ref_el, degree)`, lagrange.py:42-49: the element's polynomial set and its entity dofs. -/
noncomputable def lagrangeElement (s : SimplexCell (Fin D → ℝ)) (degree : ℕ) :
    Option (PolySet ℝ (Fin D → ℝ) ((degree + D).choose D) ((degree + D).choose D) Unit × EntityIds ℕ) := do
  let poly_set ← onPolynomialSet s degree
  let dual ← lagrangeDual ℝ s degree
  let el ← ciarletElement (onExpTab ((degree + D).choose D) D poly_set.base poly_set.dmats)
    (fun _ : Unit => []) poly_set (dual.1.map pointEvaluation)
  some (el, dual.2)

/-- The end of the constructor of an element with point evaluation nodes, `CiarletElement(poly_set, dual, ...)` with
`poly_set = ONPolynomialSet(ref_el, degree)`, finite_element.py:113-165. -/
noncomputable def pointElement (s : SimplexCell (Fin D → ℝ)) (degree : ℕ) (nodes : List (Fin D → ℝ)) :
    Option (PolySet ℝ (Fin D → ℝ) ((degree + D).choose D) ((degree + D).choose D) Unit) := do
  let poly_set ← onPolynomialSet s degree
  ciarletElement (onExpTab ((degree + D).choose D) D poly_set.base poly_set.dmats) (fun _ : Unit => []) poly_set
    (nodes.map pointEvaluation)

/-- The same with any scalar functionals as nodes, finite_element.py:113-165; e.g. hermite.py:70-75, morley.py:51-54. -/
noncomputable def functionalElement (s : SimplexCell (Fin D → ℝ)) (degree : ℕ) (nodes : List (Functional ℝ (Fin D → ℝ))) :
    Option (PolySet ℝ (Fin D → ℝ) ((degree + D).choose D) ((degree + D).choose D) Unit) := do
  let poly_set ← onPolynomialSet s degree
  ciarletElement (onExpTab ((degree + D).choose D) D poly_set.base poly_set.dmats) (fun _ : Unit => []) poly_set nodes

end
end FIAT
