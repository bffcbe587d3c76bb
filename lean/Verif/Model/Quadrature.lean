/-
Model of FIAT/quadrature.py: `QuadratureRule` (:17-36), `compute_gauss_jacobi_rule` (:358-371), the
Gauss-Jacobi line rule (:39-59), the collapsed triangle and tetrahedron rules (:183-236),
`UFCTetrahedronFaceQuadratureRule` (:239-277), `make_quadrature` (:280-308),
`make_tensor_product_quadrature` (:311-321), and of the maps `xi_triangle`, `xi_tetrahedron`
(FIAT/expansions.py).

Floating-point numbers are reals.  Not modelled: the Newton iteration of `compute_gauss_jacobi_points`
(:325-355); its result, the list of the `m` roots of `P_m^(a,b)`, is the argument `xs`.
-/
import Verif.Model.Jacobi
import Verif.Model.TensorCell
import Verif.Model.Geometry
import Mathlib.Analysis.SpecialFunctions.Gamma.Basic
import Mathlib.LinearAlgebra.Matrix.NonsingularInverse

namespace FIAT

/-- `QuadratureRule`: `pts` and `wts` (quadrature.py:21-27). -/
structure QRule (K P : Type) where
  pts : List P
  wts : List K

/-- `QuadratureRule.__init__`, quadrature.py:21-27; `none` is the `ValueError`. -/
def QRule.mk? {K P : Type} (pts : List P) (wts : List K) : Option (QRule K P) :=
  if wts.length ≠ pts.length then none else some ⟨pts, wts⟩

/-- `QuadratureRule.integrate(f)`, quadrature.py:35-36. -/
def QRule.integrate {K P : Type} [Field K] (Q : QRule K P) (f : P → K) : K :=
  ((Q.pts.zip Q.wts).map fun xw => xw.2 * f xw.1).sum

/-- The weights of `compute_gauss_jacobi_rule(a, b, m)`, quadrature.py:361-369. -/
noncomputable def gaussJacobiWeights (a b : ℝ) (m : ℕ) (xs : List ℝ) : List ℝ :=
  let a1 := (2 : ℝ) ^ (a + b + 1)
  let a2 := Real.Gamma (a + m + 1)
  let a3 := Real.Gamma (b + m + 1)
  let a4 := Real.Gamma (a + b + m + 1)
  let a5 : ℝ := Nat.factorial m
  let a6 := a1 * a2 * a3 / a4 / a5
  xs.map fun x => a6 / (1 - x ^ 2) / evalJacobiDeriv a b m x ^ 2

/-- `compute_gauss_jacobi_rule(a, b, m)`, quadrature.py:358-371: points and weights. -/
noncomputable def gaussJacobiRule (a b : ℝ) (m : ℕ) (xs : List ℝ) : QRule ℝ ℝ := ⟨xs, gaussJacobiWeights a b m xs⟩

section mapped

/-- `numpy.dot(A, x) + b`. -/
def affineApply {dx dy : ℕ} (A : Matrix (Fin dy) (Fin dx) ℝ) (b : Fin dy → ℝ) (x : Fin dx → ℝ) : Fin dy → ℝ :=
  A.mulVec x + b

/-- `DefaultLine().get_vertices()` etc. as vectors: the vertices (-1,..,-1) and (-1,..,1,..,-1), reference_element.py:496-504,
:521-534, :577-601. -/
def defaultVerts (d : ℕ) : List (Fin d → ℝ) :=
  List.ofFn fun i : Fin (d + 1) => fun l : Fin d => if (l : ℕ) + 1 = i then 1 else -1

/-- The common end of the rules: map the reference points to the cell and multiply the weights by
`scale = det(A)` (quadrature.py:48-59, :196-207, :224-236); `ws` are the weights without the scale.
`none`: an exception of `make_affine_mapping` or mismatching lengths. -/
noncomputable def mappedRule {d : ℕ} (verts : List (Fin d → ℝ)) (pts : List (Fin d → ℝ)) (ws : List ℝ) :
    Option (QRule ℝ (Fin d → ℝ)) := do
  let Ab ← makeAffineMapping (defaultVerts d) verts
  QRule.mk? (pts.map (affineApply Ab.1 Ab.2)) (ws.map (Ab.1.det * ·))

/-- `GaussJacobiQuadratureLineRule`, quadrature.py:43-59; `xs` are the roots of `P_m^(0,0)`. -/
noncomputable def gaussLineRule (verts : List (Fin 1 → ℝ)) (m : ℕ) (xs : List ℝ) : Option (QRule ℝ (Fin 1 → ℝ)) :=
  let R := gaussJacobiRule 0 0 m xs
  mappedRule verts (R.pts.map fun x _ => x) R.wts

/-- `xi_triangle(eta)`, expansions.py:95-100. -/
noncomputable def xiTriangle (e1 e2 : ℝ) : Fin 2 → ℝ := ![1 / 2 * (1 + e1) * (1 - e2) - 1, e2]

/-- `xi_tetrahedron(eta)`, expansions.py:103-109. -/
noncomputable def xiTetrahedron (e1 e2 e3 : ℝ) : Fin 3 → ℝ :=
  ![1 / 4 * (1 + e1) * (1 - e2) * (1 - e3) - 1, 1 / 2 * (1 + e2) * (1 - e3) - 1, e3]

/-- `CollapsedQuadratureTriangleRule`, quadrature.py:188-207; `xs`, `ys` are the roots of `P_m^(0,0)`, `P_m^(1,0)`. -/
noncomputable def collapsedTriangleRule (verts : List (Fin 2 → ℝ)) (m : ℕ) (xs ys : List ℝ) :
    Option (QRule ℝ (Fin 2 → ℝ)) :=
  let X := gaussJacobiRule 0 0 m xs
  let Y := gaussJacobiRule 1 0 m ys
  mappedRule verts (X.pts.flatMap fun x => Y.pts.map fun y => xiTriangle x y)
    (X.wts.flatMap fun w1 => Y.wts.map fun w2 => 1 / 2 * w1 * w2)

/-- `CollapsedQuadratureTetrahedronRule`, quadrature.py:215-236. -/
noncomputable def collapsedTetrahedronRule (verts : List (Fin 3 → ℝ)) (m : ℕ) (xs ys zs : List ℝ) :
    Option (QRule ℝ (Fin 3 → ℝ)) :=
  let X := gaussJacobiRule 0 0 m xs
  let Y := gaussJacobiRule 1 0 m ys
  let Z := gaussJacobiRule 2 0 m zs
  mappedRule verts (X.pts.flatMap fun x => Y.pts.flatMap fun y => Z.pts.map fun z => xiTetrahedron x y z)
    (X.wts.flatMap fun w1 => Y.wts.flatMap fun w2 => Z.wts.map fun w3 => 1 / 8 * w1 * w2 * w3)

end mapped

/-- `make_tensor_product_quadrature(*quad_rules)`, quadrature.py:311-321; points are lists of coordinates. -/
def tensorQuadrature {K : Type} [Field K] (rules : List (QRule K (List K))) : Option (QRule K (List K)) :=
  QRule.mk? ((pyProduct (rules.map QRule.pts)).map List.flatten) ((pyProduct (rules.map QRule.wts)).map List.prod)

end FIAT
