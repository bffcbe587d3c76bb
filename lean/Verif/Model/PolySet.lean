/-
Model of FIAT/polynomial_set.py: `PolynomialSet.tabulate` (:71-89), `form_matrix_product` (:187-194), the
construction of the derivative matrices in `ONPolynomialSet.__init__` (:155-174; the same code at :266-273),
and of `CiarletElement.__init__` (FIAT/finite_element.py:112-147).

numpy matrices are `Matrix`; `numpy.linalg.inv` is the exact inverse and raises (`none`) on a singular or
non-square matrix.
-/
import Verif.Model.Functional
import Mathlib.LinearAlgebra.Matrix.NonsingularInverse

namespace FIAT

section
variable {K : Type} [Field K] {N : ℕ}

/-- `form_matrix_product(mats, alpha)`, polynomial_set.py:187-194 (`none`: `IndexError`). -/
def formMatrixProduct (mats : List (Matrix (Fin N) (Fin N) K)) (alpha : List ℕ) :
    Option (Matrix (Fin N) (Fin N) K) :=
  if mats.isEmpty then none
  else alpha.zipIdx.foldlM (fun result ai =>
    (List.range ai.1).foldlM (fun result _ => (mats[ai.2]?).map fun m => m * result) result) 1

/-- `PolynomialSet`, polynomial_set.py:43-66: the expansion set's `tabulate(embedded_degree, ·)[i, j]`, the
coefficient array (member, component of the value shape, expansion function) and the derivative
matrices. -/
structure PolySet (K P : Type) (N m : ℕ) (C : Type) where
  sd : ℕ
  base : List P → ℕ → ℕ → K
  coeffs : Fin m → C → Fin N → K
  dmats : List (Matrix (Fin N) (Fin N) K)

/-- `PolynomialSet.tabulate(pts, jet_order)`, polynomial_set.py:71-89: alpha ↦ (member, component, point)
↦ value.  Without derivative matrices (a vertex) the code asserts `pts == [()]` and uses `numpy.eye(1)`;
here the identity (`N = 1` in that case). -/
def PolySet.tabulate {P : Type} {m : ℕ} {C : Type} (S : PolySet K P N m C) (pts : List P)
    (order : ℕ) : Option (Dict (List ℕ) (Fin m → C → ℕ → K)) :=
  (jetKeys S.sd order).foldlM (fun result alpha => do
    let D ← if S.dmats.isEmpty then some 1 else formMatrixProduct S.dmats alpha
    return Dict.put result alpha (fun i c p =>
      ∑ k, S.coeffs i c k * ∑ j, D.transpose k j * S.base pts j p)) []

/-- The derivative matrices, polynomial_set.py:155-174: `pts = make_points(sd, 0, degree + sd + 1)`,
`dv[k][p][i]` is the derivative in direction `i` of expansion function `k` at point `p`
(`tabulate_derivatives`).  `none`: the matrix is singular or not square. -/
noncomputable def onDmats {P : Type} (N sd degree : ℕ) (pts : List P)
    (base : List P → ℕ → ℕ → K) (dv : List P → ℕ → ℕ → Fin sd → K) :
    Option (List (Matrix (Fin N) (Fin N) K)) :=
  open Classical in
  if degree = 0 then some (List.replicate sd 0)
  else if pts.length = N then
    let v : Matrix (Fin N) (Fin N) K := Matrix.of fun p i => base pts i p
    if IsUnit v.det then
      some ((List.finRange sd).map fun i => v⁻¹ * (Matrix.of fun (k p : Fin N) => dv pts k p i).transpose)
    else none
  else none

/-- The short-lived `ONPolynomialSet(ref_el, ed)` used by `to_riesz` for derivatives
(dual_set.py:118-119, functional.py:155-160): identity coefficients, scalar valued. -/
def onScalarSet {P : Type} (N sd : ℕ) (base : List P → ℕ → ℕ → K)
    (dmats : List (Matrix (Fin N) (Fin N) K)) : PolySet K P N N Unit :=
  ⟨sd, base, fun i _ k => if i = k then 1 else 0, dmats⟩

/-- The tables of that set, as `to_riesz` reads them. -/
def onExpTab {P : Type} (N sd : ℕ) (base : List P → ℕ → ℕ → K)
    (dmats : List (Matrix (Fin N) (Fin N) K)) : ExpTab K P where
  num := N
  tab := base
  jet pts order := ((onScalarSet N sd base dmats).tabulate pts order).getD [] |>.map fun p =>
    (p.1, fun i j => if h : i < N then p.2 ⟨i, h⟩ () j else 0)

/-- `CiarletElement.__init__`, finite_element.py:112-147: the new coefficient array.  `dualmat` is
`dual.to_riesz(poly_set)`, `old` the coefficients of `poly_set`; `numpy.reshape` to two dimensions and back
is the pairing of (component, expansion function) into one column index. -/
noncomputable def ciarletCoeffs {n m : ℕ} {C : Type} [Fintype C]
    (dualmat : Fin n → C → Fin N → K) (old : Fin m → C → Fin N → K) : Option (Fin m → C → Fin N → K) :=
  open Classical in
  if h : n = m then
    let A : Matrix (Fin m) (C × Fin N) K := Matrix.of fun i ck => dualmat (i.cast h.symm) ck.1 ck.2
    let B : Matrix (Fin m) (C × Fin N) K := Matrix.of fun i ck => old i ck.1 ck.2
    let V := A * B.transpose
    if IsUnit V.det then
      let new := V⁻¹.transpose * B
      some fun i c k => new i (c, k)
    else none
  else none

/-- `CiarletElement.__init__`: `E` are the tables of `poly_set`'s expansion set, `comp` enumerates the
components of its value shape.  The element's polynomial set is the given one with new coefficients. -/
noncomputable def ciarletElement {P : Type} [DecidableEq P] {m : ℕ} {C : Type} [Fintype C]
    (E : ExpTab K P) (comp : C → List ℕ) (S : PolySet K P N m C) (nodes : List (Functional K P)) :
    Option (PolySet K P N m C) := do
  let M ← dualToRiesz E nodes
  let new ← ciarletCoeffs (n := nodes.length) (fun i c k => M (i, comp c, k)) S.coeffs
  return { S with coeffs := new }

end
end FIAT
