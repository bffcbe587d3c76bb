/-
Model of `gauss` and `lobatto` of FIAT/orthopoly.py (:37-101) and of `GaussLobattoLegendreQuadratureLineRule` of
FIAT/quadrature.py (:62-95).

Floating-point numbers are reals, arrays of recursion coefficients are functions of the index together with their length.
`numpy.linalg.eigh` is a parameter (eigenvalues, matrix whose columns are eigenvectors), its contract is `IsEigh` in
Verif/Props/Lobatto.lean; `numpy.linalg.solve` returns the solution of a nonsingular system.  `numpy.sqrt` of a negative
number (nan) is 0 here; `lobatto_spec` shows that this does not occur.
-/
import Verif.Model.Jacobi
import Verif.Model.Quadrature
import Mathlib.LinearAlgebra.Matrix.NonsingularInverse
import Mathlib.Analysis.SpecialFunctions.Gamma.Basic

namespace FIAT

/-- `numpy.linalg.eigh(A, "U")`: the eigenvalues and the eigenvectors (columns) of the symmetric matrix whose upper triangle
is that of `A`. -/
abbrev EighFun := ∀ n : ℕ, Matrix (Fin n) (Fin n) ℝ → (Fin n → ℝ) × Matrix (Fin n) (Fin n) ℝ

/-- `np.diag(np.sqrt(beta)[1:], 1) + np.diag(alpha)`, orthopoly.py:55; `N = len(alpha)`. -/
noncomputable def gaussMatrix (N : ℕ) (alpha beta : ℕ → ℝ) : Matrix (Fin N) (Fin N) ℝ :=
  Matrix.of fun i j => (if (i : ℕ) + 1 = j then Real.sqrt (beta j) else 0) + (if i = j then alpha i else 0)

/-- `gauss(alpha, beta)`, orthopoly.py:37-59, for `len(alpha) = n + 1`: nodes and weights. -/
noncomputable def gauss (eigh : EighFun) (n : ℕ) (alpha beta : ℕ → ℝ) : List ℝ × List ℝ :=
  let xV := eigh (n + 1) (gaussMatrix (n + 1) alpha beta)
  (List.ofFn xV.1, List.ofFn fun j => beta 0 * xV.2 0 j ^ 2)

open Classical in
/-- `numpy.linalg.solve(A, b)`; `none`: `LinAlgError`. -/
noncomputable def npSolve {n : ℕ} (A : Matrix (Fin n) (Fin n) ℝ) (b : Fin n → ℝ) : Option (Fin n → ℝ) :=
  if IsUnit A.det then some (A⁻¹.mulVec b) else none

/-- `J1`, `J2` in `lobatto`, orthopoly.py:84-87: off-diagonals `sqrt(beta[1:-1])`, diagonal `alpha[1:] - xl`. -/
noncomputable def lobattoMatrix (n : ℕ) (alpha beta : ℕ → ℝ) (xl : ℝ) : Matrix (Fin n) (Fin n) ℝ :=
  Matrix.of fun i j => (if (i : ℕ) + 1 = j then Real.sqrt (beta (i + 1)) else 0) + (if i = j then alpha (i + 1) - xl else 0) +
    (if (j : ℕ) + 1 = i then Real.sqrt (beta (j + 1)) else 0)

/-- `lobatto(alpha, beta, xl1, xl2)`, orthopoly.py:62-101, for `len(alpha) = n + 2`. -/
noncomputable def lobatto (eigh : EighFun) (n : ℕ) (alpha beta : ℕ → ℝ) (xl1 xl2 : ℝ) : Option (List ℝ × List ℝ) := do
  let en : Fin (n + 1) → ℝ := fun i => if i = Fin.last n then 1 else 0
  let g1 ← npSolve (lobattoMatrix (n + 1) alpha beta xl1) en
  let g2 ← npSolve (lobattoMatrix (n + 1) alpha beta xl2) en
  let ab ← npSolve !![1, -g1 (Fin.last n); 1, -g2 (Fin.last n)] ![xl1, xl2]
  some (gauss eigh (n + 1) (Function.update alpha (n + 1) (ab 0)) (Function.update beta (n + 1) (ab 1)))

/-- The value `mu` in `rec_jacobi`, orthopoly.py:124. -/
noncomputable def recMu (a b : ℝ) : ℝ := 2 ^ (a + b + 1) * Real.Gamma (a + 1) * Real.Gamma (b + 1) / Real.Gamma (a + b + 2)

/-- The reference nodes and weights of `GaussLobattoLegendreQuadratureLineRule`, quadrature.py:70-86; `none`: `ValueError`. -/
noncomputable def gllRef (eigh : EighFun) : ℕ → Option (List ℝ × List ℝ)
  | 0 => none
  | 1 => none
  | 2 => some ([-1, 1], [0.5 * (1 - -1), 0.5 * (1 - -1)])
  | n + 3 =>
    let ab := recJacobi (recMu 0 0) (0 : ℝ) 0
    lobatto eigh (n + 1) ab.1 ab.2 (-1) 1

/-- `GaussLobattoLegendreQuadratureLineRule(ref_el, m)`, quadrature.py:62-95. -/
noncomputable def gllLineRule (eigh : EighFun) (verts : List (Fin 1 → ℝ)) (m : ℕ) : Option (QRule ℝ (Fin 1 → ℝ)) :=
  (gllRef eigh m).bind fun r => mappedRule verts (r.1.map fun x _ => x) r.2

end FIAT
