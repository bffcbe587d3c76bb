/-
Model of `compute_gauss_jacobi_points`, FIAT/quadrature.py:325-355: Newton's method with deflation.  Floating-point numbers are
reals; a division by zero (`ZeroDivisionError`) is `none`.
-/
import Verif.Model.Jacobi
import Mathlib.Analysis.SpecialFunctions.Trigonometric.Basic

namespace FIAT

/-- `eps = 1.e-8`, quadrature.py:331. -/
noncomputable def newtonEps : ℝ := 1e-8

/-- `max_iter = 100`, quadrature.py:332. -/
def newtonMaxIter : ℕ := 100

/-- `for i in range(0, k): s = s + 1.0 / (r - x[i])`, quadrature.py:340-342. -/
noncomputable def deflationSum (xs : List ℝ) (r : ℝ) : Option ℝ :=
  xs.foldlM (fun (s : ℝ) (xi : ℝ) => if r - xi = 0 then none else some (s + 1 / (r - xi))) 0

/-- One pass through the body of the `while` loop, quadrature.py:340-347: `(delta, r)`. -/
noncomputable def newtonStep (a b : ℝ) (m : ℕ) (xs : List ℝ) (r : ℝ) : Option (ℝ × ℝ) :=
  (deflationSum xs r).bind fun s =>
    let f := evalJacobi a b m r
    let fp := evalJacobiDeriv a b m r
    if fp - f * s = 0 then none
    else
      let delta := f / (fp - f * s)
      some (delta, r - delta)

/-- `while j < max_iter`, quadrature.py:339-352, with `n = max_iter - j` passes left: `(delta, r)` when the loop is left. -/
noncomputable def newtonLoop (a b : ℝ) (m : ℕ) (xs : List ℝ) : ℕ → ℝ → ℝ → Option (ℝ × ℝ)
  | 0, delta, r => some (delta, r)
  | n + 1, _, r => (newtonStep a b m xs r).bind fun p =>
      if |p.1| < newtonEps then some p else newtonLoop a b m xs n p.1 p.2

/-- The initial guess for point `k`, quadrature.py:334-336. -/
noncomputable def newtonGuess (m k : ℕ) (xs : List ℝ) : ℝ :=
  let r := -Real.cos ((2 * k + 1) * Real.pi / (2 * m))
  if 0 < k then 1 / 2 * (r + xs.getD (k - 1) 0) else r

/-- `compute_gauss_jacobi_points(a, b, m)`, quadrature.py:325-355.  Next to each point, `delta` when its loop was left. -/
noncomputable def computeGaussJacobiPoints (a b : ℝ) (m : ℕ) : Option (List (ℝ × ℝ)) :=
  (List.range m).foldlM (fun (x : List (ℝ × ℝ)) (k : ℕ) =>
    (newtonLoop a b m (x.map Prod.snd) newtonMaxIter (2 * newtonEps) (newtonGuess m k (x.map Prod.snd))).map fun p => x ++ [p]) []

end FIAT
