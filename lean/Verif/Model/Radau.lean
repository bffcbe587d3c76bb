/-
Model of FIAT/quadrature.py: `RadauQuadratureLineRule` (:126-180).  Floating-point numbers are reals.

Not modelled: the Chebyshev initial guess and the number of sweeps of the `while` loop; one sweep is modelled
(`radauStep`), and the argument `xs` of the rule stands for the values `x[free]` at which the loop stops, which in exact
arithmetic are fixed points of the sweep.
-/
import Verif.Model.Quadrature

namespace FIAT

/-- The row of `P` of one free node `x` after the loop over `k`, quadrature.py:148-152. -/
noncomputable def legRow (N : ℕ) (x : ℝ) : List ℝ :=
  (List.range' 2 N).foldl (fun (P : List ℝ) (k : ℕ) =>
    P ++ [((2 * (k : ℝ) - 1) * x * P.getD (k - 1) 0 - ((k : ℝ) - 1) * P.getD (k - 2) 0) / k]) [1, x]

/-- The new value of a free node, quadrature.py:154. -/
noncomputable def radauStep (N : ℕ) (x : ℝ) : ℝ :=
  x - ((1 - x) / ((N : ℝ) + 1)) * ((legRow N x).getD N 0 + (legRow N x).getD (N + 1) 0) /
    ((legRow N x).getD N 0 - (legRow N x).getD (N + 1) 0)

/-- The reference points and weights, quadrature.py:133-167: the first node is -1 (`-cos(0)`), it is never updated. -/
noncomputable def radauRef (m : ℕ) (right : Bool) (xs : List ℝ) : List ℝ × List ℝ :=
  let N := m - 1
  let x := -1 :: xs
  let w := 2 / ((N : ℝ) + 1) ^ 2 :: xs.map fun t => (1 - t) / (((N : ℝ) + 1) * (legRow N t).getD N 0) ^ 2
  if right then ((x.map fun t => -t).reverse, w.reverse) else (x, w)

/-- `RadauQuadratureLineRule(ref_el, m, right)`, quadrature.py:132-180; `none`: the failed assertion `m >= 1`. -/
noncomputable def radauLineRule (verts : List (Fin 1 → ℝ)) (m : ℕ) (right : Bool) (xs : List ℝ) :
    Option (QRule ℝ (Fin 1 → ℝ)) :=
  if 1 ≤ m then
    mappedRule verts ((radauRef m right xs).1.map fun x _ => x) (radauRef m right xs).2
  else none

/-- `GaussLegendreQuadratureLineRule(ref_el, m)`, quadrature.py:106-122; `xs`, `ws` are the two results of
`numpy.polynomial.legendre.leggauss(m)` (a library, not modelled); `none`: the `ValueError` for `m < 1`. -/
noncomputable def gaussLegendreLineRule (verts : List (Fin 1 → ℝ)) (m : ℕ) (xs ws : List ℝ) :
    Option (QRule ℝ (Fin 1 → ℝ)) :=
  if m < 1 then none else mappedRule verts (xs.map fun x _ => x) ws

end FIAT
