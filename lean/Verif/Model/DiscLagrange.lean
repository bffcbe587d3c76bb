/-
Model of `DiscontinuousLagrange(ref_el, degree)` with its basis: FIAT/discontinuous_lagrange.py, FIAT/P0.py.
-/
import Verif.Model.ScalarElements

namespace FIAT
section
variable {D : ℕ}

/-- `P0(ref_el)`, P0.py:17-45, for a cell of dimension at least 1 (the branch `bary = ()` of P0.py:22-23 is not modelled):
one node, the value at the average of the vertices. -/
noncomputable def p0Element (s : SimplexCell (Fin D → ℝ)) :
    Option (PolySet ℝ (Fin D → ℝ) ((0 + D).choose D) ((0 + D).choose D) Unit × List (Functional ℝ (Fin D → ℝ)) × EntityIds ℕ) := do
  let bary := (1 / (s.verts.length : ℝ)) • s.verts.sum
  let ids ← p0Ids s.topo
  let el ← functionalElement s 0 [pointEvaluation bary]
  some (el, [pointEvaluation bary], ids)

/-- `HigherOrderDiscontinuousLagrange(ref_el, degree)`, discontinuous_lagrange.py:42-49: the dual set is
`DiscontinuousLagrangeDualSet`, discontinuous_lagrange.py:17-39. -/
noncomputable def higherOrderDG (s : SimplexCell (Fin D → ℝ)) (degree : ℕ) :
    Option (PolySet ℝ (Fin D → ℝ) ((degree + D).choose D) ((degree + D).choose D) Unit × List (Functional ℝ (Fin D → ℝ)) × EntityIds ℕ) := do
  let dual ← discLagrangeDual ℝ s degree
  let el ← functionalElement s degree (dual.1.map pointEvaluation)
  some (el, dual.1.map pointEvaluation, dual.2)

/-- `DiscontinuousLagrange(ref_el, degree)`, discontinuous_lagrange.py:52-56. -/
noncomputable def discontinuousLagrange (s : SimplexCell (Fin D → ℝ)) : (degree : ℕ) →
    Option (PolySet ℝ (Fin D → ℝ) ((degree + D).choose D) ((degree + D).choose D) Unit × List (Functional ℝ (Fin D → ℝ)) × EntityIds ℕ)
  | 0 => p0Element s
  | degree + 1 => higherOrderDG s (degree + 1)

end
end FIAT
