/-
Model of `compute_pointwise_dual(el, pts)`, FIAT/pointwise_dual.py:13-66.
-/
import Verif.Model.Functional
import Mathlib.Data.Rat.Defs
import Mathlib.LinearAlgebra.Matrix.NonsingularInverse

namespace FIAT
variable {K P : Type} [Field K] [DecidableEq P]

/-- One functional, pointwise_dual.py:53-64: `numpy.where` runs over (component, point) in row-major order;
`keep` is `abs(coeff) > 1.e-12`. -/
def pointwiseNode (keep : K → Bool) (comps : List (List ℕ)) (pts : List P) (coeff : ℕ → ℕ → K) :
    Functional K P :=
  ⟨comps.zipIdx.foldl (fun d cj => pts.zipIdx.foldl (fun d xp =>
      if keep (coeff cj.2 xp.2) then Dict.appendAt d xp.1 [(coeff cj.2 xp.2, cj.1)] else d) d) [], []⟩

/-- The list of nodes, pointwise_dual.py:34-64.  `V j c p` is `el.tabulate(0, pts)[z]`: basis function,
component number, point number.  `none`: the shape assertion fails, or the matrix is singular. -/
noncomputable def pointwiseDual (keep : K → Bool) (nbf : ℕ) (comps : List (List ℕ)) (pts : List P)
    (V : ℕ → ℕ → ℕ → K) : Option (List (Functional K P)) :=
  open Classical in
  if h : comps.length * pts.length = nbf then
    let A : Matrix (Fin nbf) (Fin nbf) K := Matrix.of fun cp j =>
      V j (cp / pts.length) (cp % pts.length)
    if IsUnit A.det then
      some ((List.finRange nbf).map fun i => pointwiseNode keep comps pts fun c p =>
        if hcp : c * pts.length + p < nbf then A⁻¹ i ⟨c * pts.length + p, hcp⟩ else 0)
    else none
  else none

end FIAT
