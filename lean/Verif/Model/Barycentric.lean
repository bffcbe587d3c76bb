/-
Model of FIAT/barycentric_interpolation.py.  numpy arrays are functions of their indices, floating-point numbers are reals
(a division by zero, `inf` or `nan` in numpy, is 0 here).
-/
import Verif.Model.PyDict
import Mathlib.Data.Real.Basic
import Mathlib.Algebra.BigOperators.Group.Finset.Basic
import Mathlib.Data.Matrix.Mul

namespace FIAT
section
variable {n m : ℕ}

/-- `D = numpy.add.outer(-xsrc, xsrc)` with the diagonal filled with ones, barycentric_interpolation.py:27-28. -/
noncomputable def baryDiff (xsrc : Fin n → ℝ) (i j : Fin n) : ℝ := if i = j then 1 else -xsrc i + xsrc j

/-- `w = 1 / numpy.prod(D, axis=0)`, barycentric_interpolation.py:29. -/
noncomputable def baryW (xsrc : Fin n → ℝ) (j : Fin n) : ℝ := 1 / ∏ i, baryDiff xsrc i j

/-- `D = numpy.divide.outer(w, w) / D`, barycentric_interpolation.py:30. -/
noncomputable def baryQuot (xsrc : Fin n → ℝ) (i j : Fin n) : ℝ := baryW xsrc i / baryW xsrc j / baryDiff xsrc i j

/-- The differentiation matrix after the second `fill_diagonal`, barycentric_interpolation.py:31. -/
noncomputable def baryD (xsrc : Fin n → ℝ) : Matrix (Fin n) (Fin n) ℝ := fun i j =>
  if i = j then baryQuot xsrc i i - ∑ k, baryQuot xsrc k i else baryQuot xsrc i j

/-- `numpy.isclose(I, 0.0, 1E-14)` at entry (i, p), barycentric_interpolation.py:33-34: the third positional argument is the
relative tolerance; the absolute tolerance has its default value 1e-8. -/
def baryClose (xsrc : Fin n → ℝ) (xdst : Fin m → ℝ) (i : Fin n) (p : Fin m) : Prop :=
  |(-xsrc i + xdst p) - 0| ≤ 1e-8 + 1e-14 * |(0 : ℝ)|

open Classical in
/-- The interpolation matrix before the normalisation, barycentric_interpolation.py:33-39. -/
noncomputable def baryI0 (xsrc : Fin n → ℝ) (xdst : Fin m → ℝ) (i : Fin n) (p : Fin m) : ℝ :=
  if baryClose xsrc xdst i p then 1
  else if ∃ i', baryClose xsrc xdst i' p then 0
  else 1 / (-xsrc i + xdst p) * baryW xsrc i

/-- The interpolation matrix, barycentric_interpolation.py:40. -/
noncomputable def baryI (xsrc : Fin n → ℝ) (xdst : Fin m → ℝ) : Matrix (Fin n) (Fin m) ℝ := fun i p =>
  (1 / ∑ k, baryI0 xsrc xdst k p) * baryI0 xsrc xdst i p

/-- `barycentric_interpolation(xsrc, xdst, order)`, barycentric_interpolation.py:12-46; `none`: `KeyError` (which cannot
happen). -/
noncomputable def barycentricInterpolation (xsrc : Fin n → ℝ) (xdst : Fin m → ℝ) (order : ℕ) :
    Option (Dict (List ℕ) (Matrix (Fin n) (Fin m) ℝ)) :=
  (List.range order).foldlM (fun (derivs : Dict (List ℕ) (Matrix (Fin n) (Fin m) ℝ)) (k : ℕ) =>
    (Dict.get? derivs [k]).map fun t => Dict.put derivs [k + 1] (baryD xsrc * t)) [([0], baryI xsrc xdst)]

end
end FIAT
