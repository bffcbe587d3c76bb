/-
Model of `QuadratureElement` (FIAT/quadrature_element.py) and of `project` (FIAT/polynomial_set.py:179-190).
-/
import Verif.Model.PolySet
import Verif.Model.FunctionalClasses
import Verif.Model.DofLayout
import Mathlib.Data.Real.Basic

namespace FIAT

/-- How a Python call fails. -/
inductive QuadFail where
  | valueError
  | assertionError
deriving DecidableEq

/-- `abs(numpy.array(points) - self._points)`, flattened, quadrature_element.py:55, for lists of the same length of points of the same
dimension (no broadcasting). -/
def absDiffs (ps qs : List (List ℝ)) : List ℝ := (List.zipWith (fun p q => List.zipWith (fun x y => |x - y|) p q) ps qs).flatten

/-- `a.max()` of a numpy array; the maximum of an empty array is a `ValueError`. -/
noncomputable def npMax : List ℝ → Except QuadFail ℝ
  | [] => .error .valueError
  | x :: xs => .ok (xs.foldl max x)

/-- `QuadratureElement.__init__`, quadrature_element.py:21-36: the points, the nodes and the entity dofs on a cell with topology `topo`,
`get_dimension() = cd` and `get_spatial_dimension() = sd`. -/
structure QuadratureEl (δ : Type) where
  cd : δ
  sd : ℕ
  points : List (List ℝ)
  nodes : List (Functional ℝ (List ℝ))
  ids : EntityIds δ

/-- `QuadratureElement(ref_el, points)`, quadrature_element.py:21-36. -/
noncomputable def mkQuadratureEl {δ : Type} [LinearOrder δ] (topo : Topology δ) (cd : δ) (sd : ℕ) (points : List (List ℝ)) : QuadratureEl δ :=
  ⟨cd, sd, points, points.map pointEvaluation, quadElementIds topo cd points.length⟩

/-- `QuadratureElement.tabulate(order, points, entity)`, quadrature_element.py:43-61: `{(0,) * dim: numpy.eye(n)}`. -/
noncomputable def QuadratureEl.tabulate {δ : Type} [LinearOrder δ] (Q : QuadratureEl δ) (order : ℕ) (points : List (List ℝ)) (entity : Option (δ × ℕ)) :
    Except QuadFail (Dict (List ℕ) (Matrix (Fin Q.points.length) (Fin Q.points.length) ℝ)) :=
  if entity ≠ none ∧ entity ≠ some (Q.cd, 0) then .error .valueError
  else if order ≠ 0 then .error .valueError
  else if points.length ≠ Q.points.length then .error .assertionError
  else match npMax (absDiffs points Q.points) with
    | .error e => .error e
    | .ok m => if m > 1 / 10 ^ 12 then .error .assertionError else .ok [(List.replicate Q.sd 0, 1)]

/-- Multiplication of one-dimensional numpy arrays with broadcasting (`none`: `ValueError`). -/
def npMul {K : Type} [Mul K] (a b : List K) : Option (List K) :=
  if a.length = b.length then some (List.zipWith (· * ·) a b)
  else match a, b with
    | [x], _ => some (b.map (x * ·))
    | _, [y] => some (a.map (· * y))
    | _, _ => none

/-- `project(f, U, Q)` for a scalar polynomial set and a scalar function, polynomial_set.py:179-190.  `U.tabulate(pts)` is a dictionary, so
the loop runs over its keys, which are multi-indices. -/
def projectCoeffs {K P : Type} [Field K] {N m : ℕ} (f : P → K) (U : PolySet K P N m Unit) (pts : List P) (wts : List K) : Option (List K) :=
  (U.tabulate pts 0).bind fun (tab : Dict (List ℕ) (Fin m → Unit → ℕ → K)) =>
    tab.mapM fun (kv : List ℕ × (Fin m → Unit → ℕ → K)) =>
      (npMul wts (pts.map f)).bind fun a => (npMul a (kv.1.map fun (n : ℕ) => (n : K))).map List.sum

end FIAT
