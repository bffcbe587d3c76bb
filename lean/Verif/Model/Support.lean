/-
Model of `entity_support_dofs` (FIAT/finite_element.py:196-242), with its per-element cache.
-/
import Verif.Model.PyDict
import Mathlib.Algebra.BigOperators.Group.List.Basic
import Mathlib.Algebra.Order.Ring.Defs
import Mathlib.Algebra.Field.Basic

namespace FIAT

/-- What `entity_support_dofs` asks of an element: value shape, number of dofs, `entity_dofs()[d].keys()`
(`none` is a `KeyError`), the quadrature rule on the reference sub-cell of dimension `d`
(points and weights; `none` if `construct_subelement` or `create_quadrature` raises), the entity transforms
and the tabulated values `elem.tabulate(0, [p])[(0,)*dim][dof, component, 0]`. -/
structure SupportView (K P Q δ : Type) where
  valueShape : List ℕ
  ndofs : ℕ
  entities : δ → Option (List ℕ)
  quad : δ → Option (List (Q × K))
  transform : δ → ℕ → Q → P
  val : ℕ → ℕ → P → K

section
variable {K P Q δ : Type} [Field K] [LinearOrder K]

/-- Entry `dof` of `ints`, finite_element.py:229-238.  Scalar elements (`value_shape() == ()`) have one
component. -/
def supportInt (E : SupportView K P Q δ) (d : δ) (f : ℕ) (rule : List (Q × K)) (dof : ℕ) : K :=
  (rule.map fun qw =>
    (((List.range (E.valueShape.headD 1)).map fun c => E.val dof c (E.transform d f qw.1) ^ 2).sum) * qw.2).sum

/-- The computation of `entity_support_dofs` when the cache misses, finite_element.py:215-240.  For tensor
valued elements `einsum("...ij,...ij->...j")` leaves a leading tensor axis and the comparison `i > eps`
in the list comprehension raises; `none` is an exception. -/
def supportFresh (eps : K) (E : SupportView K P Q δ) (d : δ) : Option (Dict ℕ (List ℕ)) := do
  let rule ← E.quad d
  let ents ← E.entities d
  if 2 ≤ E.valueShape.length then none else
  some (ents.map fun f => (f, (List.range E.ndofs).filter fun dof => decide (eps < supportInt E d f rule dof)))
end

/-- One call `entity_support_dofs(elem, d)`, finite_element.py:203-213 and :241-242, on the cache
`elem._entity_support_dofs` (initially `{}`): returned value (`none` an exception) and new cache. -/
def supportCall {δ R : Type} [DecidableEq δ] (fresh : δ → Option R) (cache : Dict δ R) (d : δ) :
    Option R × Dict δ R :=
  match cache.get? d with
  | some r => (some r, cache)
  | none =>
    match fresh d with
    | some r => (some r, cache.put d r)
    | none => (none, cache)

/-- A history of calls; the list of returned values. -/
def supportRun {δ R : Type} [DecidableEq δ] (fresh : δ → Option R) : Dict δ R → List δ → List (Option R)
  | _, [] => []
  | cache, d :: ds => (supportCall fresh cache d).1 :: supportRun fresh (supportCall fresh cache d).2 ds

end FIAT
