/-
Model of the constructors of `EnrichedElement` (FIAT/enriched.py:19-75, :112-115) and `MixedElement` (FIAT/mixed.py:17-54).
-/
import Verif.Model.CellEq
import Verif.Model.Combine

namespace FIAT

/-- The exceptions of the two constructors. -/
inductive InitFail where
  | valueError | typeError | keyError | attributeError
  deriving DecidableEq, Repr

/-- What the constructors read of an element: `get_reference_element()`, `entity_dofs()`, `dual_basis()`, `mapping()` (a list, one entry
per basis function; an entry may be Python's `None`), `value_shape()`, `get_order()`, `get_formdegree()`, `degree()` (`none` for the
classes that have no such method, such as `MixedElement`).  finite_element.py:23-111.  The nodes are of an arbitrary type. -/
structure ElemInfo (α ν : Type) where
  cell : CellObj α
  ids : EntityIds Key
  nodes : List ν
  mapping : List (Option String)
  shape : List ℕ
  order : Option ℤ
  formdegree : Option ℕ
  degree : Option ℕ

section
variable {α ν : Type}

/-- Inserting into a Python set: an element equal to one already there is not added. -/
def setInsert {β : Type} (eq : β → β → Bool) (s : List β) (x : β) : List β := if s.any (eq x) then s else s ++ [x]

/-- `set(xs)`, in the order of insertion. -/
def pySet {β : Type} (eq : β → β → Bool) (xs : List β) : List β := xs.foldl (setInsert eq) []

/-- `x, = s`. -/
def unpackSingle {β : Type} : List β → Except InitFail β
  | [x] => .ok x
  | _ => .error .valueError

/-- Comparison of two orders with `>`; `None` cannot be compared. -/
def gtOrder : Option ℤ → Option ℤ → Except InitFail Bool
  | some a, some b => .ok (decide (a > b))
  | _, _ => .error .typeError

/-- Python's `max`: the empty sequence is a `ValueError`; the first element is kept unless a later one is greater. -/
def maxOrder : List (Option ℤ) → Except InitFail (Option ℤ)
  | [] => .error .valueError
  | x :: xs => xs.foldlM (fun (m : Option ℤ) (y : Option ℤ) => do
      let b ← gtOrder y m
      pure (if b then y else m)) x

/-- `max` of natural numbers. -/
def maxNats : List ℕ → Except InitFail ℕ
  | [] => .error .valueError
  | x :: xs => .ok (xs.foldl max x)

/-- The loop of `concatenate_entity_dofs`; a missing entity is a `KeyError`. -/
def concatIds (cell : CellObj α) (es : List (ElemInfo α ν)) : Except InitFail (EntityIds Key) :=
  match concatenateEntityDofs cell.data.topo (es.map fun e => (e.nodes.length, e.ids)) with
  | some ids => .ok ids
  | none => .error .keyError

/-- `if len(s) > 1: raise ValueError(...)`. -/
def checkOne {β : Type} (s : List β) : Except InitFail Unit := if s.length > 1 then .error .valueError else .ok ()

/-- The form degree, enriched.py:44-47. -/
def commonFormdegree (es : List (ElemInfo α ν)) : Except InitFail (Option ℕ) :=
  if es.any fun e => e.formdegree.isNone then .ok none
  else (maxNats (es.filterMap fun e => e.formdegree)).map some

/-- `max(e.degree() for e in elements)`, enriched.py:65. -/
def maxDegree (es : List (ElemInfo α ν)) : Except InitFail ℕ :=
  match es.mapM fun e => e.degree with
  | some l => maxNats l
  | none => .error .attributeError

/-- `EnrichedElement(*elements)`, enriched.py:26-68, and `value_shape` (:112-115). -/
def enrichedInit (es : List (ElemInfo α ν)) : Except InitFail (ElemInfo α ν) := do
  let cells := pySet CellObj.pyEq (es.map fun e => e.cell)
  let maps := pySet (fun a b : Option String => decide (a = b)) (es.flatMap fun e => e.mapping)
  let shapes := pySet (fun a b : List ℕ => decide (a = b)) (es.map fun e => e.shape)
  checkOne cells
  checkOne maps
  checkOne shapes
  let order ← maxOrder (es.map fun e => e.order)
  let formdegree ← commonFormdegree es
  let cell ← unpackSingle cells
  let mapping ← unpackSingle maps
  let ids ← concatIds cell es
  let nodes := es.flatMap fun e => e.nodes
  let degree ← maxDegree es
  let shape ← unpackSingle shapes
  pure { cell := cell, ids := ids, nodes := nodes, mapping := List.replicate nodes.length mapping, shape := shape, order := order,
         formdegree := formdegree, degree := some degree }

/-- `MixedElement(elements, ref_el)`, mixed.py:25-54: `value_shape` (:46-47) and `mapping` (:49-50) are overridden. -/
def mixedInit (es : List (ElemInfo α ν)) (refEl : Option (CellObj α)) : Except InitFail (ElemInfo α ν) := do
  let cells := pySet CellObj.pyEq (es.map fun e => e.cell)
  let cells := match refEl with
    | some c => setInsert CellObj.pyEq cells c
    | none => cells
  let cell ← unpackSingle cells
  let nodes := es.flatMap fun e => e.nodes
  let ids ← concatIds cell es
  pure { cell := cell, ids := ids, nodes := nodes, mapping := es.flatMap fun e => e.mapping,
         shape := [(es.map fun e => e.shape.prod).sum], order := none, formdegree := none, degree := none }

end
end FIAT
