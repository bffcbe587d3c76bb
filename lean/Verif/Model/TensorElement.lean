/-
Model of `TensorProductElement` (FIAT/tensor_product.py:28-347) and `FlattenedDimensions` (:363-414).
-/
import Verif.Model.TensorCell
import Verif.Model.Combinat
import Verif.Model.Functional

namespace FIAT

/-- The two inner loops, tensor_product.py:59-65: `dim_cur` is the first component of the state. -/
def tensorInner (Bsdim : ℕ) (ea eb : Dict ℕ (List ℕ)) : Dict ℕ (List ℕ) :=
  (ea.foldl (fun (st : ℕ × Dict ℕ (List ℕ)) (a : ℕ × List ℕ) =>
    eb.foldl (fun (st : ℕ × Dict ℕ (List ℕ)) (b : ℕ × List ℕ) =>
      (st.1 + 1, st.2.put st.1 (a.2.flatMap fun x => b.2.map fun y => x * Bsdim + y))) st)
    (0, [])).2

/-- `entity_ids` of `TensorProductElement`, tensor_product.py:49-65. -/
def tensorEntityIds (Bsdim : ℕ) (A B : EntityIds Key) : EntityIds Key :=
  A.foldl (fun (ids : EntityIds Key) (a : Key × Dict ℕ (List ℕ)) =>
    B.foldl (fun (ids : EntityIds Key) (b : Key × Dict ℕ (List ℕ)) =>
      Dict.put ids (Key.tup [a.1, b.1]) (tensorInner Bsdim a.2 b.2)) ids) []

section nodes
variable {K : Type} [Field K] [DecidableEq K]

/-- The classes the `isinstance` chain at tensor_product.py:80-204 distinguishes. -/
inductive NodeKind
  | pointEval
  | scaledNormal
  | edgeTangent
  | component (c : List ℕ)
  | frobenius
  | integralMoment
  | pointDerivative
  | other

/-- A node: its class and its dictionaries (`get_point_dict()`). -/
structure TNode (K : Type) where
  kind : NodeKind
  fn : Functional K (List K)

/-- `_first_point_pair(node)`, tensor_product.py:24-25 (`_first_point` is its first component); an empty
dictionary is an `IndexError`. -/
def firstPair (n : TNode K) : Option (List K × List (K × List ℕ)) := n.fn.pt.head?

/-- `Functional(None, None, None, {}, "Undefined")`: the dummy functional, modelled as the empty one. -/
def undefinedNode : Functional K (List K) := ⟨[], []⟩

/-- One iteration of the node loops, tensor_product.py:79-204; `sd` is the spatial dimension of the product
cell.  `none` is `NotImplementedError` (or an empty point dictionary).  In the Frobenius case the code
writes the component `sd-1` as an int instead of the 1-tuple; it indexes the same array slice. -/
def tensorNode (sd : ℕ) (A B : TNode K) : Option (Functional K (List K)) :=
  match A.kind, B.kind with
  | .pointEval, .pointEval => do
    let a ← firstPair A
    let b ← firstPair B
    some ⟨[(a.1 ++ b.1, [(1, [])])], []⟩
  | .pointEval, .integralMoment => some undefinedNode
  | .pointEval, .pointDerivative => some undefinedNode
  | .pointEval, _ => none
  | .scaledNormal, .pointEval => do
    let a ← firstPair A
    let b ← firstPair B
    if 1 < b.1.length then none else some ⟨[(a.1 ++ b.1, a.2 ++ [(0, [a.1.length])])], []⟩
  | .scaledNormal, _ => none
  | .edgeTangent, .pointEval => do
    let a ← firstPair A
    let b ← firstPair B
    if 1 < b.1.length then none else some ⟨[(a.1 ++ b.1, a.2 ++ [(0, [a.1.length])])], []⟩
  | .edgeTangent, _ => none
  | .component c, .pointEval => do
    let a ← firstPair A
    let b ← firstPair B
    some ⟨[(a.1 ++ b.1, [(1, c)])], []⟩
  | .component _, _ => none
  | .frobenius, .pointEval => do
    let b ← firstPair B
    some ⟨A.fn.pt.foldl (fun d p => Dict.put d (p.1 ++ b.1) (p.2 ++ [(0, [sd - 1])])) [], []⟩
  | .frobenius, _ => none
  | .integralMoment, .pointEval => do
    let b ← firstPair B
    some ⟨A.fn.pt.foldl (fun d p => Dict.put d (p.1 ++ b.1) p.2) [], []⟩
  | .integralMoment, _ => none
  | .pointDerivative, _ => some undefinedNode
  | .other, _ => some undefinedNode

/-- The list `nodes`, tensor_product.py:78-204. -/
def tensorNodes (sd : ℕ) (As Bs : List (TNode K)) : Option (List (Functional K (List K))) :=
  As.foldlM (fun nodes A => Bs.foldlM (fun nodes B => do
    let n ← tensorNode sd A B
    some (nodes ++ [n])) nodes) []

end nodes

section tab
variable {K α : Type} [Field K]

/-- What `tabulate(order, points, entity)` returns for an element with `comps` components: derivative ↦
array `[basis function, component, point]`, components flattened. -/
abbrev Tab (K : Type) := Dict (List ℕ) (ℕ → ℕ → ℕ → K)

/-- An element as seen by `TensorProductElement.tabulate`. -/
structure TabElem (K α : Type) where
  cell : CellData α
  sd : ℕ
  /-- number of basis functions -/
  dim : ℕ
  /-- `value_shape()`: `none` is `()`, `some c` is `(c,)` -/
  shape : Option ℕ
  tabulate : ℕ → List (List K) → Key × ℕ → Option (Tab K)

/-- The array written at tensor_product.py:281-334 for one multi-index.  `TA`, `TB` are indexed
`[basis function, component, point]`; the result too.  numpy's `outer` flattens its arguments and
`reshape` keeps the row-major order, so `[..., j]` of a vector-valued table is the list with entry
`i * c + k` equal to component `k` of function `i`.  The code hard-codes two components. -/
def tensorArray (A B : TabElem K α) (TA TB : ℕ → ℕ → ℕ → K) : Option (ℕ → ℕ → ℕ → K) :=
  match A.shape, B.shape with
  | none, none => some fun r _ j => TA (r / B.dim) 0 j * TB (r % B.dim) 0 j
  | some c, none =>
    if A.dim * c % 2 = 0 then
      some fun r k j =>
        let s := 2 * (r / B.dim) + k
        TA (s / c) (s % c) j * TB (r % B.dim) 0 j
    else none
  | none, some c =>
    if B.dim * c % 2 = 0 then
      some fun r k j =>
        let h := B.dim * c / 2
        let s := 2 * (r % h) + k
        TA (r / h) 0 j * TB (s / c) (s % c) j
    else none
  | some _, some _ => none

/-- Number of rows of that array. -/
def tensorRows (A B : TabElem K α) : ℕ :=
  match A.shape, B.shape with
  | none, none => A.dim * B.dim
  | some c, none => A.dim * c / 2 * B.dim
  | none, some c => A.dim * (B.dim * c / 2)
  | some _, some _ => 0

/-- `TensorProductElement.tabulate`, tensor_product.py:231-336, for an entity of the product cell (the
default `entity` is the cell, `((dA, dB), 0)`).  `numpy.unravel_index` raises for a number out of range.  The
spatial dimension of `construct_subelement(d)` is `d` (summed for tuples), reference_element.py:700-712. -/
def tensorTabulate (A B : TabElem K α) (order : ℕ) (points : List (List K)) (ent : Key × ℕ) : Option (Tab K) :=
  match ent.1 with
  | Key.cons da (Key.cons db Key.nil) => do
    let tA ← A.cell.topo.get? da
    let tB ← B.cell.topo.get? db
    if tA.length * tB.length ≤ ent.2 then none else
    let TA ← A.tabulate order (points.map fun p => p.take da.tupleSum) (da, ent.2 / tB.length)
    let TB ← B.tabulate order (points.map fun p => (p.drop da.tupleSum).take db.tupleSum) (db, ent.2 % tB.length)
    (jetKeys (A.sd + B.sd) order).foldlM (fun (res : Tab K) alpha => do
      let a ← Dict.get? TA (alpha.take A.sd)
      let b ← Dict.get? TB ((alpha.drop A.sd).take B.sd)
      let arr ← tensorArray A B a b
      some (Dict.put res alpha arr)) []
  | _ => none

/-- `FlattenedDimensions.tabulate`, tensor_product.py:401-414: the flat entity is looked up in the
unflattening map of the product cell. -/
def flattenedTabulate (A B : TabElem K α) (order : ℕ) (points : List (List K)) (ent : ℕ × ℕ) : Option (Tab K) := do
  let pe ← (computeUnflatteningMap (tensorProductCell [A.cell, B.cell]).topo).get? ent
  tensorTabulate A B order points pe

end tab
end FIAT
