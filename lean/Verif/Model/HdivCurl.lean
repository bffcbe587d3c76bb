/-
Model of FIAT/hdivcurl.py (`Hdiv`, `Hcurl`), on top of the model of `TensorProductElement` (Model/TensorElement.lean).

`Hdiv` copies the element, overrides `value_shape`, `_mapping`, `formdegree`, `tabulate` and replaces the point evaluation
nodes.  An input that is not a `TensorProductElement` (`NotImplementedError`) is excluded by the types.
-/
import Verif.Model.TensorElement

namespace FIAT

/-- The mapping strings that hdivcurl.py and tensor_product.py:38-46 compare with. -/
inductive PullBack
  | affine
  | contravariant
  | covariant
  | other
  deriving DecidableEq

/-- What the wrappers read from a factor: `get_formdegree()` (`none`: `None`), `mapping()[0]`, spatial dimension. -/
structure FormInfo where
  fd : Option ℕ
  map : PullBack
  sd : ℕ

/-- `TensorProductElement._mapping`, tensor_product.py:38-46 (`none`: `ValueError`). -/
def tensorMapping (a b : PullBack) : Option PullBack :=
  if a ≠ .affine ∧ b = .affine then some a
  else if b ≠ .affine ∧ a = .affine then some b
  else if a = .affine ∧ b = .affine then some .affine
  else none

/-- The checks at the start of `Hdiv`, hdivcurl.py:17-21: the new form degree (`none`: `ValueError`). -/
def hdivFormdegree (A B : FormInfo) : Option ℕ :=
  match A.fd, B.fd with
  | some a, some b => if ((a + b : ℕ) : ℤ) ≠ ((A.sd + B.sd : ℕ) : ℤ) - 1 then none else some (a + b)
  | _, _ => none

/-- The checks at the start of `Hcurl`, hdivcurl.py:139-143. -/
def hcurlFormdegree (A B : FormInfo) : Option ℕ :=
  match A.fd, B.fd with
  | some a, some b => if ¬ (a + b = 1) then none else some (a + b)
  | _, _ => none

section arrays
variable {K : Type} [Field K]

/-- An array `[basis function, component, point]`. -/
abbrev Arr (K : Type) := ℕ → ℕ → ℕ → K

/-- `temp[:, lo:hi, :] = old` for an `old` with `cc` components: equal lengths, or one component that is broadcast;
otherwise `ValueError`. -/
def setSlice (lo hi cc : ℕ) (old temp : Arr K) : Option (Arr K) :=
  if hi - lo = cc then some fun r k j => if lo ≤ k ∧ k < hi then old r (k - lo) j else temp r k j
  else if cc = 1 then some fun r k j => if lo ≤ k ∧ k < hi then old r 0 j else temp r k j
  else none

/-- `temp[:, i, :] = row`. -/
def setComp (i : ℕ) (row : ℕ → ℕ → K) (temp : Arr K) : Arr K := fun r k j => if k = i then row r j else temp r k j

/-- The body of the loop of `Hdiv`'s `tabulate`, hdivcurl.py:52-115, for one array with `cc` components (a scalar table is
read in component 0).  `m` is `_oldmapping`.  In the branch for a covariant second factor `Asd` is a local name that has not
been assigned (:96 is in the other branch, :112 reads it): `UnboundLocalError`, hence `none`.  A mapping
outside the three leaves `temp` unassigned (`none`; or the value of an earlier iteration, but the mapping is the same for
all). -/
def hdivArray (A B : FormInfo) (m : PullBack) (cc : ℕ) (old : Arr K) : Option (Arr K) :=
  let sd := A.sd + B.sd
  let zeros : Arr K := fun _ _ _ => 0
  match m with
  | .affine =>
    if A.fd = some 0 then some (setComp 0 (fun r j => -old r 0 j) zeros)
    else if B.fd = some 0 then some (setComp (sd - 1) (fun r j => old r 0 j) zeros)
    else none
  | .contravariant =>
    let Asd := A.sd
    if A.map = .contravariant then setSlice 0 Asd cc old zeros
    else if B.map = .contravariant then setSlice Asd sd cc old zeros
    else none
  | .covariant =>
    if A.map = .covariant then
      let Asd := A.sd
      if ¬ (Asd = 2) then none
      else if cc < 2 then none
      else
        let temp_perp := setComp 0 (fun r j => old r 1 j) zeros
        let temp_perp := setComp 1 (fun r j => -old r 0 j) temp_perp
        setSlice 0 Asd cc temp_perp zeros
    else none
  | .other => none

/-- The body of the loop of `Hcurl`'s `tabulate`, hdivcurl.py:174-237; same conventions, `Asd` is unbound in the branch for
a contravariant second factor (:234). -/
def hcurlArray (A B : FormInfo) (m : PullBack) (cc : ℕ) (old : Arr K) : Option (Arr K) :=
  let sd := A.sd + B.sd
  let zeros : Arr K := fun _ _ _ => 0
  match m with
  | .affine =>
    if A.fd = some 1 then some (setComp 0 (fun r j => old r 0 j) zeros)
    else if B.fd = some 1 then some (setComp (sd - 1) (fun r j => old r 0 j) zeros)
    else none
  | .covariant =>
    let Asd := A.sd
    if A.map = .covariant then setSlice 0 Asd cc old zeros
    else if B.map = .covariant then setSlice Asd sd cc old zeros
    else none
  | .contravariant =>
    if A.map = .contravariant then
      let Asd := A.sd
      if ¬ (Asd = 2) then none
      else if cc < 2 then none
      else
        let temp_perp := setComp 0 (fun r j => -old r 1 j) zeros
        let temp_perp := setComp 1 (fun r j => old r 0 j) temp_perp
        setSlice 0 Asd cc temp_perp zeros
    else none
  | .other => none

/-- `for alpha in old_result.keys(): ... new_result[alpha] = temp`, hdivcurl.py:49-116 and :171-238. -/
def wrapTabulate (f : Arr K → Option (Arr K)) (old : Tab K) : Option (Tab K) :=
  old.foldlM (fun (res : Tab K) (p : List ℕ × Arr K) => do
    let temp ← f p.2
    some (Dict.put res p.1 temp)) []

/-- The element returned by `Hdiv` or `Hcurl`: form degree, mapping, value shape, nodes and `tabulate`. -/
structure WrappedElem (K : Type) where
  fd : ℕ
  map : PullBack
  shape : ℕ
  nodes : List (Functional K (List K))
  tabulate : ℕ → List (List K) → Key × ℕ → Option (Tab K)

/-- hdivcurl.py:122-130 and :244-252: when the old mapping is affine, nodes of class `PointEvaluation` (flag `true`) become
undefined functionals. -/
def splatNodes (m : PullBack) (nodes : List (Bool × Functional K (List K))) : List (Functional K (List K)) :=
  if m = .affine then nodes.map fun n => if n.1 then (⟨[], []⟩ : Functional K (List K)) else n.2
  else nodes.map Prod.snd

/-- Number of components of the arrays of the tensor product element: the vector cases hard-code two,
tensor_product.py:307-334. -/
def tensorComps {α : Type} (A B : TabElem K α) : ℕ := if A.shape.isNone && B.shape.isNone then 1 else 2

/-- `Hdiv(TensorProductElement(A, B))`, hdivcurl.py:13-132; `nodes` are the nodes of the product element. -/
def Hdiv {α : Type} (iA iB : FormInfo) (A B : TabElem K α) (nodes : List (Bool × Functional K (List K))) :
    Option (WrappedElem K) := do
  let fd ← hdivFormdegree iA iB
  let m ← tensorMapping iA.map iB.map
  some ⟨fd, .contravariant, iA.sd + iB.sd, splatNodes m nodes, fun order points ent => do
    let old ← tensorTabulate A B order points ent
    wrapTabulate (hdivArray iA iB m (tensorComps A B)) old⟩

/-- `Hcurl(TensorProductElement(A, B))`, hdivcurl.py:135-254. -/
def Hcurl {α : Type} (iA iB : FormInfo) (A B : TabElem K α) (nodes : List (Bool × Functional K (List K))) :
    Option (WrappedElem K) := do
  let fd ← hcurlFormdegree iA iB
  let m ← tensorMapping iA.map iB.map
  some ⟨fd, .covariant, iA.sd + iB.sd, splatNodes m nodes, fun order points ent => do
    let old ← tensorTabulate A B order points ent
    wrapTabulate (hcurlArray iA iB m (tensorComps A B)) old⟩

end arrays
end FIAT
