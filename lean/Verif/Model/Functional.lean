/-
Model of FIAT/functional.py (`Functional`, :41-170) and of `DualSet.to_riesz` (FIAT/dual_set.py:45-135).

Floating-point numbers are elements of a field `K`; points are keys of an arbitrary type `P` with
decidable equality (tuples of floats); components and derivative multi-indices are `List ℕ`.
numpy arrays of zeros with `+=` on an entry are functions with `Function.update`; writing outside the
array's shape (an `IndexError`) is not modelled.
-/
import Verif.Model.PyDict
import Verif.Model.Combinat
import Mathlib.Algebra.Field.Basic
import Mathlib.Logic.Function.Basic

namespace FIAT

/-- `Functional`, functional.py:64-76: `pt_dict` maps a point to pairs (weight, component), `deriv_dict`
to triples (weight, multi-index, component). -/
structure Functional (K P : Type) where
  pt : Dict P (List (K × List ℕ))
  deriv : Dict P (List (K × List ℕ × List ℕ))

variable {K P : Type} [Field K] [DecidableEq P]

/-- `max_deriv_order`, functional.py:71-76.  (`max([])`, a `ValueError` for a nonempty `deriv_dict` whose
lists are all empty, is not modelled: the value is then 0.) -/
def Functional.maxDerivOrder (l : Functional K P) : ℕ :=
  ((l.deriv.flatMap Prod.snd).map fun wac => wac.2.1.sum).foldr max 0

/-- What the dual set needs to know about the expansion set of the polynomial set, at its embedded
degree: `get_num_members`, `tabulate(ed, pts)[i, j]`, and `ONPolynomialSet(ref_el, ed).tabulate(pts,
order)[alpha][i, j]`. -/
structure ExpTab (K P : Type) where
  num : ℕ
  tab : List P → ℕ → ℕ → K
  jet : List P → ℕ → Dict (List ℕ) (ℕ → ℕ → K)

/-- `m[k] += v` on a numpy array. -/
def addAt {κ : Type} [DecidableEq κ] (m : κ → K) (k : κ) (v : K) : κ → K :=
  Function.update m k (m k + v)

/-- `Functional.to_riesz(poly_set)`, functional.py:109-170.  The result is indexed by (component,
expansion function); `none` is a `KeyError` in `dbfs[tuple(alpha)]`. -/
def Functional.toRiesz (E : ExpTab K P) (l : Functional K P) : Option (List ℕ × ℕ → K) :=
  let pts := Dict.keys l.pt
  let bfs := E.tab pts
  let r0 := pts.zipIdx.foldl (fun r pj =>
    (List.range E.num).foldl (fun r i =>
      ((Dict.get? l.pt pj.1).getD []).foldl (fun r wc => addAt r (wc.2, i) (wc.1 * bfs i pj.2)) r) r)
    (fun _ => 0)
  if l.deriv.isEmpty then some r0
  else
    let dpts := Dict.keys l.deriv
    let dbfs := E.jet dpts l.maxDerivOrder
    dpts.zipIdx.foldlM (fun r pj =>
      (List.range E.num).foldlM (fun r i =>
        ((Dict.get? l.deriv pj.1).getD []).foldlM (fun r wac =>
          (Dict.get? dbfs wac.2.1).map fun t => addAt r (wac.2.2, i) (wac.1 * t i pj.2)) r) r) r0

/-- `pts_to_ells` (dual_set.py:77-90): point ↦ numbers of the nodes that use it. -/
def ptsToElls (keysOf : Functional K P → List P) (nodes : List (Functional K P)) : Dict P (List ℕ) :=
  nodes.zipIdx.foldl (fun d li => (keysOf li.1).foldl (fun d pt => Dict.appendAt d pt [li.2]) d) []

/-- `DualSet.to_riesz(poly_set)`, dual_set.py:45-135; the result is indexed by (node, component, expansion
function).  `none`: no nodes (`IndexError`), or a missing multi-index (`KeyError`). -/
def dualToRiesz (E : ExpTab K P) (nodes : List (Functional K P)) : Option (ℕ × List ℕ × ℕ → K) :=
  if nodes.isEmpty then none
  else
    let ptsTo := ptsToElls (fun l => Dict.keys l.pt) nodes
    let dptsTo := ptsToElls (fun l => Dict.keys l.deriv) nodes
    let pts := Dict.keys ptsTo
    let ev := E.tab pts
    let m0 := pts.zipIdx.foldl (fun m pj =>
      ((Dict.get? ptsTo pj.1).getD []).foldl (fun m k =>
        (List.range E.num).foldl (fun m i =>
          (((nodes[k]?).bind fun l => Dict.get? l.pt pj.1).getD []).foldl (fun m wc =>
            addAt m (k, wc.2, i) (wc.1 * ev i pj.2)) m) m) m) (fun _ => 0)
    let order := (nodes.map Functional.maxDerivOrder).foldr max 0
    if 0 < order then
      let dpts := Dict.keys dptsTo
      let dev := E.jet dpts order
      dpts.zipIdx.foldlM (fun m pj =>
        ((Dict.get? dptsTo pj.1).getD []).foldlM (fun m k =>
          (List.range E.num).foldlM (fun m i =>
            (((nodes[k]?).bind fun l => Dict.get? l.deriv pj.1).getD []).foldlM (fun m wac =>
              (Dict.get? dev wac.2.1).map fun t => addAt m (k, wac.2.2, i) (wac.1 * t i pj.2)) m) m) m) m0
    else some m0

end FIAT
