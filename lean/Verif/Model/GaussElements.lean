/-
Model of FIAT/gauss_legendre.py, FIAT/gauss_lobatto_legendre.py and FIAT/gauss_radau.py.

The cell is a line by its type (`Fin 1 → ℝ`); the `ValueError` for other shapes is not modelled.
-/
import Verif.Model.ONSet
import Verif.Model.Barycentric
import Verif.Model.Lobatto
import Verif.Model.Radau

namespace FIAT

/-- `entity_ids` of gauss_legendre.py:22-23 and gauss_radau.py:19-20. -/
def gaussLegendreIds (degree : ℕ) : EntityIds ℕ :=
  [(0, [(0, []), (1, [])]), (1, [(0, List.range' 0 (degree + 1))])]

/-- `entity_ids` of gauss_lobatto_legendre.py:22-23; `range(1, degree)`. -/
def gaussLobattoIds (degree : ℕ) : EntityIds ℕ :=
  [(0, [(0, [0]), (1, [degree])]), (1, [(0, List.range' 1 (degree - 1))])]

/-- The one-dimensional elements: `lr` is the quadrature rule of the dual set, whose points are the nodes. -/
structure LineElement (degree : ℕ) where
  nodes : List (Fin 1 → ℝ)
  polySet : PolySet ℝ (Fin 1 → ℝ) ((degree + 1).choose 1) ((degree + 1).choose 1) Unit
  ids : EntityIds ℕ

/-- The common body of the constructors, gauss_legendre.py:24-27, :35-38, gauss_lobatto_legendre.py:24-27, :35-38,
gauss_radau.py:21-24, :32-35. -/
noncomputable def lineElement (s : SimplexCell (Fin 1 → ℝ)) (degree : ℕ) (lr : Option (QRule ℝ (Fin 1 → ℝ))) (ids : EntityIds ℕ) :
    Option (LineElement degree) := do
  let Q ← lr
  let el ← pointElement s degree Q.pts
  some ⟨Q.pts, el, ids⟩

/-- `GaussLegendre(ref_el, degree)`, gauss_legendre.py:18-38; `xs`, `ws`: the results of numpy's `leggauss(degree + 1)`. -/
noncomputable def gaussLegendreElement (s : SimplexCell (Fin 1 → ℝ)) (degree : ℕ) (xs ws : List ℝ) : Option (LineElement degree) :=
  lineElement s degree (gaussLegendreLineRule s.verts (degree + 1) xs ws) (gaussLegendreIds degree)

/-- `GaussLobattoLegendre(ref_el, degree)`, gauss_lobatto_legendre.py:18-38. -/
noncomputable def gaussLobattoElement (eigh : EighFun) (s : SimplexCell (Fin 1 → ℝ)) (degree : ℕ) : Option (LineElement degree) :=
  lineElement s degree (gllLineRule eigh s.verts (degree + 1)) (gaussLobattoIds degree)

/-- `GaussRadau(ref_el, degree)`, gauss_radau.py:13-35; the dual set is made with `right=True`; `xs`: what the Newton iteration
of the Radau rule stops with. -/
noncomputable def gaussRadauElement (s : SimplexCell (Fin 1 → ℝ)) (degree : ℕ) (xs : List ℝ) : Option (LineElement degree) :=
  lineElement s degree (radauLineRule s.verts (degree + 1) true xs) (gaussLegendreIds degree)

/-- `ref_el.get_entity_transform(dim, entity)` on a line, reference_element.py:397-413: a vertex or the cell itself; other
dimensions are not modelled (`none`). -/
def lineTransform (s : SimplexCell (Fin 1 → ℝ)) (entity : ℕ × ℕ) : Option ((Fin 1 → ℝ) → (Fin 1 → ℝ)) :=
  match entity.1 with
  | 0 => do
    let m ← Dict.get? s.topo 0
    let vs ← Dict.get? m entity.2
    match vs with
    | [i] => (s.verts[i]?).map fun v => fun _ => v
    | _ => none
  | 1 => if entity.2 = 0 then some fun x => x else none
  | _ => none

/-- `GaussLegendre.tabulate` and `GaussLobattoLegendre.tabulate`, gauss_legendre.py:40-56, gauss_lobatto_legendre.py:40-56. -/
noncomputable def LineElement.tabulate {degree : ℕ} (el : LineElement degree) (s : SimplexCell (Fin 1 → ℝ)) (order : ℕ)
    (points : List (Fin 1 → ℝ)) (entity : Option (ℕ × ℕ)) :
    Option (Dict (List ℕ) (Matrix (Fin el.nodes.length) (Fin points.length) ℝ)) := do
  let transform ← lineTransform s (entity.getD (1, 0))
  barycentricInterpolation (fun i => el.nodes.get i 0) (fun p => transform (points.get p) 0) order

end FIAT
