/-
Model of FIAT/serendipity.py: the basis (:26-30, :51-101, :199-244), the dof numbering (:69-124), the unisolvent
points (:247-316), and `tabulate` with its cache of derivatives (:143-174).

Symbolic polynomials (sympy) are `MvPolynomial`s with real coefficients, `legendre(j, e)` is the Legendre polynomial
`P_j` (a Jacobi polynomial with both parameters zero) evaluated at `e`, `diff` is the formal derivative,
`lambdify` is evaluation.  The variables x, y, z are numbered 0, 1, 2.
-/
import Verif.Model.Blocks
import Verif.Model.TensorCell
import Verif.Model.Geometry
import Verif.Model.PointwiseDual
import Verif.Props.Jacobi
import Mathlib.Algebra.MvPolynomial.PDeriv

namespace FIAT
open MvPolynomial

section basis
variable {D : ℕ}

/-- `tr(n)`, serendipity.py:26-30; `int` of a float, exact because the product is even. -/
def serTr (n : ℕ) : ℕ := if n ≤ 1 then 0 else ((((n : ℤ) - 3) * ((n : ℤ) - 2)) / 2).toNat

/-- `verts[k][c]` of a list of vertices (always in range below). -/
def vcoord (verts : List (List ℝ)) (k : ℕ) (c : ℕ) : ℝ := ((verts[k]?).getD []).getD c 0

/-- `verts[0][c]`. -/
def serLo (verts : List (List ℝ)) (c : Fin D) : ℝ := vcoord verts 0 c

/-- `verts[-1][c]`. -/
def serHi (verts : List (List ℝ)) (c : Fin D) : ℝ := vcoord verts (verts.length - 1) c

/-- `dx[b]`, `dy[b]`, `dz[b]`, serendipity.py:53-54, :58; `b` is 0 or 1. -/
noncomputable def serD (verts : List (List ℝ)) (c : Fin D) (b : Bool) : MvPolynomial (Fin D) ℝ :=
  C (serHi verts c - serLo verts c)⁻¹ * (if b then X c - C (serLo verts c) else C (serHi verts c) - X c)

/-- `x_mid`, `y_mid`, `z_mid`, serendipity.py:55-56, :59. -/
noncomputable def serMid (verts : List (List ℝ)) (c : Fin D) : MvPolynomial (Fin D) ℝ :=
  2 * X c - C (serHi verts c + serLo verts c)

/-- `legendre(j, e)` (sympy). -/
noncomputable def serLeg (j : ℕ) (e : MvPolynomial (Fin D) ℝ) : MvPolynomial (Fin D) ℝ :=
  Polynomial.aeval e (jacobiPoly (0 : ℝ) 0 j)

end basis

section two
variable (d : Fin 2 → Bool → MvPolynomial (Fin 2) ℝ) (mid : Fin 2 → MvPolynomial (Fin 2) ℝ)

/-- `v_lambda_0` for `dim == 2`, serendipity.py:201-202. -/
noncomputable def vLambda2 : List (MvPolynomial (Fin 2) ℝ) :=
  [d 0 false, d 0 true].flatMap fun a => [d 1 false, d 1 true].map fun b => a * b

/-- `e_lambda_0` for `dim == 2`, serendipity.py:211-213. -/
noncomputable def eLambda2 (i : ℕ) : List (MvPolynomial (Fin 2) ℝ) :=
  ([d 0 false, d 0 true].flatMap fun a =>
    (List.range (i - 1)).map fun j => -serLeg j (mid 1) * d 1 false * d 1 true * a) ++
  ([d 1 false, d 1 true].flatMap fun b =>
    (List.range (i - 1)).map fun j => -serLeg j (mid 0) * d 0 false * d 0 true * b)

/-- `f_lambda_0` for `dim == 2`, serendipity.py:224-226. -/
noncomputable def fLambda2 (i : ℕ) : List (MvPolynomial (Fin 2) ℝ) :=
  (List.range' 4 (i - 3)).flatMap fun k => (List.range (k - 3)).map fun j =>
    serLeg j (mid 0) * serLeg (k - 4 - j) (mid 1) * d 0 false * d 0 true * d 1 false * d 1 true

end two

section three
variable (d : Fin 3 → Bool → MvPolynomial (Fin 3) ℝ) (mid : Fin 3 → MvPolynomial (Fin 3) ℝ)

/-- `v_lambda_0` for `dim == 3`, serendipity.py:203-204. -/
noncomputable def vLambda3 : List (MvPolynomial (Fin 3) ℝ) :=
  [d 0 false, d 0 true].flatMap fun a => [d 1 false, d 1 true].flatMap fun b =>
    [d 2 false, d 2 true].map fun c => a * b * c

/-- `e_lambda_0` for `dim == 3`, serendipity.py:214-217. -/
noncomputable def eLambda3 (i : ℕ) : List (MvPolynomial (Fin 3) ℝ) :=
  ([d 0 false, d 0 true].flatMap fun b => [d 1 false, d 1 true].flatMap fun a =>
    (List.range (i - 1)).map fun j => -serLeg j (mid 2) * d 2 false * d 2 true * a * b) ++
  ([d 0 false, d 0 true].flatMap fun a => [d 2 false, d 2 true].flatMap fun c =>
    (List.range (i - 1)).map fun j => -serLeg j (mid 1) * d 1 false * d 1 true * a * c) ++
  ([d 1 false, d 1 true].flatMap fun c => [d 2 false, d 2 true].flatMap fun b =>
    (List.range (i - 1)).map fun j => -serLeg j (mid 0) * d 0 false * d 0 true * b * c)

/-- `f_lambda_0` for `dim == 3`, serendipity.py:227-233. -/
noncomputable def fLambda3 (i : ℕ) : List (MvPolynomial (Fin 3) ℝ) :=
  ([d 0 false, d 0 true].flatMap fun a =>
    (List.range' 4 (i - 3)).flatMap fun k => (List.range (k - 3)).map fun j =>
      serLeg j (mid 1) * serLeg (k - 4 - j) (mid 2) * d 1 false * d 1 true * d 2 false * d 2 true * a) ++
  ([d 1 false, d 1 true].flatMap fun b =>
    (List.range' 4 (i - 3)).flatMap fun k => (List.range (k - 3)).map fun j =>
      serLeg j (mid 2) * serLeg (k - 4 - j) (mid 0) * d 0 false * d 0 true * d 2 false * d 2 true * b) ++
  ([d 2 false, d 2 true].flatMap fun c =>
    (List.range' 4 (i - 3)).flatMap fun k => (List.range (k - 3)).map fun j =>
      serLeg j (mid 0) * serLeg (k - 4 - j) (mid 1) * d 0 false * d 0 true * d 1 false * d 1 true * c)

/-- `i_lambda_0`, serendipity.py:238-244. -/
noncomputable def iLambda3 (i : ℕ) : List (MvPolynomial (Fin 3) ℝ) :=
  (List.range' 6 (i - 5)).flatMap fun l => (List.range (l - 5)).flatMap fun j => (List.range (j + 1)).map fun k =>
    -serLeg (l - 6 - j) (mid 0) * serLeg (j - k) (mid 1) * serLeg k (mid 2) *
      d 0 false * d 0 true * d 1 false * d 1 true * d 2 false * d 2 true

end three

section ids

/-- `sorted(flat_topology[dim])` with the dimension attached (`[]` if the dimension is absent). -/
def serEntities (topo : Topology Key) (dim : ℕ) : List (Key × ℕ) :=
  (pySorted (Dict.keys ((Dict.get? topo (.int dim)).getD []))).map fun j => (.int dim, j)

/-- `entity_ids` and `cur` for `dim == 2`, serendipity.py:69-91.  The degree is at least one: for degree 0 `cur`
decreases (`cur + degree - 1`) and the assertion in line 101 fails. -/
def serIds2 (topo : Topology Key) (degree : ℕ) : ℕ × EntityIds Key :=
  let st := blockLoop (fun _ => 1) (serEntities topo 0) (0, blankIds topo)
  let st := blockLoop (fun _ => degree - 1) (serEntities topo 1) st
  blockLoop (fun _ => serTr degree) (serEntities topo 2) st

/-- The same for `dim == 3`, serendipity.py:69-98; `nIL` is `len(IL)`. -/
def serIds3 (topo : Topology Key) (degree nIL : ℕ) : ℕ × EntityIds Key :=
  let st := serIds2 topo degree
  (st.1 + nIL, setIds (Dict.put st.2 (.int 3) []) (.int 3) 0 (List.range' st.1 nIL))

/-- The unflattened numbering, serendipity.py:109-122 (`none`: `KeyError`); `topology` is that of the product cell. -/
def serUnflatten (topology flat : Topology Key) (ids : EntityIds Key) : Option (EntityIds Key) :=
  let start : EntityIds Key := (sortedItems topology).foldl (fun (u : EntityIds Key) p => Dict.put u p.1 []) []
  (sortedItems flat).foldlM (fun u p => p.2.foldlM (fun (u : EntityIds Key) q => do
      let fd ← (match p.1 with | .int n => some n | _ => none : Option ℕ)
      let t ← Dict.get? (computeUnflatteningMap topology) (fd, q.1)
      let l ← ids.at? p.1 q.1
      some (setIds u t.1 t.2 l)) u) start

/-- The basis functions and the flattened numbering on the quadrilateral, serendipity.py:47-101; `none`: the
assertion in line 101. -/
noncomputable def serendipity2 (cell : CellData ℝ) (degree : ℕ) :
    Option (List (MvPolynomial (Fin 2) ℝ) × EntityIds Key) :=
  let d := serD (D := 2) cell.verts
  let mid := serMid (D := 2) cell.verts
  let sList := vLambda2 d ++ eLambda2 d mid degree ++ fLambda2 d mid degree
  let st := serIds2 cell.topo degree
  if degree ≠ 0 ∧ sList.length = st.1 then some (sList, st.2) else none

/-- The basis functions and the flattened numbering on the hexahedron, serendipity.py:47-101. -/
noncomputable def serendipity3 (cell : CellData ℝ) (degree : ℕ) :
    Option (List (MvPolynomial (Fin 3) ℝ) × EntityIds Key) :=
  let d := serD (D := 3) cell.verts
  let mid := serMid (D := 3) cell.verts
  let IL := iLambda3 d mid degree
  let sList := vLambda3 d ++ eLambda3 d mid degree ++ fLambda3 d mid degree ++ IL
  let st := serIds3 cell.topo degree IL.length
  if degree ≠ 0 ∧ sList.length = st.1 then some (sList, st.2) else none

end ids

section points

/-- `UFCInterval.get_entity_transform(d, i)`, reference_element.py:392-410: a vertex or the identity. -/
def intervalTransform (d : Key) (i : ℕ) (p : List ℝ) : List ℝ :=
  if d = .int 0 then ((ufcInterval : CellData ℝ).verts[i]?).getD [] else p

/-- The factors' dimensions of a product dimension. -/
def Key.toList : Key → List Key
  | .cons a b => a :: Key.toList b
  | _ => []

/-- `UFCQuadrilateral.get_entity_transform` / `UFCHexahedron.get_entity_transform`, reference_element.py:810-818,
:873-881: look up the product entity, then `TensorProductCell.get_entity_transform` (:720-741). -/
def cubeTransform (D : ℕ) (dim e : ℕ) (pt : List ℝ) : Option (List ℝ) := do
  let t ← Dict.get? (computeUnflatteningMap
    (tensorProductCell (List.replicate D (ufcInterval : CellData ℝ))).topo) (dim, e)
  let dims := Key.toList t.1
  some (tensorTransform (dims.map fun k => k.tupleSum)
    (dims.map fun k => ((Dict.get? (ufcInterval : CellData ℝ).topo k).getD []).length)
    (dims.map fun k i p => intervalTransform k i p) t.2 pt)

/-- The lattice `make_lattice(L.vertices, deg, 1)` on the interval, serendipity.py:264, :288, as lists. -/
noncomputable def serLinePts (deg : ℕ) : List (List ℝ) :=
  (makeLattice ℝ (fun _ => 0 : Fin 1 → ℝ) [fun _ => 1] deg 1).map fun x => [x 0]

/-- `tuple(vs[0] + dx0 * i + dx1 * j)` with `dx0 = (vs[1] - vs[0]) / m`, `dx1 = (vs[2] - vs[0]) / m`,
serendipity.py:270-273, :296-299. -/
noncomputable def serPlanePt (vs : List (List ℝ)) (m i j : ℕ) : List ℝ :=
  [vcoord vs 0 0 + (vcoord vs 1 0 - vcoord vs 0 0) / m * i + (vcoord vs 2 0 - vcoord vs 0 0) / m * j,
   vcoord vs 0 1 + (vcoord vs 1 1 - vcoord vs 0 1) / m * i + (vcoord vs 2 1 - vcoord vs 0 1) / m * j]

/-- `[... for i in range(1, deg-2) for j in range(1, deg-1-i)]`, serendipity.py:273-275, :299-301. -/
noncomputable def serPlanePts (vs : List (List ℝ)) (deg : ℕ) : List (List ℝ) :=
  (List.range' 1 (deg - 3)).flatMap fun i => (List.range' 1 (deg - 2 - i)).map fun j =>
    serPlanePt vs (deg - 2) i j

/-- `unisolvent_pts_quad(K, deg)`, serendipity.py:258-278. -/
noncomputable def unisolventQuad (cell : CellData ℝ) (deg : ℕ) : Option (List (List ℝ)) := do
  let edges ← (Dict.keys ((Dict.get? cell.topo (.int 1)).getD [])).mapM fun e =>
    (serLinePts deg).mapM fun pt => cubeTransform 2 1 e pt
  let pts := cell.verts ++ edges.flatten
  some (if 3 < deg then pts ++ serPlanePts cell.verts deg else pts)

/-- `unisolvent_pts_hex(K, deg)`, serendipity.py:281-316; `face` is `K.construct_subelement(2)`. -/
noncomputable def unisolventHex (cell face : CellData ℝ) (deg : ℕ) : Option (List (List ℝ)) := do
  let edges ← (Dict.keys ((Dict.get? cell.topo (.int 1)).getD [])).mapM fun e =>
    (serLinePts deg).mapM fun pt => cubeTransform 3 1 e pt
  let pts := cell.verts ++ edges.flatten
  let faces ← (Dict.keys ((Dict.get? cell.topo (.int 2)).getD [])).mapM fun f =>
    (serPlanePts face.verts deg).mapM fun pt => cubeTransform 3 2 f pt
  let pts := if 3 < deg then pts ++ faces.flatten else pts
  let ipts := (List.range' 1 (deg - 5)).flatMap fun (i : ℕ) => (List.range' 1 (deg - 4 - i)).flatMap fun (j : ℕ) =>
    (List.range' 1 (deg - 3 - i - j)).map fun (k : ℕ) =>
      ([vcoord cell.verts 0 0 + 1 / ((deg - 4 : ℕ) : ℝ) * i, vcoord cell.verts 0 1 + 1 / ((deg - 4 : ℕ) : ℝ) * j,
        vcoord cell.verts 0 2 + 1 / ((deg - 4 : ℕ) : ℝ) * k] : List ℝ)
  some (if 5 < deg then pts ++ ipts else pts)

/-- `compute_pointwise_dual(self, unisolvent_pts(ref_el, degree))`, serendipity.py:129, with the table of the basis
functions at the points (`tabulate(0, pts)`). -/
noncomputable def serDual {D : ℕ} (keep : ℝ → Bool) (basis : List (MvPolynomial (Fin D) ℝ)) (pts : List (List ℝ)) :
    Option (List (Functional ℝ (List ℝ))) :=
  open Classical in
  pointwiseDual keep basis.length [[]] pts fun j _ p =>
    eval (fun c : Fin D => ((pts[p]?).getD []).getD (c : ℕ) 0) ((basis[j]?).getD 0)

end points

/-- `Serendipity.degree()`, serendipity.py:131-132; the argument is the `degree` given to the constructor. -/
def serDegree (degree : ℕ) : ℕ := degree + 1

section tabulate
variable {D : ℕ}

/-- `diff(basis, (x, alpha[0]), (y, alpha[1]), ...)`, serendipity.py:166. -/
noncomputable def serDiff (alpha : List ℕ) (p : MvPolynomial (Fin D) ℝ) : MvPolynomial (Fin D) ℝ :=
  (List.finRange D).foldl (fun q (i : Fin D) => (fun r => pderiv i r)^[alpha.getD (i : ℕ) 0] q) p

/-- One pass of the loop body, serendipity.py:162-173: `basis` is the dictionary `self.basis` of symbolic derivatives
(`self.basis_callable` holds the same keys).  State: `(phivals, self.basis)`. -/
noncomputable def serTabStep (points : List (Fin D → ℝ))
    (st : Dict (List ℕ) (List (List ℝ)) × Dict (List ℕ) (List (MvPolynomial (Fin D) ℝ))) (alpha : List ℕ) :
    Option (Dict (List ℕ) (List (List ℝ)) × Dict (List ℕ) (List (MvPolynomial (Fin D) ℝ))) := do
  let new ← (match Dict.get? st.2 alpha with
    | some polys => some (polys, st.2)
    | none => (Dict.get? st.2 (List.replicate D 0)).map fun base =>
        (base.map (serDiff alpha), Dict.put st.2 alpha (base.map (serDiff alpha))))
  some (Dict.put st.1 alpha (new.1.map fun p => points.map fun x => eval x p), new.2)

/-- `tabulate(order, points)`, serendipity.py:152-174: the table and the new value of `self.basis`. -/
noncomputable def serTabulate (basis : Dict (List ℕ) (List (MvPolynomial (Fin D) ℝ))) (order : ℕ)
    (points : List (Fin D → ℝ)) :
    Option (Dict (List ℕ) (List (List ℝ)) × Dict (List ℕ) (List (MvPolynomial (Fin D) ℝ))) :=
  (jetKeys D order).foldlM (serTabStep points) ([], basis)

end tabulate
end FIAT
