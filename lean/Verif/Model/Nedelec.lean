/-
Model of FIAT/nedelec.py, FIAT/brezzi_douglas_marini.py and FIAT/nedelec_second_kind.py.

As in Model/VectorElements.lean: floating-point numbers are reals, `numpy.linalg.svd` is a parameter (at every size, because
elements are built from other elements), the Gauss nodes come from `gj`, integral variants are modelled on UFC cells.
-/
import Verif.Model.VectorElements

namespace FIAT

/-- `numpy.linalg.svd`: the singular values and the rows of `vt`. -/
abbrev SvdFun := ∀ D N : ℕ, List (Fin D → Fin N → ℝ) → List ℝ × List (Fin D → Fin N → ℝ)

section sets

/-- The coefficient row of one member of `PkHcrossx`, nedelec.py:46-58:
`sign * sum(Qwts * PkH_at_Qpts[i, :] * Qpts[:, ind] * Pkp1_at_Qpts[k, :])` with `(ind, sign) = rot_x_foo(j)`. -/
noncomputable def crossX2 {m : ℕ} (Q : QRule ℝ (Fin 2 → ℝ)) (vals : Fin m → Unit → ℕ → ℝ) (h : ℕ → ℝ) : Fin 2 → Fin m → ℝ :=
  fun j l =>
    let r : Fin 2 × ℝ := if j = 0 then (1, 1) else (0, -1)
    r.2 * ((Q.pts.zip Q.wts).zipIdx.map fun q => q.1.2 * h q.2 * q.1.1 r.1 * vals l () q.2).sum

/-- The coefficient row of one member of `PkCrossX`, nedelec.py:114-119: component `j` is the projection of
`Qpts[:, (j + 2) % 3] * Pke_qpts[i, (j + 1) % 3, :] - Qpts[:, (j + 1) % 3] * Pke_qpts[i, (j + 2) % 3, :]`. -/
noncomputable def crossX3 {m : ℕ} (Q : QRule ℝ (Fin 3 → ℝ)) (vals : Fin m → Unit → ℕ → ℝ) (h : Fin 3 → ℕ → ℝ) :
    Fin 3 → Fin m → ℝ :=
  fun j l => ((Q.pts.zip Q.wts).zipIdx.map fun q =>
    vals l () q.2 * ((q.1.1 (j + 2) * h (j + 1) q.2 - q.1.1 (j + 1) * h (j + 2) q.2) * q.1.2)).sum

/-- `NedelecSpace2D(ref_el, k)` before the last line, nedelec.py:15-74: the rows of the two sets. -/
noncomputable def nedRows2 (gj : ℕ → ℕ → List ℝ) (k : ℕ) (s : SimplexCell (Fin 2 → ℝ)) :
    Option (List (Fin 2 → Fin ((k + 1 + 2).choose 2) → ℝ) × List (Fin 2 → Fin ((k + 1 + 2).choose 2) → ℝ)) := do
  let Pkp1 ← onPolynomialSet s (k + 1)
  let dimPkp1 ← polyDim 2 ((k : ℤ) + 1)
  let dimPk ← polyDim 2 (k : ℤ)
  let dimPkm1 ← polyDim 2 ((k : ℤ) - 1)
  let vec_Pk ← takeRows (onVectorRows ((k + 1 + 2).choose 2) 2) (blockIndices 2 dimPkp1 0 dimPk)
  let Q ← simplexRule gj 2 s.verts (2 * k + 2)
  let Pkp1_at_Qpts ← Pkp1.values Q.pts
  let PkH_at_Qpts ← takeRows (List.ofFn fun i => Pkp1_at_Qpts i ()) (List.range' dimPkm1 (dimPk - dimPkm1))
  some (vec_Pk, PkH_at_Qpts.map (crossX2 Q Pkp1_at_Qpts))

/-- `NedelecSpace3D(ref_el, k)` before the last line, nedelec.py:80-137: the rows of the two sets. -/
noncomputable def nedRows3 (gj : ℕ → ℕ → List ℝ) (k : ℕ) (s : SimplexCell (Fin 3 → ℝ)) :
    Option (List (Fin 3 → Fin ((k + 1 + 3).choose 3) → ℝ) × List (Fin 3 → Fin ((k + 1 + 3).choose 3) → ℝ)) := do
  let Pkp1 ← onPolynomialSet s (k + 1)
  let dimPkp1 ← polyDim 3 ((k : ℤ) + 1)
  let dimPk ← polyDim 3 (k : ℤ)
  let dimPkm1 ← (if 0 < k then polyDim 3 ((k : ℤ) - 1) else some 0)
  let vec_Pk ← takeRows (onVectorRows ((k + 1 + 3).choose 3) 3) (blockIndices 3 dimPkp1 0 dimPk)
  let vec_Pke ← takeRows (onVectorRows ((k + 1 + 3).choose 3) 3) (blockIndices 3 dimPkp1 dimPkm1 dimPk)
  let Q ← simplexRule gj 3 s.verts (2 * (k + 1))
  let Pke_qpts ← (PolySet.ofRows 3 Pkp1.base Pkp1.dmats vec_Pke).values Q.pts
  let Pkp1_at_Qpts ← Pkp1.values Q.pts
  some (vec_Pk, (List.finRange vec_Pke.length).map fun i => crossX3 Q Pkp1_at_Qpts (Pke_qpts i))

/-- The rows for a cell of dimension 2 or 3; other dimensions raise (nedelec.py:387-394). -/
noncomputable def nedRows (gj : ℕ → ℕ → List ℝ) (k : ℕ) : (D : ℕ) → SimplexCell (Fin D → ℝ) →
    Option (List (Fin D → Fin ((k + 1 + D).choose D) → ℝ) × List (Fin D → Fin ((k + 1 + D).choose D) → ℝ))
  | 2, s => nedRows2 gj k s
  | 3, s => nedRows3 gj k s
  | _, _ => none

/-- `NedelecSpace2D(ref_el, k)`, `NedelecSpace3D(ref_el, k)`, nedelec.py:15-77, :80-138. -/
noncomputable def nedSpace {D : ℕ} (gj : ℕ → ℕ → List ℝ) (k : ℕ)
    (svd : List (Fin D → Fin ((k + 1 + D).choose D) → ℝ) → List ℝ × List (Fin D → Fin ((k + 1 + D).choose D) → ℝ))
    (s : SimplexCell (Fin D → ℝ)) :
    Option (Σ m, PolySet ℝ (Fin D → ℝ) ((k + 1 + D).choose D) m (Fin D)) := do
  let AB ← nedRows gj k D s
  let Pkp1 ← onPolynomialSet s (k + 1)
  some ⟨_, PolySet.ofRows D Pkp1.base Pkp1.dmats (unionRows svd AB.1 AB.2)⟩

end sets

section duals
variable {D : ℕ}

/-- The edge nodes of the point variants: `PointEdgeTangentEvaluation` at `make_points(1, i, degree + 2)`, nedelec.py:185-191,
:288-294, nedelec_second_kind.py:110-117. -/
noncomputable def edgePointNodes (s : SimplexCell (Fin D → ℝ)) (degree i : ℕ) : Option (List (Functional ℝ (Fin D → ℝ))) :=
  (makePoints ℝ s 1 i (degree + 2)).bind fun pts => (edgeTangent s i).map fun t =>
    pts.map fun pt => pointDirectionEvaluation D (vecNat t) pt

/-- The edge nodes of the integral variants: `IntegralMomentOfEdgeTangentEvaluation`, nedelec.py:155-163, :245-253,
nedelec_second_kind.py:97-106. -/
noncomputable def edgeMomentNodes (s : SimplexCell (Fin D → ℝ)) (Q : QRule ℝ (Fin 1 → ℝ)) {m : ℕ} (phis : Fin m → Unit → ℕ → ℝ)
    (e : ℕ) : Option (List (Functional ℝ (Fin D → ℝ))) :=
  (mapToEntity s 1 e Q.pts).bind fun pts => (edgeTangent s e).map fun t =>
    (List.finRange m).map fun i => integralMomentOfDirection D (vecNat t) (zipRule pts Q.wts (phis i ()))

/-- The blocks of edge nodes for all edges. -/
noncomputable def edgeBlocks (gj : ℕ → ℕ → List ℝ) (s : SimplexCell (Fin D → ℝ)) (degree : ℕ) :
    DualVariant → Option (List (List (Functional ℝ (Fin D → ℝ))))
  | .point => (numEnts s 1).bind fun n => (List.range n).mapM fun i => edgePointNodes s degree i
  | .integral quad_deg => do
    let edge ← ufcSimplexCell 1
    let Q ← simplexRule gj 1 edge.verts quad_deg
    let Pq ← onPolynomialSet edge degree
    let Pq_at_qpts ← Pq.values Q.pts
    let n ← numEnts s 1
    (List.range n).mapM fun e => edgeMomentNodes s Q Pq_at_qpts e

/-- Interior moments against the components of `P_degree` with the rule of degree `m`, nedelec.py:166-177, :194-205, :272-283,
:307-318. -/
noncomputable def cellMoments (gj : ℕ → ℕ → List ℝ) (s : SimplexCell (Fin D → ℝ)) (degree m : ℕ) :
    Option (List (Functional ℝ (Fin D → ℝ))) :=
  (simplexRule gj D s.verts m).bind fun Q => (onPolynomialSet s degree).bind fun P =>
    (P.values Q.pts).map fun P_at_qpts => componentMoments Q P_at_qpts

/-- The degree of the interior rule, nedelec.py:167 and :195, :273 and :308. -/
def interiorDeg (degree : ℕ) : DualVariant → ℕ
  | .point => 2 * (degree + 1)
  | .integral quad_deg => quad_deg

/-- `NedelecDual2D(ref_el, degree, variant, quad_deg)`, nedelec.py:141-228. -/
noncomputable def nedDual2 (gj : ℕ → ℕ → List ℝ) (s : SimplexCell (Fin 2 → ℝ)) (degree : ℕ) (variant : DualVariant) :
    Option (List (Functional ℝ (Fin 2 → ℝ)) × EntityIds ℕ) := do
  let edges ← edgeBlocks gj s degree variant
  let cell ← (if 0 < degree then cellMoments gj s (degree - 1) (interiorDeg degree variant) else some [])
  let ids ← emptyLoop s (List.range 3) []
  let pts ← makePoints ℝ s 1 0 (degree + 2)
  let st ← sameLoop s 1 pts.length (0, ids)
  let ids ← (if 0 < degree then (polyDim 2 ((degree : ℤ) - 1)).map fun n => setIds st.2 2 0 (List.range' st.1 (2 * n)) else some st.2)
  some (edges.flatten ++ cell, ids)

/-- Face nodes of the point variant, nedelec.py:296-303: `PointFaceTangentEvaluation(ref_el, i, k, pt)`, `k = 0, 1`. -/
noncomputable def facePointNodes (s : SimplexCell (Fin D → ℝ)) (degree i : ℕ) : Option (List (Functional ℝ (Fin D → ℝ))) :=
  (makePoints ℝ s 2 i (degree + 2)).bind fun pts => (faceTangents s i).map fun t =>
    pts.flatMap fun pt => [pointDirectionEvaluation D (vecNat t.1) pt, pointDirectionEvaluation D (vecNat t.2) pt]

/-- Face nodes of the integral variant, nedelec.py:256-268: `MonkIntegralMoment(ref_el, Q, phi, f)` with
`phi = matmul(Pq_at_qpts[i, :-1, :].T, R)`, for the first two thirds of the members; `Pq_at_qpts` are the values of the
vector-valued set on the facet. -/
noncomputable def faceMonkNodes (s : SimplexCell (Fin D → ℝ)) (Q : QRule ℝ (Fin 2 → ℝ)) {m : ℕ} (phis : Fin m → Fin 3 → ℕ → ℝ)
    (f : ℕ) : Option (List (Functional ℝ (Fin D → ℝ))) :=
  (mapToEntity s 2 f Q.pts).bind fun pts => (faceTangents s f).map fun R =>
    ((List.finRange m).take (2 * m / 3)).map fun i =>
      monkIntegralMoment D ((pts.zip Q.wts).zipIdx.map fun q =>
        (q.1.1, q.1.2, fun (l : ℕ) => phis i 0 q.2 * vecNat R.1 l + phis i 1 q.2 * vecNat R.2 l))

/-- The blocks of face nodes of `NedelecDual3D`, `degree > 0`. -/
noncomputable def faceBlocks (gj : ℕ → ℕ → List ℝ) (s : SimplexCell (Fin D → ℝ)) (degree : ℕ) :
    DualVariant → Option (List (List (Functional ℝ (Fin D → ℝ))))
  | .point => (numEnts s 2).bind fun n => (List.range n).mapM fun i => facePointNodes s degree i
  | .integral quad_deg => do
    let facet ← ufcSimplexCell 2
    let Q ← simplexRule gj 2 facet.verts quad_deg
    let Pq ← onPolynomialSet facet (degree - 1)
    let Pq_at_qpts ← (PolySet.ofRows (D := 3) 2 Pq.base Pq.dmats (onVectorRows ((degree - 1 + 2).choose 2) 3)).values Q.pts
    let n ← numEnts s 2
    (List.range n).mapM fun f => faceMonkNodes s Q Pq_at_qpts f

/-- `NedelecDual3D(ref_el, degree, variant, quad_deg)`, nedelec.py:231-350. -/
noncomputable def nedDual3 (gj : ℕ → ℕ → List ℝ) (s : SimplexCell (Fin 3 → ℝ)) (degree : ℕ) (variant : DualVariant) :
    Option (List (Functional ℝ (Fin 3 → ℝ)) × EntityIds ℕ) := do
  let edges ← edgeBlocks gj s degree variant
  let faces ← (if 0 < degree then faceBlocks gj s degree variant else some [])
  let cell ← (if 1 < degree then cellMoments gj s (degree - 2) (interiorDeg degree variant) else some [])
  let ids ← emptyLoop s (List.range 4) []
  let pts ← makePoints ℝ s 1 0 (degree + 2)
  let st ← sameLoop s 1 pts.length (0, ids)
  let st ← (if 0 < degree then (makePoints ℝ s 2 0 (degree + 2)).bind fun fpts => sameLoop s 2 (2 * fpts.length) st else some st)
  let ids ← (if 1 < degree then (polyDim 3 ((degree : ℤ) - 2)).map fun n => setIds st.2 3 0 (List.range' st.1 (n * 3)) else some st.2)
  some (edges.flatten ++ faces.flatten ++ cell, ids)

/-- The dual for a cell of dimension 2 or 3, nedelec.py:387-394. -/
noncomputable def nedDual (gj : ℕ → ℕ → List ℝ) (degree : ℕ) (variant : DualVariant) : (D : ℕ) → SimplexCell (Fin D → ℝ) →
    Option (List (Functional ℝ (Fin D → ℝ)) × EntityIds ℕ)
  | 2, s => nedDual2 gj s degree variant
  | 3, s => nedDual3 gj s degree variant
  | _, _ => none

/-- `Nedelec(ref_el, k, variant)` for `k = degree + 1 ≥ 1`, nedelec.py:381-398: the element's polynomial set, its nodes and
`entity_ids`. -/
noncomputable def nedelec (gj : ℕ → ℕ → List ℝ) (degree : ℕ) (svd : SvdFun) (T : DigitTable) (s : SimplexCell (Fin D → ℝ))
    (variant : Option (List Char)) :
    Option ((Σ m, PolySet ℝ (Fin D → ℝ) ((degree + 1 + D).choose D) m (Fin D)) ×
      List (Functional ℝ (Fin D → ℝ)) × EntityIds ℕ) := do
  let v ← dualVariant T variant degree
  let S ← nedSpace gj degree (svd D _) s
  let dual ← nedDual gj degree v D s
  let el ← ciarletElement (onExpTab ((degree + 1 + D).choose D) D S.2.base S.2.dmats) (fun c : Fin D => [(c : ℕ)]) S.2 dual.1
  some (⟨S.1, el⟩, dual)

end duals
end FIAT
