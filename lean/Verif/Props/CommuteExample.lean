/-
C74: concrete cells, degrees, variants and fields that meet the hypotheses of the commuting diagrams.
-/
import Verif.Props.CommuteGrad
import Verif.Props.TetSvdExample
import Verif.Props.SecondKindExample

namespace FIAT
open MvPolynomial
section

private theorem tet_pos : 0 < orientation fun i : Fin (3 + 1) => ((ufcTetrahedron : CellData ℝ).toSimplex 3).v i := by
  rw [tet_verts, tet_orientation]; exact one_pos

private theorem tri_pos : 0 < orientation fun i : Fin (2 + 1) => ((ufcTriangle : CellData ℝ).toSimplex 2).v i := by
  norm_num [orientation, Matrix.det_fin_two, SimplexCell.v, CellData.toSimplex, ufcTriangle]

private theorem tet_nrm : FacetNormals ((ufcTetrahedron : CellData ℝ).toSimplex 3) exTetNormal :=
  ufc_tetrahedron_normals _ (proper_ufcTetrahedron (K := ℝ)) _

private theorem tri_nrm : FacetNormals ((ufcTriangle : CellData ℝ).toSimplex 2) exTriNormal :=
  ufc_triangle_normals _ (proper_ufcTriangle (K := ℝ)) _

/-- The values of the nodes exist for every field. -/
theorem nodeValues_exists {D m : ℕ} {nodes : List (Functional ℝ (Fin D → ℝ))} (w : Fin D → MvPolynomial (Fin D) ℝ) :
    ∃ c : Fin m → ℝ, NodeValues nodes w c :=
  ⟨fun i => ((nodes[(i : ℕ)]?).map fun l => l.onField (fieldOf w)).getD 0, fun i l h => by simp [h]⟩

/-- The divergence of the interpolant of `(x³, x³)` by the integral variant of `RaviartThomas(UFCTriangle(), 1)` is the mean of `3x²`. -/
example (DT : DigitTable) : ∃ gj m el nodes ids, ∃ c : Fin m → ℝ, NodesOK gj ∧
    raviartThomas gj 0 someSvd DT ((ufcTriangle : CellData ℝ).toSimplex 2) exTriNormal (some strIntegral) = some (⟨m, el⟩, nodes, ids) ∧
    NodeValues nodes (fun _ => X 0 ^ 3) c ∧
    L2Projection (fun i : Fin (2 + 1) => ((ufcTriangle : CellData ℝ).toSimplex 2).v i) 0 (fun x => ∑ j : Fin 2, feValue el c (unitAlpha 2 j) j x)
      fun x => ∑ j : Fin 2, eval x (pderiv j ((X 0 : MvPolynomial (Fin 2) ℝ) ^ 3)) := by
  obtain ⟨gj, hgj⟩ := nodesOK_exists
  obtain ⟨m, el, nodes, ids, h1, h2⟩ := rt_interpolation_commutes (Or.inl rfl) _ (proper_ufcTriangle (K := ℝ)) numbered_ufcTriangle tri_pos hgj tri_nrm
    0 someSvd (fun A B h => rt_svd_example hgj A B h) DT (some strIntegral) 5 (by unfold dualVariant; rw [variant_integral])
  obtain ⟨c, hc⟩ := nodeValues_exists (m := m) (nodes := nodes) (fun _ : Fin 2 => (X 0 : MvPolynomial (Fin 2) ℝ) ^ 3)
  exact ⟨gj, m, el, nodes, ids, c, hgj, h1, hc, h2 _ (fun j => by rw [totalDegree_X_pow]; norm_num) c hc⟩

/-- The integral variant of `BrezziDouglasMarini(UFCTetrahedron(), 1)`, on a cubic field. -/
example (DT : DigitTable) : ∃ gj m el nodes ids, ∃ c : Fin m → ℝ, NodesOK gj ∧
    bdm gj 1 someSvdFun DT ((ufcTetrahedron : CellData ℝ).toSimplex 3) exTetNormal (some strIntegral) = some (⟨m, el⟩, nodes, ids) ∧
    NodeValues nodes (fun _ => X 0 ^ 3) c ∧
    L2Projection (fun i : Fin (3 + 1) => ((ufcTetrahedron : CellData ℝ).toSimplex 3).v i) 0 (fun x => ∑ j : Fin 3, feValue el c (unitAlpha 3 j) j x)
      fun x => ∑ j : Fin 3, eval x (pderiv j ((X 0 : MvPolynomial (Fin 3) ℝ) ^ 3)) := by
  obtain ⟨gj, hgj⟩ := nodesOK_exists
  obtain ⟨m, el, nodes, ids, h1, h2⟩ := bdm_interpolation_commutes (Or.inr rfl) _ (proper_ufcTetrahedron (K := ℝ)) numbered_ufcTetrahedron tet_pos hgj tet_nrm
    1 le_rfl someSvdFun (fun h => absurd h (by omega)) DT (some strIntegral) 10 (by unfold dualVariant; rw [variant_integral])
  obtain ⟨c, hc⟩ := nodeValues_exists (m := m) (nodes := nodes) (fun _ : Fin 3 => (X 0 : MvPolynomial (Fin 3) ℝ) ^ 3)
  exact ⟨gj, m, el, nodes, ids, c, hgj, h1, hc, h2 _ (fun j => by rw [totalDegree_X_pow]; norm_num) c hc⟩

/-- The integral variant of `Nedelec(UFCTriangle(), 1)`, on a cubic field. -/
example (DT : DigitTable) : ∃ gj m el nodes ids, ∃ c : Fin m → ℝ, NodesOK gj ∧
    nedelec gj 0 someSvdFun DT ((ufcTriangle : CellData ℝ).toSimplex 2) (some strIntegral) = some (⟨m, el⟩, nodes, ids) ∧
    NodeValues nodes (fun _ => X 0 ^ 3) c ∧
    L2Projection (fun i : Fin (2 + 1) => ((ufcTriangle : CellData ℝ).toSimplex 2).v i) 0 (fun x => feValue el c [1, 0] 1 x - feValue el c [0, 1] 0 x)
      fun x => eval x (pderiv (0 : Fin 2) ((X 0 : MvPolynomial (Fin 2) ℝ) ^ 3)) - eval x (pderiv (1 : Fin 2) ((X 0 : MvPolynomial (Fin 2) ℝ) ^ 3)) := by
  obtain ⟨gj, hgj⟩ := nodesOK_exists
  obtain ⟨m, el, nodes, ids, h1, h2⟩ := nedelec_triangle_commutes _ (proper_ufcTriangle (K := ℝ)) numbered_ufcTriangle tri_pos hgj
    0 someSvdFun (fun A B h => ned_svd_example hgj A B h) DT (some strIntegral) 5 (by unfold dualVariant; rw [variant_integral])
  obtain ⟨c, hc⟩ := nodeValues_exists (m := m) (nodes := nodes) (fun _ : Fin 2 => (X 0 : MvPolynomial (Fin 2) ℝ) ^ 3)
  have h3 := h2 (fun _ => X 0 ^ 3) (fun j => by rw [totalDegree_X_pow]; norm_num) c hc
  refine ⟨gj, m, el, nodes, ids, c, hgj, h1, hc, ?_⟩
  exact h3

/-- The integral variants of `Nedelec` and `RaviartThomas` of lowest order on the UFC tetrahedron, on a cubic field. -/
example (DT : DigitTable) : ∃ gj m el nodes ids m' el' nodes' ids', ∃ (c : Fin m → ℝ) (c' : Fin m' → ℝ), NodesOK gj ∧
    nedelec gj 0 someSvdFun DT ((ufcTetrahedron : CellData ℝ).toSimplex 3) (some strIntegral) = some (⟨m, el⟩, nodes, ids) ∧
    raviartThomas gj 0 someSvd DT ((ufcTetrahedron : CellData ℝ).toSimplex 3) exTetNormal (some strIntegral) = some (⟨m', el'⟩, nodes', ids') ∧
    NodeValues nodes (fun _ => X 0 ^ 3) c ∧ NodeValues nodes' (curlP fun _ => X 0 ^ 3) c' ∧
    ∀ x, feValue el c [0, 0, 1] 0 x - feValue el c [1, 0, 0] 2 x = feValue el' c' (noDeriv 3) 1 x := by
  obtain ⟨gj, hgj⟩ := nodesOK_exists
  obtain ⟨m, el, nodes, ids, m', el', nodes', ids', h1, h1', h2⟩ := nedelec_tetrahedron_commutes _ (proper_ufcTetrahedron (K := ℝ)) numbered_ufcTetrahedron
    tet_pos hgj tet_nrm 0 someSvdFun (fun A B h => ned_svd_tet hgj A B h) someSvd (fun A B h => rt_svd_tet hgj A B h) DT (some strIntegral)
    (some strIntegral) 5 5 (by unfold dualVariant; rw [variant_integral]) (by unfold dualVariant; rw [variant_integral])
  obtain ⟨c, hc⟩ := nodeValues_exists (m := m) (nodes := nodes) (fun _ : Fin 3 => (X 0 : MvPolynomial (Fin 3) ℝ) ^ 3)
  obtain ⟨c', hc'⟩ := nodeValues_exists (m := m') (nodes := nodes') (curlP fun _ : Fin 3 => (X 0 : MvPolynomial (Fin 3) ℝ) ^ 3)
  exact ⟨gj, m, el, nodes, ids, m', el', nodes', ids', c, c', hgj, h1, h1', hc, hc', fun x =>
    (h2 _ (fun j => by rw [totalDegree_X_pow]; norm_num) (fun j => by rw [totalDegree_X_pow]; norm_num) c c' hc hc' x).2.1⟩

/-- Linear Lagrange and lowest order Nedelec on the UFC triangle, on a cubic. -/
example (DT : DigitTable) : ∃ gj L idsL pts m el nodes ids, ∃ (a : Fin ((1 + 2).choose 2) → ℝ) (c : Fin m → ℝ), NodesOK gj ∧
    lagrangeElement ((ufcTriangle : CellData ℝ).toSimplex 2) 1 = some (L, idsL) ∧
    lagrangeDual ℝ ((ufcTriangle : CellData ℝ).toSimplex 2) 1 = some (pts, idsL) ∧
    nedelec gj 0 someSvdFun DT ((ufcTriangle : CellData ℝ).toSimplex 2) (some strIntegral) = some (⟨m, el⟩, nodes, ids) ∧
    (∀ (i : Fin ((1 + 2).choose 2)) x, pts[(i : ℕ)]? = some x → a i = eval x ((X 0 : MvPolynomial (Fin 2) ℝ) ^ 3)) ∧
    NodeValues nodes (fun j => pderiv j (X 0 ^ 3)) c ∧ ∀ x (j : Fin 2), feValue L a (unitAlpha 2 j) () x = feValue el c (noDeriv 2) j x := by
  obtain ⟨gj, hgj⟩ := nodesOK_exists
  obtain ⟨L, idsL, pts, m, el, nodes, ids, l1, l2, h1, h2⟩ := lagrange_nedelec_commutes (Or.inl rfl) _ (proper_ufcTriangle (K := ℝ)) numbered_ufcTriangle tri_pos hgj
    someSvdFun (fun A B h => ned_svd_example hgj A B h) DT (some strIntegral) 5 (by unfold dualVariant; rw [variant_integral])
  obtain ⟨c, hc⟩ := nodeValues_exists (m := m) (nodes := nodes) (fun j : Fin 2 => pderiv j ((X 0 : MvPolynomial (Fin 2) ℝ) ^ 3))
  have ha : ∃ a : Fin ((1 + 2).choose 2) → ℝ, ∀ (i : Fin ((1 + 2).choose 2)) x, pts[(i : ℕ)]? = some x → a i = eval x ((X 0 : MvPolynomial (Fin 2) ℝ) ^ 3) :=
    ⟨fun i => ((pts[(i : ℕ)]?).map fun x => eval x ((X 0 : MvPolynomial (Fin 2) ℝ) ^ 3)).getD 0, fun i x h => by simp [h]⟩
  obtain ⟨a, ha⟩ := ha
  exact ⟨gj, L, idsL, pts, m, el, nodes, ids, a, c, hgj, l1, l2, h1, ha, hc, h2 _ (by rw [totalDegree_X_pow]; norm_num) a c ha hc⟩

end
end FIAT
