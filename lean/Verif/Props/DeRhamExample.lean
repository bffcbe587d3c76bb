/-
C72: concrete cells, degrees and decompositions that meet the hypotheses of the de Rham theorems.
-/
import Verif.Props.DeRham
import Verif.Props.TetSvdExample
import Verif.Props.SecondKindExample

namespace FIAT
section

private theorem tet_pos : 0 < orientation fun i : Fin (3 + 1) => ((ufcTetrahedron : CellData ℝ).toSimplex 3).v i := by
  rw [tet_verts, tet_orientation]; exact one_pos

private theorem tri_pos : 0 < orientation fun i : Fin (2 + 1) => ((ufcTriangle : CellData ℝ).toSimplex 2).v i := by
  norm_num [orientation, Matrix.det_fin_two, SimplexCell.v, CellData.toSimplex, ufcTriangle]

private theorem tet_nrm : FacetNormals ((ufcTetrahedron : CellData ℝ).toSimplex 3) exTetNormal :=
  ufc_tetrahedron_normals _ (proper_ufcTetrahedron (K := ℝ)) _

private theorem tri_nrm : FacetNormals ((ufcTriangle : CellData ℝ).toSimplex 2) exTriNormal :=
  ufc_triangle_normals _ (proper_ufcTriangle (K := ℝ)) _

/-- `Lagrange(1) → Nedelec(1) → RaviartThomas(1) → DiscontinuousLagrange(0)` on the UFC tetrahedron. -/
example (DT : DigitTable) : ∃ gj L idsL mN N nodesN idsN mR R nodesR idsR Q nodesQ idsQ, NodesOK gj ∧
    lagrangeElement ((ufcTetrahedron : CellData ℝ).toSimplex 3) 1 = some (L, idsL) ∧
    nedelec gj 0 someSvdFun DT ((ufcTetrahedron : CellData ℝ).toSimplex 3) none = some (⟨mN, N⟩, nodesN, idsN) ∧
    raviartThomas gj 0 someSvd DT ((ufcTetrahedron : CellData ℝ).toSimplex 3) exTetNormal none = some (⟨mR, R⟩, nodesR, idsR) ∧
    discontinuousLagrange ((ufcTetrahedron : CellData ℝ).toSimplex 3) 0 = some (Q, nodesQ, idsQ) ∧ DeRham3 L N R Q := by
  obtain ⟨gj, hgj⟩ := nodesOK_exists
  obtain ⟨L, idsL, mN, N, nodesN, idsN, mR, R, nodesR, idsR, Q, nodesQ, idsQ, h⟩ := de_rham_tetrahedron _ (proper_ufcTetrahedron (K := ℝ))
    numbered_ufcTetrahedron tet_pos hgj tet_nrm 0 someSvdFun (fun A B h => ned_svd_tet hgj A B h) someSvd (fun A B h => rt_svd_tet hgj A B h)
    DT none none .point .point rfl rfl
  exact ⟨gj, L, idsL, mN, N, nodesN, idsN, mR, R, nodesR, idsR, Q, nodesQ, idsQ, hgj, h⟩

/-- The second kind elements on the UFC tetrahedron, `k = 0`. -/
example (DT : DigitTable) : ∃ gj L idsL mN N nodesN idsN mR R nodesR idsR Q nodesQ idsQ, NodesOK gj ∧
    lagrangeElement ((ufcTetrahedron : CellData ℝ).toSimplex 3) 3 = some (L, idsL) ∧
    nedelec2 gj 2 someSvdFun DT ((ufcTetrahedron : CellData ℝ).toSimplex 3) true exTetNormal exTriNormal none = some (⟨mN, N⟩, nodesN, idsN) ∧
    bdm gj 1 someSvdFun DT ((ufcTetrahedron : CellData ℝ).toSimplex 3) exTetNormal none = some (⟨mR, R⟩, nodesR, idsR) ∧
    discontinuousLagrange ((ufcTetrahedron : CellData ℝ).toSimplex 3) 0 = some (Q, nodesQ, idsQ) ∧ DeRham3 L N R Q := by
  obtain ⟨gj, hgj⟩ := nodesOK_exists
  obtain ⟨L, idsL, mN, N, nodesN, idsN, mR, R, nodesR, idsR, Q, nodesQ, idsQ, h⟩ := de_rham_tetrahedron_second_kind hgj tet_nrm tri_nrm 0
    someSvdFun someSvdFun (fun A B h => rt_svd_example hgj A B h) (fun h => absurd h (by omega)) (fun h => absurd h (by omega))
    DT none none .point .point rfl rfl
  exact ⟨gj, L, idsL, mN, N, nodesN, idsN, mR, R, nodesR, idsR, Q, nodesQ, idsQ, hgj, h⟩

/-- `Lagrange(1) → Nedelec(1) → DiscontinuousLagrange(0)` and `Lagrange(1) → RaviartThomas(1) → DiscontinuousLagrange(0)` on the UFC triangle. -/
example (DT : DigitTable) : ∃ gj L idsL mN N nodesN idsN mR R nodesR idsR Q nodesQ idsQ, NodesOK gj ∧
    lagrangeElement ((ufcTriangle : CellData ℝ).toSimplex 2) 1 = some (L, idsL) ∧
    nedelec gj 0 someSvdFun DT ((ufcTriangle : CellData ℝ).toSimplex 2) none = some (⟨mN, N⟩, nodesN, idsN) ∧
    raviartThomas gj 0 someSvd DT ((ufcTriangle : CellData ℝ).toSimplex 2) exTriNormal none = some (⟨mR, R⟩, nodesR, idsR) ∧
    discontinuousLagrange ((ufcTriangle : CellData ℝ).toSimplex 2) 0 = some (Q, nodesQ, idsQ) ∧ DeRhamCurl2 L N Q ∧ DeRhamDiv2 L R Q := by
  obtain ⟨gj, hgj⟩ := nodesOK_exists
  obtain ⟨L, idsL, mN, N, nodesN, idsN, Q, nodesQ, idsQ, l1, n1, q1, h⟩ := de_rham_triangle_curl _ (proper_ufcTriangle (K := ℝ))
    numbered_ufcTriangle tri_pos hgj 0 someSvdFun (fun A B h => ned_svd_example hgj A B h) DT none .point rfl
  obtain ⟨L', idsL', mR, R, nodesR, idsR, Q', nodesQ', idsQ', l1', r1, q1', h'⟩ := de_rham_triangle_div _ (proper_ufcTriangle (K := ℝ))
    numbered_ufcTriangle tri_pos hgj tri_nrm 0 someSvd (fun A B h => rt_svd_example hgj A B h) DT none .point rfl
  rw [l1, Option.some.injEq, Prod.mk.injEq] at l1'
  rw [q1, Option.some.injEq, Prod.mk.injEq] at q1'
  rw [← l1'.1, ← q1'.1] at h'
  exact ⟨gj, L, idsL, mN, N, nodesN, idsN, mR, R, nodesR, idsR, Q, nodesQ, idsQ, hgj, l1, n1, r1, q1, h, h'⟩

/-- `Lagrange(3) → NedelecSecondKind(2) → DiscontinuousLagrange(1)` on the UFC triangle. -/
example (DT : DigitTable) : ∃ gj L idsL mN N nodesN idsN Q nodesQ idsQ, NodesOK gj ∧
    lagrangeElement ((ufcTriangle : CellData ℝ).toSimplex 2) 3 = some (L, idsL) ∧
    nedelec2 gj 2 someSvdFun DT ((ufcTriangle : CellData ℝ).toSimplex 2) true exTriNormal (fun _ => none) none = some (⟨mN, N⟩, nodesN, idsN) ∧
    discontinuousLagrange ((ufcTriangle : CellData ℝ).toSimplex 2) 1 = some (Q, nodesQ, idsQ) ∧ DeRhamCurl2 L N Q := by
  obtain ⟨gj, hgj⟩ := nodesOK_exists
  obtain ⟨L, idsL, mN, N, nodesN, idsN, Q, nodesQ, idsQ, h⟩ := de_rham_triangle_curl_second_kind _ (proper_ufcTriangle (K := ℝ))
    numbered_ufcTriangle tri_pos hgj tri_nrm (fun _ => none) true 1 someSvdFun (fun _ A B h => rt_svd_example hgj A B h) DT none .point rfl
  exact ⟨gj, L, idsL, mN, N, nodesN, idsN, Q, nodesQ, idsQ, hgj, h⟩

/-- `Lagrange(3) → BrezziDouglasMarini(2) → DiscontinuousLagrange(1)` on the UFC triangle. -/
example (DT : DigitTable) : ∃ gj L idsL mR R nodesR idsR Q nodesQ idsQ, NodesOK gj ∧
    lagrangeElement ((ufcTriangle : CellData ℝ).toSimplex 2) 3 = some (L, idsL) ∧
    bdm gj 2 someSvdFun DT ((ufcTriangle : CellData ℝ).toSimplex 2) exTriNormal none = some (⟨mR, R⟩, nodesR, idsR) ∧
    discontinuousLagrange ((ufcTriangle : CellData ℝ).toSimplex 2) 1 = some (Q, nodesQ, idsQ) ∧ DeRhamDiv2 L R Q := by
  obtain ⟨gj, hgj⟩ := nodesOK_exists
  obtain ⟨L, idsL, mR, R, nodesR, idsR, Q, nodesQ, idsQ, h⟩ := de_rham_triangle_div_second_kind _ (proper_ufcTriangle (K := ℝ))
    numbered_ufcTriangle tri_pos hgj tri_nrm 1 someSvdFun (fun _ A B h => ned_svd_example hgj A B h) DT none .point rfl
  exact ⟨gj, L, idsL, mR, R, nodesR, idsR, Q, nodesQ, idsQ, hgj, h⟩

/-- `DiscontinuousLagrange(UFCTriangle(), 4)` has 15 dofs on the cell. -/
example : ∃ el nodes ids, discontinuousLagrange ((ufcTriangle : CellData ℝ).toSimplex 2) 4 = some (el, nodes, ids) ∧ nodes.length = 15 := by
  obtain ⟨el, nodes, ids, h1, ⟨_, _, _, h2, _⟩, -⟩ := discontinuous_lagrange_spec (Or.inr (Or.inl rfl)) _ (proper_ufcTriangle (K := ℝ))
    (fun h => absurd h (by norm_num)) 4
  exact ⟨el, nodes, ids, h1, h2⟩

end
end FIAT
