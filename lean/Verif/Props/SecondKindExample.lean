/-
C23: concrete cells, degrees and decompositions that meet the hypotheses of `bdm_spec`, `nedelec2_triangle_spec` and
`nedelec2_tetrahedron_spec`.
-/
import Verif.Props.NedelecExample
import Verif.Props.BDMElement
import Verif.Props.Nedelec2Element

namespace FIAT
open MvPolynomial
section

private theorem ufc_tri_orientation : 0 < orientation fun i : Fin (2 + 1) => ((ufcTriangle : CellData ℝ).toSimplex 2).v i := by
  norm_num [orientation, Matrix.det_fin_two, SimplexCell.v, CellData.toSimplex, ufcTriangle]

private theorem ufc_tet_orientation : 0 < orientation fun i : Fin (3 + 1) => ((ufcTetrahedron : CellData ℝ).toSimplex 3).v i := by
  have hverts : (fun i : Fin (3 + 1) => ((ufcTetrahedron : CellData ℝ).toSimplex 3).v i) = ufcVerts ℝ 3 := by
    funext i l
    fin_cases i <;> fin_cases l <;> rfl
  rw [hverts]
  unfold orientation
  have : (Matrix.of fun i j : Fin 3 => ufcVerts ℝ 3 j.succ i - ufcVerts ℝ 3 0 i) = 1 := by
    ext i j
    simp [ufcVerts, Matrix.one_apply]
  rw [this, Matrix.det_one]
  exact one_pos

/-- `compute_scaled_normal` of `UFCTriangle()`. -/
noncomputable def exTriNormal : ℕ → Option (Fin 2 → ℝ) :=
  ufcScaledNormal ((ufcTriangle : CellData ℝ).toSimplex 2) fun _ => [Real.sqrt 2]

/-- `compute_scaled_normal` of `UFCTetrahedron()`. -/
noncomputable def exTetNormal : ℕ → Option (Fin 3 → ℝ) :=
  ufcScaledNormal ((ufcTetrahedron : CellData ℝ).toSimplex 3) fun _ => [1, 1]

private theorem ufc_tri_normals : FacetNormals ((ufcTriangle : CellData ℝ).toSimplex 2) exTriNormal :=
  ufc_triangle_normals _ (proper_ufcTriangle (K := ℝ)) _

private theorem ufc_tet_normals : FacetNormals ((ufcTetrahedron : CellData ℝ).toSimplex 3) exTetNormal :=
  ufc_tetrahedron_normals _ (proper_ufcTetrahedron (K := ℝ)) _

/-- BDM of degree 2 on the UFC triangle, where the interior nodes come from a Nedelec element. -/
example (DT : DigitTable) : ∃ gj m el nodes ids, NodesOK gj ∧
    bdm gj 2 someSvdFun DT ((ufcTriangle : CellData ℝ).toSimplex 2) exTriNormal none =
      some (⟨m, el⟩, nodes, ids) ∧ m = 12 := by
  obtain ⟨gj, hgj⟩ := nodesOK_exists
  obtain ⟨m, el, nodes, ids, h1, h2, -⟩ := bdm_spec (Or.inl rfl) _ (proper_ufcTriangle (K := ℝ)) numbered_ufcTriangle
    ufc_tri_orientation hgj ufc_tri_normals 2 (by omega) someSvdFun (fun _ A B h => ned_svd_example hgj A B h) DT none .point rfl
  exact ⟨gj, m, el, nodes, ids, hgj, h1, h2⟩

/-- BDM of degree 1 on the UFC tetrahedron, `"integral"`. -/
example (DT : DigitTable) : ∃ gj m el nodes ids, NodesOK gj ∧
    bdm gj 1 someSvdFun DT ((ufcTetrahedron : CellData ℝ).toSimplex 3) exTetNormal (some strIntegral) =
      some (⟨m, el⟩, nodes, ids) ∧ m = 12 := by
  obtain ⟨gj, hgj⟩ := nodesOK_exists
  obtain ⟨m, el, nodes, ids, h1, h2, -⟩ := bdm_spec (Or.inr rfl) _ (proper_ufcTetrahedron (K := ℝ)) numbered_ufcTetrahedron
    ufc_tet_orientation hgj ufc_tet_normals 1 le_rfl someSvdFun
    (fun h => absurd h (by omega)) DT (some strIntegral) (.integral 10) (by unfold dualVariant; rw [variant_integral])
  exact ⟨gj, m, el, nodes, ids, hgj, h1, h2⟩

/-- The second kind Nedelec element of degree 2 on the UFC triangle, where the interior nodes come from a Raviart-Thomas
element. -/
example (DT : DigitTable) : ∃ gj m el nodes ids, NodesOK gj ∧
    nedelec2 gj 2 someSvdFun DT ((ufcTriangle : CellData ℝ).toSimplex 2) true exTriNormal
      (fun _ => none) none = some (⟨m, el⟩, nodes, ids) ∧ m = 12 := by
  obtain ⟨gj, hgj⟩ := nodesOK_exists
  obtain ⟨m, el, nodes, ids, h1, h2, -⟩ := nedelec2_triangle_spec _ (proper_ufcTriangle (K := ℝ)) numbered_ufcTriangle
    ufc_tri_orientation hgj ufc_tri_normals (fun _ => none) true 2 (by omega) someSvdFun
    (fun _ A B h => rt_svd_example hgj A B h) DT none .point rfl
  exact ⟨gj, m, el, nodes, ids, hgj, h1, h2⟩

/-- The second kind Nedelec element of degree 2 on the UFC tetrahedron. -/
example (DT : DigitTable) : ∃ gj m el nodes ids, NodesOK gj ∧
    nedelec2 gj 2 someSvdFun DT ((ufcTetrahedron : CellData ℝ).toSimplex 3) true exTetNormal
      exTriNormal none = some (⟨m, el⟩, nodes, ids) ∧ m = 30 := by
  obtain ⟨gj, hgj⟩ := nodesOK_exists
  obtain ⟨m, el, nodes, ids, h1, h2, -⟩ := nedelec2_tetrahedron_spec _ (proper_ufcTetrahedron (K := ℝ)) numbered_ufcTetrahedron
    ufc_tet_orientation hgj ufc_tet_normals ufc_tri_normals 2 (by omega)
    true (fun _ => ⟨rfl, rfl⟩) someSvdFun (fun _ A B h => rt_svd_example hgj A B h) (fun h => absurd h (by omega)) DT none .point rfl
  exact ⟨gj, m, el, nodes, ids, hgj, h1, h2⟩

end
end FIAT
