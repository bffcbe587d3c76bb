/-
C92: the hypotheses of the theorems of PushforwardSpaces are met.
-/
import Verif.Props.PushforwardSpaces
import Verif.Props.PushforwardExample
import Verif.Props.BDFMExample

namespace FIAT
section

private theorem shear_det : (!![2, 1; 0, 1] : Matrix (Fin 2) (Fin 2) ℝ).det = 2 := by rw [Matrix.det_fin_two_of]; norm_num

private theorem shear_mapped : MappedCell !![2, 1; 0, 1] ![1, 0] tri (mapCell !![2, 1; 0, 1] ![1, 0] tri) :=
  mapCell_mapped (by rw [shear_det]; norm_num)

/-- The Mardal-Tai-Winther and Arnold-Winther elements on the UFC triangle and on a sheared image of it. -/
example : ∃ (gj : ℕ → ℕ → List ℝ) (leg : ℕ → List ℝ × List ℝ),
    (∃ m el nodes ids m' el' nodes' ids', mardalTaiWinther gj leg tri (ufcNormal 2 tri) 3 = some (⟨m, el⟩, nodes, ids) ∧
      mardalTaiWinther gj leg (mapCell !![2, 1; 0, 1] ![1, 0] tri) (ufcNormal 2 (mapCell !![2, 1; 0, 1] ![1, 0] tri)) 3 =
        some (⟨m', el'⟩, nodes', ids') ∧ SpanCarried (declaredMapping .mardalTaiWinther) !![2, 1; 0, 1] ![1, 0] 9 el el') ∧
    (∃ el nodes ids el' nodes' ids', arnoldWinther gj leg tri (ufcNormal 2 tri) triLengths 3 = some (el, nodes, ids) ∧
      arnoldWinther gj leg (mapCell !![2, 1; 0, 1] ![1, 0] tri) (ufcNormal 2 (mapCell !![2, 1; 0, 1] ![1, 0] tri)) (fun _ => [1]) 3 =
        some (el', nodes', ids') ∧ MatrixSpanCarried (declaredMatrixMapping .arnoldWinther) !![2, 1; 0, 1] ![1, 0] 24 el el') ∧
    ∃ el nodes ids el' nodes' ids', arnoldWintherNC gj leg tri (ufcNormal 2 tri) triLengths 2 = some (el, nodes, ids) ∧
      arnoldWintherNC gj leg (mapCell !![2, 1; 0, 1] ![1, 0] tri) (ufcNormal 2 (mapCell !![2, 1; 0, 1] ![1, 0] tri)) (fun _ => [1]) 2 =
        some (el', nodes', ids') ∧ MatrixSpanCarried (declaredMatrixMapping .arnoldWintherNC) !![2, 1; 0, 1] ![1, 0] 15 el el' := by
  obtain ⟨gj, hgj⟩ := nodesOK_exists
  obtain ⟨xs, ws, hleg⟩ := leggauss_exists 7 (by norm_num)
  have hA : 0 < (!![2, 1; 0, 1] : Matrix (Fin 2) (Fin 2) ℝ).det := by rw [shear_det]; norm_num
  have hn := ufc_triangle_unit_normals _ (proper_ufcTriangle (K := ℝ))
  have hn' := ufc_triangle_unit_normals _ (shear_mapped.proper (proper_ufcTriangle (K := ℝ)))
  exact ⟨gj, fun _ => (xs, ws),
    mardal_tai_winther_carried hgj hleg proper_ufcTriangle numbered_ufcTriangle tri_oriented shear_mapped hA hn hn',
    arnold_winther_carried hgj hleg proper_ufcTriangle numbered_ufcTriangle tri_oriented shear_mapped hA hn hn' _ _,
    arnold_winther_nc_carried hgj hleg proper_ufcTriangle numbered_ufcTriangle tri_oriented shear_mapped hA hn hn' _ _⟩

/-- The Brezzi-Douglas-Fortin-Marini element, on the UFC triangle and its image under the identity: the gap condition on the singular values
is established for this triangle only. -/
example : ∃ el nodes ids el' nodes' ids', brezziDouglasFortinMarini 2 someSvd tri (ufcScaledNormal tri triLengths) = some (⟨9, el⟩, nodes, ids) ∧
    brezziDouglasFortinMarini 2 someSvd tri (ufcNormal 2 tri) = some (⟨9, el'⟩, nodes', ids') ∧
    SpanCarried (declaredMapping .brezziDouglasFortinMarini) 1 0 9 el el' :=
  bdfm_carried proper_ufcTriangle numbered_ufcTriangle
    ⟨by rw [Matrix.det_one]; norm_num, rfl, rfl, by
      conv_lhs => rw [← List.map_id tri.verts]
      exact List.map_congr_left fun x _ => by rw [cellMap, Matrix.one_mulVec, add_zero]; rfl⟩
    (ufc_triangle_normals _ proper_ufcTriangle triLengths) (ufc_triangle_unit_normals _ proper_ufcTriangle) someSvd bdfm_svd_example bdfm_svd_example

end
end FIAT
