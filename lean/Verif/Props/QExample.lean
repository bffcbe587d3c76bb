/-
C75: two squares which share an edge.
-/
import Verif.Props.QLagrange

namespace FIAT
open MvPolynomial

/-- Vertices `(0,0), (0,1), (1,0), (1,1), (2,0), (2,1)`. -/
def strip (a : ℕ) : Fin 2 → ℝ := ![(a / 2 : ℕ), (a % 2 : ℕ)]

theorem strip_left : CubeInMesh (ufcQuadrilateral : CellData ℝ) (n := 2) strip ![X 0, X 1] id := by
  refine ⟨fun i j => ?_, fun a ha i => ?_, fun a _ b _ h => h⟩
  · fin_cases i <;> fin_cases j <;> simp [degreeOf_X]
  · have ha' : a < 4 := ha
    interval_cases a <;> fin_cases i <;>
      simp [strip, CellData.coord, ufcQuadrilateral, tensorProductCell, pyProduct, ufcInterval]

theorem strip_right : CubeInMesh (ufcQuadrilateral : CellData ℝ) (n := 2) strip ![X 0 + 1, X 1] (· + 2) := by
  refine ⟨fun i j => ?_, fun a ha i => ?_, fun a _ b _ h => by simpa using h⟩
  · fin_cases i
    · refine (degreeOf_add_le _ _ _).trans (max_le ?_ ?_)
      · rw [degreeOf_X]; split_ifs <;> simp
      · rw [← C_1, degreeOf_C]; exact Nat.zero_le _
    · change degreeOf j (X 1) ≤ 1
      rw [degreeOf_X]; split_ifs <;> simp
  · have ha' : a < 4 := ha
    interval_cases a <;> fin_cases i <;>
      norm_num [strip, CellData.coord, ufcQuadrilateral, tensorProductCell, pyProduct, ufcInterval]

/-- Degree 3, over the shared edge of the two squares: the points of the edge of the left square correspond to those of the right square,
and the values agree if and only if the dofs do. -/
example : ∃ (L : TabElem ℝ ℝ) (ids : EntityIds Key) (nodes : List (List ℝ)), IsLineLagrange 3 L ids nodes ∧
    ∃ (E : TabElem ℝ ℝ) (eids : EntityIds Key),
      flattenedDimensions (productTab L L) (tensorEntityIds L.dim ids ids) = some (E, eids) ∧
      HasEntity E.cell.topo (.int 1) 1 [2, 3] ∧ HasEntity E.cell.topo (.int 1) 0 [0, 1] ∧
      ∃ (φ : ℕ → MvPolynomial (Fin E.sd) ℝ) (Θ : (Fin E.sd → ℝ) → Fin E.sd → ℝ), ∀ u u' : ℕ → ℝ,
        (∀ d1 e1 e1' t1 t1' l l', HasEntity E.cell.topo d1 e1 t1 → (∀ a ∈ t1, a ∈ [2, 3]) → HasEntity E.cell.topo d1 e1' t1' →
          t1.map id = t1'.map (· + 2) → eids.at? d1 e1 = some l → eids.at? d1 e1' = some l' → l.map u = l'.map u') ↔
        ∀ x, OnHull E.cell [2, 3] x → ∑ i ∈ Finset.range E.dim, u i * eval x (φ i) = ∑ i ∈ Finset.range E.dim, u' i * eval (Θ x) (φ i) := by
  obtain ⟨L, ids, nodes, h⟩ := lineLagrange_exists 3 (by norm_num)
  obtain ⟨E, eids, h1, h2, -, φ, emb, -, -, h3⟩ := quadrilateral_continuous (by norm_num) h
  have e1 : HasEntity E.cell.topo (.int 1) 1 [2, 3] := by rw [h2]; exact ⟨_, rfl, rfl⟩
  have e2 : HasEntity E.cell.topo (.int 1) 0 [0, 1] := by rw [h2]; exact ⟨_, rfl, rfl⟩
  obtain ⟨Θ, -, -, -, h4⟩ := h3 (.int 1) 1 0 [2, 3] [0, 1] id (· + 2) e1 e2 (fun a _ b _ h => by simpa using h) rfl
  exact ⟨L, ids, nodes, h, E, eids, h1, e1, e2, φ, Θ, h4⟩

/-- Anisotropic degrees. -/
example : ∃ A B idsA idsB ps qs, IsLineLagrange 2 A idsA ps ∧ IsLineLagrange 3 B idsB qs ∧
    ∃ (E : TabElem ℝ ℝ) (ids : EntityIds Key), flattenedDimensions (productTab A B) (tensorEntityIds B.dim idsA idsB) = some (E, ids) ∧
      E.dim = 12 := by
  obtain ⟨A, idsA, ps, hA⟩ := lineLagrange_exists 2 (by norm_num)
  obtain ⟨B, idsB, qs, hB⟩ := lineLagrange_exists 3 (by norm_num)
  obtain ⟨E, ids, h1, -, h2, -⟩ := quadrilateral_element (by norm_num) (by norm_num) hA hB
  exact ⟨A, B, idsA, idsB, ps, qs, hA, hB, E, ids, h1, h2⟩

end FIAT
