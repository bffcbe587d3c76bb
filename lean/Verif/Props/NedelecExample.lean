/-
C23: the lowest-order Nedelec element on the UFC triangle meets the hypotheses of `nedelec_spec`.
-/
import Verif.Props.RTExample
import Verif.Props.NedelecElement

namespace FIAT
open MvPolynomial MeasureTheory
section

/-- A decomposition for every matrix of every size. -/
noncomputable def someSvdFun : SvdFun := fun _ _ M => someSvd M

/-- For degree 0 on the UFC triangle the singular values are far above the threshold. -/
theorem ned_svd_example {gj : ℕ → ℕ → List ℝ} (hgj : NodesOK gj) (A B)
    (h : nedRows gj 0 2 ((ufcTriangle : CellData ℝ).toSimplex 2) = some (A, B)) : SvdOK (someSvdFun 2 _) (A ++ B) := by
  refine ⟨someSvd_spec _, ?_⟩
  set s := (ufcTriangle : CellData ℝ).toSimplex 2 with hs
  have hp : ProperSimplex ℝ s := proper_ufcTriangle
  have hverts : (fun i : Fin (2 + 1) => s.v i) = ufcVerts ℝ 2 := by
    funext i l
    fin_cases i <;> fin_cases l <;> rfl
  obtain ⟨F, f1, -, -, -, ho⟩ := ufc_cell_spec (d := 2) (by omega)
  have ho' : orientation (ufcVerts ℝ 2) = 1 := by
    unfold orientation
    have : (Matrix.of fun i j : Fin 2 => ufcVerts ℝ 2 j.succ i - ufcVerts ℝ 2 0 i) = 1 := by
      ext i j
      simp [ufcVerts, Matrix.one_apply]
    rw [this, Matrix.det_one]
  obtain ⟨φ, g1, g2⟩ := orthoSeq_exists (Or.inr (Or.inl rfl)) (fun i : Fin (2 + 1) => s.v i) (proper_independent hp)
    (by rw [← orientation_edge, hverts, ho']; norm_num)
  have hκ : |(edgeMatrix fun i : Fin (2 + 1) => s.v i).det| / 2 ^ 2 = 1 / 4 := by
    rw [← orientation_edge, hverts, ho']; norm_num
  rw [hκ] at g2
  obtain ⟨mats, A', B', -, -, -, m4, m5, m6⟩ := ned_rows2_form s hp
    (by rw [hverts]; exact ho) hgj 0 φ (g1 1 (Or.inr (by omega))) g2
  have h' : nedRows2 gj 0 s = some (A, B) := h
  rw [h', Option.some.injEq, Prod.mk.injEq] at m4
  obtain ⟨rfl, rfl⟩ := m4
  have hB : ∃ β : Fin 2 → Fin 3 → ℝ, B = [β] ∧ rowField φ 3 β = (1 / 4 : ℝ) • crossLin2 (φ 0) := by
    have hl := congrArg List.length m6
    simp only [List.length_map, List.length_finRange] at hl
    match B, hl with
    | [β], _ =>
      refine ⟨β, rfl, ?_⟩
      have h7 : [rowField φ 3 β] = [(1 / 4 : ℝ) • crossLin2 (φ 0)] := m6
      exact (List.cons.inj h7).1
  obtain ⟨β, rfl, hβ⟩ := hB
  have hA : A = [unitRow 2 3 0 0, unitRow 2 3 1 0] := by rw [m5]; rfl
  subst hA
  have hφ0 : (φ 0).totalDegree ≤ 0 := g2.degree (n := 0) (by decide)
  obtain ⟨f, hf⟩ : ∃ f, φ 0 = C f := ⟨_, totalDegree_eq_zero_iff_eq_C.1 (Nat.le_zero.1 hφ0)⟩
  have hf2 : f ^ 2 = 1 / 2 := by
    have := g2.ortho 0 0
    rw [if_pos rfl, hf, hverts] at this
    simp only [eval_C] at this
    have e : ∫ _ in convexHull ℝ (Set.range (ufcVerts ℝ 2)), f * f = f * f * (1 / 2) := by
      rw [← (tri_moments 0).1, ← integral_const_mul, mul_one]
    rw [e] at this
    linarith
  have key : ∀ (p q : Fin 2) (a : ℝ), (∑ l : Fin 3, β p l • φ l = (a / 4 : ℝ) • (X q * φ 0)) →
      β p 0 = a / 12 ∧ ∑ l, β p l ^ 2 = a ^ 2 / 96 := by
    intro p q a hrow
    have h1 := g2.norm (β p) 0
    have h2 := g2.norm_sq (β p)
    rw [hrow] at h1 h2
    rw [hverts] at h1 h2
    simp only [Fin.val_zero, hf, smul_eval, map_mul, eval_X, eval_C] at h1 h2
    have e1 : ∫ x in convexHull ℝ (Set.range (ufcVerts ℝ 2)), a / 4 * (x q * f) * f = a / 4 * f ^ 2 * (1 / 6) := by
      rw [← (tri_moments q).2.1, ← integral_const_mul]
      congr 1; funext x; ring
    have e2 : ∫ x in convexHull ℝ (Set.range (ufcVerts ℝ 2)), (a / 4 * (x q * f)) ^ 2 = a ^ 2 / 16 * f ^ 2 * (1 / 12) := by
      rw [← (tri_moments q).2.2, ← integral_const_mul]
      congr 1; funext x; ring
    rw [e1, hf2] at h1
    rw [e2, hf2] at h2
    constructor <;> linarith
  have r0 : ∑ l : Fin 3, β 0 l • φ l = ((1 : ℝ) / 4) • (X 1 * φ 0) := by
    have := congrFun hβ 0
    rw [rowField_apply] at this
    exact this
  have r1 : ∑ l : Fin 3, β 1 l • φ l = ((-1 : ℝ) / 4) • (X 0 * φ 0) := by
    have := congrFun hβ 1
    rw [rowField_apply] at this
    rw [this]
    change (1 / 4 : ℝ) • (- (X 0 * φ 0)) = _
    rw [smul_neg, ← neg_smul]
    norm_num
  obtain ⟨a1, a2⟩ := key 0 1 1 r0
  obtain ⟨b1, b2⟩ := key 1 0 (-1) r1
  refine rt_gap_example β (fun p => ?_) _ (someSvd_spec _)
  fin_cases p
  · exact ⟨Or.inl a1, by simpa using a2⟩
  · refine ⟨Or.inr ?_, ?_⟩
    · rw [show β ((fun i => i) ⟨1, by omega⟩) 0 = β 1 0 from rfl, b1]; norm_num
    · exact b2.trans (by norm_num)

/-- The lowest-order Nedelec element exists on the UFC triangle, for the point variant and for `"integral"`. -/
example (DT : DigitTable) : ∃ gj m el nodes ids, NodesOK gj ∧
    nedelec (D := 2) gj 0 someSvdFun DT ((ufcTriangle : CellData ℝ).toSimplex 2) none = some (⟨m, el⟩, nodes, ids) ∧ m = 3 := by
  obtain ⟨gj, hgj⟩ := nodesOK_exists
  obtain ⟨m, el, nodes, ids, h1, h2, -⟩ := nedelec_spec (Or.inl rfl) _ (proper_ufcTriangle (K := ℝ)) numbered_ufcTriangle
    (by norm_num [orientation, Matrix.det_fin_two, SimplexCell.v, CellData.toSimplex, ufcTriangle]) hgj
    0 someSvdFun (fun A B h => ned_svd_example hgj A B h) DT none .point rfl
  exact ⟨gj, m, el, nodes, ids, hgj, h1, h2⟩

example (DT : DigitTable) : ∃ gj m el nodes ids, NodesOK gj ∧
    nedelec (D := 2) gj 0 someSvdFun DT ((ufcTriangle : CellData ℝ).toSimplex 2) (some strIntegral) = some (⟨m, el⟩, nodes, ids) ∧ m = 3 := by
  obtain ⟨gj, hgj⟩ := nodesOK_exists
  obtain ⟨m, el, nodes, ids, h1, h2, -⟩ := nedelec_spec (Or.inl rfl) _ (proper_ufcTriangle (K := ℝ)) numbered_ufcTriangle
    (by norm_num [orientation, Matrix.det_fin_two, SimplexCell.v, CellData.toSimplex, ufcTriangle]) hgj
    0 someSvdFun (fun A B h => ned_svd_example hgj A B h) DT (some strIntegral) (.integral 5)
    (by unfold dualVariant; rw [variant_integral])
  exact ⟨gj, m, el, nodes, ids, hgj, h1, h2⟩

end
end FIAT
