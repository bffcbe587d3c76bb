/-
Non-vacuity of C89: the lowest order elements on the UFC triangle and on its image under a rotation of its vertices, and on a sheared triangle.
-/
import Verif.Props.PushforwardVector
import Verif.Props.NedelecExample

namespace FIAT
open MvPolynomial MeasureTheory
section

/-- The same for a triangle with the vertices of the UFC triangle, numbered in another order the singular values are far above the threshold. -/
theorem rt_svd_rotated {s : SimplexCell (Fin 2 → ℝ)} (hp : ProperSimplex ℝ s)
    (hr : Set.range (fun i : Fin (2 + 1) => s.v i) = Set.range (ufcVerts ℝ 2)) (ho' : orientation (fun i : Fin (2 + 1) => s.v i) = 1) {gj : ℕ → ℕ → List ℝ} (hgj : NodesOK gj) (A B)
    (h : rtRows gj 0 s = some (A, B)) : SvdOK someSvd (A ++ B) := by
  refine ⟨someSvd_spec _, ?_⟩
  obtain ⟨φ, g1, g2⟩ := orthoSeq_exists (Or.inr (Or.inl rfl)) (fun i : Fin (2 + 1) => s.v i) (proper_independent hp)
    (by rw [← orientation_edge, ho']; norm_num)
  have hκ : |(edgeMatrix fun i : Fin (2 + 1) => s.v i).det| / 2 ^ 2 = 1 / 4 := by
    rw [← orientation_edge, ho']; norm_num
  rw [hκ] at g2
  obtain ⟨mats, A', B', -, -, -, m4, m5, m6⟩ := rt_rows_spec (Or.inr (Or.inl rfl)) s hp (fun h => by omega)
    (by rw [ho']; exact one_pos) hgj 0 φ (g1 1 (Or.inr (by omega))) g2
  rw [h, Option.some.injEq, Prod.mk.injEq] at m4
  obtain ⟨rfl, rfl⟩ := m4
  have hB : ∃ β : Fin 2 → Fin 3 → ℝ, B = [β] ∧ rowField φ 3 β = (1 / 4 : ℝ) • xField (φ 0) := by
    have hl := congrArg List.length m6
    simp only [List.length_map, List.length_finRange] at hl
    match B, hl with
    | [β], _ =>
      refine ⟨β, rfl, ?_⟩
      have h7 : [rowField φ 3 β] = [(1 / 4 : ℝ) • xField (φ 0)] := m6
      exact (List.cons.inj h7).1
  obtain ⟨β, rfl, hβ⟩ := hB
  have hA : A = [unitRow 2 3 0 0, unitRow 2 3 1 0] := by rw [m5]; rfl
  subst hA
  -- the constant
  have hφ0 : (φ 0).totalDegree ≤ 0 := g2.degree (n := 0) (by decide)
  obtain ⟨f, hf⟩ : ∃ f, φ 0 = C f := ⟨_, totalDegree_eq_zero_iff_eq_C.1 (Nat.le_zero.1 hφ0)⟩
  have hf2 : f ^ 2 = 1 / 2 := by
    have := g2.ortho 0 0
    rw [if_pos rfl, hf, hr] at this
    simp only [eval_C] at this
    have e : ∫ _ in convexHull ℝ (Set.range (ufcVerts ℝ 2)), f * f = f * f * (1 / 2) := by
      rw [← (tri_moments 0).1, ← integral_const_mul, mul_one]
    rw [e] at this
    linarith
  have hcoef : ∀ p : Fin 2, β p 0 = 1 / 12 ∧ ∑ l, β p l ^ 2 = 1 / 96 := by
    intro p
    have hrow : ∑ l : Fin 3, β p l • φ l = (1 / 4 : ℝ) • (X p * φ 0) := by
      have := congrFun hβ p
      rw [rowField_apply] at this
      exact this
    have h1 := g2.norm (β p) 0
    have h2 := g2.norm_sq (β p)
    rw [hrow] at h1 h2
    rw [hr] at h1 h2
    simp only [Fin.val_zero, hf, smul_eval, map_mul, eval_X, eval_C] at h1 h2
    have e1 : ∫ x in convexHull ℝ (Set.range (ufcVerts ℝ 2)), 1 / 4 * (x p * f) * f = 1 / 4 * f ^ 2 * (1 / 6) := by
      rw [← (tri_moments p).2.1, ← integral_const_mul]
      congr 1; funext x; ring
    have e2 : ∫ x in convexHull ℝ (Set.range (ufcVerts ℝ 2)), (1 / 4 * (x p * f)) ^ 2 = 1 / 16 * f ^ 2 * (1 / 12) := by
      rw [← (tri_moments p).2.2, ← integral_const_mul]
      congr 1; funext x; ring
    rw [e1, hf2] at h1
    rw [e2, hf2] at h2
    constructor <;> linarith
  exact rt_gap_example β (fun p => ⟨Or.inl (hcoef p).1, (hcoef p).2⟩) _ (someSvd_spec _)

/-- The same for a triangle with the vertices of the UFC triangle, numbered in another order the singular values are far above the threshold. -/
theorem ned_svd_rotated {s : SimplexCell (Fin 2 → ℝ)} (hp : ProperSimplex ℝ s)
    (hr : Set.range (fun i : Fin (2 + 1) => s.v i) = Set.range (ufcVerts ℝ 2)) (ho' : orientation (fun i : Fin (2 + 1) => s.v i) = 1) {gj : ℕ → ℕ → List ℝ} (hgj : NodesOK gj) (A B)
    (h : nedRows gj 0 2 s = some (A, B)) : SvdOK (someSvdFun 2 _) (A ++ B) := by
  refine ⟨someSvd_spec _, ?_⟩
  obtain ⟨φ, g1, g2⟩ := orthoSeq_exists (Or.inr (Or.inl rfl)) (fun i : Fin (2 + 1) => s.v i) (proper_independent hp)
    (by rw [← orientation_edge, ho']; norm_num)
  have hκ : |(edgeMatrix fun i : Fin (2 + 1) => s.v i).det| / 2 ^ 2 = 1 / 4 := by
    rw [← orientation_edge, ho']; norm_num
  rw [hκ] at g2
  obtain ⟨mats, A', B', -, -, -, m4, m5, m6⟩ := ned_rows2_form s hp
    (by rw [ho']; exact one_pos) hgj 0 φ (g1 1 (Or.inr (by omega))) g2
  have h' : nedRows2 gj 0 s = some (A, B) := h
  rw [h', Option.some.injEq, Prod.mk.injEq] at m4
  obtain ⟨rfl, rfl⟩ := m4
  have hB : ∃ β : Fin 2 → Fin 3 → ℝ, B = [β] ∧ rowField φ 3 β = (1 / 4 : ℝ) • crossLin2 (φ 0) := by
    have hl := congrArg List.length m6
    simp only [List.length_map, List.length_finRange] at hl
    match B, hl with
    | [β], _ =>
      refine ⟨β, rfl, ?_⟩
      have h7 : [rowField φ 3 β] = [(1 / 4 : ℝ) • crossLin2 (φ 0)] := m6
      exact (List.cons.inj h7).1
  obtain ⟨β, rfl, hβ⟩ := hB
  have hA : A = [unitRow 2 3 0 0, unitRow 2 3 1 0] := by rw [m5]; rfl
  subst hA
  have hφ0 : (φ 0).totalDegree ≤ 0 := g2.degree (n := 0) (by decide)
  obtain ⟨f, hf⟩ : ∃ f, φ 0 = C f := ⟨_, totalDegree_eq_zero_iff_eq_C.1 (Nat.le_zero.1 hφ0)⟩
  have hf2 : f ^ 2 = 1 / 2 := by
    have := g2.ortho 0 0
    rw [if_pos rfl, hf, hr] at this
    simp only [eval_C] at this
    have e : ∫ _ in convexHull ℝ (Set.range (ufcVerts ℝ 2)), f * f = f * f * (1 / 2) := by
      rw [← (tri_moments 0).1, ← integral_const_mul, mul_one]
    rw [e] at this
    linarith
  have key : ∀ (p q : Fin 2) (a : ℝ), (∑ l : Fin 3, β p l • φ l = (a / 4 : ℝ) • (X q * φ 0)) →
      β p 0 = a / 12 ∧ ∑ l, β p l ^ 2 = a ^ 2 / 96 := by
    intro p q a hrow
    have h1 := g2.norm (β p) 0
    have h2 := g2.norm_sq (β p)
    rw [hrow] at h1 h2
    rw [hr] at h1 h2
    simp only [Fin.val_zero, hf, smul_eval, map_mul, eval_X, eval_C] at h1 h2
    have e1 : ∫ x in convexHull ℝ (Set.range (ufcVerts ℝ 2)), a / 4 * (x q * f) * f = a / 4 * f ^ 2 * (1 / 6) := by
      rw [← (tri_moments q).2.1, ← integral_const_mul]
      congr 1; funext x; ring
    have e2 : ∫ x in convexHull ℝ (Set.range (ufcVerts ℝ 2)), (a / 4 * (x q * f)) ^ 2 = a ^ 2 / 16 * f ^ 2 * (1 / 12) := by
      rw [← (tri_moments q).2.2, ← integral_const_mul]
      congr 1; funext x; ring
    rw [e1, hf2] at h1
    rw [e2, hf2] at h2
    constructor <;> linarith
  have r0 : ∑ l : Fin 3, β 0 l • φ l = ((1 : ℝ) / 4) • (X 1 * φ 0) := by
    have := congrFun hβ 0
    rw [rowField_apply] at this
    exact this
  have r1 : ∑ l : Fin 3, β 1 l • φ l = ((-1 : ℝ) / 4) • (X 0 * φ 0) := by
    have := congrFun hβ 1
    rw [rowField_apply] at this
    rw [this]
    change (1 / 4 : ℝ) • (- (X 0 * φ 0)) = _
    rw [smul_neg, ← neg_smul]
    norm_num
  obtain ⟨a1, a2⟩ := key 0 1 1 r0
  obtain ⟨b1, b2⟩ := key 1 0 (-1) r1
  refine rt_gap_example β (fun p => ?_) _ (someSvd_spec _)
  fin_cases p
  · exact ⟨Or.inl a1, by simpa using a2⟩
  · refine ⟨Or.inr ?_, ?_⟩
    · rw [show β ((fun i => i) ⟨1, by omega⟩) 0 = β 1 0 from rfl, b1]; norm_num
    · exact b2.trans (by norm_num)


variable {D : ℕ} {A : Matrix (Fin D) (Fin D) ℝ} {b : Fin D → ℝ} {s s' : SimplexCell (Fin D → ℝ)}

/-- Normals of the image of a cell. -/
theorem facet_normals_mapped (hs : ProperSimplex ℝ s) (h : MappedCell A b s s') {nrm : ℕ → Option (Fin D → ℝ)} (hn : FacetNormals s nrm) :
    FacetNormals s' fun e => (nrm e).map fun n => A.det • A⁻¹.transpose.mulVec n := by
  have hu : IsUnit A.det := isUnit_iff_ne_zero.2 h.regular
  intro e t ht
  have ht' : HasEntity s.topo (D - 1) e t := by rw [← h.topo]; exact ht
  obtain ⟨n, h1, h2, h3⟩ := hn e t ht'
  refine ⟨A.det • A⁻¹.transpose.mulVec n, by beta_reduce; rw [h1]; rfl, physNormal_ne h.regular h2, fun a ha c hc => ?_⟩
  obtain ⟨-, -, hlt⟩ := hs.2.1.entity _ _ _ ht'
  have hv : ∀ a ∈ t, s'.v a = cellMap A b (s.v a) := fun a ha => h.v (by rw [hs.2.1.nverts]; exact hlt a ha)
  have e1 : ∑ j, (A.det • A⁻¹.transpose.mulVec n) j * (s'.v a j - s'.v c j) = A.det * (A⁻¹.transpose.mulVec n ⬝ᵥ A.mulVec (s.v a - s.v c)) := by
    rw [hv a ha, hv c hc, ← cellMap_diff A b, dotProduct, Finset.mul_sum]
    exact Finset.sum_congr rfl fun j _ => by rw [Pi.smul_apply, smul_eq_mul, Pi.sub_apply]; ring
  rw [e1, Matrix.mulVec_transpose, ← Matrix.dotProduct_mulVec, Matrix.mulVec_mulVec, Matrix.nonsing_inv_mul _ hu, Matrix.one_mulVec]
  have := h3 a ha c hc
  rw [dotProduct]
  simp only [Pi.sub_apply]
  rw [this, mul_zero]

/-- The lowest order BDM element on the UFC triangle and on a sheared image of it. -/
example {gj : ℕ → ℕ → List ℝ} (hgj : NodesOK gj) (T : DigitTable) :
    ∃ m el el' nodes nodes' ids nrm', bdm gj 1 someSvdFun T tri (ufcScaledNormal tri triLengths) none = some (⟨m, el⟩, nodes, ids) ∧
      bdm gj 1 someSvdFun T (mapCell !![2, 1; 0, 1] ![1, 0] tri) nrm' none = some (⟨m, el'⟩, nodes', ids) ∧
      MapsVector (declaredMapping .brezziDouglasMarini) !![2, 1; 0, 1] ![1, 0] el el' := by
  have hdet : (!![2, 1; 0, 1] : Matrix (Fin 2) (Fin 2) ℝ).det = 2 := by rw [Matrix.det_fin_two_of]; norm_num
  have hm : MappedCell !![2, 1; 0, 1] ![1, 0] tri (mapCell !![2, 1; 0, 1] ![1, 0] tri) := mapCell_mapped (by rw [hdet]; norm_num)
  have hn := ufc_triangle_normals _ (proper_ufcTriangle (K := ℝ)) triLengths
  obtain ⟨m, el, el', nodes, nodes', ids, h1, h2, -, h3, h4⟩ := bdm_maps_partial (Or.inl rfl) (proper_ufcTriangle (K := ℝ)) numbered_ufcTriangle tri_oriented hm
    (by rw [hdet]; norm_num) hgj hn (facet_normals_mapped proper_ufcTriangle hm hn) (fun e t n _ h => by rw [h]; rfl) 1 le_rfl someSvdFun
    (fun h => absurd h (by norm_num)) (fun h => absurd h (by norm_num)) T none .point rfl
  exact ⟨m, el, el', nodes, nodes', ids, _, h1, h2, h3 (h4 rfl)⟩

/-- The map that takes each vertex of the UFC triangle to the next. -/
theorem rotation_det : (!![-1, -1; 1, 0] : Matrix (Fin 2) (Fin 2) ℝ).det = 1 := by rw [Matrix.det_fin_two_of]; norm_num

theorem rotation_mapped : MappedCell !![-1, -1; 1, 0] ![1, 0] tri (mapCell !![-1, -1; 1, 0] ![1, 0] tri) := mapCell_mapped (by rw [rotation_det]; norm_num)

theorem rotation_vertices : (fun i : Fin (2 + 1) => (mapCell !![-1, -1; 1, 0] ![1, 0] tri).v i) = ![ufcVerts ℝ 2 1, ufcVerts ℝ 2 2, ufcVerts ℝ 2 0] := by
  have hU : ufcVerts ℝ 2 = ![![0, 0], ![1, 0], ![0, 1]] := by
    funext i l
    fin_cases i <;> fin_cases l <;> rfl
  rw [hU]
  funext i l
  fin_cases i <;> fin_cases l <;>
    simp [mapCell, cellMap, SimplexCell.v, CellData.toSimplex, ufcTriangle, Matrix.mulVec, dotProduct, Fin.sum_univ_two]

theorem rotation_range : Set.range (fun i : Fin (2 + 1) => (mapCell !![-1, -1; 1, 0] ![1, 0] tri).v i) = Set.range (ufcVerts ℝ 2) := by
  rw [rotation_vertices]
  ext x
  simp only [Set.mem_range, Fin.exists_fin_succ, Matrix.cons_val_zero, Matrix.cons_val_succ]
  constructor
  · rintro (h | h | h | ⟨i, -⟩)
    · exact Or.inr (Or.inl h)
    · exact Or.inr (Or.inr (Or.inl h))
    · exact Or.inl h
    · exact i.elim0
  · rintro (h | h | h | ⟨i, -⟩)
    · exact Or.inr (Or.inr (Or.inl h))
    · exact Or.inl h
    · exact Or.inr (Or.inl h)
    · exact i.elim0

theorem tri_orientation_one : orientation (fun i : Fin (2 + 1) => tri.v i) = 1 := by
  norm_num [orientation, Matrix.det_fin_two, SimplexCell.v, CellData.toSimplex, ufcTriangle]

theorem rotation_orientation : orientation (fun i : Fin (2 + 1) => (mapCell !![-1, -1; 1, 0] ![1, 0] tri).v i) = 1 := by
  rw [rotation_mapped.orientation proper_ufcTriangle, rotation_det, one_mul, tri_orientation_one]

/-- The lowest order Raviart-Thomas element. -/
example {gj : ℕ → ℕ → List ℝ} (hgj : NodesOK gj) (T : DigitTable) :
    ∃ m el el' nodes nodes' ids nrm', raviartThomas gj 0 someSvd T tri (ufcScaledNormal tri triLengths) none = some (⟨m, el⟩, nodes, ids) ∧
      raviartThomas gj 0 someSvd T (mapCell !![-1, -1; 1, 0] ![1, 0] tri) nrm' none = some (⟨m, el'⟩, nodes', ids) ∧
      MapsVector (declaredMapping .raviartThomas) !![-1, -1; 1, 0] ![1, 0] el el' := by
  have hn := ufc_triangle_normals _ (proper_ufcTriangle (K := ℝ)) triLengths
  obtain ⟨m, el, el', nodes, nodes', ids, h1, h2, -, h3, h4⟩ := raviart_thomas_maps_partial (Or.inl rfl) (proper_ufcTriangle (K := ℝ)) numbered_ufcTriangle
    tri_oriented rotation_mapped (by rw [rotation_det]; norm_num) hgj hn (facet_normals_mapped proper_ufcTriangle rotation_mapped hn)
    (fun e t n _ h => by rw [h]; rfl) 0 someSvd (fun B C h => rt_svd_example hgj B C h)
    (fun B C h => rt_svd_rotated (rotation_mapped.proper proper_ufcTriangle) rotation_range rotation_orientation hgj B C h) T none .point rfl
  exact ⟨m, el, el', nodes, nodes', ids, _, h1, h2, h3 (h4 rfl)⟩

/-- The lowest order Nedelec element. -/
example {gj : ℕ → ℕ → List ℝ} (hgj : NodesOK gj) (T : DigitTable) :
    ∃ m el el' nodes nodes' ids, nedelec gj 0 someSvdFun T tri none = some (⟨m, el⟩, nodes, ids) ∧
      nedelec gj 0 someSvdFun T (mapCell !![-1, -1; 1, 0] ![1, 0] tri) none = some (⟨m, el'⟩, nodes', ids) ∧
      MapsVector (declaredMapping .nedelec) !![-1, -1; 1, 0] ![1, 0] el el' := by
  obtain ⟨m, el, el', nodes, nodes', ids, h1, h2, -, h3, h4⟩ := nedelec_maps_partial (Or.inl rfl) (proper_ufcTriangle (K := ℝ)) numbered_ufcTriangle
    tri_oriented rotation_mapped (by rw [rotation_det]; norm_num) hgj 0 someSvdFun (fun B C h => ned_svd_example hgj B C h)
    (fun B C h => ned_svd_rotated (rotation_mapped.proper proper_ufcTriangle) rotation_range rotation_orientation hgj B C h) T none .point rfl
  exact ⟨m, el, el', nodes, nodes', ids, h1, h2, h3 (h4 rfl)⟩

end
end FIAT
