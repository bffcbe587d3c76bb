/-
C90: the interior dofs of Hellan-Herrmann-Johnson elements are not carried by the mapping that the class reports; non-vacuity of C90.
-/
import Verif.Props.PushforwardMatrix

namespace FIAT
open MvPolynomial
section
variable {A : Matrix (Fin 2) (Fin 2) ℝ} {b : Fin 2 → ℝ} {s s' : SimplexCell (Fin 2 → ℝ)}

/-- The field with constant value `S`. -/
noncomputable def constField (S : Matrix (Fin 2) (Fin 2) ℝ) : Fin 2 × Fin 2 → MvPolynomial (Fin 2) ℝ := fun p => C (S p.1 p.2)

theorem constField_sym {S : Matrix (Fin 2) (Fin 2) ℝ} (hS : S.transpose = S) (r : ℕ) : IsSymField r (constField S) := by
  refine ⟨fun i j => ?_, fun c => by unfold constField; rw [totalDegree_C]; omega⟩
  unfold constField
  have : S i j = S j i := congrFun (congrFun hS j) i
  rw [this]

/-- A matrix that preserves all symmetric forms is the identity or its negative. -/
theorem form_preserving {Q : Matrix (Fin 2) (Fin 2) ℝ}
    (h : ∀ S : Matrix (Fin 2) (Fin 2) ℝ, S.transpose = S → (Q.transpose * S * Q) 0 0 = S 0 0 ∧ (Q.transpose * S * Q) 0 1 = S 0 1 ∧
      (Q.transpose * S * Q) 1 1 = S 1 1) : Q = 1 ∨ Q = -1 := by
  obtain ⟨a1, -, a3⟩ := h !![1, 0; 0, 0] (by ext i j; fin_cases i <;> fin_cases j <;> rfl)
  obtain ⟨b1, -, b3⟩ := h !![0, 0; 0, 1] (by ext i j; fin_cases i <;> fin_cases j <;> rfl)
  obtain ⟨-, c2, -⟩ := h !![0, 1; 1, 0] (by ext i j; fin_cases i <;> fin_cases j <;> rfl)
  simp [Matrix.mul_apply, Fin.sum_univ_two] at a1 a3 b1 b3 c2
  have d1 : (Q 0 0 - 1) * (Q 0 0 + 1) = 0 := by linarith
  rcases mul_eq_zero.1 d1 with h1 | h1
  · left
    have e1 : Q 0 0 = 1 := by linarith
    rw [e1, a3, b1] at c2
    ext i j
    fin_cases i <;> fin_cases j
    · simpa using e1
    · simpa using a3
    · simpa using b1
    · have : Q 1 1 = 1 := by linarith
      simpa using this
  · right
    have e1 : Q 0 0 = -1 := by linarith
    rw [e1, a3, b1] at c2
    ext i j
    fin_cases i <;> fin_cases j
    · simpa using e1
    · simpa using a3
    · simpa using b1
    · have : Q 1 1 = -1 := by linarith
      simpa using this

/-- C90, refuted part: in every degree at least 1 the dofs of the interior are not carried by the mapping that the class reports, for any affine map
for which the mapping is not trivial: some dof takes different values on a field of the space and on its push-forward. -/
theorem hhj_interior_refuted (hs : ProperSimplex ℝ s) (hnum : NumberedSimplex s) (h : MappedCell A b s s') (hQ1 : A.det • A⁻¹ ≠ 1)
    (hQ2 : A.det • A⁻¹ ≠ -1) {nrm nrm' : ℕ → Option (Fin 2 → ℝ)} (hn : FacetNormals s nrm) (hn' : FacetNormals s' nrm') (r : ℕ) (hr : 1 ≤ r) :
    ∃ nodes nodes' ids l i a a' w w', hhjDual s nrm r = some (nodes, ids) ∧ hhjDual s' nrm' r = some (nodes', ids) ∧
      ids.at? 2 0 = some l ∧ i ∈ l ∧ nodes[i]? = some a ∧ nodes'[i]? = some a' ∧ IsSymField r w ∧ IsSymField r w' ∧
      (∀ x, PushesMatrix (declaredMatrixMapping .hellanHerrmannJohnson) A (Matrix.of fun p q => eval x (w (p, q)))
        (Matrix.of fun p q => eval (cellMap A b x) (w' (p, q)))) ∧
      a.onField (fieldC comp2 w) ≠ a'.onField (fieldC comp2 w') := by
  obtain ⟨el, nodes, ids, h1, -, -, h4⟩ := hhj_spec s hs hnum nrm hn r
  obtain ⟨el', nodes', ids', h1', -, -, h4'⟩ := hhj_spec s' (h.proper hs) (numbered_mapped h hnum) nrm' hn' r
  obtain rfl := hhjDual_ids h (hhj_dual_of h1) (hhj_dual_of h1')
  obtain ⟨pts, p1, p2, l, l1, l2⟩ := h4.cell
  obtain ⟨pts', p1', -, l', l1', l2'⟩ := h4'.cell
  rw [l1, Option.some.injEq] at l1'
  subst l1'
  rw [makePoints_map h, p1] at p1'
  obtain rfl := Option.some.inj p1'
  set Q := A.det • A⁻¹.transpose with hQ
  by_contra hcon
  have hall : ∀ S : Matrix (Fin 2) (Fin 2) ℝ, S.transpose = S → ∀ i ∈ l, (nodes[i]?).map (fun a => a.onField (fieldC comp2 (pullWith Q A b (constField S)))) =
      (nodes'[i]?).map fun a => a.onField (fieldC comp2 (constField S)) := by
    intro S hS i hi
    have hsome : ∀ {nodes : List (Functional ℝ (Fin 2 → ℝ))} {L : List ℝ} {f : Functional ℝ (Fin 2 → ℝ) → ℝ},
        l.map (fun i => (nodes[i]?).map f) = L.map some → ∃ a, nodes[i]? = some a := by
      intro nodes L f hL
      have : (nodes[i]?).map f ∈ L.map some := by
        rw [← hL]
        exact List.mem_map.2 ⟨i, hi, rfl⟩
      obtain ⟨q, -, hq⟩ := List.mem_map.1 this
      obtain ⟨a, ha, -⟩ := Option.map_eq_some_iff.1 hq.symm
      exact ⟨a, ha⟩
    obtain ⟨a, ha⟩ := hsome (l2 _ (zero_sym r))
    obtain ⟨a', ha'⟩ := hsome (l2' _ (zero_sym r))
    rw [ha, ha', Option.map_some, Option.map_some, Option.some.injEq]
    by_contra hv
    exact hcon ⟨nodes, nodes', ids', l, i, a, a', _, _, hhj_dual_of h1, hhj_dual_of h1', l1, hi, ha, ha', pullWith_sym _ _ _ (constField_sym hS r),
      constField_sym hS r, (pushes_field_iff h.regular b .doubleContravariant _ _).2 rfl, hv⟩
  have hpos : 0 < pts.length := by rw [p2]; exact Nat.choose_pos (by omega)
  have hQQ : Q = 1 ∨ Q = -1 := by
    refine form_preserving fun S hS => ?_
    have e1 := List.map_congr_left (hall S hS)
    rw [l2 _ (pullWith_sym _ _ _ (constField_sym hS r)), l2' _ (constField_sym hS r)] at e1
    have e2 := (List.map_injective_iff.2 (Option.some_injective ℝ)) e1
    have e3 := List.append_inj e2 (by simp)
    have e4 := List.append_inj e3.1 (by simp)
    have hv : ∀ p q : Fin 2, pts.map (fun x => eval x (pullWith Q A b (constField S) (p, q))) =
        (pts.map (cellMap A b)).map (fun x => eval x (constField S (p, q))) → (Q.transpose * S * Q) p q = S p q := by
      intro p q hpq
      rw [List.map_map] at hpq
      have h0 := List.map_inj_left.1 hpq pts[0] (List.getElem_mem hpos)
      have h5 := congrFun (congrFun (matrix_pullWith Q A b (constField S) pts[0]) p) q
      rw [Matrix.of_apply] at h5
      rw [h5, Function.comp] at h0
      unfold constField at h0
      simp only [eval_C] at h0
      exact h0
    exact ⟨hv 0 0 e4.1, hv 0 1 e4.2, hv 1 1 e3.2⟩
  have ht : A.det • A⁻¹ = Q.transpose := by rw [hQ, Matrix.transpose_smul, Matrix.transpose_transpose]
  rcases hQQ with h5 | h5
  · exact hQ1 (by rw [ht, h5, Matrix.transpose_one])
  · exact hQ2 (by rw [ht, h5, Matrix.transpose_neg, Matrix.transpose_one])

private theorem shear_det : (!![2, 1; 0, 1] : Matrix (Fin 2) (Fin 2) ℝ).det = 2 := by rw [Matrix.det_fin_two_of]; norm_num

private theorem shear_mapped : MappedCell !![2, 1; 0, 1] ![1, 0] tri (mapCell !![2, 1; 0, 1] ![1, 0] tri) :=
  mapCell_mapped (by rw [shear_det]; norm_num)

/-- The quadratic Regge element on the UFC triangle and on a sheared triangle. -/
example : ∃ el el' nodes nodes' ids, regge tri 2 = some (el, nodes, ids) ∧ regge (mapCell !![2, 1; 0, 1] ![1, 0] tri) 2 = some (el', nodes', ids) ∧
      MapsMatrix .doubleCovariant !![2, 1; 0, 1] ![1, 0] el el' := by
  obtain ⟨el, el', nodes, nodes', ids, h1, h2, -, h3⟩ := regge_maps (Or.inl rfl) (proper_ufcTriangle (K := ℝ)) numbered_ufcTriangle shear_mapped 2
  exact ⟨el, el', nodes, nodes', ids, h1, h2, h3⟩

/-- The lowest order Hellan-Herrmann-Johnson element on the same triangles. -/
example : ∃ el el' nodes nodes' ids nrm', hellanHerrmannJohnson tri (ufcScaledNormal tri triLengths) 0 = some (el, nodes, ids) ∧
      hellanHerrmannJohnson (mapCell !![2, 1; 0, 1] ![1, 0] tri) nrm' 0 = some (el', nodes', ids) ∧
      MapsMatrix .doubleContravariant !![2, 1; 0, 1] ![1, 0] el el' := by
  have hn := ufc_triangle_normals _ (proper_ufcTriangle (K := ℝ)) triLengths
  obtain ⟨el, el', nodes, nodes', ids, h1, h2, -, h3⟩ := hhj_maps_partial (proper_ufcTriangle (K := ℝ)) numbered_ufcTriangle shear_mapped hn
    (facet_normals_mapped proper_ufcTriangle shear_mapped hn) (fun e t n _ h => by rw [h]; rfl) 0
  exact ⟨el, el', nodes, nodes', ids, _, h1, h2, h3 rfl⟩

/-- The linear Hellan-Herrmann-Johnson element on the same triangles. -/
example : ∃ nodes nodes' ids l i a a' w w' nrm', hhjDual tri (ufcScaledNormal tri triLengths) 1 = some (nodes, ids) ∧
      hhjDual (mapCell !![2, 1; 0, 1] ![1, 0] tri) nrm' 1 = some (nodes', ids) ∧
      ids.at? 2 0 = some l ∧ i ∈ l ∧ nodes[i]? = some a ∧ nodes'[i]? = some a' ∧ IsSymField 1 w ∧ IsSymField 1 w' ∧
      (∀ x, PushesMatrix .doubleContravariant !![2, 1; 0, 1] (Matrix.of fun p q => eval x (w (p, q)))
        (Matrix.of fun p q => eval (cellMap !![2, 1; 0, 1] ![1, 0] x) (w' (p, q)))) ∧
      a.onField (fieldC comp2 w) ≠ a'.onField (fieldC comp2 w') := by
  have hn := ufc_triangle_normals _ (proper_ufcTriangle (K := ℝ)) triLengths
  have hinv : (!![2, 1; 0, 1] : Matrix (Fin 2) (Fin 2) ℝ) * ((!![2, 1; 0, 1] : Matrix (Fin 2) (Fin 2) ℝ).det • (!![2, 1; 0, 1] : Matrix (Fin 2) (Fin 2) ℝ)⁻¹)
      = (2 : ℝ) • 1 := by
    rw [Matrix.mul_smul, Matrix.mul_nonsing_inv _ (by rw [shear_det]; norm_num), shear_det]
  obtain ⟨nodes, nodes', ids, l, i, a, a', w, w', h⟩ := hhj_interior_refuted (proper_ufcTriangle (K := ℝ)) numbered_ufcTriangle shear_mapped
    (fun hc => by
      rw [hc, Matrix.mul_one] at hinv
      have := congrFun (congrFun hinv 0) 1
      norm_num at this)
    (fun hc => by
      rw [hc, Matrix.mul_neg, Matrix.mul_one] at hinv
      have := congrFun (congrFun hinv 0) 1
      norm_num at this) hn (facet_normals_mapped proper_ufcTriangle shear_mapped hn) 1 le_rfl
  exact ⟨nodes, nodes', ids, l, i, a, a', w, w', _, h⟩

end
end FIAT
