/-
C68: on UFC cells the scaled normals of a shared facet, computed on the two reference cells, are mapped to the same vector, so that
the facet dofs of H(div) elements agree without sign changes.
-/
import Verif.Props.ConformDiv
import Verif.Props.RTExample
import Mathlib.LinearAlgebra.Matrix.Adjugate

namespace FIAT
open MvPolynomial
section
variable {D : ℕ}

/-- The singular values numpy returns for the facets give the volumes of the facets: `(D-1)!` times the volume, squared, is the Gram
determinant of the edges at the first vertex (`volume_spec` proves this of the model of `volume`). -/
def FacetVolumes (s : SimplexCell (Fin D → ℝ)) (sv : ℕ → List ℝ) : Prop :=
  ∀ e (τ : Fin (D - 1 + 1) → ℕ), HasEntity s.topo (D - 1) e (List.ofFn τ) →
    volumeOf (sv e) (D - 1) ^ 2 * ((D - 1).factorial : ℝ) ^ 2 =
      Matrix.det fun i k : Fin (D - 1) => ∑ j, (s.v (τ i.succ) j - s.v (τ 0) j) * (s.v (τ k.succ) j - s.v (τ 0) j)

theorem physNormal_adj {A : Matrix (Fin D) (Fin D) ℝ} (hA : A.det ≠ 0) (n : Fin D → ℝ) :
    physNormal A n = A.adjugate.transpose.mulVec n := by
  unfold physNormal
  rw [← Matrix.smul_mulVec, Matrix.inv_def, Ring.inverse_eq_inv', Matrix.transpose_smul, smul_smul, mul_inv_cancel₀ hA, one_smul]

/-- The scaled normal of a UFC triangle is the edge, rotated. -/
theorem ufc_scaled_two {s : SimplexCell (Fin 2 → ℝ)} (hs : ProperSimplex ℝ s) {sv : ℕ → List ℝ} (hv : FacetVolumes s sv) {e : ℕ}
    {τ : Fin 2 → ℕ} (h : HasEntity s.topo 1 e (List.ofFn τ)) :
    ufcScaledNormal s sv e = some ![s.v (τ 1) 1 - s.v (τ 0) 1, -(s.v (τ 1) 0 - s.v (τ 0) 0)] := by
  obtain ⟨τ', t1, t2, t3, t4⟩ := entity_tuple hs h
  obtain rfl := ofFn_inj' t3
  have hinj := (proper_independent hs).injective
  have hne : s.v (τ 0) ≠ s.v (τ 1) := by
    intro hv
    have := @hinj ⟨τ 0, t2 0⟩ ⟨τ 1, t2 1⟩ hv
    have := t1 (Fin.mk.inj this)
    simp at this
  have h1 : ufcNormal 2 s e = some (triangleNormal (s.v (τ 0)) (s.v (τ 1))) := by
    change (entityVerts s 1 e).bind _ = _
    rw [show entityVerts s 1 e = _ from t4]
    rfl
  have hvol := hv e τ h
  set V := volumeOf (sv e) (2 - 1) with hV
  have hpos : 0 < V := volumeOf_pos _ _
  have hdet : (Matrix.det fun i k : Fin (2 - 1) => ∑ j, (s.v (τ i.succ) j - s.v (τ 0) j) * (s.v (τ k.succ) j - s.v (τ 0) j)) =
      (s.v (τ 1) 0 - s.v (τ 0) 0) ^ 2 + (s.v (τ 1) 1 - s.v (τ 0) 1) ^ 2 := by
    refine (Matrix.det_fin_one (fun i k : Fin 1 => ∑ j, (s.v (τ i.succ) j - s.v (τ 0) j) * (s.v (τ k.succ) j - s.v (τ 0) j))).trans ?_
    rw [Fin.sum_univ_two]
    simp only [Fin.succ_zero_eq_one]
    ring
  rw [hdet] at hvol
  have hVe : V = norm2 ![(s.v (τ 1) - s.v (τ 0)) 1, -(s.v (τ 1) - s.v (τ 0)) 0] := by
    unfold norm2
    rw [eq_comm, Real.sqrt_eq_iff_mul_self_eq_of_pos hpos, Fin.sum_univ_two]
    simp only [Nat.factorial, Matrix.cons_val_zero, Matrix.cons_val_one, Pi.sub_apply] at hvol ⊢
    norm_num at hvol
    linarith
  unfold ufcScaledNormal
  rw [h1, Option.map_some, ← hV]
  congr 1
  unfold triangleNormal
  simp only [← hVe]
  funext i
  simp only [Pi.smul_apply, smul_eq_mul]
  rw [mul_div_cancel₀ _ hpos.ne']
  fin_cases i <;> rfl

/-- The scaled normal of a UFC tetrahedron is minus the cross product of the edges at the first vertex of the facet. -/
theorem ufc_scaled_three {s : SimplexCell (Fin 3 → ℝ)} (hs : ProperSimplex ℝ s) {sv : ℕ → List ℝ} (hv : FacetVolumes s sv) {e : ℕ}
    {τ : Fin 3 → ℕ} (h : HasEntity s.topo 2 e (List.ofFn τ)) :
    ufcScaledNormal s sv e = some (-cross (s.v (τ 1) - s.v (τ 0)) (s.v (τ 2) - s.v (τ 0))) := by
  obtain ⟨τ', t1, t2, t3, t4⟩ := entity_tuple hs h
  obtain rfl := ofFn_inj' t3
  have h1 : ufcNormal 3 s e = some (tetNormal (s.v (τ 0)) (s.v (τ 1)) (s.v (τ 2))) := by
    change (entityVerts s 2 e).bind _ = _
    rw [show entityVerts s 2 e = _ from t4]
    rfl
  have hvol := hv e τ h
  set V := volumeOf (sv e) (3 - 1) with hV
  have hpos : 0 < V := volumeOf_pos _ _
  have hVe : 2 * V = norm2 (cross (s.v (τ 1) - s.v (τ 0)) (s.v (τ 2) - s.v (τ 0))) := by
    have hdet := Matrix.det_fin_two (fun i k : Fin 2 => ∑ j, (s.v (τ i.succ) j - s.v (τ 0) j) * (s.v (τ k.succ) j - s.v (τ 0) j))
    have hvol' := hvol.trans hdet
    unfold norm2
    rw [eq_comm, Real.sqrt_eq_iff_mul_self_eq_of_pos (by linarith), Fin.sum_univ_three]
    simp only [Fin.sum_univ_three, Fin.succ_zero_eq_one, Fin.succ_one_eq_two] at hvol'
    simp only [Nat.factorial, cross, Pi.sub_apply, Matrix.cons_val_zero, Matrix.cons_val_one, Matrix.cons_val] at hvol' ⊢
    norm_num at hvol'
    linear_combination hvol'
  unfold ufcScaledNormal
  rw [h1, Option.map_some, ← hV]
  congr 1
  unfold tetNormal
  simp only [← hVe]
  funext i
  simp only [Pi.smul_apply, smul_eq_mul, Pi.neg_apply]
  field_simp

variable {X : ℕ → Fin D → ℝ} {s s' : SimplexCell (Fin D → ℝ)} {A A' : Matrix (Fin D) (Fin D) ℝ} {b b' : Fin D → ℝ} {g g' : ℕ → ℕ}

private theorem rot_map {A : Matrix (Fin 2) (Fin 2) ℝ} (hA : A.det ≠ 0) (b u v : Fin 2 → ℝ) :
    physNormal A ![v 1 - u 1, -(v 0 - u 0)] =
      ![cellMap A b v 1 - cellMap A b u 1, -(cellMap A b v 0 - cellMap A b u 0)] := by
  rw [physNormal_adj hA, Matrix.adjugate_fin_two]
  funext i
  fin_cases i <;>
  · simp [cellMap, Matrix.mulVec, dotProduct, Fin.sum_univ_two]
    ring

private theorem cross_map {A : Matrix (Fin 3) (Fin 3) ℝ} (hA : A.det ≠ 0) (b u v w : Fin 3 → ℝ) :
    physNormal A (-cross (v - u) (w - u)) = -cross (cellMap A b v - cellMap A b u) (cellMap A b w - cellMap A b u) := by
  rw [physNormal_adj hA, Matrix.adjugate_fin_three]
  funext i
  fin_cases i <;>
  · simp [cellMap, cross, Matrix.mulVec, dotProduct, Fin.sum_univ_three]
    ring

/-- C68: the scaled normals of UFC cells are consistent: on a facet shared by two cells of a mesh, the normals computed on the two
reference cells are mapped to the same vector. -/
theorem ufc_scaled_normals_match (hD : D = 2 ∨ D = 3) (hs : ProperSimplex ℝ s) (hs' : ProperSimplex ℝ s') {sv sv' : ℕ → List ℝ}
    (hv : FacetVolumes s sv) (hv' : FacetVolumes s' sv') (hm : InMesh X s A b g) (hm' : InMesh X s' A' b' g') {e e' : ℕ} {t t' : List ℕ}
    (ht : HasEntity s.topo (D - 1) e t) (ht' : HasEntity s'.topo (D - 1) e' t') (hsh : SharedEntity g t g' t') :
    ∃ n n' : Fin D → ℝ, ufcScaledNormal s sv e = some n ∧ ufcScaledNormal s' sv' e' = some n' ∧ physNormal A' n' = physNormal A n := by
  have hmap := (shared_tuple hs hs' hm hm' ht ht' hsh).2
  obtain ⟨τ, t1, t2, rfl, t4⟩ := entity_tuple hs ht
  obtain ⟨τ', t1', t2', rfl, t4'⟩ := entity_tuple hs' ht'
  have hV := shared_verts hm hm' t2 t2' hmap
  rcases hD with rfl | rfl
  · refine ⟨_, _, ufc_scaled_two hs hv ht, ufc_scaled_two hs' hv' ht', ?_⟩
    rw [rot_map hm.regular b, rot_map hm'.regular b']
    have h0 := hV 0
    have h1 := hV 1
    rw [h0, h1]
  · refine ⟨_, _, ufc_scaled_three hs hv ht, ufc_scaled_three hs' hv' ht', ?_⟩
    rw [cross_map hm.regular b, cross_map hm'.regular b']
    have h0 := hV 0
    have h1 := hV 1
    have h2 := hV 2
    rw [h0, h1, h2]

end
end FIAT
