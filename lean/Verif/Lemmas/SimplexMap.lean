/-
The reference simplex [-1,..] is the convex hull of the vertices of the default simplices, and integrals over
another simplex are pulled back to it.
-/
import Verif.Lemmas.Collapse
import Verif.Model.Quadrature
import Mathlib.Analysis.Convex.Combination
import Mathlib.MeasureTheory.Function.Jacobian
import Mathlib.LinearAlgebra.AffineSpace.Independent
import Mathlib.LinearAlgebra.Determinant

namespace FIAT
open MeasureTheory

/-- Vertex `i` of the default simplex. -/
def dvert (d : ℕ) : Fin (d + 1) → Fin d → ℝ := fun i l => if (l : ℕ) + 1 = i then 1 else -1

theorem dvert_zero (d : ℕ) (l : Fin d) : dvert d 0 l = -1 := by simp [dvert]

theorem dvert_succ (d : ℕ) (i l : Fin d) : dvert d i.succ l = if l = i then 1 else -1 := by
  simp [dvert, Fin.ext_iff]

theorem defaultVerts_eq (d : ℕ) : defaultVerts d = List.ofFn (dvert d) := rfl

theorem dvert_mem (d : ℕ) (i : Fin (d + 1)) : dvert d i ∈ refSimplex d := by
  constructor
  · intro l; unfold dvert; split <;> norm_num
  · refine Fin.cases ?_ (fun i => ?_) i
    · simp [dvert_zero]
    · simp only [dvert_succ]
      have : ∀ l, ((if l = i then (1 : ℝ) else -1) + 1) = if l = i then 2 else 0 := by
        intro l; split <;> norm_num
      simp [this]

theorem refSimplex_convex (d : ℕ) : Convex ℝ (refSimplex d) := by
  intro x hx y hy a b ha hb hab
  constructor
  · intro i
    have h1 := mul_le_mul_of_nonneg_left (hx.1 i) ha
    have h2 := mul_le_mul_of_nonneg_left (hy.1 i) hb
    simp only [Pi.add_apply, Pi.smul_apply, smul_eq_mul]
    nlinarith
  · have : ∑ i, ((a • x + b • y) i + 1) = a * ∑ i, (x i + 1) + b * ∑ i, (y i + 1) := by
      rw [Finset.mul_sum, Finset.mul_sum, ← Finset.sum_add_distrib]
      refine Finset.sum_congr rfl fun i _ => ?_
      simp only [Pi.add_apply, Pi.smul_apply, smul_eq_mul]
      linear_combination -hab
    rw [this]
    have h1 := mul_le_mul_of_nonneg_left hx.2 ha
    have h2 := mul_le_mul_of_nonneg_left hy.2 hb
    nlinarith

theorem hull_dvert (d : ℕ) : convexHull ℝ (Set.range (dvert d)) = refSimplex d := by
  apply Set.Subset.antisymm
  · apply convexHull_min _ (refSimplex_convex d)
    rintro _ ⟨i, rfl⟩
    exact dvert_mem d i
  · intro x hx
    refine mem_convexHull_of_exists_fintype
      (Fin.cons (1 - ∑ i, (x i + 1) / 2) fun i => (x i + 1) / 2 : Fin (d + 1) → ℝ) (dvert d) ?_ ?_
      (fun i => ⟨i, rfl⟩) ?_
    · intro i
      refine Fin.cases ?_ (fun i => ?_) i
      · rw [Fin.cons_zero, ← Finset.sum_div]; linarith [hx.2]
      · rw [Fin.cons_succ]; linarith [hx.1 i]
    · rw [Fin.sum_univ_succ]; simp
    · funext l
      rw [Fin.sum_univ_succ]
      simp only [Fin.cons_zero, Fin.cons_succ, Pi.add_apply, Pi.smul_apply, Finset.sum_apply, smul_eq_mul,
        dvert_zero, dvert_succ]
      have : ∀ i, (x i + 1) / 2 * (if l = i then (1 : ℝ) else -1) = (if l = i then x i + 1 else 0) - (x i + 1) / 2 := by
        intro i; split <;> ring
      simp only [this, Finset.sum_sub_distrib, Finset.sum_ite_eq, Finset.mem_univ, if_true]
      ring

theorem dvert_independent (d : ℕ) : AffineIndependent ℝ (dvert d) := by
  rw [affineIndependent_iff_of_fintype]
  intro w hw hs
  rw [Finset.weightedVSub_eq_linear_combination _ hw] at hs
  have h1 : ∀ l : Fin d, w l.succ = 0 := by
    intro l
    have := congrFun hs l
    rw [Fin.sum_univ_succ] at this
    simp only [Pi.add_apply, Pi.smul_apply, Finset.sum_apply, smul_eq_mul, dvert_zero, dvert_succ, Pi.zero_apply] at this
    have e : ∀ i, w i.succ * (if l = i then (1 : ℝ) else -1) = (if l = i then 2 * w i.succ else 0) - w i.succ := by
      intro i; split <;> ring
    simp only [e, Finset.sum_sub_distrib, Finset.sum_ite_eq, Finset.mem_univ, if_true] at this
    rw [Fin.sum_univ_succ] at hw
    linarith
  intro i
  refine Fin.cases ?_ h1 i
  rw [Fin.sum_univ_succ] at hw
  simpa [h1] using hw

/-- The matrix of the edge vectors from vertex 0. -/
def edgeMatrix {d : ℕ} (v : Fin (d + 1) → Fin d → ℝ) : Matrix (Fin d) (Fin d) ℝ :=
  Matrix.of fun i j => v j.succ i - v 0 i

theorem edge_of_map {d : ℕ} (v : Fin (d + 1) → Fin d → ℝ) (A : Matrix (Fin d) (Fin d) ℝ) (b : Fin d → ℝ)
    (h : ∀ i, A.mulVec (dvert d i) + b = v i) : edgeMatrix v = (2 : ℝ) • A := by
  ext i j
  simp only [edgeMatrix, Matrix.of_apply, ← h, Matrix.smul_apply, smul_eq_mul, Pi.add_apply, Matrix.mulVec, dotProduct,
    dvert_zero, dvert_succ]
  have : ∀ l, A i l * (if l = j then (1 : ℝ) else -1) = (if l = j then 2 * A i l else 0) - A i l := by
    intro l; split <;> ring
  simp only [this, Finset.sum_sub_distrib, Finset.sum_ite_eq', Finset.mem_univ, if_true, mul_neg, mul_one,
    Finset.sum_neg_distrib]
  ring

theorem det_of_map {d : ℕ} (v : Fin (d + 1) → Fin d → ℝ) (A : Matrix (Fin d) (Fin d) ℝ) (b : Fin d → ℝ)
    (h : ∀ i, A.mulVec (dvert d i) + b = v i) : (edgeMatrix v).det = 2 ^ d * A.det := by
  rw [edge_of_map v A b h, Matrix.det_smul]; simp

/-- The integral over the simplex with vertices `v`, pulled back to the reference simplex. -/
theorem integral_simplex {d : ℕ} (v : Fin (d + 1) → Fin d → ℝ) (A : Matrix (Fin d) (Fin d) ℝ) (b : Fin d → ℝ)
    (h : ∀ i, A.mulVec (dvert d i) + b = v i) (hA : A.det ≠ 0) (f : (Fin d → ℝ) → ℝ) :
    ∫ x in convexHull ℝ (Set.range v), f x = |A.det| * ∫ x in refSimplex d, f (affineApply A b x) := by
  let φ : (Fin d → ℝ) →ᵃ[ℝ] (Fin d → ℝ) := (Matrix.toLin' A).toAffineMap + AffineMap.const ℝ _ b
  have hφ : ∀ x, φ x = affineApply A b x := by intro x; simp [φ, affineApply]
  have himg : convexHull ℝ (Set.range v) = affineApply A b '' refSimplex d := by
    rw [← hull_dvert, show affineApply A b = φ from (funext hφ).symm, AffineMap.image_convexHull, ← Set.range_comp]
    congr 2
    funext i
    rw [Function.comp_apply, hφ, affineApply, h]
  have hinj : Function.Injective (affineApply A b) := by
    intro x y hxy
    have : A.mulVec x = A.mulVec y := by simpa [affineApply] using hxy
    have hu : IsUnit A := (Matrix.isUnit_iff_isUnit_det A).2 (isUnit_iff_ne_zero.2 hA)
    exact Matrix.mulVec_injective_of_isUnit hu this
  rw [himg, integral_image_eq_integral_abs_det_fderiv_smul volume (refSimplex_measurable d)
    (f' := fun _ => (Matrix.toLin' A).toContinuousLinearMap) _ hinj.injOn]
  · simp only [smul_eq_mul]
    rw [integral_const_mul]
    congr 2
    rw [ContinuousLinearMap.det, LinearMap.coe_toContinuousLinearMap, LinearMap.det_toLin']
  · intro x _
    have := (Matrix.toLin' A).toContinuousLinearMap.hasFDerivWithinAt (s := refSimplex d) (x := x)
    have h2 := this.add_const b
    exact h2

end FIAT
