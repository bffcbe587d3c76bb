/-
Integrals of monomials over the UFC simplex (Dirichlet's formula), and of polynomials by linearity.
-/
import Verif.Lemmas.SimplexMap
import Verif.Lemmas.JacobiInt

namespace FIAT
open MeasureTheory

/-- Vertex `i` of the UFC simplex. -/
def ufcVert (d : ℕ) : Fin (d + 1) → Fin d → ℝ := fun i l => if (l : ℕ) + 1 = i then 1 else 0

private theorem beta_half (m n : ℕ) : ∫ z in (-1 : ℝ)..1, ((1 - z) / 2) ^ m * ((1 + z) / 2) ^ n =
    2 * (m.factorial * n.factorial) / (m + n + 1).factorial := by
  have h := pint_jw m n
  unfold pint at h
  simp only [jw_eval] at h
  have e : ∀ z : ℝ, ((1 - z) / 2) ^ m * ((1 + z) / 2) ^ n = ((1 - z) ^ m * (1 + z) ^ n) * (2 ^ (m + n))⁻¹ := by
    intro z; rw [div_pow, div_pow, pow_add]; field_simp
  simp only [e]
  rw [intervalIntegral.integral_mul_const, h, pow_succ]
  field_simp

theorem ref_monomial (d : ℕ) (a : Fin d → ℕ) : ∫ x in refSimplex d, ∏ i, ((x i + 1) / 2) ^ a i =
    2 ^ d * (∏ i, (a i).factorial : ℕ) / (d + ∑ i, a i).factorial := by
  induction d with
  | zero => rw [integral_refSimplex_zero]; simp
  | succ d ih =>
    rw [integral_refSimplex_succ d _ (by fun_prop)]
    have e : ∀ z : ℝ, ((1 - z) / 2) ^ d * ∫ x in refSimplex d, ∏ i : Fin (d + 1),
          (((Fin.snoc (fun i => (1 - z) / 2 * (x i + 1) - 1) z : Fin (d + 1) → ℝ) i + 1) / 2) ^ a i =
        (((1 - z) / 2) ^ (d + ∑ i : Fin d, a i.castSucc) * ((1 + z) / 2) ^ a (Fin.last d)) *
          ∫ x in refSimplex d, ∏ i : Fin d, ((x i + 1) / 2) ^ a i.castSucc := by
      intro z
      rw [← integral_const_mul, ← integral_const_mul]
      refine integral_congr_ae (Filter.Eventually.of_forall fun x => ?_)
      beta_reduce
      rw [Fin.prod_univ_castSucc]
      simp only [Fin.snoc_castSucc, Fin.snoc_last]
      have h1 : ∀ i : Fin d, (((1 - z) / 2 * (x i + 1) - 1 + 1) / 2) ^ a i.castSucc =
          ((1 - z) / 2) ^ a i.castSucc * ((x i + 1) / 2) ^ a i.castSucc := by
        intro i; rw [← mul_pow]; congr 1; ring
      simp only [h1]
      rw [Finset.prod_mul_distrib, Finset.prod_pow_eq_pow_sum, pow_add, add_comm z 1]
      ring
    simp only [e]
    rw [intervalIntegral.integral_mul_const, beta_half, ih, Fin.prod_univ_castSucc, Fin.sum_univ_castSucc]
    push_cast
    have h2 : d + ∑ i : Fin d, a i.castSucc + a (Fin.last d) + 1 = d + 1 + (∑ i : Fin d, a i.castSucc + a (Fin.last d)) := by
      ring
    rw [h2, pow_succ]
    have h3 : ((d + ∑ i : Fin d, a i.castSucc).factorial : ℝ) ≠ 0 := by positivity
    field_simp

theorem ufcVert_zero (d : ℕ) (l : Fin d) : ufcVert d 0 l = 0 := by simp [ufcVert]

theorem ufc_integral (d : ℕ) (f : (Fin d → ℝ) → ℝ) :
    ∫ x in convexHull ℝ (Set.range (ufcVert d)), f x = (1 / 2) ^ d * ∫ x in refSimplex d, f (fun i => (x i + 1) / 2) := by
  have hm : ∀ x : Fin d → ℝ, affineApply ((1 / 2 : ℝ) • (1 : Matrix (Fin d) (Fin d) ℝ)) (fun _ => 1 / 2) x =
      fun i => (x i + 1) / 2 := by
    intro x
    funext i
    simp only [affineApply, Pi.add_apply, Matrix.smul_mulVec, Matrix.one_mulVec, Pi.smul_apply, smul_eq_mul]
    ring
  have hd : ((1 / 2 : ℝ) • (1 : Matrix (Fin d) (Fin d) ℝ)).det = (1 / 2) ^ d := by rw [Matrix.det_smul]; simp
  rw [integral_simplex (ufcVert d) ((1 / 2 : ℝ) • 1) (fun _ => 1 / 2) ?_ (by rw [hd]; positivity), hd,
    abs_of_pos (by positivity)]
  · simp only [hm]
  · intro i
    have := hm (dvert d i)
    unfold affineApply at this
    rw [this]
    funext l
    simp only [dvert, ufcVert]
    split <;> norm_num

/-- Dirichlet's formula. -/
theorem ufc_monomial (d : ℕ) (a : Fin d → ℕ) : ∫ x in convexHull ℝ (Set.range (ufcVert d)), ∏ i, x i ^ a i =
    (∏ i, (a i).factorial : ℕ) / (d + ∑ i, a i).factorial := by
  rw [ufc_integral, ref_monomial, ← mul_div_assoc, ← mul_assoc, ← mul_pow]
  norm_num

theorem hull_compact {d : ℕ} (v : Fin (d + 1) → Fin d → ℝ) : IsCompact (convexHull ℝ (Set.range v)) :=
  Set.Finite.isCompact_convexHull ℝ (Set.finite_range v)

theorem hull_integrable {d : ℕ} (v : Fin (d + 1) → Fin d → ℝ) {f : (Fin d → ℝ) → ℝ} (hf : Continuous f) :
    IntegrableOn f (convexHull ℝ (Set.range v)) :=
  hf.continuousOn.integrableOn_compact (hull_compact v)

/-- The integral of a polynomial over the UFC simplex. -/
theorem ufc_poly (d : ℕ) (p : MvPolynomial (Fin d) ℝ) :
    ∫ x in convexHull ℝ (Set.range (ufcVert d)), MvPolynomial.eval x p =
      ∑ m ∈ p.support, p.coeff m * ((∏ i, (m i).factorial : ℕ) / (d + ∑ i, m i).factorial) := by
  simp only [MvPolynomial.eval_eq']
  rw [integral_finset_sum]
  · refine Finset.sum_congr rfl fun m _ => ?_
    rw [integral_const_mul, ufc_monomial]
  · intro m _
    exact hull_integrable _ (by fun_prop)

end FIAT
