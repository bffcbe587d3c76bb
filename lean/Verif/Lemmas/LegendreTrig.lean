/-
The Legendre polynomial `P_m(cos θ)` is a combination of the cosines of `(m - 2 j) θ` with positive coefficients, so it has no zero
with `θ ≤ π / (2 m)`.
-/
import Verif.Props.Jacobi
import Mathlib.RingTheory.PowerSeries.Derivative
import Mathlib.Data.Nat.Choose.Central
import Mathlib.Analysis.SpecialFunctions.Trigonometric.Basic
import Mathlib.Analysis.SpecialFunctions.Trigonometric.Inverse

namespace FIAT
open PowerSeries

/-- `4^(-n) (2 n choose n)`. -/
noncomputable def cbin (n : ℕ) : ℝ := Nat.centralBinom n / 4 ^ n

theorem cbin_pos (n : ℕ) : 0 < cbin n := by
  unfold cbin
  have := Nat.centralBinom_pos n
  positivity

theorem cbin_succ (n : ℕ) : ((n : ℝ) + 1) * cbin (n + 1) = (n + 1 / 2) * cbin n := by
  unfold cbin
  have h : ((n : ℝ) + 1) * Nat.centralBinom (n + 1) = 2 * (2 * n + 1) * Nat.centralBinom n := by
    exact_mod_cast Nat.succ_mul_centralBinom_succ n
  rw [pow_succ, mul_div_assoc', h]
  field_simp
  ring

/-- `(1 - z t)^(-1/2)`. -/
noncomputable def rootSeries (z : ℂ) : ℂ⟦X⟧ := mk fun n => (cbin n : ℂ) * z ^ n

theorem rootSeries_ode (z : ℂ) : (1 - C z * X) * d⁄dX ℂ (rootSeries z) = C (z / 2) * rootSeries z := by
  ext n
  have h : ((n : ℂ) + 1) * (cbin (n + 1) : ℂ) = (n + 1 / 2) * cbin n := by
    have := congrArg (Complex.ofReal) (cbin_succ n)
    push_cast at this
    exact this
  have h1 : ∀ n, coeff n (X * d⁄dX ℂ (rootSeries z)) = n * (cbin n * z ^ n) := by
    intro n
    rcases n with _ | n
    · simp
    · rw [coeff_succ_X_mul, coeff_derivative, rootSeries, coeff_mk]
      push_cast
      ring
  rw [sub_mul, one_mul, mul_assoc, map_sub, coeff_C_mul, h1, coeff_C_mul, coeff_derivative, rootSeries, coeff_mk, coeff_mk, pow_succ]
  linear_combination z ^ n * z * h

/-- The coefficients of `((1 - z t) (1 - w t))^(-1/2)`. -/
noncomputable def legSum (z w : ℂ) (m : ℕ) : ℂ := coeff m (rootSeries z * rootSeries w)

theorem legSum_rec (z w : ℂ) (h : z * w = 1) (n : ℕ) :
    ((n : ℂ) + 2) * legSum z w (n + 2) = (2 * n + 3) * ((z + w) / 2) * legSum z w (n + 1) - (n + 1) * legSum z w n := by
  set F := rootSeries z * rootSeries w with hF
  have hode : (1 - C z * X) * (1 - C w * X) * d⁄dX ℂ F = (C ((z + w) / 2) - X) * F := by
    rw [hF, Derivation.leibniz]
    simp only [smul_eq_mul]
    have h1 := rootSeries_ode z
    have h2 := rootSeries_ode w
    have h3 : (C z : ℂ⟦X⟧) * C w = 1 := by rw [← map_mul, h, map_one]
    have h4 : (C ((z + w) / 2) : ℂ⟦X⟧) = C (z / 2) + C (w / 2) := by rw [← map_add]; congr 1; ring
    have h5 : (C (z / 2) : ℂ⟦X⟧) * C w = C (1 / 2) := by rw [← map_mul]; congr 1; linear_combination h / 2
    have h6 : (C (w / 2) : ℂ⟦X⟧) * C z = C (1 / 2) := by rw [← map_mul]; congr 1; linear_combination h / 2
    have h7 : (C (1 / 2) : ℂ⟦X⟧) + C (1 / 2) = 1 := by rw [← map_add]; norm_num
    rw [h4]
    linear_combination (1 - C z * X) * rootSeries z * h2 + (1 - C w * X) * rootSeries w * h1 - X * rootSeries z * rootSeries w * (h5 + h6 + h7)
  have hG : ∀ n, coeff n (X * d⁄dX ℂ F) = n * coeff n F := by
    intro n
    rcases n with _ | n
    · simp
    · rw [coeff_succ_X_mul, coeff_derivative]
      push_cast
      ring
  have h3 : (C z : ℂ⟦X⟧) * C w = 1 := by rw [← map_mul, h, map_one]
  have hode' : d⁄dX ℂ F - C (z + w) * (X * d⁄dX ℂ F) + X * (X * d⁄dX ℂ F) = C ((z + w) / 2) * F - X * F := by
    rw [map_add]
    linear_combination hode - X ^ 2 * d⁄dX ℂ F * h3
  have := congrArg (coeff (n + 1)) hode'
  rw [map_add, map_sub, map_sub, coeff_C_mul, hG, coeff_succ_X_mul, hG, coeff_C_mul, coeff_succ_X_mul, coeff_derivative] at this
  push_cast at this
  unfold legSum
  rw [← hF]
  linear_combination this

theorem legSum_eq (z w : ℂ) (h : z * w = 1) (m : ℕ) :
    legSum z w m = Polynomial.aeval ((z + w) / 2) (jacobiPoly (0 : ℝ) 0 m) := by
  induction m using Nat.strong_induction_on with
  | _ m ih =>
    rcases m with _ | _ | n
    · simp [legSum, coeff_mul, rootSeries, cbin, jacobiPoly_zero]
    · rw [jacobiPoly_one]
      have h1 : (cbin 0 : ℂ) = 1 := by simp [cbin]
      have h2 : (cbin 1 : ℂ) = 1 / 2 := by
        have : cbin 1 = 1 / 2 := by norm_num [cbin, Nat.centralBinom]
        rw [this]; norm_num
      rw [legSum, coeff_mul, Finset.Nat.sum_antidiagonal_eq_sum_range_succ_mk, Finset.sum_range_succ, Finset.sum_range_one]
      simp only [rootSeries, coeff_mk, zero_add, Nat.sub_self, Nat.sub_zero, h1, h2, pow_zero, pow_one]
      simp
      ring
    · have h1 := legSum_rec z w h n
      rw [ih (n + 1) (by omega), ih n (by omega)] at h1
      have h2 := congrArg (Polynomial.aeval ((z + w) / 2)) (jacobiPoly_rec (0 : ℝ) 0 n)
      simp only [map_mul, map_sub, map_add, Polynomial.aeval_C, Polynomial.aeval_X, rA1, rA2, rA3, rA4] at h2
      simp only [map_mul, map_sub, map_add, map_natCast, map_ofNat, map_zero, map_one, Nat.cast_add, Nat.cast_ofNat, add_zero, mul_zero,
        sub_zero, zero_add] at h2
      have hn1 : ((n : ℂ) + 1) ≠ 0 := by exact_mod_cast Nat.succ_ne_zero n
      have hn2 : ((n : ℂ) + 2) ≠ 0 := by exact_mod_cast Nat.succ_ne_zero (n + 1)
      apply mul_left_cancel₀ (mul_ne_zero hn2 (mul_ne_zero hn1 hn2))
      linear_combination ((n : ℂ) + 1) * (n + 2) * h1 - h2 / 4

/-- `P_m(-cos θ)` is not zero for `0 ≤ θ < π / (2 m)`. -/
theorem legendre_ne_zero_outside (m : ℕ) (hm : 1 ≤ m) (θ : ℝ) (h0 : 0 ≤ θ) (h1 : θ < Real.pi / (2 * m)) :
    (jacobiPoly (0 : ℝ) 0 m).eval (-Real.cos θ) ≠ 0 := by
  set z : ℂ := -Complex.exp (θ * Complex.I) with hz
  set w : ℂ := -Complex.exp (-(θ * Complex.I)) with hw
  have hzw : z * w = 1 := by
    rw [hz, hw, neg_mul_neg, ← Complex.exp_add, add_neg_cancel, Complex.exp_zero]
  have hx : (z + w) / 2 = ((-Real.cos θ : ℝ) : ℂ) := by
    rw [hz, hw]
    push_cast
    rw [Complex.cos]
    rw [neg_mul]
    ring
  have h2 := legSum_eq z w hzw m
  rw [hx, show Polynomial.aeval (((-Real.cos θ : ℝ)) : ℂ) (jacobiPoly (0 : ℝ) 0 m) =
    (((jacobiPoly (0 : ℝ) 0 m).eval (-Real.cos θ) : ℝ) : ℂ) by
      rw [← Complex.coe_algebraMap, Polynomial.aeval_algebraMap_apply_eq_algebraMap_eval]] at h2
  intro h3
  rw [h3, Complex.ofReal_zero, legSum, coeff_mul] at h2
  have h4 : ∀ p ∈ Finset.antidiagonal m, coeff p.1 (rootSeries z) * coeff p.2 (rootSeries w) =
      (-1) ^ m * ((cbin p.1 * cbin p.2 : ℝ) * Complex.exp ((((p.1 : ℝ) - p.2) * θ : ℝ) * Complex.I)) := by
    rintro ⟨i, j⟩ hp
    have hij : i + j = m := Finset.mem_antidiagonal.1 hp
    simp only [rootSeries, coeff_mk, hz, hw]
    rw [neg_pow, neg_pow (Complex.exp (-(θ * Complex.I))), ← Complex.exp_nat_mul, ← Complex.exp_nat_mul, ← hij, pow_add]
    have : Complex.exp ((((i : ℝ) - j) * θ : ℝ) * Complex.I) = Complex.exp (i * (θ * Complex.I)) * Complex.exp (j * -(θ * Complex.I)) := by
      rw [← Complex.exp_add]
      congr 1
      push_cast
      ring
    rw [this]
    push_cast
    ring
  rw [Finset.sum_congr rfl h4, ← Finset.mul_sum] at h2
  have h5 := (mul_eq_zero.1 h2).resolve_left (pow_ne_zero _ (by norm_num))
  have h6 := congrArg Complex.re h5
  rw [Complex.re_sum] at h6
  have hpos : 0 < ∑ p ∈ Finset.antidiagonal m, ((cbin p.1 * cbin p.2 : ℝ) * Complex.exp ((((p.1 : ℝ) - p.2) * θ : ℝ) * Complex.I)).re := by
    refine Finset.sum_pos ?_ ⟨(0, m), by simp⟩
    rintro ⟨i, j⟩ hp
    have hij : (i : ℝ) + j = m := by exact_mod_cast Finset.mem_antidiagonal.1 hp
    rw [Complex.re_ofReal_mul, Complex.exp_ofReal_mul_I_re]
    refine mul_pos (mul_pos (cbin_pos i) (cbin_pos j)) ?_
    have hm' : (0 : ℝ) < m := by exact_mod_cast hm
    have hmt : m * θ < Real.pi / 2 := by
      rw [lt_div_iff₀ (by positivity)] at h1
      linarith
    have hi : (0 : ℝ) ≤ i := by positivity
    have hj : (0 : ℝ) ≤ j := by positivity
    have ei : (i : ℝ) * θ ≤ m * θ := mul_le_mul_of_nonneg_right (by linarith) h0
    have ej : (j : ℝ) * θ ≤ m * θ := mul_le_mul_of_nonneg_right (by linarith) h0
    have ei0 : 0 ≤ (i : ℝ) * θ := mul_nonneg hi h0
    have ej0 : 0 ≤ (j : ℝ) * θ := mul_nonneg hj h0
    apply Real.cos_pos_of_mem_Ioo
    constructor <;> nlinarith
  rw [h6] at hpos
  simp at hpos

/-- The Chebyshev point with which the iteration starts is not to the right of any root of the Legendre polynomial. -/
theorem legendre_root_ge (m : ℕ) (hm : 1 ≤ m) (ξ : ℝ) (h : (jacobiPoly (0 : ℝ) 0 m).eval ξ = 0) (h1 : -1 < ξ) :
    -Real.cos (Real.pi / (2 * m)) ≤ ξ := by
  by_contra hc
  push Not at hc
  have hm' : (1 : ℝ) ≤ m := by exact_mod_cast hm
  have hle : Real.pi / (2 * m) ≤ Real.pi := div_le_self Real.pi_pos.le (by linarith)
  have hge : 0 ≤ Real.pi / (2 * m) := by have := Real.pi_pos; positivity
  refine legendre_ne_zero_outside m hm (Real.arccos (-ξ)) (Real.arccos_nonneg _) ?_ ?_
  · rw [← Real.arccos_cos hge hle]
    refine Real.arccos_lt_arccos ?_ (by linarith) (by linarith)
    linarith [Real.neg_one_le_cos (Real.pi / (2 * m))]
  · rw [Real.cos_arccos (by linarith [Real.cos_le_one (Real.pi / (2 * m)), Real.neg_one_le_cos (Real.pi / (2 * m))]) (by linarith), neg_neg, h]

end FIAT
