/-
C04: `polynomial_dimension` and `get_num_members` are the dimension of the space of polynomials of
total degree at most `k`.
-/
import Verif.Model.PolyDim
import Verif.Lemmas.MvPoly
import Mathlib.Data.Real.Basic
import Mathlib.Tactic.Ring
import Mathlib.Tactic.NormNum
import Mathlib.Tactic.Linarith

namespace FIAT
open MvPolynomial

/-- Specification: the dimension of the real polynomials in `d` variables of total degree at most `k`. -/
noncomputable def dimP (d k : ℕ) : ℕ := Module.finrank ℝ (restrictTotalDegree (Fin d) ℝ k)

theorem choose_one' (n : ℕ) : (n + 1).choose 1 = n + 1 := by simp

theorem choose_two' (n : ℕ) : (n + 1) * (n + 2) = (n + 2).choose 2 * 2 := by
  have h := Nat.triangle_succ (n + 1)
  have h1 : (n + 2).choose 2 = (n + 2) * (n + 1) / 2 := by rw [Nat.choose_two_right]; rfl
  have h2 : 2 ∣ (n + 2) * (n + 1) := by
    have := Nat.even_mul_succ_self (n + 1)
    rw [mul_comm] at this
    exact this.two_dvd
  rw [h1, Nat.div_mul_cancel h2]; ring

theorem choose_three' (n : ℕ) : (n + 1) * (n + 2) * (n + 3) = (n + 3).choose 3 * 6 := by
  have h := Nat.ascFactorial_eq_factorial_mul_choose n 3
  simp only [Nat.ascFactorial, Nat.factorial] at h
  have : n + 3 = n + 2 + 1 := rfl
  nlinarith [h]

/-- C04: for every simplex shape of dimension 1, 2, 3 and every degree. -/
theorem num_members_eq_dimP (d k : ℕ) (h1 : 1 ≤ d) (h3 : d ≤ 3) :
    getNumMembers d k = some (dimP d k) := by
  unfold dimP
  rw [finrank_restrictTotalDegree]
  have : d = 1 ∨ d = 2 ∨ d = 3 := by omega
  rcases this with rfl | rfl | rfl
  · simp [getNumMembers, POINT, LINE]
  · simp only [getNumMembers, POINT, LINE, TRIANGLE]
    rw [choose_two', Nat.mul_div_cancel _ (by norm_num)]; simp
  · simp only [getNumMembers, POINT, LINE, TRIANGLE, TETRAHEDRON]
    rw [choose_three', Nat.mul_div_cancel _ (by norm_num)]; simp

/-- C04: `polynomial_dimension` for non-negative degree. -/
theorem polynomial_dimension_eq_dimP (d k : ℕ) (h1 : 1 ≤ d) (h3 : d ≤ 3) :
    polynomialDimension d (k : ℤ) = some (dimP d k : ℤ) := by
  unfold dimP
  rw [finrank_restrictTotalDegree]
  have : d = 1 ∨ d = 2 ∨ d = 3 := by omega
  rcases this with rfl | rfl | rfl
  · have h0 : (0 : ℤ) ≤ (k : ℤ) + 1 := by omega
    simp [polynomialDimension, POINT, LINE, max_eq_right h0]
  · have h2 := choose_two' k
    have h2' : ((k : ℤ) + 1) * (k + 2) = ((k + 2).choose 2 : ℕ) * 2 := by exact_mod_cast h2
    simp only [polynomialDimension, POINT, LINE, TRIANGLE]
    rw [h2', Int.mul_fdiv_cancel _ (by norm_num)]; simp
  · have h2 := choose_three' k
    have h2' : ((k : ℤ) + 1) * (k + 2) * (k + 3) = ((k + 3).choose 3 : ℕ) * 6 := by exact_mod_cast h2
    simp only [polynomialDimension, POINT, LINE, TRIANGLE, TETRAHEDRON]
    rw [h2', Int.mul_fdiv_cancel _ (by norm_num)]; simp

/-- C04 on a point: constants only. -/
theorem polynomial_dimension_point (k : ℤ) :
    polynomialDimension POINT k = if k > 0 then none else some 1 := by
  simp [polynomialDimension]

/-- C04, negative degrees: the value is `0` on intervals and tetrahedra, and on triangles for
degrees `-1` and `-2`.  The full claim ("`0` for every negative degree") fails on triangles, see
`polynomial_dimension_neg_triangle`. -/
theorem polynomial_dimension_neg_partial (k : ℤ) (hk : k < 0) :
    polynomialDimension LINE k = some 0 ∧ polynomialDimension TETRAHEDRON k = some 0 ∧
      (-2 ≤ k → polynomialDimension TRIANGLE k = some 0) := by
  refine ⟨?_, ?_, ?_⟩
  · simp only [polynomialDimension, POINT, LINE]
    rw [max_eq_left (by omega)]; simp
  · simp only [polynomialDimension, POINT, LINE, TRIANGLE, TETRAHEDRON]
    have h : (k + 1) * (k + 2) * (k + 3) ≤ 0 := by
      have : k = -1 ∨ k = -2 ∨ k ≤ -3 := by omega
      rcases this with rfl | rfl | h
      · norm_num
      · norm_num
      · have h1 : 0 ≤ (k + 1) * (k + 2) := by nlinarith
        exact mul_nonpos_of_nonneg_of_nonpos h1 (by omega)
    have h2 : Int.fdiv ((k + 1) * (k + 2) * (k + 3)) 6 ≤ 0 := by
      rw [Int.fdiv_eq_ediv_of_nonneg _ (by norm_num)]; omega
    rw [max_eq_left h2]; simp
  · intro h
    have : k = -1 ∨ k = -2 := by omega
    rcases this with rfl | rfl <;> simp [polynomialDimension, POINT, LINE, TRIANGLE]

/-- C04 fails for degrees `≤ -3` on triangles: the value is positive. -/
theorem polynomial_dimension_neg_triangle (k : ℤ) (hk : k ≤ -3) :
    ∃ v, polynomialDimension TRIANGLE k = some v ∧ 0 < v := by
  refine ⟨_, by simp [polynomialDimension, POINT, LINE, TRIANGLE]; rfl, ?_⟩
  have h : 2 ≤ (k + 1) * (k + 2) := by nlinarith
  rw [Int.fdiv_eq_ediv_of_nonneg _ (by norm_num)]
  apply lt_max_of_lt_left
  omega

/-- Non-vacuity: quadratics on the triangle; degree `-3` on the triangle. -/
example : polynomialDimension TRIANGLE 2 = some 6 := by decide
example : polynomialDimension TRIANGLE (-3) = some 1 := by decide

end FIAT
