/-
Golub-Welsch: eigenvalues of a symmetric tridiagonal matrix as quadrature nodes.
-/
import Mathlib.LinearAlgebra.Matrix.NonsingularInverse
import Mathlib.LinearAlgebra.Matrix.DotProduct
import Mathlib.Algebra.Polynomial.AlgebraMap
import Mathlib.Algebra.Polynomial.Monic
import Mathlib.Algebra.Polynomial.Degree.Lemmas
import Mathlib.Data.Real.Sqrt
import Mathlib.Tactic.LinearCombination
import Mathlib.Tactic.Ring

namespace FIAT
open Polynomial Matrix

/-- The monic polynomials with the given recursion coefficients. -/
noncomputable def recPoly (alpha beta : ℕ → ℝ) : ℕ → ℝ[X]
  | 0 => 1
  | 1 => X - C (alpha 0)
  | k + 2 => (X - C (alpha (k + 1))) * recPoly alpha beta (k + 1) - C (beta (k + 1)) * recPoly alpha beta k

section rec
variable (alpha beta : ℕ → ℝ)

theorem recPoly_zero : recPoly alpha beta 0 = 1 := rfl
theorem recPoly_one : recPoly alpha beta 1 = X - C (alpha 0) := rfl
theorem recPoly_step (k : ℕ) : recPoly alpha beta (k + 2) =
    (X - C (alpha (k + 1))) * recPoly alpha beta (k + 1) - C (beta (k + 1)) * recPoly alpha beta k := rfl

theorem recPoly_monic_degree (k : ℕ) : (recPoly alpha beta k).Monic ∧ (recPoly alpha beta k).natDegree = k := by
  induction k using Nat.strong_induction_on with
  | _ k ih =>
    match k with
    | 0 => exact ⟨monic_one, natDegree_one⟩
    | 1 => exact ⟨monic_X_sub_C _, natDegree_X_sub_C _⟩
    | k + 2 =>
      obtain ⟨m1, d1⟩ := ih (k + 1) (by omega)
      obtain ⟨m0, d0⟩ := ih k (by omega)
      have hm : ((X - C (alpha (k + 1))) * recPoly alpha beta (k + 1)).Monic := (monic_X_sub_C _).mul m1
      have hd : ((X - C (alpha (k + 1))) * recPoly alpha beta (k + 1)).natDegree = k + 2 := by
        rw [(monic_X_sub_C _).natDegree_mul m1, natDegree_X_sub_C, d1]; ring
      have hlt : (C (beta (k + 1)) * recPoly alpha beta k).degree < ((X - C (alpha (k + 1))) * recPoly alpha beta (k + 1)).degree := by
        rw [degree_eq_natDegree hm.ne_zero, hd]
        refine lt_of_le_of_lt (degree_le_of_natDegree_le ((natDegree_C_mul_le _ _).trans d0.le)) ?_
        exact_mod_cast (by omega : k < k + 2)
      rw [recPoly_step]
      refine ⟨hm.sub_of_left hlt, ?_⟩
      rw [natDegree_eq_of_degree_eq (degree_sub_eq_left_of_degree_lt hlt), hd]

theorem recPoly_monic (k : ℕ) : (recPoly alpha beta k).Monic := (recPoly_monic_degree alpha beta k).1
theorem recPoly_degree (k : ℕ) : (recPoly alpha beta k).natDegree = k := (recPoly_monic_degree alpha beta k).2

/-- Two linear functionals that agree on the products agree up to degree `a + b`. -/
theorem functional_ext (L M : ℝ[X] →ₗ[ℝ] ℝ) (a b : ℕ)
    (h : ∀ i ≤ a, ∀ j ≤ b, L (recPoly alpha beta i * recPoly alpha beta j) = M (recPoly alpha beta i * recPoly alpha beta j))
    (q : ℝ[X]) (hq : q.natDegree ≤ a + b) : L q = M q := by
  suffices H : ∀ d ≤ a + b, ∀ q : ℝ[X], q.natDegree ≤ d → L q = M q from H _ le_rfl q hq
  intro d
  induction d with
  | zero =>
    intro _ q hq
    obtain ⟨c, rfl⟩ : ∃ c, q = C c := ⟨_, eq_C_of_natDegree_le_zero hq⟩
    have := h 0 (by omega) 0 (by omega)
    rw [recPoly_zero, mul_one] at this
    rw [← mul_one (C c), ← smul_eq_C_mul, map_smul, map_smul, this]
  | succ d ih =>
    intro hd q hq
    obtain ⟨i, j, hi, hj, hij⟩ : ∃ i j, i ≤ a ∧ j ≤ b ∧ i + j = d + 1 :=
      ⟨min a (d + 1), d + 1 - min a (d + 1), by omega, by omega, by omega⟩
    set p := recPoly alpha beta i * recPoly alpha beta j with hp
    have hmon : p.Monic := (recPoly_monic ..).mul (recPoly_monic ..)
    have hdeg : p.natDegree = d + 1 := by
      rw [hp, (recPoly_monic ..).natDegree_mul (recPoly_monic ..), recPoly_degree, recPoly_degree, hij]
    have hr : (q - C (q.coeff (d + 1)) * p).natDegree ≤ d := by
      rw [natDegree_le_iff_coeff_eq_zero]
      intro N hN
      rw [coeff_sub, coeff_C_mul]
      rcases Nat.lt_or_ge (d + 1) N with h1 | h1
      · rw [coeff_eq_zero_of_natDegree_lt (by omega), coeff_eq_zero_of_natDegree_lt (p := p) (by omega)]; ring
      · obtain rfl : N = d + 1 := by omega
        have : p.coeff (d + 1) = 1 := by rw [← hdeg]; exact hmon
        rw [this]; ring
    have h1 := ih (by omega) _ hr
    have h2 := h i hi j hj
    rw [← hp] at h2
    rw [← smul_eq_C_mul, map_sub, map_sub, map_smul, map_smul, h2] at h1
    linarith

end rec

/-- The polynomials are orthogonal with respect to `L`, with `L 1 = beta 0`. -/
def IsOrtho (L : ℝ[X] →ₗ[ℝ] ℝ) (alpha beta : ℕ → ℝ) : Prop :=
  L 1 = beta 0 ∧ ∀ (k : ℕ) (q : ℝ[X]), q.degree < (k : WithBot ℕ) → L (recPoly alpha beta k * q) = 0

theorem IsOrtho.ne {L : ℝ[X] →ₗ[ℝ] ℝ} {alpha beta : ℕ → ℝ} (h : IsOrtho L alpha beta) {i j : ℕ} (hij : i ≠ j) :
    L (recPoly alpha beta i * recPoly alpha beta j) = 0 := by
  have key : ∀ i j, j < i → L (recPoly alpha beta i * recPoly alpha beta j) = 0 := by
    intro i j hlt
    refine h.2 i _ ?_
    rw [degree_eq_natDegree (recPoly_monic ..).ne_zero, recPoly_degree]
    exact_mod_cast hlt
  rcases lt_or_gt_of_ne hij with h1 | h1
  · rw [mul_comm]; exact key j i h1
  · exact key i j h1

theorem IsOrtho.norm {L : ℝ[X] →ₗ[ℝ] ℝ} {alpha beta : ℕ → ℝ} (h : IsOrtho L alpha beta) (k : ℕ) :
    L (recPoly alpha beta k * recPoly alpha beta k) = ∏ i ∈ Finset.range (k + 1), beta i := by
  induction k with
  | zero => rw [recPoly_zero, mul_one, h.1]; simp
  | succ k ih =>
    rw [Finset.prod_range_succ, ← ih]
    set p := recPoly alpha beta
    have e1 : p (k + 1) * (X * p k) = p (k + 2) * p k + alpha (k + 1) • (p (k + 1) * p k) + beta (k + 1) • (p k * p k) := by
      have := recPoly_step alpha beta k
      simp only [smul_eq_C_mul]
      linear_combination (-(p k)) * this
    have e2 : L (p (k + 1) * (X * p k)) = beta (k + 1) * L (p k * p k) := by
      rw [e1, map_add, map_add, map_smul, map_smul, h.ne (by omega), h.ne (by omega)]
      simp
    have hd : (p (k + 1) - X * p k).degree < ((k + 1 : ℕ) : WithBot ℕ) := by
      have hm : (X * p k).Monic := monic_X.mul (recPoly_monic ..)
      have hmd : (X * p k).natDegree = k + 1 := by
        rw [monic_X.natDegree_mul (recPoly_monic ..), natDegree_X, recPoly_degree, add_comm]
      have hp1 := recPoly_monic alpha beta (k + 1)
      have := degree_sub_lt (p := p (k + 1)) (q := X * p k) (by
        rw [degree_eq_natDegree hp1.ne_zero, degree_eq_natDegree hm.ne_zero, recPoly_degree, hmd]) hp1.ne_zero (by
        rw [hp1.leadingCoeff, hm.leadingCoeff])
      rwa [degree_eq_natDegree hp1.ne_zero, recPoly_degree] at this
    have e3 := h.2 (k + 1) _ hd
    rw [mul_sub, map_sub] at e3
    linear_combination e3 + e2

section tri
variable {N : ℕ} (alpha beta : ℕ → ℝ)

/-- The symmetric tridiagonal matrix of the recursion coefficients. -/
noncomputable def jacMatrix (N : ℕ) (alpha beta : ℕ → ℝ) : Matrix (Fin N) (Fin N) ℝ :=
  Matrix.of fun i j => if i = j then alpha i else if (i : ℕ) + 1 = j then Real.sqrt (beta j)
    else if (j : ℕ) + 1 = i then Real.sqrt (beta i) else 0

/-- Unit vector, zero for an index out of range. -/
def unitN (N k : ℕ) : Fin N → ℝ := fun i => if (i : ℕ) = k then 1 else 0

/-- `sqrt(beta 1) ... sqrt(beta k)`. -/
noncomputable def sqrtProd (beta : ℕ → ℝ) (k : ℕ) : ℝ := ∏ i ∈ Finset.range k, Real.sqrt (beta (i + 1))

theorem jacMatrix_symm : (jacMatrix N alpha beta).transpose = jacMatrix N alpha beta := by
  ext i j
  simp only [Matrix.transpose_apply, jacMatrix, Matrix.of_apply]
  by_cases h : i = j
  · subst h; rfl
  · rw [if_neg h, if_neg (Ne.symm h)]
    by_cases h1 : (i : ℕ) + 1 = j
    · rw [if_neg (by omega), if_pos h1, if_pos h1]
    · rw [if_neg h1]
      by_cases h2 : (j : ℕ) + 1 = i
      · rw [if_pos h2, if_neg h1]
      · rw [if_neg h2, if_neg h1]

theorem jacMatrix_unit {k : ℕ} (hk : k < N) : (jacMatrix N alpha beta).mulVec (unitN N k) =
    (if k = 0 then 0 else Real.sqrt (beta k) • unitN N (k - 1)) + alpha k • unitN N k +
      Real.sqrt (beta (k + 1)) • unitN N (k + 1) := by
  funext i
  rw [Matrix.mulVec, dotProduct, Finset.sum_eq_single ⟨k, hk⟩]
  · by_cases h0 : k = 0
    · subst h0
      simp only [jacMatrix, Matrix.of_apply, unitN, if_true, Pi.add_apply, Pi.smul_apply, smul_eq_mul, Pi.zero_apply, mul_one,
        zero_add, Fin.ext_iff]
      by_cases h1 : (i : ℕ) = 0
      · rw [if_pos h1, if_pos h1, if_neg (by omega)]; simp [h1]
      · rw [if_neg h1, if_neg (by omega), if_neg h1]
        by_cases h2 : 1 = (i : ℕ)
        · rw [if_pos (by omega), if_pos (by omega), ← h2]; ring
        · rw [if_neg (by omega), if_neg (by omega)]; ring
    · rw [if_neg h0]
      simp only [jacMatrix, Matrix.of_apply, unitN, if_true, Pi.add_apply, Pi.smul_apply, smul_eq_mul, mul_one, Fin.ext_iff]
      by_cases h1 : (i : ℕ) = k
      · rw [if_pos h1, if_neg (by omega), if_pos h1, if_neg (by omega), h1]; ring
      · rw [if_neg h1, if_neg h1]
        by_cases h2 : (i : ℕ) + 1 = k
        · rw [if_pos h2, if_pos (by omega), if_neg (by omega)]; ring
        · rw [if_neg h2, if_neg (c := (i : ℕ) = k - 1) (by omega)]
          by_cases h3 : k + 1 = (i : ℕ)
          · rw [if_pos h3, if_pos h3.symm, h3]; ring
          · rw [if_neg h3, if_neg (by omega)]; ring
  · intro j _ hj
    rw [unitN, if_neg, mul_zero]
    intro h
    exact hj (Fin.ext h)
  · intro h
    exact absurd (Finset.mem_univ _) h

/-- The polynomials of the matrix applied to the first unit vector; the coefficients of the polynomials agree with those of the
matrix below index `M`. -/
theorem recPoly_jac {alpha' beta' : ℕ → ℝ} {M : ℕ} (hM : M ≤ N) (ha : ∀ k < M, alpha k = alpha' k)
    (hb : ∀ k, 1 ≤ k → k < M → beta k = beta' k) (hpos : ∀ k, 1 ≤ k → k < M → 0 ≤ beta k) (k : ℕ) (hk : k ≤ M) :
    (aeval (jacMatrix N alpha beta) (recPoly alpha' beta' k)).mulVec (unitN N 0) = sqrtProd beta k • unitN N k := by
  induction k using Nat.strong_induction_on with
  | _ k ih =>
    match k, hk with
    | 0, _ => simp [recPoly_zero, sqrtProd]
    | 1, hk =>
      rw [recPoly_one, map_sub, aeval_X, aeval_C, Matrix.sub_mulVec, jacMatrix_unit _ _ (by omega), ← ha 0 (by omega)]
      simp [sqrtProd, Algebra.algebraMap_eq_smul_one, Matrix.smul_mulVec]
    | k + 2, hk =>
      have h1 := ih (k + 1) (by omega) (by omega)
      have h0 := ih k (by omega) (by omega)
      rw [recPoly_step, map_sub, map_mul, map_mul, map_sub, aeval_X, aeval_C, aeval_C, Matrix.sub_mulVec, ← Matrix.mulVec_mulVec,
        ← Matrix.mulVec_mulVec, h1, h0, ← ha (k + 1) (by omega), ← hb (k + 1) (by omega) (by omega)]
      simp only [Algebra.algebraMap_eq_smul_one, Matrix.sub_mulVec, Matrix.smul_mulVec, Matrix.one_mulVec, Matrix.mulVec_smul]
      rw [jacMatrix_unit _ _ (by omega), if_neg (by omega), Nat.add_sub_cancel]
      have e1 : sqrtProd beta (k + 1) = sqrtProd beta k * Real.sqrt (beta (k + 1)) := Finset.prod_range_succ _ _
      have e2 : sqrtProd beta (k + 2) = sqrtProd beta (k + 1) * Real.sqrt (beta (k + 1 + 1)) := Finset.prod_range_succ _ _
      have e3 : Real.sqrt (beta (k + 1)) * Real.sqrt (beta (k + 1)) = beta (k + 1) :=
        Real.mul_self_sqrt (hpos _ (by omega) (by omega))
      funext i
      simp only [Pi.sub_apply, Pi.smul_apply, Pi.add_apply, smul_eq_mul]
      rw [e2, e1]
      linear_combination (sqrtProd beta k * unitN N k i) * e3

theorem sqrtProd_sq {k : ℕ} (hpos : ∀ i, 1 ≤ i → i ≤ k → 0 ≤ beta i) :
    beta 0 * (sqrtProd beta k * sqrtProd beta k) = ∏ i ∈ Finset.range (k + 1), beta i := by
  rw [Finset.prod_range_succ', mul_comm (beta 0), sqrtProd, ← Finset.prod_mul_distrib]
  congr 1
  exact Finset.prod_congr rfl fun i hi => Real.mul_self_sqrt (hpos _ (by omega) (by have := Finset.mem_range.1 hi; omega))

theorem sqrtProd_pos {k : ℕ} (hpos : ∀ i, 1 ≤ i → i ≤ k → 0 < beta i) : 0 < sqrtProd beta k :=
  Finset.prod_pos fun i hi => Real.sqrt_pos.2 (hpos _ (by omega) (by have := Finset.mem_range.1 hi; omega))

end tri

/-- An orthogonal diagonalisation. -/
structure Diagonalises {N : ℕ} (T : Matrix (Fin N) (Fin N) ℝ) (x : Fin N → ℝ) (V : Matrix (Fin N) (Fin N) ℝ) : Prop where
  ortho : V.transpose * V = 1
  eigen : T * V = V * Matrix.diagonal x

section diag
variable {N : ℕ} {T V : Matrix (Fin N) (Fin N) ℝ} {x : Fin N → ℝ}

theorem Diagonalises.ortho' (h : Diagonalises T x V) : V * V.transpose = 1 := mul_eq_one_comm.1 h.ortho

theorem Diagonalises.poly (h : Diagonalises T x V) (q : ℝ[X]) : aeval T q = V * Matrix.diagonal (fun j => q.eval (x j)) * V.transpose := by
  have hV : aeval T q * V = V * Matrix.diagonal (fun j => q.eval (x j)) := by
    induction q using Polynomial.induction_on' with
    | add p q hp hq =>
      rw [map_add, add_mul, hp, hq, ← mul_add, Matrix.diagonal_add]
      congr 2; funext j; rw [eval_add]
    | monomial n a =>
      rw [← C_mul_X_pow_eq_monomial, map_mul, aeval_C, map_pow, aeval_X]
      have hp : T ^ n * V = V * Matrix.diagonal (fun j => x j ^ n) := by
        induction n with
        | zero => simp
        | succ n ih =>
          rw [pow_succ, mul_assoc, h.eigen, ← mul_assoc, ih, mul_assoc, Matrix.diagonal_mul_diagonal]
          congr 2
      rw [mul_assoc, hp, Algebra.algebraMap_eq_smul_one, smul_mul_assoc, one_mul]
      rw [show (fun j => eval (x j) (C a * X ^ n)) = fun j => a * x j ^ n by funext j; simp]
      rw [← mul_smul_comm]
      congr 1
      ext i j
      by_cases hij : i = j
      · subst hij; simp
      · simp [Matrix.diagonal_apply_ne _ hij]
  rw [← hV, mul_assoc, h.ortho', mul_one]

/-- The quadrature sum. -/
theorem Diagonalises.quad (h : Diagonalises T x V) (q : ℝ[X]) (i : Fin N) :
    (aeval T q) i i = ∑ j, V i j ^ 2 * q.eval (x j) := by
  rw [h.poly, Matrix.mul_apply]
  refine Finset.sum_congr rfl fun j _ => ?_
  rw [Matrix.mul_diagonal, Matrix.transpose_apply]
  ring

/-- Columns are eigenvectors. -/
theorem Diagonalises.col (h : Diagonalises T x V) (j : Fin N) : T.mulVec (V.col j) = x j • V.col j := by
  funext i
  have := congrFun (congrFun h.eigen i) j
  rw [Matrix.mul_apply, Matrix.mul_diagonal] at this
  rw [Matrix.mulVec, dotProduct]
  simp only [Matrix.col_apply, Pi.smul_apply, smul_eq_mul]
  rw [this]; ring

end diag
end FIAT
