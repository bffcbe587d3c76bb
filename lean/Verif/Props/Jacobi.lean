/-
C13, C14, C45: `eval_jacobi` and its relatives compute the classical Jacobi polynomials and their
derivatives.
-/
import Verif.Model.Jacobi
import Verif.Lemmas.Jacobi
import Mathlib.Algebra.Polynomial.AlgebraMap
import Mathlib.Algebra.Order.Field.Basic
import Mathlib.RingTheory.Polynomial.ShiftedLegendre
import Mathlib.Data.Nat.Choose.Cast
import Mathlib.Tactic.Linarith
import Mathlib.Tactic.Positivity

namespace FIAT
open Polynomial

section spec
variable {K : Type*} [Field K]

/-- Specification: the coefficient of `((x-1)/2)^k` in the classical Jacobi polynomial:
`(a+k+1)_{n-k} (n+a+b+1)_k / (k! (n-k)!)` with rising factorials. -/
noncomputable def jacobiCoeff (a b : K) (n k : ℕ) : K :=
  (ascPochhammer K (n - k)).eval (a + k + 1) * (ascPochhammer K k).eval ((n : K) + a + b + 1) /
    (Nat.factorial k * Nat.factorial (n - k))

/-- Specification: the classical Jacobi polynomial `P_n^(a,b)` (DLMF 18.5.7). -/
noncomputable def jacobiPoly (a b : K) (n : ℕ) : K[X] :=
  ∑ k ∈ Finset.range (n + 1), C (jacobiCoeff a b n k) * (C (1 / 2) * (X - 1)) ^ k

/-- The denominators of the recurrence do not vanish up to degree `n`. -/
def JacobiOK (a b : K) (n : ℕ) : Prop := ∀ k : ℕ, 2 ≤ k → k ≤ n → (k : K) + (a + b) ≠ 0 ∧ 2 * (k : K) + (a + b) - 2 ≠ 0

end spec

section
variable {K : Type*} [Field K] [CharZero K]

private theorem psum_comp {ι : Type*} (T : Finset ι) (f : ι → K[X]) (q : K[X]) :
    (∑ i ∈ T, f i).comp q = ∑ i ∈ T, (f i).comp q := by
  rw [← coe_compRingHom_apply, map_sum]; rfl

private noncomputable def jacQ (a b : K) (n : ℕ) : K[X] := ∑ k ∈ Finset.range (n + 1), monomial k (jacobiCoeff a b n k)

private theorem jacQ_coeff (a b : K) (n k : ℕ) : (jacQ a b n).coeff k = if k ≤ n then jacobiCoeff a b n k else 0 := by
  unfold jacQ
  rw [finsetSum_coeff]
  simp only [coeff_monomial]
  rw [Finset.sum_ite_eq']
  simp [Nat.lt_succ_iff]

private theorem coeff_jacE (a b : K) (k m : ℕ) : jacobiCoeff a b (k + m) k = jacE a b k m := by
  unfold jacobiCoeff jacE poch
  rw [Nat.add_sub_cancel_left]; push_cast; rfl

private theorem jacQ_coeff' (a b : K) (k m : ℕ) : (jacQ a b (k + m)).coeff k = jacE a b k m := by
  rw [jacQ_coeff, if_pos (by omega), coeff_jacE]

private theorem jacQ_coeff_gt (a b : K) (n k : ℕ) (h : n < k) : (jacQ a b n).coeff k = 0 := by
  rw [jacQ_coeff, if_neg (by omega)]

private theorem jacobiPoly_eq (a b : K) (n : ℕ) : jacobiPoly a b n = (jacQ a b n).comp (C (1 / 2) * (X - 1)) := by
  unfold jacobiPoly jacQ
  rw [psum_comp]
  simp only [monomial_comp]

private theorem jacQ_rec (a b : K) (n : ℕ) :
    C (rA1 a b ((n + 2 : ℕ) : K)) * jacQ a b (n + 2) =
      (C (rA2 a b ((n + 2 : ℕ) : K) + rA3 a b ((n + 2 : ℕ) : K)) + C (2 * rA3 a b ((n + 2 : ℕ) : K)) * X) *
        jacQ a b (n + 1) - C (rA4 a b ((n + 2 : ℕ) : K)) * jacQ a b n := by
  ext k
  rw [coeff_sub, add_mul, coeff_add, coeff_C_mul, coeff_C_mul, coeff_C_mul, mul_assoc, coeff_C_mul]
  rcases k with _ | k
  · rw [coeff_X_mul_zero, mul_zero, add_zero]
    have := jacE_rec_zero a b n ((n + 2 : ℕ) : K) (by push_cast; ring)
    have e1 := jacQ_coeff' a b 0 (n + 2)
    have e2 := jacQ_coeff' a b 0 (n + 1)
    have e3 := jacQ_coeff' a b 0 n
    simp only [Nat.zero_add] at e1 e2 e3
    rw [e1, e2, e3, this]
  · rw [coeff_X_mul]
    rcases lt_trichotomy (k + 1) (n + 1) with h | h | h
    · obtain ⟨m, rfl⟩ : ∃ m, n = k + 1 + m := ⟨n - (k + 1), by omega⟩
      have := jacE_rec a b k m ((k + 1 + m + 2 : ℕ) : K) (by push_cast; ring)
      have e1 := jacQ_coeff' a b (k + 1) (m + 2)
      have e2 := jacQ_coeff' a b (k + 1) (m + 1)
      have e3 := jacQ_coeff' a b (k + 1) m
      have e4 := jacQ_coeff' a b k (m + 2)
      rw [show k + (m + 2) = k + 1 + m + 1 by ring] at e4
      rw [show k + 1 + m + 2 = k + 1 + (m + 2) by ring, show k + 1 + m + 1 = k + 1 + (m + 1) by ring] at *
      rw [e1, e2, e3, e4, this]
    · have hk : k = n := by omega
      subst hk
      have := jacE_rec_one a b k ((k + 2 : ℕ) : K) (by push_cast; ring)
      have e1 := jacQ_coeff' a b (k + 1) 1
      have e2 := jacQ_coeff' a b (k + 1) 0
      have e4 := jacQ_coeff' a b k 1
      rw [jacQ_coeff_gt a b k (k + 1) (by omega)]
      rw [show k + 2 = k + 1 + 1 by ring] at *
      rw [e1, e4]
      rw [add_zero] at e2
      rw [e2, this]; ring
    · rcases Nat.lt_or_ge (n + 2) (k + 1) with h2 | h2
      · rw [jacQ_coeff_gt _ _ _ _ h2, jacQ_coeff_gt _ _ (n + 1) (k + 1) (by omega),
          jacQ_coeff_gt _ _ (n + 1) k (by omega), jacQ_coeff_gt _ _ n (k + 1) (by omega)]
        ring
      · have hk : k = n + 1 := by omega
        subst hk
        have := jacE_rec_top a b (n + 1) ((n + 2 : ℕ) : K) (by push_cast; ring)
        have e1 := jacQ_coeff' a b (n + 1 + 1) 0
        have e4 := jacQ_coeff' a b (n + 1) 0
        rw [jacQ_coeff_gt a b n _ (by omega), jacQ_coeff_gt a b (n + 1) (n + 1 + 1) (by omega)]
        rw [add_zero] at e1 e4
        rw [show n + 2 = n + 1 + 1 by ring] at *
        rw [e1, e4, this]; ring

/-- The classical three-term recurrence, DLMF 18.9.1 in the form used by the code. -/
theorem jacobiPoly_rec (a b : K) (n : ℕ) :
    C (rA1 a b ((n + 2 : ℕ) : K)) * jacobiPoly a b (n + 2) =
      (C (rA2 a b ((n + 2 : ℕ) : K)) + C (rA3 a b ((n + 2 : ℕ) : K)) * X) * jacobiPoly a b (n + 1) -
        C (rA4 a b ((n + 2 : ℕ) : K)) * jacobiPoly a b n := by
  have h := congrArg (fun p => p.comp (C (1 / 2) * (X - 1))) (jacQ_rec a b n)
  simp only [mul_comp, sub_comp, add_comp, C_comp, X_comp, ← jacobiPoly_eq] at h
  rw [h]
  congr 2
  have h2 : (C (2 : K)) * C (1 / 2) = 1 := by rw [← C_mul]; norm_num
  rw [map_add, map_mul]
  linear_combination (C (rA3 a b ((n + 2 : ℕ) : K))) * (X - 1) * h2

theorem jacobiPoly_zero (a b : K) : jacobiPoly a b 0 = 1 := by
  simp [jacobiPoly, jacobiCoeff]

theorem jacobiPoly_one (a b : K) : jacobiPoly a b 1 = C (1 / 2) * (C (a - b) + C (a + b + 2) * X) := by
  have h2 : (C (2 : K)) * C (1 / 2) = 1 := by rw [← C_mul]; norm_num
  have e0 : jacobiCoeff a b 1 0 = a + 1 := by simp [jacobiCoeff]
  have e1 : jacobiCoeff a b 1 1 = a + b + 2 := by simp [jacobiCoeff]; ring
  rw [jacobiPoly, Finset.sum_range_succ, Finset.sum_range_one, e0, e1]
  simp only [pow_zero, pow_one, mul_one, map_add, map_sub, map_one]
  have h3 : (C (2 : K)) = 2 := rfl
  rw [h3] at h2 ⊢
  linear_combination (C a + 1 : K[X]) * (-1 : K[X]) * h2

end

section model
variable {K A : Type*} [Field K] [CharZero K] [CommRing A] [Algebra K A]

private theorem step_spec (a b : K) (n : ℕ) (x : A) (h1 : ((n + 2 : ℕ) : K) + (a + b) ≠ 0)
    (h2 : 2 * ((n + 2 : ℕ) : K) + (a + b) - 2 ≠ 0) :
    jacobiStep a b (n + 2) x (aeval x (jacobiPoly a b (n + 1))) (aeval x (jacobiPoly a b n)) =
      aeval x (jacobiPoly a b (n + 2)) := by
  set N := ((n + 2 : ℕ) : K) with hN
  have ha1 : rA1 a b N ≠ 0 := by
    unfold rA1
    refine mul_ne_zero (mul_ne_zero (mul_ne_zero two_ne_zero ?_) h1) h2
    rw [hN]; exact Nat.cast_ne_zero.2 (by omega)
  have hr := congrArg (aeval x) (jacobiPoly_rec a b n)
  simp only [map_mul, map_sub, map_add, aeval_C, aeval_X, ← hN] at hr
  have hinv : algebraMap K A (rA1 a b N)⁻¹ * algebraMap K A (rA1 a b N) = 1 := by
    rw [← map_mul, inv_mul_cancel₀ ha1, map_one]
  have key : aeval x (jacobiPoly a b (n + 2)) =
      algebraMap K A (rA1 a b N)⁻¹ * (algebraMap K A (rA1 a b N) * aeval x (jacobiPoly a b (n + 2))) := by
    rw [← mul_assoc, hinv, one_mul]
  rw [key, hr]
  unfold jacobiStep
  simp only [← hN]
  have c2 : (2 * N + (a + b) - 1) * (a * a - b * b) / (2 * N * (N + (a + b)) * (2 * N + (a + b) - 2)) =
      (rA1 a b N)⁻¹ * rA2 a b N := by rw [div_eq_inv_mul]; rfl
  have c3 : (2 * N + (a + b) - 2) * (2 * N + (a + b) - 1) * (2 * N + (a + b)) /
      (2 * N * (N + (a + b)) * (2 * N + (a + b) - 2)) = (rA1 a b N)⁻¹ * rA3 a b N := by
    rw [div_eq_inv_mul]; rfl
  have c4 : 2 * (N + a - 1) * (N + b - 1) * (2 * N + (a + b)) /
      (2 * N * (N + (a + b)) * (2 * N + (a + b) - 2)) = (rA1 a b N)⁻¹ * rA4 a b N := by
    rw [div_eq_inv_mul]; rfl
  rw [c2, c3, c4]
  simp only [map_mul]
  ring

private theorem aeval_one (a b : K) (x : A) : aeval x (jacobiPoly a b 1) =
    algebraMap K A (1 / 2) * (algebraMap K A (a - b) + algebraMap K A (a + b + 2) * x) := by
  rw [jacobiPoly_one]; simp only [map_mul, map_add, aeval_C, aeval_X]

private theorem loop_spec (a b : K) (x : A) (n : ℕ) (h : JacobiOK a b (n + 1)) :
    (List.range' 2 n).foldl (fun (st : A × A × A) k =>
      let p := jacobiStep a b k x st.2.1 st.1
      (st.2.1, p, p)) (1, aeval x (jacobiPoly a b 1), aeval x (jacobiPoly a b 1)) =
      (aeval x (jacobiPoly a b n), aeval x (jacobiPoly a b (n + 1)), aeval x (jacobiPoly a b (n + 1))) := by
  induction n with
  | zero => simp [jacobiPoly_zero]
  | succ n ih =>
    rw [List.range'_concat, List.foldl_append, ih (fun k h1 h2 => h k h1 (by omega))]
    simp only [List.foldl_cons, List.foldl_nil]
    obtain ⟨h1, h2⟩ := h (n + 2) (by omega) (by omega)
    rw [show 2 + 1 * n = n + 2 by ring, step_spec a b n x h1 h2]

/-- C13: `eval_jacobi(a, b, n, x)` is the classical Jacobi polynomial at `x`, for numbers, arrays and
expressions `x` alike. -/
theorem eval_jacobi_eq (a b : K) (n : ℕ) (h : JacobiOK a b n) (x : A) :
    evalJacobi a b n x = aeval x (jacobiPoly a b n) := by
  unfold evalJacobi
  rcases n with _ | _ | n
  · simp [jacobiPoly_zero]
  · rw [if_neg (by omega), if_pos (by omega)]
    exact (aeval_one a b x).symm
  · rw [if_neg (by omega), if_neg (by omega), ← aeval_one, show n + 1 + 1 - 1 = n + 1 by omega]
    have e := loop_spec a b x (n + 1) h
    rw [List.range'_succ, List.foldl_cons] at e ⊢
    simp only at e ⊢
    rw [e]

/-- C13: row `k`, column `j` of `eval_jacobi_batch` is `eval_jacobi(a, b, k, xs[j])`. -/
theorem eval_jacobi_batch_eq (a b : K) (n : ℕ) (h : JacobiOK a b n) (xs : List A) (k j : ℕ) (hk : k ≤ n)
    (hj : j < xs.length) : evalJacobiBatch a b n xs k j = evalJacobi a b k xs[j] := by
  have hget : xs.getD j 0 = xs[j] := by simp [hj]
  rw [eval_jacobi_eq a b k (fun i h1 h2 => h i h1 (by omega))]
  unfold evalJacobiBatch
  simp only
  rcases n with _ | n
  · obtain rfl : k = 0 := by omega
    simp [jacobiPoly_zero]
  · rw [if_pos (by omega), show n + 1 - 1 = n by omega]
    have key : ∀ m, m ≤ n → ∀ k ≤ m + 1, ((List.range' 2 m).foldl (fun (r : ℕ → ℕ → A) k =>
        Function.update r k (fun j => jacobiStep a b k (xs.getD j 0) (r (k - 1) j) (r (k - 2) j)))
        (Function.update (Function.update (fun _ _ => 0) 0 (fun j => 1 + xs.getD j 0 - xs.getD j 0)) 1
          (fun j => algebraMap K A (1 / 2) * (algebraMap K A (a - b) + algebraMap K A (a + b + 2) * xs.getD j 0))))
          k j = aeval xs[j] (jacobiPoly a b k) := by
      intro m
      induction m with
      | zero =>
        intro _ k hk
        simp only [List.range'_zero, List.foldl_nil]
        rcases k with _ | _ | k
        · rw [Function.update_of_ne (by omega), Function.update_self]; simp [jacobiPoly_zero]
        · rw [Function.update_self, aeval_one, hget]
        · omega
      | succ m ih =>
        intro hm k hk
        rw [List.range'_concat, List.foldl_append]
        simp only [List.foldl_cons, List.foldl_nil]
        by_cases hkm : k = m + 2
        · subst hkm
          rw [show 2 + 1 * m = m + 2 by ring, Function.update_self, show m + 2 - 1 = m + 1 by omega,
            show m + 2 - 2 = m by omega, ih (by omega) (m + 1) (by omega), ih (by omega) m (by omega), hget]
          obtain ⟨h1, h2⟩ := h (m + 2) (by omega) (by omega)
          exact step_spec a b m xs[j] h1 h2
        · rw [show 2 + 1 * m = m + 2 by ring, Function.update_of_ne (by omega)]
          exact ih (by omega) k (by omega)
    exact key n le_rfl k (by omega)

end model

section deriv
variable {K A : Type*} [Field K] [CharZero K] [CommRing A] [Algebra K A]

/-- The derivative of a Jacobi polynomial is a multiple of one with raised parameters. -/
theorem derivative_jacobiPoly (a b : K) (n : ℕ) :
    derivative (jacobiPoly a b (n + 1)) =
      C (1 / 2 * (a + b + ((n + 1 : ℕ) : K) + 1)) * jacobiPoly (a + 1) (b + 1) n := by
  have h : derivative (jacQ a b (n + 1)) = C (a + b + ((n + 1 : ℕ) : K) + 1) * jacQ (a + 1) (b + 1) n := by
    ext k
    rw [coeff_derivative, coeff_C_mul]
    by_cases hk : k ≤ n
    · obtain ⟨m, rfl⟩ : ∃ m, n = k + m := ⟨n - k, by omega⟩
      have e1 := jacQ_coeff' a b (k + 1) m
      have e2 := jacQ_coeff' (a + 1) (b + 1) k m
      rw [show k + m + 1 = k + 1 + m by ring, e1, e2, mul_comm, jacE_deriv]
      congr 1; push_cast; ring
    · rw [jacQ_coeff_gt _ _ (n + 1) (k + 1) (by omega), jacQ_coeff_gt _ _ n k (by omega)]; simp
  rw [jacobiPoly_eq, derivative_comp, h, mul_comp, C_comp, jacobiPoly_eq]
  have : derivative (C (1 / 2 : K) * (X - 1)) = C (1 / 2) := by simp
  rw [this, ← mul_assoc, ← C_mul]

/-- The derivative of `(1-x)^(a+1) (1+x)^(b+1) P_{n-1}^(a+1,b+1)`, without the common factor. -/
theorem jacobiPoly_lower (a b : K) (n : ℕ) :
    (C (b + 1) * (1 - X) - C (a + 1) * (1 + X)) * jacobiPoly (a + 1) (b + 1) n +
        (1 - X) * (1 + X) * derivative (jacobiPoly (a + 1) (b + 1) n) =
      C (-2 * ((n + 1 : ℕ) : K)) * jacobiPoly a b (n + 1) := by
  have h : (C (a + 1) * (X + 1) + C (b + 1) * X) * jacQ (a + 1) (b + 1) n +
      X * (X + 1) * derivative (jacQ (a + 1) (b + 1) n) = C ((n + 1 : ℕ) : K) * jacQ a b (n + 1) := by
    have e : (C (a + 1) * (X + 1) + C (b + 1) * X) * jacQ (a + 1) (b + 1) n +
        X * (X + 1) * derivative (jacQ (a + 1) (b + 1) n) =
        X * (C (a + b + 2) * jacQ (a + 1) (b + 1) n + X * derivative (jacQ (a + 1) (b + 1) n)) +
          (C (a + 1) * jacQ (a + 1) (b + 1) n + X * derivative (jacQ (a + 1) (b + 1) n)) := by
      simp only [C_add, C_1, show (2 : K) = 1 + 1 by norm_num]; ring
    rw [e]
    ext k
    rcases k with _ | k
    · simp only [coeff_add, mul_coeff_zero, coeff_X_zero, zero_mul, zero_add, coeff_C_mul, add_zero, coeff_C_zero]
      have e1 := jacQ_coeff' (a + 1) (b + 1) 0 n
      have e2 := jacQ_coeff' a b 0 (n + 1)
      rw [zero_add] at e1 e2
      rw [e1, e2, jacE_lower_zero]; push_cast; ring
    · have hXd : ∀ j, (X * derivative (jacQ (a + 1) (b + 1) n)).coeff j = j * (jacQ (a + 1) (b + 1) n).coeff j := by
        intro j
        rcases j with _ | j
        · simp
        · rw [coeff_X_mul, coeff_derivative]; push_cast; ring
      simp only [coeff_add, coeff_X_mul, coeff_C_mul, hXd]
      rcases lt_trichotomy k n with hk | rfl | hk
      · obtain ⟨m, rfl⟩ : ∃ m, n = k + m + 1 := ⟨n - k - 1, by omega⟩
        have e1 := jacQ_coeff' (a + 1) (b + 1) (k + 1) m
        have e2 := jacQ_coeff' (a + 1) (b + 1) k (m + 1)
        have e3 := jacQ_coeff' a b (k + 1) (m + 1)
        rw [show k + 1 + m = k + m + 1 by ring] at e1
        rw [show k + (m + 1) = k + m + 1 by ring] at e2
        rw [show k + 1 + (m + 1) = k + m + 1 + 1 by ring] at e3
        rw [e1, e2, e3]
        have := jacE_lower a b k m
        push_cast at this ⊢
        linear_combination this
      · have e2 := jacQ_coeff' (a + 1) (b + 1) k 0
        have e3 := jacQ_coeff' a b (k + 1) 0
        rw [add_zero] at e2 e3
        rw [jacQ_coeff_gt (a + 1) (b + 1) k (k + 1) (by omega), e2, e3]
        have := jacE_lower_top a b k
        push_cast at this ⊢
        linear_combination this
      · rw [jacQ_coeff_gt _ _ n (k + 1) (by omega), jacQ_coeff_gt _ _ n k (by omega),
          jacQ_coeff_gt _ _ (n + 1) (k + 1) (by omega)]; simp
  have h2 := congrArg (fun p => p.comp (C (1 / 2 : K) * (X - 1))) h
  simp only [add_comp, mul_comp, X_comp, C_comp, one_comp] at h2
  rw [← jacobiPoly_eq, ← jacobiPoly_eq] at h2
  have hd : derivative (jacobiPoly (a + 1) (b + 1) n) =
      C (1 / 2) * (derivative (jacQ (a + 1) (b + 1) n)).comp (C (1 / 2 : K) * (X - 1)) := by
    rw [jacobiPoly_eq, derivative_comp]
    congr 1; simp
  have h12 : (C (1 / 2 : K) : K[X]) * 2 = 1 := by
    have : (2 : K[X]) = C (2 : K) := (map_ofNat C 2).symm
    rw [this, ← C_mul]; norm_num
  have hneg : (C (-2 * ((n + 1 : ℕ) : K)) : K[X]) = -2 * C ((n + 1 : ℕ) : K) := by
    rw [C_mul, C_neg, map_ofNat C 2]
  rw [hd, hneg]
  linear_combination (-2) * h2 + (jacobiPoly (a + 1) (b + 1) n * (C (a + 1) + C (b + 1)) * (X - 1) +
    C (1 / 2) * (derivative (jacQ (a + 1) (b + 1) n)).comp (C (1 / 2 : K) * (X - 1)) * (X - 1) ^ 2) * h12

/-- C14: `eval_jacobi_deriv(a, b, n, x)` is the derivative of `t -> eval_jacobi(a, b, n, t)` at `x`:
both are evaluations of polynomials, one the derivative of the other. -/
theorem eval_jacobi_deriv_eq (a b : K) (n : ℕ) (h : JacobiOK (a + 1) (b + 1) (n - 1)) (x : A) :
    evalJacobiDeriv a b n x = aeval x (derivative (jacobiPoly a b n)) := by
  unfold evalJacobiDeriv
  rcases n with _ | n
  · simp [jacobiPoly_zero]
  · rw [if_neg (by omega), derivative_jacobiPoly, map_mul (aeval x), aeval_C, eval_jacobi_eq _ _ _ h,
      Nat.add_sub_cancel]

/-- C14: the batch version agrees. -/
theorem eval_jacobi_deriv_batch_eq (a b : K) (n : ℕ) (h : JacobiOK (a + 1) (b + 1) (n - 1)) (xs : List A)
    (k j : ℕ) (hk : k ≤ n) (hj : j < xs.length) :
    evalJacobiDerivBatch a b n xs k j = evalJacobiDeriv a b k xs[j] := by
  unfold evalJacobiDerivBatch evalJacobiDeriv
  by_cases hn : n = 0
  · subst hn
    obtain rfl : k = 0 := by omega
    simp
  · rw [if_neg hn]
    set r0 : ℕ → ℕ → A := fun k j => if k = 0 then 0 else evalJacobiBatch (a + 1) (b + 1) (n - 1) xs (k - 1) j
    have key : ∀ m, ∀ k, ((List.range' 1 m).foldl (fun (r : ℕ → ℕ → A) (k : ℕ) =>
        Function.update r k (fun j => algebraMap K A (1 / 2 * (a + b + k + 1)) * r k j)) r0) k j =
        if 1 ≤ k ∧ k ≤ m then algebraMap K A (1 / 2 * (a + b + k + 1)) * r0 k j else r0 k j := by
      intro m
      induction m with
      | zero => intro k; simp; omega
      | succ m ih =>
        intro k
        rw [List.range'_concat, List.foldl_append]
        simp only [List.foldl_cons, List.foldl_nil]
        by_cases hkm : k = 1 + 1 * m
        · rw [← hkm, Function.update_self, ih, if_neg (by omega), if_pos (by omega)]
        · rw [Function.update_of_ne hkm, ih]
          congr 1
          simp only [eq_iff_iff]; omega
    rw [key]
    by_cases hk0 : k = 0
    · subst hk0; simp [r0]
    · rw [if_pos ⟨by omega, hk⟩, if_neg hk0]
      congr 1
      simp only [r0]
      rw [if_neg hk0]
      exact eval_jacobi_batch_eq (a + 1) (b + 1) (n - 1) h xs (k - 1) j (by omega) hj

end deriv

section ordered
variable {K : Type*} [Field K] [LinearOrder K] [IsStrictOrderedRing K]

/-- For the usual parameters `a, b > -1` no denominator vanishes, at any degree. -/
theorem jacobiOK_of_gt (a b : K) (ha : -1 < a) (hb : -1 < b) (n : ℕ) : JacobiOK a b n := by
  intro k h1 _
  have h2 : (2 : K) ≤ k := by exact_mod_cast h1
  constructor
  · have : (0 : K) < k + (a + b) := by linarith
    exact this.ne'
  · have : (0 : K) < 2 * (k : K) + (a + b) - 2 := by linarith
    exact this.ne'

/-- C13/C14 for numbers: `a, b > -1`, every degree and point. -/
theorem eval_jacobi_real (a b : K) (ha : -1 < a) (hb : -1 < b) (n : ℕ) (x : K) :
    evalJacobi a b n x = (jacobiPoly a b n).eval x ∧
    evalJacobiDeriv a b n x = (derivative (jacobiPoly a b n)).eval x := by
  have h1 := eval_jacobi_eq a b n (jacobiOK_of_gt a b ha hb n) x
  have h2 := eval_jacobi_deriv_eq a b n (jacobiOK_of_gt (a + 1) (b + 1) (by linarith) (by linarith) (n - 1)) x
  rw [coe_aeval_eq_eval] at h1 h2
  exact ⟨h1, h2⟩

end ordered

section legendre

/-- Sanity check of the specification against Mathlib: with `a = b = 0` the Jacobi polynomials are the
Legendre polynomials, `P_n(1 - 2t)` being Mathlib's shifted Legendre polynomial. -/
theorem jacobiPoly_legendre {K : Type*} [Field K] [CharZero K] (n : ℕ) :
    (jacobiPoly (0 : K) 0 n).comp (1 - C 2 * X) = (shiftedLegendre n).map (Int.castRingHom K) := by
  have hpoch : ∀ k m : ℕ, (ascPochhammer K m).eval ((k : K) + 1) * (Nat.factorial k : K) =
      (Nat.factorial (k + m) : K) := by
    intro k m
    induction m with
    | zero => simp
    | succ m ih =>
      rw [ascPochhammer_succ_right, eval_mul, mul_right_comm, ih, ← add_assoc, Nat.factorial_succ]
      simp; ring
  ext k
  rw [coeff_map, coeff_shiftedLegendre]
  have hcomp : (jacobiPoly (0 : K) 0 n).comp (1 - C 2 * X) =
      ∑ k ∈ Finset.range (n + 1), C (jacobiCoeff 0 0 n k * (-1) ^ k) * X ^ k := by
    unfold jacobiPoly
    rw [psum_comp]
    refine Finset.sum_congr rfl fun k _ => ?_
    rw [mul_comp, C_comp, pow_comp, mul_comp, C_comp, sub_comp, X_comp, one_comp, C_mul, mul_assoc]
    congr 1
    have h2 : (C (2 : K)) * C (1 / 2) = 1 := by rw [← C_mul]; norm_num
    rw [C_pow, ← mul_pow]
    congr 1
    rw [map_neg, map_one]
    linear_combination (-(X : K[X])) * h2
  rw [hcomp, finsetSum_coeff]
  simp only [coeff_C_mul, coeff_X_pow, mul_ite, mul_one, mul_zero]
  rw [Finset.sum_ite_eq]
  by_cases hk : k ≤ n
  · rw [if_pos (by simp; omega)]
    obtain ⟨m, rfl⟩ : ∃ m, n = k + m := ⟨n - k, by omega⟩
    unfold jacobiCoeff
    have f1 : (Nat.factorial k : K) ≠ 0 := Nat.cast_ne_zero.2 (Nat.factorial_ne_zero k)
    have f2 : (Nat.factorial m : K) ≠ 0 := Nat.cast_ne_zero.2 (Nat.factorial_ne_zero m)
    have f3 : (Nat.factorial (k + m) : K) ≠ 0 := Nat.cast_ne_zero.2 (Nat.factorial_ne_zero (k + m))
    have p1 := hpoch k m
    have p2 := hpoch (k + m) k
    rw [Nat.add_sub_cancel_left]
    simp only [zero_add, add_zero, eq_intCast, Int.cast_mul, Int.cast_pow, Int.cast_neg, Int.cast_one,
      Int.cast_natCast]
    have c1 : ((Nat.choose (k + m) k : ℕ) : K) = Nat.factorial (k + m) / (Nat.factorial k * Nat.factorial m) := by
      rw [Nat.cast_choose K (by omega : k ≤ k + m), Nat.add_sub_cancel_left]
    have c2 : ((Nat.choose (k + m + k) (k + m) : ℕ) : K) =
        Nat.factorial (k + m + k) / (Nat.factorial (k + m) * Nat.factorial k) := by
      rw [Nat.cast_choose K (by omega : k + m ≤ k + m + k), Nat.add_sub_cancel_left]
    rw [c1, c2, ← p2, ← p1]
    rw [← p1] at f3
    field_simp
  · rw [if_neg (by simp; omega), Nat.choose_eq_zero_of_lt (by omega)]; simp

end legendre

/-! Non-vacuity: `P_2^(0,0)(x) = (3x^2 - 1)/2` at `x = 2`, and parameters meeting the hypothesis. -/
example : evalJacobi (0 : ℚ) 0 2 (2 : ℚ) = 11 / 2 := by
  norm_num [evalJacobi, List.range', jacobiStep]
example : JacobiOK (1 / 2 : ℚ) 3 10 := jacobiOK_of_gt _ _ (by norm_num) (by norm_num) 10

end FIAT
