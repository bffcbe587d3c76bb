/-
Integrals of polynomials over (-1, 1) against Jacobi weights: orthogonality and norms of Jacobi polynomials.
-/
import Verif.Props.Orthopoly
import Mathlib.MeasureTheory.Integral.IntervalIntegral.FundThmCalculus
import Mathlib.Analysis.Calculus.Deriv.Polynomial
import Mathlib.Topology.Algebra.Polynomial

namespace FIAT
open Polynomial

/-- The integral of a polynomial over (-1, 1). -/
noncomputable def pint (p : ℝ[X]) : ℝ := ∫ x in (-1 : ℝ)..1, p.eval x

theorem poly_intervalIntegrable (p : ℝ[X]) (a b : ℝ) :
    IntervalIntegrable (fun x => p.eval x) MeasureTheory.volume a b :=
  p.continuous.intervalIntegrable a b

theorem pint_add (p q : ℝ[X]) : pint (p + q) = pint p + pint q := by
  unfold pint
  simp only [eval_add]
  exact intervalIntegral.integral_add (poly_intervalIntegrable p _ _) (poly_intervalIntegrable q _ _)

theorem pint_C_mul (c : ℝ) (p : ℝ[X]) : pint (C c * p) = c * pint p := by
  unfold pint
  simp only [eval_mul, eval_C]
  exact intervalIntegral.integral_const_mul c _

theorem pint_zero : pint 0 = 0 := by simp [pint]

theorem pint_neg (p : ℝ[X]) : pint (-p) = -pint p := by
  have := pint_C_mul (-1) p
  simpa using this

theorem pint_sub (p q : ℝ[X]) : pint (p - q) = pint p - pint q := by
  rw [sub_eq_add_neg, pint_add, pint_neg]; ring

theorem pint_sum {ι : Type*} (s : Finset ι) (f : ι → ℝ[X]) : pint (∑ i ∈ s, f i) = ∑ i ∈ s, pint (f i) := by
  classical
  induction s using Finset.induction_on with
  | empty => simp [pint_zero]
  | insert a s ha ih => rw [Finset.sum_insert ha, Finset.sum_insert ha, pint_add, ih]

theorem pint_derivative (p : ℝ[X]) : pint (derivative p) = p.eval 1 - p.eval (-1) := by
  unfold pint
  rw [intervalIntegral.integral_eq_sub_of_hasDerivAt (f := fun x => p.eval x)
    (fun x _ => p.hasDerivAt x) (poly_intervalIntegrable _ _ _)]

/-- The Jacobi weight with natural exponents. -/
noncomputable def jw (a b : ℕ) : ℝ[X] := (1 - X) ^ a * (1 + X) ^ b

theorem jw_eval (a b : ℕ) (x : ℝ) : (jw a b).eval x = (1 - x) ^ a * (1 + x) ^ b := by simp [jw]

theorem jw_succ (a b : ℕ) : jw (a + 1) (b + 1) = jw a b * ((1 - X) * (1 + X)) := by
  unfold jw; rw [pow_succ, pow_succ]; ring

theorem derivative_jw (a b : ℕ) : derivative (jw (a + 1) (b + 1)) =
    jw a b * (C ((b : ℝ) + 1) * (1 - X) - C ((a : ℝ) + 1) * (1 + X)) := by
  unfold jw
  rw [derivative_mul, derivative_pow, derivative_pow]
  simp only [derivative_sub, derivative_one, derivative_X, derivative_add, Nat.add_sub_cancel]
  push_cast
  rw [pow_succ (1 - X : ℝ[X]) a, pow_succ (1 + X : ℝ[X]) b]
  simp only [C_add, C_1, map_natCast]
  ring

/-- Lowering in the weighted form. -/
theorem derivative_jw_jacobi (a b n : ℕ) :
    derivative (jw (a + 1) (b + 1) * jacobiPoly ((a : ℝ) + 1) ((b : ℝ) + 1) n) =
      C (-2 * ((n + 1 : ℕ) : ℝ)) * (jw a b * jacobiPoly (a : ℝ) b (n + 1)) := by
  rw [derivative_mul, derivative_jw, jw_succ]
  have h := jacobiPoly_lower (a : ℝ) b n
  linear_combination jw a b * h

theorem pint_jw_succ (a b n : ℕ) (q : ℝ[X]) :
    pint (jw a b * jacobiPoly (a : ℝ) b (n + 1) * q) =
      1 / (2 * ((n + 1 : ℕ) : ℝ)) *
        pint (jw (a + 1) (b + 1) * jacobiPoly (((a + 1 : ℕ) : ℝ)) ((b + 1 : ℕ) : ℝ) n * derivative q) := by
  have h1 : derivative (jw (a + 1) (b + 1) * jacobiPoly ((a : ℝ) + 1) ((b : ℝ) + 1) n * q) =
      C (-2 * ((n + 1 : ℕ) : ℝ)) * (jw a b * jacobiPoly (a : ℝ) b (n + 1) * q) +
      jw (a + 1) (b + 1) * jacobiPoly ((a : ℝ) + 1) ((b : ℝ) + 1) n * derivative q := by
    rw [derivative_mul, derivative_jw_jacobi]; ring
  have h2 := pint_derivative (jw (a + 1) (b + 1) * jacobiPoly ((a : ℝ) + 1) ((b : ℝ) + 1) n * q)
  rw [h1, pint_add, pint_C_mul] at h2
  simp only [eval_mul, jw_eval] at h2
  have hn : ((n + 1 : ℕ) : ℝ) ≠ 0 := Nat.cast_ne_zero.2 (by omega)
  norm_num at h2
  rw [show (((a + 1 : ℕ) : ℝ)) = (a : ℝ) + 1 by push_cast; rfl, show (((b + 1 : ℕ) : ℝ)) = (b : ℝ) + 1 by push_cast; rfl]
  push_cast
  have hn' : (n : ℝ) + 1 ≠ 0 := by positivity
  field_simp
  linarith

/-- Rodrigues: testing against `P_n` is integrating the `n`-th derivative. -/
theorem pint_rodrigues (n a b : ℕ) (q : ℝ[X]) :
    pint (jw a b * jacobiPoly (a : ℝ) b n * q) =
      1 / (2 ^ n * (Nat.factorial n : ℝ)) * pint (jw (a + n) (b + n) * derivative^[n] q) := by
  induction n generalizing a b q with
  | zero => simp [jacobiPoly_zero]
  | succ n ih =>
    rw [pint_jw_succ, ih (a + 1) (b + 1), Nat.factorial_succ, Function.iterate_succ_apply,
      show a + 1 + n = a + (n + 1) by ring, show b + 1 + n = b + (n + 1) by ring]
    push_cast
    have : (Nat.factorial n : ℝ) ≠ 0 := Nat.cast_ne_zero.2 (Nat.factorial_ne_zero n)
    have hn' : (n : ℝ) + 1 ≠ 0 := by positivity
    field_simp
    ring

/-- `P_n` is orthogonal to all polynomials of smaller degree. -/
theorem pint_orthogonal (n a b : ℕ) (q : ℝ[X]) (hq : q.degree < n) :
    pint (jw a b * jacobiPoly (a : ℝ) b n * q) = 0 := by
  rw [pint_rodrigues]
  have : derivative^[n] q = 0 := by
    by_cases h : q = 0
    · rw [h]; exact iterate_derivative_zero
    · exact iterate_derivative_eq_zero (by rwa [degree_eq_natDegree h, Nat.cast_lt] at hq)
  rw [this, mul_zero, pint_zero, mul_zero]

/-- The Beta integral. -/
theorem pint_jw (A B : ℕ) : pint (jw A B) =
    2 ^ (A + B + 1) * (Nat.factorial A * Nat.factorial B) / Nat.factorial (A + B + 1) := by
  induction B generalizing A with
  | zero =>
    have h := pint_derivative (jw (A + 1) 0)
    have hd : derivative (jw (A + 1) 0) = C (-((A : ℝ) + 1)) * jw A 0 := by
      unfold jw; rw [pow_zero, mul_one, mul_one, derivative_pow]; simp; ring
    rw [hd, pint_C_mul, jw_eval, jw_eval] at h
    norm_num at h
    have h1 : (A : ℝ) + 1 ≠ 0 := by positivity
    have h2 : (Nat.factorial A : ℝ) ≠ 0 := Nat.cast_ne_zero.2 (Nat.factorial_ne_zero A)
    rw [show A + 0 + 1 = A + 1 by ring, Nat.factorial_succ]
    push_cast
    simp only [Nat.factorial_zero, Nat.cast_one, mul_one]
    field_simp
    linarith
  | succ B ih =>
    have h := pint_derivative (jw (A + 1) (B + 1))
    have hd : derivative (jw (A + 1) (B + 1)) = C ((B : ℝ) + 1) * jw (A + 1) B - C ((A : ℝ) + 1) * jw A (B + 1) := by
      rw [derivative_jw]; unfold jw; rw [pow_succ, pow_succ]; ring
    rw [hd, pint_sub, pint_C_mul, pint_C_mul, jw_eval, jw_eval, ih (A + 1)] at h
    norm_num at h
    have h1 : (A : ℝ) + 1 ≠ 0 := by positivity
    have h2 : (Nat.factorial (A + 1 + B + 1) : ℝ) ≠ 0 := Nat.cast_ne_zero.2 (Nat.factorial_ne_zero _)
    rw [show A + (B + 1) + 1 = A + 1 + B + 1 by ring, Nat.factorial_succ B]
    have h3 : ((A : ℝ) + 1) * pint (jw A (B + 1)) = ((A : ℝ) + 1) * (2 ^ (A + 1 + B + 1) *
        ((Nat.factorial A : ℝ) * (((B + 1) * Nat.factorial B : ℕ) : ℝ)) / (Nat.factorial (A + 1 + B + 1) : ℝ)) := by
      have h4 : ((A : ℝ) + 1) * pint (jw A (B + 1)) = ((B : ℝ) + 1) *
          (2 ^ (A + 1 + B + 1) * (((A + 1).factorial : ℝ) * (B.factorial : ℝ)) / ((A + 1 + B + 1).factorial : ℝ)) := by
        linarith
      rw [h4, Nat.factorial_succ A]
      push_cast
      ring
    exact mul_left_cancel₀ h1 h3

/-- The square norm of `P_n^(a,b)` for natural parameters. -/
noncomputable def jacobiNorm (a b n : ℕ) : ℝ :=
  2 ^ (a + b + 1) * ((a + n).factorial * (b + n).factorial) /
    (n.factorial * (a + b + n).factorial * (2 * n + a + b + 1))

/-- The value of the leading coefficient. -/
theorem jacobiPoly_lead_nat (a b n : ℕ) : (jacobiPoly (a : ℝ) b n).coeff n =
    ((a + b + 2 * n).factorial : ℝ) / (2 ^ n * n.factorial * (a + b + n).factorial) := by
  rw [(jacobiPoly_lead (a : ℝ) b n).1]
  unfold jacE
  have h : ∀ k c : ℕ, poch ((c : ℝ) + 1) k * c.factorial = ((c + k).factorial : ℝ) := by
    intro k c
    induction k with
    | zero => simp
    | succ k ih =>
      rw [poch_succ_right, ← add_assoc, Nat.factorial_succ]
      push_cast
      rw [← ih]; ring
  have h1 := h n (n + a + b)
  rw [show n + a + b + n = a + b + 2 * n by ring] at h1
  have h2 : ((n + a + b).factorial : ℝ) ≠ 0 := Nat.cast_ne_zero.2 (Nat.factorial_ne_zero _)
  have h3 : (n.factorial : ℝ) ≠ 0 := Nat.cast_ne_zero.2 (Nat.factorial_ne_zero _)
  rw [← h1, show a + b + n = n + a + b by ring]
  push_cast
  simp only [poch_zero, Nat.cast_zero, add_zero, Nat.factorial_zero, Nat.cast_one, mul_one, one_mul, one_div, inv_pow]
  field_simp

/-- Testing against a polynomial of degree at most `n` sees only the leading coefficient. -/
theorem pint_lead (a b n : ℕ) (q : ℝ[X]) (hq : q.natDegree ≤ n) :
    pint (jw a b * jacobiPoly (a : ℝ) b n * q) * (jacobiPoly (a : ℝ) b n).coeff n = q.coeff n * jacobiNorm a b n := by
  rw [pint_rodrigues]
  have hd : derivative^[n] q = C ((n.factorial : ℝ) * q.coeff n) := by
    ext k
    rw [coeff_iterate_derivative, coeff_C]
    by_cases hk : k = 0
    · subst hk
      simp [Nat.descFactorial_self]
    · rw [if_neg hk, coeff_eq_zero_of_natDegree_lt (by omega)]; simp
  rw [hd, mul_comm (jw _ _), pint_C_mul, pint_jw, jacobiPoly_lead_nat]
  unfold jacobiNorm
  rw [show a + n + (b + n) + 1 = a + b + 2 * n + 1 by ring, Nat.factorial_succ (a + b + 2 * n),
    show 2 ^ (a + b + 2 * n + 1) = (2 : ℝ) ^ (a + b + 1) * (2 ^ n * 2 ^ n) by rw [← pow_add, ← pow_add]; congr 1; ring]
  have h1 : ((a + b + 2 * n).factorial : ℝ) ≠ 0 := Nat.cast_ne_zero.2 (Nat.factorial_ne_zero _)
  have h2 : ((a + b + n).factorial : ℝ) ≠ 0 := Nat.cast_ne_zero.2 (Nat.factorial_ne_zero _)
  have h3 : (n.factorial : ℝ) ≠ 0 := Nat.cast_ne_zero.2 (Nat.factorial_ne_zero _)
  have h4 : (a : ℝ) + b + 2 * n + 1 ≠ 0 := by positivity
  have h5 : 2 * (n : ℝ) + a + b + 1 ≠ 0 := by positivity
  push_cast
  field_simp
  ring

theorem pint_norm (a b n : ℕ) :
    pint (jw a b * jacobiPoly (a : ℝ) b n * jacobiPoly (a : ℝ) b n) = jacobiNorm a b n := by
  have h := pint_lead a b n _ (jacobiPoly_lead (a : ℝ) b n).2
  have hp := (jacobiPoly_lead_pos (a : ℝ) b (by linarith [Nat.cast_nonneg (α := ℝ) a])
    (by linarith [Nat.cast_nonneg (α := ℝ) b]) n).ne'
  rw [mul_comm] at h
  exact mul_left_cancel₀ hp h

end FIAT
