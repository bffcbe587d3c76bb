/-
Legendre polynomials and the Jacobi polynomials with parameters (0, 1).
-/
import Verif.Props.Jacobi
import Verif.Lemmas.JacobiInt

namespace FIAT
open Polynomial

local notation "P" => jacobiPoly (0 : ℝ) 0
local notation "R" => jacobiPoly (0 : ℝ) 1

theorem C_mul_cancel {c : ℝ} (hc : c ≠ 0) {p q : ℝ[X]} (h : C c * p = C c * q) : p = q :=
  mul_left_cancel₀ (fun h0 => hc (C_eq_zero.1 h0)) h

theorem leg_zero : P 0 = 1 := jacobiPoly_zero 0 0
theorem leg_one : P 1 = X := by
  rw [jacobiPoly_one]
  simp only [sub_self, add_zero, zero_add, map_zero, ← mul_assoc, ← map_mul]
  norm_num

theorem leg_rec (n : ℕ) : C ((n : ℝ) + 2) * P (n + 2) = C (2 * (n : ℝ) + 3) * X * P (n + 1) - C ((n : ℝ) + 1) * P n := by
  have h := jacobiPoly_rec (0 : ℝ) 0 n
  have hc : (2 * ((n : ℝ) + 2) * (2 * (n + 2) - 2)) ≠ 0 := by
    have : (2 * ((n : ℝ) + 2) * (2 * (n + 2) - 2)) = 4 * (n + 2) * (n + 1) := by ring
    rw [this]; positivity
  refine C_mul_cancel hc ?_
  have e1 : rA1 (0 : ℝ) 0 ((n + 2 : ℕ) : ℝ) = 2 * ((n : ℝ) + 2) * (2 * (n + 2) - 2) * (n + 2) := by
    unfold rA1; push_cast; ring
  have e2 : rA2 (0 : ℝ) 0 ((n + 2 : ℕ) : ℝ) = 0 := by unfold rA2; ring
  have e3 : rA3 (0 : ℝ) 0 ((n + 2 : ℕ) : ℝ) = 2 * ((n : ℝ) + 2) * (2 * (n + 2) - 2) * (2 * n + 3) := by
    unfold rA3; push_cast; ring
  have e4 : rA4 (0 : ℝ) 0 ((n + 2 : ℕ) : ℝ) = 2 * ((n : ℝ) + 2) * (2 * (n + 2) - 2) * (n + 1) := by
    unfold rA4; push_cast; ring
  rw [e1, e2, e3, e4] at h
  simp only [map_mul _ _ ((n : ℝ) + 2), map_mul _ _ (2 * (n : ℝ) + 3), map_mul _ _ ((n : ℝ) + 1), map_zero, zero_add] at h
  linear_combination h

theorem rad_zero : R 0 = 1 := jacobiPoly_zero 0 1
theorem rad_one : R 1 = C (1 / 2) * (C 3 * X - 1) := by
  rw [jacobiPoly_one]
  norm_num
  ring

theorem rad_rec (n : ℕ) : C (((n : ℝ) + 3) * (2 * n + 3)) * R (n + 2) =
    (C ((2 * (n : ℝ) + 3) * (2 * n + 5)) * X - 1) * R (n + 1) - C (((n : ℝ) + 1) * (2 * n + 5)) * R n := by
  have h := jacobiPoly_rec (0 : ℝ) 1 n
  have hc : (2 * ((n : ℝ) + 2)) ≠ 0 := by positivity
  refine C_mul_cancel hc ?_
  have e1 : rA1 (0 : ℝ) 1 ((n + 2 : ℕ) : ℝ) = 2 * ((n : ℝ) + 2) * ((n + 3) * (2 * n + 3)) := by
    unfold rA1; push_cast; ring
  have e2 : rA2 (0 : ℝ) 1 ((n + 2 : ℕ) : ℝ) = 2 * ((n : ℝ) + 2) * (-1) := by unfold rA2; push_cast; ring
  have e3 : rA3 (0 : ℝ) 1 ((n + 2 : ℕ) : ℝ) = 2 * ((n : ℝ) + 2) * ((2 * n + 3) * (2 * n + 5)) := by
    unfold rA3; push_cast; ring
  have e4 : rA4 (0 : ℝ) 1 ((n + 2 : ℕ) : ℝ) = 2 * ((n : ℝ) + 2) * ((n + 1) * (2 * n + 5)) := by
    unfold rA4; push_cast; ring
  rw [e1, e2, e3, e4] at h
  simp only [map_mul, map_neg, map_one] at h ⊢
  linear_combination h

/-- `(1 + x) P_n^(0,1) = P_n + P_{n+1}`. -/
theorem rad_leg (n : ℕ) : (1 + X) * R n = P n + P (n + 1) := by
  induction n using Nat.twoStepInduction with
  | zero => rw [rad_zero, leg_zero, leg_one]; ring
  | one =>
    have h := leg_rec 0
    rw [leg_zero, leg_one] at h
    refine C_mul_cancel (c := 2) (by norm_num) ?_
    norm_num at h
    rw [rad_one, leg_one]
    have e : (C (2 : ℝ)) * C (1 / 2) = 1 := by rw [← map_mul]; norm_num
    have e3 : (C (3 : ℝ)) = 3 := map_ofNat C 3
    have e2 : (C (2 : ℝ)) = 2 := map_ofNat C 2
    rw [e3] at h ⊢; rw [e2] at e h ⊢
    linear_combination (1 + X) * (3 * X - 1) * e - h
  | more n h1 h2 =>
    have r0 := rad_rec n
    have l0 := leg_rec n
    have l1 := leg_rec (n + 1)
    have hc : (((n : ℝ) + 3) * (2 * n + 3)) ≠ 0 := by positivity
    refine C_mul_cancel hc ?_
    push_cast at l1
    simp only [map_mul, map_add, map_one, map_natCast, map_ofNat] at r0 l0 l1 ⊢
    linear_combination (1 + X) * r0 + ((2 * (n : ℝ[X]) + 3) * (2 * n + 5) * X - 1) * h2 -
      ((n : ℝ[X]) + 1) * (2 * n + 5) * h1 - (2 * (n : ℝ[X]) + 5) * l0 - (2 * (n : ℝ[X]) + 3) * l1

/-- The derivative of a Legendre polynomial in terms of its neighbours. -/
theorem leg_deriv (n : ℕ) : (1 - X ^ 2) * derivative (P n) = C ((n : ℝ) + 1) * (X * P n - P (n + 1)) ∧
    (1 - X ^ 2) * derivative (P (n + 1)) = C ((n : ℝ) + 1) * (P n - X * P (n + 1)) := by
  induction n with
  | zero => rw [leg_zero, zero_add, leg_one]; simp; ring
  | succ n ih =>
    obtain ⟨h1, h2⟩ := ih
    have l0 := leg_rec n
    have h3 : (1 - X ^ 2) * derivative (P (n + 1)) = C (((n + 1 : ℕ) : ℝ) + 1) * (X * P (n + 1) - P (n + 1 + 1)) := by
      push_cast
      simp only [map_mul, map_add, map_one, map_natCast, map_ofNat] at l0 h2 ⊢
      linear_combination h2 + l0
    refine ⟨h3, ?_⟩
    have l0' := congrArg derivative l0
    simp only [derivative_sub, derivative_mul, derivative_C, derivative_X, zero_mul, zero_add, mul_one] at l0'
    refine C_mul_cancel (c := (n : ℝ) + 2) (by positivity) ?_
    push_cast at h3 ⊢
    simp only [map_mul, map_add, map_one, map_natCast, map_ofNat] at l0 l0' h1 h2 h3 ⊢
    linear_combination (1 - X ^ 2) * l0' + (2 * (n : ℝ[X]) + 3) * X * h2 - ((n : ℝ[X]) + 1) * h1 +
      ((n : ℝ[X]) + 2) * X * l0

theorem leg_at_one (n : ℕ) : (P n).eval 1 = 1 := by
  induction n using Nat.twoStepInduction with
  | zero => rw [leg_zero]; simp
  | one => rw [leg_one]; simp
  | more n h1 h2 =>
    have h := congrArg (fun p => p.eval 1) (leg_rec n)
    simp only [eval_mul, eval_sub, eval_C, eval_X, h1, h2] at h
    have : (n : ℝ) + 2 ≠ 0 := by positivity
    refine mul_left_cancel₀ this ?_
    linear_combination h

theorem leg_at_neg_one (n : ℕ) : (P n).eval (-1) = (-1) ^ n := by
  induction n using Nat.twoStepInduction with
  | zero => rw [leg_zero]; simp
  | one => rw [leg_one]; simp
  | more n h1 h2 =>
    have h := congrArg (fun p => p.eval (-1)) (leg_rec n)
    simp only [eval_mul, eval_sub, eval_C, eval_X, h1, h2] at h
    have : (n : ℝ) + 2 ≠ 0 := by positivity
    refine mul_left_cancel₀ this ?_
    rw [pow_succ, pow_succ] at *
    linear_combination h

theorem rad_at_neg_one (n : ℕ) : (R n).eval (-1) = (-1) ^ n * (n + 1) := by
  induction n using Nat.twoStepInduction with
  | zero => rw [rad_zero]; simp
  | one => rw [rad_one]; norm_num
  | more n h1 h2 =>
    have h := congrArg (fun p => p.eval (-1)) (rad_rec n)
    simp only [eval_mul, eval_sub, eval_C, eval_X, eval_one, h1, h2] at h
    have : (((n : ℝ) + 3) * (2 * n + 3)) ≠ 0 := by positivity
    refine mul_left_cancel₀ this ?_
    rw [h]
    push_cast
    rw [pow_succ, pow_succ]
    ring

theorem rad_deriv (n : ℕ) : C ((n : ℝ) + 1) * R n = derivative (P (n + 1) - P n) := by
  have h : (1 - X ^ 2 : ℝ[X]) ≠ 0 := by
    intro h0
    have := congrArg (fun p => p.eval 0) h0
    simp at this
  refine mul_left_cancel₀ h ?_
  obtain ⟨h1, h2⟩ := leg_deriv n
  rw [derivative_sub]
  linear_combination h1 - h2 + C ((n : ℝ) + 1) * (1 - X) * rad_leg n

theorem pint_rad (n : ℕ) : pint (R n) = 2 * (-1) ^ n / (n + 1) := by
  have h := congrArg pint (rad_deriv n)
  rw [pint_C_mul, pint_derivative] at h
  simp only [eval_sub, leg_at_one, leg_at_neg_one] at h
  have : (n : ℝ) + 1 ≠ 0 := by positivity
  rw [eq_div_iff this, mul_comm, h, pow_succ]
  ring

/-- At a root of `P_n^(0,1)` in (-1, 1): the derivative in terms of the Legendre polynomial. -/
theorem rad_deriv_root (n : ℕ) (x : ℝ) (hx : (R n).eval x = 0) (h1 : -1 < x) :
    (1 - x ^ 2) * (derivative (R n)).eval x = 2 * (n + 1) * (P n).eval x := by
  have e := congrArg (fun p => p.eval x) (rad_leg n)
  simp only [eval_mul, eval_add, eval_one, eval_X, hx, mul_zero] at e
  have e' := congrArg (fun p => (derivative p).eval x) (rad_leg n)
  simp only [derivative_mul, derivative_add, derivative_one, derivative_X, zero_add, one_mul, eval_add, eval_mul, hx,
    eval_one, eval_X] at e'
  obtain ⟨d1, d2⟩ := leg_deriv n
  have d1' := congrArg (fun p => p.eval x) d1
  have d2' := congrArg (fun p => p.eval x) d2
  simp only [eval_mul, eval_sub, eval_one, eval_pow, eval_X, eval_C] at d1' d2'
  have h0 : (1 + x) ≠ 0 := by linarith
  refine mul_left_cancel₀ h0 ?_
  have hp : (P (n + 1)).eval x = -(P n).eval x := by linarith
  rw [hp] at d1' d2'
  linear_combination (1 - x ^ 2) * e' + d1' + d2'

end FIAT
