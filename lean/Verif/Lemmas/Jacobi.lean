/-
Coefficient identities for Jacobi polynomials.
-/
import Mathlib.RingTheory.Polynomial.Pochhammer
import Mathlib.Algebra.CharZero.Defs
import Mathlib.Algebra.Polynomial.Derivative
import Mathlib.Tactic.FieldSimp
import Mathlib.Tactic.Ring
import Mathlib.Tactic.LinearCombination

namespace FIAT
open Polynomial

section
variable {K : Type*} [Field K]

/-- Rising factorial `c (c+1) ... (c+m-1)`. -/
noncomputable def poch (c : K) (m : ℕ) : K := (ascPochhammer K m).eval c

@[simp] theorem poch_zero (c : K) : poch c 0 = 1 := by simp [poch]
theorem poch_succ_right (c : K) (m : ℕ) : poch c (m + 1) = poch c m * (c + m) := by
  rw [poch, ascPochhammer_succ_right]; simp [poch]
theorem poch_succ_left (c : K) (m : ℕ) : poch c (m + 1) = c * poch (c + 1) m := by
  rw [poch, ascPochhammer_succ_left]; simp [poch]

/-- The coefficient of `((x-1)/2)^k` in `P_n^(a,b)`, with `n = k + m`. -/
noncomputable def jacE (a b : K) (k m : ℕ) : K :=
  poch (a + k + 1) m * poch ((k : K) + m + a + b + 1) k / (Nat.factorial k * Nat.factorial m)

variable [CharZero K]

private theorem fac_ne (n : ℕ) : (Nat.factorial n : K) ≠ 0 := Nat.cast_ne_zero.2 (Nat.factorial_ne_zero n)
private theorem fac_succ (n : ℕ) : (Nat.factorial (n + 1) : K) = (n + 1) * Nat.factorial n := by
  rw [Nat.factorial_succ]; push_cast; ring

/-- Raising: derivative relation on coefficients. -/
theorem jacE_deriv (a b : K) (k m : ℕ) :
    ((k : K) + 1) * jacE a b (k + 1) m = ((k : K) + 1 + m + a + b + 1) * jacE (a + 1) (b + 1) k m := by
  unfold jacE
  rw [fac_succ, poch_succ_left ((((k + 1 : ℕ) : K)) + m + a + b + 1) k]
  have h1 := fac_ne (K := K) k
  have h2 := fac_ne (K := K) m
  have h3 : (k : K) + 1 ≠ 0 := Nat.cast_add_one_ne_zero k
  push_cast
  rw [show (k : K) + 1 + m + a + b + 1 + 1 = k + m + (a + 1) + (b + 1) + 1 by ring,
    show a + ((k : K) + 1) + 1 = a + 1 + k + 1 by ring]
  field_simp

/-- Lowering: the coefficients of `(a+1)(t+1) Q + (b+1) t Q + t (t+1) Q'` for `Q = P_{n-1}^(a+1,b+1)`,
`n = k + m + 2`, interior coefficient `k + 1`. -/
theorem jacE_lower (a b : K) (k m : ℕ) :
    (a + 1 + (k + 1 : ℕ)) * jacE (a + 1) (b + 1) (k + 1) m +
        (a + b + 2 + k) * jacE (a + 1) (b + 1) k (m + 1) =
      ((k : K) + m + 2) * jacE a b (k + 1) (m + 1) := by
  have h1 := fac_ne (K := K) k
  have h2 := fac_ne (K := K) m
  have h3 : (k : K) + 1 ≠ 0 := Nat.cast_add_one_ne_zero k
  have h4 : (m : K) + 1 ≠ 0 := Nat.cast_add_one_ne_zero m
  set n : K := k + m + 2 with hn
  have e1 : poch ((((k + 1 : ℕ) : K)) + (m : K) + (a + 1) + (b + 1) + 1) (k + 1) =
      poch (n + a + b + 2) k * (n + a + b + 2 + k) := by
    rw [show (((k + 1 : ℕ) : K)) + (m : K) + (a + 1) + (b + 1) + 1 = n + a + b + 2 by push_cast; rw [hn]; ring,
      poch_succ_right]
  have e2 : poch ((k : K) + ((m + 1 : ℕ) : K) + (a + 1) + (b + 1) + 1) k = poch (n + a + b + 2) k := by
    rw [show (k : K) + ((m + 1 : ℕ) : K) + (a + 1) + (b + 1) + 1 = n + a + b + 2 by push_cast; rw [hn]; ring]
  have e3 : poch ((((k + 1 : ℕ) : K)) + ((m + 1 : ℕ) : K) + a + b + 1) (k + 1) =
      (n + a + b + 1) * poch (n + a + b + 2) k := by
    rw [show (((k + 1 : ℕ) : K)) + ((m + 1 : ℕ) : K) + a + b + 1 = n + a + b + 1 by push_cast; rw [hn]; ring,
      poch_succ_left, show n + a + b + 1 + 1 = n + a + b + 2 by ring]
  have d1 : poch (a + 1 + (k : K) + 1) (m + 1) = (a + k + 2) * poch (a + k + 3) m := by
    rw [poch_succ_left, show a + 1 + (k : K) + 1 = a + k + 2 by ring, show a + (k : K) + 2 + 1 = a + k + 3 by ring]
  have d2 : poch (a + ((k + 1 : ℕ) : K) + 1) (m + 1) = (a + k + 2) * poch (a + k + 3) m := by
    rw [poch_succ_left, show a + ((k + 1 : ℕ) : K) + 1 = a + k + 2 by push_cast; ring,
      show a + (k : K) + 2 + 1 = a + k + 3 by ring]
  have d3 : a + 1 + ((k + 1 : ℕ) : K) + 1 = a + k + 3 := by push_cast; ring
  unfold jacE
  rw [e1, e2, e3, d1, d2, d3, fac_succ k, fac_succ m]
  push_cast
  field_simp
  rw [hn]
  ring

/-- Constant coefficient, `n = m + 1`. -/
theorem jacE_lower_zero (a b : K) (m : ℕ) :
    (a + 1) * jacE (a + 1) (b + 1) 0 m = ((m : K) + 1) * jacE a b 0 (m + 1) := by
  have h2 := fac_ne (K := K) m
  have h4 : (m : K) + 1 ≠ 0 := Nat.cast_add_one_ne_zero m
  unfold jacE
  rw [poch_succ_left, fac_succ m]
  simp only [poch_zero, Nat.cast_zero, add_zero]
  field_simp

/-- Leading coefficient, `n = k + 1`. -/
theorem jacE_lower_top (a b : K) (k : ℕ) :
    (a + b + 2 + k) * jacE (a + 1) (b + 1) k 0 = ((k : K) + 1) * jacE a b (k + 1) 0 := by
  have h1 := fac_ne (K := K) k
  have h3 : (k : K) + 1 ≠ 0 := Nat.cast_add_one_ne_zero k
  unfold jacE
  rw [fac_succ k, poch_succ_left]
  simp only [poch_zero, Nat.cast_zero, add_zero]
  rw [show (((k + 1 : ℕ) : K)) + a + b + 1 + 1 = (k : K) + (a + 1) + (b + 1) + 1 by push_cast; ring]
  push_cast
  field_simp
  ring

section rec
variable (a b n : K)
/-- The recurrence coefficients of the code, `n` being the loop index. -/
def rA1 : K := 2 * n * (n + (a + b)) * (2 * n + (a + b) - 2)
def rA2 : K := (2 * n + (a + b) - 1) * (a * a - b * b)
def rA3 : K := (2 * n + (a + b) - 2) * (2 * n + (a + b) - 1) * (2 * n + (a + b))
def rA4 : K := 2 * (n + a - 1) * (n + b - 1) * (2 * n + (a + b))
end rec

/-- Interior coefficients. -/
theorem jacE_rec (a b : K) (k m : ℕ) (n : K) (hn : n = k + m + 3) :
    rA1 a b n * jacE a b (k + 1) (m + 2) =
      (rA2 a b n + rA3 a b n) * jacE a b (k + 1) (m + 1) + 2 * rA3 a b n * jacE a b k (m + 2)
        - rA4 a b n * jacE a b (k + 1) m := by
  have h1 := fac_ne (K := K) k
  have h2 := fac_ne (K := K) m
  have h3 : (k : K) + 1 ≠ 0 := Nat.cast_add_one_ne_zero k
  have h4 : (m : K) + 1 ≠ 0 := Nat.cast_add_one_ne_zero m
  have h5 : (m : K) + 1 + 1 ≠ 0 := by have := Nat.cast_add_one_ne_zero (R := K) (m + 1); push_cast at this; exact this
  set A := poch (a + k + 2) m with hA
  set S := poch (n + a + b) k with hS
  have e1 : (n + a + b) * (poch ((((k + 1 : ℕ) : K)) + ((m + 2 : ℕ) : K) + a + b + 1) (k + 1)) =
      S * (n + a + b + k) * (n + a + b + k + 1) := by
    rw [show (((k + 1 : ℕ) : K)) + ((m + 2 : ℕ) : K) + a + b + 1 = n + a + b + 1 by push_cast; rw [hn]; ring,
      ← poch_succ_left, poch_succ_right, poch_succ_right]
    push_cast; ring
  have e2 : poch ((((k + 1 : ℕ) : K)) + ((m + 1 : ℕ) : K) + a + b + 1) (k + 1) = S * (n + a + b + k) := by
    rw [show (((k + 1 : ℕ) : K)) + ((m + 1 : ℕ) : K) + a + b + 1 = n + a + b by push_cast; rw [hn]; ring,
      poch_succ_right]
  have e3 : poch ((k : K) + ((m + 2 : ℕ) : K) + a + b + 1) k = S := by
    rw [show (k : K) + ((m + 2 : ℕ) : K) + a + b + 1 = n + a + b by push_cast; rw [hn]; ring]
  have e4 : poch ((((k + 1 : ℕ) : K)) + (m : K) + a + b + 1) (k + 1) = (n + a + b - 1) * S := by
    rw [show (((k + 1 : ℕ) : K)) + (m : K) + a + b + 1 = n + a + b - 1 by push_cast; rw [hn]; ring,
      poch_succ_left]
    rw [show n + a + b - 1 + 1 = n + a + b by ring]
  have d0 : a + (((k + 1 : ℕ) : K)) + 1 = a + k + 2 := by push_cast; ring
  have d1 : poch (a + k + 2) (m + 2) = A * (a + k + 2 + m) * (a + k + 2 + m + 1) := by
    rw [poch_succ_right, poch_succ_right]; push_cast; ring
  have d2 : poch (a + k + 2) (m + 1) = A * (a + k + 2 + m) := poch_succ_right _ _
  have d3 : poch (a + k + 1) (m + 2) = (a + k + 1) * (A * (a + k + 2 + m)) := by
    rw [poch_succ_left, show a + (k : K) + 1 + 1 = a + k + 2 by ring, d2]
  unfold jacE
  rw [d0, d1, d2, d3, e2, e3, e4, fac_succ k, fac_succ (m + 1), fac_succ m]
  have lhs : rA1 a b n * (A * (a + k + 2 + m) * (a + k + 2 + m + 1) *
      poch ((((k + 1 : ℕ) : K)) + ((m + 2 : ℕ) : K) + a + b + 1) (k + 1) /
        (((k : K) + 1) * Nat.factorial k * ((((m + 1 : ℕ) : K) + 1) * (((m : K) + 1) * Nat.factorial m)))) =
      2 * n * (2 * n + (a + b) - 2) * (A * (a + k + 2 + m) * (a + k + 2 + m + 1) *
      (S * (n + a + b + k) * (n + a + b + k + 1)) /
        (((k : K) + 1) * Nat.factorial k * ((((m + 1 : ℕ) : K) + 1) * (((m : K) + 1) * Nat.factorial m)))) := by
    rw [← e1, rA1]; ring
  rw [lhs, rA2, rA3, rA4]
  push_cast
  rw [hn]
  field_simp
  ring

/-- Constant coefficient. -/
theorem jacE_rec_zero (a b : K) (m : ℕ) (n : K) (hn : n = m + 2) :
    rA1 a b n * jacE a b 0 (m + 2) =
      (rA2 a b n + rA3 a b n) * jacE a b 0 (m + 1) - rA4 a b n * jacE a b 0 m := by
  have h2 := fac_ne (K := K) m
  have h4 : (m : K) + 1 ≠ 0 := Nat.cast_add_one_ne_zero m
  have h5 : (m : K) + 1 + 1 ≠ 0 := by have := Nat.cast_add_one_ne_zero (R := K) (m + 1); push_cast at this; exact this
  unfold jacE
  rw [poch_succ_right _ (m + 1), poch_succ_right _ m, fac_succ (m + 1), fac_succ m, rA1, rA2, rA3, rA4]
  simp only [poch_zero]
  push_cast
  rw [hn]
  field_simp
  ring

/-- Next-to-leading coefficient. -/
theorem jacE_rec_one (a b : K) (k : ℕ) (n : K) (hn : n = k + 2) :
    rA1 a b n * jacE a b (k + 1) 1 =
      (rA2 a b n + rA3 a b n) * jacE a b (k + 1) 0 + 2 * rA3 a b n * jacE a b k 1 := by
  have h1 := fac_ne (K := K) k
  have h3 : (k : K) + 1 ≠ 0 := Nat.cast_add_one_ne_zero k
  set S := poch (n + a + b) k with hS
  have e1 : (n + a + b) * (poch ((((k + 1 : ℕ) : K)) + ((1 : ℕ) : K) + a + b + 1) (k + 1)) =
      S * (n + a + b + k) * (n + a + b + k + 1) := by
    rw [show (((k + 1 : ℕ) : K)) + ((1 : ℕ) : K) + a + b + 1 = n + a + b + 1 by push_cast; rw [hn]; ring,
      ← poch_succ_left, poch_succ_right, poch_succ_right]
    push_cast; ring
  have e2 : poch ((((k + 1 : ℕ) : K)) + ((0 : ℕ) : K) + a + b + 1) (k + 1) = S * (n + a + b + k) := by
    rw [show (((k + 1 : ℕ) : K)) + ((0 : ℕ) : K) + a + b + 1 = n + a + b by push_cast; rw [hn]; ring,
      poch_succ_right]
  have e3 : poch ((k : K) + ((1 : ℕ) : K) + a + b + 1) k = S := by
    rw [show (k : K) + ((1 : ℕ) : K) + a + b + 1 = n + a + b by push_cast; rw [hn]; ring]
  have p1 : ∀ c : K, poch c 1 = c := fun c => by rw [poch_succ_right]; simp
  unfold jacE
  rw [e2, e3, p1, p1, fac_succ k]
  have lhs : rA1 a b n * ((a + ((k + 1 : ℕ) : K) + 1) *
      poch ((((k + 1 : ℕ) : K)) + ((1 : ℕ) : K) + a + b + 1) (k + 1) /
        (((k : K) + 1) * Nat.factorial k * (Nat.factorial 1 : ℕ))) =
      2 * n * (2 * n + (a + b) - 2) * ((a + ((k + 1 : ℕ) : K) + 1) *
      (S * (n + a + b + k) * (n + a + b + k + 1)) /
        (((k : K) + 1) * Nat.factorial k * (Nat.factorial 1 : ℕ))) := by
    rw [← e1, rA1]; ring
  rw [lhs, rA2, rA3]
  simp only [poch_zero, Nat.factorial_one, Nat.factorial_zero]
  push_cast
  rw [hn]
  field_simp
  ring

/-- Leading coefficient. -/
theorem jacE_rec_top (a b : K) (k : ℕ) (n : K) (hn : n = k + 1) :
    rA1 a b n * jacE a b (k + 1) 0 = 2 * rA3 a b n * jacE a b k 0 := by
  have h1 := fac_ne (K := K) k
  have h3 : (k : K) + 1 ≠ 0 := Nat.cast_add_one_ne_zero k
  set S := poch (n + a + b) k with hS
  have e1 : (n + a + b) * (poch ((((k + 1 : ℕ) : K)) + ((0 : ℕ) : K) + a + b + 1) (k + 1)) =
      S * (n + a + b + k) * (n + a + b + k + 1) := by
    rw [show (((k + 1 : ℕ) : K)) + ((0 : ℕ) : K) + a + b + 1 = n + a + b + 1 by push_cast; rw [hn]; ring,
      ← poch_succ_left, poch_succ_right, poch_succ_right]
    push_cast; ring
  have e3 : poch ((k : K) + ((0 : ℕ) : K) + a + b + 1) k = S := by
    rw [show (k : K) + ((0 : ℕ) : K) + a + b + 1 = n + a + b by push_cast; rw [hn]; ring]
  unfold jacE
  rw [e3, fac_succ k]
  have lhs : rA1 a b n * (poch (a + ((k + 1 : ℕ) : K) + 1) 0 *
      poch ((((k + 1 : ℕ) : K)) + ((0 : ℕ) : K) + a + b + 1) (k + 1) /
        (((k : K) + 1) * Nat.factorial k * (Nat.factorial 0 : ℕ))) =
      2 * n * (2 * n + (a + b) - 2) * (
      (S * (n + a + b + k) * (n + a + b + k + 1)) /
        (((k : K) + 1) * Nat.factorial k * (Nat.factorial 0 : ℕ))) := by
    rw [← e1, rA1, poch_zero]; ring
  rw [lhs, rA3]
  simp only [poch_zero, Nat.factorial_zero]
  push_cast
  rw [hn]
  field_simp
  ring

end
end FIAT
