/-
C45: `orthopoly.jacobi`, `jacobiD` agree with `eval_jacobi`, `eval_jacobi_deriv`; the recursion coefficients
of `rec_jacobi` fed to `polyval` generate the monic Jacobi polynomials.
-/
import Verif.Props.Jacobi
import Mathlib.Algebra.Polynomial.Monic
import Mathlib.Algebra.Polynomial.BigOperators

namespace FIAT
open Polynomial

section
variable {K A : Type*} [Field K] [CharZero K] [CommRing A] [Algebra K A]

private theorem ortho_step (a b : K) (k : ℕ) (x p1 p2 : A) :
    algebraMap K A ((2 * (k : K) * (k + (a + b)) * (2 * k + (a + b) - 2))⁻¹) *
      (algebraMap K A (2 * (k : K) + (a + b) - 1) *
        (algebraMap K A ((a + b) * (a - b)) + algebraMap K A ((2 * (k : K) + (a + b) - 2) * (2 * k + (a + b))) * x) * p1
        - algebraMap K A (2 * ((k : K) + (a - 1)) * (k + (b - 1)) * (2 * k + (a + b))) * p2) =
      jacobiStep a b k x p1 p2 := by
  unfold jacobiStep
  simp only [div_eq_inv_mul, map_mul, map_add, map_sub]
  ring

/-- C45: `orthopoly.jacobi(N, a, b, x)[:, k]` is `eval_jacobi(a, b, k, x)`. -/
theorem ortho_jacobi_eq (N : ℕ) (a b : K) (h : JacobiOK a b N) (x : A) (k : ℕ) (hk : k ≤ N) :
    orthoJacobi N a b x k = evalJacobi a b k x := by
  unfold orthoJacobi
  simp only
  rcases N with _ | _ | N
  · obtain rfl : k = 0 := by omega
    rw [if_neg (by omega), if_neg (by omega), Function.update_self]; simp [evalJacobi]
  · rw [if_neg (by omega), if_pos (by omega)]
    rcases k with _ | _ | k
    · rw [Function.update_of_ne (by omega), Function.update_self]; simp [evalJacobi]
    · rw [Function.update_self]; simp [evalJacobi]
    · omega
  · rw [if_pos (by omega), if_pos (by omega), show N + 1 + 1 - 1 = N + 1 by omega]
    simp only [ortho_step]
    have key : ∀ m, m ≤ N + 1 → ∀ k ≤ m + 1, ((List.range' 2 m).foldl (fun (P : ℕ → A) (k : ℕ) =>
        Function.update P k (jacobiStep a b k x (P (k - 1)) (P (k - 2))))
        (Function.update (Function.update (fun _ => 0) 0 1) 1
          (algebraMap K A (1 / 2) * (algebraMap K A (a - b) + algebraMap K A (a + b + 2) * x)))) k =
        evalJacobi a b k x := by
      intro m
      induction m with
      | zero =>
        intro _ k hk
        simp only [List.range'_zero, List.foldl_nil]
        rcases k with _ | _ | k
        · rw [Function.update_of_ne (by omega), Function.update_self]; simp [evalJacobi]
        · rw [Function.update_self]; simp [evalJacobi]
        · omega
      | succ m ih =>
        intro hm k hk
        rw [List.range'_concat, List.foldl_append]
        simp only [List.foldl_cons, List.foldl_nil]
        by_cases hkm : k = m + 2
        · subst hkm
          rw [show 2 + 1 * m = m + 2 by ring, Function.update_self, show m + 2 - 1 = m + 1 by omega,
            show m + 2 - 2 = m by omega, ih (by omega) (m + 1) (by omega), ih (by omega) m (by omega)]
          have hb := eval_jacobi_batch_eq a b (m + 2) (fun i h1 h2 => h i h1 (by omega)) [x]
          have e2 := hb (m + 2) 0 le_rfl (by simp)
          have e1 := hb (m + 1) 0 (by omega) (by simp)
          have e0 := hb m 0 (by omega) (by simp)
          simp only [List.getElem_cons_zero] at e0 e1 e2
          rw [← e2, ← e1, ← e0]
          unfold evalJacobiBatch
          simp only
          rw [if_pos (by omega), show m + 2 - 1 = m + 1 by omega, List.range'_concat, List.foldl_append]
          simp only [List.foldl_cons, List.foldl_nil]
          rw [show 2 + 1 * m = m + 2 by ring, Function.update_self, Function.update_of_ne (by omega),
            Function.update_of_ne (by omega)]
          rfl
        · rw [show 2 + 1 * m = m + 2 by ring, Function.update_of_ne (by omega)]
          exact ih (by omega) k (by omega)
    exact key (N + 1) le_rfl k (by omega)

/-- C45: `orthopoly.jacobiD(N, a, b, x)[:, k]` is `eval_jacobi_deriv(a, b, k, x)`. -/
theorem ortho_jacobiD_eq (N : ℕ) (a b : K) (h : JacobiOK (a + 1) (b + 1) (N - 1)) (x : A) (k : ℕ)
    (hk : k ≤ N) : orthoJacobiD N a b x k = evalJacobiDeriv a b k x := by
  unfold orthoJacobiD evalJacobiDeriv
  by_cases hN : N = 0
  · rw [if_pos hN, if_pos (by omega)]
  · rw [if_neg hN]
    by_cases hk0 : k = 0
    · simp [hk0]
    · simp only [if_neg hk0]
      rw [ortho_jacobi_eq (N - 1) (a + 1) (b + 1) h x (k - 1) (by omega)]
      obtain ⟨k, rfl⟩ : ∃ m, k = m + 1 := ⟨k - 1, by omega⟩
      rw [Nat.add_sub_cancel]
      have e : algebraMap K A (a + b + (2 : K) + (k : K)) = algebraMap K A (a + b + ((k + 1 : ℕ) : K) + 1) := by
        congr 1; rw [Nat.cast_add, Nat.cast_one]; ring
      simp only [Nat.cast_add, Nat.cast_one, map_add, map_one, map_natCast, map_mul] at e ⊢
      linear_combination algebraMap K A (1 / 2) * evalJacobi (a + 1) (b + 1) k x * e

/-- The coefficient of `x^n` in `P_n`. -/
theorem jacobiPoly_lead (a b : K) (n : ℕ) :
    (jacobiPoly a b n).coeff n = jacE a b n 0 * (1 / 2) ^ n ∧ (jacobiPoly a b n).natDegree ≤ n := by
  have hdeg : (C (1 / 2 : K) * (X - 1)).natDegree ≤ 1 :=
    (natDegree_C_mul_le _ _).trans (by simpa using natDegree_X_sub_C_le (1 : K))
  have hpow : ∀ j, ((C (1 / 2 : K) * (X - 1)) ^ j).natDegree ≤ j := fun j =>
    (natDegree_pow_le).trans (by simpa using Nat.mul_le_mul_left j hdeg)
  constructor
  · unfold jacobiPoly
    rw [finsetSum_coeff, Finset.sum_range_succ, Finset.sum_eq_zero, zero_add, coeff_C_mul]
    · congr 1
      · have : jacobiCoeff a b (n + 0) n = jacE a b n 0 := by
          unfold jacobiCoeff jacE poch; rw [Nat.add_sub_cancel_left]; push_cast; rfl
        simpa using this
      · have h1 := coeff_pow_of_natDegree_le (m := n) hdeg
        rw [mul_one] at h1
        rw [h1]; simp [coeff_one]
    · intro j hj
      have hj' := Finset.mem_range.1 hj
      rw [coeff_C_mul, coeff_eq_zero_of_natDegree_lt (lt_of_le_of_lt (hpow j) hj'), mul_zero]
  · unfold jacobiPoly
    refine natDegree_sum_le_of_forall_le _ _ fun j hj => ?_
    have hj' := Finset.mem_range.1 hj
    exact (natDegree_C_mul_le _ _).trans ((hpow j).trans (by omega))

end

section ordered
variable {K : Type*} [Field K] [LinearOrder K] [IsStrictOrderedRing K] {A : Type*} [CommRing A] [Algebra K A]

private theorem poch_pos (c : K) (hc : 0 < c) (m : ℕ) : 0 < poch c m := by
  induction m with
  | zero => simp
  | succ m ih => rw [poch_succ_right]; positivity

/-- The leading coefficient is positive for `a, b > -1`: `P_n` has degree exactly `n`. -/
theorem jacobiPoly_lead_pos (a b : K) (ha : -1 < a) (hb : -1 < b) (n : ℕ) :
    0 < (jacobiPoly a b n).coeff n := by
  rw [(jacobiPoly_lead a b n).1]
  unfold jacE
  rcases n with _ | n
  · simp
  · have h1 : (0 : K) < ((n + 1 : ℕ) : K) + ((0 : ℕ) : K) + a + b + 1 := by
      have : (0 : K) ≤ n := Nat.cast_nonneg n
      push_cast; linarith
    have h2 := poch_pos _ h1 (n + 1)
    simp only [poch_zero, one_mul]
    positivity

theorem monic_rec (a b mu : K) (ha : -1 < a) (hb : -1 < b) (n : ℕ) (x : A) :
    algebraMap K A ((jacobiPoly a b (n + 2)).coeff (n + 2))⁻¹ * aeval x (jacobiPoly a b (n + 2)) =
      (x - algebraMap K A ((recJacobi mu a b).1 (n + 1))) *
        (algebraMap K A ((jacobiPoly a b (n + 1)).coeff (n + 1))⁻¹ * aeval x (jacobiPoly a b (n + 1))) -
      algebraMap K A ((recJacobi mu a b).2 (n + 1)) *
        (algebraMap K A ((jacobiPoly a b n).coeff n)⁻¹ * aeval x (jacobiPoly a b n)) := by
  have l2 := jacobiPoly_lead_pos a b ha hb (n + 2)
  have l1 := jacobiPoly_lead_pos a b ha hb (n + 1)
  have l0 := jacobiPoly_lead_pos a b ha hb n
  have hn0 : (0 : K) ≤ n := Nat.cast_nonneg n
  set L2 := (jacobiPoly a b (n + 2)).coeff (n + 2) with hL2
  set L1 := (jacobiPoly a b (n + 1)).coeff (n + 1) with hL1
  set L0 := (jacobiPoly a b n).coeff n with hL0
  set N := ((n + 2 : ℕ) : K) with hN
  have hNn : N = n + 2 := by rw [hN]; push_cast; ring
  -- leading coefficients
  have r21 : rA1 a b N * L2 = rA3 a b N * L1 := by
    have := jacE_rec_top a b (n + 1) N (by rw [hN]; push_cast; ring)
    rw [hL2, hL1, (jacobiPoly_lead a b (n + 2)).1, (jacobiPoly_lead a b (n + 1)).1, pow_succ _ (n + 1)]
    linear_combination (1 / 2 : K) ^ (n + 1) * (1 / 2) * this
  have q1 : (0 : K) < 2 * N + (a + b) - 2 := by rw [hNn]; linarith
  have q2 : (0 : K) < 2 * N + (a + b) - 1 := by linarith
  have q3 : (0 : K) < 2 * N + (a + b) := by linarith
  have hA3 : rA3 a b N ≠ 0 := by unfold rA3; positivity
  have hA1 : rA1 a b N ≠ 0 := by
    have : (0 : K) < N + (a + b) := by rw [hNn]; linarith
    have : (0 : K) < N := by rw [hNn]; linarith
    unfold rA1; positivity
  have hrec := congrArg (aeval x) (jacobiPoly_rec a b n)
  simp only [map_mul, map_sub, map_add, aeval_C, aeval_X, ← hN] at hrec
  -- the coefficients of the code
  have hal : (recJacobi mu a b).1 (n + 1) = -(rA2 a b N / rA3 a b N) := by
    simp only [recJacobi]
    rw [if_neg (by omega), rA2, rA3]
    have e : 2 * (((n + 1 : ℕ) : K)) + a + b = 2 * N + (a + b) - 2 := by rw [hNn]; push_cast; ring
    rw [e, show 2 * N + (a + b) - 2 + 2 = 2 * N + (a + b) by ring]
    field_simp
    ring
  have hbe : (recJacobi mu a b).2 (n + 1) = rA4 a b N * L0 / (rA3 a b N * L1) := by
    simp only [recJacobi]
    rw [if_neg (by omega)]
    rcases n with _ | m
    · rw [if_pos rfl]
      have e1 : L1 = (a + b + 2) / 2 := by
        rw [hL1, (jacobiPoly_lead a b 1).1, jacE, poch_succ_right]; simp; ring
      have e0 : L0 = 1 := by rw [hL0, (jacobiPoly_lead a b 0).1, jacE]; simp
      have s2 : (0 : K) < a + b + 2 := by linarith
      have s3 : (0 : K) < a + b + 3 := by linarith
      have s4 : (0 : K) < a + b + 4 := by linarith
      have hN2 : N = 2 := by rw [hNn]; simp
      rw [e1, e0, rA4, rA3, hN2,
        show (2 : K) * 2 + (a + b) - 2 = a + b + 2 by ring,
        show (2 : K) * 2 + (a + b) - 1 = a + b + 3 by ring,
        show (2 : K) * 2 + (a + b) = a + b + 4 by ring]
      field_simp
      ring
    · rw [if_neg (by omega)]
      set M := (((m + 1 + 1 : ℕ)) : K) with hM
      have hMN : N = M + 1 := by rw [hN, hM]; push_cast; ring
      have hMm : M = m + 2 := by rw [hM]; push_cast; ring
      have hm0 : (0 : K) ≤ m := Nat.cast_nonneg m
      have r10 : rA1 a b M * L1 = rA3 a b M * L0 := by
        have := jacE_rec_top a b (m + 1) M (by rw [hM]; push_cast; ring)
        rw [hL1, hL0, (jacobiPoly_lead a b (m + 1 + 1)).1, (jacobiPoly_lead a b (m + 1)).1, pow_succ _ (m + 1)]
        linear_combination (1 / 2 : K) ^ (m + 1) * (1 / 2) * this
      have p1 : (0 : K) < 2 * M + (a + b) - 2 := by rw [hMm]; linarith
      have p2 : (0 : K) < 2 * M + (a + b) - 1 := by linarith
      have p3 : (0 : K) < 2 * M + (a + b) := by linarith
      have p4 : (0 : K) < 2 * M + (a + b) + 1 := by linarith
      have p5 : (0 : K) < 2 * M + (a + b) + 2 := by linarith
      have hA3M : rA3 a b M ≠ 0 := by unfold rA3; positivity
      have hA1M : rA1 a b M ≠ 0 := by
        have : (0 : K) < M + (a + b) := by rw [hMm]; linarith
        have : (0 : K) < M := by rw [hMm]; linarith
        unfold rA1; positivity
      have e0 : L0 = rA1 a b M * L1 / rA3 a b M := by rw [r10]; field_simp
      rw [e0]
      have hb1 : rA4 a b N * (rA1 a b M * L1 / rA3 a b M) / (rA3 a b N * L1) =
          rA4 a b N * rA1 a b M / (rA3 a b M * rA3 a b N) := by
        have := l1.ne'
        field_simp
      rw [hb1, rA4, rA1, rA3, rA3, hMN,
        show 2 * M + a + b = 2 * M + (a + b) by ring,
        show 2 * (M + 1) + (a + b) - 2 = 2 * M + (a + b) by ring,
        show 2 * (M + 1) + (a + b) - 1 = 2 * M + (a + b) + 1 by ring,
        show 2 * (M + 1) + (a + b) = 2 * M + (a + b) + 2 by ring]
      set T := 2 * M + (a + b) with hT
      rw [div_eq_div_iff (by positivity) (by positivity)]
      ring
  rw [hal, hbe]
  -- divide the recurrence
  have i2 : L2⁻¹ = rA1 a b N * (rA3 a b N * L1)⁻¹ := by
    rw [← r21, mul_inv, ← mul_assoc, mul_inv_cancel₀ hA1, one_mul]
  have i3 : (rA3 a b N * L1)⁻¹ * rA3 a b N = L1⁻¹ := by
    rw [mul_inv, mul_right_comm, inv_mul_cancel₀ hA3, one_mul]
  rw [i2, map_mul, mul_right_comm, hrec]
  have t1 : algebraMap K A (rA2 a b N / rA3 a b N) * algebraMap K A L1⁻¹ =
      algebraMap K A (rA2 a b N) * algebraMap K A (rA3 a b N * L1)⁻¹ := by
    rw [← map_mul, ← map_mul]; congr 1; rw [mul_inv, div_eq_mul_inv]; ring
  have t2 : algebraMap K A (rA3 a b N) * algebraMap K A (rA3 a b N * L1)⁻¹ = algebraMap K A L1⁻¹ := by
    rw [← map_mul, mul_comm, i3]
  have t3 : algebraMap K A (rA4 a b N * L0 / (rA3 a b N * L1)) * algebraMap K A L0⁻¹ =
      algebraMap K A (rA4 a b N) * algebraMap K A (rA3 a b N * L1)⁻¹ := by
    rw [← map_mul, ← map_mul]; congr 1
    rw [div_eq_mul_inv, mul_right_comm, mul_assoc _ L0, mul_inv_cancel₀ l0.ne', mul_one]
  rw [map_neg]
  linear_combination (-aeval x (jacobiPoly a b (n + 1))) * t1 +
    (x * aeval x (jacobiPoly a b (n + 1))) * t2 + aeval x (jacobiPoly a b n) * t3

/-- C45: for `a, b > -1` and `N >= 2`, column `k <= N` of `polyval(*rec_jacobi(N, a, b), x)` is the Jacobi
polynomial of degree `k` divided by its leading coefficient; `beta[0]` (`mu`) plays no role. -/
theorem ortho_polyval_monic (a b mu : K) (ha : -1 < a) (hb : -1 < b) (N : ℕ) (hN : 2 ≤ N) (x : A) (k : ℕ)
    (hk : k ≤ N) :
    orthoPolyval N (recJacobi mu a b).1 (recJacobi mu a b).2 x k =
      algebraMap K A ((jacobiPoly a b k).coeff k)⁻¹ * aeval x (jacobiPoly a b k) := by
  unfold orthoPolyval
  have key : ∀ m, ∀ k ≤ m + 1, ((List.range' 1 m).foldl (fun (P : ℕ → A) (k : ℕ) =>
      Function.update P (k + 1) ((x - algebraMap K A ((recJacobi mu a b).1 k)) * P k -
        algebraMap K A ((recJacobi mu a b).2 k) * P (k - 1)))
      (Function.update (Function.update (fun _ => 0) 0 1) 1
        ((x - algebraMap K A ((recJacobi mu a b).1 0)) * Function.update (fun _ => (0 : A)) 0 1 0))) k =
      algebraMap K A ((jacobiPoly a b k).coeff k)⁻¹ * aeval x (jacobiPoly a b k) := by
    intro m
    induction m with
    | zero =>
      intro k hk
      simp only [List.range'_zero, List.foldl_nil]
      rcases k with _ | _ | k
      · rw [Function.update_of_ne (by omega), Function.update_self, jacobiPoly_zero]; simp
      · have s2 : (0 : K) < a + b + 2 := by linarith
        have e1 : (jacobiPoly a b 1).coeff 1 = (a + b + 2) / 2 := by
          rw [(jacobiPoly_lead a b 1).1, jacE, poch_succ_right]; simp; ring
        rw [Function.update_self, Function.update_self, e1, jacobiPoly_one, mul_one]
        simp only [map_mul, map_add, aeval_C, aeval_X, recJacobi, if_true]
        have t1 : algebraMap K A ((a + b + 2) / 2)⁻¹ * algebraMap K A (1 / 2) * algebraMap K A (a - b) =
            -algebraMap K A ((b - a) / (a + b + 2)) := by
          rw [← map_mul, ← map_mul, ← map_neg]; congr 1; field_simp; ring
        have t2 : algebraMap K A ((a + b + 2) / 2)⁻¹ * algebraMap K A (1 / 2) * algebraMap K A (a + b + 2) = 1 := by
          rw [← map_mul, ← map_mul, ← map_one (algebraMap K A)]; congr 1; field_simp
        simp only [map_add] at t2
        linear_combination -t1 - x * t2
      · omega
    | succ m ih =>
      intro k hk
      rw [List.range'_concat, List.foldl_append]
      simp only [List.foldl_cons, List.foldl_nil]
      rw [show 1 + 1 * m = m + 1 by ring]
      by_cases hkm : k = m + 2
      · subst hkm
        rw [Function.update_self, Nat.add_sub_cancel, ih (m + 1) le_rfl, ih m (by omega)]
        exact (monic_rec a b mu ha hb m x).symm
      · rw [Function.update_of_ne (by omega)]
        exact ih k (by omega)
  have := key (N - 1) k (by omega)
  exact this

/-! Non-vacuity: the monic Legendre polynomial of degree 2 is `x^2 - 1/3`. -/
example : orthoPolyval 2 (recJacobi (2 : ℚ) 0 0).1 (recJacobi 2 0 0).2 (1 : ℚ) 2 = 2 / 3 := by
  norm_num [orthoPolyval, List.range', recJacobi]

end ordered
end FIAT
