/-
Moments of the shifted Legendre polynomials with respect to `t^a` and `t^a log(1/t)`.
-/
import Verif.Lemmas.JacobiReal
import Verif.Lemmas.LogWeight
import Verif.Lemmas.JacobiInt
import Mathlib.LinearAlgebra.Lagrange

namespace FIAT
open Polynomial Finset

/-- `1/x ∏_{k=1}^n (x - k)/(x + k)`. -/
noncomputable def legMoment (n : ℕ) (x : ℝ) : ℝ := ((List.range' 1 n).map fun i : ℕ => (x - i) / (x + i)).prod / x

theorem legMoment_zero (x : ℝ) : legMoment 0 x = 1 / x := by simp [legMoment]

theorem legMoment_succ (n : ℕ) (x : ℝ) : legMoment (n + 1) x = legMoment n x * ((x - (n + 1 : ℕ)) / (x + (n + 1 : ℕ))) := by
  unfold legMoment
  rw [List.range'_concat, List.map_append, List.prod_append]
  simp only [List.map_cons, List.map_nil, List.prod_cons, List.prod_nil, one_mul, mul_one]
  rw [add_comm 1 n]
  ring

theorem legMoment_eq (n : ℕ) {x : ℝ} (hx : 0 < x) :
    legMoment n x * ∏ i ∈ range (n + 1), (x + i) = ∏ k ∈ range n, (x - ((k : ℝ) + 1)) := by
  induction n with
  | zero => simp [legMoment, hx.ne']
  | succ n ih =>
    rw [prod_range_succ _ (n + 1), prod_range_succ (fun k : ℕ => x - ((k : ℝ) + 1)) n, ← ih, legMoment_succ]
    have : x + ((n + 1 : ℕ) : ℝ) ≠ 0 := by positivity
    field_simp
    push_cast
    ring

/-- Partial fractions of the moments of a polynomial that is orthogonal to the lower powers. -/
theorem partial_fractions (p : ℝ[X]) (n : ℕ)
    (hz : ∀ m < n, ∑ j ∈ range (n + 1), p.coeff j / ((m : ℝ) + 1 + j) = 0) (hp : p.natDegree ≤ n) {x : ℝ} (hx : 0 < x) :
    ∑ j ∈ range (n + 1), p.coeff j / (x + j) = p.eval 1 * legMoment n x := by
  let E : ℕ → ℝ[X] := fun j => ∏ i ∈ (range (n + 1)).erase j, (X + C (i : ℝ))
  let R : ℝ[X] := ∑ j ∈ range (n + 1), C (p.coeff j) * E j
  let T : ℝ[X] := ∏ k ∈ range n, (X - C ((k : ℝ) + 1))
  have hR : ∀ y : ℝ, 0 < y → R.eval y = (∏ i ∈ range (n + 1), (y + i)) * ∑ j ∈ range (n + 1), p.coeff j / (y + j) := by
    intro y hy
    rw [eval_finsetSum, mul_sum]
    refine sum_congr rfl fun j hj => ?_
    rw [eval_mul, eval_C, ← mul_prod_erase _ _ hj]
    have : y + (j : ℝ) ≠ 0 := by positivity
    simp only [E, eval_prod, eval_add, eval_X, eval_C]
    field_simp
  have hEm : ∀ j, (E j).Monic := fun j => monic_prod_of_monic _ _ fun i _ => monic_X_add_C _
  have hEd : ∀ j ∈ range (n + 1), (E j).natDegree = n := by
    intro j hj
    rw [natDegree_prod_of_monic _ _ fun i _ => monic_X_add_C _]
    simp only [natDegree_X_add_C, sum_const, card_erase_of_mem hj, card_range, smul_eq_mul, mul_one, Nat.add_sub_cancel]
  have hTm : T.Monic := monic_prod_of_monic _ _ fun i _ => monic_X_sub_C _
  have hTd : T.natDegree = n := by
    rw [natDegree_prod_of_monic _ _ fun i _ => monic_X_sub_C _]
    simp only [natDegree_X_sub_C, sum_const, card_range, smul_eq_mul, mul_one]
  have h1 : p.eval 1 = ∑ j ∈ range (n + 1), p.coeff j := by
    rw [eval_eq_sum_range' (show p.natDegree < n + 1 by omega)]
    simp
  have hRn : R.coeff n = p.eval 1 := by
    rw [finsetSum_coeff, h1]
    refine sum_congr rfl fun j hj => ?_
    rw [coeff_C_mul]
    have := (hEm j).coeff_natDegree
    rw [hEd j hj] at this
    rw [this, mul_one]
  have hRd : R.natDegree ≤ n := natDegree_sum_le_of_forall_le _ _ fun j hj =>
    (natDegree_C_mul_le _ _).trans (hEd j hj).le
  have hdeg : (R - C (p.eval 1) * T).degree < (n : WithBot ℕ) := by
    rw [degree_lt_iff_coeff_zero]
    intro m hm
    rw [coeff_sub, coeff_C_mul]
    rcases eq_or_lt_of_le hm with h | h
    · have := hTm.coeff_natDegree
      rw [hTd] at this
      rw [← h, this, hRn, mul_one, sub_self]
    · rw [coeff_eq_zero_of_natDegree_lt (lt_of_le_of_lt hRd h), coeff_eq_zero_of_natDegree_lt (p := T) (by rw [hTd]; exact h), mul_zero, sub_zero]
  have heq : R - C (p.eval 1) * T = 0 := by
    have hinj : Function.Injective fun k : ℕ => (k : ℝ) + 1 := fun a b h => by
      have : (a : ℝ) = b := by simpa using h
      exact_mod_cast this
    refine eq_zero_of_degree_lt_of_eval_finset_eq_zero ((range n).image fun k : ℕ => (k : ℝ) + 1)
      (by rw [card_image_of_injective _ hinj, card_range]; exact hdeg) ?_
    intro y hy
    obtain ⟨m, hm, rfl⟩ := mem_image.1 hy
    have hm' := mem_range.1 hm
    rw [eval_sub, eval_mul, eval_C, hR _ (by positivity), hz m hm']
    have : T.eval ((m : ℝ) + 1) = 0 := by
      rw [eval_prod]
      exact prod_eq_zero hm (by simp)
    rw [this]; ring
  have h2 := hR x hx
  have h3 : R.eval x = p.eval 1 * T.eval x := by
    have := congrArg (eval x) heq
    rw [eval_sub, eval_mul, eval_C, eval_zero] at this
    linarith
  have hT : T.eval x = ∏ k ∈ range n, (x - ((k : ℝ) + 1)) := by
    rw [eval_prod]; simp
  have hD : (∏ i ∈ range (n + 1), (x + (i : ℝ))) ≠ 0 := prod_ne_zero_iff.2 fun i _ => by positivity
  apply mul_left_cancel₀ hD
  rw [← h2, h3, hT, ← legMoment_eq n hx]
  ring

/-- The derivative of the moments. -/
noncomputable def legMomentD : ℕ → ℝ → ℝ
  | 0, x => -1 / x ^ 2
  | n + 1, x => legMomentD n x * ((x - (n + 1 : ℕ)) / (x + (n + 1 : ℕ))) + legMoment n x * (2 * (n + 1 : ℕ) / (x + (n + 1 : ℕ)) ^ 2)

theorem legMoment_deriv (n : ℕ) {x : ℝ} (hx : 0 < x) : HasDerivAt (legMoment n) (legMomentD n x) x := by
  induction n with
  | zero =>
    have h := (hasDerivAt_id x).inv hx.ne'
    have e : legMoment 0 = fun y : ℝ => (id y)⁻¹ := by funext y; rw [legMoment_zero]; simp
    rw [e]
    exact h
  | succ n ih =>
    have hn : x + ((n + 1 : ℕ) : ℝ) ≠ 0 := by positivity
    have h1 : HasDerivAt (fun y : ℝ => (y - (n + 1 : ℕ)) / (y + (n + 1 : ℕ))) (2 * (n + 1 : ℕ) / (x + (n + 1 : ℕ)) ^ 2) x := by
      refine (((hasDerivAt_id x).sub_const _).div ((hasDerivAt_id x).add_const _) hn).congr_deriv ?_
      simp only [id]
      ring
    have e : legMoment (n + 1) = fun y : ℝ => legMoment n y * ((y - (n + 1 : ℕ)) / (y + (n + 1 : ℕ))) := by
      funext y; rw [legMoment_succ]
    rw [e]
    exact ih.mul h1

/-- The logarithmic derivative, away from the zeros. -/
theorem legMomentD_regular (n : ℕ) {x : ℝ} (hx : 0 < x) (h : ∀ k : ℕ, 1 ≤ k → k ≤ n → x ≠ k) :
    -legMomentD n x = (1 / x + ((List.range' 1 n).map fun i : ℕ => 1 / (x + i) - 1 / (x - i)).sum) * legMoment n x := by
  induction n with
  | zero =>
    simp only [legMomentD, legMoment_zero, List.range'_zero, List.map_nil, List.sum_nil, add_zero]
    field_simp
  | succ n ih =>
    have hi := ih fun k h1 h2 => h k h1 (by omega)
    have h1 : x + ((n + 1 : ℕ) : ℝ) ≠ 0 := by positivity
    have h2 : x - ((n + 1 : ℕ) : ℝ) ≠ 0 := sub_ne_zero.2 (h (n + 1) (by omega) le_rfl)
    rw [legMomentD, legMoment_succ, List.range'_concat, List.map_append, List.sum_append]
    simp only [List.map_cons, List.map_nil, List.sum_cons, List.sum_nil, one_mul, add_zero]
    rw [add_comm 1 n]
    set S := ((List.range' 1 n).map fun i : ℕ => 1 / (x + i) - 1 / (x - i)).sum
    have e : legMomentD n x = -((1 / x + S) * legMoment n x) := by linarith
    rw [e]
    field_simp
    ring

/-- `∏_{i=n-z}^{n+z+1} i`. -/
theorem prod_window (z n : ℕ) (h : z < n) :
    (∏ i ∈ range (2 * z + 2), ((n : ℝ) + 1 - z + i)) * ((n : ℝ) - z) = (∏ i ∈ range (2 * z + 2), ((n : ℝ) - z + i)) * ((n : ℝ) + z + 2) := by
  have h1 : (∏ i ∈ range (2 * z + 2), ((n : ℝ) + 1 - z + i)) * ((n : ℝ) - z) = ∏ i ∈ range (2 * z + 3), ((n : ℝ) - z + i) := by
    rw [prod_range_succ' _ (2 * z + 2)]
    congr 1
    · refine prod_congr rfl fun i _ => ?_
      push_cast; ring
    · simp
  rw [h1, prod_range_succ _ (2 * z + 2)]
  congr 1
  push_cast; ring

theorem legMoment_zero_at (z n : ℕ) (h : z < n) : legMoment n ((z : ℝ) + 1) = 0 := by
  induction n with
  | zero => omega
  | succ n ih =>
    rw [legMoment_succ]
    rcases eq_or_lt_of_le (Nat.lt_succ_iff.1 h) with h1 | h1
    · subst h1; push_cast; simp
    · rw [ih h1, zero_mul]

theorem legMoment_diag (z n : ℕ) (h : n ≤ z) :
    legMoment n ((z : ℝ) + 1) * ((z - n).factorial * (z + n + 1).factorial) = (z.factorial : ℝ) ^ 2 := by
  induction n with
  | zero =>
    rw [legMoment_zero]
    simp only [Nat.sub_zero, add_zero, Nat.factorial_succ]
    push_cast
    have : (z : ℝ) + 1 ≠ 0 := by positivity
    field_simp
  | succ n ih =>
    rw [← ih (by omega), legMoment_succ]
    obtain ⟨m, rfl⟩ : ∃ m, z = n + 1 + m := ⟨z - (n + 1), by omega⟩
    rw [show n + 1 + m - (n + 1) = m by omega, show n + 1 + m - n = m + 1 by omega, Nat.factorial_succ m,
      show n + 1 + m + (n + 1) + 1 = (n + 1 + m + n + 1) + 1 by ring, Nat.factorial_succ (n + 1 + m + n + 1)]
    push_cast
    have : (n : ℝ) + 1 + m + 1 + (n + 1) ≠ 0 := by positivity
    field_simp
    ring

/-- The derivative at a zero. -/
theorem legMomentD_zero (z n : ℕ) (h : z < n) :
    -legMomentD n ((z : ℝ) + 1) * ∏ i ∈ range (2 * z + 2), ((n : ℝ) - z + i) = (-1) ^ (n - z) * (z.factorial : ℝ) ^ 2 := by
  induction n with
  | zero => omega
  | succ n ih =>
    rw [legMomentD]
    rcases eq_or_lt_of_le (Nat.lt_succ_iff.1 h) with h1 | h1
    · subst h1
      have hw : ∏ i ∈ range (2 * z + 2), (((z + 1 : ℕ) : ℝ) - z + i) = ((2 * z + 2).factorial : ℝ) := by
        rw [← prod_range_add_one_eq_factorial]
        push_cast
        exact prod_congr rfl fun i _ => by ring
      have hd := legMoment_diag z z le_rfl
      rw [Nat.sub_self, Nat.factorial_zero, show z + z + 1 = 2 * z + 1 by ring] at hd
      rw [hw, show 2 * z + 2 = (2 * z + 1) + 1 by ring, Nat.factorial_succ (2 * z + 1), ← hd, show z + 1 - z = 1 by omega]
      push_cast
      have : (z : ℝ) + 1 ≠ 0 := by positivity
      field_simp
      ring
    · rw [legMoment_zero_at z n h1]
      have hi := ih h1
      have hw := prod_window z n h1
      have e : (((n + 1 : ℕ) : ℝ) - z) = (n : ℝ) + 1 - z := by push_cast; ring
      simp only [e]
      set A := ∏ i ∈ range (2 * z + 2), ((n : ℝ) + 1 - z + i)
      set B := ∏ i ∈ range (2 * z + 2), ((n : ℝ) - z + i)
      rw [show n + 1 - z = (n - z) + 1 by omega, pow_succ (-1 : ℝ), mul_right_comm, ← hi]
      push_cast
      have : (z : ℝ) + 1 + (n + 1) ≠ 0 := by positivity
      field_simp
      linear_combination ((n : ℝ) + z + 2) * legMomentD n ((z : ℝ) + 1) * hw

/-! ### The shifted Legendre polynomials -/

/-- The values at 1 of the monic shifted Legendre polynomials. -/
noncomputable def legC : ℕ → ℝ
  | 0 => 1
  | n + 1 => legC n * (0.5 * ((n : ℝ) + 1) / (2 * n + 1))

theorem legC_eq (n : ℕ) : legC n * ((2 * n).factorial : ℝ) = (n.factorial : ℝ) ^ 2 := by
  induction n with
  | zero => simp [legC]
  | succ n ih =>
    rw [legC, show 2 * (n + 1) = (2 * n + 1) + 1 by ring, Nat.factorial_succ, Nat.factorial_succ (2 * n), Nat.factorial_succ n]
    push_cast
    have : 2 * (n : ℝ) + 1 ≠ 0 := by positivity
    rw [show (0.5 : ℝ) = 1 / 2 by norm_num]
    field_simp
    linear_combination 2 * ((n : ℝ) + 1) * ih

theorem legendre01_at_one {N : ℕ} {al be : ℕ → ℝ} (h : recJacobi01 N 0 0 = some (al, be)) (n : ℕ) : (recPoly al be n).eval 1 = legC n := by
  unfold recJacobi01 at h
  rw [if_neg (by norm_num)] at h
  split_ifs at h
  simp only [Option.some.injEq, Prod.mk.injEq] at h
  obtain ⟨rfl, rfl⟩ := h
  rw [recPoly_shift _ (recJacobi (recMu 0 0) 0 0).2 _ (fun k => Function.update_of_ne (by omega) _ _), recPoly_jacobi_real (by norm_num) (by norm_num)]
  have hl := jacobiPoly_lead_nat 0 0 n
  simp only [Nat.cast_zero, zero_add] at hl
  have h1 : (jacobiPoly (0 : ℝ) 0 n).eval 1 = 1 := by
    unfold jacobiPoly
    rw [eval_finsetSum, sum_eq_single 0]
    · simp only [jacobiCoeff, pow_zero, mul_one, eval_C, Nat.sub_zero, Nat.factorial_zero, Nat.cast_one, one_mul, Nat.cast_zero, zero_add,
        ascPochhammer_zero, eval_one]
      rw [ascPochhammer_eval_one, div_self (Nat.cast_ne_zero.2 (Nat.factorial_ne_zero n))]
    · intro k _ hk
      simp [hk]
    · simp
  simp only [shiftPoly01, eval_mul, eval_C, mul_comp, C_comp, eval_comp, eval_sub, eval_X, eval_one]
  norm_num
  rw [h1, hl]
  have hc := legC_eq n
  have f1 : (n.factorial : ℝ) ≠ 0 := Nat.cast_ne_zero.2 (Nat.factorial_ne_zero n)
  have f2 : ((2 * n).factorial : ℝ) ≠ 0 := Nat.cast_ne_zero.2 (Nat.factorial_ne_zero _)
  rw [← eq_div_iff f2] at hc
  rw [hc]
  field_simp
  rw [← mul_pow]
  norm_num

/-- The moments of the monic shifted Legendre polynomials for the logarithmic weight. -/
theorem log_moment {N : ℕ} {al be : ℕ → ℝ} (h : recJacobi01 N 0 0 = some (al, be)) {a : ℝ} (ha : -1 < a) (n : ℕ) :
    logFunctional a ha (recPoly al be n) = -legMomentD n (a + 1) * legC n := by
  have ho := recJacobi01_ortho (a := 0) (b := 0) (by norm_num) (by norm_num) h
  set p := recPoly al be n with hp
  have hd : p.natDegree ≤ n := (recPoly_degree al be n).le
  have hz : ∀ m < n, ∑ j ∈ range (n + 1), p.coeff j / ((m : ℝ) + 1 + j) = 0 := by
    intro m hm
    have h0 := ho.2 n (X ^ m) (by rw [degree_X_pow]; exact_mod_cast hm)
    have h1 : jacobi01 0 0 (by norm_num) (by norm_num) (p * X ^ m) = ∑ j ∈ range (n + 1), p.coeff j / ((m : ℝ) + 1 + j) := by
      conv_lhs => rw [p.as_sum_range_C_mul_X_pow' (show p.natDegree < n + 1 by omega)]
      rw [sum_mul, map_sum]
      refine sum_congr rfl fun j _ => ?_
      rw [mul_assoc, ← pow_add, ← smul_eq_C_mul, map_smul, smul_eq_mul, div_eq_mul_inv]
      congr 1
      show ∫ t in (0 : ℝ)..1, (1 - t) ^ (0 : ℝ) * t ^ (0 : ℝ) * (X ^ (j + m) : ℝ[X]).eval t = _
      simp only [Real.rpow_zero, one_mul, eval_pow, eval_X, integral_pow]
      simp
      ring
    rw [← h1, h0]
  have hx : 0 < a + 1 := by linarith
  have hderiv : HasDerivAt (fun x : ℝ => ∑ j ∈ range (n + 1), p.coeff j / (x + j)) (-∑ j ∈ range (n + 1), p.coeff j * (1 / (a + 1 + j) ^ 2)) (a + 1) := by
    have hj : ∀ j ∈ range (n + 1), HasDerivAt (fun x : ℝ => p.coeff j / (x + j)) (-(p.coeff j * (1 / (a + 1 + j) ^ 2))) (a + 1) := by
      intro j _
      have hne : a + 1 + (j : ℝ) ≠ 0 := by positivity
      refine ((hasDerivAt_const (a + 1) (p.coeff j)).div ((hasDerivAt_id (a + 1)).add_const (j : ℝ)) hne).congr_deriv ?_
      simp only [id]
      ring
    have := HasDerivAt.fun_sum hj
    rw [← sum_neg_distrib]
    exact this
  have hderiv2 := (legMoment_deriv n hx).const_mul (p.eval 1)
  have hev : (fun x : ℝ => ∑ j ∈ range (n + 1), p.coeff j / (x + j)) =ᶠ[nhds (a + 1)] fun x => p.eval 1 * legMoment n x := by
    filter_upwards [lt_mem_nhds hx] with x hx'
    exact partial_fractions p n hz hd hx'
  have := hderiv.unique (hderiv2.congr_of_eventuallyEq hev)
  rw [logFunctional_sum ha p hd, ← legendre01_at_one h n]
  linarith

end FIAT
