/-
The Jacobi weight with real exponents `a, b > -1` on `[0, 1]` and on `[-1, 1]`.
-/
import Verif.Lemmas.ModChebyshev
import Verif.Lemmas.GolubQuad
import Verif.Props.Orthopoly
import Mathlib.Probability.Distributions.Beta
import Mathlib.Topology.Algebra.Polynomial
import Mathlib.Algebra.Polynomial.Eval.SMul
import Mathlib.Analysis.Calculus.Deriv.Polynomial

namespace FIAT
open Polynomial MeasureTheory Set Filter Topology

section
variable {a b : ℝ}

private theorem beta_eq_ae (t : ℝ) (ht : t ∈ uIoc (0 : ℝ) 1) :
    ((t : ℂ) ^ (((b + 1 : ℝ) : ℂ) - 1) * (1 - (t : ℂ)) ^ (((a + 1 : ℝ) : ℂ) - 1)) = (((1 - t) ^ a * t ^ b : ℝ) : ℂ) := by
  rw [uIoc_of_le zero_le_one] at ht
  rw [show (((b + 1 : ℝ) : ℂ) - 1) = (b : ℂ) by push_cast; ring, show (((a + 1 : ℝ) : ℂ) - 1) = (a : ℂ) by push_cast; ring,
    Complex.ofReal_mul, Complex.ofReal_cpow (by linarith [ht.2]), Complex.ofReal_cpow ht.1.le]
  push_cast
  ring

theorem jw01_integrable (ha : -1 < a) (hb : -1 < b) : IntervalIntegrable (fun t : ℝ => (1 - t) ^ a * t ^ b) volume 0 1 := by
  have h := Complex.betaIntegral_convergent (u := ((b + 1 : ℝ) : ℂ)) (v := ((a + 1 : ℝ) : ℂ)) (by simp; linarith) (by simp; linarith)
  rw [intervalIntegrable_iff] at h ⊢
  have h2 : IntegrableOn (fun t : ℝ => (((1 - t) ^ a * t ^ b : ℝ) : ℂ)) (uIoc 0 1) := by
    refine h.congr_fun (fun t ht => ?_) measurableSet_uIoc
    exact beta_eq_ae t ht
  exact h2.re

theorem jw01_integral (ha : -1 < a) (hb : -1 < b) :
    ∫ t in (0 : ℝ)..1, (1 - t) ^ a * t ^ b = Real.Gamma (a + 1) * Real.Gamma (b + 1) / Real.Gamma (a + b + 2) := by
  have h := ProbabilityTheory.beta_eq_betaIntegralReal (b + 1) (a + 1) (by linarith) (by linarith)
  rw [ProbabilityTheory.beta, show b + 1 + (a + 1) = a + b + 2 by ring, mul_comm (Real.Gamma (b + 1))] at h
  rw [h, Complex.betaIntegral]
  have e : ∫ t in (0 : ℝ)..1, ((t : ℂ) ^ (((b + 1 : ℝ) : ℂ) - 1) * (1 - (t : ℂ)) ^ (((a + 1 : ℝ) : ℂ) - 1)) =
      ∫ t in (0 : ℝ)..1, (((1 - t) ^ a * t ^ b : ℝ) : ℂ) :=
    intervalIntegral.integral_congr_ae (Eventually.of_forall fun t ht => beta_eq_ae t ht)
  rw [e, intervalIntegral.integral_ofReal, Complex.ofReal_re]

theorem jw01_poly_integrable (ha : -1 < a) (hb : -1 < b) (q : ℝ[X]) :
    IntervalIntegrable (fun t : ℝ => (1 - t) ^ a * t ^ b * q.eval t) volume 0 1 :=
  (jw01_integrable ha hb).mul_continuousOn q.continuous.continuousOn

/-- `q ↦ ∫_0^1 (1-t)^a t^b q(t) dt`. -/
noncomputable def jacobi01 (a b : ℝ) (ha : -1 < a) (hb : -1 < b) : ℝ[X] →ₗ[ℝ] ℝ where
  toFun q := ∫ t in (0 : ℝ)..1, (1 - t) ^ a * t ^ b * q.eval t
  map_add' p q := by
    rw [← intervalIntegral.integral_add (jw01_poly_integrable ha hb p) (jw01_poly_integrable ha hb q)]
    refine intervalIntegral.integral_congr fun t _ => ?_
    simp only [eval_add]; ring
  map_smul' c q := by
    rw [RingHom.id_apply, smul_eq_mul, ← intervalIntegral.integral_const_mul]
    refine intervalIntegral.integral_congr fun t _ => ?_
    simp only [eval_smul, smul_eq_mul]; ring

/-- Integration by parts. -/
theorem jacobi01_parts (ha : -1 < a) (hb : -1 < b) (R : ℝ[X]) :
    jacobi01 a b ha hb ((C (b + 1) * (1 - X) - C (a + 1) * X) * R + X * (1 - X) * derivative R) = 0 := by
  have hcont : ContinuousOn (fun t : ℝ => (1 - t) ^ (a + 1) * t ^ (b + 1) * R.eval t) (Icc 0 1) := by
    refine ContinuousOn.mul (ContinuousOn.mul ?_ ?_) R.continuous.continuousOn
    · exact (continuousOn_const.sub continuousOn_id).rpow_const fun t _ => Or.inr (by linarith)
    · exact continuousOn_id.rpow_const fun t _ => Or.inr (by linarith)
  have hder : ∀ t ∈ Ioo (0 : ℝ) 1, HasDerivAt (fun t : ℝ => (1 - t) ^ (a + 1) * t ^ (b + 1) * R.eval t)
      ((1 - t) ^ a * t ^ b * (((C (b + 1) * (1 - X) - C (a + 1) * X) * R + X * (1 - X) * derivative R).eval t)) t := by
    intro t ht
    have h1 : HasDerivAt (fun t : ℝ => (1 - t) ^ (a + 1)) (-1 * (a + 1) * (1 - t) ^ a) t := by
      have := ((hasDerivAt_id t).const_sub 1).rpow_const (p := a + 1) (Or.inl (by simp; linarith [ht.2]))
      simpa using this
    have h2 : HasDerivAt (fun t : ℝ => t ^ (b + 1)) ((b + 1) * t ^ b) t := by
      have := Real.hasDerivAt_rpow_const (x := t) (p := b + 1) (Or.inl ht.1.ne')
      simpa using this
    refine ((h1.mul h2).mul (R.hasDerivAt t)).congr_deriv ?_
    have e1 : (1 - t) ^ (a + 1) = (1 - t) ^ a * (1 - t) := Real.rpow_add_one (by linarith [ht.2]) a
    have e2 : t ^ (b + 1) = t ^ b * t := Real.rpow_add_one ht.1.ne' b
    rw [Pi.mul_apply, e1, e2]
    simp only [eval_add, eval_mul, eval_sub, eval_C, eval_X, eval_one]
    ring
  have h := intervalIntegral.integral_eq_sub_of_hasDerivAt_of_le zero_le_one hcont hder (jw01_poly_integrable ha hb _)
  refine h.trans ?_
  simp [Real.zero_rpow (by linarith : a + 1 ≠ 0), Real.zero_rpow (by linarith : b + 1 ≠ 0)]

theorem jacobi01_succ (ha : -1 < a) (hb : -1 < b) (q : ℝ[X]) :
    jacobi01 (a + 1) (b + 1) (by linarith) (by linarith) q = jacobi01 a b ha hb (X * (1 - X) * q) := by
  refine intervalIntegral.integral_congr_ae (Eventually.of_forall fun t ht => ?_)
  rw [uIoc_of_le zero_le_one] at ht
  rcases eq_or_lt_of_le ht.2 with h | h
  · subst h
    simp [Real.zero_rpow (by linarith : a + 1 ≠ 0)]
  · rw [Real.rpow_add_one (by linarith) a, Real.rpow_add_one ht.1.ne' b]
    simp only [eval_mul, eval_sub, eval_X, eval_one]
    ring

/-- The Jacobi polynomial shiftPoly01 to `[0, 1]`. -/
noncomputable def shiftPoly01 (p : ℝ[X]) : ℝ[X] := p.comp (C 2 * X - 1)

theorem derivative_shifted (p : ℝ[X]) : derivative (shiftPoly01 p) = C 2 * shiftPoly01 (derivative p) := by
  unfold shiftPoly01
  rw [derivative_comp]
  simp

theorem shifted_lower (n : ℕ) :
    (C (b + 1) * (1 - X) - C (a + 1) * X) * shiftPoly01 (jacobiPoly (a + 1) (b + 1) n) +
      X * (1 - X) * derivative (shiftPoly01 (jacobiPoly (a + 1) (b + 1) n)) =
    C (-((n + 1 : ℕ) : ℝ)) * shiftPoly01 (jacobiPoly a b (n + 1)) := by
  have h := congrArg shiftPoly01 (jacobiPoly_lower a b n)
  rw [derivative_shifted]
  simp only [shiftPoly01, add_comp, mul_comp, sub_comp, C_comp, X_comp, one_comp] at h ⊢
  have h2 : (C (1 / 2 : ℝ) : ℝ[X]) * C 2 = 1 := by rw [← C_mul]; norm_num
  have e : (C (-((n + 1 : ℕ) : ℝ)) : ℝ[X]) = C (1 / 2) * C (-2 * ((n + 1 : ℕ) : ℝ)) := by
    rw [← C_mul]; congr 1; ring
  have e2 : (C 2 : ℝ[X]) = 2 := map_ofNat C 2
  rw [e2] at h h2 ⊢
  rw [e, mul_assoc (C (1 / 2)), ← h]
  linear_combination (-((C (b + 1) * (1 - X) - C (a + 1) * X) * (jacobiPoly (a + 1) (b + 1) n).comp (2 * X - 1) +
    2 * X * (1 - X) * (derivative (jacobiPoly (a + 1) (b + 1) n)).comp (2 * X - 1))) * h2

end

theorem jacobi01_step {a b : ℝ} (ha : -1 < a) (hb : -1 < b) (n : ℕ) (q : ℝ[X]) :
    ((n + 1 : ℕ) : ℝ) * jacobi01 a b ha hb (shiftPoly01 (jacobiPoly a b (n + 1)) * q) =
      jacobi01 (a + 1) (b + 1) (by linarith) (by linarith) (shiftPoly01 (jacobiPoly (a + 1) (b + 1) n) * derivative q) := by
  have h := jacobi01_parts ha hb (shiftPoly01 (jacobiPoly (a + 1) (b + 1) n) * q)
  rw [jacobi01_succ ha hb]
  have e : (C (b + 1) * (1 - X) - C (a + 1) * X) * (shiftPoly01 (jacobiPoly (a + 1) (b + 1) n) * q) +
      X * (1 - X) * derivative (shiftPoly01 (jacobiPoly (a + 1) (b + 1) n) * q) =
      (-((n + 1 : ℕ) : ℝ)) • (shiftPoly01 (jacobiPoly a b (n + 1)) * q) + X * (1 - X) * (shiftPoly01 (jacobiPoly (a + 1) (b + 1) n) * derivative q) := by
    rw [derivative_mul, smul_eq_C_mul]
    linear_combination q * shifted_lower (a := a) (b := b) n
  rw [e, map_add, map_smul, smul_eq_mul] at h
  linarith

/-- The shiftPoly01 Jacobi polynomials are orthogonal. -/
theorem jacobi01_orthogonal (n : ℕ) : ∀ (a b : ℝ) (ha : -1 < a) (hb : -1 < b) (q : ℝ[X]), q.degree < (n : WithBot ℕ) →
    jacobi01 a b ha hb (shiftPoly01 (jacobiPoly a b n) * q) = 0 := by
  induction n with
  | zero =>
    intro a b ha hb q hq
    have : q = 0 := by
      rw [← degree_eq_bot]
      rcases h : q.degree with _ | d
      · rfl
      · rw [h] at hq; exact absurd (WithBot.coe_lt_coe.1 hq) (Nat.not_lt_zero d)
    rw [this, mul_zero, map_zero]
  | succ n ih =>
    intro a b ha hb q hq
    have h := jacobi01_step ha hb n q
    rw [ih (a + 1) (b + 1) (by linarith) (by linarith)] at h
    · have hn : ((n + 1 : ℕ) : ℝ) ≠ 0 := Nat.cast_ne_zero.2 (by omega)
      exact (mul_eq_zero.1 h).resolve_left hn
    · rw [degree_lt_iff_coeff_zero] at hq ⊢
      intro m hm
      rw [coeff_derivative, hq (m + 1) (by omega), zero_mul]

theorem jacobi01_posOn {a b : ℝ} (ha : -1 < a) (hb : -1 < b) : PosOn (jacobi01 a b ha hb) 0 1 := by
  intro q hq h
  show 0 < ∫ t in (0 : ℝ)..1, (1 - t) ^ a * t ^ b * q.eval t
  have hint := jw01_poly_integrable ha hb q
  rw [intervalIntegral.integral_of_le zero_le_one, integral_Ioc_eq_integral_Ioo]
  have hi : IntegrableOn (fun t : ℝ => (1 - t) ^ a * t ^ b * q.eval t) (Ioo 0 1) :=
    ((intervalIntegrable_iff_integrableOn_Ioc_of_le zero_le_one).1 hint).mono_set Ioo_subset_Ioc_self
  have hw : ∀ t ∈ Ioo (0 : ℝ) 1, 0 < (1 - t) ^ a * t ^ b := fun t ht =>
    mul_pos (Real.rpow_pos_of_pos (by linarith [ht.2]) a) (Real.rpow_pos_of_pos ht.1 b)
  rw [setIntegral_pos_iff_support_of_nonneg_ae _ hi]
  · have hsub : Ioo (0 : ℝ) 1 \ (q.roots.toFinset : Set ℝ) ⊆
        (Function.support fun t : ℝ => (1 - t) ^ a * t ^ b * q.eval t) ∩ Ioo 0 1 := by
      intro t ht
      refine ⟨?_, ht.1⟩
      rw [Function.mem_support]
      refine mul_ne_zero (hw t ht.1).ne' fun h0 => ht.2 (by simp [hq, h0])
    refine lt_of_lt_of_le ?_ (measure_mono hsub)
    rw [measure_sdiff_null ((q.roots.toFinset : Set ℝ).toFinite.measure_zero _)]
    simp
  · refine (ae_restrict_iff' measurableSet_Ioo).2 (Eventually.of_forall fun t ht => ?_)
    exact mul_nonneg (hw t ht).le (h t ht.1 ht.2)

/-! ### The recursion coefficients -/

theorem recPoly_jacobi_real {a b : ℝ} (ha : -1 < a) (hb : -1 < b) (mu : ℝ) (k : ℕ) :
    recPoly (recJacobi mu a b).1 (recJacobi mu a b).2 k = C ((jacobiPoly a b k).coeff k)⁻¹ * jacobiPoly a b k := by
  have h01 : ∀ k ≤ 1, recPoly (recJacobi mu a b).1 (recJacobi mu a b).2 k =
      C ((jacobiPoly a b k).coeff k)⁻¹ * jacobiPoly a b k := by
    intro k hk
    have h := ortho_polyval_monic (A := ℝ[X]) a b mu ha hb 2 le_rfl X k (by omega)
    rw [algebraMap_eq, aeval_X_left_apply] at h
    rw [← h]
    rcases k with _ | _ | k
    · simp [orthoPolyval, List.range', recPoly_zero]
    · simp [orthoPolyval, List.range', recPoly_one, Function.update]
    · omega
  induction k using Nat.strong_induction_on with
  | _ k ih =>
    match k with
    | 0 => exact h01 0 (by omega)
    | 1 => exact h01 1 le_rfl
    | k + 2 =>
      have h := monic_rec (A := ℝ[X]) a b mu ha hb k X
      simp only [algebraMap_eq, aeval_X_left_apply] at h
      rw [h, recPoly_step, ih (k + 1) (by omega), ih k (by omega)]

/-- Coefficients transformed to `[0, 1]` belong to the shiftPoly01 polynomials. -/
theorem recPoly_shift (alpha beta : ℕ → ℝ) (beta' : ℕ → ℝ) (hb : ∀ k, beta' (k + 1) = beta (k + 1) / 4) (k : ℕ) :
    recPoly (fun k => (1 + alpha k) / 2) beta' k = C ((1 / 2 : ℝ) ^ k) * shiftPoly01 (recPoly alpha beta k) := by
  have e2 : (C (1 / 2 : ℝ) : ℝ[X]) * C 2 = 1 := by rw [← C_mul]; norm_num
  have hx : ∀ c : ℝ, (X - C ((1 + c) / 2) : ℝ[X]) = C (1 / 2) * ((C 2 * X - 1) - C c) := by
    intro c
    have : (C ((1 + c) / 2) : ℝ[X]) = C (1 / 2) * (1 + C c) := by
      rw [← C_1, ← C_add, ← C_mul]; congr 1; ring
    rw [this]
    linear_combination (-X) * e2
  induction k using Nat.strong_induction_on with
  | _ k ih =>
    match k with
    | 0 => simp [shiftPoly01, recPoly_zero]
    | 1 => rw [recPoly_one, recPoly_one, hx]; simp [shiftPoly01]
    | k + 2 =>
      rw [recPoly_step, ih (k + 1) (by omega), ih k (by omega), recPoly_step, hb, hx]
      have h4 : (C (beta (k + 1) / 4) : ℝ[X]) = C (1 / 2) * C (1 / 2) * C (beta (k + 1)) := by
        rw [← C_mul, ← C_mul]; congr 1; ring
      rw [h4]
      simp only [shiftPoly01, sub_comp, mul_comp, X_comp, C_comp, pow_succ, C_mul]
      ring

/-- `rec_jacobi01` is the recursion of the Jacobi weight on `[0, 1]`. -/
theorem recJacobi01_ortho {a b : ℝ} (ha : -1 < a) (hb : -1 < b) {N : ℕ} {al be : ℕ → ℝ} (h : recJacobi01 N a b = some (al, be)) :
    IsOrtho (jacobi01 a b ha hb) al be := by
  unfold recJacobi01 at h
  rw [if_neg (by push Not; exact ⟨ha, hb⟩)] at h
  split_ifs at h
  simp only [Option.some.injEq, Prod.mk.injEq] at h
  obtain ⟨rfl, rfl⟩ := h
  refine ⟨?_, fun k q hq => ?_⟩
  · rw [Function.update_self]
    show ∫ t in (0 : ℝ)..1, (1 - t) ^ a * t ^ b * (1 : ℝ[X]).eval t = _
    simp only [eval_one, mul_one]
    rw [jw01_integral ha hb]
    simp only [recJacobi, if_true, recMu]
    have : (2 : ℝ) ^ (a + b + 1) ≠ 0 := (Real.rpow_pos_of_pos (by norm_num) _).ne'
    field_simp
  · rw [recPoly_shift _ (recJacobi (recMu a b) a b).2 _ (fun k => Function.update_of_ne (by omega) _ _), recPoly_jacobi_real ha hb]
    have e : C ((1 / 2 : ℝ) ^ k) * shiftPoly01 (C ((jacobiPoly a b k).coeff k)⁻¹ * jacobiPoly a b k) * q =
        ((1 / 2 : ℝ) ^ k * ((jacobiPoly a b k).coeff k)⁻¹) • (shiftPoly01 (jacobiPoly a b k) * q) := by
      rw [smul_eq_C_mul, C_mul]
      simp only [shiftPoly01, mul_comp, C_comp]
      ring
    rw [e, map_smul, jacobi01_orthogonal k a b ha hb q hq, smul_zero]

/-! ### The interval `[-1, 1]` -/

/-- `q ↦ ∫_{-1}^1 (1-x)^a (1+x)^b q(x) dx`. -/
noncomputable def jacobiReal (a b : ℝ) (ha : -1 < a) (hb : -1 < b) : ℝ[X] →ₗ[ℝ] ℝ :=
  (2 : ℝ) ^ (a + b + 1) • ((jacobi01 a b ha hb).comp (aeval (C 2 * X - 1 : ℝ[X])).toLinearMap)

theorem jacobiReal_apply {a b : ℝ} (ha : -1 < a) (hb : -1 < b) (q : ℝ[X]) :
    jacobiReal a b ha hb q = ∫ x in (-1 : ℝ)..1, (1 - x) ^ a * (1 + x) ^ b * q.eval x := by
  have h := intervalIntegral.integral_comp_mul_sub (a := 0) (b := 1) (fun x : ℝ => (1 - x) ^ a * (1 + x) ^ b * q.eval x)
    (two_ne_zero : (2 : ℝ) ≠ 0) 1
  norm_num at h
  have h2 : ∫ x in (-1 : ℝ)..1, (1 - x) ^ a * (1 + x) ^ b * q.eval x =
      2 * ∫ t in (0 : ℝ)..1, (1 - (2 * t - 1)) ^ a * (2 * t) ^ b * q.eval (2 * t - 1) := by
    rw [h]; ring
  rw [h2]
  show (2 : ℝ) ^ (a + b + 1) * (∫ t in (0 : ℝ)..1, (1 - t) ^ a * t ^ b * (aeval (C 2 * X - 1 : ℝ[X]) q).eval t) = _
  rw [← intervalIntegral.integral_const_mul, ← intervalIntegral.integral_const_mul]
  refine intervalIntegral.integral_congr fun t ht => ?_
  rw [uIcc_of_le zero_le_one] at ht
  have e : (aeval (C 2 * X - 1 : ℝ[X]) q).eval t = q.eval (2 * t - 1) := by
    rw [← Polynomial.comp_eq_aeval, eval_comp]; simp
  rw [e, show 1 - (2 * t - 1) = 2 * (1 - t) by ring, Real.mul_rpow (by norm_num) (by linarith [ht.2]), Real.mul_rpow (by norm_num) ht.1,
    Real.rpow_add (by norm_num), Real.rpow_add (by norm_num), Real.rpow_one]
  ring

theorem jacobiReal_ortho {a b : ℝ} (ha : -1 < a) (hb : -1 < b) :
    IsOrtho (jacobiReal a b ha hb) (recJacobi (recMu a b) a b).1 (recJacobi (recMu a b) a b).2 := by
  refine ⟨?_, fun k q hq => ?_⟩
  · show (2 : ℝ) ^ (a + b + 1) * (jacobi01 a b ha hb (aeval (C 2 * X - 1 : ℝ[X]) 1)) = _
    rw [map_one]
    show (2 : ℝ) ^ (a + b + 1) * (∫ t in (0 : ℝ)..1, (1 - t) ^ a * t ^ b * (1 : ℝ[X]).eval t) = _
    simp only [eval_one, mul_one]
    rw [jw01_integral ha hb]
    simp only [recJacobi, if_true, recMu]
    ring
  · rw [recPoly_jacobi_real ha hb]
    show (2 : ℝ) ^ (a + b + 1) * (jacobi01 a b ha hb (aeval (C 2 * X - 1 : ℝ[X]) _)) = 0
    have e : aeval (C 2 * X - 1 : ℝ[X]) (C ((jacobiPoly a b k).coeff k)⁻¹ * jacobiPoly a b k * q) =
        ((jacobiPoly a b k).coeff k)⁻¹ • (shiftPoly01 (jacobiPoly a b k) * shiftPoly01 q) := by
      rw [← Polynomial.comp_eq_aeval, smul_eq_C_mul]
      simp only [shiftPoly01, mul_comp, C_comp]
      ring
    rw [e, map_smul, jacobi01_orthogonal k a b ha hb, smul_zero, mul_zero]
    rcases eq_or_ne q 0 with rfl | h0
    · simp only [shiftPoly01, zero_comp, degree_zero]; exact WithBot.bot_lt_coe k
    · refine lt_of_le_of_lt degree_le_natDegree ?_
      have hd : (shiftPoly01 q).natDegree ≤ q.natDegree := by
        unfold shiftPoly01
        refine natDegree_comp_le.trans ?_
        have : (C 2 * X - 1 : ℝ[X]).natDegree ≤ 1 := by
          refine (natDegree_sub_le _ _).trans (max_le ?_ (by simp))
          exact (natDegree_C_mul_le _ _).trans (by simp)
        calc _ ≤ q.natDegree * 1 := Nat.mul_le_mul_left _ this
          _ = _ := mul_one _
      rw [degree_eq_natDegree h0] at hq
      have hq' : q.natDegree < k := by exact_mod_cast hq
      exact_mod_cast lt_of_le_of_lt hd hq'

theorem jacobiReal_posOn {a b : ℝ} (ha : -1 < a) (hb : -1 < b) : PosOn (jacobiReal a b ha hb) (-1) 1 := by
  intro q hq h
  show 0 < (2 : ℝ) ^ (a + b + 1) * (jacobi01 a b ha hb (aeval (C 2 * X - 1 : ℝ[X]) q))
  refine mul_pos (Real.rpow_pos_of_pos (by norm_num) _) (jacobi01_posOn ha hb _ ?_ fun t h0 h1 => ?_)
  · rw [← Polynomial.comp_eq_aeval]
    intro h0
    apply hq
    have := congrArg (fun p : ℝ[X] => p.comp (C (1 / 2) * (X + 1))) h0
    simp only [zero_comp, comp_assoc] at this
    have e : (C 2 * X - 1 : ℝ[X]).comp (C (1 / 2) * (X + 1)) = X := by
      have e2 : (C (1 / 2 : ℝ) : ℝ[X]) * C 2 = 1 := by rw [← C_mul]; norm_num
      simp only [sub_comp, mul_comp, C_comp, X_comp, one_comp]
      linear_combination (X + 1) * e2
    rwa [e, comp_X] at this
  · rw [← Polynomial.comp_eq_aeval, eval_comp]
    simp only [eval_sub, eval_mul, eval_C, eval_X, eval_one]
    exact h _ (by linarith) (by linarith)

end FIAT
