/-
The weight `t^a log(1/t)` on `[0, 1]`: integrability, moments, positivity.
-/
import Verif.Lemmas.GolubQuad
import Mathlib.Analysis.SpecialFunctions.Integrals.Basic
import Mathlib.Topology.Algebra.Polynomial
import Mathlib.Algebra.Polynomial.Eval.SMul
import Mathlib.Analysis.SpecialFunctions.Pow.Asymptotics
import Mathlib.Analysis.SpecialFunctions.Pow.Deriv
import Mathlib.MeasureTheory.Integral.IntervalIntegral.FundThmCalculus

namespace FIAT
open Polynomial MeasureTheory Set Filter Topology

/-- `-t^s log t / s + t^s / s^2`, an antiderivative of `t^(s-1) log(1/t)`. -/
noncomputable def logPrim (s t : ℝ) : ℝ := -(Real.log t * t ^ s) / s + t ^ s / s ^ 2

theorem logPrim_deriv {s t : ℝ} (hs : s ≠ 0) (ht : 0 < t) : HasDerivAt (logPrim s) (t ^ (s - 1) * Real.log (1 / t)) t := by
  have h1 := (Real.hasDerivAt_log ht.ne').mul (Real.hasDerivAt_rpow_const (p := s) (Or.inl ht.ne'))
  have h2 := Real.hasDerivAt_rpow_const (x := t) (p := s) (Or.inl ht.ne')
  have h := (h1.neg.div_const s).add (h2.div_const (s ^ 2))
  refine h.congr_deriv ?_
  rw [one_div, Real.log_inv, Real.rpow_sub_one ht.ne']
  field_simp
  ring

theorem logPrim_cont {s : ℝ} (hs : 0 < s) : ContinuousOn (logPrim s) (Icc 0 1) := by
  intro t ht
  rcases eq_or_lt_of_le ht.1 with h | h
  · subst h
    have h0 : ContinuousWithinAt (logPrim s) (Ioi 0) 0 := by
      rw [ContinuousWithinAt]
      have e : logPrim s 0 = -0 / s + (0 : ℝ) ^ s / s ^ 2 := by
        simp [logPrim, Real.zero_rpow hs.ne']
      rw [e]
      refine ((tendsto_log_mul_rpow_nhdsGT_zero hs).neg.div_const s).add (Tendsto.div_const ?_ _)
      exact ((Real.continuousAt_rpow_const 0 s (Or.inr hs.le)).tendsto).mono_left nhdsWithin_le_nhds
    have h1 : ContinuousWithinAt (logPrim s) (Ici 0) 0 := continuousWithinAt_Ioi_iff_Ici.1 h0
    exact h1.mono fun x hx => hx.1
  · exact (logPrim_deriv hs.ne' h).continuousAt.continuousWithinAt

theorem logWeight_nonneg (a : ℝ) {t : ℝ} (h0 : 0 < t) (h1 : t ≤ 1) : 0 ≤ t ^ a * Real.log (1 / t) :=
  mul_nonneg (Real.rpow_nonneg h0.le a) (Real.log_nonneg (by rw [le_div_iff₀ h0]; linarith))

theorem logWeight_integrable {a : ℝ} (ha : -1 < a) : IntervalIntegrable (fun t => t ^ a * Real.log (1 / t)) volume 0 1 := by
  have h := intervalIntegral.intervalIntegrable_deriv_of_nonneg (a := (0 : ℝ)) (b := 1) (g := logPrim (a + 1))
    (g' := fun t => t ^ (a + 1 - 1) * Real.log (1 / t))
    (by rw [uIcc_of_le zero_le_one]; exact logPrim_cont (by linarith))
    (fun x hx => logPrim_deriv (by linarith) (by simpa using hx.1))
    (fun x hx => by simp at hx; exact logWeight_nonneg _ hx.1 hx.2.le)
  simpa using h

theorem logWeight_integral {a : ℝ} (ha : -1 < a) : ∫ t in (0 : ℝ)..1, t ^ a * Real.log (1 / t) = 1 / (a + 1) ^ 2 := by
  have h := intervalIntegral.integral_eq_sub_of_hasDerivAt_of_le (a := (0 : ℝ)) (b := 1) (f := logPrim (a + 1))
    (f' := fun t => t ^ (a + 1 - 1) * Real.log (1 / t)) zero_le_one (logPrim_cont (by linarith))
    (fun x hx => logPrim_deriv (by linarith) hx.1) (by simpa using logWeight_integrable ha)
  simp only [add_sub_cancel_right] at h
  rw [h]
  simp [logPrim, Real.zero_rpow (by linarith : a + 1 ≠ 0)]

theorem logWeight_poly_integrable {a : ℝ} (ha : -1 < a) (q : ℝ[X]) :
    IntervalIntegrable (fun t => t ^ a * Real.log (1 / t) * q.eval t) volume 0 1 :=
  (logWeight_integrable ha).mul_continuousOn q.continuous.continuousOn

/-- `q ↦ ∫_0^1 t^a log(1/t) q(t) dt`. -/
noncomputable def logFunctional (a : ℝ) (ha : -1 < a) : ℝ[X] →ₗ[ℝ] ℝ where
  toFun q := ∫ t in (0 : ℝ)..1, t ^ a * Real.log (1 / t) * q.eval t
  map_add' p q := by
    rw [← intervalIntegral.integral_add (logWeight_poly_integrable ha p) (logWeight_poly_integrable ha q)]
    refine intervalIntegral.integral_congr fun t _ => ?_
    simp only [eval_add]; ring
  map_smul' c q := by
    rw [RingHom.id_apply, smul_eq_mul, ← intervalIntegral.integral_const_mul]
    refine intervalIntegral.integral_congr fun t _ => ?_
    simp only [eval_smul, smul_eq_mul]; ring

theorem logFunctional_X_pow {a : ℝ} (ha : -1 < a) (j : ℕ) : logFunctional a ha (X ^ j) = 1 / (a + 1 + j) ^ 2 := by
  have h := logWeight_integral (a := a + j) (by have : (0 : ℝ) ≤ j := Nat.cast_nonneg j; linarith)
  show ∫ t in (0 : ℝ)..1, t ^ a * Real.log (1 / t) * (X ^ j : ℝ[X]).eval t = _
  rw [show a + 1 + (j : ℝ) = a + j + 1 by ring, ← h]
  refine intervalIntegral.integral_congr_ae (Eventually.of_forall fun t ht => ?_)
  rw [uIoc_of_le zero_le_one] at ht
  rw [eval_pow, eval_X, Real.rpow_add ht.1, Real.rpow_natCast]
  ring

theorem logFunctional_sum {a : ℝ} (ha : -1 < a) (q : ℝ[X]) {n : ℕ} (hq : q.natDegree ≤ n) :
    logFunctional a ha q = ∑ j ∈ Finset.range (n + 1), q.coeff j * (1 / (a + 1 + j) ^ 2) := by
  conv_lhs => rw [q.as_sum_range_C_mul_X_pow' (show q.natDegree < n + 1 by omega)]
  rw [map_sum]
  refine Finset.sum_congr rfl fun j _ => ?_
  rw [← smul_eq_C_mul, map_smul, smul_eq_mul, logFunctional_X_pow]

/-- The weight is positive. -/
theorem logFunctional_pos {a : ℝ} (ha : -1 < a) : PosOn (logFunctional a ha) 0 1 := by
  intro q hq h
  show 0 < ∫ t in (0 : ℝ)..1, t ^ a * Real.log (1 / t) * q.eval t
  have hint := logWeight_poly_integrable ha q
  rw [intervalIntegral.integral_of_le zero_le_one, integral_Ioc_eq_integral_Ioo]
  have hi : IntegrableOn (fun t => t ^ a * Real.log (1 / t) * q.eval t) (Ioo 0 1) :=
    ((intervalIntegrable_iff_integrableOn_Ioc_of_le zero_le_one).1 hint).mono_set Ioo_subset_Ioc_self
  rw [setIntegral_pos_iff_support_of_nonneg_ae _ hi]
  · have hsub : Ioo (0 : ℝ) 1 \ (q.roots.toFinset : Set ℝ) ⊆
        (Function.support fun t => t ^ a * Real.log (1 / t) * q.eval t) ∩ Ioo 0 1 := by
      intro t ht
      refine ⟨?_, ht.1⟩
      rw [Function.mem_support]
      refine mul_ne_zero (mul_ne_zero (Real.rpow_pos_of_pos ht.1.1 a).ne' ?_) ?_
      · exact (Real.log_pos (by rw [lt_div_iff₀ ht.1.1]; linarith [ht.1.2])).ne'
      · intro h0
        exact ht.2 (by simp [hq, h0])
    refine lt_of_lt_of_le ?_ (measure_mono hsub)
    rw [measure_sdiff_null ((q.roots.toFinset : Set ℝ).toFinite.measure_zero _)]
    simp
  · refine (ae_restrict_iff' measurableSet_Ioo).2 (Eventually.of_forall fun t ht => ?_)
    exact mul_nonneg (logWeight_nonneg a ht.1 ht.2.le) (h t ht.1 ht.2)

end FIAT
