/-
Edge moments against the fourth Legendre polynomial.
-/
import Verif.Lemmas.TriangleDual
import Verif.Props.RTExample
import Mathlib.Analysis.SpecialFunctions.Integrals.Basic
import Mathlib.MeasureTheory.Constructions.Pi

namespace FIAT
open MvPolynomial
section

/-- The fourth Legendre polynomial on [0, 1]. -/
def legendre4 (t : ℝ) : ℝ := 70 * t ^ 4 - 140 * t ^ 3 + 90 * t ^ 2 - 20 * t + 1

theorem evalJacobi_legendre4 (t : ℝ) : evalJacobi (0 : ℝ) 0 4 (2 * t - 1) = legendre4 t := by
  unfold legendre4
  simp [evalJacobi, jacobiStep, List.range']
  ring

theorem ufc_line_integral (f : (Fin 1 → ℝ) → ℝ) :
    ∫ x in convexHull ℝ (Set.range (ufcVerts ℝ 1)), f x = ∫ t in (0 : ℝ)..1, f fun _ => t := by
  have hset : convexHull ℝ (Set.range (ufcVerts ℝ 1)) = (MeasurableEquiv.funUnique (Fin 1) ℝ) ⁻¹' Set.Icc 0 1 := by
    have e : Set.range (ufcVerts ℝ 1) = {fun _ => 0, fun _ => 1} := by
      have h0 : ufcVerts ℝ 1 0 = fun _ => 0 := by funext i; simp [ufcVerts]
      have h1 : ufcVerts ℝ 1 1 = fun _ => 1 := by funext i; fin_cases i; rfl
      ext x
      rw [Set.mem_range, Set.mem_insert_iff, Set.mem_singleton_iff]
      constructor
      · rintro ⟨y, rfl⟩
        fin_cases y
        · exact Or.inl h0
        · exact Or.inr h1
      · rintro (rfl | rfl)
        · exact ⟨0, h0⟩
        · exact ⟨1, h1⟩
    rw [e, convexHull_pair]
    ext x
    simp only [segment, Set.mem_preimage, Set.mem_Icc, Set.mem_setOf_eq]
    constructor
    · rintro ⟨a, b, ha, hb, hab, rfl⟩
      simp [MeasurableEquiv.funUnique]
      exact ⟨hb, by linarith⟩
    · rintro ⟨h0, h1⟩
      have h0' : 0 ≤ x 0 := h0
      have h1' : x 0 ≤ 1 := h1
      refine ⟨1 - x 0, x 0, by linarith, h0', by ring, ?_⟩
      funext i
      fin_cases i
      simp
  have hm := MeasureTheory.volume_preserving_funUnique (Fin 1) ℝ
  rw [hset, intervalIntegral.integral_of_le zero_le_one, ← MeasureTheory.integral_Icc_eq_integral_Ioc,
    ← hm.setIntegral_preimage_emb (MeasurableEquiv.measurableEmbedding _)]
  refine MeasureTheory.setIntegral_congr_fun ((MeasurableEquiv.funUnique (Fin 1) ℝ).measurable measurableSet_Icc) fun x _ => ?_
  beta_reduce
  congr 1
  funext i
  fin_cases i
  rfl

open Polynomial in
/-- The moment of a polynomial of degree at most four is its leading coefficient divided by 630. -/
theorem legendre4_moment (q : Polynomial ℝ) (hq : q.natDegree ≤ 4) :
    ∫ t in (0 : ℝ)..1, legendre4 t * q.eval t = q.coeff 4 / 630 := by
  have hs := q.as_sum_range_C_mul_X_pow' (n := 5) (by omega)
  have key : ∀ k : ℕ, ∫ t in (0 : ℝ)..1, legendre4 t * t ^ k =
      70 / (k + 5) - 140 / (k + 4) + 90 / (k + 3) - 20 / (k + 2) + 1 / (k + 1) := by
    intro k
    have hd : ∀ t ∈ Set.uIcc (0 : ℝ) 1, HasDerivAt (fun t : ℝ => 70 / (k + 5) * t ^ (k + 5) - 140 / (k + 4) * t ^ (k + 4) +
        90 / (k + 3) * t ^ (k + 3) - 20 / (k + 2) * t ^ (k + 2) + 1 / (k + 1) * t ^ (k + 1)) (legendre4 t * t ^ k) t := by
      intro t _
      have h : ∀ m : ℕ, HasDerivAt (fun t : ℝ => t ^ (m + 1)) (((m : ℝ) + 1) * t ^ m) t := by
        intro m
        simpa using hasDerivAt_pow (m + 1) t
      have := (((((h (k + 4)).const_mul (70 / ((k : ℝ) + 5))).sub ((h (k + 3)).const_mul (140 / ((k : ℝ) + 4)))).add
        ((h (k + 2)).const_mul (90 / ((k : ℝ) + 3)))).sub ((h (k + 1)).const_mul (20 / ((k : ℝ) + 2)))).add
        ((h k).const_mul (1 / ((k : ℝ) + 1)))
      refine this.congr_deriv ?_
      push_cast
      unfold legendre4
      field_simp
      ring
    rw [intervalIntegral.integral_eq_sub_of_hasDerivAt hd]
    · simp
    · apply Continuous.intervalIntegrable
      unfold legendre4
      fun_prop
  have e : ∀ t, legendre4 t * q.eval t = ∑ k ∈ Finset.range 5, q.coeff k * (legendre4 t * t ^ k) := by
    intro t
    conv_lhs => rw [hs]
    rw [Polynomial.eval_finset_sum, Finset.mul_sum]
    refine Finset.sum_congr rfl fun k _ => ?_
    simp only [Polynomial.eval_mul, Polynomial.eval_C, Polynomial.eval_pow, Polynomial.eval_X]
    ring
  simp only [e]
  rw [intervalIntegral.integral_finset_sum]
  · simp only [intervalIntegral.integral_const_mul, key, Finset.sum_range_succ, Finset.sum_range_zero]
    push_cast
    ring
  · intro k _
    apply Continuous.intervalIntegrable
    unfold legendre4
    fun_prop

end
end FIAT
