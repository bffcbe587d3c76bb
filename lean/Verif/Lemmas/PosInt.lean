/-
A polynomial that is nonnegative on a nondegenerate simplex and has integral zero is zero.
-/
import Verif.Lemmas.ExpPull
import Mathlib.Analysis.Normed.Affine.AddTorsorBases
import Mathlib.MeasureTheory.Integral.Bochner.Set
import Mathlib.MeasureTheory.Measure.OpenPos
import Mathlib.Algebra.MvPolynomial.Funext

namespace FIAT
open MvPolynomial MeasureTheory

section
variable {d : ℕ}

theorem hull_interior (v : Fin (d + 1) → Fin d → ℝ) (hv : AffineIndependent ℝ v) :
    (interior (convexHull ℝ (Set.range v))).Nonempty := by
  rw [interior_convexHull_nonempty_iff_affineSpan_eq_top]
  exact hv.affineSpan_eq_top_iff_card_eq_finrank_add_one.2 (by simp)

/-- A polynomial that vanishes on a nonempty open set is zero. -/
theorem poly_zero_of_open (U : Set (Fin d → ℝ)) (hU : IsOpen U) (hne : U.Nonempty) (p : MvPolynomial (Fin d) ℝ)
    (h : ∀ x ∈ U, eval x p = 0) : p = 0 := by
  obtain ⟨x, hx⟩ := hne
  obtain ⟨ε, hε, hb⟩ := Metric.isOpen_iff.1 hU x hx
  refine MvPolynomial.funext_set (fun i => Set.Ioo (x i - ε) (x i + ε)) (fun i => Set.Ioo_infinite (by linarith)) ?_
  intro y hy
  rw [map_zero]
  apply h
  apply hb
  rw [Metric.mem_ball, dist_pi_lt_iff hε]
  intro i
  have := hy i (Set.mem_univ i)
  rw [Real.dist_eq, abs_lt]
  constructor <;> linarith [this.1, this.2]

theorem poly_zero_of_integral (v : Fin (d + 1) → Fin d → ℝ) (hv : AffineIndependent ℝ v) (p : MvPolynomial (Fin d) ℝ)
    (hp : ∀ x ∈ convexHull ℝ (Set.range v), 0 ≤ eval x p)
    (hi : ∫ x in convexHull ℝ (Set.range v), eval x p = 0) : p = 0 := by
  have hc : Continuous fun x : Fin d → ℝ => eval x p := p.continuous_eval
  have hm : MeasurableSet (convexHull ℝ (Set.range v)) :=
    (Set.Finite.isCompact_convexHull ℝ (Set.finite_range v)).isClosed.measurableSet
  rw [setIntegral_eq_zero_iff_of_nonneg_ae
    ((ae_restrict_iff' hm).2 (Filter.Eventually.of_forall fun x hx => hp x hx)) (integrable_hull v _ hc)] at hi
  refine poly_zero_of_open _ isOpen_interior (hull_interior v hv) p ?_
  have h1 : (fun x => eval x p) =ᵐ[volume.restrict (interior (convexHull ℝ (Set.range v)))] fun _ => (0 : ℝ) :=
    ae_restrict_of_ae_restrict_of_subset interior_subset hi
  have h2 := Measure.eqOn_open_of_ae_eq h1 isOpen_interior hc.continuousOn continuousOn_const
  exact fun x hx => h2 hx

end
end FIAT
