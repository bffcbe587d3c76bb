/-
Integrals over the default simplex by collapsed coordinates.
-/
import Mathlib.MeasureTheory.Constructions.Pi
import Mathlib.MeasureTheory.Integral.Pi
import Mathlib.MeasureTheory.Integral.Prod
import Mathlib.MeasureTheory.Measure.Haar.NormedSpace
import Mathlib.MeasureTheory.Measure.Lebesgue.EqHaar
import Mathlib.MeasureTheory.Integral.IntervalIntegral.Basic
import Mathlib.Analysis.Normed.Module.Basic
import Mathlib.MeasureTheory.Group.Integral

namespace FIAT
open MeasureTheory

/-- The default simplex with vertices (-1,..,-1) and (-1,..,1,..,-1). -/
def refSimplex (d : ℕ) : Set (Fin d → ℝ) := {x | (∀ i, -1 ≤ x i) ∧ ∑ i, (x i + 1) ≤ 2}

theorem refSimplex_le {d : ℕ} {x : Fin d → ℝ} (hx : x ∈ refSimplex d) (i : Fin d) : x i ≤ 1 := by
  have h1 : x i + 1 ≤ ∑ i, (x i + 1) :=
    Finset.single_le_sum (f := fun i => x i + 1) (fun j _ => by linarith [hx.1 j]) (Finset.mem_univ i)
  linarith [hx.2]

theorem refSimplex_closed (d : ℕ) : IsClosed (refSimplex d) := by
  have : refSimplex d = (⋂ i, {x : Fin d → ℝ | -1 ≤ x i}) ∩ {x | ∑ i, (x i + 1) ≤ 2} := by
    ext x; simp [refSimplex]
  rw [this]
  refine IsClosed.inter (isClosed_iInter fun i => isClosed_le continuous_const (continuous_apply i)) ?_
  exact isClosed_le (continuous_finset_sum _ fun i _ => (continuous_apply i).add continuous_const) continuous_const

theorem refSimplex_compact (d : ℕ) : IsCompact (refSimplex d) := by
  apply IsCompact.of_isClosed_subset (isCompact_Icc (a := fun _ => (-1 : ℝ)) (b := fun _ => 1)) (refSimplex_closed d)
  intro x hx
  exact ⟨fun i => hx.1 i, fun i => refSimplex_le hx i⟩

theorem refSimplex_measurable (d : ℕ) : MeasurableSet (refSimplex d) := (refSimplex_closed d).measurableSet

theorem refSimplex_integrable {d : ℕ} {f : (Fin d → ℝ) → ℝ} (hf : Continuous f) : IntegrableOn f (refSimplex d) :=
  hf.continuousOn.integrableOn_compact (refSimplex_compact d)

theorem snoc_mem_refSimplex {d : ℕ} (x : Fin d → ℝ) (z : ℝ) :
    (Fin.snoc x z : Fin (d + 1) → ℝ) ∈ refSimplex (d + 1) ↔
      (∀ i, -1 ≤ x i) ∧ -1 ≤ z ∧ ∑ i, (x i + 1) + (z + 1) ≤ 2 := by
  unfold refSimplex
  rw [Set.mem_setOf_eq, Fin.sum_univ_castSucc, Fin.forall_fin_succ']
  simp only [Fin.snoc_castSucc, Fin.snoc_last]
  tauto

private theorem slice (d : ℕ) (f : (Fin (d + 1) → ℝ) → ℝ) (z : ℝ) (hz : z ∈ Set.Ioo (-1 : ℝ) 1) :
    ∫ x : Fin d → ℝ, (refSimplex (d + 1)).indicator f (Fin.snoc x z) =
      ((1 - z) / 2) ^ d * ∫ x in refSimplex d, f (Fin.snoc (fun i => (1 - z) / 2 * (x i + 1) - 1) z) := by
  set s : ℝ := (1 - z) / 2 with hs
  have hs0 : 0 < s := by rw [hs]; linarith [hz.2]
  set g : (Fin d → ℝ) → ℝ := fun x => (refSimplex (d + 1)).indicator f (Fin.snoc x z) with hg
  have h1 : ∫ x, g (s • x + fun _ => s - 1) = |((s ^ d)⁻¹)| * ∫ x, g x := by
    have h := Measure.integral_comp_smul (volume : Measure (Fin d → ℝ)) (fun x => g (x + fun _ => s - 1)) s
    rw [h, integral_add_right_eq_self g (fun _ => s - 1)]
    simp
  have h2 : ∀ x : Fin d → ℝ, g (s • x + fun _ => s - 1) =
      (refSimplex d).indicator (fun x => f (Fin.snoc (fun i => s * (x i + 1) - 1) z)) x := by
    intro x
    have hx : (s • x + fun _ => s - 1) = fun i => s * (x i + 1) - 1 := by
      funext i; simp; ring
    rw [hg, hx]
    simp only
    have hiff : (Fin.snoc (fun i => s * (x i + 1) - 1) z : Fin (d + 1) → ℝ) ∈ refSimplex (d + 1) ↔ x ∈ refSimplex d := by
      rw [snoc_mem_refSimplex]
      have e : ∑ i, (s * (x i + 1) - 1 + 1) = s * ∑ i, (x i + 1) := by
        rw [Finset.mul_sum]; exact Finset.sum_congr rfl fun i _ => by ring
      have hz2 : z = 1 - 2 * s := by rw [hs]; ring
      constructor
      · rintro ⟨h3, _, h4⟩
        refine ⟨fun i => ?_, ?_⟩
        · have := h3 i
          have : 0 ≤ s * (x i + 1) := by linarith
          linarith [nonneg_of_mul_nonneg_right this hs0]
        · rw [e, hz2] at h4
          have : s * ∑ i, (x i + 1) ≤ s * 2 := by linarith
          exact le_of_mul_le_mul_left this hs0
      · rintro ⟨h3, h4⟩
        refine ⟨fun i => ?_, hz.1.le, ?_⟩
        · have := mul_nonneg hs0.le (by linarith [h3 i] : 0 ≤ x i + 1)
          linarith
        · rw [e, hz2]
          have := mul_le_mul_of_nonneg_left h4 hs0.le
          linarith
    by_cases hm : x ∈ refSimplex d
    · rw [Set.indicator_of_mem (hiff.2 hm), Set.indicator_of_mem hm]
    · rw [Set.indicator_of_notMem (fun h => hm (hiff.1 h)), Set.indicator_of_notMem hm]
  rw [integral_congr_ae (Filter.Eventually.of_forall h2), integral_indicator (refSimplex_measurable d)] at h1
  rw [h1, abs_of_pos (by positivity)]
  field_simp

/-- Integration over the default simplex in collapsed coordinates, last coordinate outermost. -/
theorem integral_refSimplex_succ (d : ℕ) (f : (Fin (d + 1) → ℝ) → ℝ) (hf : Continuous f) :
    ∫ x in refSimplex (d + 1), f x =
      ∫ z in (-1 : ℝ)..1, ((1 - z) / 2) ^ d *
        ∫ x in refSimplex d, f (Fin.snoc (fun i => (1 - z) / 2 * (x i + 1) - 1) z) := by
  rw [← integral_indicator (refSimplex_measurable (d + 1))]
  have hmp := (volume_preserving_piFinSuccAbove (fun _ : Fin (d + 1) => ℝ) (Fin.last d)).symm
  rw [← hmp.integral_comp' ((refSimplex (d + 1)).indicator f)]
  have hsn : ∀ q : ℝ × (Fin d → ℝ),
      (MeasurableEquiv.piFinSuccAbove (fun _ : Fin (d + 1) => ℝ) (Fin.last d)).symm q = Fin.snoc q.2 q.1 := by
    intro q
    show (Fin.last d).insertNth (α := fun _ => ℝ) q.1 q.2 = _
    rw [Fin.insertNth_last']
  have hint : Integrable ((refSimplex (d + 1)).indicator f) :=
    (integrable_indicator_iff (refSimplex_measurable (d + 1))).2 (refSimplex_integrable hf)
  have hint2 := hmp.integrable_comp_of_integrable hint
  have e1 : (∫ q, (refSimplex (d + 1)).indicator f
      ((MeasurableEquiv.piFinSuccAbove (fun _ : Fin (d + 1) => ℝ) (Fin.last d)).symm q)) =
      ∫ q : ℝ × (Fin d → ℝ), (refSimplex (d + 1)).indicator f (Fin.snoc q.2 q.1) :=
    integral_congr_ae (Filter.Eventually.of_forall fun q => by simp only [hsn])
  have hint3 : Integrable (fun q : ℝ × (Fin d → ℝ) => (refSimplex (d + 1)).indicator f (Fin.snoc q.2 q.1)) := by
    refine hint2.congr (Filter.Eventually.of_forall fun q => ?_)
    simp only [Function.comp, hsn]
  rw [e1]
  rw [show (volume : Measure (ℝ × (Fin d → ℝ))) = volume.prod volume from rfl] at hint3 ⊢
  rw [integral_prod _ hint3]
  have hout : ∀ z, z ∉ Set.Icc (-1 : ℝ) 1 →
      ∫ x : Fin d → ℝ, (refSimplex (d + 1)).indicator f (Fin.snoc x z) = 0 := by
    intro z hz
    rw [integral_congr_ae (g := fun _ => 0) (Filter.Eventually.of_forall fun x => ?_), integral_zero]
    apply Set.indicator_of_notMem
    intro hm
    apply hz
    have h1 := hm.1 (Fin.last d)
    have h2 := refSimplex_le hm (Fin.last d)
    rw [Fin.snoc_last] at h1 h2
    exact ⟨h1, h2⟩
  rw [← setIntegral_eq_integral_of_forall_compl_eq_zero (s := Set.Icc (-1 : ℝ) 1) (fun z hz => hout z hz),
    integral_Icc_eq_integral_Ioo, intervalIntegral.integral_of_le (by norm_num), integral_Ioc_eq_integral_Ioo]
  exact setIntegral_congr_fun measurableSet_Ioo fun z hz => slice d f z hz

theorem integral_refSimplex_zero (f : (Fin 0 → ℝ) → ℝ) : ∫ x in refSimplex 0, f x = f 0 := by
  have h : refSimplex 0 = Set.univ := by
    ext x; simp [refSimplex]
  rw [h, Measure.restrict_univ]
  have : (volume : Measure (Fin 0 → ℝ)) = Measure.dirac 0 := by
    rw [volume_pi, Measure.pi_of_empty]
    congr 1
    exact Subsingleton.elim _ _
  rw [this, integral_dirac]

end FIAT
