/-
Exactness of the collapsed (Duffy) construction of quadrature rules on the reference simplex: a rule on
`refSimplex d` and a rule for the weight `(1-z)^d` on [-1,1], both exact for degree `N`, give a rule on
`refSimplex (d+1)` which is exact for total degree `N`.
-/
import Verif.Lemmas.SimplexInt
import Verif.Lemmas.Functional
import Mathlib.RingTheory.Polynomial.Basic
import Mathlib.Algebra.MvPolynomial.Degrees
import Mathlib.Topology.Algebra.MvPolynomial

namespace FIAT
open MeasureTheory

/-- Substitution of polynomials of total degree at most one does not increase the total degree. -/
theorem totalDegree_aeval_le_deg {σ τ : Type} (g : σ → MvPolynomial τ ℝ) (hg : ∀ i, (g i).totalDegree ≤ 1)
    (p : MvPolynomial σ ℝ) : (MvPolynomial.aeval g p).totalDegree ≤ p.totalDegree := by
  classical
  rw [MvPolynomial.aeval_def, MvPolynomial.eval₂_eq]
  refine MvPolynomial.totalDegree_finsetSum_le fun m hm => ?_
  refine (MvPolynomial.totalDegree_mul _ _).trans ?_
  rw [MvPolynomial.algebraMap_eq, MvPolynomial.totalDegree_C, zero_add]
  refine (MvPolynomial.totalDegree_finset_prod _ _).trans ?_
  refine le_trans (Finset.sum_le_sum fun i _ => ?_) (MvPolynomial.le_totalDegree hm)
  refine (MvPolynomial.totalDegree_pow _ _).trans ?_
  simpa using Nat.mul_le_mul_left (m i) (hg i)

/-- The polynomial in `z` with coefficients in `x`: `p` at the collapsed point. -/
private noncomputable def collapse (d : ℕ) : MvPolynomial (Fin (d + 1)) ℝ →ₐ[ℝ] Polynomial (MvPolynomial (Fin d) ℝ) :=
  MvPolynomial.aeval (Fin.snoc
    (fun i => Polynomial.C (MvPolynomial.C (1 / 2) * (MvPolynomial.X i + 1)) * (1 - Polynomial.X) - 1) Polynomial.X)

private theorem collapse_natDegree (d : ℕ) (p : MvPolynomial (Fin (d + 1)) ℝ) :
    (collapse d p).natDegree ≤ p.totalDegree := by
  classical
  have hg : ∀ i, (Fin.snoc (α := fun _ => Polynomial (MvPolynomial (Fin d) ℝ))
    (fun i => Polynomial.C (MvPolynomial.C (1 / 2) * (MvPolynomial.X i + 1)) * (1 - Polynomial.X) - 1)
      Polynomial.X i).natDegree ≤ 1 := by
    intro i
    refine Fin.lastCases ?_ (fun i => ?_) i
    · rw [Fin.snoc_last]; exact Polynomial.natDegree_X_le
    · rw [Fin.snoc_castSucc]
      compute_degree
  unfold collapse
  rw [MvPolynomial.aeval_def, MvPolynomial.eval₂_eq]
  refine Polynomial.natDegree_sum_le_of_forall_le _ _ fun m hm => ?_
  refine (Polynomial.natDegree_mul_le).trans ?_
  rw [show (algebraMap ℝ (Polynomial (MvPolynomial (Fin d) ℝ))) (MvPolynomial.coeff m p) =
    Polynomial.C (MvPolynomial.C (MvPolynomial.coeff m p)) from rfl, Polynomial.natDegree_C, zero_add]
  refine (Polynomial.natDegree_prod_le _ _).trans ?_
  refine le_trans (Finset.sum_le_sum fun i _ => ?_) (MvPolynomial.le_totalDegree hm)
  refine (Polynomial.natDegree_pow_le).trans ?_
  simpa using Nat.mul_le_mul_left (m i) (hg i)

private noncomputable def sliceArg (d : ℕ) (z : ℝ) : Fin (d + 1) → MvPolynomial (Fin d) ℝ :=
  Fin.snoc (fun i => MvPolynomial.C ((1 - z) / 2) * (MvPolynomial.X i + 1) - 1) (MvPolynomial.C z)

private theorem collapse_eval (d : ℕ) (p : MvPolynomial (Fin (d + 1)) ℝ) (z : ℝ) :
    (collapse d p).eval (MvPolynomial.C z) = MvPolynomial.aeval (sliceArg d z) p := by
  have : ((Polynomial.aeval (R := MvPolynomial (Fin d) ℝ) (MvPolynomial.C z : MvPolynomial (Fin d) ℝ)).restrictScalars ℝ).comp (collapse d) =
      MvPolynomial.aeval (sliceArg d z) := by
    apply MvPolynomial.algHom_ext
    intro i
    refine Fin.lastCases ?_ (fun i => ?_) i
    · simp [collapse, sliceArg]
    · simp only [collapse, sliceArg, AlgHom.comp_apply, MvPolynomial.aeval_X, Fin.snoc_castSucc,
        AlgHom.restrictScalars_apply, map_sub, map_mul, Polynomial.aeval_C, Polynomial.aeval_X, map_one, map_add]
      simp only [Algebra.algebraMap_self, RingHom.id_apply]
      have e : (MvPolynomial.C ((1 - z) / 2) : MvPolynomial (Fin d) ℝ) =
          MvPolynomial.C (1 / 2) * (1 - MvPolynomial.C z) := by
        rw [← MvPolynomial.C_1, ← MvPolynomial.C_sub, ← MvPolynomial.C_mul]
        congr 1; ring
      rw [e]
      ring
  have h := DFunLike.congr_fun this p
  simpa [AlgHom.comp_apply, Polynomial.aeval_def] using h

private theorem slice_degree (d : ℕ) (p : MvPolynomial (Fin (d + 1)) ℝ) (z : ℝ) :
    (MvPolynomial.aeval (sliceArg d z) p).totalDegree ≤ p.totalDegree := by
  apply totalDegree_aeval_le_deg
  intro i
  refine Fin.lastCases ?_ (fun i => ?_) i
  · simp [sliceArg]
  · simp only [sliceArg, Fin.snoc_castSucc]
    refine (MvPolynomial.totalDegree_sub _ _).trans ?_
    refine max_le ((MvPolynomial.totalDegree_mul _ _).trans ?_) (by simp)
    rw [MvPolynomial.totalDegree_C, zero_add]
    exact (MvPolynomial.totalDegree_add _ _).trans (by simp)

private theorem slice_eval (d : ℕ) (p : MvPolynomial (Fin (d + 1)) ℝ) (z : ℝ) (x : Fin d → ℝ) :
    MvPolynomial.eval x (MvPolynomial.aeval (sliceArg d z) p) =
      MvPolynomial.eval (Fin.snoc (fun i => (1 - z) / 2 * (x i + 1) - 1) z) p := by
  have : ((MvPolynomial.aeval x).comp (MvPolynomial.aeval (sliceArg d z)) : MvPolynomial (Fin (d + 1)) ℝ →ₐ[ℝ] ℝ) =
      MvPolynomial.aeval (Fin.snoc (fun i => (1 - z) / 2 * (x i + 1) - 1) z) := by
    apply MvPolynomial.algHom_ext
    intro i
    refine Fin.lastCases ?_ (fun i => ?_) i
    · simp [sliceArg]
    · simp [sliceArg]
  have h := DFunLike.congr_fun this p
  simpa [AlgHom.comp_apply, MvPolynomial.aeval_eq_eval] using h

/-- A weighted list of points which integrates polynomials of total degree at most `N` exactly over the
reference simplex. -/
def ExactOn (d N : ℕ) (Q : List ((Fin d → ℝ) × ℝ)) : Prop :=
  ∀ p : MvPolynomial (Fin d) ℝ, p.totalDegree ≤ N →
    (Q.map fun xw => xw.2 * MvPolynomial.eval xw.1 p).sum = ∫ x in refSimplex d, MvPolynomial.eval x p

theorem exactOn_zero (N : ℕ) : ExactOn 0 N [(0, 1)] := by
  intro p _
  rw [integral_refSimplex_zero]; simp

/-- The collapsed rule is exact. -/
theorem exactOn_succ (d N : ℕ) (Q : List ((Fin d → ℝ) × ℝ)) (hQ : ExactOn d N Q) (Z : List (ℝ × ℝ))
    (hZ : ∀ q : Polynomial ℝ, q.natDegree ≤ N →
      (Z.map fun zw => zw.2 * q.eval zw.1).sum = ∫ z in (-1 : ℝ)..1, (1 - z) ^ d * q.eval z) :
    ExactOn (d + 1) N (Z.flatMap fun zw => Q.map fun xw =>
      ((Fin.snoc (fun i => (1 - zw.1) / 2 * (xw.1 i + 1) - 1) zw.1 : Fin (d + 1) → ℝ), zw.2 / 2 ^ d * xw.2)) := by
  intro p hp
  set q : Polynomial ℝ := ∑ k ∈ Finset.range (p.totalDegree + 1),
    Polynomial.C (∫ x in refSimplex d, MvPolynomial.eval x ((collapse d p).coeff k)) * Polynomial.X ^ k with hq
  have hqd : q.natDegree ≤ N := by
    refine Polynomial.natDegree_sum_le_of_forall_le _ _ fun k hk => ?_
    refine (Polynomial.natDegree_C_mul_X_pow_le _ _).trans ?_
    have := Finset.mem_range.1 hk
    omega
  have hqe : ∀ z, q.eval z = ∫ x in refSimplex d, MvPolynomial.eval x (MvPolynomial.aeval (sliceArg d z) p) := by
    intro z
    rw [← collapse_eval, Polynomial.eval_eq_sum_range' (Nat.lt_succ_of_le (collapse_natDegree d p))]
    simp only [map_sum, map_mul, map_pow, MvPolynomial.eval_C]
    rw [integral_finset_sum]
    · rw [hq, Polynomial.eval_finset_sum]
      refine Finset.sum_congr rfl fun k _ => ?_
      rw [integral_mul_const]
      simp
    · intro k _
      exact refSimplex_integrable ((MvPolynomial.continuous_eval _).mul continuous_const)
  rw [sum_flatMap]
  have h1 : ∀ zw : ℝ × ℝ, ((Q.map fun xw => ((Fin.snoc (fun i => (1 - zw.1) / 2 * (xw.1 i + 1) - 1) zw.1 :
      Fin (d + 1) → ℝ), zw.2 / 2 ^ d * xw.2)).map fun xw => xw.2 * MvPolynomial.eval xw.1 p).sum =
      (2 ^ d)⁻¹ * (zw.2 * q.eval zw.1) := by
    intro zw
    rw [hqe, ← hQ _ ((slice_degree d p zw.1).trans hp), List.map_map, ← List.sum_map_mul_left,
      ← List.sum_map_mul_left]
    congr 1
    refine List.map_congr_left fun xw _ => ?_
    simp only [Function.comp_apply, slice_eval]
    ring
  simp only [h1]
  rw [List.sum_map_mul_left, hZ q hqd, integral_refSimplex_succ d _ (MvPolynomial.continuous_eval _),
    ← intervalIntegral.integral_const_mul]
  refine intervalIntegral.integral_congr fun z _ => ?_
  simp only [hqe, slice_eval, div_pow]
  ring

end FIAT
