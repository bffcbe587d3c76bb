/-
Restriction of polynomials to lines, directional derivatives, and the univariate Hermite uniqueness theorem.
-/
import Verif.Lemmas.RTCore
import Mathlib.Algebra.Polynomial.FieldDivision
import Mathlib.Algebra.MvPolynomial.PDeriv

namespace FIAT
open MvPolynomial
section
variable {D : ℕ}

/-- `t ↦ p(a + t u)`. -/
noncomputable def lineRestrict (a u : Fin D → ℝ) : MvPolynomial (Fin D) ℝ →ₐ[ℝ] Polynomial ℝ :=
  aeval fun j => Polynomial.C (a j) + Polynomial.C (u j) * Polynomial.X

/-- The derivative in direction `u`. -/
noncomputable def dirD (u : Fin D → ℝ) (p : MvPolynomial (Fin D) ℝ) : MvPolynomial (Fin D) ℝ :=
  ∑ j, C (u j) * pderiv j p

theorem eval_lineRestrict (a u : Fin D → ℝ) (p : MvPolynomial (Fin D) ℝ) (t : ℝ) :
    (lineRestrict a u p).eval t = eval (a + t • u) p := by
  unfold lineRestrict
  rw [← Polynomial.coe_aeval_eq_eval, ← AlgHom.comp_apply, comp_aeval, ← coe_aeval_eq_eval, RingHom.coe_coe]
  congr 2
  funext j
  rw [map_add, map_mul, Polynomial.aeval_C, Polynomial.aeval_C, Polynomial.aeval_X, Pi.add_apply, Pi.smul_apply, smul_eq_mul,
    mul_comm]
  rfl

theorem natDegree_lineRestrict (a u : Fin D → ℝ) {p : MvPolynomial (Fin D) ℝ} {k : ℕ} (hp : p.totalDegree ≤ k) :
    (lineRestrict a u p).natDegree ≤ k := by
  have := aeval_natDegree_le p hp (fun j => Polynomial.C (a j) + Polynomial.C (u j) * Polynomial.X) (n := 1) fun j => by
    compute_degree
  simpa [lineRestrict] using this

theorem derivative_lineRestrict (a u : Fin D → ℝ) (p : MvPolynomial (Fin D) ℝ) :
    Polynomial.derivative (lineRestrict a u p) = lineRestrict a u (dirD u p) := by
  induction p using MvPolynomial.induction_on with
  | C r => simp [lineRestrict, dirD]
  | add p q hp hq =>
    rw [map_add, map_add, hp, hq, ← map_add]
    congr 1
    simp only [dirD, map_add, mul_add, Finset.sum_add_distrib]
  | mul_X p i hp =>
    rw [map_mul, Polynomial.derivative_mul, hp]
    have hX : lineRestrict a u (X i) = Polynomial.C (a i) + Polynomial.C (u i) * Polynomial.X := by simp [lineRestrict]
    have e : dirD u (p * X i) = dirD u p * X i + p * C (u i) := by
      simp only [dirD, Derivation.leibniz, smul_eq_mul, pderiv_X, mul_add, Finset.sum_add_distrib]
      rw [add_comm, Finset.sum_mul]
      congr 1
      · exact Finset.sum_congr rfl fun j _ => by ring
      · rw [Finset.sum_eq_single i]
        · simp; ring
        · intro b _ hb; simp [Pi.single_eq_of_ne hb.symm]
        · simp
    have hC : lineRestrict a u (C (u i)) = Polynomial.C (u i) := by
      rw [lineRestrict, ← algebraMap_eq, AlgHom.commutes]; rfl
    rw [e, map_add, map_mul, map_mul, hX, hC]
    simp

theorem totalDegree_pderiv_sub (i : Fin D) (p : MvPolynomial (Fin D) ℝ) : (pderiv i p).totalDegree ≤ p.totalDegree - 1 := by
  conv_lhs => rw [p.as_sum]
  rw [map_sum]
  refine totalDegree_finsetSum_le fun m hm => ?_
  rw [pderiv_monomial]
  by_cases h0 : m i = 0
  · rw [h0]; simp
  refine (totalDegree_monomial_le _ _).trans ?_
  have h1 : (m.sum fun _ e => e) ≤ p.totalDegree := le_totalDegree hm
  have h2 : m = (m - Finsupp.single i 1) + Finsupp.single i 1 := by
    rw [tsub_add_cancel_of_le]
    rw [Finsupp.single_le_iff]; omega
  rw [h2, Finsupp.sum_add_index' (by simp) (by simp)] at h1
  simp only [Finsupp.sum_single_index] at h1
  have h3 : ((m - Finsupp.single i 1).sum fun _ => id) = ((m - Finsupp.single i 1).sum fun _ e => e) := rfl
  rw [h3]
  omega

theorem totalDegree_dirD (u : Fin D → ℝ) {p : MvPolynomial (Fin D) ℝ} {k : ℕ} (hp : p.totalDegree ≤ k) :
    (dirD u p).totalDegree ≤ k - 1 := by
  unfold dirD
  refine totalDegree_finsetSum_le fun j _ => ?_
  refine (totalDegree_mul _ _).trans ?_
  rw [totalDegree_C, zero_add]
  exact (totalDegree_pderiv_sub j p).trans (by omega)

theorem dirD_mul (u : Fin D → ℝ) (p q : MvPolynomial (Fin D) ℝ) : dirD u (p * q) = dirD u p * q + p * dirD u q := by
  simp only [dirD, Derivation.leibniz, smul_eq_mul, mul_add, Finset.sum_add_distrib]
  rw [add_comm, Finset.sum_mul, Finset.mul_sum]
  congr 1 <;> exact Finset.sum_congr rfl fun j _ => by ring

theorem eval_dirD (u : Fin D → ℝ) (p : MvPolynomial (Fin D) ℝ) (x : Fin D → ℝ) :
    eval x (dirD u p) = ∑ j, u j * eval x (pderiv j p) := by
  simp [dirD, map_sum]

theorem dirD_linForm (u g : Fin D → ℝ) (b : ℝ) : dirD u (linForm g b) = C (∑ j, u j * g j) := by
  unfold dirD linForm
  rw [map_sum C]
  refine Finset.sum_congr rfl fun j _ => ?_
  rw [map_add, pderiv_C, zero_add, map_sum, Finset.sum_eq_single j]
  · simp [Derivation.leibniz]
  · intro i _ hi
    simp [Derivation.leibniz, pderiv_X, Pi.single_eq_of_ne hi]
  · simp

/-- Univariate Hermite uniqueness: a polynomial with more zeros, counted with the multiplicities `m`, than its degree is 0. -/
theorem hermite_zero (S : Finset ℝ) (m : ℝ → ℕ) (q : Polynomial ℝ)
    (h : ∀ x ∈ S, ∀ j < m x, (Polynomial.derivative^[j] q).eval x = 0) (hd : q.natDegree < ∑ x ∈ S, m x) : q = 0 := by
  by_contra hq
  have h1 : ∀ x ∈ S, m x ≤ q.roots.count x := by
    intro x hx
    rw [Polynomial.count_roots]
    rcases Nat.eq_zero_or_pos (m x) with h0 | h0
    · omega
    · have := Polynomial.lt_rootMultiplicity_of_isRoot_iterate_derivative (n := m x - 1) (t := x) hq
        fun j hj => h x hx j (by omega)
      omega
  have h2 : ∑ x ∈ S, q.roots.count x ≤ Multiset.card q.roots := by
    rw [← Multiset.toFinset_sum_count_eq, ← Finset.sum_filter_add_sum_filter_not S (· ∈ q.roots.toFinset)]
    have e : ∑ x ∈ S with ¬ x ∈ q.roots.toFinset, q.roots.count x = 0 := by
      refine Finset.sum_eq_zero fun x hx => ?_
      rw [Finset.mem_filter, Multiset.mem_toFinset] at hx
      exact Multiset.count_eq_zero.2 hx.2
    rw [e, add_zero]
    exact Finset.sum_le_sum_of_subset fun x hx => (Finset.mem_filter.1 hx).2
  have h3 := q.card_roots'
  have h4 := Finset.sum_le_sum h1
  omega

end
end FIAT
