/-
Polynomials of degree at most one; polynomials with zero gradient.
-/
import Verif.Lemmas.ScalarBlocks

namespace FIAT
open MvPolynomial
section
variable {D : ℕ}

theorem const_of_grad (p : MvPolynomial (Fin D) ℝ) (h : ∀ j, pderiv j p = 0) (x y : Fin D → ℝ) : eval x p = eval y p := by
  have hd : dirD (y - x) p = 0 := by
    unfold dirD
    exact Finset.sum_eq_zero fun j _ => by rw [h j, mul_zero]
  have h1 : Polynomial.derivative (lineRestrict x (y - x) p) = 0 := by rw [derivative_lineRestrict, hd, map_zero]
  have h2 := Polynomial.natDegree_eq_zero_of_derivative_eq_zero h1
  obtain ⟨c, hc⟩ := Polynomial.natDegree_eq_zero.1 h2
  have e0 := eval_lineRestrict x (y - x) p 0
  have e1 := eval_lineRestrict x (y - x) p 1
  rw [← hc, Polynomial.eval_C] at e0 e1
  rw [zero_smul, add_zero] at e0
  rw [one_smul, add_sub_cancel] at e1
  rw [← e0, ← e1]

/-- A polynomial of degree at most one is affine. -/
theorem affine_of_degree (p : MvPolynomial (Fin D) ℝ) (hp : p.totalDegree ≤ 1) :
    ∃ (g : Fin D → ℝ) (b : ℝ), ∀ x, eval x p = b + ∑ j, g j * x j := by
  have hg : ∀ j, ∃ c : ℝ, pderiv j p = C c := by
    intro j
    have h0 : (pderiv j p).totalDegree = 0 := by
      have := totalDegree_pderiv_sub j p
      omega
    exact ⟨_, totalDegree_eq_zero_iff_eq_C.1 h0⟩
  choose g hg using hg
  refine ⟨g, eval 0 p, fun x => ?_⟩
  have := const_of_grad (p - ∑ j, C (g j) * X j) (by
    intro j
    rw [map_sub, hg, map_sum, Finset.sum_eq_single j]
    · rw [pderiv_C_mul, pderiv_X_self, mul_one, sub_self]
    · intro i _ hi; rw [pderiv_C_mul, pderiv_X_of_ne hi, mul_zero]
    · simp) x 0
  simp only [map_sub, map_sum, map_mul, eval_C, eval_X, Pi.zero_apply, mul_zero, Finset.sum_const_zero, sub_zero] at this
  linarith

/-- A polynomial of degree at most one respects affine combinations. -/
theorem affine_comb (p : MvPolynomial (Fin D) ℝ) (hp : p.totalDegree ≤ 1) {ι : Type} [Fintype ι] (w : ι → ℝ) (v : ι → Fin D → ℝ)
    (hw : ∑ i, w i = 1) : eval (∑ i, w i • v i) p = ∑ i, w i * eval (v i) p := by
  obtain ⟨g, b, h⟩ := affine_of_degree p hp
  simp only [h, mul_add, Finset.sum_add_distrib, ← Finset.sum_mul, hw, one_mul, Finset.sum_apply, Pi.smul_apply, smul_eq_mul, Finset.mul_sum]
  congr 1
  rw [Finset.sum_comm]
  exact Finset.sum_congr rfl fun i _ => Finset.sum_congr rfl fun j _ => by ring

/-- An affine function that vanishes at the barycentres of all facets is zero. -/
theorem affine_zero_of_facets (hD : 1 ≤ D) {s : SimplexCell (Fin D → ℝ)} (hs : ProperSimplex ℝ s) (p : MvPolynomial (Fin D) ℝ)
    (hp : p.totalDegree ≤ 1) (h : ∀ e t, HasEntity s.topo (D - 1) e t → eval ((1 / (D : ℝ)) • (t.map s.v).sum) p = 0) : p = 0 := by
  have hD0 : (D : ℝ) ≠ 0 := by positivity
  have hv : ∀ i : Fin (D + 1), eval (s.v i) p = ∑ j : Fin (D + 1), eval (s.v j) p := by
    intro i
    obtain ⟨e, t, he, ht⟩ := facet_of_vertex hD hs i
    have hnd := (hs.2.1.entity _ _ _ he).1
    have hset : t.toFinset = (Finset.range (D + 1)).erase i := by
      ext a
      rw [List.mem_toFinset, ht, Finset.mem_erase, Finset.mem_range]; tauto
    have hsum : (1 / (D : ℝ)) • (t.map s.v).sum = ∑ j : Fin (D + 1), (if j = i then 0 else 1 / (D : ℝ)) • s.v j := by
      rw [← List.sum_toFinset _ hnd, hset, Finset.smul_sum]
      have : ∑ a ∈ (Finset.range (D + 1)).erase i, (1 / (D : ℝ)) • s.v a =
          ∑ a ∈ Finset.range (D + 1), (if a = i then 0 else 1 / (D : ℝ)) • s.v a := by
        rw [← Finset.sum_erase (f := fun a : ℕ => (if a = (i : ℕ) then 0 else 1 / (D : ℝ)) • s.v a) (a := (i : ℕ)) _ (by simp)]
        refine Finset.sum_congr rfl fun a ha => ?_
        rw [if_neg (Finset.mem_erase.1 ha).1]
      rw [this, Finset.sum_range]
      simp only [Fin.ext_iff]
    have hw : ∑ j : Fin (D + 1), (if j = i then 0 else 1 / (D : ℝ)) = 1 := by
      have : ∀ j : Fin (D + 1), (if j = i then 0 else 1 / (D : ℝ)) = 1 / (D : ℝ) - if j = i then 1 / (D : ℝ) else 0 := by
        intro j; split_ifs <;> ring
      simp only [this, Finset.sum_sub_distrib, Finset.sum_const, Finset.card_univ, Fintype.card_fin, Finset.sum_ite_eq', Finset.mem_univ,
        if_true, nsmul_eq_mul]
      push_cast
      field_simp
      ring
    have h0 := h e t he
    rw [hsum, affine_comb p hp _ _ hw] at h0
    have : ∀ j : Fin (D + 1), (if j = i then 0 else 1 / (D : ℝ)) * eval (s.v j) p =
        1 / (D : ℝ) * eval (s.v j) p - if j = i then 1 / (D : ℝ) * eval (s.v j) p else 0 := by
      intro j; split_ifs <;> ring
    simp only [this, Finset.sum_sub_distrib, Finset.sum_ite_eq', Finset.mem_univ, if_true, ← Finset.mul_sum] at h0
    have h1 : 1 / (D : ℝ) ≠ 0 := one_div_ne_zero hD0
    have h2 : 1 / (D : ℝ) * (∑ j : Fin (D + 1), eval (s.v j) p - eval (s.v i) p) = 0 := by rw [mul_sub]; exact h0
    have := (mul_eq_zero.1 h2).resolve_left h1
    linarith
  have hS : ∑ j : Fin (D + 1), eval (s.v j) p = 0 := by
    have : ∑ i : Fin (D + 1), eval (s.v i) p = (D + 1) * ∑ j : Fin (D + 1), eval (s.v j) p := by
      conv_lhs => rw [Finset.sum_congr rfl fun i _ => hv i]
      simp
    have h3 : (D : ℝ) * ∑ j : Fin (D + 1), eval (s.v j) p = 0 := by linarith
    exact (mul_eq_zero.1 h3).resolve_left hD0
  obtain ⟨g, b, hb⟩ := baryForms_exist _ (proper_independent hs)
  refine MvPolynomial.funext fun x => ?_
  have hx := hb.comb x
  rw [map_zero, ← hx, affine_comb p hp _ _ (hb.sum_one x)]
  exact Finset.sum_eq_zero fun i _ => by rw [hv i, hS, mul_zero]

/-- For a quadratic polynomial that is zero at both ends of a segment the derivative along it is zero at the midpoint. -/
theorem midpoint_derivative (a u : Fin D → ℝ) (p : MvPolynomial (Fin D) ℝ) (hp : p.totalDegree ≤ 2) (h0 : eval a p = 0)
    (h1 : eval (a + u) p = 0) : eval (a + (1 / 2 : ℝ) • u) (dirD u p) = 0 := by
  have hdeg := natDegree_lineRestrict a u hp
  have e0 := eval_lineRestrict a u p 0
  have e1 := eval_lineRestrict a u p 1
  rw [zero_smul, add_zero, h0] at e0
  rw [one_smul, h1] at e1
  rw [← eval_lineRestrict, ← derivative_lineRestrict]
  have hq := (lineRestrict a u p).as_sum_range_C_mul_X_pow' (n := 3) (by omega)
  rw [hq] at e0 e1 ⊢
  simp only [Finset.sum_range_succ, Finset.sum_range_zero, zero_add, Polynomial.eval_add, Polynomial.eval_mul, Polynomial.eval_C,
    Polynomial.eval_pow, Polynomial.eval_X, Polynomial.derivative_add, Polynomial.derivative_C_mul, Polynomial.derivative_X_pow] at e0 e1 ⊢
  norm_num at e0 e1 ⊢
  linarith

end
end FIAT
