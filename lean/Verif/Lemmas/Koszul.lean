/-
Polynomial potentials by the Koszul homotopy.
-/
import Verif.Lemmas.NedCore
import Verif.Lemmas.RTCore
import Verif.Lemmas.FieldMoments
import Verif.Lemmas.LineRestrict
import Mathlib.RingTheory.MvPolynomial.EulerIdentity

namespace FIAT
open MvPolynomial
section
variable {D : ℕ}

/-- Divides the homogeneous part of degree `n` by `n + c`. -/
noncomputable def invDeg (c : ℕ) : MvPolynomial (Fin D) ℝ →ₗ[ℝ] MvPolynomial (Fin D) ℝ :=
  (basisMonomials (Fin D) ℝ).constr ℝ fun m => monomial m (((m.sum fun _ e => e) + c : ℕ) : ℝ)⁻¹

theorem invDeg_monomial (c : ℕ) (m : Fin D →₀ ℕ) (a : ℝ) :
    invDeg c (monomial m a) = monomial m (a * (((m.sum fun _ e => e) + c : ℕ) : ℝ)⁻¹) := by
  have h1 : monomial m a = a • (basisMonomials (Fin D) ℝ m) := by rw [coe_basisMonomials, smul_monomial, smul_eq_mul, mul_one]
  rw [h1, map_smul, invDeg, Module.Basis.constr_basis, smul_monomial, smul_eq_mul]

theorem linearMap_ext_monomial {f g : MvPolynomial (Fin D) ℝ →ₗ[ℝ] MvPolynomial (Fin D) ℝ} (h : ∀ m a, f (monomial m a) = g (monomial m a)) :
    f = g := by
  refine (basisMonomials (Fin D) ℝ).ext fun m => ?_
  rw [coe_basisMonomials]
  exact h m 1

theorem pderiv_invDeg (c : ℕ) (i : Fin D) (p : MvPolynomial (Fin D) ℝ) : pderiv i (invDeg c p) = invDeg (c + 1) (pderiv i p) := by
  have : (pderiv i).toLinearMap ∘ₗ invDeg c = invDeg (c + 1) ∘ₗ (pderiv i).toLinearMap (R := ℝ) := by
    refine linearMap_ext_monomial fun m a => ?_
    simp only [LinearMap.comp_apply, Derivation.coeFn_coe]
    rw [invDeg_monomial, pderiv_monomial, pderiv_monomial, invDeg_monomial]
    by_cases hm : m i = 0
    · simp [hm]
    · have hsum : ((m - Finsupp.single i 1).sum fun _ e => e) + 1 = m.sum fun _ e => e := by
        have h1 : m - Finsupp.single i 1 + Finsupp.single i 1 = m := by
          ext j
          by_cases hj : j = i
          · subst hj; simp; omega
          · simp [Finsupp.single_apply, Ne.symm hj]
        conv_rhs => rw [← h1]
        rw [Finsupp.sum_add_index' (by simp) (by simp), Finsupp.sum_single_index rfl]
      congr 1
      have h2 : (m.sum fun _ e => e) + c = ((m - Finsupp.single i 1).sum fun _ e => e) + (c + 1) := by rw [← hsum]; ring
      rw [h2]
      ring
  exact congrArg (fun f => f p) this

theorem X_mul_invDeg (c : ℕ) (i : Fin D) (p : MvPolynomial (Fin D) ℝ) : X i * invDeg (c + 1) p = invDeg c (X i * p) := by
  have : LinearMap.mulLeft ℝ (X i) ∘ₗ invDeg (c + 1) = invDeg c ∘ₗ LinearMap.mulLeft ℝ (X i : MvPolynomial (Fin D) ℝ) := by
    refine linearMap_ext_monomial fun m a => ?_
    simp only [LinearMap.comp_apply, LinearMap.mulLeft_apply]
    rw [invDeg_monomial, X, monomial_mul, monomial_mul, invDeg_monomial, Finsupp.sum_add_index' (by simp) (by simp),
      Finsupp.sum_single_index rfl, one_mul, one_mul]
    congr 4
    omega
  exact congrArg (fun f => f p) this

/-- Euler's identity. -/
theorem euler_invDeg (c : ℕ) (hc : 1 ≤ c) (p : MvPolynomial (Fin D) ℝ) : (c : ℝ) • invDeg c p + ∑ i, X i * pderiv i (invDeg c p) = p := by
  have : (c : ℝ) • invDeg c + (∑ i, LinearMap.mulLeft ℝ (X i) ∘ₗ (pderiv i).toLinearMap ∘ₗ invDeg c) = (LinearMap.id : MvPolynomial (Fin D) ℝ →ₗ[ℝ] _) := by
    refine linearMap_ext_monomial fun m a => ?_
    simp only [LinearMap.add_apply, LinearMap.smul_apply, LinearMap.sum_apply, LinearMap.comp_apply, LinearMap.mulLeft_apply,
      LinearMap.id_apply, Derivation.coeFn_coe]
    rw [invDeg_monomial]
    have h := (isHomogeneous_monomial (R := ℝ) (d := m) (n := m.sum fun _ e => e) (a * (((m.sum fun _ e => e) + c : ℕ) : ℝ)⁻¹)
      (by rw [Finsupp.degree_eq_sum, Finsupp.sum_fintype _ _ (by simp)])).sum_X_mul_pderiv
    rw [h, smul_monomial, ← Nat.cast_smul_eq_nsmul ℝ, smul_monomial, ← map_add]
    congr 1
    have : (((m.sum fun _ e => e) + c : ℕ) : ℝ) ≠ 0 := by positivity
    push_cast at this ⊢
    simp only [smul_eq_mul]
    field_simp
    ring
  have h := congrArg (fun f => f p) this
  simpa only [LinearMap.add_apply, LinearMap.smul_apply, LinearMap.sum_apply, LinearMap.comp_apply, LinearMap.mulLeft_apply,
      LinearMap.id_apply, Derivation.coeFn_coe] using h

theorem invDeg_degree (c : ℕ) (p : MvPolynomial (Fin D) ℝ) : (invDeg c p).totalDegree ≤ p.totalDegree := by
  conv_lhs => rw [p.as_sum, map_sum]
  refine totalDegree_finsetSum_le fun m hm => ?_
  rw [invDeg_monomial]
  exact (totalDegree_monomial_le _ _).trans (le_totalDegree hm)

/-- A curl-free polynomial field is a gradient. -/
theorem gradient_of_closed (w : Fin D → MvPolynomial (Fin D) ℝ) (h : ∀ i j, pderiv i (w j) = pderiv j (w i)) (i : Fin D) :
    pderiv i (∑ j, X j * invDeg 1 (w j)) = w i := by
  rw [map_sum]
  have h1 : ∀ j, pderiv i (X j * invDeg 1 (w j)) = (if i = j then invDeg 1 (w j) else 0) + X j * pderiv j (invDeg 1 (w i)) := by
    intro j
    rw [Derivation.leibniz, pderiv_X, pderiv_invDeg, pderiv_invDeg, h i j]
    simp only [smul_eq_mul, Pi.single_apply]
    by_cases hij : i = j
    · subst hij; simp; ring
    · rw [if_neg hij, if_neg (fun h => hij h.symm)]; simp
  rw [Finset.sum_congr rfl fun j _ => h1 j, Finset.sum_add_distrib, Finset.sum_ite_eq, if_pos (Finset.mem_univ _)]
  have := euler_invDeg 1 le_rfl (w i)
  rwa [Nat.cast_one, one_smul] at this

/-- The potential of a curl-free Nedelec field has degree `k + 1`. -/
theorem ned_potential_degree {k : ℕ} {w : Fin D → MvPolynomial (Fin D) ℝ} (hw : IsNed k w) :
    (∑ j, X j * invDeg 1 (w j)).totalDegree ≤ k + 1 := by
  obtain ⟨p, A, h1, h2, h3, h4⟩ := hw
  have h5 : ∑ j, X j * invDeg 1 (w j) = ∑ j, X j * invDeg 1 (p j) := by
    have h6 : ∑ j, X j * invDeg 1 (w j) = ∑ j, X j * invDeg 1 (p j) + ∑ j, ∑ l, X j * (X l * invDeg 2 (A j l)) := by
      rw [← Finset.sum_add_distrib]
      refine Finset.sum_congr rfl fun j _ => ?_
      rw [h4, map_add, mul_add, map_sum, Finset.mul_sum]
      congr 1
      exact Finset.sum_congr rfl fun l _ => by rw [mul_comm (A j l), X_mul_invDeg 1]
    have h7 : ∑ j, ∑ l, X j * (X l * invDeg 2 (A j l)) = - ∑ j, ∑ l, X j * (X l * invDeg 2 (A j l)) := by
      conv_lhs => rw [Finset.sum_comm]
      rw [← Finset.sum_neg_distrib]
      refine Finset.sum_congr rfl fun j _ => ?_
      rw [← Finset.sum_neg_distrib]
      exact Finset.sum_congr rfl fun l _ => by rw [h3 l j, map_neg]; ring
    have h8 : ∑ j, ∑ l, X j * (X l * invDeg 2 (A j l)) = 0 := self_eq_neg.1 h7
    rw [h6, h8, add_zero]
  rw [h5]
  exact sum_degree _ _ _ fun j _ => mul_degree (totalDegree_X _).le ((invDeg_degree 1 _).trans (h1 j)) (by omega)

/-- The divergence. -/
noncomputable def divergence (w : Fin D → MvPolynomial (Fin D) ℝ) : MvPolynomial (Fin D) ℝ := ∑ i, pderiv i (w i)

/-- Every polynomial is a divergence. -/
theorem div_onto (hD : 1 ≤ D) (q : MvPolynomial (Fin D) ℝ) : divergence (fun i => X i * invDeg D q) = q := by
  unfold divergence
  have h1 : ∀ i, pderiv i (X i * invDeg D q) = invDeg D q + X i * pderiv i (invDeg D q) := by
    intro i
    rw [Derivation.leibniz, pderiv_X]
    simp only [smul_eq_mul, Pi.single_apply, if_true, mul_one]
    ring
  rw [Finset.sum_congr rfl fun i _ => h1 i, Finset.sum_add_distrib, Finset.sum_const, Finset.card_univ, Fintype.card_fin,
    ← Nat.cast_smul_eq_nsmul ℝ]
  exact euler_invDeg D hD q

theorem divergence_degree {k : ℕ} {w : Fin D → MvPolynomial (Fin D) ℝ} (hw : FullDeg (k + 1) w) : (divergence w).totalDegree ≤ k :=
  sum_degree _ _ _ fun i _ => by
    have := (totalDegree_pderiv_sub i (w i))
    have := hw i
    omega

/-- The curl of a field in space. -/
noncomputable def curlP (w : Fin 3 → MvPolynomial (Fin 3) ℝ) : Fin 3 → MvPolynomial (Fin 3) ℝ :=
  ![pderiv 1 (w 2) - pderiv 2 (w 1), pderiv 2 (w 0) - pderiv 0 (w 2), pderiv 0 (w 1) - pderiv 1 (w 0)]

/-- `w × x` with `w` divided by its degree plus 2. -/
noncomputable def vecPot (w : Fin 3 → MvPolynomial (Fin 3) ℝ) : Fin 3 → MvPolynomial (Fin 3) ℝ :=
  ![invDeg 2 (w 1) * X 2 - invDeg 2 (w 2) * X 1, invDeg 2 (w 2) * X 0 - invDeg 2 (w 0) * X 2, invDeg 2 (w 0) * X 1 - invDeg 2 (w 1) * X 0]

/-- A divergence-free field in space is a curl. -/
theorem curl_of_closed (w : Fin 3 → MvPolynomial (Fin 3) ℝ) (h : divergence w = 0) : curlP (vecPot w) = w := by
  have hd : ∑ i, pderiv i (invDeg 2 (w i)) = 0 := by
    simp only [pderiv_invDeg]
    rw [← map_sum]
    unfold divergence at h
    rw [h, map_zero]
  rw [Fin.sum_univ_three] at hd
  have he : ∀ i, (2 : MvPolynomial (Fin 3) ℝ) * invDeg 2 (w i) + (X 0 * pderiv 0 (invDeg 2 (w i)) + X 1 * pderiv 1 (invDeg 2 (w i)) +
      X 2 * pderiv 2 (invDeg 2 (w i))) = w i := by
    intro i
    have := euler_invDeg 2 (by norm_num) (w i)
    rw [Fin.sum_univ_three, smul_eq_C_mul, Nat.cast_ofNat, show (C (2 : ℝ) : MvPolynomial (Fin 3) ℝ) = 2 from map_ofNat C 2] at this
    exact this
  set W : Fin 3 → MvPolynomial (Fin 3) ℝ := fun i => invDeg 2 (w i) with hW
  have hX : ∀ i j : Fin 3, pderiv i (X j : MvPolynomial (Fin 3) ℝ) = if i = j then 1 else 0 := fun i j => by
    rw [pderiv_X, Pi.single_apply]
    by_cases hij : i = j
    · rw [if_pos hij, if_pos hij.symm]
    · rw [if_neg hij, if_neg (fun h => hij h.symm)]
  funext i
  have hb : vecPot w = ![W 1 * X 2 - W 2 * X 1, W 2 * X 0 - W 0 * X 2, W 0 * X 1 - W 1 * X 0] := rfl
  have hd' : pderiv 0 (W 0) + pderiv 1 (W 1) + pderiv 2 (W 2) = 0 := hd
  have he' : ∀ i, (2 : MvPolynomial (Fin 3) ℝ) * W i + (X 0 * pderiv 0 (W i) + X 1 * pderiv 1 (W i) + X 2 * pderiv 2 (W i)) = w i := he
  rw [hb]
  fin_cases i
  · simp [curlP, Derivation.leibniz, hX]
    linear_combination he' 0 - X 0 * hd'
  · simp [curlP, Derivation.leibniz, hX]
    linear_combination he' 1 - X 1 * hd'
  · simp [curlP, Derivation.leibniz, hX]
    linear_combination he' 2 - X 2 * hd'

/-- The vector potential of a Raviart-Thomas field is a Nedelec field. -/
theorem rt_potential {k : ℕ} {w : Fin 3 → MvPolynomial (Fin 3) ℝ} (hw : IsRT k w) : IsNed k (vecPot w) := by
  obtain ⟨p, q, h1, h2, h3⟩ := hw
  have h4 : ∀ j, invDeg 2 (w j) = invDeg 2 (p j) + X j * invDeg 3 q := fun j => by rw [h3, map_add, X_mul_invDeg]
  set P : Fin 3 → MvPolynomial (Fin 3) ℝ := fun i => invDeg 2 (p i) with hP
  have hPd : ∀ i, (P i).totalDegree ≤ k := fun i => (invDeg_degree _ _).trans (h1 i)
  refine ⟨fun _ => 0, ![![0, - P 2, P 1], ![P 2, 0, - P 0], ![- P 1, P 0, 0]], fun j => by simp, ?_, ?_, ?_⟩
  · intro i j
    fin_cases i <;> fin_cases j <;> simp [hPd]
  · intro i j
    fin_cases i <;> fin_cases j <;> simp
  · intro i
    have h4' : ∀ j, invDeg 2 (w j) = P j + X j * invDeg 3 q := h4
    fin_cases i <;> simp [vecPot, Fin.sum_univ_three, h4'] <;> ring

theorem full_potential {k : ℕ} {w : Fin 3 → MvPolynomial (Fin 3) ℝ} (hw : FullDeg k w) : FullDeg (k + 1) (vecPot w) := by
  have h : ∀ i j, (invDeg 2 (w i) * X j).totalDegree ≤ k + 1 := fun i j =>
    mul_degree ((invDeg_degree _ _).trans (hw i)) ((totalDegree_X _).le) le_rfl
  intro i
  fin_cases i
  · exact (totalDegree_sub _ _).trans (max_le (h 1 2) (h 2 1))
  · exact (totalDegree_sub _ _).trans (max_le (h 2 0) (h 0 2))
  · exact (totalDegree_sub _ _).trans (max_le (h 0 1) (h 1 0))

theorem curlP_degree {k : ℕ} {w : Fin 3 → MvPolynomial (Fin 3) ℝ} (hw : FullDeg (k + 1) w) : FullDeg k (curlP w) := by
  have h : ∀ i j, (pderiv i (w j)).totalDegree ≤ k := fun i j => by
    have := (totalDegree_pderiv_sub i (w j))
    have := hw j
    omega
  intro i
  fin_cases i
  · exact (totalDegree_sub _ _).trans (max_le (h 1 2) (h 2 1))
  · exact (totalDegree_sub _ _).trans (max_le (h 2 0) (h 0 2))
  · exact (totalDegree_sub _ _).trans (max_le (h 0 1) (h 1 0))

theorem fullDeg_rt {k : ℕ} {w : Fin D → MvPolynomial (Fin D) ℝ} (hw : FullDeg k w) : IsRT k w :=
  ⟨w, 0, hw, by simp, fun j => by simp⟩

theorem fullDeg_ned {k : ℕ} {w : Fin D → MvPolynomial (Fin D) ℝ} (hw : FullDeg k w) : IsNed k w :=
  ⟨w, fun _ _ => 0, hw, by simp, by simp, fun j => by simp⟩

theorem ned_fullDeg {k : ℕ} {w : Fin D → MvPolynomial (Fin D) ℝ} (hw : IsNed k w) : FullDeg (k + 1) w := by
  obtain ⟨p, A, h1, h2, h3, h4⟩ := hw
  intro i
  rw [h4]
  exact (totalDegree_add _ _).trans (max_le ((h1 i).trans (by omega)) (sum_degree _ _ _ fun j _ => mul_degree (h2 i j) ((totalDegree_X _).le) le_rfl))

theorem rt_fullDeg {k : ℕ} {w : Fin D → MvPolynomial (Fin D) ℝ} (hw : IsRT k w) : FullDeg (k + 1) w := by
  obtain ⟨p, q, h1, h2, h3⟩ := hw
  intro i
  rw [h3]
  exact (totalDegree_add _ _).trans (max_le ((h1 i).trans (by omega)) (mul_degree (totalDegree_X _).le h2 (by omega)))

/-- The rotated gradient of a function of two variables. -/
noncomputable def rotP (p : MvPolynomial (Fin 2) ℝ) : Fin 2 → MvPolynomial (Fin 2) ℝ := ![pderiv 1 p, - pderiv 0 p]

/-- The scalar curl of a field in the plane. -/
noncomputable def scurlP (w : Fin 2 → MvPolynomial (Fin 2) ℝ) : MvPolynomial (Fin 2) ℝ := pderiv 0 (w 1) - pderiv 1 (w 0)

/-- A field in the plane is divergence free iff its rotation is curl free. -/
theorem rot_of_closed (w : Fin 2 → MvPolynomial (Fin 2) ℝ) (h : divergence w = 0) :
    rotP (∑ j, X j * invDeg 1 ((![- w 1, w 0] : Fin 2 → MvPolynomial (Fin 2) ℝ) j)) = w := by
  have h1 := gradient_of_closed ![- w 1, w 0] (by
    unfold divergence at h
    rw [Fin.sum_univ_two] at h
    have h' : pderiv 0 (w 0) = - pderiv 1 (w 1) := eq_neg_of_add_eq_zero_left h
    intro i j
    fin_cases i <;> fin_cases j <;> simp [h'])
  unfold rotP
  funext i
  fin_cases i
  · exact h1 1
  · show - pderiv 0 _ = w 1
    rw [h1 0]
    simp

theorem rot_ned {k : ℕ} {w : Fin 2 → MvPolynomial (Fin 2) ℝ} (hw : IsRT k w) : IsNed k ![- w 1, w 0] := by
  obtain ⟨p, q, h1, h2, h3⟩ := hw
  refine ⟨![- p 1, p 0], ![![0, - q], ![q, 0]], ?_, ?_, ?_, ?_⟩
  · intro j; fin_cases j <;> simp [h1]
  · intro i j; fin_cases i <;> fin_cases j <;> simp [h2]
  · intro i j; fin_cases i <;> fin_cases j <;> simp
  · intro i; fin_cases i <;> simp [h3, Fin.sum_univ_two] <;> ring

/-- Every polynomial of two variables is a scalar curl. -/
theorem scurl_onto (q : MvPolynomial (Fin 2) ℝ) : scurlP ![- (X 1 * invDeg 2 q), X 0 * invDeg 2 q] = q := by
  have h := div_onto (D := 2) (by norm_num) q
  unfold divergence at h
  rw [Fin.sum_univ_two] at h
  unfold scurlP
  show pderiv 0 (X 0 * invDeg 2 q) - pderiv 1 (- (X 1 * invDeg 2 q)) = q
  rw [map_neg, sub_neg_eq_add]
  exact h

theorem scurl_onto_ned {k : ℕ} {q : MvPolynomial (Fin 2) ℝ} (hq : q.totalDegree ≤ k) : IsNed k ![- (X 1 * invDeg 2 q), X 0 * invDeg 2 q] := by
  have h := (invDeg_degree 2 q).trans hq
  refine ⟨fun _ => 0, ![![0, - invDeg 2 q], ![invDeg 2 q, 0]], by simp, ?_, ?_, ?_⟩
  · intro i j; fin_cases i <;> fin_cases j <;> simp [h]
  · intro i j; fin_cases i <;> fin_cases j <;> simp
  · intro i; fin_cases i <;> simp [Fin.sum_univ_two] <;> ring

end
end FIAT
