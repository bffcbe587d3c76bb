/-
Linear forms are prime; products of powers of barycentric coordinates divide what each of them divides.
-/
import Verif.Lemmas.Facets
import Verif.Lemmas.LineRestrict
import Mathlib.RingTheory.Polynomial.UniqueFactorization
import Mathlib.Algebra.GCDMonoid.Nat
import Mathlib.RingTheory.Coprime.Lemmas

namespace FIAT
open MvPolynomial
section
variable {D : ℕ}

private theorem exists_dual (g : Fin D → ℝ) (hg : g ≠ 0) : ∃ w : Fin D → ℝ, ∑ i, g i * w i = 1 := by
  obtain ⟨j, hj⟩ := Function.ne_iff.1 hg
  refine ⟨Pi.single j (g j)⁻¹, ?_⟩
  rw [Finset.sum_eq_single j]
  · rw [Pi.single_eq_same]; exact mul_inv_cancel₀ hj
  · intro i _ hi; rw [Pi.single_eq_of_ne hi, mul_zero]
  · simp

/-- The projection onto the hyperplane, on polynomials. -/
private noncomputable def proj (g : Fin D → ℝ) (b : ℝ) (w : Fin D → ℝ) : MvPolynomial (Fin D) ℝ →ₐ[ℝ] MvPolynomial (Fin D) ℝ :=
  aeval fun i => X i - C (w i) * linForm g b

private theorem eval_proj (g : Fin D → ℝ) (b : ℝ) (w : Fin D → ℝ) (f : MvPolynomial (Fin D) ℝ) (x : Fin D → ℝ) :
    eval x (proj g b w f) = eval (fun i => x i - w i * eval x (linForm g b)) f := by
  unfold proj
  rw [← coe_aeval_eq_eval, ← coe_aeval_eq_eval, RingHom.coe_coe, RingHom.coe_coe, ← AlgHom.comp_apply, comp_aeval]
  congr 2
  funext i
  rw [map_sub, map_mul, aeval_X, aeval_C]
  rfl

private theorem vanish_iff_proj (g : Fin D → ℝ) (b : ℝ) (w : Fin D → ℝ) (hw : ∑ i, g i * w i = 1) (f : MvPolynomial (Fin D) ℝ) :
    (∀ x, eval x (linForm g b) = 0 → eval x f = 0) ↔ proj g b w f = 0 := by
  constructor
  · intro h
    refine MvPolynomial.funext fun x => ?_
    rw [eval_proj, map_zero]
    apply h
    rw [eval_linForm]
    simp only [mul_sub, Finset.sum_sub_distrib, ← mul_assoc]
    rw [← Finset.sum_mul, hw, one_mul, eval_linForm]
    ring
  · intro h x hx
    have := eval_proj g b w f x
    rw [h, map_zero, hx] at this
    simpa using this.symm

theorem linForm_dvd_iff (g : Fin D → ℝ) (b : ℝ) (hg : g ≠ 0) (f : MvPolynomial (Fin D) ℝ) :
    linForm g b ∣ f ↔ ∀ x, eval x (linForm g b) = 0 → eval x f = 0 := by
  constructor
  · rintro ⟨r, rfl⟩ x hx
    rw [map_mul, hx, zero_mul]
  · intro h
    obtain ⟨r, hr⟩ := dvd_of_vanish g b hg f h
    exact ⟨r, hr⟩

theorem linForm_prime (g : Fin D → ℝ) (b : ℝ) (hg : g ≠ 0) : Prime (linForm g b) := by
  obtain ⟨w, hw⟩ := exists_dual g hg
  refine ⟨linForm_ne_zero g b hg, ?_, ?_⟩
  · intro hu
    have h0 : ∀ x, eval x (linForm g b) ≠ 0 := fun x => (hu.map (eval x)).ne_zero
    apply h0 (fun i => -b * w i)
    rw [eval_linForm]
    have : ∑ j, g j * (-b * w j) = -b * ∑ j, g j * w j := by rw [Finset.mul_sum]; exact Finset.sum_congr rfl fun _ _ => by ring
    rw [this, hw]; ring
  · intro p q h
    rw [linForm_dvd_iff g b hg, vanish_iff_proj g b w hw, map_mul, mul_eq_zero] at h
    rw [linForm_dvd_iff g b hg, vanish_iff_proj g b w hw, linForm_dvd_iff g b hg, vanish_iff_proj g b w hw]
    exact h

variable {v : Fin (D + 1) → Fin D → ℝ} {g : Fin (D + 1) → Fin D → ℝ} {b : Fin (D + 1) → ℝ}

theorem BaryForms.not_dvd (h : BaryForms v g b) (hD : 1 ≤ D) {i j : Fin (D + 1)} (hij : i ≠ j) :
    ¬ linForm (g i) (b i) ∣ linForm (g j) (b j) := by
  rw [linForm_dvd_iff _ _ (h.ne_zero hD i)]
  intro hc
  have := hc (v j) (by rw [h.at_vertex, if_neg hij])
  rw [h.at_vertex, if_pos rfl] at this
  exact one_ne_zero this

theorem BaryForms.relPrime (h : BaryForms v g b) (hD : 1 ≤ D) (m : ℕ) {i j : Fin (D + 1)} (hij : i ≠ j) :
    IsRelPrime (linForm (g i) (b i) ^ m) (linForm (g j) (b j) ^ m) := by
  apply IsRelPrime.pow
  exact ((linForm_prime _ _ (h.ne_zero hD i)).irreducible.isRelPrime_iff_not_dvd).2 (h.not_dvd hD hij)

/-- If `λ_i^m` divides `p` for every `i` of `S`, so does their product. -/
theorem BaryForms.prod_dvd (h : BaryForms v g b) (hD : 1 ≤ D) (m : ℕ) (S : Finset (Fin (D + 1))) (p : MvPolynomial (Fin D) ℝ)
    (hp : ∀ i ∈ S, linForm (g i) (b i) ^ m ∣ p) : ∏ i ∈ S, linForm (g i) (b i) ^ m ∣ p :=
  Finset.prod_dvd_of_isRelPrime (fun _ _ _ _ hij => h.relPrime hD m hij) hp

theorem BaryForms.prod_degree (h : BaryForms v g b) (hD : 1 ≤ D) (m : ℕ) (S : Finset (Fin (D + 1))) :
    ((∏ i ∈ S, linForm (g i) (b i) ^ m) ≠ 0) ∧ (∏ i ∈ S, linForm (g i) (b i) ^ m).totalDegree = S.card * m := by
  have hne : ∀ i, linForm (g i) (b i) ≠ 0 := fun i => linForm_ne_zero _ _ (h.ne_zero hD i)
  have hpow : ∀ (i : Fin (D + 1)) (n : ℕ), (linForm (g i) (b i) ^ n).totalDegree = n := by
    intro i n
    induction n with
    | zero => simp
    | succ n ih =>
      rw [pow_succ, totalDegree_mul_of_isDomain (pow_ne_zero _ (hne i)) (hne i), ih]
      have h1 := linForm_degree (g i) (b i)
      have h2 := linForm_degree_pos (g i) (b i) (h.ne_zero hD i)
      omega
  induction S using Finset.induction_on with
  | empty => simp
  | insert a S ha ih =>
    rw [Finset.prod_insert ha]
    refine ⟨mul_ne_zero (pow_ne_zero _ (hne a)) ih.1, ?_⟩
    rw [totalDegree_mul_of_isDomain (pow_ne_zero _ (hne a)) ih.1, hpow, ih.2, Finset.card_insert_of_notMem ha]
    ring

/-- The quotient of a polynomial of degree at most `k` by a product of powers of barycentric coordinates. -/
theorem BaryForms.quotient (h : BaryForms v g b) (hD : 1 ≤ D) (m : ℕ) (S : Finset (Fin (D + 1))) (p : MvPolynomial (Fin D) ℝ) {k : ℕ}
    (hk : p.totalDegree ≤ k) (hp : ∀ i ∈ S, linForm (g i) (b i) ^ m ∣ p) :
    ∃ r, p = (∏ i ∈ S, linForm (g i) (b i) ^ m) * r ∧ (r = 0 ∨ r.totalDegree + S.card * m ≤ k) := by
  obtain ⟨r, hr⟩ := h.prod_dvd hD m S p hp
  refine ⟨r, hr, ?_⟩
  by_cases h0 : r = 0
  · exact Or.inl h0
  · right
    rw [hr, totalDegree_mul_of_isDomain (h.prod_degree hD m S).1 h0, (h.prod_degree hD m S).2] at hk
    omega

/-- A polynomial that vanishes with a transversal derivative on a hyperplane is divisible by the square of its equation. -/
theorem sq_dvd_of_normal (g : Fin D → ℝ) (b : ℝ) (n : Fin D → ℝ) (hn : ∑ j, n j * g j ≠ 0) (p : MvPolynomial (Fin D) ℝ)
    (h0 : ∀ x, eval x (linForm g b) = 0 → eval x p = 0)
    (h1 : ∀ x, eval x (linForm g b) = 0 → eval x (dirD n p) = 0) : linForm g b ^ 2 ∣ p := by
  have hg : g ≠ 0 := by rintro rfl; simp at hn
  obtain ⟨r, rfl⟩ := dvd_of_vanish g b hg p h0
  rw [pow_two]
  refine mul_dvd_mul_left _ ((linForm_dvd_iff g b hg r).2 fun x hx => ?_)
  have := h1 x hx
  rw [dirD_mul, dirD_linForm, map_add, map_mul, map_mul, hx, zero_mul, add_zero, eval_C] at this
  exact (mul_eq_zero.1 this).resolve_left hn

end
end FIAT
