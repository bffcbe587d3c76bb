/-
The divergence theorem for polynomial vector fields on a simplex, with the facets parametrized by the reference facet.
-/
import Verif.Lemmas.Facets
import Verif.Lemmas.Dirichlet
import Verif.Lemmas.Bernstein
import Verif.Lemmas.Koszul
import Verif.Lemmas.TangPull

open MeasureTheory
namespace FIAT
open MvPolynomial

/-- The barycentric coordinates of the UFC simplex. -/
def ufcBary {d : ℕ} (y : Fin d → ℝ) : Fin (d + 1) → ℝ := Fin.cons (1 - ∑ j, y j) y

/-- Dirichlet's formula with all barycentric coordinates. -/
theorem ufc_bary_cons (d a0 : ℕ) : ∀ a : Fin d → ℕ, ∫ y in convexHull ℝ (Set.range (ufcVert d)), (1 - ∑ j, y j) ^ a0 * ∏ i, y i ^ a i =
    ((a0.factorial * ∏ i, (a i).factorial : ℕ) : ℝ) / (d + (a0 + ∑ i, a i)).factorial := by
  induction a0 with
  | zero =>
    intro a
    simp only [pow_zero, one_mul, Nat.factorial_zero, zero_add]
    exact ufc_monomial d a
  | succ n ih =>
    intro a
    have h1 : ∀ y : Fin d → ℝ, (1 - ∑ j, y j) ^ (n + 1) * ∏ i, y i ^ a i =
        (1 - ∑ j, y j) ^ n * ∏ i, y i ^ a i - ∑ j, (1 - ∑ j, y j) ^ n * ∏ i, y i ^ (Function.update a j (a j + 1)) i := by
      intro y
      have : ∀ j, ∏ i, y i ^ (Function.update a j (a j + 1)) i = y j * ∏ i, y i ^ a i := by
        intro j
        rw [← Finset.mul_prod_erase _ _ (Finset.mem_univ j), ← Finset.mul_prod_erase Finset.univ (fun i => y i ^ a i) (Finset.mem_univ j),
          Function.update_self, pow_succ]
        rw [Finset.prod_congr rfl (g := fun i => y i ^ a i) fun i hi => by rw [Function.update_of_ne (Finset.ne_of_mem_erase hi)]]
        ring
      simp only [this]
      rw [← Finset.mul_sum, ← Finset.sum_mul, pow_succ]
      ring
    simp only [h1]
    have hint : ∀ b : Fin d → ℕ, IntegrableOn (fun y : Fin d → ℝ => (1 - ∑ j, y j) ^ n * ∏ i, y i ^ b i) (convexHull ℝ (Set.range (ufcVert d))) :=
      fun b => hull_integrable _ (by fun_prop)
    rw [integral_sub (hint a) (integrable_finset_sum _ fun j _ => hint _), integral_finset_sum _ fun j _ => hint _]
    simp only [ih]
    have h2 : ∀ j, ∑ i, (Function.update a j (a j + 1)) i = ∑ i, a i + 1 := by
      intro j
      rw [← Finset.add_sum_erase _ _ (Finset.mem_univ j), ← Finset.add_sum_erase Finset.univ a (Finset.mem_univ j), Function.update_self,
        Finset.sum_congr rfl (g := a) fun i hi => by rw [Function.update_of_ne (Finset.ne_of_mem_erase hi)]]
      ring
    have h3 : ∀ j, ∏ i, ((Function.update a j (a j + 1)) i).factorial = (a j + 1) * ∏ i, (a i).factorial := by
      intro j
      rw [← Finset.mul_prod_erase _ _ (Finset.mem_univ j), ← Finset.mul_prod_erase Finset.univ (fun i => (a i).factorial) (Finset.mem_univ j),
        Function.update_self, Finset.prod_congr rfl (g := fun i => (a i).factorial) fun i hi => by rw [Function.update_of_ne (Finset.ne_of_mem_erase hi)],
        Nat.factorial_succ]
      ring
    simp only [h2, h3]
    set S := ∑ i, a i with hS
    set P := ∏ i, (a i).factorial
    rw [show d + (n + (S + 1)) = (d + (n + S)) + 1 by ring, show d + (n + 1 + S) = (d + (n + S)) + 1 by ring, Nat.factorial_succ,
      Nat.factorial_succ n]
    have h4 : (((d + (n + S)).factorial : ℕ) : ℝ) ≠ 0 := by positivity
    have h5 : ((d + (n + S) + 1 : ℕ) : ℝ) ≠ 0 := by positivity
    rw [← Finset.sum_div, ← Nat.cast_sum, ← Finset.mul_sum, ← Finset.sum_mul, Finset.sum_add_distrib, ← hS, Finset.sum_const, Finset.card_univ,
      Fintype.card_fin, smul_eq_mul, mul_one]
    rw [Nat.cast_mul (d + (n + S) + 1), div_sub_div _ _ h4 (mul_ne_zero h5 h4), div_eq_div_iff (mul_ne_zero h4 (mul_ne_zero h5 h4)) (mul_ne_zero h5 h4)]
    push_cast
    ring

theorem ufc_bary_prod (d : ℕ) (a : Fin (d + 1) → ℕ) : ∫ y in convexHull ℝ (Set.range (ufcVert d)), ∏ i, ufcBary y i ^ a i =
    ((∏ i, (a i).factorial : ℕ) : ℝ) / (d + ∑ i, a i).factorial := by
  have := ufc_bary_cons d (a 0) fun i => a i.succ
  rw [Fin.prod_univ_succ, Fin.sum_univ_succ, ← this]
  refine congrArg _ (_root_.funext fun y => ?_)
  rw [Fin.prod_univ_succ]
  rfl

/-- Splitting off the index that an injective tuple avoids. -/
theorem avoid_image {d : ℕ} {τ : Fin (d + 1) → Fin (d + 2)} (hτ : Function.Injective τ) {i : Fin (d + 2)} (hi : ∀ r, τ r ≠ i) :
    Finset.univ.erase i = Finset.univ.image τ := by
  symm
  apply Finset.eq_of_subset_of_card_le
  · intro l hl
    obtain ⟨r, -, rfl⟩ := Finset.mem_image.1 hl
    exact Finset.mem_erase.2 ⟨hi r, Finset.mem_univ _⟩
  · rw [Finset.card_image_of_injective _ hτ, Finset.card_erase_of_mem (Finset.mem_univ i)]
    simp

theorem avoid_prod {d : ℕ} {M : Type} [CommMonoid M] {τ : Fin (d + 1) → Fin (d + 2)} (hτ : Function.Injective τ) {i : Fin (d + 2)}
    (hi : ∀ r, τ r ≠ i) (f : Fin (d + 2) → M) : ∏ l, f l = f i * ∏ r, f (τ r) := by
  rw [← Finset.mul_prod_erase _ _ (Finset.mem_univ i), avoid_image hτ hi, Finset.prod_image fun a _ b _ h => hτ h]

theorem avoid_sum {d : ℕ} {M : Type} [AddCommMonoid M] {τ : Fin (d + 1) → Fin (d + 2)} (hτ : Function.Injective τ) {i : Fin (d + 2)}
    (hi : ∀ r, τ r ≠ i) (f : Fin (d + 2) → M) : ∑ l, f l = f i + ∑ r, f (τ r) := by
  rw [← Finset.add_sum_erase _ _ (Finset.mem_univ i), avoid_image hτ hi, Finset.sum_image fun a _ b _ h => hτ h]

theorem ufc_entMap_bary {D d : ℕ} (vc : Fin (d + 1) → Fin D → ℝ) (y : Fin d → ℝ) : entMap vc y = ∑ r, ufcBary y r • vc r := by
  rw [entMap_comb, Fin.sum_univ_succ]
  rfl

theorem ufcBary_sum {d : ℕ} (y : Fin d → ℝ) : ∑ r, ufcBary y r = 1 := by
  rw [Fin.sum_univ_succ]
  show (1 - ∑ j, y j) + ∑ j, y j = 1
  ring

/-- The integral of a monomial over a facet of the UFC simplex. -/
theorem facet_monomial {d : ℕ} {τ : Fin (d + 1) → Fin (d + 2)} (hτ : Function.Injective τ) {i : Fin (d + 2)} (hi : ∀ r, τ r ≠ i)
    (m : Fin (d + 1) → ℕ) : ∫ y in convexHull ℝ (Set.range (ufcVert d)), ∏ j, (entMap (fun r => ufcVert (d + 1) (τ r)) y) j ^ m j =
      if (Fin.cons 0 m : Fin (d + 2) → ℕ) i = 0 then ((∏ j, (m j).factorial : ℕ) : ℝ) / (d + ∑ j, m j).factorial else 0 := by
  set M : Fin (d + 2) → ℕ := Fin.cons 0 m with hM
  have hMs : ∀ j : Fin (d + 1), M j.succ = m j := fun j => rfl
  -- the coordinates of a point of the facet
  have hc : ∀ (y : Fin d → ℝ) (j : Fin (d + 1)), (entMap (fun r => ufcVert (d + 1) (τ r)) y) j = ∑ r, if τ r = j.succ then ufcBary y r else 0 := by
    intro y j
    rw [ufc_entMap_bary, Finset.sum_apply]
    refine Finset.sum_congr rfl fun r _ => ?_
    simp only [Pi.smul_apply, ufcVert, smul_eq_mul]
    by_cases h : τ r = j.succ
    · rw [if_pos h, if_pos (by rw [h]; rfl), mul_one]
    · rw [if_neg h, if_neg (fun h' => h (Fin.ext (by rw [← h']; rfl))), mul_zero]
  have hp : ∀ y : Fin d → ℝ, ∏ j, (entMap (fun r => ufcVert (d + 1) (τ r)) y) j ^ m j = (0 : ℝ) ^ M i * ∏ r, ufcBary y r ^ M (τ r) := by
    intro y
    have h1 : ∏ j, (entMap (fun r => ufcVert (d + 1) (τ r)) y) j ^ m j = ∏ l, (∑ r, if τ r = l then ufcBary y r else 0) ^ M l := by
      rw [Fin.prod_univ_succ fun l => (∑ r, if τ r = l then ufcBary y r else 0) ^ M l]
      have : M 0 = 0 := rfl
      rw [this, pow_zero, one_mul]
      exact Finset.prod_congr rfl fun j _ => by rw [hc, hMs]
    rw [h1, avoid_prod hτ hi]
    congr 1
    · rw [Finset.sum_eq_zero fun r _ => if_neg (hi r)]
    · refine Finset.prod_congr rfl fun r _ => ?_
      congr 1
      rw [Finset.sum_eq_single r (fun r' _ h => if_neg fun h' => h (hτ h')) (by simp), if_pos rfl]
  simp only [hp]
  rw [integral_const_mul, ufc_bary_prod]
  split_ifs with h
  · rw [h, pow_zero, one_mul]
    have h1 : ∏ j, (m j).factorial = ∏ r, (M (τ r)).factorial := by
      have h2 := avoid_prod hτ hi fun l => (M l).factorial
      rw [Fin.prod_univ_succ, h] at h2
      have : M 0 = 0 := rfl
      rw [this] at h2
      simpa only [hMs, Nat.factorial_zero, one_mul] using h2
    have h3 : ∑ j, m j = ∑ r, M (τ r) := by
      have h2 := avoid_sum hτ hi M
      rw [Fin.sum_univ_succ, h] at h2
      have : M 0 = 0 := rfl
      rw [this] at h2
      simpa only [hMs, zero_add] using h2
    rw [h1, h3]
  · rw [zero_pow h, zero_mul]

theorem eval_monomial' {n : ℕ} (m : Fin n →₀ ℕ) (a : ℝ) (x : Fin n → ℝ) : eval x (monomial m a) = a * ∏ i, x i ^ m i := by
  rw [eval_monomial, Finsupp.prod_fintype _ _ (by simp)]

/-- The fundamental theorem on the UFC simplex. -/
theorem ufc_derivative {d : ℕ} (j : Fin (d + 1)) (τ0 τj : Fin (d + 1) → Fin (d + 2)) (h0 : Function.Injective τ0) (a0 : ∀ r, τ0 r ≠ 0)
    (hj : Function.Injective τj) (aj : ∀ r, τj r ≠ j.succ) (p : MvPolynomial (Fin (d + 1)) ℝ) :
    ∫ y in convexHull ℝ (Set.range (ufcVert (d + 1))), eval y (pderiv j p) =
      (∫ y in convexHull ℝ (Set.range (ufcVert d)), eval (entMap (fun r => ufcVert (d + 1) (τ0 r)) y) p) -
        ∫ y in convexHull ℝ (Set.range (ufcVert d)), eval (entMap (fun r => ufcVert (d + 1) (τj r)) y) p := by
  have hcont : ∀ τ : Fin (d + 1) → Fin (d + 2), Continuous fun y : Fin d → ℝ => entMap (fun r => ufcVert (d + 1) (τ r)) y := by
    intro τ; unfold entMap; fun_prop
  have hi1 : ∀ p : MvPolynomial (Fin (d + 1)) ℝ, IntegrableOn (fun y => eval y p) (convexHull ℝ (Set.range (ufcVert (d + 1)))) :=
    fun p => hull_integrable _ (MvPolynomial.continuous_eval p)
  have hi2 : ∀ (τ : Fin (d + 1) → Fin (d + 2)) (p : MvPolynomial (Fin (d + 1)) ℝ), IntegrableOn (fun y => eval (entMap (fun r => ufcVert (d + 1) (τ r)) y) p)
      (convexHull ℝ (Set.range (ufcVert d))) := fun τ p => hull_integrable _ ((MvPolynomial.continuous_eval p).comp (hcont τ))
  induction p using MvPolynomial.induction_on' with
  | add p q hp hq =>
    simp only [map_add]
    rw [integral_add (hi1 _) (hi1 _), integral_add (hi2 _ _) (hi2 _ _), integral_add (hi2 _ _) (hi2 _ _), hp, hq]
    ring
  | monomial m a =>
    rw [pderiv_monomial]
    simp only [eval_monomial']
    rw [integral_const_mul, integral_const_mul, integral_const_mul, ufc_monomial, facet_monomial h0 a0, facet_monomial hj aj,
      Fin.cons_zero, if_pos rfl, Fin.cons_succ]
    by_cases hm : m j = 0
    · rw [if_pos hm, hm]; simp
    · rw [if_neg hm]
      obtain ⟨n, hn⟩ := Nat.exists_eq_succ_of_ne_zero hm
      have e1 : ∀ i, (m - Finsupp.single j 1 : Fin (d + 1) →₀ ℕ) i = Function.update m j n i := by
        intro i
        by_cases h : i = j
        · subst h; rw [Function.update_self]; simp [hn]
        · rw [Function.update_of_ne h]; simp [Finsupp.single_apply, Ne.symm h]
      simp only [e1]
      have hu : ∀ i ∈ Finset.univ.erase j, Function.update (⇑m) j n i = m i := fun i hi => Function.update_of_ne (Finset.ne_of_mem_erase hi) _ _
      have e2 : ∑ i, Function.update (⇑m) j n i + 1 = ∑ i, m i := by
        have s1 := Finset.add_sum_erase Finset.univ (Function.update (⇑m) j n) (Finset.mem_univ j)
        have s2 := Finset.add_sum_erase Finset.univ (fun i => m i) (Finset.mem_univ j)
        rw [Finset.sum_congr rfl hu, Function.update_self] at s1
        rw [← s1, ← s2, hn]
        exact add_right_comm n _ 1
      have e3 : ∏ i, (m i).factorial = (n + 1) * ∏ i, (Function.update (⇑m) j n i).factorial := by
        have s1 := Finset.mul_prod_erase Finset.univ (fun i => (Function.update (⇑m) j n i).factorial) (Finset.mem_univ j)
        have s2 := Finset.mul_prod_erase Finset.univ (fun i => (m i).factorial) (Finset.mem_univ j)
        rw [Finset.prod_congr rfl (fun i hi => congrArg Nat.factorial (hu i hi)), Function.update_self] at s1
        rw [← s1, ← s2, hn, Nat.succ_eq_add_one, Nat.factorial_succ]
        ring
      rw [e3, ← e2, hn, show d + 1 + ∑ i, Function.update (⇑m) j n i = d + (∑ i, Function.update (⇑m) j n i + 1) by ring]
      push_cast
      ring

/-- The integral over a simplex, pulled back to the UFC simplex. -/
theorem hull_pull {d : ℕ} (v : Fin (d + 1) → Fin d → ℝ) (hdet : (edgeMatrix v).det ≠ 0) (f : (Fin d → ℝ) → ℝ) :
    ∫ x in convexHull ℝ (Set.range v), f x = |(edgeMatrix v).det| * ∫ y in convexHull ℝ (Set.range (ufcVert d)), f (entMap v y) := by
  have hmap : ∀ x : Fin d → ℝ, affineApply ((1 / 2 : ℝ) • edgeMatrix v) (fun l => v 0 l + (∑ j : Fin d, (v j.succ l - v 0 l)) / 2) x =
      entMap v fun i => (x i + 1) / 2 := by
    intro x
    funext l
    simp only [affineApply, entMap, edgeMatrix, Matrix.mulVec, dotProduct, Pi.add_apply, Finset.sum_apply, Pi.smul_apply, Pi.sub_apply,
      smul_eq_mul, Matrix.smul_apply, Matrix.of_apply]
    rw [Finset.sum_div, add_comm, add_assoc, ← Finset.sum_add_distrib]
    congr 1
    exact Finset.sum_congr rfl fun j _ => by ring
  have h1 := integral_simplex v ((1 / 2 : ℝ) • edgeMatrix v) (fun l => v 0 l + (∑ j : Fin d, (v j.succ l - v 0 l)) / 2) (by
      intro i
      have := hmap (dvert d i)
      unfold affineApply at this
      rw [this, ufc_entMap_bary]
      have hb : ufcBary (fun l => (dvert d i l + 1) / 2) = Pi.single i 1 := by
        have hs : ∀ l, (dvert d i l + 1) / 2 = if (l : ℕ) + 1 = i then 1 else 0 := by
          intro l; unfold dvert; split_ifs <;> norm_num
        simp only [hs]
        funext r
        refine Fin.cases ?_ (fun l => ?_) r
        · show 1 - ∑ l : Fin d, (if (l : ℕ) + 1 = i then (1 : ℝ) else 0) = _
          refine Fin.cases ?_ (fun i => ?_) i
          · rw [Finset.sum_eq_zero fun l _ => if_neg (by simp)]; simp
          · have : ∀ l : Fin d, (if (l : ℕ) + 1 = (i.succ : Fin (d + 1)) then (1 : ℝ) else 0) = if l = i then 1 else 0 := by
              intro l; congr 1; rw [Fin.val_succ, Nat.succ_inj, Fin.ext_iff]
            rw [Finset.sum_congr rfl fun l _ => this l, Finset.sum_ite_eq' Finset.univ i, if_pos (Finset.mem_univ _), sub_self, Pi.single_apply,
              if_neg (Fin.succ_ne_zero i).symm]
        · show (if (l : ℕ) + 1 = i then (1 : ℝ) else 0) = _
          rw [Pi.single_apply]
          congr 1
          rw [Fin.ext_iff, Fin.val_succ]
      rw [hb]
      simp [Pi.single_apply, Finset.sum_ite_eq']) (by
      rw [Matrix.det_smul]
      simp [hdet]) f
  rw [h1, ufc_integral]
  simp only [hmap]
  rw [Matrix.det_smul, abs_mul, abs_of_nonneg (by positivity), Fintype.card_fin]
  ring

/-- Composition of the parametrizations of a facet and of the simplex. -/
theorem entMap_comp {D d n : ℕ} (v : Fin (n + 1) → Fin D → ℝ) (τ : Fin (d + 1) → Fin (n + 1)) (y : Fin d → ℝ) :
    entMap v (entMap (fun r => ufcVert n (τ r)) y) = entMap (fun r => v (τ r)) y := by
  rw [ufc_entMap_bary (fun r => v (τ r)), ufc_entMap_bary (fun r => ufcVert n (τ r)), entMap_comb]
  have hv : ∀ l : Fin (n + 1), v l = v 0 + ∑ j : Fin n, ufcVert n l j • (v j.succ - v 0) := by
    intro l
    refine Fin.cases ?_ (fun i => ?_) l
    · simp [ufcVert_zero]
    · have : ∀ j : Fin n, ufcVert n i.succ j = if j = i then 1 else 0 := by
        intro j; unfold ufcVert; congr 1; rw [Fin.val_succ, Nat.succ_inj, Fin.ext_iff]
      simp [this]
  have h1 : ∑ r, ufcBary y r • v (τ r) = v 0 + ∑ j : Fin n, (∑ r, ufcBary y r * ufcVert n (τ r) j) • (v j.succ - v 0) := by
    rw [Finset.sum_congr rfl fun r _ => by rw [hv (τ r), smul_add], Finset.sum_add_distrib, ← Finset.sum_smul, ufcBary_sum, one_smul]
    congr 1
    simp only [Finset.smul_sum, smul_smul]
    rw [Finset.sum_comm]
    exact Finset.sum_congr rfl fun j _ => (Finset.sum_smul ..).symm
  rw [h1, Finset.sum_congr rfl fun j _ => smul_sub _ _ _, Finset.sum_sub_distrib, ← Finset.sum_smul]
  simp only [Finset.sum_apply, Pi.smul_apply, smul_eq_mul, sub_smul, one_smul]
  abel

/-- The divergence theorem: `g i` is the gradient of the barycentric coordinate of vertex `i`, a multiple of the normal of the facet that
`τ i` enumerates. -/
theorem divergence_theorem {d : ℕ} (v : Fin (d + 2) → Fin (d + 1) → ℝ) (hdet : (edgeMatrix v).det ≠ 0) {g : Fin (d + 2) → Fin (d + 1) → ℝ}
    {b : Fin (d + 2) → ℝ} (hb : BaryForms v g b) (τ : Fin (d + 2) → Fin (d + 1) → Fin (d + 2)) (hτ : ∀ i, Function.Injective (τ i))
    (ha : ∀ i r, τ i r ≠ i) (w : Fin (d + 1) → MvPolynomial (Fin (d + 1)) ℝ) :
    ∫ x in convexHull ℝ (Set.range v), eval x (divergence w) =
      -|(edgeMatrix v).det| * ∑ i, ∫ y in convexHull ℝ (Set.range (ufcVert d)), ∑ j, g i j * eval (entMap (fun r => v (τ i r)) y) (w j) := by
  have hcont : ∀ τ : Fin (d + 1) → Fin (d + 2), Continuous fun y : Fin d → ℝ => entMap (fun r => v (τ r)) y := by
    intro τ; unfold entMap; fun_prop
  have hi2 : ∀ (τ : Fin (d + 1) → Fin (d + 2)) (p : MvPolynomial (Fin (d + 1)) ℝ), IntegrableOn (fun y => eval (entMap (fun r => v (τ r)) y) p)
      (convexHull ℝ (Set.range (ufcVert d))) := fun τ p => hull_integrable _ ((MvPolynomial.continuous_eval p).comp (hcont τ))
  set P : Fin (d + 1) → MvPolynomial (Fin (d + 1)) ℝ := fun j => pullback (v 0) (fun i => v i.succ) (w j) with hP
  -- derivatives of the pullback
  have hder : ∀ j l, pderiv l (P j) = ∑ m, C (v l.succ m - v 0 m) * pullback (v 0) (fun i => v i.succ) (pderiv m (w j)) := by
    intro j l
    refine pderiv_aeval _ l (fun m => v l.succ m - v 0 m) (fun m => ?_) (w j)
    rw [map_add, pderiv_C, zero_add, map_sum, Finset.sum_eq_single l]
    · rw [pderiv_C_mul, pderiv_X_self, mul_one]
    · intro i _ hi; rw [pderiv_C_mul, pderiv_X_of_ne hi, mul_zero]
    · simp
  have hg0 : ∀ m, ∑ i, g i m = 0 := by
    intro m
    have h1 := hb.sum_one (Pi.single m 1)
    have h0 := hb.sum_one 0
    simp only [eval_linForm, Finset.sum_add_distrib, Pi.zero_apply, mul_zero, Finset.sum_const_zero, add_zero] at h1 h0
    rw [h0] at h1
    simpa [Pi.single_apply] using h1
  have hid : ∀ m m', ∑ l : Fin (d + 1), g l.succ m * (v l.succ m' - v 0 m') = if m' = m then 1 else 0 := by
    intro m m'
    have h1 := congrFun (hb.vector (Pi.single m 1)) m'
    rw [Finset.sum_apply, Fin.sum_univ_succ] at h1
    have h2 := hg0 m
    rw [Fin.sum_univ_succ] at h2
    simp only [Pi.single_apply, mul_ite, mul_one, mul_zero, Finset.sum_ite_eq', Finset.mem_univ, if_true, Pi.smul_apply, smul_eq_mul] at h1
    rw [← h1]
    simp only [mul_sub, Finset.sum_sub_distrib, ← Finset.sum_mul]
    rw [show ∑ l : Fin (d + 1), g l.succ m = - g 0 m by linarith]
    ring
  have hdiv : ∀ y, eval (entMap v y) (divergence w) = ∑ m, ∑ l : Fin (d + 1), g l.succ m * eval y (pderiv l (P m)) := by
    intro y
    unfold divergence
    rw [map_sum]
    refine Finset.sum_congr rfl fun m _ => ?_
    have h1 : ∀ l : Fin (d + 1), g l.succ m * eval y (pderiv l (P m)) = ∑ m', g l.succ m * (v l.succ m' - v 0 m') * eval (entMap v y) (pderiv m' (w m)) := by
      intro l
      rw [hder, map_sum, Finset.mul_sum]
      exact Finset.sum_congr rfl fun m' _ => by rw [map_mul, eval_C, eval_pull, mul_assoc]
    rw [Finset.sum_congr rfl fun l _ => h1 l, Finset.sum_comm]
    simp only [← Finset.sum_mul, hid]
    simp
  rw [hull_pull v hdet]
  simp only [hdiv]
  have hi1 : ∀ p : MvPolynomial (Fin (d + 1)) ℝ, IntegrableOn (fun y => eval y p) (convexHull ℝ (Set.range (ufcVert (d + 1)))) :=
    fun p => hull_integrable _ (MvPolynomial.continuous_eval p)
  rw [integral_finset_sum _ fun m _ => integrable_finset_sum _ fun l _ => (hi1 _).const_mul _]
  have hm : ∀ m, ∫ y in convexHull ℝ (Set.range (ufcVert (d + 1))), ∑ l : Fin (d + 1), g l.succ m * eval y (pderiv l (P m)) =
      - ∑ i, g i m * ∫ y in convexHull ℝ (Set.range (ufcVert d)), eval (entMap (fun r => v (τ i r)) y) (w m) := by
    intro m
    rw [integral_finset_sum _ fun l _ => (hi1 _).const_mul _]
    have : ∀ l : Fin (d + 1), ∫ y in convexHull ℝ (Set.range (ufcVert (d + 1))), g l.succ m * eval y (pderiv l (P m)) =
        g l.succ m * (∫ y in convexHull ℝ (Set.range (ufcVert d)), eval (entMap (fun r => v (τ 0 r)) y) (w m)) -
          g l.succ m * ∫ y in convexHull ℝ (Set.range (ufcVert d)), eval (entMap (fun r => v (τ l.succ r)) y) (w m) := by
      intro l
      rw [integral_const_mul, ufc_derivative l (τ 0) (τ l.succ) (hτ _) (ha _) (hτ _) (ha _)]
      simp only [hP, eval_pull, entMap_comp]
      ring
    rw [Finset.sum_congr rfl fun l _ => this l, Finset.sum_sub_distrib, ← Finset.sum_mul, Fin.sum_univ_succ fun i => g i m * _]
    have h2 := hg0 m
    rw [Fin.sum_univ_succ] at h2
    rw [show ∑ l : Fin (d + 1), g l.succ m = - g 0 m by linarith]
    ring
  rw [Finset.sum_congr rfl fun m _ => hm m, Finset.sum_neg_distrib, Finset.sum_comm]
  have : ∀ i, ∫ y in convexHull ℝ (Set.range (ufcVert d)), ∑ j, g i j * eval (entMap (fun r => v (τ i r)) y) (w j) =
      ∑ j, g i j * ∫ y in convexHull ℝ (Set.range (ufcVert d)), eval (entMap (fun r => v (τ i r)) y) (w j) := by
    intro i
    rw [integral_finset_sum _ fun l _ => (hi2 _ _).const_mul _]
    exact Finset.sum_congr rfl fun j _ => integral_const_mul _ _
  simp only [this]
  ring

end FIAT
