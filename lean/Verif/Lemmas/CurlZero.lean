/-
Unisolvence of the interior degrees of freedom of the Nedelec and Brezzi-Douglas-Marini elements; dimension of the Nedelec space.
-/
import Verif.Lemmas.CurlCore

namespace FIAT
open MvPolynomial MeasureTheory

section
variable {D : ℕ} {v : Fin (D + 1) → Fin D → ℝ} {g : Fin (D + 1) → Fin D → ℝ} {b : Fin (D + 1) → ℝ}

/-- The tangential components of `u` vanish on every facet. -/
def TangZero (v : Fin (D + 1) → Fin D → ℝ) (g : Fin (D + 1) → Fin D → ℝ) (b : Fin (D + 1) → ℝ)
    (u : Fin D → MvPolynomial (Fin D) ℝ) : Prop :=
  ∀ a a' c, c ≠ a → c ≠ a' → ∀ x, eval x (linForm (g c) (b c)) = 0 → eval x (dotC (v a) u) = eval x (dotC (v a') u)

theorem curl_degree (hD : 2 ≤ D) (hb : BaryForms v g b) {k : ℕ} {u : Fin D → MvPolynomial (Fin D) ℝ} (hu : IsNed k u)
    {P : Fin (D + 1) → MvPolynomial (Fin D) ℝ}
    (hP : ∀ a, dotC (v a) u - dotX u = baryProd g b (Finset.univ.erase a) * P a) (a : Fin (D + 1)) :
    P a = 0 ∨ (P a).totalDegree + (D - 1) ≤ k := by
  obtain ⟨h1, h2⟩ := ned_dotX hu
  have h3 : (dotC (v a) u - dotX u).totalDegree ≤ k + 1 :=
    pdeg_sub (sum_degree _ _ _ fun j _ => Cmul_degree _ (h1 j)) h2
  rw [hP a] at h3
  rcases degree_of_baryProd (by omega) hb _ _ _ h3 with h | h
  · exact Or.inl h
  · right
    rw [Finset.card_erase_of_mem (Finset.mem_univ a), Finset.card_univ, Fintype.card_fin] at h
    omega

theorem integral_comb {ι : Type} (s : Finset ι) (F : ι → MvPolynomial (Fin D) ℝ)
    (h : ∀ i ∈ s, ∫ x in convexHull ℝ (Set.range v), eval x (F i) = 0) :
    ∫ x in convexHull ℝ (Set.range v), eval x (∑ i ∈ s, F i) = 0 := by
  simp only [map_sum]
  rw [integral_finsetSum _ fun i _ => (integrable_hull v _ (F i).continuous_eval)]
  exact Finset.sum_eq_zero h

/-- First kind, interior moments. -/
theorem ned1_moments_core (hD : 2 ≤ D) (hb : BaryForms v g b) (hvs : AffineIndependent ℝ v) {k : ℕ}
    {u : Fin D → MvPolynomial (Fin D) ℝ} (hu : IsNed k u) (htz : TangZero v g b u)
    (hz : ∀ p : MvPolynomial (Fin D) ℝ, p.totalDegree + (D - 1) ≤ k → ∀ j,
      ∫ x in convexHull ℝ (Set.range v), eval x (u j * p) = 0) : u = 0 := by
  obtain ⟨P, h1, -, -, -, -, h6⟩ := curl_structure hD hb hvs u (k + 1) (ned_dotX hu).1 htz
  apply h6
  have e : ∑ l, u l * ∑ a, C (v a l) * P a = ∑ l, ∑ a, u l * (C (v a l) * P a) :=
    Finset.sum_congr rfl fun l _ => Finset.mul_sum ..
  rw [e]
  refine integral_comb _ _ fun l _ => integral_comb _ _ fun a _ => ?_
  rcases curl_degree hD hb hu h1 a with h | h
  · rw [h]; simp
  · have := hz (P a) h l
    have e2 : ∀ x, eval x (u l * (C (v a l) * P a)) = v a l * eval x (u l * P a) := by
      intro x
      simp only [map_mul, eval_C]; ring
    simp only [e2]
    rw [integral_const_mul, this, mul_zero]

/-- First kind, values at interior points. -/
theorem ned1_points_core (hD : 2 ≤ D) (hb : BaryForms v g b) (hvs : AffineIndependent ℝ v) {k : ℕ}
    {u : Fin D → MvPolynomial (Fin D) ℝ} (hu : IsNed k u) (htz : TangZero v g b u)
    (pts : List (Fin D → ℝ)) (hpts : ∀ x ∈ pts, ∀ i, eval x (linForm (g i) (b i)) ≠ 0)
    (huni : ∀ p : MvPolynomial (Fin D) ℝ, p.totalDegree + (D - 1) ≤ k → (∀ x ∈ pts, eval x p = 0) → p = 0)
    (hz : ∀ x ∈ pts, ∀ j, eval x (u j) = 0) : u = 0 := by
  obtain ⟨P, h1, -, -, -, h5, -⟩ := curl_structure hD hb hvs u (k + 1) (ned_dotX hu).1 htz
  apply h5
  intro a
  rcases curl_degree hD hb hu h1 a with h | h
  · exact h
  · refine huni _ h fun x hx => ?_
    have h2 := congrArg (eval x) (h1 a)
    rw [map_mul, map_sub] at h2
    have h3 : eval x (dotC (v a) u) = 0 := by
      unfold dotC
      rw [map_sum]
      exact Finset.sum_eq_zero fun j _ => by rw [map_mul, hz x hx j, mul_zero]
    have h4 : eval x (dotX u) = 0 := by
      unfold dotX
      rw [map_sum]
      exact Finset.sum_eq_zero fun j _ => by rw [map_mul, hz x hx j, mul_zero]
    rw [h3, h4, sub_zero] at h2
    refine (mul_eq_zero.1 h2.symm).resolve_left ?_
    unfold baryProd
    rw [map_prod]
    exact Finset.prod_ne_zero_iff.2 fun i _ => hpts x hx i

/-- Second kind: moments against the Raviart-Thomas space. -/
theorem ned2_core (hD : 2 ≤ D) (hb : BaryForms v g b) (hvs : AffineIndependent ℝ v) {k : ℕ}
    {u : Fin D → MvPolynomial (Fin D) ℝ} (hu : ∀ j, (u j).totalDegree ≤ k) (htz : TangZero v g b u)
    (hz : ∀ p : Fin D → MvPolynomial (Fin D) ℝ, D ≤ k → IsRT (k - D) p →
      ∫ x in convexHull ℝ (Set.range v), eval x (∑ l, u l * p l) = 0) : u = 0 := by
  obtain ⟨P, h1, h2, h3, h4, h5, h6⟩ := curl_structure hD hb hvs u k hu htz
  by_cases hk : D ≤ k
  · apply h6
    refine hz _ hk (rt_of_degree (by omega) (fun l => ?_) fun i j => ?_)
    · refine sum_degree _ _ _ fun a _ => Cmul_degree _ ?_
      rcases h2 a with h | h
      · rw [h]; simp
      · omega
    · have e : X i * ∑ a, C (v a j) * P a - X j * ∑ a, C (v a i) * P a =
          C (1 / 2 : ℝ) * ∑ a, ∑ c, C (v a i * v c j - v a j * v c i) *
            (- (linForm (g c) (b c) * P a - linForm (g a) (b a) * P c)) := by
        have e1 : ∀ i j, X i * ∑ a, C (v a j) * P a = ∑ a, ∑ c, linForm (g a) (b a) * C (v a i) * (C (v c j) * P c) := by
          intro i j
          rw [← hb.coord i, Finset.sum_mul]
          exact Finset.sum_congr rfl fun a _ => Finset.mul_sum ..
        have e2 : ∑ a, ∑ c, C (v a i * v c j - v a j * v c i) * (- (linForm (g c) (b c) * P a - linForm (g a) (b a) * P c)) =
            2 * (X i * ∑ a, C (v a j) * P a - X j * ∑ a, C (v a i) * P a) := by
          have e3 : ∑ a, ∑ c, C (v a i * v c j - v a j * v c i) * (linForm (g a) (b a) * P c) =
              X i * ∑ a, C (v a j) * P a - X j * ∑ a, C (v a i) * P a := by
            rw [e1 i j, e1 j i, ← Finset.sum_sub_distrib]
            refine Finset.sum_congr rfl fun a _ => ?_
            rw [← Finset.sum_sub_distrib]
            refine Finset.sum_congr rfl fun c _ => ?_
            simp only [C_sub, C_mul]; ring
          have e4 : ∑ a, ∑ c, C (v a i * v c j - v a j * v c i) * (- (linForm (g c) (b c) * P a)) =
              ∑ a, ∑ c, C (v a i * v c j - v a j * v c i) * (linForm (g a) (b a) * P c) := by
            rw [Finset.sum_comm]
            refine Finset.sum_congr rfl fun a _ => Finset.sum_congr rfl fun c _ => ?_
            simp only [C_sub, C_mul]; ring
          rw [two_mul, ← e3]
          conv_rhs => congr; · rw [← e4]
                      · skip
          rw [← Finset.sum_add_distrib]
          refine Finset.sum_congr rfl fun a _ => ?_
          rw [← Finset.sum_add_distrib]
          refine Finset.sum_congr rfl fun c _ => ?_
          ring
        rw [e2, ← mul_assoc]
        have : C (1 / 2 : ℝ) * (2 : MvPolynomial (Fin D) ℝ) = 1 := by
          rw [← (map_ofNat C 2 : (C 2 : MvPolynomial (Fin D) ℝ) = 2), ← C_mul]; norm_num
        rw [this, one_mul]
      rw [e]
      refine Cmul_degree _ (sum_degree _ _ _ fun a _ => sum_degree _ _ _ fun c _ => Cmul_degree _ ?_)
      rw [totalDegree_neg]
      rcases h3 a c with h | h
      · rw [h]; simp
      · omega
  · apply h5
    intro a
    -- constants
    have hc0 : ∀ a, ∃ r, P a = C r := by
      intro a
      rcases h2 a with h | h
      · exact ⟨0, by rw [h, C_0]⟩
      · exact ⟨_, totalDegree_eq_zero_iff_eq_C.1 (by omega)⟩
    haveI : Nontrivial (Fin (D + 1)) := Fin.nontrivial_iff_two_le.2 (by omega)
    obtain ⟨c, hc⟩ := exists_ne a
    obtain ⟨e, he⟩ : ∃ e : Fin (D + 1), e ∉ ({a, c} : Finset (Fin (D + 1))) := by
      by_contra hcon
      push Not at hcon
      have := Finset.card_le_card (fun x _ => hcon x : (Finset.univ : Finset (Fin (D + 1))) ⊆ {a, c})
      rw [Finset.card_univ, Fintype.card_fin] at this
      have := this.trans Finset.card_le_two
      omega
    rw [Finset.mem_insert, Finset.mem_singleton, not_or] at he
    obtain ⟨r, hr⟩ := hc0 a
    obtain ⟨r', hr'⟩ := hc0 c
    have hconst : ∃ q, linForm (g c) (b c) * P a - linForm (g a) (b a) * P c = C q := by
      rcases h3 a c with h | h
      · exact ⟨0, by rw [h, C_0]⟩
      · exact ⟨_, totalDegree_eq_zero_iff_eq_C.1 (by omega)⟩
    obtain ⟨q, hq⟩ := hconst
    rw [hr, hr'] at hq
    have q1 := congrArg (eval (v e)) hq
    have q2 := congrArg (eval (v c)) hq
    simp only [map_sub, map_mul, eval_C, hb.at_vertex] at q1 q2
    rw [if_neg (fun h => he.2 h.symm), if_neg (fun h => he.1 h.symm)] at q1
    rw [if_pos trivial, if_neg hc.symm] at q2
    rw [hr, show r = 0 by linarith, C_0]

/-- Brezzi-Douglas-Marini: moments against the Nedelec space. -/
theorem bdm_core (hD : 1 ≤ D) (hb : BaryForms v g b) (hvs : AffineIndependent ℝ v) {k : ℕ}
    {u : Fin D → MvPolynomial (Fin D) ℝ} (hu : ∀ j, (u j).totalDegree ≤ k)
    (h0 : ∀ i x, eval x (linForm (g i) (b i)) = 0 → eval x (dotC (g i) u) = 0)
    (hz : ∀ p : Fin D → MvPolynomial (Fin D) ℝ, 2 ≤ k → IsNed (k - 2) p →
      ∫ x in convexHull ℝ (Set.range v), eval x (∑ l, u l * p l) = 0) : u = 0 := by
  choose s hs using fun i => dvd_of_vanish (g i) (b i) (hb.ne_zero hD i) (dotC (g i) u) (h0 i)
  have hU : ∀ i, (dotC (g i) u).totalDegree ≤ k := fun a => sum_degree _ _ _ fun j _ => Cmul_degree _ (hu j)
  have hsd : ∀ i, s i = 0 ∨ (s i).totalDegree + 1 ≤ k := fun i =>
    degree_of_linForm_mul (g i) (b i) (hb.ne_zero hD i) (s i) k (by rw [← hs i]; exact hU i)
  have hsum : ∑ i, linForm (g i) (b i) * s i = 0 := by
    simp only [← hs]
    unfold dotC
    rw [Finset.sum_comm]
    refine Finset.sum_eq_zero fun j _ => ?_
    rw [← Finset.sum_mul, ← map_sum, hb.grad_sum, map_zero, zero_mul]
  have hall : (∀ i, s i = 0) → u = 0 := fun h => hb.all_zero u fun i => by rw [hs i, h i, mul_zero]
  by_cases hk : 2 ≤ k
  · have hp : IsNed (k - 2) fun l => ∑ i, C (g i l) * s i := by
      refine ned_of_degree (fun l => sum_degree _ _ _ fun i _ => Cmul_degree _ ?_) ?_
      · rcases hsd i with h | h
        · rw [h]; simp
        · omega
      · have e : dotX (fun l => ∑ i, C (g i l) * s i) = - ∑ i, C (b i) * s i := by
          have e1 : dotX (fun l => ∑ i, C (g i l) * s i) = ∑ i, (linForm (g i) (b i) - C (b i)) * s i := by
            unfold dotX linForm
            simp only [Finset.mul_sum]
            rw [Finset.sum_comm]
            refine Finset.sum_congr rfl fun i _ => ?_
            rw [add_sub_cancel_left, Finset.sum_mul]
            exact Finset.sum_congr rfl fun l _ => by ring
          rw [e1]
          simp only [sub_mul, Finset.sum_sub_distrib]
          rw [hsum, zero_sub]
        rw [e, totalDegree_neg]
        refine sum_degree _ _ _ fun i _ => Cmul_degree _ ?_
        rcases hsd i with h | h
        · rw [h]; simp
        · omega
    have h1 := hz _ hk hp
    have e : ∑ l, u l * ∑ i, C (g i l) * s i = ∑ i, linForm (g i) (b i) * s i ^ 2 := by
      have : ∀ i, linForm (g i) (b i) * s i ^ 2 = dotC (g i) u * s i := fun i => by rw [hs i]; ring
      simp only [this]
      unfold dotC
      simp only [Finset.mul_sum, Finset.sum_mul]
      rw [Finset.sum_comm]
      exact Finset.sum_congr rfl fun i _ => Finset.sum_congr rfl fun l _ => by ring
    rw [e] at h1
    have hint : ∀ i, IntegrableOn (fun x => eval x (linForm (g i) (b i) * s i ^ 2)) (convexHull ℝ (Set.range v)) := fun i =>
      integrable_hull v _ (linForm (g i) (b i) * s i ^ 2).continuous_eval
    have hnn : ∀ i, ∀ x ∈ convexHull ℝ (Set.range v), 0 ≤ eval x (linForm (g i) (b i) * s i ^ 2) := by
      intro i x hx
      rw [map_mul, map_pow]
      exact mul_nonneg (hb.nonneg i x hx) (sq_nonneg _)
    have hm : MeasurableSet (convexHull ℝ (Set.range v)) :=
      (Set.Finite.isCompact_convexHull ℝ (Set.finite_range v)).isClosed.measurableSet
    simp only [map_sum] at h1
    rw [integral_finsetSum _ fun i _ => hint i] at h1
    apply hall
    intro i
    have h3 := (Finset.sum_eq_zero_iff_of_nonneg fun i _ => setIntegral_nonneg hm (hnn i)).1 h1 i (Finset.mem_univ i)
    have h5 := poly_zero_of_integral v hvs _ (hnn i) h3
    have h6 := (mul_eq_zero.1 h5).resolve_left (linForm_ne_zero _ _ (hb.ne_zero hD i))
    exact pow_eq_zero_iff (two_ne_zero) |>.1 h6
  · apply hall
    intro i
    have hc0 : ∀ a, ∃ r, s a = C r := by
      intro a
      rcases hsd a with h | h
      · exact ⟨0, by rw [h, C_0]⟩
      · exact ⟨_, totalDegree_eq_zero_iff_eq_C.1 (by omega)⟩
    choose r hr using hc0
    have h1 := congrArg (eval (v i)) hsum
    simp only [map_sum, map_mul, hr, eval_C, hb.at_vertex, map_zero, ite_mul, one_mul, zero_mul, Finset.sum_ite_eq',
      Finset.mem_univ, if_true] at h1
    rw [hr, h1, C_0]

/-- The Nedelec space as a subspace. -/
noncomputable def nedSub (D k : ℕ) : Submodule ℝ (Fin D → MvPolynomial (Fin D) ℝ) where
  carrier := {u | IsNed k u}
  add_mem' := by
    rintro u w ⟨p, A, h1, h2, h3, h4⟩ ⟨p', A', h1', h2', h3', h4'⟩
    refine ⟨p + p', A + A', fun j => pdeg_add (h1 j) (h1' j), fun i j => pdeg_add (h2 i j) (h2' i j), fun i j => ?_, fun i => ?_⟩
    · rw [Pi.add_apply, Pi.add_apply, Pi.add_apply, Pi.add_apply, h3 i j, h3' i j]; ring
    · rw [Pi.add_apply, h4, h4', Pi.add_apply]
      simp only [Pi.add_apply, add_mul, Finset.sum_add_distrib]; ring
  zero_mem' := ⟨0, 0, by simp, by simp, by simp, by simp⟩
  smul_mem' := by
    rintro a u ⟨p, A, h1, h2, h3, h4⟩
    refine ⟨a • p, a • A, fun j => (totalDegree_smul_le _ _).trans (h1 j), fun i j => (totalDegree_smul_le _ _).trans (h2 i j),
      fun i j => ?_, fun i => ?_⟩
    · rw [Pi.smul_apply, Pi.smul_apply, Pi.smul_apply, Pi.smul_apply, h3 i j, smul_neg]
    · rw [Pi.smul_apply, h4, Pi.smul_apply, smul_add, Finset.smul_sum]
      congr 1
      exact Finset.sum_congr rfl fun j _ => by rw [Pi.smul_apply, Pi.smul_apply, smul_mul_assoc]

theorem mem_nedSub {k : ℕ} {u : Fin D → MvPolynomial (Fin D) ℝ} : u ∈ nedSub D k ↔ IsNed k u := Iff.rfl

theorem homogeneousComponent_low_iff {n : ℕ} {p : MvPolynomial (Fin D) ℝ} (hp : p.totalDegree ≤ n + 1) :
    homogeneousComponent (n + 1) p = 0 ↔ p.totalDegree ≤ n := by
  constructor
  · intro h
    have := low_degree p n hp
    rwa [h, sub_zero] at this
  · intro h
    exact homogeneousComponent_eq_zero _ _ (by omega)

end
end FIAT
