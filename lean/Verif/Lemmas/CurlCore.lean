/-
The algebra behind the unisolvence of the Nedelec and Brezzi-Douglas-Marini degrees of freedom, on any simplex.
-/
import Verif.Lemmas.NedCore
import Verif.Lemmas.Facets

namespace FIAT
open MvPolynomial MeasureTheory

section
variable {D : ℕ}

/-- A polynomial retraction onto a hyperplane. -/
theorem hyper_proj (g : Fin D → ℝ) (b : ℝ) (hg : g ≠ 0) :
    ∃ S : Fin D → MvPolynomial (Fin D) ℝ, (∀ x, eval (fun i => eval x (S i)) (linForm g b) = 0) ∧
      ∀ x, eval x (linForm g b) = 0 → (fun i => eval x (S i)) = x := by
  obtain ⟨j, hj⟩ := Function.ne_iff.1 hg
  have hj' : g j ≠ 0 := hj
  let w : Fin D → ℝ := Pi.single j (g j)⁻¹
  have hw : ∑ i, g i * w i = 1 := by
    rw [Finset.sum_eq_single j]
    · simp [w, hj']
    · intro i _ hi; simp [w, hi]
    · simp
  refine ⟨fun i => X i - linForm g b * C (w i), fun x => ?_, fun x hx => ?_⟩
  · rw [eval_linForm]
    simp only [map_sub, eval_X, map_mul, eval_C, mul_sub, Finset.sum_sub_distrib]
    have : ∑ i, g i * (eval x (linForm g b) * w i) = eval x (linForm g b) := by
      have h3 : ∑ i, g i * (eval x (linForm g b) * w i) = eval x (linForm g b) * ∑ i, g i * w i := by
        rw [Finset.mul_sum]
        exact Finset.sum_congr rfl fun i _ => by ring
      rw [h3, hw, mul_one]
    rw [this, eval_linForm]
    ring
  · funext i
    rw [map_sub, eval_X, map_mul, hx, zero_mul, sub_zero]

theorem eval_aeval (S : Fin D → MvPolynomial (Fin D) ℝ) (h : MvPolynomial (Fin D) ℝ) (x : Fin D → ℝ) :
    eval x (aeval S h) = eval (fun i => eval x (S i)) h := by
  rw [← coe_aeval_eq_eval, ← coe_aeval_eq_eval]
  have : (aeval x).comp (aeval S) = aeval (fun i => aeval x (S i)) := by
    apply MvPolynomial.algHom_ext
    intro i; simp
  exact DFunLike.congr_fun this h

/-- Cancelling a factor on a hyperplane. -/
theorem vanish_of_mul (g : Fin D → ℝ) (b : ℝ) (hg : g ≠ 0) (a h : MvPolynomial (Fin D) ℝ) (x0 : Fin D → ℝ)
    (hx0 : eval x0 (linForm g b) = 0) (ha : eval x0 a ≠ 0) (hv : ∀ x, eval x (linForm g b) = 0 → eval x (a * h) = 0) :
    ∀ x, eval x (linForm g b) = 0 → eval x h = 0 := by
  obtain ⟨S, s1, s2⟩ := hyper_proj g b hg
  have h1 : aeval S a * aeval S h = 0 := by
    apply MvPolynomial.funext
    intro x
    rw [← map_mul, eval_aeval, map_zero]
    exact hv _ (s1 x)
  have h2 : aeval S a ≠ 0 := by
    intro h
    have := eval_aeval S a x0
    rw [h, map_zero, s2 x0 hx0] at this
    exact ha this.symm
  have h3 := (mul_eq_zero.1 h1).resolve_left h2
  intro x hx
  have := eval_aeval S h x
  rw [h3, map_zero, s2 x hx] at this
  exact this.symm

variable {v : Fin (D + 1) → Fin D → ℝ} {g : Fin (D + 1) → Fin D → ℝ} {b : Fin (D + 1) → ℝ}

/-- The product of some barycentric coordinates. -/
noncomputable def baryProd (g : Fin (D + 1) → Fin D → ℝ) (b : Fin (D + 1) → ℝ) (s : Finset (Fin (D + 1))) :
    MvPolynomial (Fin D) ℝ := ∏ c ∈ s, linForm (g c) (b c)

/-- A polynomial that vanishes on some facets is divisible by the product of their equations. -/
theorem dvd_baryProd (hD : 1 ≤ D) (hb : BaryForms v g b) (h : MvPolynomial (Fin D) ℝ) (s : Finset (Fin (D + 1)))
    (hv : ∀ c ∈ s, ∀ x, eval x (linForm (g c) (b c)) = 0 → eval x h = 0) :
    ∃ r, h = baryProd g b s * r ∧ ∀ n, h.totalDegree ≤ n → r = 0 ∨ r.totalDegree + s.card ≤ n := by
  induction s using Finset.induction_on with
  | empty => exact ⟨h, by simp [baryProd], fun n hn => Or.inr (by simpa using hn)⟩
  | insert c s hc ih =>
    obtain ⟨r, r1, r2⟩ := ih fun c hc => hv c (Finset.mem_insert_of_mem hc)
    let w : Fin (D + 1) → ℝ := fun j => if j = c then 0 else (D : ℝ)⁻¹
    have hDne : (D : ℝ) ≠ 0 := by exact_mod_cast (by omega : D ≠ 0)
    have hw : ∑ j, w j = 1 := by
      rw [← Finset.add_sum_erase _ _ (Finset.mem_univ c), Finset.sum_congr rfl (g := fun _ => (D : ℝ)⁻¹) fun j hj => by
        simp only [w]; rw [if_neg (Finset.ne_of_mem_erase hj)]]
      simp [w, hDne]
    have hval := hb.unique w hw
    have h0 : ∀ x, eval x (linForm (g c) (b c)) = 0 → eval x r = 0 := by
      refine vanish_of_mul (g c) (b c) (hb.ne_zero hD c) (baryProd g b s) r (∑ j, w j • v j) ?_ ?_ ?_
      · rw [hval]; simp [w]
      · unfold baryProd
        rw [map_prod, Finset.prod_ne_zero_iff]
        intro j hj
        rw [hval]
        have : j ≠ c := by rintro rfl; exact hc hj
        simp [w, this, hDne]
      · intro x hx
        rw [← r1]
        exact hv c (Finset.mem_insert_self _ _) x hx
    obtain ⟨r', r3⟩ := dvd_of_vanish (g c) (b c) (hb.ne_zero hD c) r h0
    refine ⟨r', ?_, fun n hn => ?_⟩
    · conv_lhs => rw [r1, r3]
      unfold baryProd
      rw [Finset.prod_insert hc]; ring
    · rcases r2 n hn with h | h
      · left
        rw [r3] at h
        exact (mul_eq_zero.1 h).resolve_left (linForm_ne_zero _ _ (hb.ne_zero hD c))
      · rcases degree_of_linForm_mul (g c) (b c) (hb.ne_zero hD c) r' r.totalDegree (by rw [← r3]) with h' | h'
        · exact Or.inl h'
        · right
          rw [Finset.card_insert_of_notMem hc]; omega

theorem baryProd_ne_zero (hD : 1 ≤ D) (hb : BaryForms v g b) (s : Finset (Fin (D + 1))) : baryProd g b s ≠ 0 :=
  Finset.prod_ne_zero_iff.2 fun c _ => linForm_ne_zero _ _ (hb.ne_zero hD c)

theorem baryProd_degree (hD : 1 ≤ D) (hb : BaryForms v g b) (s : Finset (Fin (D + 1))) : s.card ≤ (baryProd g b s).totalDegree := by
  induction s using Finset.induction_on with
  | empty => simp
  | insert c s hc ih =>
    have e : baryProd g b (insert c s) = linForm (g c) (b c) * baryProd g b s := Finset.prod_insert hc
    rw [e, totalDegree_mul_of_isDomain (linForm_ne_zero _ _ (hb.ne_zero hD c)) (baryProd_ne_zero hD hb s),
      Finset.card_insert_of_notMem hc]
    have := linForm_degree_pos (g c) (b c) (hb.ne_zero hD c)
    omega

theorem degree_of_baryProd (hD : 1 ≤ D) (hb : BaryForms v g b) (s : Finset (Fin (D + 1))) (r : MvPolynomial (Fin D) ℝ) (n : ℕ)
    (h : (baryProd g b s * r).totalDegree ≤ n) : r = 0 ∨ r.totalDegree + s.card ≤ n := by
  by_cases hr : r = 0
  · exact Or.inl hr
  · right
    rw [totalDegree_mul_of_isDomain (baryProd_ne_zero hD hb s) hr] at h
    have := baryProd_degree hD hb s
    omega

theorem BaryForms.grad_sum (hb : BaryForms v g b) (j : Fin D) : ∑ i, g i j = 0 := by
  have := congrArg (fun P => eval (Pi.single j 1) P - eval (0 : Fin D → ℝ) P) hb.sum_poly
  simp only [map_sum, eval_linForm, map_one, sub_self, ← Finset.sum_sub_distrib] at this
  simpa [Pi.single_apply] using this

theorem BaryForms.coord (hb : BaryForms v g b) (j : Fin D) : ∑ i, linForm (g i) (b i) * C (v i j) = X j := by
  apply MvPolynomial.funext
  intro x
  have := congrFun (hb.comb x) j
  rw [Finset.sum_apply] at this
  rw [map_sum, eval_X, ← this]
  exact Finset.sum_congr rfl fun i _ => by simp

/-- `∑ λ_i (v_i · u) = x · u`. -/
theorem BaryForms.dotX_eq (hb : BaryForms v g b) (u : Fin D → MvPolynomial (Fin D) ℝ) :
    ∑ i, linForm (g i) (b i) * dotC (v i) u = dotX u := by
  unfold dotX dotC
  simp only [Finset.mul_sum]
  rw [Finset.sum_comm]
  refine Finset.sum_congr rfl fun j _ => ?_
  rw [← hb.coord j, Finset.sum_mul]
  exact Finset.sum_congr rfl fun i _ => by ring

/-- A field whose products with all vertices agree is zero. -/
theorem BaryForms.zero_of_vertices (hb : BaryForms v g b) (u : Fin D → MvPolynomial (Fin D) ℝ)
    (h : ∀ a c, dotC (v a) u = dotC (v c) u) : u = 0 := by
  funext l
  have e : u l = ∑ i, C (g i l) * dotC (v i) u := by
    apply MvPolynomial.funext
    intro x
    have h1 := hb.vector (Pi.single l 1)
    have h2 : ∀ i, ∑ j, g i j * (Pi.single l 1 : Fin D → ℝ) j = g i l := by
      intro i; simp [Pi.single_apply]
    simp only [h2] at h1
    rw [map_sum]
    simp only [dotC, map_mul, map_sum, eval_C, Finset.mul_sum]
    rw [Finset.sum_comm, Finset.sum_eq_single l]
    · have h3 := congrFun h1 l
      simp only [Finset.sum_apply, Pi.smul_apply, smul_eq_mul, Pi.single_eq_same] at h3
      have e2 : ∑ i, g i l * (v i l * eval x (u l)) = (∑ i, g i l * v i l) * eval x (u l) := by
        rw [Finset.sum_mul]
        exact Finset.sum_congr rfl fun i _ => by ring
      rw [e2, h3, one_mul]
    · intro j _ hj
      have h3 := congrFun h1 j
      simp only [Finset.sum_apply, Pi.smul_apply, smul_eq_mul, Pi.single_eq_of_ne hj] at h3
      have e2 : ∑ i, g i l * (v i j * eval x (u j)) = (∑ i, g i l * v i j) * eval x (u j) := by
        rw [Finset.sum_mul]
        exact Finset.sum_congr rfl fun i _ => by ring
      rw [e2, h3, zero_mul]
    · simp
  rw [e]
  have e3 : ∑ i, C (g i l) * dotC (v i) u = ∑ i, C (g i l) * dotC (v 0) u :=
    Finset.sum_congr rfl fun i _ => by rw [h i 0]
  rw [e3, ← Finset.sum_mul, ← map_sum, hb.grad_sum, map_zero, zero_mul]; rfl

/-- A field whose tangential components vanish on every facet. -/
theorem curl_structure (hD : 2 ≤ D) (hb : BaryForms v g b) (hvs : AffineIndependent ℝ v) (u : Fin D → MvPolynomial (Fin D) ℝ)
    (n : ℕ) (hu : ∀ j, (u j).totalDegree ≤ n)
    (htz : ∀ a a' c, c ≠ a → c ≠ a' → ∀ x, eval x (linForm (g c) (b c)) = 0 → eval x (dotC (v a) u) = eval x (dotC (v a') u)) :
    ∃ P : Fin (D + 1) → MvPolynomial (Fin D) ℝ,
      (∀ a, dotC (v a) u - dotX u = baryProd g b (Finset.univ.erase a) * P a) ∧
      (∀ a, P a = 0 ∨ (P a).totalDegree + (D - 1) ≤ n) ∧
      (∀ a c, linForm (g c) (b c) * P a - linForm (g a) (b a) * P c = 0 ∨
        (linForm (g c) (b c) * P a - linForm (g a) (b a) * P c).totalDegree + (D - 1) ≤ n) ∧
      (∑ a, P a = 0) ∧ ((∀ a, P a = 0) → u = 0) ∧
      ((∫ x in convexHull ℝ (Set.range v), eval x (∑ l, u l * ∑ a, C (v a l) * P a)) = 0 → u = 0) := by
  classical
  have hD1 : 1 ≤ D := by omega
  have hU : ∀ a, (dotC (v a) u).totalDegree ≤ n := fun a => sum_degree _ _ _ fun j _ => Cmul_degree _ (hu j)
  let B : Fin (D + 1) → Fin (D + 1) → Finset (Fin (D + 1)) := fun a c => (Finset.univ.erase a).erase c
  have hBs : ∀ a c, B a c = B c a := fun a c => Finset.erase_right_comm
  have hmul : ∀ a c, a ≠ c → linForm (g c) (b c) * baryProd g b (B a c) = baryProd g b (Finset.univ.erase a) := by
    intro a c hac
    exact Finset.mul_prod_erase _ (fun c => linForm (g c) (b c)) (Finset.mem_erase.2 ⟨hac.symm, Finset.mem_univ c⟩)
  have hcard : ∀ a c, a ≠ c → (B a c).card = D - 1 := by
    intro a c hac
    rw [Finset.card_erase_of_mem (Finset.mem_erase.2 ⟨hac.symm, Finset.mem_univ c⟩), Finset.card_erase_of_mem (Finset.mem_univ a)]
    simp
  choose A hA1 hA2 using fun a c => dvd_baryProd hD1 hb (dotC (v a) u - dotC (v c) u) (B a c) (by
    intro e he x hx
    obtain ⟨h1, h2⟩ := Finset.mem_erase.1 he
    rw [map_sub, htz a c e (Finset.ne_of_mem_erase h2) h1 x hx, sub_self])
  have hAd : ∀ a c, a ≠ c → (A a c = 0 ∨ (A a c).totalDegree + (D - 1) ≤ n) := by
    intro a c hac
    rw [← hcard a c hac]
    exact hA2 a c n (pdeg_sub (hU a) (hU c))
  have hAa : ∀ a, A a a = 0 := by
    intro a
    have := hA1 a a
    rw [sub_self] at this
    exact (mul_eq_zero.1 this.symm).resolve_left (baryProd_ne_zero hD1 hb _)
  have hanti : ∀ a c, A a c = - A c a := by
    intro a c
    have h1 := hA1 a c
    have h2 := hA1 c a
    rw [hBs c a] at h2
    have h3 : baryProd g b (B a c) * (A a c + A c a) = 0 := by
      rw [mul_add, ← h1, ← h2]; ring
    have := (mul_eq_zero.1 h3).resolve_left (baryProd_ne_zero hD1 hb _)
    linear_combination this
  let P : Fin (D + 1) → MvPolynomial (Fin D) ℝ := fun a => ∑ c, A a c
  have hM : ∀ a, dotC (v a) u - dotX u = baryProd g b (Finset.univ.erase a) * P a := by
    intro a
    rw [← hb.dotX_eq u]
    have e : dotC (v a) u - ∑ i, linForm (g i) (b i) * dotC (v i) u = ∑ i, linForm (g i) (b i) * (dotC (v a) u - dotC (v i) u) := by
      simp only [mul_sub, Finset.sum_sub_distrib]
      rw [← Finset.sum_mul, hb.sum_poly, one_mul]
    rw [e, Finset.mul_sum]
    refine Finset.sum_congr rfl fun c _ => ?_
    by_cases hac : a = c
    · subst hac; rw [sub_self, hAa]; ring
    · rw [hA1 a c, ← hmul a c hac]; ring
  have hAP : ∀ a c, a ≠ c → A a c = linForm (g c) (b c) * P a - linForm (g a) (b a) * P c := by
    intro a c hac
    have h1 := hA1 a c
    have h2 : dotC (v a) u - dotC (v c) u = baryProd g b (B a c) * (linForm (g c) (b c) * P a - linForm (g a) (b a) * P c) := by
      have h3 := hM a
      have h4 := hM c
      rw [← hmul a c hac] at h3
      rw [← hmul c a hac.symm, hBs c a] at h4
      linear_combination h3 - h4
    rw [h2] at h1
    exact (mul_left_cancel₀ (baryProd_ne_zero hD1 hb _) h1).symm
  have hu0 : (∀ a c, A a c = 0) → u = 0 := by
    intro h
    refine hb.zero_of_vertices u fun a c => ?_
    have := hA1 a c
    rw [h, mul_zero] at this
    exact sub_eq_zero.1 this
  refine ⟨P, hM, fun a => ?_, fun a c => ?_, ?_, fun h => hu0 fun a c => ?_, fun h => hu0 fun a c => ?_⟩
  · by_cases h : ∀ c, A a c = 0
    · left; exact Finset.sum_eq_zero fun c _ => h c
    · right
      push Not at h
      obtain ⟨c, hc⟩ := h
      have hac : a ≠ c := by rintro rfl; exact hc (hAa a)
      have hn := (hAd a c hac).resolve_left hc
      have : (P a).totalDegree ≤ n - (D - 1) := by
        refine sum_degree _ _ _ fun e _ => ?_
        by_cases hae : a = e
        · subst hae; rw [hAa]; simp
        · rcases hAd a e hae with h | h
          · rw [h]; simp
          · omega
      omega
  · by_cases hac : a = c
    · left; rw [hac, sub_self]
    · rw [← hAP a c hac]; exact hAd a c hac
  · have e : ∑ a, P a = - ∑ a, P a := by
      conv_lhs => rw [Finset.sum_comm]
      rw [← Finset.sum_neg_distrib]
      refine Finset.sum_congr rfl fun a _ => ?_
      rw [← Finset.sum_neg_distrib]
      exact Finset.sum_congr rfl fun c _ => hanti c a
    exact self_eq_neg.1 e
  · by_cases hac : a = c
    · subst hac; exact hAa a
    · rw [hAP a c hac, h a, h c]; ring
  · have e1 : ∑ l, u l * ∑ a, C (v a l) * P a = ∑ a, P a * dotC (v a) u := by
      unfold dotC
      simp only [Finset.mul_sum]
      rw [Finset.sum_comm]
      exact Finset.sum_congr rfl fun a _ => Finset.sum_congr rfl fun l _ => by ring
    have e2 : 2 * ∑ a, P a * dotC (v a) u = ∑ a, ∑ c, baryProd g b (B a c) * A a c ^ 2 := by
      have e3 : ∑ a, P a * dotC (v a) u = ∑ a, ∑ c, A a c * dotC (v a) u :=
        Finset.sum_congr rfl fun a _ => Finset.sum_mul ..
      have e4 : ∑ a, P a * dotC (v a) u = - ∑ a, ∑ c, A a c * dotC (v c) u := by
        rw [e3, Finset.sum_comm, ← Finset.sum_neg_distrib]
        refine Finset.sum_congr rfl fun a _ => ?_
        rw [← Finset.sum_neg_distrib]
        exact Finset.sum_congr rfl fun c _ => by rw [hanti c a]; ring
      rw [two_mul]
      conv_lhs => congr; · rw [e3]
                  · rw [e4]
      rw [← sub_eq_add_neg, ← Finset.sum_sub_distrib]
      refine Finset.sum_congr rfl fun a _ => ?_
      rw [← Finset.sum_sub_distrib]
      refine Finset.sum_congr rfl fun c _ => ?_
      rw [← mul_sub, hA1 a c]; ring
    have hint : ∀ P : MvPolynomial (Fin D) ℝ, IntegrableOn (fun x => eval x P) (convexHull ℝ (Set.range v)) := fun P =>
      integrable_hull v _ P.continuous_eval
    have hnn : ∀ a c, ∀ x ∈ convexHull ℝ (Set.range v), 0 ≤ eval x (baryProd g b (B a c) * A a c ^ 2) := by
      intro a c x hx
      rw [map_mul, map_pow, baryProd, map_prod]
      exact mul_nonneg (Finset.prod_nonneg fun e _ => hb.nonneg e x hx) (sq_nonneg _)
    have hm : MeasurableSet (convexHull ℝ (Set.range v)) :=
      (Set.Finite.isCompact_convexHull ℝ (Set.finite_range v)).isClosed.measurableSet
    have h2 : ∑ a, ∑ c, ∫ x in convexHull ℝ (Set.range v), eval x (baryProd g b (B a c) * A a c ^ 2) = 0 := by
      have h3 : ∫ x in convexHull ℝ (Set.range v), eval x (∑ a, ∑ c, baryProd g b (B a c) * A a c ^ 2) = 0 := by
        rw [← e2, ← e1]
        have : ∀ x, eval x (2 * ∑ l, u l * ∑ a, C (v a l) * P a) = 2 * eval x (∑ l, u l * ∑ a, C (v a l) * P a) := by
          intro x; rw [map_mul]; simp
        simp only [this]
        rw [integral_const_mul, h, mul_zero]
      rw [← h3]
      simp only [map_sum]
      have hint2 : ∀ a c, IntegrableOn (fun x => eval x (baryProd g b (B a c) * A a c ^ 2)) (convexHull ℝ (Set.range v)) :=
        fun a c => hint _
      rw [integral_finsetSum _ fun a _ => integrable_finsetSum _ fun c _ => hint2 a c]
      refine Finset.sum_congr rfl fun a _ => ?_
      rw [integral_finsetSum _ fun c _ => hint2 a c]
    have h3 := (Finset.sum_eq_zero_iff_of_nonneg fun a _ => Finset.sum_nonneg fun c _ => setIntegral_nonneg hm (hnn a c)).1 h2 a
      (Finset.mem_univ a)
    have h4 := (Finset.sum_eq_zero_iff_of_nonneg fun c _ => setIntegral_nonneg hm (hnn a c)).1 h3 c (Finset.mem_univ c)
    have h5 := poly_zero_of_integral v hvs _ (hnn a c) h4
    have h6 := (mul_eq_zero.1 h5).resolve_left (baryProd_ne_zero hD1 hb _)
    exact pow_eq_zero_iff (two_ne_zero) |>.1 h6

end
end FIAT
