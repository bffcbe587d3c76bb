/-
The algebra behind the unisolvence of the Raviart-Thomas degrees of freedom (both variants), on any simplex.
-/
import Verif.Lemmas.PosInt

namespace FIAT
open MvPolynomial

section alg
variable {K : Type} [Field K] {D : ℕ}

/-- The affine function `b + g · x`. -/
noncomputable def linForm (g : Fin D → K) (b : K) : MvPolynomial (Fin D) K := C b + ∑ j, C (g j) * X j

theorem eval_linForm (g : Fin D → K) (b : K) (x : Fin D → K) : eval x (linForm g b) = b + ∑ j, g j * x j := by
  simp [linForm]

theorem linForm_degree (g : Fin D → K) (b : K) : (linForm g b).totalDegree ≤ 1 := by
  unfold linForm
  refine (totalDegree_add _ _).trans (max_le (by simp) ?_)
  refine totalDegree_finsetSum_le fun j _ => (totalDegree_mul _ _).trans ?_
  rw [totalDegree_C, zero_add]
  exact (totalDegree_X j).le

theorem linForm_degree_pos (g : Fin D → K) (b : K) (hg : g ≠ 0) : 1 ≤ (linForm g b).totalDegree := by
  by_contra h
  have h0 : (linForm g b).totalDegree = 0 := by omega
  rw [totalDegree_eq_zero_iff_eq_C] at h0
  obtain ⟨j, hj⟩ := Function.ne_iff.1 hg
  have e : ∀ x, eval x (linForm g b) = coeff 0 (linForm g b) := fun x => by rw [h0]; simp
  have e1 := e 0
  have e2 := e (Pi.single j 1)
  rw [← e1, eval_linForm, eval_linForm] at e2
  simp [Pi.single_apply] at e2
  exact hj e2

theorem linForm_ne_zero (g : Fin D → K) (b : K) (hg : g ≠ 0) : linForm g b ≠ 0 := by
  intro h
  have := linForm_degree_pos g b hg
  rw [h] at this
  simp at this

/-- A polynomial that vanishes on a hyperplane is divisible by its equation. -/
theorem dvd_of_vanish [Infinite K] (g : Fin D → K) (b : K) (hg : g ≠ 0) (h : MvPolynomial (Fin D) K)
    (hv : ∀ x, eval x (linForm g b) = 0 → eval x h = 0) : ∃ r, h = linForm g b * r := by
  obtain ⟨j, hj⟩ := Function.ne_iff.1 hg
  have hj' : g j ≠ 0 := hj
  let w : Fin D → K := Pi.single j (g j)⁻¹
  have hw : ∑ i, g i * w i = 1 := by
    rw [Finset.sum_eq_single j]
    · simp [w, hj']
    · intro i _ hi; simp [w, hi]
    · simp
  let S : Fin D → MvPolynomial (Fin D) K := fun i => X i - linForm g b * C (w i)
  have h0 : aeval S h = 0 := by
    refine MvPolynomial.funext fun x => ?_
    rw [map_zero]
    have e : eval x (aeval S h) = eval (fun i => eval x (S i)) h := by
      rw [← coe_aeval_eq_eval, ← coe_aeval_eq_eval]
      have : (aeval x).comp (aeval S) = aeval (fun i => aeval x (S i)) := by
        apply MvPolynomial.algHom_ext
        intro i; simp
      exact DFunLike.congr_fun this h
    rw [e]
    apply hv
    rw [eval_linForm]
    simp only [S, map_sub, eval_X, map_mul, eval_C, mul_sub, Finset.sum_sub_distrib]
    have : ∑ i, g i * (eval x (linForm g b) * w i) = eval x (linForm g b) := by
      have h3 : ∑ i, g i * (eval x (linForm g b) * w i) = eval x (linForm g b) * ∑ i, g i * w i := by
        rw [Finset.mul_sum]
        exact Finset.sum_congr rfl fun i _ => by ring
      rw [h3, hw, mul_one]
    rw [this, eval_linForm]
    ring
  have hmk : Ideal.Quotient.mkₐ K (Ideal.span {linForm g b}) h =
      Ideal.Quotient.mkₐ K (Ideal.span {linForm g b}) (aeval S h) := by
    have : Ideal.Quotient.mkₐ K (Ideal.span {linForm g b}) =
        (Ideal.Quotient.mkₐ K (Ideal.span {linForm g b})).comp (aeval S) := by
      apply MvPolynomial.algHom_ext
      intro i
      simp only [AlgHom.comp_apply, aeval_X, S, map_sub, map_mul]
      have : Ideal.Quotient.mkₐ K (Ideal.span {linForm g b}) (linForm g b) = 0 := by
        rw [Ideal.Quotient.mkₐ_eq_mk, Ideal.Quotient.eq_zero_iff_mem]
        exact Ideal.mem_span_singleton_self _
      rw [this]; ring
    exact DFunLike.congr_fun this h
  rw [h0, map_zero, Ideal.Quotient.mkₐ_eq_mk, Ideal.Quotient.eq_zero_iff_mem, Ideal.mem_span_singleton] at hmk
  exact hmk

/-- Degree of the quotient. -/
theorem degree_of_linForm_mul (g : Fin D → K) (b : K) (hg : g ≠ 0) (r : MvPolynomial (Fin D) K) (k : ℕ)
    (h : (linForm g b * r).totalDegree ≤ k) : r = 0 ∨ r.totalDegree + 1 ≤ k := by
  by_cases hr : r = 0
  · exact Or.inl hr
  · right
    rw [totalDegree_mul_of_isDomain (linForm_ne_zero g b hg) hr] at h
    have := linForm_degree_pos g b hg
    omega

/-- Membership in the Raviart-Thomas space `P_k^D + x P_k`. -/
def IsRT (k : ℕ) (v : Fin D → MvPolynomial (Fin D) K) : Prop :=
  ∃ (p : Fin D → MvPolynomial (Fin D) K) (q : MvPolynomial (Fin D) K), (∀ j, (p j).totalDegree ≤ k) ∧ q.totalDegree ≤ k ∧
    ∀ j, v j = p j + X j * q

/-- `v · g`. -/
noncomputable def dotC (g : Fin D → K) (v : Fin D → MvPolynomial (Fin D) K) : MvPolynomial (Fin D) K := ∑ j, C (g j) * v j

/-- `v · g` of a Raviart-Thomas field is `λ q` plus a polynomial of degree at most `k`, `λ = b + g · x`. -/
theorem rt_dot {k : ℕ} {v : Fin D → MvPolynomial (Fin D) K} {p : Fin D → MvPolynomial (Fin D) K}
    {q : MvPolynomial (Fin D) K} (hp : ∀ j, (p j).totalDegree ≤ k) (hq : q.totalDegree ≤ k) (hv : ∀ j, v j = p j + X j * q)
    (g : Fin D → K) (b : K) :
    dotC g v = linForm g b * q + (dotC g p - C b * q) ∧ (dotC g p - C b * q).totalDegree ≤ k := by
  constructor
  · simp only [dotC, hv, linForm, mul_add, Finset.sum_add_distrib, add_mul, Finset.sum_mul]
    simp only [← mul_assoc]
    ring
  · refine (totalDegree_sub _ _).trans (max_le ?_ ?_)
    · refine totalDegree_finsetSum_le fun j _ => (totalDegree_mul _ _).trans ?_
      rw [totalDegree_C, zero_add]; exact hp j
    · refine (totalDegree_mul _ _).trans ?_
      rw [totalDegree_C, zero_add]; exact hq

/-- On the facet, `v · g` coincides with a polynomial of degree at most `k`. -/
theorem rt_facet {k : ℕ} {v : Fin D → MvPolynomial (Fin D) K} (hv : IsRT k v) (g : Fin D → K) (b : K) :
    ∃ h : MvPolynomial (Fin D) K, h.totalDegree ≤ k ∧ ∀ x, eval x (linForm g b) = 0 → eval x (dotC g v) = eval x h := by
  obtain ⟨p, q, hp, hq, h⟩ := hv
  obtain ⟨h1, h2⟩ := rt_dot hp hq h g b
  refine ⟨_, h2, fun x hx => ?_⟩
  rw [h1, map_add, map_mul, hx, zero_mul, zero_add]

/-- A Raviart-Thomas field whose normal component vanishes on every facet: `v · g_i = λ_i (q + r_i)` with
`q + ∑ λ_i r_i = 0` and `r_i` in `P_(k-1)`. -/
theorem rt_structure [Infinite K] {ι : Type} [Fintype ι] {k : ℕ} {v : Fin D → MvPolynomial (Fin D) K} (hv : IsRT k v)
    (g : ι → Fin D → K) (b : ι → K) (hg : ∀ i, g i ≠ 0) (hsum : ∑ i, linForm (g i) (b i) = 1)
    (h0 : ∀ i x, eval x (linForm (g i) (b i)) = 0 → eval x (dotC (g i) v) = 0) :
    ∃ (q : MvPolynomial (Fin D) K) (r : ι → MvPolynomial (Fin D) K), q.totalDegree ≤ k ∧
      (∀ i, r i = 0 ∨ (r i).totalDegree + 1 ≤ k) ∧ (∀ i, dotC (g i) v = linForm (g i) (b i) * (q + r i)) ∧
      q + ∑ i, linForm (g i) (b i) * r i = 0 := by
  obtain ⟨p, q, hp, hq, h⟩ := hv
  have hgs : ∀ j, ∑ i, g i j = 0 := by
    intro j
    have := congrArg (fun P => eval (Pi.single j 1) P - eval (0 : Fin D → K) P) hsum
    simp only [map_sum, eval_linForm, map_one, sub_self, ← Finset.sum_sub_distrib] at this
    simpa [Pi.single_apply] using this
  choose r hr using fun i => dvd_of_vanish (g i) (b i) (hg i) (dotC (g i) p - C (b i) * q) (fun x hx => by
    have h1 := (rt_dot hp hq h (g i) (b i)).1
    have h2 := h0 i x hx
    rw [h1, map_add, map_mul, hx, zero_mul, zero_add] at h2
    exact h2)
  have hdot : ∀ i, dotC (g i) v = linForm (g i) (b i) * (q + r i) := by
    intro i
    rw [(rt_dot hp hq h (g i) (b i)).1, hr i]; ring
  refine ⟨q, r, hq, fun i => ?_, hdot, ?_⟩
  · refine degree_of_linForm_mul (g i) (b i) (hg i) (r i) k ?_
    rw [← hr i]
    exact (rt_dot hp hq h (g i) (b i)).2
  · have hz : ∑ i, dotC (g i) v = 0 := by
      unfold dotC
      rw [Finset.sum_comm]
      refine Finset.sum_eq_zero fun j _ => ?_
      rw [← Finset.sum_mul, ← map_sum, hgs, map_zero, zero_mul]
    simp only [hdot, mul_add, Finset.sum_add_distrib] at hz
    rw [← Finset.sum_mul, hsum, one_mul] at hz
    exact hz

/-- The point variant: the field also vanishes at points unisolvent for `P_(k-1)` that lie on no facet. -/
theorem rt_point_core [Infinite K] {ι : Type} [Fintype ι] [Nonempty ι] {k : ℕ} {v : Fin D → MvPolynomial (Fin D) K}
    (hv : IsRT k v) (g : ι → Fin D → K) (b : ι → K) (hg : ∀ i, g i ≠ 0) (hsum : ∑ i, linForm (g i) (b i) = 1)
    (h0 : ∀ i x, eval x (linForm (g i) (b i)) = 0 → eval x (dotC (g i) v) = 0)
    (pts : List (Fin D → K)) (hpts : ∀ x ∈ pts, ∀ i, eval x (linForm (g i) (b i)) ≠ 0)
    (huni : ∀ p : MvPolynomial (Fin D) K, p.totalDegree + 1 ≤ k → (∀ x ∈ pts, eval x p = 0) → p = 0)
    (hz : ∀ x ∈ pts, ∀ j, eval x (v j) = 0) (i : ι) : dotC (g i) v = 0 := by
  obtain ⟨q, r, hq, hr, hdot, hs⟩ := rt_structure hv g b hg hsum h0
  have hvan : ∀ x ∈ pts, ∀ i, eval x (q + r i) = 0 := by
    intro x hx i
    have h1 := congrArg (eval x) (hdot i)
    rw [map_mul] at h1
    have h2 : eval x (dotC (g i) v) = 0 := by
      unfold dotC
      rw [map_sum]
      exact Finset.sum_eq_zero fun j _ => by rw [map_mul, hz x hx j, mul_zero]
    rw [h2] at h1
    exact (mul_eq_zero.1 h1.symm).resolve_left (hpts x hx i)
  have heq : ∀ i i', r i = r i' := by
    intro i i'
    by_cases hk : k = 0
    · have z : ∀ i, r i = 0 := fun i => (hr i).resolve_right (by omega)
      rw [z i, z i']
    · rw [← sub_eq_zero]
      apply huni
      · have hd : ∀ i, (r i).totalDegree ≤ k - 1 := by
          intro i
          rcases hr i with h | h
          · simp [h]
          · omega
        have := (totalDegree_sub (r i) (r i')).trans (max_le (hd i) (hd i'))
        omega
      · intro x hx
        have h1 := hvan x hx i
        have h2 := hvan x hx i'
        rw [map_add] at h1 h2
        rw [map_sub]
        linear_combination h1 - h2
  have : q + r i = 0 := by
    have e : ∑ i', linForm (g i') (b i') * r i' = r i := by
      rw [← one_mul (r i), ← hsum, Finset.sum_mul]
      exact Finset.sum_congr rfl fun i' _ => by rw [heq i' i]
    rwa [e] at hs
  rw [hdot, this, mul_zero]

end alg

section int
open MeasureTheory
variable {D : ℕ}

/-- The integral variant: the moments of the field against `P_(k-1)^D` vanish. -/
theorem rt_integral_core {k : ℕ} {v : Fin D → MvPolynomial (Fin D) ℝ} (hv : IsRT k v) (vs : Fin (D + 1) → Fin D → ℝ)
    (hvs : AffineIndependent ℝ vs) {ι : Type} [Fintype ι]
    (g : ι → Fin D → ℝ) (b : ι → ℝ) (hg : ∀ i, g i ≠ 0) (hsum : ∑ i, linForm (g i) (b i) = 1)
    (hpos : ∀ i, ∀ x ∈ convexHull ℝ (Set.range vs), 0 ≤ eval x (linForm (g i) (b i)))
    (h0 : ∀ i x, eval x (linForm (g i) (b i)) = 0 → eval x (dotC (g i) v) = 0)
    (hz : ∀ p : MvPolynomial (Fin D) ℝ, p.totalDegree + 1 ≤ k → ∀ j,
      ∫ x in convexHull ℝ (Set.range vs), eval x (v j * p) = 0) (i : ι) : dotC (g i) v = 0 := by
  obtain ⟨q, r, hq, hr, hdot, hs⟩ := rt_structure hv g b hg hsum h0
  have hint : ∀ P : MvPolynomial (Fin D) ℝ, IntegrableOn (fun x => eval x P) (convexHull ℝ (Set.range vs)) := fun P =>
    integrable_hull vs _ P.continuous_eval
  have h1 : ∀ i, ∫ x in convexHull ℝ (Set.range vs), eval x (dotC (g i) v * r i) = 0 := by
    intro i
    rcases hr i with h | h
    · simp [h]
    · have e : ∀ x, eval x (dotC (g i) v * r i) = ∑ j, g i j * eval x (v j * r i) := by
        intro x
        simp only [dotC, map_mul, map_sum, eval_C, Finset.sum_mul]
        exact Finset.sum_congr rfl fun j _ => by ring
      simp only [e]
      rw [integral_finsetSum _ fun j _ => (hint _).const_mul _]
      refine Finset.sum_eq_zero fun j _ => ?_
      rw [integral_const_mul, hz _ h j, mul_zero]
  have h2 : ∑ i, ∫ x in convexHull ℝ (Set.range vs), eval x (linForm (g i) (b i) * (q + r i) ^ 2) = 0 := by
    have e : ∀ i x, eval x (linForm (g i) (b i) * (q + r i) ^ 2) =
        eval x (dotC (g i) v * r i) + eval x (q * (linForm (g i) (b i) * (q + r i))) := by
      intro i x
      rw [hdot, ← map_add]
      congr 1; ring
    simp only [e]
    simp_rw [integral_add (hint _) (hint _), h1, zero_add]
    rw [← integral_finsetSum _ fun j _ => hint _]
    simp only [← map_sum]
    have : ∑ i, q * (linForm (g i) (b i) * (q + r i)) = 0 := by
      rw [← Finset.mul_sum]
      simp only [mul_add, Finset.sum_add_distrib]
      rw [← Finset.sum_mul, hsum]
      linear_combination q * hs
    rw [this]; simp
  have hnn : ∀ i, ∀ x ∈ convexHull ℝ (Set.range vs), 0 ≤ eval x (linForm (g i) (b i) * (q + r i) ^ 2) := by
    intro i x hx
    rw [map_mul, map_pow]
    exact mul_nonneg (hpos i x hx) (sq_nonneg _)
  have hm : MeasurableSet (convexHull ℝ (Set.range vs)) :=
    (Set.Finite.isCompact_convexHull ℝ (Set.finite_range vs)).isClosed.measurableSet
  have h3 := (Finset.sum_eq_zero_iff_of_nonneg fun i _ => setIntegral_nonneg hm (hnn i)).1 h2 i (Finset.mem_univ i)
  have h4 := poly_zero_of_integral vs hvs _ (hnn i) h3
  have h5 := (mul_eq_zero.1 h4).resolve_left (linForm_ne_zero _ _ (hg i))
  rw [hdot, pow_eq_zero_iff (two_ne_zero) |>.1 h5, mul_zero]

end int
end FIAT
