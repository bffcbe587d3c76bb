/-
Cubic polynomials of two variables by their coefficients, and the coordinates of a field along the edges of a triangle (C60).
-/
import Verif.Lemmas.MardalTaiWinther
import Verif.Lemmas.SymTensor

namespace FIAT
open MvPolynomial MeasureTheory
section

/-- The monomial `X₀^i X₁^j`. -/
private theorem mono_two (i j : ℕ) (a : ℝ) :
    (monomial (Finsupp.single (0 : Fin 2) i + Finsupp.single 1 j) a : MvPolynomial (Fin 2) ℝ) = C a * X 0 ^ i * X 1 ^ j := by
  rw [X_pow_eq_monomial, X_pow_eq_monomial, C_apply, monomial_mul, monomial_mul]
  simp

/-- A polynomial of two variables of degree at most three. -/
theorem cubic_form' (p : MvPolynomial (Fin 2) ℝ) (hp : p.totalDegree ≤ 3) :
    ∃ a : ℕ → ℕ → ℝ, (p = C (a 0 0) + C (a 1 0) * X 0 + C (a 0 1) * X 1 + C (a 2 0) * X 0 ^ 2 + C (a 1 1) * X 0 * X 1 +
      C (a 0 2) * X 1 ^ 2 + C (a 3 0) * X 0 ^ 3 + C (a 2 1) * X 0 ^ 2 * X 1 + C (a 1 2) * X 0 * X 1 ^ 2 + C (a 0 3) * X 1 ^ 3) ∧
      (p.totalDegree ≤ 2 → ∀ i j, i + j = 3 → a i j = 0) := by
  let m : ℕ → ℕ → Fin 2 →₀ ℕ := fun i j => Finsupp.single 0 i + Finsupp.single 1 j
  have hm : ∀ d : Fin 2 →₀ ℕ, d = m (d 0) (d 1) := by
    intro d
    ext l
    fin_cases l <;> simp [m]
  have hmi : ∀ i j i' j', m i j = m i' j' → i = i' ∧ j = j' := by
    intro i j i' j' h
    have h0 := DFunLike.congr_fun h 0
    have h1 := DFunLike.congr_fun h 1
    simp [m] at h0 h1
    exact ⟨h0, h1⟩
  refine ⟨fun i j => coeff (m i j) p, ?_, ?_⟩
  swap
  · intro h2 i j hij
    apply coeff_eq_zero_of_totalDegree_lt
    have : ∑ l ∈ (m i j).support, (m i j) l = i + j := by
      have := Finsupp.sum_fintype (m i j) (fun _ a => a) (fun _ => rfl)
      rw [Fin.sum_univ_two] at this
      rw [show ∑ l ∈ (m i j).support, (m i j) l = _ from this]
      simp [m]
    rw [this]
    omega
  have key : p = ∑ q ∈ (Finset.range 4 ×ˢ Finset.range 4).filter (fun q => q.1 + q.2 ≤ 3), monomial (m q.1 q.2) (coeff (m q.1 q.2) p) := by
    ext d
    rw [coeff_sum]
    simp only [coeff_monomial]
    by_cases hd : d 0 + d 1 ≤ 3
    · rw [Finset.sum_eq_single (d 0, d 1)]
      · rw [if_pos (hm d).symm]
        exact congrArg (fun d => coeff d p) (hm d)
      · intro q _ hq
        rw [if_neg]
        intro h
        rw [hm d] at h
        obtain ⟨h1, h2⟩ := hmi _ _ _ _ h
        exact hq (Prod.ext h1 h2)
      · intro h
        exfalso
        apply h
        simp only [Finset.mem_filter, Finset.mem_product, Finset.mem_range]
        omega
    · rw [Finset.sum_eq_zero]
      · apply coeff_eq_zero_of_totalDegree_lt
        have : ∑ i ∈ d.support, d i = d 0 + d 1 := by
          have := Finsupp.sum_fintype d (fun _ a => a) (fun _ => rfl)
          rw [Fin.sum_univ_two] at this
          exact this
        rw [this]
        omega
      · intro q hq
        rw [if_neg]
        intro h
        rw [hm d] at h
        obtain ⟨h1, h2⟩ := hmi _ _ _ _ h
        simp only [Finset.mem_filter, Finset.mem_product, Finset.mem_range] at hq
        omega
  have hset : (Finset.range 4 ×ˢ Finset.range 4).filter (fun q : ℕ × ℕ => q.1 + q.2 ≤ 3) =
      {(0, 0), (1, 0), (0, 1), (2, 0), (1, 1), (0, 2), (3, 0), (2, 1), (1, 2), (0, 3)} := by decide
  rw [hset] at key
  simp only [m, mono_two] at key
  rw [Finset.sum_insert (by decide), Finset.sum_insert (by decide), Finset.sum_insert (by decide), Finset.sum_insert (by decide),
    Finset.sum_insert (by decide), Finset.sum_insert (by decide), Finset.sum_insert (by decide), Finset.sum_insert (by decide),
    Finset.sum_insert (by decide), Finset.sum_singleton] at key
  conv_lhs => rw [key]
  simp only [m]
  ring

theorem cubic_form (p : MvPolynomial (Fin 2) ℝ) (hp : p.totalDegree ≤ 3) :
    ∃ a : ℕ → ℕ → ℝ, p = C (a 0 0) + C (a 1 0) * X 0 + C (a 0 1) * X 1 + C (a 2 0) * X 0 ^ 2 + C (a 1 1) * X 0 * X 1 +
      C (a 0 2) * X 1 ^ 2 + C (a 3 0) * X 0 ^ 3 + C (a 2 1) * X 0 ^ 2 * X 1 + C (a 1 2) * X 0 * X 1 ^ 2 + C (a 0 3) * X 1 ^ 3 := by
  obtain ⟨a, h, -⟩ := cubic_form' p hp
  exact ⟨a, h⟩

theorem cubic_eval (a : ℕ → ℕ → ℝ) (x y : ℝ) :
    eval ![x, y] (C (a 0 0) + C (a 1 0) * X 0 + C (a 0 1) * X 1 + C (a 2 0) * X 0 ^ 2 + C (a 1 1) * X 0 * X 1 +
      C (a 0 2) * X 1 ^ 2 + C (a 3 0) * X 0 ^ 3 + C (a 2 1) * X 0 ^ 2 * X 1 + C (a 1 2) * X 0 * X 1 ^ 2 + C (a 0 3) * X 1 ^ 3) =
    a 0 0 + a 1 0 * x + a 0 1 * y + a 2 0 * x ^ 2 + a 1 1 * x * y + a 0 2 * y ^ 2 + a 3 0 * x ^ 3 + a 2 1 * x ^ 2 * y +
      a 1 2 * x * y ^ 2 + a 0 3 * y ^ 3 := by
  simp only [map_add, map_mul, map_pow, eval_C, eval_X, Matrix.cons_val_zero, Matrix.cons_val_one]

theorem cubic_dx (a : ℕ → ℕ → ℝ) (x y : ℝ) :
    eval ![x, y] (pderiv 0 (C (a 0 0) + C (a 1 0) * X 0 + C (a 0 1) * X 1 + C (a 2 0) * X 0 ^ 2 + C (a 1 1) * X 0 * X 1 +
      C (a 0 2) * X 1 ^ 2 + C (a 3 0) * X 0 ^ 3 + C (a 2 1) * X 0 ^ 2 * X 1 + C (a 1 2) * X 0 * X 1 ^ 2 + C (a 0 3) * X 1 ^ 3)) =
    a 1 0 + 2 * a 2 0 * x + a 1 1 * y + 3 * a 3 0 * x ^ 2 + 2 * a 2 1 * x * y + a 1 2 * y ^ 2 := by
  simp only [map_add, pderiv_mul, pderiv_C, pderiv_pow, pderiv_X_self, pderiv_X_of_ne (show (1 : Fin 2) ≠ 0 by decide), map_mul, map_pow,
    eval_C, eval_X, Matrix.cons_val_zero, Matrix.cons_val_one, map_zero, map_one, map_natCast]
  norm_num
  ring

theorem cubic_dy (a : ℕ → ℕ → ℝ) (x y : ℝ) :
    eval ![x, y] (pderiv 1 (C (a 0 0) + C (a 1 0) * X 0 + C (a 0 1) * X 1 + C (a 2 0) * X 0 ^ 2 + C (a 1 1) * X 0 * X 1 +
      C (a 0 2) * X 1 ^ 2 + C (a 3 0) * X 0 ^ 3 + C (a 2 1) * X 0 ^ 2 * X 1 + C (a 1 2) * X 0 * X 1 ^ 2 + C (a 0 3) * X 1 ^ 3)) =
    a 0 1 + 2 * a 0 2 * y + a 1 1 * x + 3 * a 0 3 * y ^ 2 + 2 * a 1 2 * x * y + a 2 1 * x ^ 2 := by
  simp only [map_add, pderiv_mul, pderiv_C, pderiv_pow, pderiv_X_self, pderiv_X_of_ne (show (0 : Fin 2) ≠ 1 by decide), map_mul, map_pow,
    eval_C, eval_X, Matrix.cons_val_zero, Matrix.cons_val_one, map_zero, map_one, map_natCast]
  norm_num
  ring

/-- A polynomial of degree at most three that vanishes everywhere on `![x, y]` is zero. -/
theorem cubic_coeffs (a : ℕ → ℕ → ℝ) (h : ∀ x y : ℝ, a 0 0 + a 1 0 * x + a 0 1 * y + a 2 0 * x ^ 2 + a 1 1 * x * y + a 0 2 * y ^ 2 +
    a 3 0 * x ^ 3 + a 2 1 * x ^ 2 * y + a 1 2 * x * y ^ 2 + a 0 3 * y ^ 3 = 0) : ∀ i j, i + j ≤ 3 → a i j = 0 := by
  have q00 := h 0 0
  have q1 := h 1 0
  have q2 := h (-1) 0
  have q3 := h 2 0
  have r1 := h 0 1
  have r2 := h 0 (-1)
  have r3 := h 0 2
  have s1 := h 1 1
  have s2 := h 1 (-1)
  have s3 := h (-1) 1
  norm_num at q00 q1 q2 q3 r1 r2 r3 s1 s2 s3
  have a20 : a 2 0 = 0 := by linarith
  have a30 : a 3 0 = 0 := by linarith
  have a10 : a 1 0 = 0 := by linarith
  have a02 : a 0 2 = 0 := by linarith
  have a03 : a 0 3 = 0 := by linarith
  have a01 : a 0 1 = 0 := by linarith
  have a12 : a 1 2 = 0 := by linarith
  have a21 : a 2 1 = 0 := by linarith
  have a11 : a 1 1 = 0 := by linarith
  intro i j hij
  rcases i with _ | _ | _ | _ | i <;> rcases j with _ | _ | _ | _ | j <;> first | assumption | omega

/-- The point of the triangle with coordinates `y`. -/
noncomputable def triPt (s : SimplexCell (Fin 2 → ℝ)) (y : Fin 2 → ℝ) : Fin 2 → ℝ :=
  s.v 0 + ∑ i : Fin 2, y i • (s.v ((i : ℕ) + 1) - s.v 0)

/-- A polynomial in the coordinates of the triangle. -/
noncomputable def triPull (s : SimplexCell (Fin 2 → ℝ)) (p : MvPolynomial (Fin 2) ℝ) : MvPolynomial (Fin 2) ℝ :=
  pullback (s.v 0) (fun i : Fin 2 => s.v ((i : ℕ) + 1)) p

theorem eval_triPull (s : SimplexCell (Fin 2 → ℝ)) (p : MvPolynomial (Fin 2) ℝ) (y : Fin 2 → ℝ) :
    eval y (triPull s p) = eval (triPt s y) p := eval_pullback _ _ _ _

theorem triPull_degree (s : SimplexCell (Fin 2 → ℝ)) (p : MvPolynomial (Fin 2) ℝ) : (triPull s p).totalDegree ≤ p.totalDegree :=
  totalDegree_pullback _ _ _

theorem triPt_eq (s : SimplexCell (Fin 2 → ℝ)) (x y : ℝ) :
    triPt s ![x, y] = ∑ i : Fin 3, (![1 - x - y, x, y] : Fin 3 → ℝ) i • s.v i := by
  unfold triPt
  rw [Fin.sum_univ_two, Fin.sum_univ_three]
  funext j
  simp
  ring

section
variable {s : SimplexCell (Fin 2 → ℝ)} {g : Fin 3 → Fin 2 → ℝ} {b : Fin 3 → ℝ}

theorem triPt_bary (hb : BaryForms (fun i : Fin 3 => s.v i) g b) (x y : ℝ) (i : Fin 3) :
    eval (triPt s ![x, y]) (linForm (g i) (b i)) = (![1 - x - y, x, y] : Fin 3 → ℝ) i := by
  rw [triPt_eq]
  exact hb.unique ![1 - x - y, x, y] (by rw [Fin.sum_univ_three]; simp; ring) i

theorem triPt_surj (hb : BaryForms (fun i : Fin 3 => s.v i) g b) (z : Fin 2 → ℝ) : ∃ x y : ℝ, triPt s ![x, y] = z := by
  refine ⟨eval z (linForm (g 1) (b 1)), eval z (linForm (g 2) (b 2)), ?_⟩
  rw [triPt_eq]
  have h1 := hb.sum_one z
  have h2 := hb.comb z
  conv_rhs => rw [← h2]
  rw [Fin.sum_univ_three] at h1
  rw [Fin.sum_univ_three, Fin.sum_univ_three]
  have h0 : 1 - eval z (linForm (g 1) (b 1)) - eval z (linForm (g 2) (b 2)) = eval z (linForm (g 0) (b 0)) := by linarith
  simp [h0]

theorem triPull_add (s : SimplexCell (Fin 2 → ℝ)) (p q : MvPolynomial (Fin 2) ℝ) : triPull s (p + q) = triPull s p + triPull s q := by
  unfold triPull pullback; exact map_add _ _ _

theorem triPull_cmul (s : SimplexCell (Fin 2 → ℝ)) (c : ℝ) (q : MvPolynomial (Fin 2) ℝ) : triPull s (C c * q) = C c * triPull s q := by
  unfold triPull pullback; rw [map_mul]; congr 1; exact algHom_C _ _

theorem pderiv_triPull (s : SimplexCell (Fin 2 → ℝ)) (i : Fin 2) (p : MvPolynomial (Fin 2) ℝ) :
    pderiv i (triPull s p) = ∑ l, C (s.v ((i : ℕ) + 1) l - s.v 0 l) * triPull s (pderiv l p) := by
  unfold triPull pullback
  refine pderiv_aeval _ i (fun l => s.v ((i : ℕ) + 1) l - s.v 0 l) (fun l => ?_) p
  rw [map_add, pderiv_C, zero_add, map_sum, Finset.sum_eq_single i]
  · rw [pderiv_mul, pderiv_C, zero_mul, zero_add, pderiv_X_self, mul_one]
  · intro k _ hk
    rw [pderiv_mul, pderiv_C, zero_mul, zero_add, pderiv_X_of_ne hk, mul_zero]
  · simp

/-- The gradients of the barycentric coordinates are dual to the edges. -/
theorem bary_dual (hb : BaryForms (fun i : Fin 3 => s.v i) g b) (j l : Fin 2) :
    g 1 j * (s.v 1 l - s.v 0 l) + g 2 j * (s.v 2 l - s.v 0 l) = if j = l then 1 else 0 := by
  have h1 := congrFun (hb.unit l) j
  have h2 := congrFun hb.sum_grad j
  rw [Finset.sum_apply, Fin.sum_univ_three] at h1 h2
  simp only [Pi.smul_apply, smul_eq_mul, Pi.zero_apply, Pi.single_apply] at h1 h2
  have e0 : ((0 : Fin 3) : ℕ) = 0 := rfl
  have e1 : ((1 : Fin 3) : ℕ) = 1 := rfl
  have e2 : ((2 : Fin 3) : ℕ) = 2 := rfl
  rw [e0, e1, e2] at h1
  rw [h1]
  linear_combination -(s.v 0 l) * h2

/-- The divergence in the coordinates of the triangle. -/
theorem div_triPull (hb : BaryForms (fun i : Fin 3 => s.v i) g b) (w : Fin 2 → MvPolynomial (Fin 2) ℝ) :
    pderiv 0 (triPull s (dotC (g 1) w)) + pderiv 1 (triPull s (dotC (g 2) w)) = triPull s (divP w) := by
  have hd : ∀ k : Fin 3, triPull s (dotC (g k) w) = C (g k 0) * triPull s (w 0) + C (g k 1) * triPull s (w 1) := by
    intro k
    unfold dotC
    rw [Fin.sum_univ_two, triPull_add, triPull_cmul, triPull_cmul]
  have hdiv : triPull s (divP w) = triPull s (pderiv 0 (w 0)) + triPull s (pderiv 1 (w 1)) := by
    unfold divP
    rw [Fin.sum_univ_two, triPull_add]
  have h00 := congrArg (C (σ := Fin 2)) (bary_dual hb 0 0)
  have h01 := congrArg (C (σ := Fin 2)) (bary_dual hb 0 1)
  have h10 := congrArg (C (σ := Fin 2)) (bary_dual hb 1 0)
  have h11 := congrArg (C (σ := Fin 2)) (bary_dual hb 1 1)
  simp only [map_add, map_mul, if_pos, if_neg (show (0 : Fin 2) ≠ 1 by decide), if_neg (show (1 : Fin 2) ≠ 0 by decide), map_one,
    map_zero] at h00 h01 h10 h11
  rw [hd, hd, hdiv]
  simp only [map_add, pderiv_mul, pderiv_C, zero_mul, zero_add, pderiv_triPull, Fin.sum_univ_two]
  have e0 : ((0 : Fin 2) : ℕ) + 1 = 1 := rfl
  have e1 : ((1 : Fin 2) : ℕ) + 1 = 2 := rfl
  rw [e0, e1]
  linear_combination triPull s (pderiv 0 (w 0)) * h00 + triPull s (pderiv 1 (w 0)) * h01 + triPull s (pderiv 0 (w 1)) * h10 +
    triPull s (pderiv 1 (w 1)) * h11

end
end
end FIAT
