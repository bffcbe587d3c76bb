/-
Unisolvence of the Arnold-Winther elements (C61, C62).
-/
import Verif.Lemmas.TriIntegral
import Verif.Lemmas.MTWZero

namespace FIAT
open MvPolynomial MeasureTheory
section
variable {s : SimplexCell (Fin 2 → ℝ)} {g : Fin 3 → Fin 2 → ℝ} {b : Fin 3 → ℝ}

/-- A matrix field whose components along the gradients vanish. -/
theorem sym_zero_of_grads (hb : BaryForms (fun i : Fin 3 => s.v i) g b) {u : Fin 2 × Fin 2 → MvPolynomial (Fin 2) ℝ}
    (h : ∀ k l x, quadForm u x (g k) (g l) = 0) : u = 0 := by
  funext c
  obtain ⟨i, j⟩ := c
  apply MvPolynomial.funext
  intro x
  rw [← quadForm_entry u x i j, hb.unit i, hb.unit j]
  simp [quadForm, Fin.sum_univ_two, Fin.sum_univ_three]
  have e := fun k l => h k l x
  simp only [quadForm, Fin.sum_univ_two] at e
  linear_combination s.v 0 i * (s.v 0 j * e 0 0 + s.v 1 j * e 0 1 + s.v 2 j * e 0 2) +
    s.v 1 i * (s.v 0 j * e 1 0 + s.v 1 j * e 1 1 + s.v 2 j * e 1 2) + s.v 2 i * (s.v 0 j * e 2 0 + s.v 1 j * e 2 1 + s.v 2 j * e 2 2)

/-- The components along the gradients sum to zero. -/
theorem quad_sum_grad (hb : BaryForms (fun i : Fin 3 => s.v i) g b) (u : Fin 2 × Fin 2 → MvPolynomial (Fin 2) ℝ) (x w : Fin 2 → ℝ) :
    quadForm u x (g 0) w = -(quadForm u x (g 1) w + quadForm u x (g 2) w) := by
  have h0 := congrFun hb.sum_grad 0
  have h1 := congrFun hb.sum_grad 1
  rw [Finset.sum_apply, Fin.sum_univ_three, Pi.zero_apply] at h0 h1
  simp only [quadForm, Fin.sum_univ_two]
  linear_combination (eval x (u (0, 0)) * w 0 + eval x (u (0, 1)) * w 1) * h0 + (eval x (u (1, 0)) * w 0 + eval x (u (1, 1)) * w 1) * h1

/-- The integral of the component `v^T u w`. -/
theorem quad_integral (hind : AffineIndependent ℝ fun i : Fin 3 => s.v i) {u : Fin 2 × Fin 2 → MvPolynomial (Fin 2) ℝ}
    (hint : ∀ c, ∫ x in convexHull ℝ (Set.range fun i : Fin 3 => s.v i), eval x (u c) = 0) (v w : Fin 2 → ℝ) :
    ∫ x in convexHull ℝ (Set.range fun i : Fin 3 => s.v i), quadForm u x v w = 0 := by
  unfold quadForm
  have hi : ∀ i j, Integrable (fun x : Fin 2 → ℝ => v i * eval x (u (i, j)) * w j)
      (volume.restrict (convexHull ℝ (Set.range fun i : Fin 3 => s.v i))) := fun i j =>
    hull_integrable _ ((continuous_const.mul (u (i, j)).continuous_eval).mul continuous_const)
  rw [integral_finsetSum _ fun i _ => integrable_finset_sum _ fun j _ => hi i j]
  refine Finset.sum_eq_zero fun i _ => ?_
  rw [integral_finsetSum _ fun j _ => hi i j]
  refine Finset.sum_eq_zero fun j _ => ?_
  rw [integral_mul_const, integral_const_mul, hint, mul_zero, zero_mul]

/-- The divergence of the rows, contracted with a vector. -/
theorem quad_div (hb : BaryForms (fun i : Fin 3 => s.v i) g b) {u : Fin 2 × Fin 2 → MvPolynomial (Fin 2) ℝ}
    (hdiv : ∀ i, (divP fun j => u (i, j)).totalDegree ≤ 1) (v : Fin 2 → ℝ) :
    (pderiv 0 (triPull s (biC v (g 1) u)) + pderiv 1 (triPull s (biC v (g 2) u))).totalDegree ≤ 1 := by
  have h := div_triPull hb fun j => ∑ i, C (v i) * u (i, j)
  have e : ∀ k, dotC (g k) (fun j => ∑ i, C (v i) * u (i, j)) = biC v (g k) u := by
    intro k
    unfold dotC biC
    simp only [Fin.sum_univ_two, map_mul]
    ring
  rw [e, e] at h
  rw [h]
  refine (triPull_degree _ _).trans ?_
  have e2 : (divP fun j => ∑ i, C (v i) * u (i, j)) = ∑ i, C (v i) * divP fun j => u (i, j) := by
    unfold divP
    simp only [Fin.sum_univ_two, map_add, pderiv_mul, pderiv_C, zero_mul, zero_add]
    ring
  rw [e2]
  refine totalDegree_finsetSum_le fun i _ => (totalDegree_mul _ _).trans ?_
  rw [totalDegree_C, zero_add]
  exact hdiv i

/-- The quadratic part of an affine function. -/
theorem affine_values {p : MvPolynomial (Fin 2) ℝ} (hp : p.totalDegree ≤ 1) :
    ∃ α β γ : ℝ, ∀ x y : ℝ, eval ![x, y] p = α + β * x + γ * y := by
  obtain ⟨g, b, h⟩ := affine_of_degree p hp
  refine ⟨b, g 0, g 1, fun x y => ?_⟩
  rw [h, Fin.sum_univ_two]
  simp
  ring

/-- A symmetric matrix field is determined by three components. -/
theorem sym_zero_of_three (hb : BaryForms (fun i : Fin 3 => s.v i) g b) {u : Fin 2 × Fin 2 → MvPolynomial (Fin 2) ℝ}
    (hsym : ∀ x v w, quadForm u x v w = quadForm u x w v) (z11 : ∀ x, quadForm u x (g 1) (g 1) = 0) (z12 : ∀ x, quadForm u x (g 1) (g 2) = 0)
    (z22 : ∀ x, quadForm u x (g 2) (g 2) = 0) : u = 0 := by
  apply sym_zero_of_grads hb
  intro k l x
  have e11 := z11 x
  have e12 := z12 x
  have e22 := z22 x
  have e21 := (hsym x (g 2) (g 1)).trans e12
  have e01 : quadForm u x (g 0) (g 1) = 0 := by rw [quad_sum_grad hb, e11, e21]; norm_num
  have e02 : quadForm u x (g 0) (g 2) = 0 := by rw [quad_sum_grad hb, e12, e22]; norm_num
  have e10 := (hsym x (g 1) (g 0)).trans e01
  have e20 := (hsym x (g 2) (g 0)).trans e02
  have e00 : quadForm u x (g 0) (g 0) = 0 := by rw [quad_sum_grad hb, e10, e20]; norm_num
  fin_cases k <;> fin_cases l <;> assumption

private theorem aw_algebra (A B E : ℕ → ℕ → ℝ) (a1 : ∀ y : ℝ, A 0 0 + A 1 0 * 0 + A 0 1 * y + A 2 0 * 0 ^ 2 + A 1 1 * 0 * y + A 0 2 * y ^ 2 + A 3 0 * 0 ^ 3 + A 2 1 * 0 ^ 2 * y + A 1 2 * 0 * y ^ 2 + A 0 3 * y ^ 3 = 0)
    (b1 : ∀ y : ℝ, B 0 0 + B 1 0 * 0 + B 0 1 * y + B 2 0 * 0 ^ 2 + B 1 1 * 0 * y + B 0 2 * y ^ 2 + B 3 0 * 0 ^ 3 + B 2 1 * 0 ^ 2 * y + B 1 2 * 0 * y ^ 2 + B 0 3 * y ^ 3 = 0)
    (b2 : ∀ x : ℝ, B 0 0 + B 1 0 * x + B 0 1 * 0 + B 2 0 * x ^ 2 + B 1 1 * x * 0 + B 0 2 * 0 ^ 2 + B 3 0 * x ^ 3 + B 2 1 * x ^ 2 * 0 + B 1 2 * x * 0 ^ 2 + B 0 3 * 0 ^ 3 = 0)
    (e2 : ∀ x : ℝ, E 0 0 + E 1 0 * x + E 0 1 * 0 + E 2 0 * x ^ 2 + E 1 1 * x * 0 + E 0 2 * 0 ^ 2 + E 3 0 * x ^ 3 + E 2 1 * x ^ 2 * 0 + E 1 2 * x * 0 ^ 2 + E 0 3 * 0 ^ 3 = 0)
    (m1 : ∀ x : ℝ, -(A 0 0 + A 1 0 * x + A 0 1 * (1 - x) + A 2 0 * x ^ 2 + A 1 1 * x * (1 - x) + A 0 2 * (1 - x) ^ 2 + A 3 0 * x ^ 3 + A 2 1 * x ^ 2 * (1 - x) + A 1 2 * x * (1 - x) ^ 2 + A 0 3 * (1 - x) ^ 3 +
      (B 0 0 + B 1 0 * x + B 0 1 * (1 - x) + B 2 0 * x ^ 2 + B 1 1 * x * (1 - x) + B 0 2 * (1 - x) ^ 2 + B 3 0 * x ^ 3 + B 2 1 * x ^ 2 * (1 - x) + B 1 2 * x * (1 - x) ^ 2 + B 0 3 * (1 - x) ^ 3)) = 0)
    (m2 : ∀ x : ℝ, -(B 0 0 + B 1 0 * x + B 0 1 * (1 - x) + B 2 0 * x ^ 2 + B 1 1 * x * (1 - x) + B 0 2 * (1 - x) ^ 2 + B 3 0 * x ^ 3 + B 2 1 * x ^ 2 * (1 - x) + B 1 2 * x * (1 - x) ^ 2 + B 0 3 * (1 - x) ^ 3 +
      (E 0 0 + E 1 0 * x + E 0 1 * (1 - x) + E 2 0 * x ^ 2 + E 1 1 * x * (1 - x) + E 0 2 * (1 - x) ^ 2 + E 3 0 * x ^ 3 + E 2 1 * x ^ 2 * (1 - x) + E 1 2 * x * (1 - x) ^ 2 + E 0 3 * (1 - x) ^ 3)) = 0) (α β γ α' β' γ' : ℝ)
    (dA : ∀ x y : ℝ, A 1 0 + 2 * A 2 0 * x + A 1 1 * y + 3 * A 3 0 * x ^ 2 + 2 * A 2 1 * x * y + A 1 2 * y ^ 2 +
      (B 0 1 + B 1 1 * x + 2 * B 0 2 * y + B 2 1 * x ^ 2 + 2 * B 1 2 * x * y + 3 * B 0 3 * y ^ 2) = α + β * x + γ * y)
    (dE : ∀ x y : ℝ, B 1 0 + 2 * B 2 0 * x + B 1 1 * y + 3 * B 3 0 * x ^ 2 + 2 * B 2 1 * x * y + B 1 2 * y ^ 2 +
      (E 0 1 + E 1 1 * x + 2 * E 0 2 * y + E 2 1 * x ^ 2 + 2 * E 1 2 * x * y + 3 * E 0 3 * y ^ 2) = α' + β' * x + γ' * y)
    (iA : A 0 0 / 2 + (A 1 0 + A 0 1) / 6 + (A 2 0 + A 0 2) / 12 + A 1 1 / 24 + (A 3 0 + A 0 3) / 20 + (A 2 1 + A 1 2) / 60 = 0)
    (iB : B 0 0 / 2 + (B 1 0 + B 0 1) / 6 + (B 2 0 + B 0 2) / 12 + B 1 1 / 24 + (B 3 0 + B 0 3) / 20 + (B 2 1 + B 1 2) / 60 = 0)
    (iE : E 0 0 / 2 + (E 1 0 + E 0 1) / 6 + (E 2 0 + E 0 2) / 12 + E 1 1 / 24 + (E 3 0 + E 0 3) / 20 + (E 2 1 + E 1 2) / 60 = 0) :
    (∀ i j, i + j ≤ 3 → A i j = 0) ∧ (∀ i j, i + j ≤ 3 → B i j = 0) ∧ ∀ i j, i + j ≤ 3 → E i j = 0 := by
  have x1 := a1 0; have x2 := a1 1; have x3 := a1 (-1); have x4 := a1 2
  norm_num at x1 x2 x3 x4
  have A02 : A 0 2 = 0 := by linarith
  have A03 : A 0 3 = 0 := by linarith
  have A01 : A 0 1 = 0 := by linarith
  have y1 := e2 0; have y2 := e2 1; have y3 := e2 (-1); have y4 := e2 2
  norm_num at y1 y2 y3 y4
  have E20 : E 2 0 = 0 := by linarith
  have E30 : E 3 0 = 0 := by linarith
  have E10 : E 1 0 = 0 := by linarith
  have z1 := b1 0; have z2 := b1 1; have z3 := b1 (-1); have z4 := b1 2
  norm_num at z1 z2 z3 z4
  have B02 : B 0 2 = 0 := by linarith
  have B03 : B 0 3 = 0 := by linarith
  have B01 : B 0 1 = 0 := by linarith
  have w2 := b2 1; have w3 := b2 (-1); have w4 := b2 2
  norm_num [z1] at w2 w3 w4
  have B20 : B 2 0 = 0 := by linarith
  have B30 : B 3 0 = 0 := by linarith
  have B10 : B 1 0 = 0 := by linarith
  have p1 := m1 0; have p2 := m1 1; have p3 := m1 (-1); have p4 := m1 2
  have q1 := m2 0; have q2 := m2 1; have q3 := m2 (-1); have q4 := m2 2
  have d1 := dA 0 0; have d2 := dA 1 0; have d3 := dA (-1) 0; have d4 := dA 0 1; have d5 := dA 0 (-1); have d6 := dA 1 1
  have f1 := dE 0 0; have f2 := dE 1 0; have f3 := dE (-1) 0; have f4 := dE 0 1; have f5 := dE 0 (-1); have f6 := dE 1 1
  norm_num [x1, A01, A02, A03, y1, E10, E20, E30, z1, B01, B02, B03, B10, B20, B30] at p1 p2 p3 p4 q1 q2 q3 q4 d1 d2 d3 d4 d5 d6 f1 f2 f3 f4 f5 f6 iA iB iE
  have B11 : B 1 1 = 0 := by linarith
  have B12 : B 1 2 = 0 := by linarith
  have B21 : B 2 1 = 0 := by linarith
  have hA0 : ∀ i j, i + j ≤ 3 → A i j = 0 := by
    have a1 : A 1 0 = 0 := by linarith
    have a2 : A 2 0 = 0 := by linarith
    have a3 : A 3 0 = 0 := by linarith
    have a4 : A 1 1 = 0 := by linarith
    have a5 : A 2 1 = 0 := by linarith
    have a6 : A 1 2 = 0 := by linarith
    intro i j hij
    rcases i with _ | _ | _ | _ | i <;> rcases j with _ | _ | _ | _ | j <;> first | assumption | omega
  have hE0 : ∀ i j, i + j ≤ 3 → E i j = 0 := by
    have a1 : E 0 1 = 0 := by linarith
    have a2 : E 0 2 = 0 := by linarith
    have a3 : E 0 3 = 0 := by linarith
    have a4 : E 1 1 = 0 := by linarith
    have a5 : E 2 1 = 0 := by linarith
    have a6 : E 1 2 = 0 := by linarith
    intro i j hij
    rcases i with _ | _ | _ | _ | i <;> rcases j with _ | _ | _ | _ | j <;> first | assumption | omega
  have hB0 : ∀ i j, i + j ≤ 3 → B i j = 0 := by
    intro i j hij
    rcases i with _ | _ | _ | _ | i <;> rcases j with _ | _ | _ | _ | j <;> first | assumption | omega
  exact ⟨hA0, hB0, hE0⟩

/-- A symmetric matrix field of degree three that vanishes on the normals of the edges, has a divergence of degree one and integral zero. -/
theorem aw_zero (hs : ProperSimplex ℝ s) (hb : BaryForms (fun i : Fin 3 => s.v i) g b) {u : Fin 2 × Fin 2 → MvPolynomial (Fin 2) ℝ}
    (hu : IsSymField 3 u) (hedge : ∀ (i : Fin 3) x v, eval x (linForm (g i) (b i)) = 0 → quadForm u x (g i) v = 0)
    (hdiv : ∀ i, (divP fun j => u (i, j)).totalDegree ≤ 1)
    (hint : ∀ c, ∫ x in convexHull ℝ (Set.range fun i : Fin 3 => s.v i), eval x (u c) = 0) : u = 0 := by
  have hind := proper_independent hs
  have hsym : ∀ x v w, quadForm u x v w = quadForm u x w v := quadForm_symm hu.1
  have hdeg : ∀ k l, (triPull s (biC (g k) (g l) u)).totalDegree ≤ 3 := fun k l => (triPull_degree _ _).trans (biC_degree _ _ hu.2)
  obtain ⟨A, hA⟩ := cubic_form _ (hdeg 1 1)
  obtain ⟨B, hB⟩ := cubic_form _ (hdeg 1 2)
  obtain ⟨E, hE⟩ := cubic_form _ (hdeg 2 2)
  have hB' : triPull s (biC (g 2) (g 1) u) = triPull s (biC (g 1) (g 2) u) := by
    congr 1
    apply MvPolynomial.funext
    intro x
    rw [eval_biC, eval_biC, hsym]
  have vA := fun x y : ℝ => (eval_biC _ _ _ _).symm.trans ((eval_triPull s (biC (g 1) (g 1) u) ![x, y]).symm.trans ((congrArg (eval ![x, y]) hA).trans (cubic_eval A x y)))
  have vB := fun x y : ℝ => (eval_biC _ _ _ _).symm.trans ((eval_triPull s (biC (g 1) (g 2) u) ![x, y]).symm.trans ((congrArg (eval ![x, y]) hB).trans (cubic_eval B x y)))
  have vE := fun x y : ℝ => (eval_biC _ _ _ _).symm.trans ((eval_triPull s (biC (g 2) (g 2) u) ![x, y]).symm.trans ((congrArg (eval ![x, y]) hE).trans (cubic_eval E x y)))
  have n1 : ∀ (y : ℝ) v, quadForm u (triPt s ![0, y]) (g 1) v = 0 := fun y v => hedge 1 _ v (by rw [triPt_bary hb]; simp)
  have n2 : ∀ (x : ℝ) v, quadForm u (triPt s ![x, 0]) (g 2) v = 0 := fun y v => hedge 2 _ v (by rw [triPt_bary hb]; simp)
  have n0 : ∀ (x : ℝ) v, quadForm u (triPt s ![x, 1 - x]) (g 0) v = 0 := fun y v => hedge 0 _ v (by rw [triPt_bary hb]; simp)
  simp only [quad_sum_grad hb] at n0
  have a1 := fun y => n1 y (g 1)
  have b1 := fun y => n1 y (g 2)
  have b2 := fun x => n2 x (g 1)
  have e2 := fun x => n2 x (g 2)
  have m1 := fun x => n0 x (g 1)
  have m2 := fun x => n0 x (g 2)
  simp only [hsym _ (g 2) (g 1), vA, vB, vE] at a1 b1 b2 e2 m1 m2
  obtain ⟨α, β, γ, dA⟩ := affine_values (quad_div hb hdiv (g 1))
  obtain ⟨α', β', γ', dE⟩ := affine_values (quad_div hb hdiv (g 2))
  rw [hB'] at dE
  simp only [map_add (eval _), hA, hB, hE, cubic_dx, cubic_dy] at dA dE
  have hdet := edge_det_ne hind
  have iA := tri_cubic s hdet _ A vA (quad_integral hind hint _ _)
  have iB := tri_cubic s hdet _ B vB (quad_integral hind hint _ _)
  have iE := tri_cubic s hdet _ E vE (quad_integral hind hint _ _)
  obtain ⟨hA0, hB0, hE0⟩ := aw_algebra A B E a1 b1 b2 e2 m1 m2 α β γ α' β' γ' (fun x y => by linarith [dA x y]) (fun x y => by linarith [dE x y]) iA iB iE
  have z11 : ∀ x, quadForm u x (g 1) (g 1) = 0 := by
    intro x
    obtain ⟨x, y, rfl⟩ := triPt_surj hb x
    rw [vA]
    simp [hA0]
  have z12 : ∀ x, quadForm u x (g 1) (g 2) = 0 := by
    intro x
    obtain ⟨x, y, rfl⟩ := triPt_surj hb x
    rw [vB]
    simp [hB0]
  have z22 : ∀ x, quadForm u x (g 2) (g 2) = 0 := by
    intro x
    obtain ⟨x, y, rfl⟩ := triPt_surj hb x
    rw [vE]
    simp [hE0]
  exact sym_zero_of_three hb hsym z11 z12 z22

private theorem aw_nc_algebra (A B E : ℕ → ℕ → ℝ) (a1 : ∀ y : ℝ, A 0 0 + A 1 0 * 0 + A 0 1 * y + A 2 0 * 0 ^ 2 + A 1 1 * 0 * y + A 0 2 * y ^ 2 = 0)
    (e2 : ∀ x : ℝ, E 0 0 + E 1 0 * x + E 0 1 * 0 + E 2 0 * x ^ 2 + E 1 1 * x * 0 + E 0 2 * 0 ^ 2 = 0)
    (m1 : ∀ x : ℝ, A 0 0 + A 1 0 * x + A 0 1 * (1 - x) + A 2 0 * x ^ 2 + A 1 1 * x * (1 - x) + A 0 2 * (1 - x) ^ 2 +
      2 * (B 0 0 + B 1 0 * x + B 0 1 * (1 - x) + B 2 0 * x ^ 2 + B 1 1 * x * (1 - x) + B 0 2 * (1 - x) ^ 2) +
      (E 0 0 + E 1 0 * x + E 0 1 * (1 - x) + E 2 0 * x ^ 2 + E 1 1 * x * (1 - x) + E 0 2 * (1 - x) ^ 2) = 0)
    (t10 : B 0 0 + B 0 1 / 2 + B 0 2 / 3 = 0) (t11 : B 0 0 / 2 + B 0 1 / 3 + B 0 2 / 4 = 0)
    (t20 : B 0 0 + B 1 0 / 2 + B 2 0 / 3 = 0) (t21 : B 0 0 / 2 + B 1 0 / 3 + B 2 0 / 4 = 0)
    (t0 : ∀ c0 c1 c2 : ℝ, (∀ x : ℝ, B 0 0 + B 1 0 * (1 - x) + B 0 1 * x + B 2 0 * (1 - x) ^ 2 + B 1 1 * (1 - x) * x + B 0 2 * x ^ 2 +
      (E 0 0 + E 1 0 * (1 - x) + E 0 1 * x + E 2 0 * (1 - x) ^ 2 + E 1 1 * (1 - x) * x + E 0 2 * x ^ 2) = c0 + c1 * x + c2 * x ^ 2) →
      c0 + c1 / 2 + c2 / 3 = 0 ∧ c0 / 2 + c1 / 3 + c2 / 4 = 0)
    (iA : A 0 0 / 2 + (A 1 0 + A 0 1) / 6 + (A 2 0 + A 0 2) / 12 + A 1 1 / 24 = 0) (iB : B 0 0 / 2 + (B 1 0 + B 0 1) / 6 + (B 2 0 + B 0 2) / 12 + B 1 1 / 24 = 0) (iE : E 0 0 / 2 + (E 1 0 + E 0 1) / 6 + (E 2 0 + E 0 2) / 12 + E 1 1 / 24 = 0) :
    (∀ i j, i + j ≤ 2 → A i j = 0) ∧ (∀ i j, i + j ≤ 2 → B i j = 0) ∧ ∀ i j, i + j ≤ 2 → E i j = 0 := by
  have x1 := a1 0; have x2 := a1 1; have x3 := a1 (-1)
  norm_num at x1 x2 x3
  have A02 : A 0 2 = 0 := by linarith
  have A01 : A 0 1 = 0 := by linarith
  have y1 := e2 0; have y2 := e2 1; have y3 := e2 (-1)
  norm_num at y1 y2 y3
  have E20 : E 2 0 = 0 := by linarith
  have E10 : E 1 0 = 0 := by linarith
  have p1 := m1 0; have p2 := m1 1; have p3 := m1 (-1)
  obtain ⟨t00, t01⟩ := t0 (B 0 0 + B 1 0 + B 2 0 + E 0 0 + E 1 0 + E 2 0)
    (B 0 1 - B 1 0 - 2 * B 2 0 + B 1 1 + E 0 1 - E 1 0 - 2 * E 2 0 + E 1 1)
    (B 2 0 - B 1 1 + B 0 2 + E 2 0 - E 1 1 + E 0 2) (fun x => by ring)
  norm_num [x1, A01, A02, y1, E10, E20] at p1 p2 p3 t00 t01 iA iB iE
  have hA0 : ∀ i j, i + j ≤ 2 → A i j = 0 := by
    have a1 : A 1 0 = 0 := by linarith
    have a2 : A 2 0 = 0 := by linarith
    have a4 : A 1 1 = 0 := by linarith
    intro i j hij
    rcases i with _ | _ | _ | i <;> rcases j with _ | _ | _ | j <;> first | assumption | omega
  have hE0 : ∀ i j, i + j ≤ 2 → E i j = 0 := by
    have a1 : E 0 1 = 0 := by linarith
    have a2 : E 0 2 = 0 := by linarith
    have a4 : E 1 1 = 0 := by linarith
    intro i j hij
    rcases i with _ | _ | _ | i <;> rcases j with _ | _ | _ | j <;> first | assumption | omega
  have hB0 : ∀ i j, i + j ≤ 2 → B i j = 0 := by
    have a0 : B 0 0 = 0 := by linarith
    have a1 : B 0 1 = 0 := by linarith
    have a2 : B 0 2 = 0 := by linarith
    have a3 : B 1 0 = 0 := by linarith
    have a5 : B 2 0 = 0 := by linarith
    have a4 : B 1 1 = 0 := by linarith
    intro i j hij
    rcases i with _ | _ | _ | i <;> rcases j with _ | _ | _ | j <;> first | assumption | omega
  exact ⟨hA0, hB0, hE0⟩


/-- A symmetric matrix field of degree two without normal-normal components on the edges, whose normal-tangential components are orthogonal to
the polynomials of degree one, with integral zero. -/
theorem aw_nc_zero (hs : ProperSimplex ℝ s) (hb : BaryForms (fun i : Fin 3 => s.v i) g b) {u : Fin 2 × Fin 2 → MvPolynomial (Fin 2) ℝ}
    (hu : IsSymField 2 u) (hnn : ∀ (i : Fin 3) x, eval x (linForm (g i) (b i)) = 0 → quadForm u x (g i) (g i) = 0)
    (hnt : ∀ i a c : Fin 3, a ≠ i → c ≠ i → a ≠ c → ∀ α β : ℝ,
      ∫ r in (0 : ℝ)..1, (α + β * r) * quadForm u (s.v a + r • (s.v c - s.v a)) (g i) (g c) = 0)
    (hint : ∀ c, ∫ x in convexHull ℝ (Set.range fun i : Fin 3 => s.v i), eval x (u c) = 0) : u = 0 := by
  have hind := proper_independent hs
  have hsym : ∀ x v w, quadForm u x v w = quadForm u x w v := quadForm_symm hu.1
  have hdeg : ∀ k l, (triPull s (biC (g k) (g l) u)).totalDegree ≤ 2 := fun k l => (triPull_degree _ _).trans (biC_degree _ _ hu.2)
  obtain ⟨A, hA, hA3⟩ := cubic_form' _ ((hdeg 1 1).trans (by norm_num))
  obtain ⟨B, hB, hB3⟩ := cubic_form' _ ((hdeg 1 2).trans (by norm_num))
  obtain ⟨E, hE, hE3⟩ := cubic_form' _ ((hdeg 2 2).trans (by norm_num))
  have hA3 := hA3 (hdeg 1 1)
  have hB3 := hB3 (hdeg 1 2)
  have hE3 := hE3 (hdeg 2 2)
  have cA := fun x y : ℝ => (eval_biC _ _ _ _).symm.trans ((eval_triPull s (biC (g 1) (g 1) u) ![x, y]).symm.trans ((congrArg (eval ![x, y]) hA).trans (cubic_eval A x y)))
  have cB := fun x y : ℝ => (eval_biC _ _ _ _).symm.trans ((eval_triPull s (biC (g 1) (g 2) u) ![x, y]).symm.trans ((congrArg (eval ![x, y]) hB).trans (cubic_eval B x y)))
  have cE := fun x y : ℝ => (eval_biC _ _ _ _).symm.trans ((eval_triPull s (biC (g 2) (g 2) u) ![x, y]).symm.trans ((congrArg (eval ![x, y]) hE).trans (cubic_eval E x y)))
  have hdet := edge_det_ne hind
  have iA := tri_cubic s hdet _ A cA (quad_integral hind hint _ _)
  have iB := tri_cubic s hdet _ B cB (quad_integral hind hint _ _)
  have iE := tri_cubic s hdet _ E cE (quad_integral hind hint _ _)
  have vA : ∀ x y : ℝ, quadForm u (triPt s ![x, y]) (g 1) (g 1) = A 0 0 + A 1 0 * x + A 0 1 * y + A 2 0 * x ^ 2 + A 1 1 * x * y + A 0 2 * y ^ 2 := by
    intro x y
    rw [cA, hA3 3 0 rfl, hA3 2 1 rfl, hA3 1 2 rfl, hA3 0 3 rfl]
    ring
  have vB : ∀ x y : ℝ, quadForm u (triPt s ![x, y]) (g 1) (g 2) = B 0 0 + B 1 0 * x + B 0 1 * y + B 2 0 * x ^ 2 + B 1 1 * x * y + B 0 2 * y ^ 2 := by
    intro x y
    rw [cB, hB3 3 0 rfl, hB3 2 1 rfl, hB3 1 2 rfl, hB3 0 3 rfl]
    ring
  have vE : ∀ x y : ℝ, quadForm u (triPt s ![x, y]) (g 2) (g 2) = E 0 0 + E 1 0 * x + E 0 1 * y + E 2 0 * x ^ 2 + E 1 1 * x * y + E 0 2 * y ^ 2 := by
    intro x y
    rw [cE, hE3 3 0 rfl, hE3 2 1 rfl, hE3 1 2 rfl, hE3 0 3 rfl]
    ring
  rw [hA3 3 0 rfl, hA3 2 1 rfl, hA3 1 2 rfl, hA3 0 3 rfl] at iA
  rw [hB3 3 0 rfl, hB3 2 1 rfl, hB3 1 2 rfl, hB3 0 3 rfl] at iB
  rw [hE3 3 0 rfl, hE3 2 1 rfl, hE3 1 2 rfl, hE3 0 3 rfl] at iE
  have n1 : ∀ y : ℝ, quadForm u (triPt s ![0, y]) (g 1) (g 1) = 0 := fun y => hnn 1 _ (by rw [triPt_bary hb]; simp)
  have n2 : ∀ x : ℝ, quadForm u (triPt s ![x, 0]) (g 2) (g 2) = 0 := fun y => hnn 2 _ (by rw [triPt_bary hb]; simp)
  have n0 : ∀ x : ℝ, quadForm u (triPt s ![x, 1 - x]) (g 1) (g 1) + 2 * quadForm u (triPt s ![x, 1 - x]) (g 1) (g 2) +
      quadForm u (triPt s ![x, 1 - x]) (g 2) (g 2) = 0 := by
    intro x
    have := hnn 0 (triPt s ![x, 1 - x]) (by rw [triPt_bary hb]; simp)
    rw [quad_sum_grad hb, hsym _ (g 1), hsym _ (g 2), quad_sum_grad hb, quad_sum_grad hb, hsym _ (g 2) (g 1)] at this
    linarith
  simp only [vA, vB, vE] at n0 n1 n2
  have p01 : ∀ r : ℝ, s.v ((0 : Fin 3) : ℕ) + r • (s.v ((1 : Fin 3) : ℕ) - s.v ((0 : Fin 3) : ℕ)) = triPt s ![r, 0] := by
    intro r; rw [triPt_eq, Fin.sum_univ_three]; funext j; simp; try ring
  have p02 : ∀ r : ℝ, s.v ((0 : Fin 3) : ℕ) + r • (s.v ((2 : Fin 3) : ℕ) - s.v ((0 : Fin 3) : ℕ)) = triPt s ![0, r] := by
    intro r; rw [triPt_eq, Fin.sum_univ_three]; funext j; simp; try ring
  have p12 : ∀ r : ℝ, s.v ((1 : Fin 3) : ℕ) + r • (s.v ((2 : Fin 3) : ℕ) - s.v ((1 : Fin 3) : ℕ)) = triPt s ![1 - r, r] := by
    intro r; rw [triPt_eq, Fin.sum_univ_three]; funext j; simp; try ring
  have i01 := hnt 2 0 1 (by decide) (by decide) (by decide)
  have i02 := hnt 1 0 2 (by decide) (by decide) (by decide)
  have i12 := hnt 0 1 2 (by decide) (by decide) (by decide)
  simp only [p01, hsym _ (g 2) (g 1), vB] at i01
  simp only [p02, vB] at i02
  simp only [p12, quad_sum_grad hb, vB, vE] at i12
  have t10 := i02 1 0
  have t11 := i02 0 1
  have t20 := i01 1 0
  have t21 := i01 0 1
  rw [integral_poly6 (B 0 0) (B 0 1) (B 0 2) 0 0 0 0 _ (fun t => by ring)] at t10
  rw [integral_poly6 0 (B 0 0) (B 0 1) (B 0 2) 0 0 0 _ (fun t => by ring)] at t11
  rw [integral_poly6 (B 0 0) (B 1 0) (B 2 0) 0 0 0 0 _ (fun t => by ring)] at t20
  rw [integral_poly6 0 (B 0 0) (B 1 0) (B 2 0) 0 0 0 _ (fun t => by ring)] at t21
  obtain ⟨hA0, hB0, hE0⟩ := aw_nc_algebra A B E n1 n2 n0 (by linarith) (by linarith) (by linarith) (by linarith) (by
    intro c0 c1 c2 hc
    have s0 := i12 1 0
    have s1 := i12 0 1
    simp only [hc] at s0 s1
    rw [integral_poly6 (-c0) (-c1) (-c2) 0 0 0 0 _ (fun t => by ring)] at s0
    rw [integral_poly6 0 (-c0) (-c1) (-c2) 0 0 0 _ (fun t => by ring)] at s1
    constructor <;> linarith) (by linarith) (by linarith) (by linarith)
  apply sym_zero_of_three hb hsym
  · intro x
    obtain ⟨x, y, rfl⟩ := triPt_surj hb x
    rw [vA]
    simp [hA0]
  · intro x
    obtain ⟨x, y, rfl⟩ := triPt_surj hb x
    rw [vB]
    simp [hB0]
  · intro x
    obtain ⟨x, y, rfl⟩ := triPt_surj hb x
    rw [vE]
    simp [hE0]

end
end FIAT
