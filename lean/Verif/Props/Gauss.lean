/-
C28: the Gauss-Jacobi rules are exact to degree 2m-1.
-/
import Verif.Model.Quadrature
import Verif.Lemmas.JacobiRoots
import Mathlib.LinearAlgebra.Lagrange
import Mathlib.Tactic.IntervalCases

namespace FIAT
open Polynomial

/-- Specification: `xs` are the `m` distinct roots of the Jacobi polynomial the code evaluates. -/
def GaussNodes (a b : ℝ) (m : ℕ) (xs : List ℝ) : Prop :=
  xs.length = m ∧ xs.Nodup ∧ ∀ x ∈ xs, evalJacobi a b m x = 0

private theorem nat_gt (a : ℕ) : (-1 : ℝ) < a := by linarith [Nat.cast_nonneg (α := ℝ) a]

theorem evalJacobi_nat (a b m : ℕ) (x : ℝ) : evalJacobi (a : ℝ) b m x = (jacobiPoly (a : ℝ) b m).eval x := by
  rw [eval_jacobi_eq (a : ℝ) b m (jacobiOK_of_gt _ _ (nat_gt a) (nat_gt b) m) x]; rfl

theorem evalJacobiDeriv_nat (a b m : ℕ) (x : ℝ) :
    evalJacobiDeriv (a : ℝ) b m x = (derivative (jacobiPoly (a : ℝ) b m)).eval x := by
  rw [eval_jacobi_deriv_eq (a : ℝ) b m (jacobiOK_of_gt _ _ (by linarith [nat_gt a]) (by linarith [nat_gt b]) _) x]; rfl

/-- C28: the points exist: `P_m^(a,b)` has `m` distinct roots, and they all lie in the open interval. -/
theorem gauss_nodes_exist (a b m : ℕ) : ∃ xs, GaussNodes a b m xs := by
  obtain ⟨S, h1, h2⟩ := jacobi_roots a b m
  refine ⟨S.toList, by simpa using h1, S.nodup_toList, fun x hx => ?_⟩
  rw [evalJacobi_nat]
  exact (h2 x (Finset.mem_toList.1 hx)).2

theorem gauss_nodes_interior (a b m : ℕ) (xs : List ℝ) (h : GaussNodes a b m xs) : ∀ x ∈ xs, -1 < x ∧ x < 1 := by
  intro x hx
  have := h.2.2 x hx
  rw [evalJacobi_nat] at this
  exact jacobi_root_mem a b m x this

/-- ... and are unique up to their order. -/
theorem gauss_nodes_perm (a b m : ℕ) (xs ys : List ℝ) (hx : GaussNodes a b m xs) (hy : GaussNodes a b m ys) :
    xs.Perm ys := by
  classical
  have hroots : ∀ zs, GaussNodes a b m zs → zs.toFinset = (jacobiPoly (a : ℝ) b m).roots.toFinset := by
    intro zs hz
    apply Finset.eq_of_subset_of_card_le
    · intro x hx
      rw [Multiset.mem_toFinset, mem_roots (jacobiPoly_ne_zero a b m)]
      have := hz.2.2 x (List.mem_toFinset.1 hx)
      rw [evalJacobi_nat] at this
      exact this
    · rw [List.toFinset_card_of_nodup hz.2.1, hz.1]
      exact ((Multiset.toFinset_card_le _).trans (card_roots' _)).trans (jacobiPoly_lead (a : ℝ) b m).2
  refine (List.perm_ext_iff_of_nodup hx.2.1 hy.2.1).2 fun x => ?_
  rw [← List.mem_toFinset, ← List.mem_toFinset, hroots xs hx, hroots ys hy]

/-- The interpolatory weight of node `x`. -/
private noncomputable def iw (a b : ℕ) (S : Finset ℝ) (x : ℝ) : ℝ := pint (jw a b * Lagrange.basis S id x)

private theorem iw_exact (a b m : ℕ) (hm : 1 ≤ m) (S : Finset ℝ) (hS : S.card = m)
    (hr : ∀ x ∈ S, (jacobiPoly (a : ℝ) b m).eval x = 0) (p : ℝ[X]) (hp : p.degree < (2 * m : ℕ)) :
    ∑ x ∈ S, iw a b S x * p.eval x = pint (jw a b * p) := by
  set P := jacobiPoly (a : ℝ) b m with hP
  have hP0 : P ≠ 0 := jacobiPoly_ne_zero a b m
  have hPd : P.natDegree = m := le_antisymm (jacobiPoly_lead (a : ℝ) b m).2
    (le_natDegree_of_ne_zero (jacobiPoly_lead_pos (a : ℝ) b (nat_gt a) (nat_gt b) m).ne')
  have hdm : P * (p / P) + p % P = p := EuclideanDomain.div_add_mod p P
  have hmod : (p % P).degree < m := by
    have := EuclideanDomain.mod_lt p hP0
    have h2 : (p % P).degree < P.degree := this
    rwa [degree_eq_natDegree hP0, hPd] at h2
  have hdiv : (p / P).degree < m := by
    by_cases hz : p / P = 0
    · rw [hz, degree_zero]; exact WithBot.bot_lt_coe m
    · have h1 : P.degree ≤ p.degree := by
        by_contra hlt
        exact hz ((Polynomial.div_eq_zero_iff hP0).2 (not_le.1 hlt))
      have h2 := degree_add_div hP0 h1
      have hp0 : p ≠ 0 := by rintro rfl; simp at hz
      rw [degree_eq_natDegree hP0, degree_eq_natDegree hz, degree_eq_natDegree hp0, hPd] at h2
      rw [degree_eq_natDegree hp0] at hp
      rw [degree_eq_natDegree hz]
      norm_cast at h2 hp ⊢
      omega
  have hval : ∀ x ∈ S, p.eval x = (p % P).eval x := by
    intro x hx
    conv_lhs => rw [← hdm]
    simp [hr x hx]
  have hint : pint (jw a b * p) = pint (jw a b * (p % P)) := by
    conv_lhs => rw [← hdm]
    rw [mul_add, pint_add, ← mul_assoc, pint_orthogonal m a b _ hdiv, zero_add]
  rw [hint]
  have hinter := Lagrange.eq_interpolate (s := S) (v := id) (Set.injOn_id _) (f := p % P) (by rw [hS]; exact hmod)
  rw [Lagrange.interpolate_apply] at hinter
  conv_rhs => rw [hinter]
  rw [Finset.mul_sum, pint_sum]
  refine Finset.sum_congr rfl fun x hx => ?_
  rw [hval x hx, iw, mul_left_comm, pint_C_mul]
  simp only [id_eq]
  ring

private theorem weight_formula (a b n : ℕ) (S : Finset ℝ) (hS : S.card = n + 1)
    (hr : ∀ x ∈ S, (jacobiPoly (a : ℝ) b (n + 1)).eval x = 0) (x : ℝ) (hx : x ∈ S) :
    iw a b S x * ((1 - x ^ 2) * (derivative (jacobiPoly (a : ℝ) b (n + 1))).eval x ^ 2) =
      2 ^ (a + b + 1) * ((a + (n + 1)).factorial * (b + (n + 1)).factorial) /
        ((a + b + (n + 1)).factorial * (n + 1).factorial) := by
  set P := jacobiPoly (a : ℝ) b (n + 1) with hP
  obtain ⟨L, hL⟩ : ∃ L, P = (X - C x) * L := dvd_iff_isRoot.2 (hr x hx)
  have hPd : P.natDegree = n + 1 := le_antisymm (jacobiPoly_lead (a : ℝ) b _).2
    (le_natDegree_of_ne_zero (jacobiPoly_lead_pos (a : ℝ) b (nat_gt a) (nat_gt b) _).ne')
  have hP0 : P ≠ 0 := jacobiPoly_ne_zero a b _
  have hL0 : L ≠ 0 := by rintro rfl; rw [mul_zero] at hL; exact hP0 hL
  have hLd : L.natDegree = n := by
    have := natDegree_mul (X_sub_C_ne_zero x) hL0
    rw [← hL, hPd, natDegree_X_sub_C] at this
    omega
  have hLl : L.coeff n = P.coeff (n + 1) := by
    have h1 := leadingCoeff_mul (X - C x) L
    rw [← hL, leadingCoeff_X_sub_C, one_mul, leadingCoeff, leadingCoeff, hPd, hLd] at h1
    exact h1.symm
  have hLx : L.eval x = (derivative P).eval x := by
    rw [hL, derivative_mul]; simp
  have hLy : ∀ y ∈ S, y ≠ x → L.eval y = 0 := by
    intro y hy hne
    have h1 := hr y hy
    rw [hL, eval_mul] at h1
    rcases mul_eq_zero.1 h1 with h | h
    · simp only [eval_sub, eval_X, eval_C] at h
      exact absurd (sub_eq_zero.1 h) hne
    · exact h
  set q : ℝ[X] := (1 - X) * (1 + X) * derivative P + C ((n : ℝ) + 1) * (X * P) with hq
  have hPd' : (derivative P).natDegree ≤ n := by have := natDegree_derivative_le P; omega
  have hq1 : q.natDegree ≤ n + 1 := by
    have hc : q = (derivative P + C ((n : ℝ) + 1) * (X * P)) - X * (X * derivative P) := by rw [hq]; ring
    rw [natDegree_le_iff_coeff_eq_zero]
    intro N hN
    obtain ⟨N, rfl⟩ : ∃ M, N = M + 2 := ⟨N - 2, by omega⟩
    rw [hc, coeff_sub, coeff_add, coeff_C_mul, coeff_X_mul, coeff_X_mul, coeff_X_mul,
      coeff_derivative, coeff_derivative]
    have h3 : P.coeff (N + 2 + 1) = 0 := coeff_eq_zero_of_natDegree_lt (by omega)
    rw [h3]
    by_cases hNn : N = n
    · subst hNn; push_cast; ring
    · rw [show P.coeff (N + 1) = 0 from coeff_eq_zero_of_natDegree_lt (by omega)]; ring
  have hdeg : (L * q).degree < (2 * (n + 1) : ℕ) := by
    refine lt_of_le_of_lt (degree_le_natDegree) ?_
    have := natDegree_mul_le (p := L) (q := q)
    norm_cast
    omega
  have hex := iw_exact a b (n + 1) (by omega) S hS hr (L * q) hdeg
  rw [Finset.sum_eq_single x (fun y hy hne => by rw [eval_mul, hLy y hy hne]; ring)
    (fun h => absurd hx h)] at hex
  have hqx : q.eval x = (1 - x ^ 2) * (derivative P).eval x := by
    rw [hq]
    simp only [eval_add, eval_mul, eval_sub, eval_one, eval_X, eval_C, hr x hx]
    ring
  rw [eval_mul, hqx, hLx] at hex
  have hsplit : pint (jw a b * (L * q)) = pint (jw (a + 1) (b + 1) * derivative P * L) +
      ((n : ℝ) + 1) * pint (jw a b * P * (X * L)) := by
    rw [← pint_C_mul, ← pint_add, jw_succ, hq]
    congr 1; ring
  set c : ℝ := 1 / 2 * ((a : ℝ) + b + ((n + 1 : ℕ) : ℝ) + 1) with hc
  have hder := derivative_jacobiPoly (a : ℝ) b n
  rw [← hc, ← hP] at hder
  set J := jacobiPoly ((a : ℝ) + 1) ((b : ℝ) + 1) n with hJ
  have hl1 := pint_lead (a + 1) (b + 1) n L hLd.le
  push_cast at hl1
  rw [← hJ] at hl1
  have hl2 := pint_lead a b (n + 1) (X * L) (by
    have := natDegree_mul_le (p := X) (q := L)
    rw [natDegree_X] at this; omega)
  rw [← hP, coeff_X_mul, hLl] at hl2
  have hPl : P.coeff (n + 1) ≠ 0 := (jacobiPoly_lead_pos (a : ℝ) b (nat_gt a) (nat_gt b) _).ne'
  have hJl : J.coeff n ≠ 0 :=
    (jacobiPoly_lead_pos ((a : ℝ) + 1) ((b : ℝ) + 1) (by linarith [nat_gt a]) (by linarith [nat_gt b]) _).ne'
  have hlead : P.coeff (n + 1) * ((n : ℝ) + 1) = c * J.coeff n := by
    rw [← coeff_derivative, hder, coeff_C_mul]
  have e2 : pint (jw a b * P * (X * L)) = jacobiNorm a b (n + 1) := by
    rw [mul_comm] at hl2; exact mul_left_cancel₀ hPl hl2
  have e1 : pint (jw (a + 1) (b + 1) * derivative P * L) * ((n : ℝ) + 1) = c ^ 2 * jacobiNorm (a + 1) (b + 1) n := by
    rw [hder, show jw (a + 1) (b + 1) * (C c * J) * L = C c * (jw (a + 1) (b + 1) * J * L) by ring, pint_C_mul]
    apply mul_left_cancel₀ hJl
    rw [hLl] at hl1
    linear_combination c * ((n : ℝ) + 1) * hl1 + c * jacobiNorm (a + 1) (b + 1) n * hlead
  rw [hsplit, e2] at hex
  have hn1 : (n : ℝ) + 1 ≠ 0 := by positivity
  have key : (c ^ 2 * jacobiNorm (a + 1) (b + 1) n + ((n : ℝ) + 1) ^ 2 * jacobiNorm a b (n + 1)) / ((n : ℝ) + 1) =
      2 ^ (a + b + 1) * ((a + (n + 1)).factorial * (b + (n + 1)).factorial) /
        ((a + b + (n + 1)).factorial * (n + 1).factorial) := by
    unfold jacobiNorm
    rw [show a + 1 + n = a + (n + 1) by ring, show b + 1 + n = b + (n + 1) by ring,
      show a + 1 + (b + 1) + n = a + b + (n + 1) + 1 by ring, Nat.factorial_succ (a + b + (n + 1)),
      Nat.factorial_succ n, show a + 1 + (b + 1) + 1 = a + b + 1 + 2 by ring, pow_add _ _ 2, hc]
    have g1 : ((a + b + (n + 1)).factorial : ℝ) ≠ 0 := Nat.cast_ne_zero.2 (Nat.factorial_ne_zero _)
    have g2 : (n.factorial : ℝ) ≠ 0 := Nat.cast_ne_zero.2 (Nat.factorial_ne_zero _)
    have g3 : (a : ℝ) + b + (n + 1) + 1 ≠ 0 := by positivity
    have g4 : 2 * (n : ℝ) + (a + 1) + (b + 1) + 1 ≠ 0 := by positivity
    have g5 : 2 * ((n : ℝ) + 1) + a + b + 1 ≠ 0 := by positivity
    push_cast
    field_simp
    ring
  rw [← key, ← e1]
  field_simp
  linear_combination hex

/-- C28: for natural parameters the weights of the code, at the roots of the Jacobi polynomial, integrate every
polynomial of degree at most `2m - 1` exactly against the Jacobi weight. -/
theorem gauss_jacobi_exact (a b m : ℕ) (hm : 1 ≤ m) (xs : List ℝ) (hx : GaussNodes a b m xs) (p : ℝ[X])
    (hp : p.natDegree ≤ 2 * m - 1) :
    (gaussJacobiRule a b m xs).integrate (fun x => p.eval x) =
      ∫ x in (-1 : ℝ)..1, (1 - x) ^ a * (1 + x) ^ b * p.eval x := by
  classical
  obtain ⟨n, rfl⟩ : ∃ n, m = n + 1 := ⟨m - 1, by omega⟩
  set S := xs.toFinset with hS
  have hcard : S.card = n + 1 := by rw [hS, List.toFinset_card_of_nodup hx.2.1, hx.1]
  have hr : ∀ x ∈ S, (jacobiPoly (a : ℝ) b (n + 1)).eval x = 0 := by
    intro x hxs
    rw [← evalJacobi_nat]
    exact hx.2.2 x (List.mem_toFinset.1 hxs)
  have hex := iw_exact a b (n + 1) (by omega) S hcard hr p (lt_of_le_of_lt degree_le_natDegree (by norm_cast; omega))
  have hint : pint (jw a b * p) = ∫ x in (-1 : ℝ)..1, (1 - x) ^ a * (1 + x) ^ b * p.eval x := by
    unfold pint; simp only [eval_mul, jw_eval]
  rw [← hint, ← hex, hS, List.sum_toFinset _ hx.2.1]
  unfold QRule.integrate gaussJacobiRule gaussJacobiWeights
  simp only
  rw [List.zip_map_right, List.map_map]
  have hzz : ∀ (l : List ℝ) (g : ℝ × ℝ → ℝ), (l.zip l).map g = l.map fun x => g (x, x) := by
    intro l g
    induction l with
    | nil => rfl
    | cons a l ih => simp [ih]
  rw [hzz]
  congr 1
  refine List.map_congr_left fun x hxx => ?_
  have hxS : x ∈ S := List.mem_toFinset.2 hxx
  have hw := weight_formula a b n S hcard hr x hxS
  have hne := gauss_nodes_interior a b (n + 1) xs hx x hxx
  have h1 : 1 - x ^ 2 ≠ 0 := by
    have : 0 < (1 - x) * (1 + x) := mul_pos (by linarith) (by linarith)
    nlinarith
  have hrhs : (2 : ℝ) ^ (a + b + 1) * ((a + (n + 1)).factorial * (b + (n + 1)).factorial) /
        ((a + b + (n + 1)).factorial * (n + 1).factorial) ≠ 0 := by
    have := Nat.factorial_pos (a + (n + 1)); have := Nat.factorial_pos (b + (n + 1))
    have := Nat.factorial_pos (a + b + (n + 1)); have := Nat.factorial_pos (n + 1)
    positivity
  have hd : (derivative (jacobiPoly (a : ℝ) b (n + 1))).eval x ≠ 0 := by
    intro h0
    rw [h0] at hw
    apply hrhs
    rw [← hw]; ring
  simp only [Function.comp, Prod.map]
  rw [evalJacobiDeriv_nat]
  have hp2 : ((2 : ℝ) ^ ((a : ℝ) + b + 1)) = (2 : ℝ) ^ (a + b + 1) := by
    rw [← Real.rpow_natCast]; push_cast; rfl
  have g1 : Real.Gamma ((a : ℝ) + ((n + 1 : ℕ) : ℝ) + 1) = (a + (n + 1)).factorial := by
    rw [← Real.Gamma_nat_eq_factorial]; push_cast; rfl
  have g2 : Real.Gamma ((b : ℝ) + ((n + 1 : ℕ) : ℝ) + 1) = (b + (n + 1)).factorial := by
    rw [← Real.Gamma_nat_eq_factorial]; push_cast; rfl
  have g3 : Real.Gamma ((a : ℝ) + b + ((n + 1 : ℕ) : ℝ) + 1) = (a + b + (n + 1)).factorial := by
    rw [← Real.Gamma_nat_eq_factorial]; push_cast; rfl
  rw [hp2, g1, g2, g3]
  simp only [id_eq]
  congr 1
  rw [eq_comm, div_div, eq_div_iff (mul_ne_zero h1 (pow_ne_zero 2 hd)), hw]
  have f1 : ((a + b + (n + 1)).factorial : ℝ) ≠ 0 := Nat.cast_ne_zero.2 (Nat.factorial_ne_zero _)
  have f2 : ((n + 1).factorial : ℝ) ≠ 0 := Nat.cast_ne_zero.2 (Nat.factorial_ne_zero _)
  field_simp

/-- C28: the weights are positive. -/
theorem gauss_jacobi_weights_pos (a b m : ℕ) (hm : 1 ≤ m) (xs : List ℝ) (hx : GaussNodes a b m xs) :
    ∀ w ∈ gaussJacobiWeights a b m xs, 0 < w := by
  intro w hw
  obtain ⟨x, hxx, rfl⟩ := List.mem_map.1 hw
  have hi := gauss_nodes_interior a b m xs hx x hxx
  have h1 : 0 < 1 - x ^ 2 := by
    have : 0 < (1 - x) * (1 + x) := mul_pos (by linarith) (by linarith)
    nlinarith
  have hd : evalJacobiDeriv (a : ℝ) b m x ≠ 0 := by
    rw [evalJacobiDeriv_nat]
    intro h0
    -- a double root would make the weight formula fail
    classical
    obtain ⟨n, rfl⟩ : ∃ n, m = n + 1 := ⟨m - 1, by omega⟩
    have hw := weight_formula a b n xs.toFinset (by rw [List.toFinset_card_of_nodup hx.2.1, hx.1])
      (fun y hy => by rw [← evalJacobi_nat]; exact hx.2.2 y (List.mem_toFinset.1 hy)) x (List.mem_toFinset.2 hxx)
    rw [h0] at hw
    have h2 := Nat.factorial_pos (a + (n + 1)); have h3 := Nat.factorial_pos (b + (n + 1))
    have h4 := Nat.factorial_pos (a + b + (n + 1)); have h5 := Nat.factorial_pos (n + 1)
    have : (0 : ℝ) < 2 ^ (a + b + 1) * ((a + (n + 1)).factorial * (b + (n + 1)).factorial) /
        ((a + b + (n + 1)).factorial * (n + 1).factorial) := by positivity
    rw [← hw] at this
    simp at this
  have g1 : 0 < Real.Gamma ((a : ℝ) + m + 1) := Real.Gamma_pos_of_pos (by positivity)
  have g2 : 0 < Real.Gamma ((b : ℝ) + m + 1) := Real.Gamma_pos_of_pos (by positivity)
  have g3 : 0 < Real.Gamma ((a : ℝ) + b + m + 1) := Real.Gamma_pos_of_pos (by positivity)
  have g4 : (0 : ℝ) < 2 ^ ((a : ℝ) + b + 1) := Real.rpow_pos_of_pos (by norm_num) _
  have g5 : (0 : ℝ) < m.factorial := by exact_mod_cast Nat.factorial_pos m
  have g6 : 0 < evalJacobiDeriv (a : ℝ) b m x ^ 2 := by positivity
  positivity

/-- Non-vacuity: the one-point rule is the midpoint rule with weight 2; and exactness applies to it. -/
example : GaussNodes 0 0 1 [(0 : ℝ)] := by
  refine ⟨rfl, by simp, ?_⟩
  intro x hx
  obtain rfl := List.mem_singleton.1 hx
  simp [evalJacobi]
example : (gaussJacobiRule 0 0 1 [0]).integrate (fun x => 3 * x + 5) = 10 := by
  have : Real.Gamma (0 + (1 : ℕ) + 1) = 1 := by norm_num
  simp [gaussJacobiRule, gaussJacobiWeights, QRule.integrate, evalJacobiDeriv, evalJacobi]
  norm_num

end FIAT
