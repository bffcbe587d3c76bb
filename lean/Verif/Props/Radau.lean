/-
C31: the Gauss-Radau line rules.
-/
import Verif.Model.Radau
import Verif.Lemmas.Legendre
import Verif.Props.Quadrature
import Mathlib.Data.List.GetD
import Mathlib.Algebra.Polynomial.BigOperators

namespace FIAT
open Polynomial

local notation "P" => jacobiPoly (0 : ℝ) 0
local notation "R" => jacobiPoly (0 : ℝ) 1

/-! ### Specification -/

/-- What the loop stops with: `m - 1` distinct free nodes strictly between -1 and 1, each left where it is by a further
sweep in which no division by zero occurs. -/
def RadauNodes (m : ℕ) (xs : List ℝ) : Prop :=
  xs.length = m - 1 ∧ xs.Nodup ∧ ∀ x ∈ xs, -1 < x ∧ x < 1 ∧
    (legRow (m - 1) x).getD (m - 1) 0 ≠ (legRow (m - 1) x).getD m 0 ∧ radauStep (m - 1) x = x

/-- A univariate rule on [-1, 1]: points and weights. -/
def IntegratesOn (xs ws : List ℝ) (N : ℕ) : Prop :=
  ∀ p : ℝ[X], p.natDegree ≤ N → ((xs.zip ws).map fun xw => xw.2 * p.eval xw.1).sum = ∫ x in (-1 : ℝ)..1, p.eval x

/-! ### Lemmas -/

private theorem legRow_spec (N : ℕ) (x : ℝ) : (legRow N x).length = N + 2 ∧
    ∀ i < N + 2, (legRow N x).getD i 0 = (P i).eval x := by
  induction N with
  | zero =>
    refine ⟨rfl, fun i hi => ?_⟩
    have : i = 0 ∨ i = 1 := by omega
    rcases this with rfl | rfl
    · show (1 : ℝ) = _; rw [leg_zero]; simp
    · show x = _; rw [leg_one]; simp
  | succ N ih =>
    have hs : legRow (N + 1) x = legRow N x ++ [((2 * ((N + 2 : ℕ) : ℝ) - 1) * x * (legRow N x).getD (N + 2 - 1) 0 -
        (((N + 2 : ℕ) : ℝ) - 1) * (legRow N x).getD (N + 2 - 2) 0) / ((N + 2 : ℕ) : ℝ)] := by
      unfold legRow
      rw [List.range'_concat, List.foldl_append, List.foldl_cons, List.foldl_nil, show 2 + 1 * N = N + 2 by ring]
    obtain ⟨h1, h2⟩ := ih
    refine ⟨by rw [hs, List.length_append, h1]; rfl, fun i hi => ?_⟩
    rw [hs]
    by_cases hlt : i < N + 2
    · rw [List.getD_append _ _ _ _ (by rw [h1]; exact hlt), h2 i hlt]
    · have hi' : i = N + 2 := by omega
      subst hi'
      rw [List.getD_append_right _ _ _ _ (by rw [h1]), h1, Nat.sub_self, List.getD_cons_zero, h2 _ (by omega), h2 _ (by omega)]
      have h := congrArg (fun p => p.eval x) (leg_rec N)
      simp only [eval_mul, eval_sub, eval_C, eval_X] at h
      have h0 : (N : ℝ) + 2 ≠ 0 := by positivity
      push_cast
      rw [div_eq_iff h0]
      linear_combination -h

private theorem legRow_fst (N : ℕ) (x : ℝ) : (legRow N x).getD N 0 = (P N).eval x := (legRow_spec N x).2 N (by omega)
private theorem legRow_snd (N : ℕ) (x : ℝ) : (legRow N x).getD (N + 1) 0 = (P (N + 1)).eval x :=
  (legRow_spec N x).2 (N + 1) (by omega)

private theorem gauss_of_radau (N : ℕ) (xs : List ℝ) (h : RadauNodes (N + 1) xs) : GaussNodes (0 : ℕ) (1 : ℕ) N xs := by
  refine ⟨h.1, h.2.1, fun x hx => ?_⟩
  obtain ⟨h1, h2, h3, h4⟩ := h.2.2 x hx
  rw [evalJacobi_nat]
  simp only [Nat.add_sub_cancel, legRow_fst, legRow_snd, radauStep] at h3 h4
  have h5 : (1 - x) / ((N : ℝ) + 1) * ((P N).eval x + (P (N + 1)).eval x) / ((P N).eval x - (P (N + 1)).eval x) = 0 := by
    linarith
  have h6 : (1 - x) / ((N : ℝ) + 1) ≠ 0 := div_ne_zero (by linarith) (by positivity)
  rw [div_eq_zero_iff, mul_eq_zero] at h5
  have h7 : (P N).eval x + (P (N + 1)).eval x = 0 := by
    rcases h5 with (h5 | h5) | h5
    · exact absurd h5 h6
    · exact h5
    · exact absurd (sub_eq_zero.1 h5) h3
  have e := congrArg (fun p => p.eval x) (rad_leg N)
  simp only [eval_mul, eval_add, eval_one, eval_X, h7] at e
  rcases mul_eq_zero.1 e with h8 | h8
  · linarith
  · exact_mod_cast h8

private theorem leg_root (N : ℕ) (x : ℝ) (h1 : -1 < x) (hx : x < 1) (hr : (R N).eval x = 0) :
    (P (N + 1)).eval x = -(P N).eval x ∧ (P N).eval x ≠ 0 := by
  have e := congrArg (fun p => p.eval x) (rad_leg N)
  simp only [eval_mul, eval_add, eval_one, eval_X, hr, mul_zero] at e
  refine ⟨by linarith, fun h0 => ?_⟩
  have h00 : (P (N + 1)).eval x = 0 := by linarith
  -- two consecutive Legendre polynomials with a common root: all vanish, against P_0 = 1
  have key : ∀ n, (P n).eval x = 0 → (P (n + 1)).eval x = 0 → False := by
    intro n
    induction n with
    | zero => intro h _; rw [leg_zero] at h; simp at h
    | succ n ih =>
      intro a b
      refine ih ?_ a
      have h := congrArg (fun p => p.eval x) (leg_rec n)
      simp only [eval_mul, eval_sub, eval_C, eval_X] at h
      rw [show n + 1 + 1 = n + 2 from rfl] at b
      rw [a, b] at h
      have h0 : (n : ℝ) + 1 ≠ 0 := by positivity
      refine mul_left_cancel₀ h0 ?_
      linarith
  exact key N h0 h00

/-- C31: the free nodes exist for every `m`. -/
theorem radau_nodes_exist (m : ℕ) (hm : 1 ≤ m) : ∃ xs, RadauNodes m xs := by
  obtain ⟨N, rfl⟩ : ∃ N, m = N + 1 := ⟨m - 1, by omega⟩
  obtain ⟨xs, hx⟩ := gauss_nodes_exist 0 1 N
  refine ⟨xs, hx.1, hx.2.1, fun x hxx => ?_⟩
  have hi := gauss_nodes_interior 0 1 N xs hx x hxx
  have hr := hx.2.2 x hxx
  rw [evalJacobi_nat] at hr
  push_cast at hr
  obtain ⟨e1, e2⟩ := leg_root N x hi.1 hi.2 hr
  refine ⟨hi.1, hi.2, ?_, ?_⟩
  · rw [Nat.add_sub_cancel, legRow_fst, legRow_snd, e1]
    intro h
    exact e2 (by linarith)
  · rw [Nat.add_sub_cancel, radauStep, legRow_fst, legRow_snd, e1]
    simp

/-- ... and they are unique up to their order. -/
theorem radau_nodes_perm (m : ℕ) (hm : 1 ≤ m) (xs ys : List ℝ) (hx : RadauNodes m xs) (hy : RadauNodes m ys) : xs.Perm ys := by
  obtain ⟨N, rfl⟩ : ∃ N, m = N + 1 := ⟨m - 1, by omega⟩
  exact gauss_nodes_perm 0 1 N xs ys (gauss_of_radau N xs hx) (gauss_of_radau N ys hy)

private theorem zip_map_self {α β : Type} (l : List α) (f : α → β) : l.zip (l.map f) = l.map fun x => (x, f x) := by
  induction l with
  | nil => rfl
  | cons a l ih => simp [ih]

private noncomputable def rw_ (N : ℕ) (x : ℝ) : ℝ := (1 - x) / (((N : ℝ) + 1) * (P N).eval x) ^ 2

private theorem gauss_part (N : ℕ) (xs : List ℝ) (h : GaussNodes (0 : ℕ) (1 : ℕ) N xs) (q : ℝ[X]) (hN : 1 ≤ N)
    (hq : q.natDegree ≤ 2 * N - 1) :
    (xs.map fun x => rw_ N x * (1 + x) * q.eval x).sum = pint ((1 + X) * q) := by
  have h1 := gauss_jacobi_exact 0 1 N hN xs h q hq
  have h2 : pint ((1 + X) * q) = ∫ x in (-1 : ℝ)..1, (1 - x) ^ 0 * (1 + x) ^ 1 * q.eval x := by
    unfold pint; simp
  rw [h2, ← h1]
  unfold QRule.integrate gaussJacobiRule gaussJacobiWeights
  dsimp only
  rw [zip_map_self, List.map_map]
  congr 1
  refine List.map_congr_left fun x hx => ?_
  have hi := gauss_nodes_interior 0 1 N xs h x hx
  have hr := h.2.2 x hx
  rw [evalJacobi_nat] at hr
  simp only [Function.comp_apply]
  rw [evalJacobiDeriv_nat]
  push_cast at hr ⊢
  have hd := rad_deriv_root N x hr hi.1
  obtain ⟨-, hP⟩ := leg_root N x hi.1 hi.2 hr
  have h1 : 1 - x ^ 2 ≠ 0 := by
    have : 0 < (1 - x) * (1 + x) := mul_pos (by linarith) (by linarith)
    nlinarith
  have hn : (N : ℝ) + 1 ≠ 0 := by positivity
  have hD : (derivative (R N)).eval x ≠ 0 := by
    intro h0
    rw [h0, mul_zero] at hd
    exact (mul_ne_zero (mul_ne_zero two_ne_zero hn) hP) hd.symm
  have g : (2 : ℝ) ^ ((0 : ℝ) + 1 + 1) * Real.Gamma (0 + N + 1) * Real.Gamma (1 + N + 1) / Real.Gamma (0 + 1 + N + 1) /
      (N.factorial : ℝ) = 4 := by
    have g1 : Real.Gamma (1 + (N : ℝ) + 1) ≠ 0 := (Real.Gamma_pos_of_pos (by positivity)).ne'
    have g2 : Real.Gamma (0 + (N : ℝ) + 1) = N.factorial := by rw [zero_add, Real.Gamma_nat_eq_factorial]
    have g3 : (N.factorial : ℝ) ≠ 0 := Nat.cast_ne_zero.2 (Nat.factorial_ne_zero _)
    have g4 : (2 : ℝ) ^ ((0 : ℝ) + 1 + 1) = 4 := by
      rw [show (0 : ℝ) + 1 + 1 = ((2 : ℕ) : ℝ) by norm_num, Real.rpow_natCast]; norm_num
    rw [g4, g2, show (0 : ℝ) + 1 + N + 1 = 1 + N + 1 by ring]
    field_simp
  rw [g]
  congr 1
  unfold rw_
  rw [div_div, div_mul_eq_mul_div, div_eq_div_iff (pow_ne_zero 2 (mul_ne_zero hn hP)) (mul_ne_zero h1 (pow_ne_zero 2 hD))]
  linear_combination ((1 - x ^ 2) * (derivative (R N)).eval x + 2 * ((N : ℝ) + 1) * (P N).eval x) * hd

private theorem split_at (p : ℝ[X]) : ∃ q : ℝ[X], p = C (p.eval (-1)) + (1 + X) * q ∧ q.natDegree = p.natDegree - 1 := by
  refine ⟨p /ₘ (X - C (-1)), ?_, ?_⟩
  · have h := X_sub_C_mul_divByMonic_eq_sub_modByMonic p (-1)
    rw [modByMonic_X_sub_C_eq_C_eval] at h
    rw [show (1 + X : ℝ[X]) = X - C (-1) by simp; ring, h]; ring
  · rw [natDegree_divByMonic _ (monic_X_sub_C _), natDegree_X_sub_C]

private theorem pint_C (c : ℝ) : pint (C c) = 2 * c := by
  unfold pint
  simp only [eval_C, intervalIntegral.integral_const, smul_eq_mul]; ring

private theorem weights_sum (N : ℕ) (xs : List ℝ) (h : GaussNodes (0 : ℕ) (1 : ℕ) N xs) :
    2 / ((N : ℝ) + 1) ^ 2 + (xs.map (rw_ N)).sum = 2 := by
  rcases Nat.eq_zero_or_pos N with rfl | hN
  · have : xs = [] := List.length_eq_zero_iff.1 h.1
    subst this; simp
  · obtain ⟨q, hq, hd⟩ := split_at (R N)
    have hdeg : q.natDegree ≤ 2 * N - 1 := by
      have := (jacobiPoly_lead (0 : ℝ) 1 N).2
      omega
    have h1 := gauss_part N xs h q hN hdeg
    have h2 : pint ((1 + X) * q) = pint (R N) - pint (C ((R N).eval (-1))) := by
      rw [← pint_sub]; congr 1; linear_combination -hq
    have h3 : (xs.map fun x => rw_ N x * (1 + x) * q.eval x).sum = (xs.map fun x => -(R N).eval (-1) * rw_ N x).sum := by
      congr 1
      refine List.map_congr_left fun x hx => ?_
      have hr := h.2.2 x hx
      rw [evalJacobi_nat] at hr
      push_cast at hr
      have e := congrArg (fun p => p.eval x) hq
      simp only [eval_add, eval_mul, eval_C, eval_one, eval_X] at e
      rw [hr] at e
      linear_combination (-rw_ N x) * e
    rw [h3, List.sum_map_mul_left, h2, pint_C, pint_rad, rad_at_neg_one] at h1
    have hn : (N : ℝ) + 1 ≠ 0 := by positivity
    have hs : ((-1 : ℝ) ^ N * (N + 1)) ≠ 0 := mul_ne_zero (pow_ne_zero _ (by norm_num)) hn
    refine mul_left_cancel₀ hs ?_
    have hs2 : (-1 : ℝ) ^ N * (N + 1) * (2 / ((N : ℝ) + 1) ^ 2) = 2 * (-1) ^ N / (N + 1) := by field_simp
    rw [mul_add, hs2]
    linear_combination -h1

private theorem radauRef_false (N : ℕ) (xs : List ℝ) : radauRef (N + 1) false xs =
    (-1 :: xs, 2 / ((N : ℝ) + 1) ^ 2 :: xs.map (rw_ N)) := by
  unfold radauRef rw_
  simp only [Nat.add_sub_cancel, legRow_fst, Bool.false_eq_true, if_false]

private theorem left_exact (N : ℕ) (xs : List ℝ) (h : GaussNodes (0 : ℕ) (1 : ℕ) N xs) :
    IntegratesOn (-1 :: xs) (2 / ((N : ℝ) + 1) ^ 2 :: xs.map (rw_ N)) (2 * N) := by
  intro p hp
  show _ = pint p
  rw [List.zip_cons_cons, List.map_cons, List.sum_cons, zip_map_self, List.map_map]
  have hw := weights_sum N xs h
  rcases Nat.eq_zero_or_pos N with rfl | hN
  · have : xs = [] := List.length_eq_zero_iff.1 h.1
    subst this
    obtain ⟨c, rfl⟩ : ∃ c, p = C c := ⟨_, eq_C_of_natDegree_le_zero (by omega)⟩
    rw [pint_C]; simp
  · obtain ⟨q, hq, hd⟩ := split_at p
    have h1 := gauss_part N xs h q hN (by omega)
    have h2 : pint ((1 + X) * q) = pint p - pint (C (p.eval (-1))) := by
      rw [← pint_sub]; congr 1; linear_combination -hq
    have h3 : (xs.map ((fun xw : ℝ × ℝ => xw.2 * p.eval xw.1) ∘ fun x => (x, rw_ N x))).sum =
        (xs.map fun x => p.eval (-1) * rw_ N x + rw_ N x * (1 + x) * q.eval x).sum := by
      congr 1
      refine List.map_congr_left fun x hx => ?_
      have e := congrArg (fun p => p.eval x) hq
      simp only [eval_add, eval_mul, eval_C, eval_one, eval_X] at e
      simp only [Function.comp_apply]
      rw [e]; ring
    rw [h3, List.sum_map_add, List.sum_map_mul_left, h1, h2, pint_C]
    linear_combination p.eval (-1) * hw

private theorem flip_exact (xs ws : List ℝ) (N : ℕ) (hl : xs.length = ws.length) (h : IntegratesOn xs ws N) :
    IntegratesOn (xs.map fun t => -t).reverse ws.reverse N := by
  intro p hp
  have h1 := h (p.comp (-X)) (by rw [natDegree_comp, natDegree_neg, natDegree_X]; omega)
  have h2 : (∫ x in (-1 : ℝ)..1, (p.comp (-X)).eval x) = ∫ x in (-1 : ℝ)..1, p.eval x := by
    have := intervalIntegral.integral_comp_neg (a := (-1 : ℝ)) (b := 1) (fun x => p.eval x)
    simp only [neg_neg] at this
    simpa using this
  rw [← h2, ← h1]
  have hz : (xs.map fun t => -t).reverse.zip ws.reverse = ((xs.map fun t => -t).zip ws).reverse := by
    rw [List.zip_eq_zipWith, List.zip_eq_zipWith, List.reverse_zipWith (by simpa using hl)]
  rw [hz, List.map_reverse, List.sum_reverse, List.zip_map_left, List.map_map]
  simp [Function.comp_def]

/-! ### Theorems -/

/-- C31, the true part: with `m` points the rule integrates polynomials of degree at most `2m - 2` exactly, for both values
of `right`. -/
theorem radau_exact_partial (m : ℕ) (hm : 1 ≤ m) (right : Bool) (xs : List ℝ) (hx : RadauNodes m xs) :
    IntegratesOn (radauRef m right xs).1 (radauRef m right xs).2 (2 * m - 2) := by
  obtain ⟨N, rfl⟩ : ∃ N, m = N + 1 := ⟨m - 1, by omega⟩
  have hl := left_exact N xs (gauss_of_radau N xs hx)
  rw [show 2 * (N + 1) - 2 = 2 * N by omega]
  cases right with
  | false => rw [radauRef_false]; exact hl
  | true =>
    have : radauRef (N + 1) true xs = (((radauRef (N + 1) false xs).1.map fun t => -t).reverse,
        (radauRef (N + 1) false xs).2.reverse) := rfl
    rw [this, radauRef_false]
    exact flip_exact _ _ _ (by simp) hl

/-- The points: `m` of them, distinct, in [-1, 1], with the last (`right`) or first one an end point; the weights are
positive. -/
theorem radau_points (m : ℕ) (hm : 1 ≤ m) (right : Bool) (xs : List ℝ) (hx : RadauNodes m xs) :
    (radauRef m right xs).1.length = m ∧ (radauRef m right xs).2.length = m ∧ (radauRef m right xs).1.Nodup ∧
    (∀ x ∈ (radauRef m right xs).1, -1 ≤ x ∧ x ≤ 1) ∧ (∀ w ∈ (radauRef m right xs).2, 0 < w) ∧
    (if right then (radauRef m right xs).1.getLast? = some 1 else (radauRef m right xs).1.head? = some (-1)) := by
  obtain ⟨N, rfl⟩ : ∃ N, m = N + 1 := ⟨m - 1, by omega⟩
  have hg := gauss_of_radau N xs hx
  have hlen : xs.length = N := hx.1
  have hin : ∀ x ∈ xs, -1 < x ∧ x < 1 := fun x hxx => ⟨(hx.2.2 x hxx).1, (hx.2.2 x hxx).2.1⟩
  have hnd : (-1 :: xs).Nodup := List.nodup_cons.2 ⟨fun h => lt_irrefl _ (hin _ h).1, hx.2.1⟩
  have hb : ∀ x ∈ (-1 :: xs), -1 ≤ x ∧ x ≤ 1 := by
    intro x hx'
    rcases List.mem_cons.1 hx' with rfl | h
    · norm_num
    · exact ⟨(hin x h).1.le, (hin x h).2.le⟩
  have hw : ∀ w ∈ (2 / ((N : ℝ) + 1) ^ 2 :: xs.map (rw_ N)), 0 < w := by
    intro w hw
    rcases List.mem_cons.1 hw with rfl | h
    · positivity
    · obtain ⟨x, hxx, rfl⟩ := List.mem_map.1 h
      have hr := hg.2.2 x hxx
      rw [evalJacobi_nat] at hr
      push_cast at hr
      obtain ⟨-, hP⟩ := leg_root N x (hin x hxx).1 (hin x hxx).2 hr
      have : 0 < 1 - x := by linarith [(hin x hxx).2]
      have hn : (N : ℝ) + 1 ≠ 0 := by positivity
      unfold rw_
      positivity
  cases right with
  | false => rw [radauRef_false]; exact ⟨by simp [hlen], by simp [hlen], hnd, hb, hw, by simp⟩
  | true =>
    have : radauRef (N + 1) true xs = (((radauRef (N + 1) false xs).1.map fun t => -t).reverse,
        (radauRef (N + 1) false xs).2.reverse) := rfl
    rw [this, radauRef_false]
    refine ⟨by simp [hlen], by simp [hlen], ?_, ?_, ?_, by simp⟩
    · exact List.nodup_reverse.2 (hnd.map neg_injective)
    · intro x hx'
      rw [List.mem_reverse, List.mem_map] at hx'
      obtain ⟨y, hy, rfl⟩ := hx'
      have := hb y hy
      constructor <;> linarith
    · intro w hw'
      exact hw w (List.mem_reverse.1 hw')

/-- C31 is false as documented ("degree of precision of 2m-1"): for every `m` and both values of `right` there is a
polynomial of degree `2m - 1` that the rule does not integrate exactly. -/
theorem radau_not_exact (m : ℕ) (hm : 1 ≤ m) (right : Bool) (xs : List ℝ) (hx : RadauNodes m xs) :
    ∃ p : ℝ[X], p.natDegree = 2 * m - 1 ∧
      (((radauRef m right xs).1.zip (radauRef m right xs).2).map fun xw => xw.2 * p.eval xw.1).sum ≠
        ∫ x in (-1 : ℝ)..1, p.eval x := by
  -- (1 + x) ∏ (x - x_j)^2 vanishes at the nodes of the left rule and is positive between them
  obtain ⟨N, rfl⟩ : ∃ N, m = N + 1 := ⟨m - 1, by omega⟩
  set q : ℝ[X] := (xs.map fun t => X - C t).prod with hq
  have hmd : ∀ l : List ℝ, ((l.map fun t => (X - C t : ℝ[X])).prod).Monic ∧
      ((l.map fun t => (X - C t : ℝ[X])).prod).natDegree = l.length := by
    intro l
    induction l with
    | nil => simp
    | cons t l ih =>
      rw [List.map_cons, List.prod_cons]
      refine ⟨(monic_X_sub_C t).mul ih.1, ?_⟩
      rw [(monic_X_sub_C t).natDegree_mul ih.1, natDegree_X_sub_C, ih.2, List.length_cons, add_comm]
  have hqm : q.Monic := (hmd xs).1
  have hqd : q.natDegree = N := by rw [(hmd xs).2]; exact hx.1
  have hq0 : ∀ x ∈ xs, q.eval x = 0 := by
    intro x hxx
    obtain ⟨r, hr⟩ : X - C x ∣ q := List.dvd_prod (List.mem_map.2 ⟨x, hxx, rfl⟩)
    rw [hr]; simp
  have hX : (1 + X : ℝ[X]).Monic := by rw [show (1 + X : ℝ[X]) = X + C 1 by simp; ring]; exact monic_X_add_C 1
  have hXd : (1 + X : ℝ[X]).natDegree = 1 := by
    rw [show (1 + X : ℝ[X]) = X + C 1 by simp; ring]; exact natDegree_X_add_C 1
  set g : ℝ[X] := (1 + X) * q ^ 2 with hg
  have hgd : g.natDegree = 2 * (N + 1) - 1 := by
    rw [hg, hX.natDegree_mul (hqm.pow 2), hqm.natDegree_pow, hXd, hqd]; omega
  have hgp : 0 < pint g := by
    refine pint_pos g ((hX.mul (hqm.pow 2)).ne_zero) fun x hx' => ?_
    have : 0 < 1 + x := by linarith [hx'.1]
    rw [hg]; simp only [eval_mul, eval_add, eval_one, eval_X, eval_pow]; positivity
  have hg0 : ∀ x ∈ (-1 :: xs), g.eval x = 0 := by
    intro x hx'
    rcases List.mem_cons.1 hx' with rfl | h
    · rw [hg]; simp
    · rw [hg, eval_mul, eval_pow, hq0 x h]; simp
  have hz : ∀ (l : List (ℝ × ℝ)) (f : ℝ[X]), (∀ xw ∈ l, f.eval xw.1 = 0) → (l.map fun xw => xw.2 * f.eval xw.1).sum = 0 := by
    intro l f h
    apply List.sum_eq_zero
    intro t ht
    obtain ⟨xw, hxw, rfl⟩ := List.mem_map.1 ht
    rw [h xw hxw, mul_zero]
  cases right with
  | false =>
    refine ⟨g, hgd, ?_⟩
    rw [radauRef_false, hz _ _ fun xw hxw => hg0 _ (List.of_mem_zip hxw).1]
    exact hgp.ne
  | true =>
    refine ⟨g.comp (-X), by rw [natDegree_comp, natDegree_neg, natDegree_X, hgd]; omega, ?_⟩
    have : radauRef (N + 1) true xs = (((radauRef (N + 1) false xs).1.map fun t => -t).reverse,
        (radauRef (N + 1) false xs).2.reverse) := rfl
    rw [this, radauRef_false, hz]
    · have h2 : (∫ x in (-1 : ℝ)..1, (g.comp (-X)).eval x) = ∫ x in (-1 : ℝ)..1, g.eval x := by
        have := intervalIntegral.integral_comp_neg (a := (-1 : ℝ)) (b := 1) (fun x => g.eval x)
        simp only [neg_neg] at this
        simpa using this
      rw [h2]
      exact hgp.ne
    · intro xw hxw
      have := (List.of_mem_zip hxw).1
      rw [List.mem_reverse, List.mem_map] at this
      obtain ⟨y, hy, hy2⟩ := this
      rw [← hy2, eval_comp]
      simpa using hg0 y hy

/-- A rule that is exact on [-1, 1] stays exact when it is mapped to a line cell. -/
theorem line_rule_of_exact (v : Fin 2 → Fin 1 → ℝ) (hv : 0 < orientation v) (N : ℕ) (xs ws : List ℝ)
    (hl : ws.length = xs.length) (h : IntegratesOn xs ws N) (hw : ∀ w ∈ ws, 0 < w) (hp : ∀ x ∈ xs, -1 ≤ x ∧ x ≤ 1) :
    ∃ Q, mappedRule (List.ofFn v) (xs.map fun x _ => x) ws = some Q ∧ GoodRule Q v N ∧ Q.pts.length = xs.length := by
  have hex : ExactOn 1 N ((xs.map fun x (_ : Fin 1) => x).zip ws) := by
    have h' := exactOn_succ 0 N _ (exactOn_zero _) (xs.zip ws) (fun q hq => by simpa using h q hq)
    intro p hp
    rw [← h' p hp, List.zip_map_left, List.map_map, sum_flatMap]
    congr 1
    refine List.map_congr_left fun zw _ => ?_
    simp only [Function.comp_apply, List.map_cons, List.map_nil, List.sum_cons, List.sum_nil, add_zero, Prod.map_fst,
      Prod.map_snd, pow_zero, div_one, mul_one, id]
    congr 2
  obtain ⟨Q, h1, h2, h3⟩ := good_of_exact v hv _ _ (by simpa using hl) N hex hw (by
    intro x hx
    obtain ⟨y, hy, rfl⟩ := List.mem_map.1 hx
    have := hp y hy
    constructor
    · intro i; exact this.1
    · simp only [Finset.univ_unique, Finset.sum_singleton]; linarith [this.2])
  exact ⟨Q, h1, h2, by rw [h3]; simp⟩

/-- C31 on the cell: on every positively oriented line cell the rule is exact for degree `2m - 2`, its weights are positive
and its points lie in the cell. -/
theorem radau_line_partial (v : Fin 2 → Fin 1 → ℝ) (hv : 0 < orientation v) (m : ℕ) (hm : 1 ≤ m) (right : Bool)
    (xs : List ℝ) (hx : RadauNodes m xs) :
    ∃ Q, radauLineRule (List.ofFn v) m right xs = some Q ∧ GoodRule Q v (2 * m - 2) ∧ Q.pts.length = m := by
  obtain ⟨h1, h2, h3, h4, h5, -⟩ := radau_points m hm right xs hx
  obtain ⟨Q, q1, q2, q3⟩ := line_rule_of_exact v hv _ _ _ (by rw [h1, h2]) (radau_exact_partial m hm right xs hx) h5 h4
  exact ⟨Q, by rw [radauLineRule, if_pos hm, q1], q2, by rw [q3, h1]⟩

/-- `m = 0` is rejected. -/
theorem radau_line_rejects (verts : List (Fin 1 → ℝ)) (right : Bool) (xs : List ℝ) :
    radauLineRule verts 0 right xs = none := rfl

/-- The Gauss-Legendre line rule, assuming that numpy's `leggauss` returns an exact rule with positive weights. -/
theorem gauss_legendre_line (v : Fin 2 → Fin 1 → ℝ) (hv : 0 < orientation v) (m : ℕ) (hm : 1 ≤ m) (xs ws : List ℝ)
    (h1 : xs.length = m) (h2 : ws.length = m) (h : IntegratesOn xs ws (2 * m - 1)) (hw : ∀ w ∈ ws, 0 < w)
    (hp : ∀ x ∈ xs, -1 ≤ x ∧ x ≤ 1) :
    ∃ Q, gaussLegendreLineRule (List.ofFn v) m xs ws = some Q ∧ GoodRule Q v (2 * m - 1) ∧ Q.pts.length = m := by
  obtain ⟨Q, q1, q2, q3⟩ := line_rule_of_exact v hv _ _ _ (by rw [h1, h2]) h hw hp
  exact ⟨Q, by rw [gaussLegendreLineRule, if_neg (by omega), q1], q2, by rw [q3, h1]⟩

/-- Non-vacuity: for every `m` the rule exists on the UFC interval; the rule with two points has nodes -1, 1/3 and weights
1/2, 3/2. -/
example (m : ℕ) (hm : 1 ≤ m) (right : Bool) : ∃ xs Q, radauLineRule (List.ofFn ![![0], ![1]]) m right xs = some Q ∧
    GoodRule Q ![![0], ![1]] (2 * m - 2) := by
  obtain ⟨xs, hx⟩ := radau_nodes_exist m hm
  obtain ⟨Q, h1, h2, -⟩ := radau_line_partial ![![0], ![1]] (by simp [orientation]) m hm right xs hx
  exact ⟨xs, Q, h1, h2⟩

example : RadauNodes 2 [1 / 3] ∧ radauRef 2 false [1 / 3] = ([-1, 1 / 3], [1 / 2, 3 / 2]) := by
  have e1 := legRow_fst 1 (1 / 3)
  have e2 := legRow_snd 1 (1 / 3)
  have l2 := congrArg (fun p => p.eval (1 / 3 : ℝ)) (leg_rec 0)
  simp only [eval_mul, eval_sub, eval_C, eval_X, zero_add, leg_one, leg_zero] at l2
  norm_num at l2
  have l2' : (P 2).eval (1 / 3 : ℝ) = -1 / 3 := by linarith
  rw [leg_one, eval_X] at e1
  rw [l2'] at e2
  refine ⟨⟨rfl, by simp, ?_⟩, ?_⟩
  · intro x hx
    rw [List.mem_singleton.1 hx]
    refine ⟨by norm_num, by norm_num, ?_, ?_⟩
    · show (legRow 1 _).getD 1 0 ≠ (legRow 1 _).getD 2 0
      rw [e1, e2]; norm_num
    · show radauStep 1 _ = _
      unfold radauStep
      rw [e1, e2]; norm_num
  · unfold radauRef
    simp only [List.map_cons, List.map_nil, show 2 - 1 = 1 from rfl, e1]
    norm_num

end FIAT
