/-
C32: barycentric interpolation tabulates the Lagrange basis and its derivatives.
-/
import Verif.Model.Barycentric
import Verif.Lemmas.PyDict
import Mathlib.LinearAlgebra.Lagrange
import Mathlib.Algebra.BigOperators.Field

namespace FIAT
open Polynomial

variable {n m : ℕ}

/-- Specification: the Lagrange basis polynomial of node `i`. -/
noncomputable def lagrangeBasis (x : Fin n → ℝ) (i : Fin n) : ℝ[X] := Lagrange.basis Finset.univ x i

private theorem basis_at (x : Fin n → ℝ) (hx : Function.Injective x) (i j : Fin n) :
    (lagrangeBasis x i).eval (x j) = if i = j then 1 else 0 := by
  by_cases h : i = j
  · subst h; rw [if_pos rfl]; exact Lagrange.eval_basis_self hx.injOn (Finset.mem_univ _)
  · rw [if_neg h]; exact Lagrange.eval_basis_of_ne h (Finset.mem_univ _)

private theorem basis_degree (x : Fin n → ℝ) (hx : Function.Injective x) (i : Fin n) :
    (lagrangeBasis x i).degree < n := by
  have hn : 0 < n := i.pos
  unfold lagrangeBasis
  rw [Lagrange.degree_basis hx.injOn (Finset.mem_univ _)]
  simp only [Finset.card_univ, Fintype.card_fin]
  exact_mod_cast Nat.sub_lt hn one_pos

/-- A polynomial of degree less than `n` is the combination of the basis with its values at the nodes. -/
private theorem interp (x : Fin n → ℝ) (hx : Function.Injective x) (p : ℝ[X]) (hp : p.degree < n) :
    p = ∑ j, C (p.eval (x j)) * lagrangeBasis x j := by
  have h := Lagrange.eq_interpolate (s := Finset.univ) (v := x) hx.injOn (f := p) (by simpa using hp)
  rw [Lagrange.interpolate_apply] at h
  exact h

private theorem w_eq (x : Fin n → ℝ) (j : Fin n) : baryW x j = Lagrange.nodalWeight Finset.univ x j := by
  unfold baryW Lagrange.nodalWeight
  rw [one_div, ← Finset.prod_inv_distrib, ← Finset.mul_prod_erase Finset.univ _ (Finset.mem_univ j)]
  simp only [baryDiff, if_true, inv_one, one_mul]
  refine Finset.prod_congr rfl fun i hi => ?_
  rw [if_neg (Finset.ne_of_mem_erase hi)]
  congr 1; ring

private theorem w_ne (x : Fin n → ℝ) (hx : Function.Injective x) (j : Fin n) : baryW x j ≠ 0 := by
  rw [w_eq]; exact Lagrange.nodalWeight_ne_zero hx.injOn (Finset.mem_univ _)

private theorem basis_form (x : Fin n → ℝ) (hx : Function.Injective x) (i : Fin n) :
    lagrangeBasis x i = C (baryW x i) * ∏ j ∈ Finset.univ.erase i, (X - C (x j)) := by
  unfold lagrangeBasis Lagrange.basis
  rw [w_eq, Lagrange.nodalWeight, map_prod, ← Finset.prod_mul_distrib]
  rfl

private theorem basis_deriv (x : Fin n → ℝ) (hx : Function.Injective x) (i j : Fin n) (hij : i ≠ j) :
    (derivative (lagrangeBasis x i)).eval (x j) = baryQuot x i j := by
  have hj : j ∈ Finset.univ.erase i := Finset.mem_erase.2 ⟨hij.symm, Finset.mem_univ _⟩
  have e : lagrangeBasis x i = (X - C (x j)) * (C (baryW x i) * ∏ k ∈ (Finset.univ.erase i).erase j, (X - C (x k))) := by
    rw [basis_form x hx, ← Finset.mul_prod_erase _ _ hj]; ring
  rw [e, derivative_mul]
  simp only [derivative_sub, derivative_X, derivative_C, sub_zero, one_mul, eval_add, eval_mul, eval_sub, eval_X, eval_C,
    sub_self, zero_mul, add_zero]
  unfold baryQuot
  have hw : (baryW x j)⁻¹ = (x j - x i) * (∏ k ∈ (Finset.univ.erase i).erase j, (X - C (x k))).eval (x j) := by
    rw [w_eq, Lagrange.nodalWeight, ← Finset.prod_inv_distrib]
    have hi : i ∈ Finset.univ.erase j := Finset.mem_erase.2 ⟨hij, Finset.mem_univ _⟩
    rw [← Finset.mul_prod_erase _ _ hi, eval_prod, Finset.erase_right_comm]
    simp
  rw [baryDiff, if_neg hij, div_eq_mul_inv (baryW x i), hw]
  have : -x i + x j ≠ 0 := fun h => hij (hx (by linarith))
  field_simp
  ring

private theorem sum_basis (x : Fin n → ℝ) (hx : Function.Injective x) (hn : 0 < n) : ∑ i, lagrangeBasis x i = 1 := by
  have := interp x hx 1 (by rw [degree_one]; exact_mod_cast hn)
  simpa using this.symm

/-- The differentiation matrix holds the derivatives of the basis at the nodes. -/
private theorem D_eq (x : Fin n → ℝ) (hx : Function.Injective x) (i j : Fin n) :
    baryD x i j = (derivative (lagrangeBasis x i)).eval (x j) := by
  unfold baryD
  by_cases h : i = j
  · subst h
    rw [if_pos rfl]
    have h1 := congrArg (fun p => (derivative p).eval (x i)) (sum_basis x hx i.pos)
    simp only [derivative_sum, eval_finsetSum, derivative_one, eval_zero] at h1
    rw [← Finset.add_sum_erase _ _ (Finset.mem_univ i)] at h1 ⊢
    rw [Finset.sum_congr rfl fun k hk => basis_deriv x hx k i (Finset.ne_of_mem_erase hk)] at h1
    linarith
  · rw [if_neg h, basis_deriv x hx i j h]

/-- The point is a node away from the other nodes, or away from all the nodes (by more than the tolerance 1e-8). -/
def Separated (x : Fin n → ℝ) (y : ℝ) : Prop :=
  (∃ i, y = x i ∧ ∀ k, k ≠ i → 1e-8 < |y - x k|) ∨ ∀ k, 1e-8 < |y - x k|

private theorem close_iff (x : Fin n → ℝ) (y : Fin m → ℝ) (i : Fin n) (p : Fin m) :
    baryClose x y i p ↔ |y p - x i| ≤ 1e-8 := by
  unfold baryClose
  rw [abs_zero, mul_zero, add_zero, sub_zero, show -x i + y p = y p - x i by ring]

private theorem I_eq (x : Fin n → ℝ) (hx : Function.Injective x) (hn : 0 < n) (y : Fin m → ℝ) (p : Fin m)
    (hy : Separated x (y p)) (i : Fin n) : baryI x y i p = (lagrangeBasis x i).eval (y p) := by
  unfold baryI
  rcases hy with ⟨i0, h1, h2⟩ | h
  · have hI : ∀ k, baryI0 x y k p = if k = i0 then 1 else 0 := by
      intro k
      unfold baryI0
      by_cases hk : k = i0
      · subst hk
        rw [if_pos rfl, if_pos ((close_iff x y k p).2 (by rw [h1]; norm_num))]
      · rw [if_neg hk, if_neg fun hh => absurd ((close_iff x y k p).1 hh) (not_le.2 (h2 k hk)),
          if_pos ⟨i0, (close_iff x y i0 p).2 (by rw [h1]; norm_num)⟩]
    simp only [hI]
    rw [h1, basis_at x hx]
    simp
  · have hc : ∀ k, ¬ baryClose x y k p := fun k hh => absurd ((close_iff x y k p).1 hh) (not_le.2 (h k))
    have hne : ∀ k, y p - x k ≠ 0 := fun k h0 => by have := h k; rw [h0] at this; norm_num at this
    set N := ∏ k, (y p - x k) with hN
    have hN0 : N ≠ 0 := Finset.prod_ne_zero_iff.2 fun k _ => hne k
    have hI : ∀ k, baryI0 x y k p = (lagrangeBasis x k).eval (y p) / N := by
      intro k
      unfold baryI0
      rw [if_neg (hc k), if_neg (by push Not; exact hc), basis_form x hx, eval_mul, eval_C, eval_prod]
      simp only [eval_sub, eval_X, eval_C]
      have e : N = (y p - x k) * ∏ j ∈ Finset.univ.erase k, (y p - x j) :=
        (Finset.mul_prod_erase _ _ (Finset.mem_univ k)).symm
      have h3 : (∏ j ∈ Finset.univ.erase k, (y p - x j)) ≠ 0 := Finset.prod_ne_zero_iff.2 fun k _ => hne k
      rw [e, show -x k + y p = y p - x k by ring]
      have := hne k
      field_simp
    simp only [hI]
    rw [← Finset.sum_div]
    have hs := congrArg (fun q => q.eval (y p)) (sum_basis x hx hn)
    simp only [eval_finsetSum, eval_one] at hs
    rw [hs]
    field_simp

private theorem step (x : Fin n → ℝ) (hx : Function.Injective x) (y : Fin m → ℝ) (k : ℕ) (T : Matrix (Fin n) (Fin m) ℝ)
    (hT : ∀ i p, T i p = (derivative^[k] (lagrangeBasis x i)).eval (y p)) (i : Fin n) (p : Fin m) :
    (baryD x * T) i p = (derivative^[k + 1] (lagrangeBasis x i)).eval (y p) := by
  rw [Matrix.mul_apply, Function.iterate_succ_apply]
  have hd : (derivative (lagrangeBasis x i)).degree < n :=
    lt_of_le_of_lt (degree_derivative_le) (basis_degree x hx i)
  rw [interp x hx _ hd, iterate_derivative_sum, eval_finsetSum]
  refine Finset.sum_congr rfl fun j _ => ?_
  rw [iterate_derivative_C_mul, eval_mul, eval_C, hT, D_eq x hx]

/-- C32: for distinct nodes and points that are nodes or farther than the tolerance from every node, the result has exactly
the keys (0,), ..., (order,), and table (k,) holds the k-th derivatives of the Lagrange basis polynomials at the points. -/
theorem barycentric_spec (x : Fin n → ℝ) (hx : Function.Injective x) (hn : 0 < n) (y : Fin m → ℝ)
    (hy : ∀ p, Separated x (y p)) (order : ℕ) :
    ∃ res, barycentricInterpolation x y order = some res ∧
      (∀ α, α ∈ Dict.keys res ↔ ∃ k ≤ order, α = [k]) ∧
      ∀ k T, Dict.get? res [k] = some T → ∀ i p, T i p = (derivative^[k] (lagrangeBasis x i)).eval (y p) := by
  induction order with
  | zero =>
    refine ⟨[([0], baryI x y)], rfl, by simp [Dict.keys], ?_⟩
    intro k T hT i p
    have : k = 0 ∧ baryI x y = T := by
      have := Dict.mem_of_get? hT
      simp only [List.mem_singleton, Prod.mk.injEq, List.cons.injEq, and_true] at this
      exact ⟨this.1, this.2.symm⟩
    obtain ⟨rfl, rfl⟩ := this
    exact I_eq x hx hn y p (hy p) i
  | succ order ih =>
    obtain ⟨res, h1, h2, h3⟩ := ih
    obtain ⟨T, hT⟩ : ∃ T, Dict.get? res [order] = some T :=
      Option.isSome_iff_exists.1 (Dict.get?_isSome_iff.2 ((h2 [order]).2 ⟨order, le_rfl, rfl⟩))
    refine ⟨Dict.put res [order + 1] (baryD x * T), ?_, ?_, ?_⟩
    · unfold barycentricInterpolation at h1 ⊢
      rw [List.range_succ, List.foldlM_append, h1]
      simp [hT]
    · intro α
      rw [Dict.mem_keys_put, h2]
      constructor
      · rintro (rfl | ⟨k, hk, rfl⟩)
        · exact ⟨_, le_rfl, rfl⟩
        · exact ⟨k, by omega, rfl⟩
      · rintro ⟨k, hk, rfl⟩
        rcases Nat.lt_or_ge order k with h | h
        · left; rw [show k = order + 1 by omega]
        · exact Or.inr ⟨k, h, rfl⟩
    · intro k T' hT' i p
      rw [Dict.get?_put] at hT'
      split at hT'
      · rename_i hk
        obtain rfl : k = order + 1 := by simpa using hk.symm
        rw [Option.some.injEq] at hT'
        rw [← hT']
        exact step x hx y order T (h3 order T hT) i p
      · exact h3 k T' hT' i p

/-- The tolerance is absolute: a point that is not a node, but within 1e-8 of one node (and of no other), gets the values of
the basis at that node. -/
theorem barycentric_snaps (x : Fin n → ℝ) (y : Fin m → ℝ) (p : Fin m) (i0 : Fin n) (h1 : |y p - x i0| ≤ 1e-8)
    (h2 : ∀ k, k ≠ i0 → 1e-8 < |y p - x k|) (order : ℕ) :
    ∃ res T, barycentricInterpolation x y order = some res ∧ Dict.get? res [0] = some T ∧
      ∀ i, T i p = if i = i0 then 1 else 0 := by
  have hI : ∀ k, baryI0 x y k p = if k = i0 then 1 else 0 := by
    intro k
    unfold baryI0
    by_cases hk : k = i0
    · subst hk
      rw [if_pos rfl, if_pos ((close_iff x y k p).2 h1)]
    · rw [if_neg hk, if_neg fun hh => absurd ((close_iff x y k p).1 hh) (not_le.2 (h2 k hk)),
        if_pos ⟨i0, (close_iff x y i0 p).2 h1⟩]
  have hres : ∃ res, barycentricInterpolation x y order = some res ∧ Dict.get? res [0] = some (baryI x y) ∧
      ∃ T, Dict.get? res [order] = some T := by
    induction order with
    | zero => exact ⟨_, rfl, rfl, _, rfl⟩
    | succ order ih =>
      obtain ⟨res, h1, h2, T, hT⟩ := ih
      refine ⟨Dict.put res [order + 1] (baryD x * T), ?_, ?_, _, Dict.get?_put_self _ _ _⟩
      · unfold barycentricInterpolation at h1 ⊢
        rw [List.range_succ, List.foldlM_append, h1]
        simp [hT]
      · rw [Dict.get?_put_ne _ _ (by simp)]; exact h2
  obtain ⟨res, r1, r2, -⟩ := hres
  refine ⟨res, _, r1, r2, fun i => ?_⟩
  unfold baryI
  simp only [hI]
  simp

/-- The hypotheses are met: nodes 0 and 1, points 0 and 1/2; and a point that is snapped. -/
example : Function.Injective (![0, 1] : Fin 2 → ℝ) ∧ ∀ p, Separated (![0, 1] : Fin 2 → ℝ) ((![0, 1 / 2] : Fin 2 → ℝ) p) := by
  constructor
  · intro i j; fin_cases i <;> fin_cases j <;> simp
  · intro p
    fin_cases p
    · left; refine ⟨0, rfl, fun k hk => ?_⟩
      fin_cases k
      · exact absurd rfl hk
      · norm_num
    · right; intro k
      fin_cases k <;> norm_num [abs_of_pos, abs_of_neg]

example : |(1e-9 : ℝ) - (![0, 1] : Fin 2 → ℝ) 0| ≤ 1e-8 ∧ ∀ k, k ≠ 0 → 1e-8 < |(1e-9 : ℝ) - (![0, 1] : Fin 2 → ℝ) k| := by
  constructor
  · norm_num [abs_of_pos]
  · intro k hk
    fin_cases k
    · exact absurd rfl hk
    · norm_num [abs_of_neg]

end FIAT
