/-
Golub-Welsch quadrature: exactness, positivity, location of the nodes.
-/
import Verif.Lemmas.GolubWelsch
import Mathlib.Algebra.BigOperators.Fin
import Mathlib.LinearAlgebra.Matrix.ToLinearEquiv
import Mathlib.Tactic.Linarith
import Mathlib.Tactic.Positivity

namespace FIAT
open Polynomial Matrix

/-- A positive functional on the interval: positive on every non-zero polynomial that is nonnegative on `(a, b)`. -/
def PosOn (L : ℝ[X] →ₗ[ℝ] ℝ) (a b : ℝ) : Prop :=
  ∀ q : ℝ[X], q ≠ 0 → (∀ x, a < x → x < b → 0 ≤ q.eval x) → 0 < L q

theorem IsOrtho.beta_pos {L : ℝ[X] →ₗ[ℝ] ℝ} {alpha beta : ℕ → ℝ} (h : IsOrtho L alpha beta) {a b : ℝ} (hL : PosOn L a b) (k : ℕ) :
    0 < beta k := by
  have key : ∀ k, 0 < ∏ i ∈ Finset.range (k + 1), beta i := by
    intro k
    rw [← h.norm]
    refine hL _ (mul_ne_zero (recPoly_monic ..).ne_zero (recPoly_monic ..).ne_zero) fun x _ _ => ?_
    rw [eval_mul]; exact mul_self_nonneg _
  rcases k with _ | k
  · simpa using key 0
  · have h1 := key (k + 1)
    rw [Finset.prod_range_succ] at h1
    exact (pos_iff_pos_of_mul_pos h1).1 (key k)

section pair
variable {N : ℕ} {alpha beta : ℕ → ℝ}

theorem aeval_symm {T : Matrix (Fin N) (Fin N) ℝ} (hT : T.transpose = T) (q : ℝ[X]) : (aeval T q).transpose = aeval T q := by
  induction q using Polynomial.induction_on' with
  | add p q hp hq => rw [map_add, Matrix.transpose_add, hp, hq]
  | monomial n a =>
    rw [← C_mul_X_pow_eq_monomial, map_mul, aeval_C, map_pow, aeval_X, Algebra.algebraMap_eq_smul_one, smul_mul_assoc, one_mul,
      Matrix.transpose_smul, Matrix.transpose_pow, hT]

theorem dot_symm {T : Matrix (Fin N) (Fin N) ℝ} (hT : T.transpose = T) (u w : Fin N → ℝ) : T.mulVec u ⬝ᵥ w = u ⬝ᵥ T.mulVec w := by
  rw [dotProduct_comm, Matrix.dotProduct_mulVec, ← Matrix.mulVec_transpose, hT, dotProduct_comm]

theorem unit_dot (k : ℕ) (hk : k < N) (w : Fin N → ℝ) : unitN N k ⬝ᵥ w = w ⟨k, hk⟩ := by
  rw [dotProduct, Finset.sum_eq_single ⟨k, hk⟩]
  · simp [unitN]
  · intro i _ hi
    rw [unitN, if_neg (fun h => hi (Fin.ext h)), zero_mul]
  · intro h; exact absurd (Finset.mem_univ _) h

theorem unit_dot_unit (i j : ℕ) (hj : j < N) : unitN N i ⬝ᵥ unitN N j = if i = j then 1 else 0 := by
  rw [dotProduct_comm, unit_dot j hj, unitN]
  simp only [eq_comm]

theorem entry_zero (hN : 0 < N) (A : Matrix (Fin N) (Fin N) ℝ) : A ⟨0, hN⟩ ⟨0, hN⟩ = unitN N 0 ⬝ᵥ A.mulVec (unitN N 0) := by
  rw [unit_dot 0 hN, Matrix.mulVec, dotProduct_comm, unit_dot 0 hN]

/-- The functional of the matrix on products. -/
theorem jac_pair {alpha' beta' : ℕ → ℝ} {M : ℕ} (hN : 0 < N) (hM : M ≤ N) (ha : ∀ k < M, alpha k = alpha' k)
    (hb : ∀ k, 1 ≤ k → k < M → beta k = beta' k) (hpos : ∀ k, 1 ≤ k → k < M → 0 ≤ beta k) (i j : ℕ) (hi : i ≤ M) (hj : j ≤ M)
    (hjN : j < N) :
    (aeval (jacMatrix N alpha beta) (recPoly alpha' beta' i * recPoly alpha' beta' j)) ⟨0, hN⟩ ⟨0, hN⟩ =
      if i = j then sqrtProd beta i * sqrtProd beta j else 0 := by
  rw [entry_zero hN (aeval (jacMatrix N alpha beta) (recPoly alpha' beta' i * recPoly alpha' beta' j)), map_mul, ← Matrix.mulVec_mulVec, ← dot_symm (aeval_symm (jacMatrix_symm _ _) _),
    recPoly_jac _ _ hM ha hb hpos i hi, recPoly_jac _ _ hM ha hb hpos j hj, smul_dotProduct, dotProduct_smul, unit_dot_unit i j hjN]
  split_ifs <;> simp

/-- The quadrature of the matrix is exact. -/
theorem jac_exact {alpha' beta' : ℕ → ℝ} {L : ℝ[X] →ₗ[ℝ] ℝ} (hL : IsOrtho L alpha' beta') {M : ℕ} (hN : 0 < N) (hM : M ≤ N)
    (ha : ∀ k < M, alpha k = alpha' k)
    (hb : ∀ k, k < M → beta k = beta' k) (hb0 : beta 0 = beta' 0) (hpos : ∀ k, 1 ≤ k → k < M → 0 ≤ beta k) (hM0 : 0 < M)
    {x : Fin N → ℝ} {V : Matrix (Fin N) (Fin N) ℝ} (hV : Diagonalises (jacMatrix N alpha beta) x V)
    (q : ℝ[X]) (hq : q.natDegree ≤ 2 * M - 1) :
    L q = ∑ j, beta 0 * V ⟨0, hN⟩ j ^ 2 * q.eval (x j) := by
  let Q : ℝ[X] →ₗ[ℝ] ℝ :=
    { toFun := fun q => ∑ j, beta 0 * V ⟨0, hN⟩ j ^ 2 * q.eval (x j)
      map_add' := fun p q => by
        rw [← Finset.sum_add_distrib]; exact Finset.sum_congr rfl fun j _ => by rw [eval_add, mul_add]
      map_smul' := fun c q => by
        rw [RingHom.id_apply, smul_eq_mul, Finset.mul_sum]
        exact Finset.sum_congr rfl fun j _ => by rw [smul_eq_C_mul, eval_mul, eval_C]; ring }
  have hQ : ∀ q, Q q = beta 0 * (aeval (jacMatrix N alpha beta) q) ⟨0, hN⟩ ⟨0, hN⟩ := by
    intro q
    rw [hV.quad, Finset.mul_sum]
    change ∑ j : Fin N, beta 0 * V ⟨0, hN⟩ j ^ 2 * q.eval (x j) = _
    exact Finset.sum_congr rfl fun j _ => mul_assoc _ _ _
  refine functional_ext alpha' beta' L Q M (M - 1) ?_ q (by omega)
  intro i hi j hj
  rw [hQ, jac_pair hN hM ha (fun k _ h => hb k h) hpos i j hi (by omega) (by omega)]
  by_cases hij : i = j
  · subst hij
    rw [if_pos rfl, hL.norm, sqrtProd_sq beta (fun k h1 h2 => hpos k h1 (by omega))]
    exact Finset.prod_congr rfl fun k hk => (hb k (by have := Finset.mem_range.1 hk; omega)).symm
  · rw [if_neg hij, mul_zero, hL.ne hij]

end pair

section nodes
variable {N : ℕ} {alpha beta : ℕ → ℝ} {x : Fin N → ℝ} {V : Matrix (Fin N) (Fin N) ℝ}

theorem Diagonalises.col_dot {T : Matrix (Fin N) (Fin N) ℝ} (hV : Diagonalises T x V) (i j : Fin N) :
    V.col i ⬝ᵥ V.col j = if i = j then 1 else 0 := by
  have := congrFun (congrFun hV.ortho i) j
  rw [Matrix.mul_apply, Matrix.one_apply] at this
  rw [← this]
  rfl

theorem aeval_eigen {T : Matrix (Fin N) (Fin N) ℝ} {w : Fin N → ℝ} {c : ℝ} (h : T.mulVec w = c • w) (q : ℝ[X]) :
    (aeval T q).mulVec w = q.eval c • w := by
  induction q using Polynomial.induction_on' with
  | add p q hp hq => rw [map_add, Matrix.add_mulVec, hp, hq, eval_add, add_smul]
  | monomial n a =>
    have hp : (T ^ n).mulVec w = c ^ n • w := by
      induction n with
      | zero => simp
      | succ n ih => rw [pow_succ, ← Matrix.mulVec_mulVec, h, Matrix.mulVec_smul, ih, smul_smul, pow_succ, mul_comm]
    rw [← C_mul_X_pow_eq_monomial, map_mul, aeval_C, map_pow, aeval_X, Algebra.algebraMap_eq_smul_one, smul_mul_assoc, one_mul,
      Matrix.smul_mulVec, hp, smul_smul, eval_mul, eval_C, eval_pow, eval_X]

/-- An eigenvector is determined by its first entry. -/
theorem eigen_entry (hN : 0 < N) (hpos : ∀ k, 1 ≤ k → k < N → 0 < beta k) {w : Fin N → ℝ} {c : ℝ}
    (h : (jacMatrix N alpha beta).mulVec w = c • w) (k : ℕ) (hk : k < N) :
    sqrtProd beta k * w ⟨k, hk⟩ = (recPoly alpha beta k).eval c * w ⟨0, hN⟩ := by
  have h1 := recPoly_jac (N := N) alpha beta (alpha' := alpha) (beta' := beta) (M := N) le_rfl (fun _ _ => rfl) (fun _ _ _ => rfl)
    (fun k h1 h2 => (hpos k h1 h2).le) k hk.le
  have h2 := congrArg (fun u => u ⬝ᵥ w) h1
  beta_reduce at h2
  rw [dot_symm (aeval_symm (jacMatrix_symm _ _) _), aeval_eigen h, dotProduct_smul, smul_dotProduct, unit_dot 0 hN, unit_dot k hk] at h2
  exact h2.symm

theorem eigen_first_ne (hN : 0 < N) (hpos : ∀ k, 1 ≤ k → k < N → 0 < beta k) {w : Fin N → ℝ} {c : ℝ}
    (h : (jacMatrix N alpha beta).mulVec w = c • w) (hw : w ≠ 0) : w ⟨0, hN⟩ ≠ 0 := by
  intro h0
  refine hw (funext fun i => ?_)
  have := eigen_entry hN hpos h i i.2
  rw [h0, mul_zero] at this
  exact (mul_eq_zero.1 this).resolve_left (sqrtProd_pos beta fun k h1 h2 => hpos k h1 (by omega)).ne'

theorem Diagonalises.col_ne {T : Matrix (Fin N) (Fin N) ℝ} (hV : Diagonalises T x V) (j : Fin N) : V.col j ≠ 0 := by
  intro h
  have := hV.col_dot j j
  rw [h, if_pos rfl, zero_dotProduct] at this
  exact zero_ne_one this

theorem jac_weight_pos (hN : 0 < N) (hpos : ∀ k, 1 ≤ k → k < N → 0 < beta k) (hV : Diagonalises (jacMatrix N alpha beta) x V)
    (j : Fin N) : V ⟨0, hN⟩ j ≠ 0 := eigen_first_ne hN hpos (hV.col j) (hV.col_ne j)

theorem jac_nodes_injective (hpos : ∀ k, 1 ≤ k → k < N → 0 < beta k) (hV : Diagonalises (jacMatrix N alpha beta) x V) :
    Function.Injective x := by
  intro i j hij
  by_contra hne
  have hN : 0 < N := i.pos
  have h1 := jac_weight_pos hN hpos hV j
  have key : V ⟨0, hN⟩ j • V.col i = V ⟨0, hN⟩ i • V.col j := by
    funext k
    have e1 := eigen_entry hN hpos (hV.col i) k k.2
    have e2 := eigen_entry hN hpos (hV.col j) k k.2
    rw [hij] at e1
    have hS := (sqrtProd_pos (k := (k : ℕ)) beta fun m h1 h2 => hpos m h1 (by omega)).ne'
    simp only [Matrix.col_apply, Pi.smul_apply, smul_eq_mul, Fin.eta] at e1 e2 ⊢
    refine mul_left_cancel₀ hS ?_
    linear_combination V ⟨0, hN⟩ j * e1 - V ⟨0, hN⟩ i * e2
  have h2 := congrArg (fun u => u ⬝ᵥ V.col i) key
  simp only [smul_dotProduct, hV.col_dot, if_pos, smul_eq_mul] at h2
  rw [if_neg (Ne.symm hne)] at h2
  simp at h2
  exact h1 h2

/-- A nonzero vector with `T w = c w` shows that `c` is one of the eigenvalues. -/
theorem Diagonalises.eigenvalue {T : Matrix (Fin N) (Fin N) ℝ} (hV : Diagonalises T x V) (hT : T.transpose = T) {w : Fin N → ℝ} {c : ℝ}
    (h : T.mulVec w = c • w) (hw : w ≠ 0) : ∃ j, x j = c := by
  by_contra hcon
  push Not at hcon
  have h0 : V.transpose.mulVec w = 0 := by
    funext j
    have h1 : V.col j ⬝ᵥ T.mulVec w = c * (V.col j ⬝ᵥ w) := by rw [h, dotProduct_smul, smul_eq_mul]
    rw [← dot_symm hT, hV.col, smul_dotProduct, smul_eq_mul] at h1
    have h2 : (x j - c) * (V.col j ⬝ᵥ w) = 0 := by linear_combination h1
    exact (mul_eq_zero.1 h2).resolve_left (sub_ne_zero.2 (hcon j))
  refine hw ?_
  rw [← Matrix.one_mulVec w, ← hV.ortho', ← Matrix.mulVec_mulVec, h0, Matrix.mulVec_zero]

/-- The quadratic form. -/
theorem Diagonalises.form {T : Matrix (Fin N) (Fin N) ℝ} (hV : Diagonalises T x V) (c : ℝ) (g : Fin N → ℝ) :
    g ⬝ᵥ (T - c • (1 : Matrix (Fin N) (Fin N) ℝ)).mulVec g = ∑ j, (x j - c) * (V.transpose.mulVec g j) ^ 2 := by
  have h1 := hV.poly (X - C c)
  rw [map_sub, aeval_X, aeval_C, Algebra.algebraMap_eq_smul_one] at h1
  rw [h1, ← Matrix.mulVec_mulVec, ← Matrix.mulVec_mulVec, Matrix.dotProduct_mulVec, ← Matrix.mulVec_transpose, dotProduct]
  refine Finset.sum_congr rfl fun j _ => ?_
  rw [Matrix.mulVec_diagonal, eval_sub, eval_X, eval_C]
  ring

theorem Diagonalises.transpose_ne {T : Matrix (Fin N) (Fin N) ℝ} (hV : Diagonalises T x V) {g : Fin N → ℝ} (hg : g ≠ 0) :
    ∃ j, V.transpose.mulVec g j ≠ 0 := by
  by_contra hcon
  push Not at hcon
  refine hg ?_
  rw [← Matrix.one_mulVec g, ← hV.ortho', ← Matrix.mulVec_mulVec, show V.transpose.mulVec g = 0 from funext hcon, Matrix.mulVec_zero]

theorem Diagonalises.form_pos {T : Matrix (Fin N) (Fin N) ℝ} (hV : Diagonalises T x V) {c : ℝ} (hc : ∀ j, c < x j) {g : Fin N → ℝ}
    (hg : g ≠ 0) : 0 < g ⬝ᵥ (T - c • (1 : Matrix (Fin N) (Fin N) ℝ)).mulVec g := by
  rw [hV.form]
  obtain ⟨j, hj⟩ := hV.transpose_ne hg
  refine Finset.sum_pos' (fun i _ => mul_nonneg (sub_pos.2 (hc i)).le (sq_nonneg _)) ⟨j, Finset.mem_univ _, ?_⟩
  exact mul_pos (sub_pos.2 (hc j)) (by positivity)

theorem Diagonalises.form_neg {T : Matrix (Fin N) (Fin N) ℝ} (hV : Diagonalises T x V) {c : ℝ} (hc : ∀ j, x j < c) {g : Fin N → ℝ}
    (hg : g ≠ 0) : g ⬝ᵥ (T - c • (1 : Matrix (Fin N) (Fin N) ℝ)).mulVec g < 0 := by
  rw [hV.form]
  obtain ⟨j, hj⟩ := hV.transpose_ne hg
  rw [← neg_pos, ← Finset.sum_neg_distrib]
  refine Finset.sum_pos' (fun i _ => ?_) ⟨j, Finset.mem_univ _, ?_⟩
  · have := mul_nonneg (sub_pos.2 (hc i)).le (sq_nonneg (V.transpose.mulVec g i)); linarith
  · have := mul_pos (sub_pos.2 (hc j)) (show 0 < (V.transpose.mulVec g j) ^ 2 by positivity); linarith

end nodes

section interval
variable {N : ℕ}

private theorem natDegree_nodes (s : Finset (Fin N)) (x : Fin N → ℝ) : (∏ i ∈ s, (X - C (x i))).natDegree = s.card := by
  rw [natDegree_prod_of_monic _ _ fun i _ => monic_X_sub_C _]
  simp

/-- A rule that is exact to degree `2N - 1` has its nodes inside the interval. -/
theorem gauss_nodes_inside {L : ℝ[X] →ₗ[ℝ] ℝ} {a b : ℝ} (hL : PosOn L a b) (x w : Fin N → ℝ) (hw : ∀ j, 0 < w j)
    (hx : ∀ q : ℝ[X], q.natDegree ≤ 2 * N - 1 → L q = ∑ j, w j * q.eval (x j)) (j : Fin N) : a < x j ∧ x j < b := by
  set p : ℝ[X] := ∏ i ∈ Finset.univ.erase j, (X - C (x i)) with hp
  have hm : p.Monic := monic_prod_of_monic _ _ fun i _ => monic_X_sub_C _
  have hd : p.natDegree = N - 1 := by
    rw [hp, natDegree_nodes, Finset.card_erase_of_mem (Finset.mem_univ _), Finset.card_univ, Fintype.card_fin]
  have h0 : ∀ i, i ≠ j → p.eval (x i) = 0 := by
    intro i hi
    rw [hp, eval_prod]
    exact Finset.prod_eq_zero (Finset.mem_erase.2 ⟨hi, Finset.mem_univ _⟩) (by simp)
  have hNp := j.pos
  have key : ∀ l : ℝ[X], l ≠ 0 → l.natDegree ≤ 1 → (∀ y, a < y → y < b → 0 ≤ l.eval y) → 0 < l.eval (x j) := by
    intro l hl hl1 hl2
    have hne : l * (p * p) ≠ 0 := mul_ne_zero hl (mul_ne_zero hm.ne_zero hm.ne_zero)
    have h1 := hL (l * (p * p)) hne (fun y h1 h2 => by
      rw [eval_mul, eval_mul]; exact mul_nonneg (hl2 y h1 h2) (mul_self_nonneg _))
    rw [hx, Finset.sum_eq_single j] at h1
    · rw [eval_mul, eval_mul] at h1
      by_contra hneg
      have : l.eval (x j) * (p.eval (x j) * p.eval (x j)) ≤ 0 :=
        mul_nonpos_of_nonpos_of_nonneg (not_lt.1 hneg) (mul_self_nonneg _)
      nlinarith [hw j]
    · intro i _ hi
      rw [eval_mul, eval_mul, h0 i hi]; ring
    · intro h; exact absurd (Finset.mem_univ _) h
    · refine natDegree_mul_le.trans ?_
      have := natDegree_mul_le (p := p) (q := p)
      omega
  constructor
  · have := key (X - C a) (X_sub_C_ne_zero a) (natDegree_X_sub_C_le a) (fun y h1 _ => by simp; linarith)
    simp at this; linarith
  · have := key (C b - X) (by rw [← neg_sub]; exact neg_ne_zero.2 (X_sub_C_ne_zero b)) (by
        rw [← neg_sub, natDegree_neg]; exact natDegree_X_sub_C_le b) (fun y _ h2 => by simp; linarith)
    simp at this; linarith

/-- A rule that is exact to degree `2N - 3` and has the end points among its nodes has the other nodes inside the interval. -/
theorem lobatto_nodes_inside {L : ℝ[X] →ₗ[ℝ] ℝ} {a b : ℝ} (hL : PosOn L a b) (x w : Fin N → ℝ) (hw : ∀ j, 0 < w j)
    (hx : ∀ q : ℝ[X], q.natDegree ≤ 2 * N - 3 → L q = ∑ j, w j * q.eval (x j)) (ja jb : Fin N) (ha : x ja = a) (hb : x jb = b)
    (hab : a < b) (j : Fin N) (h1 : j ≠ ja) (h2 : j ≠ jb) : a < x j ∧ x j < b := by
  have hjab : ja ≠ jb := by rintro rfl; rw [ha] at hb; exact hab.ne hb
  set p : ℝ[X] := ∏ i ∈ ((Finset.univ.erase j).erase ja).erase jb, (X - C (x i)) with hp
  have hm : p.Monic := monic_prod_of_monic _ _ fun i _ => monic_X_sub_C _
  have hcard : (((Finset.univ.erase j).erase ja).erase jb).card = N - 3 := by
    rw [Finset.card_erase_of_mem (Finset.mem_erase.2 ⟨hjab.symm, Finset.mem_erase.2 ⟨h2.symm, Finset.mem_univ _⟩⟩),
      Finset.card_erase_of_mem (Finset.mem_erase.2 ⟨h1.symm, Finset.mem_univ _⟩), Finset.card_erase_of_mem (Finset.mem_univ _),
      Finset.card_univ, Fintype.card_fin]
    omega
  have hd : p.natDegree = N - 3 := by rw [hp, natDegree_nodes, hcard]
  have hN3 : 3 ≤ N := by
    by_contra h
    have e1 := Fin.val_ne_of_ne h1
    have e2 := Fin.val_ne_of_ne h2
    have e3 := Fin.val_ne_of_ne hjab
    omega
  obtain ⟨l, hl⟩ : ∃ l : ℝ[X], l = (X - C a) * (C b - X) := ⟨_, rfl⟩
  have hl0 : l ≠ 0 := hl ▸ mul_ne_zero (X_sub_C_ne_zero a) (by rw [← neg_sub]; exact neg_ne_zero.2 (X_sub_C_ne_zero b))
  have hld : l.natDegree ≤ 2 := by
    rw [hl]
    refine natDegree_mul_le.trans ?_
    have e1 := natDegree_X_sub_C_le a
    have e2 : (C b - X).natDegree ≤ 1 := by rw [← neg_sub, natDegree_neg]; exact natDegree_X_sub_C_le b
    omega
  have h0 : ∀ i, i ≠ j → (l * (p * p)).eval (x i) = 0 := by
    intro i hi
    rw [eval_mul, eval_mul]
    by_cases e1 : i = ja
    · rw [e1, ha]; simp [hl]
    · by_cases e2 : i = jb
      · rw [e2, hb]; simp [hl]
      · have : p.eval (x i) = 0 := by
          rw [hp, eval_prod]
          exact Finset.prod_eq_zero (Finset.mem_erase.2 ⟨e2, Finset.mem_erase.2 ⟨e1, Finset.mem_erase.2 ⟨hi, Finset.mem_univ _⟩⟩⟩)
            (by simp)
        rw [this]; ring
  have h3 := hL (l * (p * p)) (mul_ne_zero hl0 (mul_ne_zero hm.ne_zero hm.ne_zero)) (fun y h1 h2 => by
    rw [eval_mul, eval_mul]
    refine mul_nonneg ?_ (mul_self_nonneg _)
    rw [hl]; simp only [eval_mul, eval_sub, eval_X, eval_C]
    exact mul_nonneg (by linarith) (by linarith))
  rw [hx, Finset.sum_eq_single j (fun i _ hi => by rw [h0 i hi, mul_zero]) (fun h => absurd (Finset.mem_univ _) h)] at h3
  · rw [eval_mul, eval_mul] at h3
    have h4 : 0 < l.eval (x j) := by
      by_contra hneg
      have : l.eval (x j) * (p.eval (x j) * p.eval (x j)) ≤ 0 :=
        mul_nonpos_of_nonpos_of_nonneg (not_lt.1 hneg) (mul_self_nonneg _)
      nlinarith [hw j]
    rw [hl] at h4
    simp only [eval_mul, eval_sub, eval_X, eval_C] at h4
    rcases (mul_pos_iff.1 h4) with h | h
    · constructor <;> linarith [h.1, h.2]
    · linarith [h.1, h.2]
  · refine natDegree_mul_le.trans ?_
    have := natDegree_mul_le (p := p) (q := p)
    omega

end interval
end FIAT
