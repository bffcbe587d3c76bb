/-
C47: the Gauss and Lobatto rules computed from recursion coefficients (FIAT/orthopoly.py).
C46: the Gauss-Lobatto-Legendre rule on line cells (FIAT/quadrature.py).
-/
import Verif.Model.Lobatto
import Verif.Lemmas.GolubQuad
import Verif.Props.Orthopoly
import Verif.Props.Radau
import Mathlib.Analysis.Matrix.Spectrum
import Mathlib.Data.Fin.Tuple.Sort

namespace FIAT
open Polynomial Matrix

/-! ### Specification

`recPoly alpha beta k` (Lemmas/GolubWelsch.lean): the monic polynomials `p_0 = 1`, `p_1 = x - alpha_0`,
`p_{k+1} = (x - alpha_k) p_k - beta_k p_{k-1}`.  `IsOrtho L alpha beta`: `p_k` is orthogonal to all polynomials of smaller
degree and `L 1 = beta_0`.  `PosOn L a b` (Lemmas/GolubQuad.lean): `L` is positive on every non-zero polynomial that is
nonnegative on `(a, b)`. -/

/-- The symmetric matrix with the upper triangle of `A`. -/
def upperSymm {n : ℕ} (A : Matrix (Fin n) (Fin n) ℝ) : Matrix (Fin n) (Fin n) ℝ :=
  Matrix.of fun i j => if i ≤ j then A i j else A j i

/-- The contract of `numpy.linalg.eigh(A, "U")`: an orthogonal matrix whose columns are eigenvectors of the symmetric matrix
given by the upper triangle, eigenvalues in ascending order. -/
def IsEigh (eigh : EighFun) : Prop :=
  ∀ (n : ℕ) (A : Matrix (Fin n) (Fin n) ℝ), Monotone (eigh n A).1 ∧ (eigh n A).2.transpose * (eigh n A).2 = 1 ∧
    upperSymm A * (eigh n A).2 = (eigh n A).2 * Matrix.diagonal (eigh n A).1

/-- The value of a rule on a polynomial. -/
def ruleSum (xs ws : List ℝ) (q : ℝ[X]) : ℝ := ((xs.zip ws).map fun xw => xw.2 * q.eval xw.1).sum

/-! ### Lemmas -/

theorem symm_diagonalises {n : ℕ} (A : Matrix (Fin n) (Fin n) ℝ) (hA : A.transpose = A) :
    ∃ (x : Fin n → ℝ) (V : Matrix (Fin n) (Fin n) ℝ), Monotone x ∧ Diagonalises A x V := by
  have hH : A.IsHermitian := by
    rw [Matrix.IsHermitian, Matrix.conjTranspose_eq_transpose_of_trivial, hA]
  set x := hH.eigenvalues
  let U : Matrix (Fin n) (Fin n) ℝ := hH.eigenvectorUnitary
  have h1 : U.transpose * U = 1 := by
    have := (Unitary.mem_iff.1 hH.eigenvectorUnitary.2).1
    rwa [Matrix.star_eq_conjTranspose, Matrix.conjTranspose_eq_transpose_of_trivial] at this
  have hcol : ∀ i j, (A * U) i j = U i j * x j := by
    intro i j
    have h := congrFun (hH.mulVec_eigenvectorBasis j) i
    rw [Matrix.mul_apply]
    have e : ∀ k, U k j = hH.eigenvectorBasis j k := fun k => hH.eigenvectorUnitary_apply k j
    simp only [e]
    rw [Matrix.mulVec, dotProduct] at h
    rw [h]
    exact mul_comm _ _
  let s := Tuple.sort x
  refine ⟨x ∘ s, U.submatrix id s, Tuple.monotone_sort x, ⟨?_, ?_⟩⟩
  · ext i j
    have := congrFun (congrFun h1 (s i)) (s j)
    rw [Matrix.mul_apply] at this ⊢
    simp only [Matrix.transpose_apply, Matrix.submatrix_apply, id] at this ⊢
    rw [this, Matrix.one_apply, Matrix.one_apply]
    simp only [EmbeddingLike.apply_eq_iff_eq]
  · ext i j
    rw [Matrix.mul_diagonal]
    have := hcol i (s j)
    rw [Matrix.mul_apply] at this ⊢
    simpa using this

theorem upperSymm_symm {n : ℕ} (A : Matrix (Fin n) (Fin n) ℝ) : (upperSymm A).transpose = upperSymm A := by
  ext i j
  simp only [Matrix.transpose_apply, upperSymm, Matrix.of_apply]
  rcases lt_trichotomy i j with h | h | h
  · rw [if_neg (not_le.2 h), if_pos h.le]
  · subst h; rfl
  · rw [if_pos h.le, if_neg (not_le.2 h)]

/-- The contract can be met. -/
theorem eigh_exists : ∃ eigh : EighFun, IsEigh eigh := by
  choose f g h using fun (n : ℕ) (A : Matrix (Fin n) (Fin n) ℝ) => symm_diagonalises (upperSymm A) (upperSymm_symm A)
  exact ⟨fun n A => (f n A, g n A), fun n A => ⟨(h n A).1, (h n A).2.ortho, (h n A).2.eigen⟩⟩

theorem upperSymm_gaussMatrix (N : ℕ) (alpha beta : ℕ → ℝ) : upperSymm (gaussMatrix N alpha beta) = jacMatrix N alpha beta := by
  ext i j
  simp only [upperSymm, gaussMatrix, jacMatrix, Matrix.of_apply]
  rcases lt_trichotomy i j with h | h | h
  · have hv : (i : ℕ) < j := h
    rw [if_pos h.le, if_neg (c := i = j) h.ne, if_neg (c := i = j) h.ne, add_zero]
    split_ifs <;> first | rfl | omega
  · subst h
    rw [if_pos le_rfl, if_pos rfl, if_pos rfl, if_neg (by omega), zero_add]
  · have hv : (j : ℕ) < i := h
    rw [if_neg (not_le.2 h), if_neg (c := j = i) h.ne, if_neg (c := i = j) h.ne', add_zero]
    split_ifs <;> first | rfl | omega

theorem IsEigh.jac {eigh : EighFun} (h : IsEigh eigh) (N : ℕ) (alpha beta : ℕ → ℝ) :
    Monotone (eigh N (gaussMatrix N alpha beta)).1 ∧
      Diagonalises (jacMatrix N alpha beta) (eigh N (gaussMatrix N alpha beta)).1 (eigh N (gaussMatrix N alpha beta)).2 := by
  obtain ⟨h1, h2, h3⟩ := h N (gaussMatrix N alpha beta)
  rw [upperSymm_gaussMatrix] at h3
  exact ⟨h1, h2, h3⟩

theorem ruleSum_ofFn {n : ℕ} (x w : Fin n → ℝ) (q : ℝ[X]) : ruleSum (List.ofFn x) (List.ofFn w) q = ∑ j, w j * q.eval (x j) := by
  have : (List.ofFn x).zip (List.ofFn w) = List.ofFn fun j => (x j, w j) := by
    apply List.ext_getElem <;> simp
  rw [ruleSum, this, List.map_ofFn, List.sum_ofFn]
  rfl

/-- What `gauss` computes, for the modified as well as for the original coefficients. -/
theorem gauss_core {eigh : EighFun} (hE : IsEigh eigh) (n : ℕ) (alpha beta : ℕ → ℝ) (hpos : ∀ k, k ≤ n → 0 < beta k) :
    ∃ x w : Fin (n + 1) → ℝ, gauss eigh n alpha beta = (List.ofFn x, List.ofFn w) ∧ StrictMono x ∧ (∀ j, 0 < w j) ∧
      (∀ (u : Fin (n + 1) → ℝ) (c : ℝ), u ≠ 0 → (jacMatrix (n + 1) alpha beta).mulVec u = c • u → ∃ j, x j = c) ∧
      (∀ c, (∃ j, x j = c) → ∃ u : Fin (n + 1) → ℝ, u ≠ 0 ∧ (jacMatrix (n + 1) alpha beta).mulVec u = c • u) ∧
      ∀ (L : ℝ[X] →ₗ[ℝ] ℝ) (alpha' beta' : ℕ → ℝ), IsOrtho L alpha' beta' → ∀ M, 0 < M → M ≤ n + 1 →
        (∀ k < M, alpha k = alpha' k) → (∀ k < M, beta k = beta' k) →
        ∀ q : ℝ[X], q.natDegree ≤ 2 * M - 1 → L q = ∑ j, w j * q.eval (x j) := by
  obtain ⟨h1, h2⟩ := hE.jac (n + 1) alpha beta
  have hpos' : ∀ k, 1 ≤ k → k < n + 1 → 0 < beta k := fun k _ h => hpos k (by omega)
  refine ⟨(eigh (n + 1) (gaussMatrix (n + 1) alpha beta)).1, fun j => beta 0 * (eigh (n + 1) (gaussMatrix (n + 1) alpha beta)).2 0 j ^ 2,
    rfl, h1.strictMono_of_injective (jac_nodes_injective hpos' h2), ?_, ?_, ?_, ?_⟩
  · intro j
    have := jac_weight_pos (Nat.succ_pos n) hpos' h2 j
    have h0 := hpos 0 (by omega)
    exact mul_pos h0 (pow_pos_of_ne this)
  · intro u c hu hc
    exact h2.eigenvalue (jacMatrix_symm _ _) hc hu
  · rintro c ⟨j, rfl⟩
    exact ⟨_, h2.col_ne j, h2.col j⟩
  · intro L alpha' beta' hL M hM0 hM ha hb q hq
    exact jac_exact hL (Nat.succ_pos n) hM ha hb (hb 0 hM0) (fun k h1 h2 => (hpos' k h1 (by omega)).le) hM0 h2 q hq
where
  pow_pos_of_ne {x : ℝ} (h : x ≠ 0) : 0 < x ^ 2 := by positivity

/-! ### Gauss -/

/-- C47 (Gauss): with `n + 1` recursion coefficients of a positive functional on `(a, b)`, `gauss` returns `n + 1` nodes,
strictly increasing and inside the interval, and positive weights; the rule is exact for every polynomial of degree at most
`2 (n + 1) - 1`. -/
theorem gauss_rule (eigh : EighFun) (hE : IsEigh eigh) (L : ℝ[X] →ₗ[ℝ] ℝ) (alpha beta : ℕ → ℝ) (hL : IsOrtho L alpha beta) (a b : ℝ)
    (hpos : PosOn L a b) (n : ℕ) :
    ∃ xs ws, gauss eigh n alpha beta = (xs, ws) ∧ xs.length = n + 1 ∧ ws.length = n + 1 ∧ xs.Pairwise (· < ·) ∧
      (∀ x ∈ xs, a < x ∧ x < b) ∧ (∀ w ∈ ws, 0 < w) ∧ ∀ q : ℝ[X], q.natDegree ≤ 2 * (n + 1) - 1 → ruleSum xs ws q = L q := by
  obtain ⟨x, w, h1, h2, h3, -, -, h4⟩ := gauss_core hE n alpha beta (fun k _ => hL.beta_pos hpos k)
  have h5 := h4 L alpha beta hL (n + 1) (by omega) le_rfl (fun _ _ => rfl) (fun _ _ => rfl)
  refine ⟨_, _, h1, by simp, by simp, ?_, ?_, ?_, ?_⟩
  · rw [List.pairwise_ofFn]; exact fun i j h => h2 h
  · intro y hy
    obtain ⟨j, rfl⟩ := (List.mem_ofFn' _ _).1 hy
    exact gauss_nodes_inside hpos x w h3 h5 j
  · intro y hy
    obtain ⟨j, rfl⟩ := (List.mem_ofFn' _ _).1 hy
    exact h3 j
  · intro q hq
    rw [ruleSum_ofFn, h5 q hq]

/-! ### Lobatto -/

private theorem unitN_ge (N k : ℕ) (hk : N ≤ k) : unitN N k = 0 := by
  funext i
  rw [unitN, if_neg (by omega), Pi.zero_apply]

/-- A row of the matrix. -/
private theorem jac_row {N : ℕ} (alpha beta W : ℕ → ℝ) (k : ℕ) (hk : k < N) :
    (jacMatrix N alpha beta).mulVec (fun i => W i) ⟨k, hk⟩ =
      (if k = 0 then 0 else Real.sqrt (beta k) * W (k - 1)) + alpha k * W k +
        (if k + 1 < N then Real.sqrt (beta (k + 1)) * W (k + 1) else 0) := by
  rw [← unit_dot k hk ((jacMatrix N alpha beta).mulVec fun i => W i), ← dot_symm (jacMatrix_symm _ _), jacMatrix_unit _ _ hk, add_dotProduct, add_dotProduct, smul_dotProduct,
    smul_dotProduct, unit_dot k hk]
  congr 1
  · congr 1
    split_ifs with h
    · rw [zero_dotProduct]
    · rw [smul_dotProduct, unit_dot (k - 1) (by omega)]; rfl
  · split_ifs with h
    · rw [unit_dot (k + 1) h]; rfl
    · rw [unitN_ge _ _ (by omega), zero_dotProduct, smul_zero]

private theorem lobattoMatrix_eq (n : ℕ) (alpha beta : ℕ → ℝ) (xl : ℝ) : lobattoMatrix n alpha beta xl =
    jacMatrix n (fun k => alpha (k + 1)) beta - xl • (1 : Matrix (Fin n) (Fin n) ℝ) := by
  ext i j
  simp only [lobattoMatrix, jacMatrix, Matrix.of_apply, Matrix.sub_apply, Matrix.smul_apply, Matrix.one_apply, smul_eq_mul, Fin.ext_iff]
  by_cases h1 : (i : ℕ) = j
  · rw [if_pos h1, if_pos h1, if_pos h1, if_neg (by omega), if_neg (by omega)]; ring
  · rw [if_neg h1, if_neg h1, if_neg h1]
    by_cases h2 : (i : ℕ) + 1 = j
    · rw [if_pos h2, if_pos h2, if_neg (by omega), h2]; ring
    · rw [if_neg h2, if_neg h2]
      by_cases h3 : (j : ℕ) + 1 = i
      · rw [if_pos h3, if_pos h3, h3]; ring
      · rw [if_neg h3, if_neg h3]; ring

private theorem jacMatrix_congr (N : ℕ) (alpha alpha' beta beta' : ℕ → ℝ) (ha : ∀ k < N, alpha k = alpha' k) (hb : ∀ k < N, beta k = beta' k) :
    jacMatrix N alpha beta = jacMatrix N alpha' beta' := by
  ext i j
  simp only [jacMatrix, Matrix.of_apply]
  rw [ha i i.2, hb i i.2, hb j j.2]

theorem npSolve_spec {n : ℕ} (A : Matrix (Fin n) (Fin n) ℝ) (b : Fin n → ℝ) (h : ∀ g : Fin n → ℝ, A.mulVec g = 0 → g = 0) :
    ∃ g, npSolve A b = some g ∧ A.mulVec g = b := by
  have hdet : IsUnit A.det := by
    rw [isUnit_iff_ne_zero]
    intro h0
    obtain ⟨v, hv, hv2⟩ := Matrix.exists_mulVec_eq_zero_iff.2 h0
    exact hv (h v hv2)
  refine ⟨A⁻¹.mulVec b, by rw [npSolve, if_pos hdet], ?_⟩
  rw [Matrix.mulVec_mulVec, Matrix.mul_nonsing_inv A hdet, Matrix.one_mulVec]

/-- C47 (Lobatto): with `n + 2` recursion coefficients of a positive functional on `(a, b)`, all `alpha` equal, `lobatto` with
the preassigned nodes `a` and `b` succeeds and returns `n + 2` nodes, strictly increasing from `a` to `b`, and positive weights;
the rule is exact for every polynomial of degree at most `2 (n + 2) - 3`.  The case of non-constant `alpha` is missing:
`lobatto_wrong` shows that the claim is false there. -/
theorem lobatto_rule_partial (eigh : EighFun) (hE : IsEigh eigh) (L : ℝ[X] →ₗ[ℝ] ℝ) (alpha beta : ℕ → ℝ) (hL : IsOrtho L alpha beta)
    (a b : ℝ) (hab : a < b) (hpos : PosOn L a b) (n : ℕ) (hconst : ∀ k ≤ n + 1, alpha k = alpha 0) :
    ∃ xs ws, lobatto eigh n alpha beta a b = some (xs, ws) ∧ xs.length = n + 2 ∧ ws.length = n + 2 ∧ xs.Pairwise (· < ·) ∧
      xs.head? = some a ∧ xs.getLast? = some b ∧ (∀ w ∈ ws, 0 < w) ∧
      ∀ q : ℝ[X], q.natDegree ≤ 2 * (n + 2) - 3 → ruleSum xs ws q = L q := by
  -- the unmodified matrix
  set T := jacMatrix (n + 1) alpha beta with hT
  obtain ⟨y, V, -, hV⟩ := symm_diagonalises T (jacMatrix_symm _ _)
  have hb := fun k => hL.beta_pos hpos k
  have hy : ∀ j, a < y j ∧ y j < b := by
    have h1 := jac_exact hL (Nat.succ_pos n) (M := n + 1) le_rfl (fun _ _ => rfl) (fun _ _ => rfl) rfl (fun k _ _ => (hb k).le)
      (Nat.succ_pos n) hV
    exact gauss_nodes_inside hpos y _ (fun j => mul_pos (hb 0) (by
      have := jac_weight_pos (Nat.succ_pos n) (fun k _ _ => hb k) hV j
      positivity)) h1
  have hJ : ∀ xl, lobattoMatrix (n + 1) alpha beta xl = T - xl • (1 : Matrix (Fin (n + 1)) (Fin (n + 1)) ℝ) := by
    intro xl
    rw [lobattoMatrix_eq, jacMatrix_congr _ (fun k => alpha (k + 1)) alpha beta beta (fun k hk => by
      rw [hconst (k + 1) (by omega), hconst k (by omega)]) (fun _ _ => rfl)]
  set en : Fin (n + 1) → ℝ := fun i => if i = Fin.last n then 1 else 0 with hen
  have hdot : ∀ g : Fin (n + 1) → ℝ, g ⬝ᵥ en = g (Fin.last n) := by
    intro g
    rw [dotProduct, Finset.sum_eq_single (Fin.last n)]
    · simp [hen]
    · intro i _ hi; simp [hen, hi]
    · intro h; exact absurd (Finset.mem_univ _) h
  have hen0 : en ≠ 0 := by
    intro h
    have := congrFun h (Fin.last n)
    simp [hen] at this
  obtain ⟨g1, s1, e1⟩ := npSolve_spec (lobattoMatrix (n + 1) alpha beta a) en (by
    intro g hg
    by_contra hne
    have := hV.form_pos (c := a) (fun j => (hy j).1) hne
    rw [← hJ, hg, dotProduct_zero] at this
    exact lt_irrefl _ this)
  obtain ⟨g2, s2, e2⟩ := npSolve_spec (lobattoMatrix (n + 1) alpha beta b) en (by
    intro g hg
    by_contra hne
    have := hV.form_neg (c := b) (fun j => (hy j).2) hne
    rw [← hJ, hg, dotProduct_zero] at this
    exact lt_irrefl _ this)
  have p1 : 0 < g1 (Fin.last n) := by
    have := hV.form_pos (c := a) (fun j => (hy j).1) (g := g1) (by rintro rfl; rw [Matrix.mulVec_zero] at e1; exact hen0 e1.symm)
    rwa [← hJ, e1, hdot] at this
  have p2 : g2 (Fin.last n) < 0 := by
    have := hV.form_neg (c := b) (fun j => (hy j).2) (g := g2) (by rintro rfl; rw [Matrix.mulVec_zero] at e2; exact hen0 e2.symm)
    rwa [← hJ, e2, hdot] at this
  obtain ⟨ab, s3, e3⟩ := npSolve_spec !![1, -g1 (Fin.last n); 1, -g2 (Fin.last n)] ![a, b] (by
    intro g hg
    have h0 := congrFun hg 0
    have h1 := congrFun hg 1
    simp [Matrix.mulVec, dotProduct, Fin.sum_univ_two] at h0 h1
    have hb0 : (g1 (Fin.last n) - g2 (Fin.last n)) * g 1 = 0 := by linarith
    have hg1 : g 1 = 0 := (mul_eq_zero.1 hb0).resolve_left (by linarith)
    rw [hg1] at h0
    funext i
    fin_cases i
    · simp at h0; simpa using h0
    · simpa using hg1)
  have e30 : ab 0 - g1 (Fin.last n) * ab 1 = a := by
    have := congrFun e3 0
    simp [Matrix.mulVec, dotProduct, Fin.sum_univ_two] at this
    linarith
  have e31 : ab 0 - g2 (Fin.last n) * ab 1 = b := by
    have := congrFun e3 1
    simp [Matrix.mulVec, dotProduct, Fin.sum_univ_two] at this
    linarith
  have hb1 : 0 < ab 1 := by
    have h1 : (g1 (Fin.last n) - g2 (Fin.last n)) * ab 1 = b - a := by linarith
    exact (pos_iff_pos_of_mul_pos (by rw [h1]; linarith)).1 (by linarith : 0 < g1 (Fin.last n) - g2 (Fin.last n))
  -- the modified matrix
  set alpha' := Function.update alpha (n + 1) (ab 0) with ha'
  set beta' := Function.update beta (n + 1) (ab 1) with hb'
  have hbp : ∀ k, 0 < beta' k := by
    intro k
    rw [hb']
    by_cases h : k = n + 1
    · rw [h, Function.update_self]; exact hb1
    · rw [Function.update_of_ne h]; exact hb k
  have hal : ∀ k < n + 1, alpha' k = alpha k := fun k hk => by rw [ha', Function.update_of_ne (by omega)]
  have hbl : ∀ k < n + 1, beta' k = beta k := fun k hk => by rw [hb', Function.update_of_ne (by omega)]
  have hrun : lobatto eigh n alpha beta a b = some (gauss eigh (n + 1) alpha' beta') := by
    simp only [lobatto, Option.bind_eq_bind]
    rw [← hen, s1, Option.bind_some, s2, Option.bind_some, s3, Option.bind_some]
  obtain ⟨x, w, h1, h2, h3, h4, -, h5⟩ := gauss_core hE (n + 1) alpha' beta' (fun k _ => hbp k)
  have h6 := h5 L alpha beta hL (n + 1) (by omega) (by omega) hal hbl
  have key : ∀ (xl : ℝ) (g : Fin (n + 1) → ℝ), (lobattoMatrix (n + 1) alpha beta xl).mulVec g = en →
      ab 0 - g (Fin.last n) * ab 1 = xl → ∃ j, x j = xl := by
    intro xl g hg hxl
    let G : ℕ → ℝ := fun k => if h : k < n + 1 then g ⟨k, h⟩ else 0
    have hG : ∀ i : Fin (n + 1), G i = g i := fun i => dif_pos i.2
    let U : ℕ → ℝ := fun k => if k < n + 1 then Real.sqrt (ab 1) * G k else -1
    have hrow : ∀ (k : ℕ) (hk : k < n + 1), ((if k = 0 then 0 else Real.sqrt (beta k) * G (k - 1)) + alpha k * G k +
        (if k + 1 < n + 1 then Real.sqrt (beta (k + 1)) * G (k + 1) else 0)) - xl * G k = if k = n then 1 else 0 := by
      intro k hk
      have := congrFun hg ⟨k, hk⟩
      rw [hJ, Matrix.sub_mulVec, Matrix.smul_mulVec, Matrix.one_mulVec, show g = (fun i : Fin (n + 1) => G i) from funext fun i => (hG i).symm,
        Pi.sub_apply, hT, jac_row, Pi.smul_apply, smul_eq_mul] at this
      rw [this, hen]
      simp [Fin.ext_iff]
    have hsq : Real.sqrt (ab 1) * Real.sqrt (ab 1) = ab 1 := Real.mul_self_sqrt hb1.le
    refine h4 (fun i => U i) xl ?_ ?_
    · intro h0
      have := congrFun h0 (Fin.last (n + 1))
      simp [U] at this
    · funext i
      obtain ⟨k, hk⟩ := i
      rw [jac_row, Pi.smul_apply, smul_eq_mul]
      simp only
      by_cases hkn : k < n + 1
      · have hr := hrow k hkn
        have u0 : U k = Real.sqrt (ab 1) * G k := if_pos hkn
        rw [u0, hal k hkn, if_pos (show k + 1 < n + 1 + 1 by omega), hbl k hkn]
        have um : (if k = 0 then 0 else Real.sqrt (beta k) * U (k - 1)) =
            Real.sqrt (ab 1) * (if k = 0 then 0 else Real.sqrt (beta k) * G (k - 1)) := by
          split_ifs with h
          · rw [mul_zero]
          · rw [show U (k - 1) = Real.sqrt (ab 1) * G (k - 1) from if_pos (by omega)]; ring
        rw [um]
        by_cases hkl : k = n
        · subst hkl
          rw [if_neg (c := k + 1 < k + 1) (by omega), if_pos (c := k = k) rfl] at hr
          rw [show U (k + 1) = -1 from if_neg (by omega), show beta' (k + 1) = ab 1 by rw [hb', Function.update_self]]
          linear_combination Real.sqrt (ab 1) * hr
        · rw [if_pos (c := k + 1 < n + 1) (by omega), if_neg hkl] at hr
          rw [show U (k + 1) = Real.sqrt (ab 1) * G (k + 1) from if_pos (by omega), hbl (k + 1) (by omega)]
          linear_combination Real.sqrt (ab 1) * hr
      · obtain rfl : k = n + 1 := by omega
        rw [if_neg (by omega), if_neg (by omega), Nat.add_sub_cancel, show U n = Real.sqrt (ab 1) * G n from if_pos (by omega),
          show U (n + 1) = -1 from if_neg (by omega), show beta' (n + 1) = ab 1 by rw [hb', Function.update_self],
          show alpha' (n + 1) = ab 0 by rw [ha', Function.update_self], show G n = g (Fin.last n) from hG (Fin.last n)]
        linear_combination g (Fin.last n) * hsq - hxl
  obtain ⟨ja, hja⟩ := key a g1 e1 e30
  obtain ⟨jb, hjb⟩ := key b g2 e2 e31
  have hin : ∀ j, a ≤ x j ∧ x j ≤ b := by
    intro j
    by_cases c1 : j = ja
    · rw [c1, hja]; exact ⟨le_rfl, hab.le⟩
    · by_cases c2 : j = jb
      · rw [c2, hjb]; exact ⟨hab.le, le_rfl⟩
      · have := lobatto_nodes_inside hpos x w h3 (by intro q hq; exact h6 q (by omega)) ja jb hja hjb hab j c1 c2
        exact ⟨this.1.le, this.2.le⟩
  refine ⟨_, _, by rw [hrun, h1], by simp, by simp, ?_, ?_, ?_, ?_, ?_⟩
  · rw [List.pairwise_ofFn]; exact fun i j h => h2 h
  · rw [List.ofFn_succ, List.head?_cons]
    have : x 0 = a := le_antisymm (by rw [← hja]; exact h2.monotone (Fin.zero_le _)) (hin 0).1
    rw [this]
  · rw [List.getLast?_eq_getElem?, List.length_ofFn, Nat.add_sub_cancel, List.getElem?_ofFn, dif_pos (Nat.lt_succ_self (n + 1))]
    have : x (Fin.last (n + 1)) = b := le_antisymm (hin _).2 (by rw [← hjb]; exact h2.monotone (Fin.le_last _))
    rw [← this]; rfl
  · intro y hy
    obtain ⟨j, rfl⟩ := (List.mem_ofFn' _ _).1 hy
    exact h3 j
  · intro q hq
    rw [ruleSum_ofFn, h6 q (by omega)]

/-- The degree of precision of a rule with `n + 2` points that include both end points is at most `2 (n + 2) - 3`. -/
theorem lobatto_sharp (L : ℝ[X] →ₗ[ℝ] ℝ) (a b : ℝ) (hpos : PosOn L a b) (n : ℕ) (xs ws : List ℝ) (hl : xs.length = n + 2)
    (ha : xs.head? = some a) (hb : xs.getLast? = some b) :
    ∃ q : ℝ[X], q.natDegree = 2 * (n + 2) - 2 ∧ ruleSum xs ws q ≠ L q := by
  obtain ⟨ys, rfl⟩ : ∃ ys, xs = a :: ys ++ [b] := by
    obtain ⟨zs, rfl⟩ : ∃ zs, xs = a :: zs := by
      rcases xs with _ | ⟨c, zs⟩
      · simp at ha
      · simp at ha; exact ⟨zs, by rw [ha]⟩
    rcases List.eq_nil_or_concat zs with rfl | ⟨ys, c, rfl⟩
    · simp at hl
    · rw [List.concat_eq_append, ← List.cons_append, List.getLast?_concat] at hb
      exact ⟨ys, by simp [Option.some.inj hb]⟩
  have hys : ys.length = n := by simpa using hl
  obtain ⟨p, hm, hd, hp⟩ : ∃ p : ℝ[X], p.Monic ∧ p.natDegree = n ∧ ∀ y ∈ ys, p.eval y = 0 := by
    rw [← hys]
    clear hl ha hb hys
    induction ys with
    | nil => exact ⟨1, monic_one, natDegree_one, by simp⟩
    | cons y ys ih =>
      obtain ⟨p, h1, h2, h3⟩ := ih
      refine ⟨(X - C y) * p, (monic_X_sub_C y).mul h1, ?_, ?_⟩
      · rw [(monic_X_sub_C y).natDegree_mul h1, h2, natDegree_X_sub_C, List.length_cons, add_comm]
      · intro z hz
        rw [eval_mul]
        rcases List.mem_cons.1 hz with rfl | hz
        · simp
        · rw [h3 z hz, mul_zero]
  have hq : ((X - C a) * (X - C b) * (p * p)).Monic := ((monic_X_sub_C a).mul (monic_X_sub_C b)).mul (hm.mul hm)
  have hqd : ((X - C a) * (X - C b) * (p * p)).natDegree = 2 * n + 2 := by
    rw [((monic_X_sub_C a).mul (monic_X_sub_C b)).natDegree_mul (hm.mul hm), (monic_X_sub_C a).natDegree_mul (monic_X_sub_C b),
      hm.natDegree_mul hm, natDegree_X_sub_C, natDegree_X_sub_C, hd]
    ring
  refine ⟨-((X - C a) * (X - C b) * (p * p)), by rw [natDegree_neg, hqd]; omega, ?_⟩
  have h1 := hpos (-((X - C a) * (X - C b) * (p * p))) (neg_ne_zero.2 hq.ne_zero) (fun x h1 h2 => by
    simp only [eval_neg, eval_mul, eval_sub, eval_X, eval_C]
    have := mul_nonneg (mul_nonneg (sub_pos.2 h1).le (sub_pos.2 h2).le) (mul_self_nonneg (p.eval x))
    linarith)
  refine ne_of_lt (lt_of_le_of_lt (le_of_eq ?_) h1)
  refine List.sum_eq_zero fun t ht => ?_
  obtain ⟨xw, hxw, rfl⟩ := List.mem_map.1 ht
  have hx := (List.of_mem_zip hxw).1
  have : eval xw.1 (-((X - C a) * (X - C b) * (p * p))) = 0 := by
    simp only [eval_neg, eval_mul, eval_sub, eval_X, eval_C]
    simp only [List.cons_append, List.mem_cons, List.mem_append, List.not_mem_nil, or_false] at hx
    rcases hx with h | h | h
    · rw [h]; ring
    · rw [hp _ h]; ring
    · rw [h]; ring
  rw [this, mul_zero]

/-! ### Jacobi weights -/

/-- The integral over [-1, 1] with weight `(1 - x)^a (1 + x)^b`. -/
noncomputable def jacobiFunctional (a b : ℕ) : ℝ[X] →ₗ[ℝ] ℝ where
  toFun q := ∫ x in (-1 : ℝ)..1, (1 - x) ^ a * (1 + x) ^ b * q.eval x
  map_add' p q := by
    have h := pint_add (jw a b * p) (jw a b * q)
    rw [← mul_add] at h
    simpa only [pint, eval_mul, jw_eval] using h
  map_smul' c q := by
    have h := pint_C_mul c (jw a b * q)
    rw [mul_left_comm, ← smul_eq_C_mul] at h
    simpa only [pint, eval_mul, jw_eval, RingHom.id_apply, smul_eq_mul] using h

private theorem jacobiFunctional_pint (a b : ℕ) (q : ℝ[X]) : jacobiFunctional a b q = pint (jw a b * q) := by
  simp only [pint, eval_mul, jw_eval]
  rfl

theorem recPoly_jacobi (a b : ℕ) (mu : ℝ) (k : ℕ) : recPoly (recJacobi mu (a : ℝ) b).1 (recJacobi mu (a : ℝ) b).2 k =
    C ((jacobiPoly (a : ℝ) b k).coeff k)⁻¹ * jacobiPoly (a : ℝ) b k := by
  have ha : (-1 : ℝ) < a := by have : (0 : ℝ) ≤ a := Nat.cast_nonneg a; linarith
  have hb : (-1 : ℝ) < b := by have : (0 : ℝ) ≤ b := Nat.cast_nonneg b; linarith
  have h01 : ∀ k ≤ 1, recPoly (recJacobi mu (a : ℝ) b).1 (recJacobi mu (a : ℝ) b).2 k =
      C ((jacobiPoly (a : ℝ) b k).coeff k)⁻¹ * jacobiPoly (a : ℝ) b k := by
    intro k hk
    have h := ortho_polyval_monic (A := ℝ[X]) (a : ℝ) b mu ha hb 2 le_rfl X k (by omega)
    rw [algebraMap_eq, aeval_X_left_apply] at h
    rw [← h]
    rcases k with _ | _ | k
    · simp [orthoPolyval, List.range', recPoly_zero]
    · simp [orthoPolyval, List.range', recPoly_one, Function.update]
    · omega
  induction k using Nat.strong_induction_on with
  | _ k ih =>
    match k with
    | 0 => exact h01 0 (by omega)
    | 1 => exact h01 1 le_rfl
    | k + 2 =>
      have h := monic_rec (A := ℝ[X]) (a : ℝ) b mu ha hb k X
      simp only [algebraMap_eq, aeval_X_left_apply] at h
      rw [h, recPoly_step, ih (k + 1) (by omega), ih k (by omega)]

theorem recMu_nat (a b : ℕ) : recMu a b = 2 ^ (a + b + 1) * a.factorial * b.factorial / (a + b + 1).factorial := by
  unfold recMu
  rw [show (a : ℝ) + b + 1 = ((a + b + 1 : ℕ) : ℝ) by push_cast; ring, show (a : ℝ) + b + 2 = ((a + b + 1 : ℕ) : ℝ) + 1 by push_cast; ring,
    Real.rpow_natCast, Real.Gamma_nat_eq_factorial, Real.Gamma_nat_eq_factorial, Real.Gamma_nat_eq_factorial]

/-- `rec_jacobi(N, a, b)` are the recursion coefficients of the Jacobi weight: the polynomials they generate are orthogonal and
`beta[0]` is the integral of the weight. -/
theorem rec_jacobi_orthogonal (a b : ℕ) :
    IsOrtho (jacobiFunctional a b) (recJacobi (recMu a b) (a : ℝ) b).1 (recJacobi (recMu a b) (a : ℝ) b).2 := by
  refine ⟨?_, fun k q hq => ?_⟩
  · rw [jacobiFunctional_pint, mul_one, pint_jw]
    simp only [recJacobi, if_true]
    rw [recMu_nat, mul_assoc]
  · rw [jacobiFunctional_pint, recPoly_jacobi, show jw a b * (C ((jacobiPoly (a : ℝ) b k).coeff k)⁻¹ * jacobiPoly (a : ℝ) b k * q) =
      C ((jacobiPoly (a : ℝ) b k).coeff k)⁻¹ * (jw a b * jacobiPoly (a : ℝ) b k * q) by ring, pint_C_mul, pint_orthogonal k a b q hq, mul_zero]

theorem jacobi_posOn (a b : ℕ) : PosOn (jacobiFunctional a b) (-1) 1 := by
  intro q hq h
  rw [jacobiFunctional_pint]
  refine pint_pos _ (mul_ne_zero (jw_ne_zero a b) hq) fun x hx => ?_
  rw [eval_mul]
  exact mul_nonneg (jw_nonneg a b x hx).le (h x hx.1 hx.2)

/-- C47: `gauss(*rec_jacobi(n + 1, a, b))` is the Gauss-Jacobi rule. -/
theorem gauss_jacobi_rec (eigh : EighFun) (hE : IsEigh eigh) (a b n : ℕ) :
    ∃ xs ws, gauss eigh n (recJacobi (recMu a b) (a : ℝ) b).1 (recJacobi (recMu a b) (a : ℝ) b).2 = (xs, ws) ∧ xs.length = n + 1 ∧
      ws.length = n + 1 ∧ xs.Pairwise (· < ·) ∧ (∀ x ∈ xs, -1 < x ∧ x < 1) ∧ (∀ w ∈ ws, 0 < w) ∧
      ∀ q : ℝ[X], q.natDegree ≤ 2 * (n + 1) - 1 →
        ruleSum xs ws q = ∫ x in (-1 : ℝ)..1, (1 - x) ^ a * (1 + x) ^ b * q.eval x :=
  gauss_rule eigh hE _ _ _ (rec_jacobi_orthogonal a b) (-1) 1 (jacobi_posOn a b) n

/-- C47: with the coefficients of `rec_jacobi(n + 2, a, a)` (Gegenbauer weights; Legendre for `a = 0`), `lobatto` with the end
points -1 and 1 is the Gauss-Lobatto rule. -/
theorem lobatto_gegenbauer (eigh : EighFun) (hE : IsEigh eigh) (a n : ℕ) :
    ∃ xs ws, lobatto eigh n (recJacobi (recMu a a) (a : ℝ) a).1 (recJacobi (recMu a a) (a : ℝ) a).2 (-1) 1 = some (xs, ws) ∧
      xs.length = n + 2 ∧ ws.length = n + 2 ∧ xs.Pairwise (· < ·) ∧ xs.head? = some (-1) ∧ xs.getLast? = some 1 ∧
      (∀ w ∈ ws, 0 < w) ∧ (∀ q : ℝ[X], q.natDegree ≤ 2 * (n + 2) - 3 →
        ruleSum xs ws q = ∫ x in (-1 : ℝ)..1, (1 - x) ^ a * (1 + x) ^ a * q.eval x) ∧
      ∃ q : ℝ[X], q.natDegree = 2 * (n + 2) - 2 ∧
        ruleSum xs ws q ≠ ∫ x in (-1 : ℝ)..1, (1 - x) ^ a * (1 + x) ^ a * q.eval x := by
  obtain ⟨xs, ws, h1, h2, h3, h4, h5, h6, h7, h8⟩ := lobatto_rule_partial eigh hE _ _ _ (rec_jacobi_orthogonal a a) (-1) 1 (by norm_num)
    (jacobi_posOn a a) n (by
      intro k _
      simp only [recJacobi]
      split_ifs <;> simp)
  exact ⟨xs, ws, h1, h2, h3, h4, h5, h6, h7, h8, lobatto_sharp _ _ _ (jacobi_posOn a a) n xs ws h2 h5 h6⟩

/-- C47, the missing part refuted: for the weight `1 + x` (recursion coefficients of `rec_jacobi(2, 0, 1)`, `alpha` not constant),
`lobatto` with the preassigned nodes -1 and 1 returns a rule that has neither of them among its nodes. -/
theorem lobatto_wrong (eigh : EighFun) (hE : IsEigh eigh) :
    ∃ xs ws, lobatto eigh 0 (recJacobi (recMu 0 1) (0 : ℝ) 1).1 (recJacobi (recMu 0 1) (0 : ℝ) 1).2 (-1) 1 = some (xs, ws) ∧
      (-1 : ℝ) ∉ xs ∧ (1 : ℝ) ∉ xs := by
  set alpha := (recJacobi (recMu 0 1) (0 : ℝ) 1).1 with hal
  set beta := (recJacobi (recMu 0 1) (0 : ℝ) 1).2 with hbe
  have a0 : alpha 0 = 1 / 3 := by simp only [hal, recJacobi]; norm_num
  have a1 : alpha 1 = 1 / 15 := by simp only [hal, recJacobi]; norm_num
  have b0 : 0 < beta 0 := by
    have := (rec_jacobi_orthogonal 0 1).beta_pos (jacobi_posOn 0 1) 0
    simpa [hbe] using this
  have hJ : ∀ xl, lobattoMatrix 1 alpha beta xl = Matrix.diagonal fun _ => 1 / 15 - xl := by
    intro xl
    ext i j
    fin_cases i; fin_cases j
    simp [lobattoMatrix, a1]
  have hsolve : ∀ (xl : ℝ), xl ≠ 1 / 15 → ∃ g : Fin 1 → ℝ, npSolve (lobattoMatrix 1 alpha beta xl) (fun i => if i = Fin.last 0 then 1 else 0) = some g ∧
      (1 / 15 - xl) * g (Fin.last 0) = 1 := by
    intro xl hxl
    obtain ⟨g, h1, h2⟩ := npSolve_spec (lobattoMatrix 1 alpha beta xl) (fun i => if i = Fin.last 0 then 1 else 0) (by
      intro g hg
      funext i
      have := congrFun hg i
      rw [hJ, Matrix.mulVec_diagonal] at this
      exact (mul_eq_zero.1 this).resolve_left (sub_ne_zero.2 (Ne.symm hxl)))
    refine ⟨g, h1, ?_⟩
    have := congrFun h2 (Fin.last 0)
    rw [hJ, Matrix.mulVec_diagonal, if_pos rfl] at this
    exact this
  obtain ⟨g1, s1, e1⟩ := hsolve (-1) (by norm_num)
  obtain ⟨g2, s2, e2⟩ := hsolve 1 (by norm_num)
  have v1 : g1 (Fin.last 0) = 15 / 16 := by linarith
  have v2 : g2 (Fin.last 0) = -15 / 14 := by linarith
  obtain ⟨ab, s3, e3⟩ := npSolve_spec !![1, -g1 (Fin.last 0); 1, -g2 (Fin.last 0)] ![(-1 : ℝ), 1] (by
    intro g hg
    have h0 := congrFun hg 0
    have h1 := congrFun hg 1
    rw [v1, v2] at h0 h1
    simp [Matrix.mulVec, dotProduct, Fin.sum_univ_two] at h0 h1
    funext i
    fin_cases i
    · simp; linarith
    · simp; linarith)
  have e30 := congrFun e3 0
  have e31 := congrFun e3 1
  rw [v1, v2] at e30 e31
  simp [Matrix.mulVec, dotProduct, Fin.sum_univ_two] at e30 e31
  have hb : ab 1 = 224 / 225 := by linarith
  have ha : ab 0 = -1 / 15 := by linarith
  set alpha' := Function.update alpha 1 (ab 0) with ha'
  set beta' := Function.update beta 1 (ab 1) with hb'
  have A0 : alpha' 0 = 1 / 3 := by rw [ha', Function.update_of_ne (by omega), a0]
  have A1 : alpha' 1 = -1 / 15 := by rw [ha', Function.update_self, ha]
  have B1 : beta' 1 = 224 / 225 := by rw [hb', Function.update_self, hb]
  have B0 : 0 < beta' 0 := by rw [hb', Function.update_of_ne (by omega)]; exact b0
  obtain ⟨x, w, h1, -, -, -, h4, -⟩ := gauss_core hE 1 alpha' beta' (by
    intro k hk
    rcases k with _ | _ | k
    · exact B0
    · rw [zero_add, B1]; norm_num
    · omega)
  have hno : ∀ c : ℝ, (1 / 3 - c) * (-1 / 15 - c) ≠ 224 / 225 → ∀ j, x j ≠ c := by
    intro c hc j hj
    obtain ⟨u, hu, hu2⟩ := h4 c ⟨j, hj⟩
    have r0 := congrFun hu2 0
    have r1 := congrFun hu2 1
    simp only [Matrix.mulVec, dotProduct, Fin.sum_univ_two, jacMatrix, Matrix.of_apply, Pi.smul_apply, smul_eq_mul] at r0 r1
    simp [A0, A1, B1] at r0 r1
    have hs : Real.sqrt (224 / 225) * Real.sqrt (224 / 225) = 224 / 225 := Real.mul_self_sqrt (by norm_num)
    rw [show Real.sqrt 224 / Real.sqrt 225 = Real.sqrt (224 / 225) from (Real.sqrt_div (by norm_num) _).symm] at r0 r1
    set t := Real.sqrt (224 / 225)
    have hd : (1 / 3 - c) * (-1 / 15 - c) - 224 / 225 ≠ 0 := sub_ne_zero.2 hc
    have k0 : ((1 / 3 - c) * (-1 / 15 - c) - 224 / 225) * u 0 = 0 := by
      linear_combination (-1 / 15 - c) * r0 - t * r1 + u 0 * hs
    have k1 : ((1 / 3 - c) * (-1 / 15 - c) - 224 / 225) * u 1 = 0 := by
      linear_combination (1 / 3 - c) * r1 - t * r0 + u 1 * hs
    refine hu (funext fun i => ?_)
    fin_cases i
    · exact (mul_eq_zero.1 k0).resolve_left hd
    · exact (mul_eq_zero.1 k1).resolve_left hd
  refine ⟨List.ofFn x, List.ofFn w, ?_, ?_, ?_⟩
  · simp only [lobatto, Option.bind_eq_bind]
    rw [s1, Option.bind_some, s2, Option.bind_some, s3, Option.bind_some, ← ha', ← hb', h1]
  · intro h
    obtain ⟨j, hj⟩ := (List.mem_ofFn' _ _).1 h
    exact hno (-1) (by norm_num) j hj
  · intro h
    obtain ⟨j, hj⟩ := (List.mem_ofFn' _ _).1 h
    exact hno 1 (by norm_num) j hj

/-! ### The line rule -/

/-- The reference rule. -/
theorem gll_reference (eigh : EighFun) (hE : IsEigh eigh) (m : ℕ) (hm : 2 ≤ m) :
    ∃ xs ws, gllRef eigh m = some (xs, ws) ∧ xs.length = m ∧ ws.length = m ∧ xs.Pairwise (· < ·) ∧ xs.head? = some (-1) ∧
      xs.getLast? = some 1 ∧ (∀ w ∈ ws, 0 < w) ∧ IntegratesOn xs ws (2 * m - 3) ∧ ¬ IntegratesOn xs ws (2 * m - 2) := by
  have sharp : ∀ xs ws, xs.length = m → xs.head? = some (-1) → xs.getLast? = some 1 → ¬ IntegratesOn xs ws (2 * m - 2) := by
    intro xs ws h1 h2 h3 h4
    obtain ⟨q, hq1, hq2⟩ := lobatto_sharp _ _ _ (jacobi_posOn 0 0) (m - 2) xs ws (by omega) h2 h3
    refine hq2 ?_
    have h5 := h4 q (by omega)
    rw [ruleSum, h5]
    simp [jacobiFunctional]
  obtain ⟨m, rfl⟩ : ∃ k, m = k + 2 := ⟨m - 2, by omega⟩
  rcases m with _ | m
  · refine ⟨[-1, 1], [0.5 * (1 - -1), 0.5 * (1 - -1)], rfl, rfl, rfl, by norm_num, rfl, rfl, by norm_num, ?_, sharp _ _ rfl rfl rfl⟩
    intro p hp
    obtain ⟨c0, c1, rfl⟩ : ∃ c0 c1, p = C c1 * X + C c0 := ⟨p.coeff 0, p.coeff 1, eq_X_add_C_of_natDegree_le_one hp⟩
    have hi : pint (C c1 * X + C c0) = 2 * c0 := by
      have h := pint_derivative (C (c1 / 2) * X ^ 2 + C c0 * X)
      rw [show derivative (C (c1 / 2) * X ^ 2 + C c0 * X) = C c1 * X + C c0 by
        simp only [derivative_add, derivative_mul, derivative_C, derivative_X_pow, derivative_X]
        rw [show C c1 = C (c1 / 2) * C 2 by rw [← C_mul]; congr 1; ring]
        simp
        ring] at h
      rw [h]; simp; ring
    change _ = pint _
    rw [hi]
    simp
    ring
  · obtain ⟨xs, ws, h1, h2, h3, h4, h5, h6, h7, h8, -⟩ := lobatto_gegenbauer eigh hE 0 (m + 1)
    refine ⟨xs, ws, ?_, h2, h3, h4, h5, h6, h7, ?_, sharp _ _ h2 h5 h6⟩
    · rw [gllRef]
      simpa using h1
    · intro q hq
      have := h8 q (by omega)
      rw [ruleSum] at this
      rw [this]
      simp

/-- C46: for `m >= 2` points on a positively oriented line cell, the Gauss-Lobatto-Legendre rule exists; it integrates every
polynomial of degree at most `2m - 3` exactly, has positive weights and points in the cell; the points are pairwise distinct
in the order of the cell, the first is the first vertex, the last is the second vertex. -/
theorem gll_line (eigh : EighFun) (hE : IsEigh eigh) (v : Fin 2 → Fin 1 → ℝ) (hv : 0 < orientation v) (m : ℕ) (hm : 2 ≤ m) :
    ∃ Q, gllLineRule eigh (List.ofFn v) m = some Q ∧ GoodRule Q v (2 * m - 3) ∧ Q.pts.length = m ∧ Q.wts.length = m ∧
      (Q.pts.Pairwise fun x y => x 0 < y 0) ∧ Q.pts.head? = some (v 0) ∧ Q.pts.getLast? = some (v 1) := by
  obtain ⟨xs, ws, h1, h2, h3, h4, h5, h6, h7, h8, -⟩ := gll_reference eigh hE m hm
  have hin : ∀ x ∈ xs, -1 ≤ x ∧ x ≤ 1 := by
    intro x hx
    constructor
    · rcases xs with _ | ⟨c, zs⟩
      · simp at hx
      · simp at h5
        rcases List.mem_cons.1 hx with rfl | hx
        · rw [h5]
        · have := (List.pairwise_cons.1 h4).1 x hx
          linarith
    · obtain ⟨zs, rfl⟩ : ∃ zs, xs = zs ++ [1] := by
        rcases List.eq_nil_or_concat xs with rfl | ⟨ys, c, rfl⟩
        · simp at h6
        · rw [List.concat_eq_append, List.getLast?_concat] at h6
          exact ⟨ys, by simp [Option.some.inj h6]⟩
      rcases List.mem_append.1 hx with hx | hx
      · exact ((List.pairwise_append.1 h4).2.2 x hx 1 (by simp)).le
      · simp at hx; rw [hx]
  obtain ⟨Q, q1, q2, q3⟩ := line_rule_of_exact v hv _ xs ws (by rw [h2, h3]) h8 h7 hin
  obtain ⟨A, b, Q', r1, r2, r3, r4, -⟩ := mapped_rule_spec v (xs.map fun x (_ : Fin 1) => x) ws (by simp [h2, h3])
  rw [q1, Option.some.injEq] at r1
  subst r1
  have hA : ∀ x : ℝ, A.mulVec (fun _ => x) + b = fun i => A i 0 * x + b i := by
    intro x; funext i; simp [Matrix.mulVec, dotProduct]
  have hv0 : v 0 = A.mulVec (fun _ => -1) + b := by
    rw [← r2 0]; congr 2
  have hv1 : v 1 = A.mulVec (fun _ => 1) + b := by
    rw [← r2 1]; congr 2
    funext l
    fin_cases l
    simp [dvert]
  have hApos : 0 < A 0 0 := by
    have h := hv
    simp only [orientation, Matrix.det_unique, Matrix.of_apply, Fin.default_eq_zero] at h
    rw [show (Fin.succ (0 : Fin 1)) = 1 from rfl, hv0, hv1, hA, hA] at h
    simp only at h
    linarith
  refine ⟨Q, by rw [gllLineRule, h1]; exact q1, q2, by rw [q3, h2], by rw [r4, List.length_map, h3], ?_, ?_, ?_⟩
  · rw [r3, List.map_map, List.pairwise_map]
    refine h4.imp fun {x y} hxy => ?_
    simp only [Function.comp_apply, hA]
    have := mul_lt_mul_of_pos_left hxy hApos
    linarith
  · rw [r3, List.map_map, List.head?_map, h5, hv0]; rfl
  · rw [r3, List.map_map, List.getLast?_map, h6, hv1]; rfl

/-- C46: fewer than two points are rejected. -/
theorem gll_rejects (eigh : EighFun) (verts : List (Fin 1 → ℝ)) (m : ℕ) (hm : m < 2) : gllLineRule eigh verts m = none := by
  rcases m with _ | _ | m
  · rfl
  · rfl
  · omega

/-! Non-vacuity: `eigh_exists` gives a function that meets the contract; the rules exist for it. -/
example : ∃ eigh Q, IsEigh eigh ∧ gllLineRule eigh (List.ofFn ![![0], ![1]]) 5 = some Q ∧ GoodRule Q ![![0], ![1]] 7 := by
  obtain ⟨eigh, h⟩ := eigh_exists
  obtain ⟨Q, h1, h2, -⟩ := gll_line eigh h ![![0], ![1]] (by simp [orientation]) 5 (by norm_num)
  exact ⟨eigh, Q, h, h1, h2⟩

end FIAT
