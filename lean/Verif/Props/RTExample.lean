/-
C23: the cells, normals and singular value decompositions the theorems about the H(div) and H(curl) elements are about exist.
-/
import Verif.Props.RTElement
import Verif.Lemmas.SVD
import Verif.Lemmas.Dirichlet
import Verif.Props.Affine

namespace FIAT
open MvPolynomial MeasureTheory
section
variable {D : ℕ}

theorem volumeOf_pos (sv : List ℝ) (sd : ℕ) : 0 < volumeOf sv sd := by
  unfold volumeOf
  refine div_pos (List.prod_pos fun a ha => ?_) (by positivity)
  have := List.of_mem_filter ha
  simp only [decide_eq_true_eq] at this
  linarith [this, (by norm_num : (0 : ℝ) < 1e-10)]

private theorem edge_matrix_normal {v0 v1 : Fin 2 → ℝ} {n : Fin 2 → ℝ} (h : orth n (v1 - v0)) :
    ∑ j, n j * (v1 j - v0 j) = 0 ∧ ∑ j, n j * (v0 j - v1 j) = 0 := by
  unfold orth at h
  simp only [Fin.sum_univ_two, Pi.sub_apply] at h ⊢
  constructor <;> linarith

/-- C23: `compute_scaled_normal` of `UFCTriangle` returns a nonzero vector orthogonal to the facet, whatever singular values
`volume` works with. -/
theorem ufc_triangle_normals (s : SimplexCell (Fin 2 → ℝ)) (hs : ProperSimplex ℝ s) (sv : ℕ → List ℝ) :
    FacetNormals s (ufcScaledNormal s sv) := by
  intro e t h
  obtain ⟨τ, t1, t2, t3, t4⟩ := entity_tuple hs h
  have hinj := (proper_independent hs).injective
  have hne : s.v (τ 0) ≠ s.v (τ 1) := by
    intro hv
    have := @hinj ⟨τ 0, t2 0⟩ ⟨τ 1, t2 1⟩ hv
    have := t1 (Fin.mk.inj this)
    simp at this
  obtain ⟨n1, n2⟩ := triangle_normal _ _ hne
  have h1 : ufcNormal 2 s e = some (triangleNormal (s.v (τ 0)) (s.v (τ 1))) := by
    change (entityVerts s 1 e).bind _ = _
    rw [show entityVerts s 1 e = _ from t4]
    rfl
  refine ⟨volumeOf (sv e) (2 - 1) • triangleNormal (s.v (τ 0)) (s.v (τ 1)), by unfold ufcScaledNormal; rw [h1]; rfl, ?_, ?_⟩
  · refine smul_ne_zero (volumeOf_pos _ _).ne' ?_
    intro h0
    rw [h0] at n2
    simp [norm2] at n2
  · have ho := edge_matrix_normal (v0 := s.v (τ 0)) (v1 := s.v (τ 1)) (n1 _ (by simp [computeTangents]))
    have hz : ∀ u : Fin 2 → ℝ, ∑ j, (volumeOf (sv e) (2 - 1) • triangleNormal (s.v (τ 0)) (s.v (τ 1))) j * u j =
        volumeOf (sv e) (2 - 1) * ∑ j, triangleNormal (s.v (τ 0)) (s.v (τ 1)) j * u j := by
      intro u
      rw [Finset.mul_sum]
      exact Finset.sum_congr rfl fun j _ => by simp [mul_assoc]
    intro a ha c hc
    have e1 := hz fun j => s.v a j - s.v c j
    rw [e1]
    rw [t3] at ha hc
    have hl : List.ofFn τ = [τ 0, τ 1] := by simp [List.ofFn_succ]
    rw [hl] at ha hc
    simp only [List.mem_cons, List.not_mem_nil, or_false] at ha hc
    rcases ha with rfl | rfl <;> rcases hc with rfl | rfl
    · simp
    · rw [ho.2, mul_zero]
    · rw [ho.1, mul_zero]
    · simp

private theorem cross_ne_zero {v0 v1 v2 : Fin 3 → ℝ} (h : AffineIndependent ℝ ![v0, v1, v2]) : cross (v1 - v0) (v2 - v0) ≠ 0 := by
  intro hc
  rw [affineIndependent_iff] at h
  have key : ∀ i, (v2 - v0) i = 0 ∧ (v1 - v0) i = 0 := by
    intro i
    have h1 := h Finset.univ ![(v1 - v0) i - (v2 - v0) i, (v2 - v0) i, -(v1 - v0) i] (by
      rw [Fin.sum_univ_three]; simp) (by
      rw [Fin.sum_univ_three]
      have c0 := congrFun hc 0
      have c1 := congrFun hc 1
      have c2 := congrFun hc 2
      simp only [cross, Pi.sub_apply, Matrix.cons_val_zero, Matrix.cons_val_one, Matrix.cons_val, Pi.zero_apply] at c0 c1 c2
      funext j
      simp only [Pi.add_apply, Pi.smul_apply, smul_eq_mul, Pi.sub_apply, Matrix.cons_val_zero, Matrix.cons_val_one,
        Matrix.cons_val, Pi.zero_apply]
      fin_cases i <;> fin_cases j <;> simp <;> linarith)
    have a := h1 1 (Finset.mem_univ _)
    have b := h1 2 (Finset.mem_univ _)
    simp only [Matrix.cons_val_one, Matrix.cons_val, Matrix.cons_val_zero, neg_eq_zero] at a b
    exact ⟨a, b⟩
  have h2 := h Finset.univ ![-1, 1, 0] (by rw [Fin.sum_univ_three]; simp) (by
    rw [Fin.sum_univ_three]
    funext j
    have := (key j).2
    simp only [Pi.sub_apply] at this
    simp
    linarith) 1 (Finset.mem_univ _)
  simp at h2

/-- C23: the same for `UFCTetrahedron`. -/
theorem ufc_tetrahedron_normals (s : SimplexCell (Fin 3 → ℝ)) (hs : ProperSimplex ℝ s) (sv : ℕ → List ℝ) :
    FacetNormals s (ufcScaledNormal s sv) := by
  intro e t h
  obtain ⟨τ, t1, t2, t3, t4⟩ := entity_tuple hs h
  have hind : AffineIndependent ℝ ![s.v (τ 0), s.v (τ 1), s.v (τ 2)] := by
    have := (proper_independent hs).comp_embedding ⟨fun j : Fin 3 => (⟨τ j, t2 j⟩ : Fin 4), fun a b hab => t1 (by simpa using hab)⟩
    have e : ((fun i : Fin (3 + 1) => s.v i) ∘ fun j : Fin 3 => (⟨τ j, t2 j⟩ : Fin 4)) = ![s.v (τ 0), s.v (τ 1), s.v (τ 2)] := by
      funext j; fin_cases j <;> rfl
    rw [← e]; exact this
  obtain ⟨n1, n2⟩ := tet_normal_partial _ _ _ (cross_ne_zero hind)
  have h1 : ufcNormal 3 s e = some (tetNormal (s.v (τ 0)) (s.v (τ 1)) (s.v (τ 2))) := by
    change (entityVerts s 2 e).bind _ = _
    rw [show entityVerts s 2 e = _ from t4]
    rfl
  refine ⟨volumeOf (sv e) (3 - 1) • tetNormal (s.v (τ 0)) (s.v (τ 1)) (s.v (τ 2)), by unfold ufcScaledNormal; rw [h1]; rfl, ?_, ?_⟩
  · refine smul_ne_zero (volumeOf_pos _ _).ne' ?_
    intro h0
    rw [h0] at n2
    simp [norm2] at n2
  · set n := tetNormal (s.v (τ 0)) (s.v (τ 1)) (s.v (τ 2))
    have o1 : ∑ j, n j * (s.v (τ 1) j - s.v (τ 0) j) = 0 := n1 (s.v (τ 1) - s.v (τ 0)) (by simp [computeTangents])
    have o2 : ∑ j, n j * (s.v (τ 2) j - s.v (τ 0) j) = 0 := n1 (s.v (τ 2) - s.v (τ 0)) (by simp [computeTangents])
    have hz : ∀ u : Fin 3 → ℝ, ∑ j, (volumeOf (sv e) (3 - 1) • n) j * u j = volumeOf (sv e) (3 - 1) * ∑ j, n j * u j := by
      intro u
      rw [Finset.mul_sum]
      exact Finset.sum_congr rfl fun j _ => by simp [mul_assoc]
    intro a ha c hc
    have e1 := hz fun j => s.v a j - s.v c j
    rw [e1]
    rw [t3] at ha hc
    have hl : List.ofFn τ = [τ 0, τ 1, τ 2] := by simp [List.ofFn_succ]
    rw [hl] at ha hc
    have base : ∀ a ∈ [τ 0, τ 1, τ 2], ∑ j, n j * s.v a j = ∑ j, n j * s.v (τ 0) j := by
      intro a ha
      simp only [List.mem_cons, List.not_mem_nil, or_false] at ha
      simp only [mul_sub, Finset.sum_sub_distrib] at o1 o2
      rcases ha with rfl | rfl | rfl
      · rfl
      · linarith
      · linarith
    simp only [mul_sub, Finset.sum_sub_distrib]
    rw [base a ha, base c hc]
    ring

end

section
open Classical in
/-- A decomposition for every matrix. -/
noncomputable def someSvd {D N : ℕ} (M : List (Fin D → Fin N → ℝ)) : List ℝ × List (Fin D → Fin N → ℝ) :=
  Classical.choose (svd_exists M)

theorem someSvd_spec {D N : ℕ} (M : List (Fin D → Fin N → ℝ)) : IsSVD M (someSvd M) := Classical.choose_spec (svd_exists M)

theorem OrthoSeq.norm {D : ℕ} {v : Fin (D + 1) → Fin D → ℝ} {κ : ℝ} {φ : ℕ → MvPolynomial (Fin D) ℝ} (h : OrthoSeq v κ φ)
    {N : ℕ} (c : Fin N → ℝ) (i : Fin N) :
    ∫ x in convexHull ℝ (Set.range v), eval x (∑ l, c l • φ l) * eval x (φ i) = κ * c i := by
  have hint : ∀ l : Fin N, IntegrableOn (fun x => c l * (eval x (φ l) * eval x (φ i))) (convexHull ℝ (Set.range v)) := fun l =>
    (integrable_hull v (fun x => eval x (φ l) * eval x (φ i)) ((φ l).continuous_eval.mul (φ i).continuous_eval)).const_mul _
  have e : ∀ x, eval x (∑ l, c l • φ l) * eval x (φ i) = ∑ l : Fin N, c l * (eval x (φ l) * eval x (φ i)) := by
    intro x
    rw [map_sum, Finset.sum_mul]
    exact Finset.sum_congr rfl fun l _ => by rw [smul_eval]; ring
  simp only [e]
  rw [integral_finsetSum _ fun l _ => hint l]
  simp only [integral_const_mul, h.ortho]
  rw [Finset.sum_eq_single i]
  · rw [if_pos rfl]; ring
  · intro b _ hb
    rw [if_neg (fun h => hb (Fin.ext h)), mul_zero]
  · simp

theorem OrthoSeq.norm_sq {D : ℕ} {v : Fin (D + 1) → Fin D → ℝ} {κ : ℝ} {φ : ℕ → MvPolynomial (Fin D) ℝ} (h : OrthoSeq v κ φ)
    {N : ℕ} (c : Fin N → ℝ) :
    ∫ x in convexHull ℝ (Set.range v), eval x (∑ l, c l • φ l) ^ 2 = κ * ∑ i, c i ^ 2 := by
  have e : ∀ x, eval x (∑ l, c l • φ l) ^ 2 = ∑ i : Fin N, c i * (eval x (∑ l, c l • φ l) * eval x (φ i)) := by
    intro x
    have : eval x (∑ l, c l • φ l) = ∑ i : Fin N, c i * eval x (φ i) := by
      rw [map_sum]
      exact Finset.sum_congr rfl fun l _ => by rw [smul_eval]
    rw [sq]
    conv_lhs => rw [this, Finset.sum_mul]
    rw [this]
    exact Finset.sum_congr rfl fun l _ => by ring
  simp only [e]
  have hint : ∀ i : Fin N, IntegrableOn (fun x => c i * (eval x (∑ l, c l • φ l) * eval x (φ i))) (convexHull ℝ (Set.range v)) :=
    fun i => (integrable_hull v (fun x => eval x (∑ l, c l • φ l) * eval x (φ i))
      ((∑ l, c l • φ l).continuous_eval.mul (φ i).continuous_eval)).const_mul _
  rw [integral_finsetSum _ fun i _ => hint i]
  simp only [integral_const_mul, h.norm, Finset.mul_sum]
  exact Finset.sum_congr rfl fun i _ => by ring

theorem tri_moments (p : Fin 2) :
    ∫ _ in convexHull ℝ (Set.range (ufcVerts ℝ 2)), (1 : ℝ) = 1 / 2 ∧
    ∫ x in convexHull ℝ (Set.range (ufcVerts ℝ 2)), x p = 1 / 6 ∧
    ∫ x in convexHull ℝ (Set.range (ufcVerts ℝ 2)), x p ^ 2 = 1 / 12 := by
  have hv : ufcVerts ℝ 2 = ufcVert 2 := by
    funext i l
    fin_cases i <;> fin_cases l <;> rfl
  rw [hv]
  have h0 := ufc_monomial 2 (fun _ => 0)
  have h1 := ufc_monomial 2 (fun i => if i = p then 1 else 0)
  have h2 := ufc_monomial 2 (fun i => if i = p then 2 else 0)
  refine ⟨?_, ?_, ?_⟩
  · simp [Nat.factorial] at h0 ⊢; linarith
  · fin_cases p <;> (simp [Nat.factorial] at h1 ⊢; linarith)
  · fin_cases p <;> (simp [Nat.factorial] at h2 ⊢; linarith)

theorem rt_gap_example (β : Fin 2 → Fin 3 → ℝ) (hcoef : ∀ p : Fin 2, (β p 0 = 1 / 12 ∨ β p 0 = -(1 / 12)) ∧ ∑ l, β p l ^ 2 = 1 / 96) (r)
    (h : IsSVD ([unitRow 2 3 0 0, unitRow 2 3 1 0] ++ [β]) r) : SvdGap r.1 := by
  refine svd_gap_of_bound h (1 / 500) (by norm_num) fun c => ?_
  have hl : ([unitRow 2 3 0 0, unitRow 2 3 1 0] ++ [β]).length = 3 := rfl
  rw [hl]
  obtain ⟨a0, a1⟩ := hcoef 0
  obtain ⟨b0, b1⟩ := hcoef 1
  rw [Fin.sum_univ_three] at a1 b1
  have hsum : ∑ p, ∑ l, (∑ a ∈ Finset.range 3, c a * ([unitRow 2 3 0 0, unitRow 2 3 1 0] ++ [β]).getD a 0 p l) ^ 2 =
      (c 0 + c 2 * β 0 0) ^ 2 + (c 2 * β 0 1) ^ 2 + (c 2 * β 0 2) ^ 2 +
        ((c 1 + c 2 * β 1 0) ^ 2 + (c 2 * β 1 1) ^ 2 + (c 2 * β 1 2) ^ 2) := by
    rw [Fin.sum_univ_two]
    change ∑ l : Fin 3, _ + ∑ l : Fin 3, _ = _
    rw [Fin.sum_univ_three, Fin.sum_univ_three]
    simp only [Finset.sum_range_succ, Finset.sum_range_zero]
    simp [unitRow, List.getD]
  rw [hsum]
  simp only [Finset.sum_range_succ, Finset.sum_range_zero]
  have a2 : β 0 0 ^ 2 = 1 / 144 := by rcases a0 with h | h <;> rw [h] <;> norm_num
  have b2 : β 1 0 ^ 2 = 1 / 144 := by rcases b0 with h | h <;> rw [h] <;> norm_num
  rw [a2] at a1
  rw [b2] at b1
  have ha : (c 2 * β 0 1) ^ 2 + (c 2 * β 0 2) ^ 2 = c 2 ^ 2 * (1 / 288) := by
    have : β 0 1 ^ 2 + β 0 2 ^ 2 = 1 / 288 := by linarith
    rw [← this]; ring
  have hb : (c 2 * β 1 1) ^ 2 + (c 2 * β 1 2) ^ 2 = c 2 ^ 2 * (1 / 288) := by
    have : β 1 1 ^ 2 + β 1 2 ^ 2 = 1 / 288 := by linarith
    rw [← this]; ring
  have key : ∀ x y z : ℝ, z ^ 2 = 1 / 144 → (x + y * z) ^ 2 = 9 / 10 * (x + 10 / 9 * (y * z)) ^ 2 + x ^ 2 / 10 - y ^ 2 / 1296 := by
    intro x y z hz
    have : y ^ 2 / 1296 = y ^ 2 * z ^ 2 / 9 := by rw [hz]; ring
    rw [this]; ring
  rw [key _ _ _ a2, key _ _ _ b2]
  have p1 := sq_nonneg (c 0 + 10 / 9 * (c 2 * β 0 0))
  have p2 := sq_nonneg (c 1 + 10 / 9 * (c 2 * β 1 0))
  have p3 := sq_nonneg (c 0)
  have p4 := sq_nonneg (c 1)
  have p5 := sq_nonneg (c 2)
  linarith

/-- For degree 0 on the UFC triangle the singular values are far above the threshold. -/
theorem rt_svd_example {gj : ℕ → ℕ → List ℝ} (hgj : NodesOK gj) (A B)
    (h : rtRows gj 0 ((ufcTriangle : CellData ℝ).toSimplex 2) = some (A, B)) : SvdOK someSvd (A ++ B) := by
  refine ⟨someSvd_spec _, ?_⟩
  set s := (ufcTriangle : CellData ℝ).toSimplex 2 with hs
  have hp : ProperSimplex ℝ s := proper_ufcTriangle
  have hverts : (fun i : Fin (2 + 1) => s.v i) = ufcVerts ℝ 2 := by
    funext i l
    fin_cases i <;> fin_cases l <;> rfl
  obtain ⟨F, f1, -, -, -, ho⟩ := ufc_cell_spec (d := 2) (by omega)
  have ho' : orientation (ufcVerts ℝ 2) = 1 := by
    unfold orientation
    have : (Matrix.of fun i j : Fin 2 => ufcVerts ℝ 2 j.succ i - ufcVerts ℝ 2 0 i) = 1 := by
      ext i j
      simp [ufcVerts, Matrix.one_apply]
    rw [this, Matrix.det_one]
  obtain ⟨φ, g1, g2⟩ := orthoSeq_exists (Or.inr (Or.inl rfl)) (fun i : Fin (2 + 1) => s.v i) (proper_independent hp)
    (by rw [← orientation_edge, hverts, ho']; norm_num)
  have hκ : |(edgeMatrix fun i : Fin (2 + 1) => s.v i).det| / 2 ^ 2 = 1 / 4 := by
    rw [← orientation_edge, hverts, ho']; norm_num
  rw [hκ] at g2
  obtain ⟨mats, A', B', -, -, -, m4, m5, m6⟩ := rt_rows_spec (Or.inr (Or.inl rfl)) s hp (fun h => by omega)
    (by rw [hverts]; exact ho) hgj 0 φ (g1 1 (Or.inr (by omega))) g2
  rw [h, Option.some.injEq, Prod.mk.injEq] at m4
  obtain ⟨rfl, rfl⟩ := m4
  have hB : ∃ β : Fin 2 → Fin 3 → ℝ, B = [β] ∧ rowField φ 3 β = (1 / 4 : ℝ) • xField (φ 0) := by
    have hl := congrArg List.length m6
    simp only [List.length_map, List.length_finRange] at hl
    match B, hl with
    | [β], _ =>
      refine ⟨β, rfl, ?_⟩
      have h7 : [rowField φ 3 β] = [(1 / 4 : ℝ) • xField (φ 0)] := m6
      exact (List.cons.inj h7).1
  obtain ⟨β, rfl, hβ⟩ := hB
  have hA : A = [unitRow 2 3 0 0, unitRow 2 3 1 0] := by rw [m5]; rfl
  subst hA
  -- the constant
  have hφ0 : (φ 0).totalDegree ≤ 0 := g2.degree (n := 0) (by decide)
  obtain ⟨f, hf⟩ : ∃ f, φ 0 = C f := ⟨_, totalDegree_eq_zero_iff_eq_C.1 (Nat.le_zero.1 hφ0)⟩
  have hf2 : f ^ 2 = 1 / 2 := by
    have := g2.ortho 0 0
    rw [if_pos rfl, hf, hverts] at this
    simp only [eval_C] at this
    have e : ∫ _ in convexHull ℝ (Set.range (ufcVerts ℝ 2)), f * f = f * f * (1 / 2) := by
      rw [← (tri_moments 0).1, ← integral_const_mul, mul_one]
    rw [e] at this
    linarith
  have hcoef : ∀ p : Fin 2, β p 0 = 1 / 12 ∧ ∑ l, β p l ^ 2 = 1 / 96 := by
    intro p
    have hrow : ∑ l : Fin 3, β p l • φ l = (1 / 4 : ℝ) • (X p * φ 0) := by
      have := congrFun hβ p
      rw [rowField_apply] at this
      exact this
    have h1 := g2.norm (β p) 0
    have h2 := g2.norm_sq (β p)
    rw [hrow] at h1 h2
    rw [hverts] at h1 h2
    simp only [Fin.val_zero, hf, smul_eval, map_mul, eval_X, eval_C] at h1 h2
    have e1 : ∫ x in convexHull ℝ (Set.range (ufcVerts ℝ 2)), 1 / 4 * (x p * f) * f = 1 / 4 * f ^ 2 * (1 / 6) := by
      rw [← (tri_moments p).2.1, ← integral_const_mul]
      congr 1; funext x; ring
    have e2 : ∫ x in convexHull ℝ (Set.range (ufcVerts ℝ 2)), (1 / 4 * (x p * f)) ^ 2 = 1 / 16 * f ^ 2 * (1 / 12) := by
      rw [← (tri_moments p).2.2, ← integral_const_mul]
      congr 1; funext x; ring
    rw [e1, hf2] at h1
    rw [e2, hf2] at h2
    constructor <;> linarith
  exact rt_gap_example β (fun p => ⟨Or.inl (hcoef p).1, (hcoef p).2⟩) _ (someSvd_spec _)

/-- The lowest-order Raviart-Thomas element exists on the UFC triangle, for the point variant and for `"integral"`. -/
example (DT : DigitTable) : ∃ gj m el nodes ids, NodesOK gj ∧ raviartThomas (D := 2) gj 0 someSvd DT ((ufcTriangle : CellData ℝ).toSimplex 2)
    (ufcScaledNormal ((ufcTriangle : CellData ℝ).toSimplex 2) fun _ => [Real.sqrt 2]) none = some (⟨m, el⟩, nodes, ids) ∧ m = 3 := by
  obtain ⟨gj, hgj⟩ := nodesOK_exists
  obtain ⟨m, el, nodes, ids, h1, h2, -⟩ := raviart_thomas_spec (Or.inl rfl) _ (proper_ufcTriangle (K := ℝ)) numbered_ufcTriangle
    (by norm_num [orientation, Matrix.det_fin_two, SimplexCell.v, CellData.toSimplex, ufcTriangle]) hgj
    (ufc_triangle_normals _ proper_ufcTriangle fun _ => [Real.sqrt 2]) 0 someSvd (fun A B h => rt_svd_example hgj A B h)
    DT none .point rfl
  exact ⟨gj, m, el, nodes, ids, hgj, h1, h2⟩

example (DT : DigitTable) : ∃ gj m el nodes ids, NodesOK gj ∧ raviartThomas (D := 2) gj 0 someSvd DT ((ufcTriangle : CellData ℝ).toSimplex 2)
    (ufcScaledNormal ((ufcTriangle : CellData ℝ).toSimplex 2) fun _ => [Real.sqrt 2]) (some strIntegral) = some (⟨m, el⟩, nodes, ids) ∧ m = 3 := by
  obtain ⟨gj, hgj⟩ := nodesOK_exists
  obtain ⟨m, el, nodes, ids, h1, h2, -⟩ := raviart_thomas_spec (Or.inl rfl) _ (proper_ufcTriangle (K := ℝ)) numbered_ufcTriangle
    (by norm_num [orientation, Matrix.det_fin_two, SimplexCell.v, CellData.toSimplex, ufcTriangle]) hgj
    (ufc_triangle_normals _ proper_ufcTriangle fun _ => [Real.sqrt 2]) 0 someSvd (fun A B h => rt_svd_example hgj A B h)
    DT (some strIntegral) (.integral 5) (by unfold dualVariant; rw [variant_integral])
  exact ⟨gj, m, el, nodes, ids, hgj, h1, h2⟩

end
end FIAT
