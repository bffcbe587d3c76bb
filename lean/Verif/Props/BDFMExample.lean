/-
C59: the Brezzi-Douglas-Fortin-Marini element of the UFC triangle exists.
-/
import Verif.Props.BDFM
import Verif.Props.RTExample

namespace FIAT
open MvPolynomial MeasureTheory
section

/-- A quadratic polynomial by its coefficients. -/
noncomputable def quadOf (c : Fin 6 → ℝ) : MvPolynomial (Fin 2) ℝ :=
  C (c 0) + C (c 1) * X 0 + C (c 2) * X 1 + C (c 3) * X 0 ^ 2 + C (c 4) * (X 0 * X 1) + C (c 5) * X 1 ^ 2

theorem eval_quadOf (c : Fin 6 → ℝ) (x : Fin 2 → ℝ) :
    eval x (quadOf c) = c 0 + c 1 * x 0 + c 2 * x 1 + c 3 * x 0 ^ 2 + c 4 * (x 0 * x 1) + c 5 * x 1 ^ 2 := by
  simp [quadOf]

theorem quadOf_degree (c : Fin 6 → ℝ) : (quadOf c).totalDegree ≤ 2 := by
  unfold quadOf
  have hX : ∀ i : Fin 2, (X i : MvPolynomial (Fin 2) ℝ).totalDegree ≤ 1 := fun i => by rw [totalDegree_X]
  have hX2 : ∀ i : Fin 2, (X i ^ 2 : MvPolynomial (Fin 2) ℝ).totalDegree ≤ 2 := fun i => by
    refine (totalDegree_pow _ _).trans ?_
    have := hX i; omega
  have hm : ∀ (a : ℝ) (p : MvPolynomial (Fin 2) ℝ), p.totalDegree ≤ 2 → (C a * p).totalDegree ≤ 2 := fun a p hp => by
    refine (totalDegree_mul _ _).trans ?_
    rw [totalDegree_C, zero_add]; exact hp
  have ha : ∀ p q : MvPolynomial (Fin 2) ℝ, p.totalDegree ≤ 2 → q.totalDegree ≤ 2 → (p + q).totalDegree ≤ 2 := fun p q hp hq =>
    (totalDegree_add _ _).trans (max_le hp hq)
  refine ha _ _ (ha _ _ (ha _ _ (ha _ _ (ha _ _ ?_ (hm _ _ ((hX 0).trans (by norm_num)))) (hm _ _ ((hX 1).trans (by norm_num)))) (hm _ _ (hX2 0)))
    (hm _ _ ?_)) (hm _ _ (hX2 1))
  · rw [totalDegree_C]; norm_num
  · refine (totalDegree_mul _ _).trans ?_
    have := hX 0
    have := hX 1
    omega

private theorem tri_moment (a b : ℕ) : ∫ x in convexHull ℝ (Set.range (ufcVerts ℝ 2)), x 0 ^ a * x 1 ^ b =
    (a.factorial * b.factorial : ℕ) / ((a + b + 2).factorial : ℝ) := by
  have hv : ufcVerts ℝ 2 = ufcVert 2 := by
    funext i l
    fin_cases i <;> fin_cases l <;> rfl
  rw [hv]
  have := ufc_monomial 2 ![a, b]
  simp only [Fin.prod_univ_two, Fin.sum_univ_two, Matrix.cons_val_zero, Matrix.cons_val_one] at this
  rw [this, add_comm 2]

private theorem tri_list (l : List (ℝ × ℕ × ℕ)) (f : (Fin 2 → ℝ) → ℝ) (hf : ∀ x, f x = (l.map fun t => t.1 * (x 0 ^ t.2.1 * x 1 ^ t.2.2)).sum) :
    ∫ x in convexHull ℝ (Set.range (ufcVerts ℝ 2)), f x =
      (l.map fun t => t.1 * ((t.2.1.factorial * t.2.2.factorial : ℕ) / ((t.2.1 + t.2.2 + 2).factorial : ℝ))).sum := by
  have key : Integrable f (volume.restrict (convexHull ℝ (Set.range (ufcVerts ℝ 2)))) ∧ ∫ x in convexHull ℝ (Set.range (ufcVerts ℝ 2)), f x =
      (l.map fun t => t.1 * ((t.2.1.factorial * t.2.2.factorial : ℕ) / ((t.2.1 + t.2.2 + 2).factorial : ℝ))).sum := by
    obtain rfl : f = fun x => (l.map fun t => t.1 * (x 0 ^ t.2.1 * x 1 ^ t.2.2)).sum := _root_.funext hf
    clear hf
    induction l with
    | nil => simp
    | cons t l ih =>
      have h1 : Integrable (fun x : Fin 2 → ℝ => t.1 * (x 0 ^ t.2.1 * x 1 ^ t.2.2)) (volume.restrict (convexHull ℝ (Set.range (ufcVerts ℝ 2)))) :=
        integrable_hull (ufcVerts ℝ 2) _ (by fun_prop)
      simp only [List.map_cons, List.sum_cons]
      refine ⟨h1.add ih.1, ?_⟩
      rw [integral_add h1 ih.1, ih.2, integral_const_mul, tri_moment]
  exact key.2

/-- The inner product of two quadratic polynomials on the UFC triangle. -/
noncomputable def triForm (f g : Fin 6 → ℝ) : ℝ :=
  f 0 * (g 0 / 2 + g 1 / 6 + g 2 / 6 + g 3 / 12 + g 4 / 24 + g 5 / 12) +
  f 1 * (g 0 / 6 + g 1 / 12 + g 2 / 24 + g 3 / 20 + g 4 / 60 + g 5 / 60) +
  f 2 * (g 0 / 6 + g 1 / 24 + g 2 / 12 + g 3 / 60 + g 4 / 60 + g 5 / 20) +
  f 3 * (g 0 / 12 + g 1 / 20 + g 2 / 60 + g 3 / 30 + g 4 / 120 + g 5 / 180) +
  f 4 * (g 0 / 24 + g 1 / 60 + g 2 / 60 + g 3 / 120 + g 4 / 180 + g 5 / 120) +
  f 5 * (g 0 / 12 + g 1 / 60 + g 2 / 20 + g 3 / 180 + g 4 / 120 + g 5 / 30)

theorem tri_form (f g : Fin 6 → ℝ) :
    ∫ x in convexHull ℝ (Set.range (ufcVerts ℝ 2)), eval x (quadOf f) * eval x (quadOf g) = triForm f g := by
  rw [tri_list [(f 0 * g 0, 0, 0), (f 0 * g 1 + f 1 * g 0, 1, 0), (f 0 * g 2 + f 2 * g 0, 0, 1),
    (f 0 * g 3 + f 1 * g 1 + f 3 * g 0, 2, 0), (f 0 * g 4 + f 1 * g 2 + f 2 * g 1 + f 4 * g 0, 1, 1), (f 0 * g 5 + f 2 * g 2 + f 5 * g 0, 0, 2),
    (f 1 * g 3 + f 3 * g 1, 3, 0), (f 1 * g 4 + f 2 * g 3 + f 3 * g 2 + f 4 * g 1, 2, 1),
    (f 1 * g 5 + f 2 * g 4 + f 4 * g 2 + f 5 * g 1, 1, 2), (f 2 * g 5 + f 5 * g 2, 0, 3),
    (f 3 * g 3, 4, 0), (f 3 * g 4 + f 4 * g 3, 3, 1), (f 3 * g 5 + f 4 * g 4 + f 5 * g 3, 2, 2), (f 4 * g 5 + f 5 * g 4, 1, 3), (f 5 * g 5, 0, 4)]]
  · simp only [List.map_cons, List.map_nil, List.sum_cons, List.sum_nil]
    unfold triForm
    norm_num [Nat.factorial]
    ring
  · intro x
    simp only [List.map_cons, List.map_nil, List.sum_cons, List.sum_nil, eval_quadOf]
    ring

/-- The part of a quadratic polynomial orthogonal to the linear ones is seen by any `g` orthogonal to those. -/
theorem high_bound {φ : ℕ → MvPolynomial (Fin 2) ℝ} {κ : ℝ} (h : OrthoSeq (ufcVerts ℝ 2) κ φ) (y f g : Fin 6 → ℝ)
    (hf : ∑ l : Fin 6, y l • φ l = quadOf f) (hg : ∀ a b c : ℝ, triForm ![a, b, c, 0, 0, 0] g = 0) :
    triForm f g ^ 2 ≤ (y 3 ^ 2 + y 4 ^ 2 + y 5 ^ 2) * (κ * triForm g g) := by
  set G : Fin 6 → ℝ := fun l => ∫ x in convexHull ℝ (Set.range (ufcVerts ℝ 2)), eval x (φ l * quadOf g) with hG
  have hproj : ∑ l : Fin 6, G l • φ l = κ • quadOf g := h.project 2 (quadOf g) (quadOf_degree g)
  have h0 : ∀ l : Fin 6, (l : ℕ) < 3 → G l = 0 := by
    intro l hl
    have hd : (φ l).totalDegree ≤ 1 := h.degree (n := 1) hl
    obtain ⟨a, b, e⟩ := affine_of_degree (φ l) hd
    have : φ l = quadOf ![b, a 0, a 1, 0, 0, 0] := by
      refine MvPolynomial.funext fun x => ?_
      rw [e, eval_quadOf]
      simp [eval_linForm, Fin.sum_univ_two]
      ring
    rw [hG]
    simp only [this, map_mul]
    rw [tri_form, hg]
  have hsq : ∑ l, G l ^ 2 = κ * triForm g g := by
    have := h.norm_sq G
    rw [hproj] at this
    simp only [smul_eval] at this
    have e : ∫ x in convexHull ℝ (Set.range (ufcVerts ℝ 2)), (κ * eval x (quadOf g)) ^ 2 = κ ^ 2 * triForm g g := by
      rw [← tri_form, ← integral_const_mul]
      congr 1; funext x; ring
    rw [e] at this
    have hk := h.pos
    have : κ * (∑ l, G l ^ 2) = κ * (κ * triForm g g) := by rw [← this]; ring
    exact mul_left_cancel₀ hk.ne' this
  have hinner : triForm f g = ∑ l, y l * G l := by
    rw [← tri_form, ← hf]
    have e : ∀ x, eval x (∑ l : Fin 6, y l • φ l) * eval x (quadOf g) = ∑ l : Fin 6, y l * eval x (φ l * quadOf g) := by
      intro x
      rw [map_sum, Finset.sum_mul]
      exact Finset.sum_congr rfl fun l _ => by rw [smul_eval, map_mul]; ring
    simp only [e]
    rw [integral_finsetSum]
    · exact Finset.sum_congr rfl fun l _ => by rw [integral_const_mul]
    · intro l _
      exact (integrable_hull (ufcVerts ℝ 2) _ (φ l * quadOf g).continuous_eval).const_mul _
  rw [hinner]
  rw [Fin.sum_univ_six] at hsq ⊢
  have g0 := h0 0 (by decide)
  have g1 := h0 1 (by decide)
  have g2 := h0 2 (by decide)
  rw [g0, g1, g2] at hsq ⊢
  rw [← hsq]
  nlinarith [sq_nonneg (y 3 * G 4 - y 4 * G 3), sq_nonneg (y 3 * G 5 - y 5 * G 3), sq_nonneg (y 4 * G 5 - y 5 * G 4)]

theorem all_bound {φ : ℕ → MvPolynomial (Fin 2) ℝ} {κ : ℝ} (h : OrthoSeq (ufcVerts ℝ 2) κ φ) (y f : Fin 6 → ℝ)
    (hf : ∑ l : Fin 6, y l • φ l = quadOf f) : triForm f f = κ * ∑ l, y l ^ 2 := by
  rw [← h.norm_sq y, hf, ← tri_form]
  congr 1; funext x; ring

/-- The edge functions of the UFC triangle. -/
def edgeCoefs : Fin 3 → Fin 6 → ℝ := ![![0, 0, 0, 0, 4, 0], ![0, 0, 4, 0, -4, -4], ![0, 4, 0, -4, -4, 0]]

/-- The dual functions. -/
def dualCoefs : Fin 3 → Fin 6 → ℝ := ![![0, 0, 0, -45, 180, -45], ![-45, 90, 270, -45, -270, -270], ![-45, 270, 90, -270, -270, -45]]

theorem dual_orth (e : Fin 3) (a b c : ℝ) : triForm ![a, b, c, 0, 0, 0] (dualCoefs e) = 0 := by
  fin_cases e <;> simp [triForm, dualCoefs] <;> ring

theorem dual_norm (e : Fin 3) : triForm (dualCoefs e) (dualCoefs e) = 135 / 2 := by
  fin_cases e <;> simp [triForm, dualCoefs] <;> norm_num

theorem dual_edge (d : Fin 3 → ℝ) (e : Fin 3) : triForm (fun l => ∑ i, d i * edgeCoefs i l) (dualCoefs e) = d e := by
  fin_cases e <;> simp [triForm, dualCoefs, edgeCoefs, Fin.sum_univ_three] <;> ring

theorem edge_norm (d : Fin 3 → ℝ) : triForm (fun l => ∑ i, d i * edgeCoefs i l) (fun l => ∑ i, d i * edgeCoefs i l) ≤ 8 / 45 * ∑ i, d i ^ 2 := by
  have : triForm (fun l => ∑ i, d i * edgeCoefs i l) (fun l => ∑ i, d i * edgeCoefs i l) =
      4 / 45 * (d 0 ^ 2 + d 1 ^ 2 + d 2 ^ 2) + 4 / 45 * (d 0 * d 1 + d 0 * d 2 + d 1 * d 2) := by
    simp [triForm, edgeCoefs, Fin.sum_univ_three]
    ring
  rw [this, Fin.sum_univ_three]
  nlinarith [sq_nonneg (d 0 - d 1), sq_nonneg (d 0 - d 2), sq_nonneg (d 1 - d 2)]

/-- The bounds for one component. -/
private theorem component_bound {φ : ℕ → MvPolynomial (Fin 2) ℝ} (h : OrthoSeq (ufcVerts ℝ 2) (1 / 4) φ) (β : Fin 3 → Fin 6 → ℝ)
    (hβ : ∀ e, ∑ l : Fin 6, β e l • φ l = quadOf (edgeCoefs e)) (d : Fin 3 → ℝ) (c : Fin 3 → ℝ) :
    1 / 400 * (∑ i, d i ^ 2 + ∑ k, c k ^ 2) ≤
      ∑ l : Fin 6, ((∑ i, d i * β i l) + if hl : (l : ℕ) < 3 then c ⟨l, hl⟩ else 0) ^ 2 := by
  set y : Fin 6 → ℝ := fun l => ∑ i, d i * β i l with hy
  have hf : ∑ l : Fin 6, y l • φ l = quadOf (fun l => ∑ i, d i * edgeCoefs i l) := by
    have e1 : ∑ l : Fin 6, y l • φ l = ∑ i, d i • ∑ l : Fin 6, β i l • φ l := by
      simp only [hy, Finset.sum_smul, Finset.smul_sum, mul_smul]
      rw [Finset.sum_comm]
    rw [e1]
    simp only [hβ]
    refine MvPolynomial.funext fun x => ?_
    rw [Fin.sum_univ_three]
    simp only [map_add, smul_eval, eval_quadOf, Fin.sum_univ_three]
    ring
  have hb : ∀ e, d e ^ 2 ≤ (y 3 ^ 2 + y 4 ^ 2 + y 5 ^ 2) * (135 / 8) := by
    intro e
    have := high_bound h y _ (dualCoefs e) hf (dual_orth e)
    rw [dual_edge, dual_norm] at this
    linarith
  have hn := edge_norm d
  rw [all_bound h y _ hf] at hn
  have h0 := hb 0
  have h1 := hb 1
  have h2 := hb 2
  rw [Fin.sum_univ_six] at hn ⊢
  rw [Fin.sum_univ_three] at hn ⊢
  rw [Fin.sum_univ_three]
  have e0 : (if hl : ((0 : Fin 6) : ℕ) < 3 then c ⟨((0 : Fin 6) : ℕ), hl⟩ else 0) = c 0 := rfl
  have e1 : (if hl : ((1 : Fin 6) : ℕ) < 3 then c ⟨((1 : Fin 6) : ℕ), hl⟩ else 0) = c 1 := rfl
  have e2 : (if hl : ((2 : Fin 6) : ℕ) < 3 then c ⟨((2 : Fin 6) : ℕ), hl⟩ else 0) = c 2 := rfl
  have e3 : (if hl : ((3 : Fin 6) : ℕ) < 3 then c ⟨((3 : Fin 6) : ℕ), hl⟩ else 0) = 0 := rfl
  have e4 : (if hl : ((4 : Fin 6) : ℕ) < 3 then c ⟨((4 : Fin 6) : ℕ), hl⟩ else 0) = 0 := rfl
  have e5 : (if hl : ((5 : Fin 6) : ℕ) < 3 then c ⟨((5 : Fin 6) : ℕ), hl⟩ else 0) = 0 := rfl
  rw [e0, e1, e2, e3, e4, e5]
  have key : ∀ a b : ℝ, 1 / 200 * b ^ 2 - 1 / 100 * a ^ 2 ≤ (a + b) ^ 2 := by
    intro a b
    nlinarith [sq_nonneg (a + b), sq_nonneg (2 * a + b)]
  have k0 := key (y 0) (c 0)
  have k1 := key (y 1) (c 1)
  have k2 := key (y 2) (c 2)
  have p0 := sq_nonneg (c 0)
  have p1 := sq_nonneg (c 1)
  have p2 := sq_nonneg (c 2)
  have q0 := sq_nonneg (y 3)
  have q1 := sq_nonneg (y 4)
  have q2 := sq_nonneg (y 5)
  nlinarith

/-- The bound for the nine rows. -/
private theorem bdfm_bound {φ : ℕ → MvPolynomial (Fin 2) ℝ} (h : OrthoSeq (ufcVerts ℝ 2) (1 / 4) φ) (β : Fin 3 → Fin 6 → ℝ)
    (hβ : ∀ e, ∑ l : Fin 6, β e l • φ l = quadOf (edgeCoefs e)) {τ : Fin 3 → Fin 2 → ℝ} (hτ : τ = ![![-1, 1], ![0, 1], ![1, 0]])
    (d : Fin 3 → ℝ) (c : Fin 2 → Fin 3 → ℝ) :
    1 / 400 * (∑ i, d i ^ 2 + ∑ p, ∑ k, c p k ^ 2) ≤
      ∑ p, ∑ l : Fin 6, ((∑ i, d i * (τ i p * β i l)) + if hl : (l : ℕ) < 3 then c p ⟨l, hl⟩ else 0) ^ 2 := by
  have h0 := component_bound h β hβ (fun i => d i * τ i 0) (c 0)
  have h1 := component_bound h β hβ (fun i => d i * τ i 1) (c 1)
  rw [Fin.sum_univ_two, Fin.sum_univ_two]
  simp only [mul_assoc] at h0 h1
  refine le_trans ?_ (add_le_add h0 h1)
  rw [hτ]
  simp only [Fin.sum_univ_three]
  simp
  nlinarith [sq_nonneg (d 0), sq_nonneg (d 1), sq_nonneg (d 2)]

private theorem tri_edges {f : ℕ} {t : List ℕ} (h : HasEntity ((ufcTriangle : CellData ℝ).toSimplex 2).topo 1 f t) :
    (f = 0 ∧ t = [1, 2]) ∨ (f = 1 ∧ t = [0, 2]) ∨ (f = 2 ∧ t = [0, 1]) := by
  obtain ⟨es, h1, h2⟩ := h
  have e : es = [(0, [1, 2]), (1, [0, 2]), (2, [0, 1])] := by
    have : some es = some [(0, [1, 2]), (1, [0, 2]), (2, [0, 1])] := by rw [← h1]; rfl
    exact Option.some.inj this
  subst e
  simp only [Dict.get?] at h2
  split_ifs at h2 with a b c
  · exact Or.inl ⟨a.symm, (Option.some.inj h2).symm⟩
  · exact Or.inr (Or.inl ⟨b.symm, (Option.some.inj h2).symm⟩)
  · exact Or.inr (Or.inr ⟨c.symm, (Option.some.inj h2).symm⟩)

/-- The edge functions of the UFC triangle, explicitly. -/
private theorem tri_edge_functions {τ : Fin 3 → Fin 2 → ℝ} {b : Fin 3 → MvPolynomial (Fin 2) ℝ}
    (h : EdgeFunctions ((ufcTriangle : CellData ℝ).toSimplex 2) τ b) : τ = ![![-1, 1], ![0, 1], ![1, 0]] ∧ ∀ e, b e = quadOf (edgeCoefs e) := by
  have v0 : ((ufcTriangle : CellData ℝ).toSimplex 2).v 0 = ![0, 0] := by
    funext i; fin_cases i <;> rfl
  have v1 : ((ufcTriangle : CellData ℝ).toSimplex 2).v 1 = ![1, 0] := by
    funext i; fin_cases i <;> rfl
  have v2 : ((ufcTriangle : CellData ℝ).toSimplex 2).v 2 = ![0, 1] := by
    funext i; fin_cases i <;> rfl
  have he : ∀ e : Fin 3, ∃ t, HasEntity ((ufcTriangle : CellData ℝ).toSimplex 2).topo 1 e t := fun e =>
    facet_exists (D := 2) le_rfl numbered_ufcTriangle e.2
  constructor
  · funext e
    obtain ⟨t, ht⟩ := he e
    obtain ⟨a, c, hac, -, -, -, h1, -⟩ := edge_data proper_ufcTriangle ht
    rw [h.tangent, Option.some.injEq] at h1
    rw [h1]
    rw [hac] at ht
    rcases tri_edges ht with ⟨f1, f2⟩ | ⟨f1, f2⟩ | ⟨f1, f2⟩ <;> simp only [List.cons.injEq, and_true] at f2 <;> obtain ⟨rfl, rfl⟩ := f2
    · obtain rfl : e = 0 := Fin.ext f1
      rw [v1, v2]; funext i; fin_cases i <;> norm_num
    · obtain rfl : e = 1 := Fin.ext f1
      rw [v0, v2]; funext i; fin_cases i <;> norm_num
    · obtain rfl : e = 2 := Fin.ext f1
      rw [v0, v1]; funext i; fin_cases i <;> simp
  · intro e
    rw [← sub_eq_zero]
    refine quadratic_zero proper_ufcTriangle numbered_ufcTriangle _ ((totalDegree_sub _ _).trans (max_le (h.degree e) (quadOf_degree _))) ?_ ?_
    · intro i hi
      rw [map_sub, h.vertex e i hi, eval_quadOf]
      rcases (by omega : i = 0 ∨ i = 1 ∨ i = 2) with rfl | rfl | rfl
      · rw [v0]; fin_cases e <;> simp [edgeCoefs]
      · rw [v1]; fin_cases e <;> simp [edgeCoefs]
      · rw [v2]; fin_cases e <;> simp [edgeCoefs]
    · intro f t ht
      rw [map_sub, h.mid e f t ht, eval_quadOf]
      rcases tri_edges ht with ⟨rfl, rfl⟩ | ⟨rfl, rfl⟩ | ⟨rfl, rfl⟩
      · have : edgeMid ((ufcTriangle : CellData ℝ).toSimplex 2) [1, 2] = ![1 / 2, 1 / 2] := by
          rw [edgeMid_eq, v1, v2]; funext i; fin_cases i <;> norm_num
        rw [this]; fin_cases e <;> simp [edgeCoefs] <;> norm_num
      · have : edgeMid ((ufcTriangle : CellData ℝ).toSimplex 2) [0, 2] = ![0, 1 / 2] := by
          rw [edgeMid_eq, v0, v2]; funext i; fin_cases i <;> norm_num
        rw [this]; fin_cases e <;> simp [edgeCoefs] <;> norm_num
      · have : edgeMid ((ufcTriangle : CellData ℝ).toSimplex 2) [0, 1] = ![1 / 2, 0] := by
          rw [edgeMid_eq, v0, v1]; funext i; fin_cases i <;> norm_num
        rw [this]; fin_cases e <;> simp [edgeCoefs] <;> norm_num

/-- The gap, for the rows in any order. -/
private theorem bdfm_gap {φ : ℕ → MvPolynomial (Fin 2) ℝ} (h : OrthoSeq (ufcVerts ℝ 2) (1 / 4) φ) (β : Fin 3 → Fin 6 → ℝ)
    (hβ : ∀ e, ∑ l : Fin 6, β e l • φ l = quadOf (edgeCoefs e)) {τ : Fin 3 → Fin 2 → ℝ} (hτ : τ = ![![-1, 1], ![0, 1], ![1, 0]])
    (σ : Equiv.Perm (Fin 3)) (A : List (Fin 2 → Fin 6 → ℝ)) (hA : A = [0, 1, 2].map fun a => fun p l => τ (σ a) p * β (σ a) l)
    (B : List (Fin 2 → Fin 6 → ℝ)) (hB : B = ((List.range 2).flatMap fun p => (List.range 3).map fun k => unitRow 2 6 p k)) (r)
    (hr : IsSVD (A ++ B) r) : SvdGap r.1 := by
  refine svd_gap_of_bound hr (1 / 400) (by norm_num) fun c => ?_
  have hB' : B = [unitRow 2 6 0 0, unitRow 2 6 0 1, unitRow 2 6 0 2, unitRow 2 6 1 0, unitRow 2 6 1 1, unitRow 2 6 1 2] := by rw [hB]; rfl
  have hl : (A ++ B).length = 9 := by rw [hA, hB']; rfl
  have hAB : A ++ B = [fun p l => τ (σ 0) p * β (σ 0) l, fun p l => τ (σ 1) p * β (σ 1) l, fun p l => τ (σ 2) p * β (σ 2) l,
    unitRow 2 6 0 0, unitRow 2 6 0 1, unitRow 2 6 0 2, unitRow 2 6 1 0, unitRow 2 6 1 1, unitRow 2 6 1 2] := by rw [hA, hB']; rfl
  rw [hl, hAB]
  have key := bdfm_bound h β hβ hτ (fun i => c (σ.symm i)) (fun p k => c (3 + 3 * (p : ℕ) + k))
  have e1 : ∑ i : Fin 3, c (σ.symm i) ^ 2 = c 0 ^ 2 + c 1 ^ 2 + c 2 ^ 2 := by
    rw [Equiv.sum_comp σ.symm (fun i : Fin 3 => c i ^ 2), Fin.sum_univ_three]; rfl
  have e2 : ∀ (p : Fin 2) (l : Fin 6), ∑ i : Fin 3, c (σ.symm i) * (τ i p * β i l) =
      c 0 * (τ (σ 0) p * β (σ 0) l) + c 1 * (τ (σ 1) p * β (σ 1) l) + c 2 * (τ (σ 2) p * β (σ 2) l) := by
    intro p l
    rw [← Equiv.sum_comp σ, Fin.sum_univ_three]
    simp only [Equiv.symm_apply_apply]
    rfl
  rw [e1] at key
  simp only [e2] at key
  have e3 : ∑ a ∈ Finset.range 9, c a ^ 2 = c 0 ^ 2 + c 1 ^ 2 + c 2 ^ 2 + ∑ p : Fin 2, ∑ k : Fin 3, c (3 + 3 * (p : ℕ) + k) ^ 2 := by
    rw [Fin.sum_univ_two, Fin.sum_univ_three, Fin.sum_univ_three]
    simp [Finset.sum_range_succ]
    ring
  rw [e3]
  refine le_trans key (le_of_eq ?_)
  refine Finset.sum_congr rfl fun p _ => Finset.sum_congr rfl fun l _ => ?_
  congr 1
  simp only [Finset.sum_range_succ, Finset.sum_range_zero, List.getD_cons_zero, List.getD_cons_succ]
  fin_cases p <;> fin_cases l <;> simp [unitRow]

/-- The singular values of the rows on the UFC triangle are far above the threshold. -/
theorem bdfm_svd_example (A B) (h : bdfmRows 2 ((ufcTriangle : CellData ℝ).toSimplex 2) = some (A, B)) : SvdOK someSvd (A ++ B) := by
  refine ⟨someSvd_spec _, ?_⟩
  set s := (ufcTriangle : CellData ℝ).toSimplex 2 with hs
  have hp : ProperSimplex ℝ s := proper_ufcTriangle
  have hverts : (fun i : Fin (2 + 1) => s.v i) = ufcVerts ℝ 2 := by
    funext i l
    fin_cases i <;> fin_cases l <;> rfl
  have ho' : orientation (ufcVerts ℝ 2) = 1 := by
    unfold orientation
    have : (Matrix.of fun i j : Fin 2 => ufcVerts ℝ 2 j.succ i - ufcVerts ℝ 2 0 i) = 1 := by
      ext i j
      simp [ufcVerts, Matrix.one_apply]
    rw [this, Matrix.det_one]
  obtain ⟨φ, g1, g2⟩ := orthoSeq_exists (Or.inr (Or.inl rfl)) (fun i : Fin (2 + 1) => s.v i) (proper_independent hp)
    (by rw [← orientation_edge, hverts, ho']; norm_num)
  have hκ : |(edgeMatrix fun i : Fin (2 + 1) => s.v i).det| / 2 ^ 2 = 1 / 4 := by
    rw [← orientation_edge, hverts, ho']; norm_num
  rw [hκ] at g2
  obtain ⟨mats, A', B', τ, b, -, -, -, m4, m5, m6, m9, m7, m8⟩ := bdfm_rows_spec hp numbered_ufcTriangle φ (g1 2 (Or.inr (by omega))) g2
  rw [h, Option.some.injEq, Prod.mk.injEq] at m4
  obtain ⟨rfl, rfl⟩ := m4
  rw [hverts] at g2
  obtain ⟨hτ, hb⟩ := tri_edge_functions m5
  have hspan : ∀ e, ∃ y : Fin 6 → ℝ, ∑ l : Fin 6, y l • φ l = quadOf (edgeCoefs e) := by
    intro e
    have hm : quadOf (edgeCoefs e) ∈ Submodule.span ℝ (Set.range fun i : Fin ((2 + 2).choose 2) => φ i) := by
      rw [g2.span 2, mem_restrictTotalDegree]; exact quadOf_degree _
    exact (Submodule.mem_span_range_iff_exists_fun ℝ).1 hm
  choose β hβ using hspan
  have hrow : ∀ x : Fin 2 → Fin 6 → ℝ, ∀ e, rowField φ 6 x = edgeField (τ e) (b e) → x = fun p l => τ e p * β e l := by
    intro x e hx
    have hli : LinearIndependent ℝ fun i : Fin 6 => φ i := g2.indep 2
    refine rowField_injective hli (hx.trans ?_)
    funext j
    rw [rowField_apply φ 6, edgeField, hb, ← hβ, Finset.mul_sum]
    exact Finset.sum_congr rfl fun l _ => by rw [smul_eq_C_mul, smul_eq_C_mul, C_mul, mul_assoc]
  match A, m9 with
  | [x0, x1, x2], _ =>
    obtain ⟨e0, h0⟩ := m7 x0 (by simp)
    obtain ⟨e1, h1⟩ := m7 x1 (by simp)
    obtain ⟨e2, h2⟩ := m7 x2 (by simp)
    have hinj : ∀ e f, edgeField (τ e) (b e) = edgeField (τ f) (b f) → e = f := by
      intro e f hef
      by_contra hne
      obtain ⟨t, ht⟩ := facet_exists (D := 2) le_rfl numbered_ufcTriangle e.2
      obtain ⟨a, c, -, -, -, -, t1, t2⟩ := edge_data hp ht
      rw [m5.tangent, Option.some.injEq] at t1
      apply t2
      rw [← t1]
      funext j
      have e3 := congrArg (eval (edgeMid s t)) (congrFun hef j)
      rw [edgeField, edgeField, map_mul, map_mul, m5.mid e e t ht, m5.mid f e t ht, if_pos rfl, if_neg (fun h => hne (Fin.ext h)), eval_C,
        mul_one, mul_zero] at e3
      exact e3
    have hsurj : ∀ e, e = e0 ∨ e = e1 ∨ e = e2 := by
      intro e
      obtain ⟨x, hx, hxe⟩ := m8 e
      simp only [List.mem_cons, List.not_mem_nil, or_false] at hx
      rcases hx with rfl | rfl | rfl
      · exact Or.inl (hinj _ _ (hxe.symm.trans h0))
      · exact Or.inr (Or.inl (hinj _ _ (hxe.symm.trans h1)))
      · exact Or.inr (Or.inr (hinj _ _ (hxe.symm.trans h2)))
    have hbij : Function.Bijective ![e0, e1, e2] := by
      rw [← Finite.surjective_iff_bijective]
      intro e
      rcases hsurj e with rfl | rfl | rfl
      · exact ⟨0, rfl⟩
      · exact ⟨1, rfl⟩
      · exact ⟨2, rfl⟩
    refine bdfm_gap g2 β hβ hτ (Equiv.ofBijective _ hbij) [x0, x1, x2] ?_ B m6 _ (someSvd_spec _)
    rw [hrow x0 e0 h0, hrow x1 e1 h1, hrow x2 e2 h2]
    rfl

/-- The element exists on the UFC triangle. -/
example : ∃ m el nodes ids, brezziDouglasFortinMarini 2 someSvd ((ufcTriangle : CellData ℝ).toSimplex 2)
    (ufcScaledNormal ((ufcTriangle : CellData ℝ).toSimplex 2) fun _ => [Real.sqrt 2]) = some (⟨m, el⟩, nodes, ids) ∧ m = 9 := by
  obtain ⟨m, el, nodes, ids, h1, h2, -⟩ := brezzi_douglas_fortin_marini_spec _ (proper_ufcTriangle (K := ℝ)) numbered_ufcTriangle
    (ufc_triangle_normals _ proper_ufcTriangle fun _ => [Real.sqrt 2]) someSvd bdfm_svd_example
  exact ⟨m, el, nodes, ids, h1, h2⟩

end
end FIAT
