/-
Edges of a triangle, second-order jets at vertices, and polynomials that vanish to second order on the edges.
-/
import Verif.Lemmas.ScalarBlocks
import Verif.Lemmas.LinPrime

namespace FIAT
open MvPolynomial
section
variable {D : ℕ}

/-- The points `i / k` of an edge. -/
noncomputable def edgePt (s : SimplexCell (Fin D → ℝ)) (a c k i : ℕ) : Fin D → ℝ := s.v a + ((i : ℝ) / k) • (s.v c - s.v a)

theorem edge_tuple {s : SimplexCell (Fin D → ℝ)} (hs : ProperSimplex ℝ s) {e : ℕ} {t : List ℕ} (h : HasEntity s.topo 1 e t) :
    ∃ a c, t = [a, c] ∧ a ≠ c ∧ a < D + 1 ∧ c < D + 1 := by
  obtain ⟨a, c, h1, h2, h3, h4, -⟩ := edge_points hs h 1 le_rfl
  exact ⟨a, c, h1, h2, h3, h4⟩

/-- `make_points(1, e, k)`, in order. -/
theorem edge_list (hD : 1 < D) {s : SimplexCell (Fin D → ℝ)} (hs : ProperSimplex ℝ s) {e a c : ℕ} (h : HasEntity s.topo 1 e [a, c])
    (k : ℕ) : makePoints ℝ s 1 e k = some ((List.range' 1 (k - 1)).map (edgePt s a c k)) := by
  obtain ⟨-, -, h3⟩ := hs.2.1.entity _ _ _ h
  rw [hs.1] at h3
  obtain ⟨es, e1, e2⟩ := id h
  unfold makePoints
  rw [if_neg one_ne_zero, if_pos (by rw [hs.1]; exact hD)]
  have hv : verticesOf s [a, c] = some [s.v a, s.v c] := by
    unfold verticesOf
    rw [List.mapM_cons, List.mapM_cons, vertex_get hs (h3 a (by simp)), vertex_get hs (h3 c (by simp))]
    rfl
  simp only [e1, e2, hv, Option.bind_eq_bind, Option.bind_some, makeLatticeL, makeLattice, List.map_cons, List.map_nil, List.length_cons,
    List.length_nil, Nat.zero_add]
  congr 1
  rw [show latticeIter 1 (k + 1 - 1) 1 = (pyRange 1 (k + 1 - 1)).map fun ii => [ii] from rfl, List.map_map]
  unfold pyRange
  rw [Nat.add_sub_cancel]
  refine List.map_congr_left fun i _ => ?_
  simp only [Function.comp_apply, natCombo, List.zipWith_cons_cons, List.zipWith_nil_left, List.sum_cons, List.sum_nil, add_zero, edgePt]
  rw [smul_smul, div_eq_mul_inv]

end
section
variable {s : SimplexCell (Fin 2 → ℝ)} {nrm : ℕ → Option (Fin 2 → ℝ)}

/-- The six numbers of the second-order jet. -/
noncomputable def jetValues (x : Fin 2 → ℝ) (p : MvPolynomial (Fin 2) ℝ) : List ℝ :=
  [eval x p, eval x (pderiv 0 p), eval x (pderiv 1 p), eval x (pderiv 0 (pderiv 0 p)), eval x (pderiv 0 (pderiv 1 p)),
    eval x (pderiv 1 (pderiv 1 p))]

/-- The nodes of a vertex. -/
noncomputable def jetNodes (x : Fin 2 → ℝ) : List (Functional ℝ (Fin 2 → ℝ)) :=
  (pointEvaluation x :: (List.range 2).map fun i => pointDerivative x (unitAlpha 2 i)) ++
    [[2, 0], [1, 1], [0, 2]].map fun alpha => pointDerivative x alpha

theorem jetNodes_values (x : Fin 2 → ℝ) (p : MvPolynomial (Fin 2) ℝ) :
    (jetNodes x).map (fun node => node.onField (scalarField p)) = jetValues x p := by
  have e0 : iterDeriv (unitAlpha 2 0) p = pderiv 0 p := iterDeriv_unit (0 : Fin 2) p
  have e1 : iterDeriv (unitAlpha 2 1) p = pderiv 1 p := iterDeriv_unit (1 : Fin 2) p
  have f : ∀ α : List ℕ, iterDeriv α p = (fun r => pderiv (1 : Fin 2) r)^[α.getD 1 0] ((fun r => pderiv (0 : Fin 2) r)^[α.getD 0 0] p) := by
    intro α
    unfold iterDeriv
    rw [show List.finRange 2 = [0, 1] from rfl]
    rfl
  have e2 : iterDeriv [2, 0] p = pderiv 0 (pderiv 0 p) := by rw [f]; rfl
  have e3 : iterDeriv [1, 1] p = pderiv 0 (pderiv 1 p) := by rw [f, pderiv_comm]; rfl
  have e4 : iterDeriv [0, 2] p = pderiv 1 (pderiv 1 p) := by rw [f]; rfl
  unfold jetNodes jetValues
  simp [point_eval_scalar, point_deriv_scalar, List.range_succ, e0, e1, e2, e3, e4]

theorem jetNodes_wf (x : Fin 2 → ℝ) : ∀ l ∈ jetNodes x, l.WF 2 := by
  intro l hl
  simp only [jetNodes, List.mem_append, List.mem_cons, List.mem_map] at hl
  rcases hl with (rfl | ⟨i, -, rfl⟩) | ⟨α, hα, rfl⟩
  · exact wf_eval _
  · exact wf_deriv _ _ (unitAlpha_length i)
  · refine wf_deriv _ _ ?_
    rcases hα with rfl | rfl | rfl | h
    · rfl
    · rfl
    · rfl
    · simp at h

/-- The jet of order two vanishes. -/
def JetZero (x : Fin 2 → ℝ) (p : MvPolynomial (Fin 2) ℝ) : Prop :=
  eval x p = 0 ∧ (∀ i, eval x (pderiv i p) = 0) ∧ ∀ i j, eval x (pderiv i (pderiv j p)) = 0

theorem jetZero_of_values {x : Fin 2 → ℝ} {p : MvPolynomial (Fin 2) ℝ} (h : ∀ r ∈ jetValues x p, r = 0) : JetZero x p := by
  simp only [jetValues, List.mem_cons, List.not_mem_nil, or_false, forall_eq_or_imp, forall_eq] at h
  obtain ⟨h0, h1, h2, h3, h4, h5⟩ := h
  refine ⟨h0, fun i => ?_, fun i j => ?_⟩
  · fin_cases i
    · exact h1
    · exact h2
  · fin_cases i <;> fin_cases j
    · exact h3
    · exact h4
    · rw [pderiv_comm]; exact h4
    · exact h5

theorem dirD_dirD (u n : Fin 2 → ℝ) (p : MvPolynomial (Fin 2) ℝ) (x : Fin 2 → ℝ) (h : ∀ i j, eval x (pderiv i (pderiv j p)) = 0) :
    eval x (dirD u (dirD n p)) = 0 := by
  rw [eval_dirD]
  refine Finset.sum_eq_zero fun i _ => ?_
  unfold dirD
  rw [map_sum, map_sum, Finset.sum_eq_zero, mul_zero]
  intro j _
  rw [pderiv_C_mul, map_mul, h, mul_zero]

/-- On an edge: the jets at its ends and values at `k - 5` points determine a polynomial of degree `k` there. -/
theorem edge_value {a c k : ℕ} (hk : 5 ≤ k) (p : MvPolynomial (Fin 2) ℝ) (hp : p.totalDegree ≤ k)
    (ha : JetZero (s.v a) p) (hc : JetZero (s.v c) p)
    (hi : ∀ i : ℕ, 1 ≤ i → i < k - 4 → eval (edgePt s a c (k - 4) i) p = 0) (w : ℝ) :
    eval (s.v a + w • (s.v c - s.v a)) p = 0 := by
  have hj : ∀ x, JetZero x p → ∀ j < 3, eval x ((dirD (s.v c - s.v a))^[j] p) = 0 := by
    intro x hx j hj
    match j, hj with
    | 0, _ => exact hx.1
    | 1, _ =>
      rw [Function.iterate_one, eval_dirD]
      exact Finset.sum_eq_zero fun i _ => by rw [hx.2.1 i, mul_zero]
    | 2, _ => exact dirD_dirD _ _ p x hx.2.2
  refine edge_zero (s.v a) (s.v c - s.v a) p k 3 (k - 4) (by omega) hp (hj _ ha) ?_ hi (by omega) w
  rw [add_sub_cancel]
  exact hj _ hc

/-- On an edge: the jets at its ends and normal derivatives at `k - 4` points determine the normal derivative. -/
theorem edge_normal {a c k : ℕ} (hk : 4 ≤ k) (n : Fin 2 → ℝ) (p : MvPolynomial (Fin 2) ℝ) (hp : p.totalDegree ≤ k)
    (ha : JetZero (s.v a) p) (hc : JetZero (s.v c) p)
    (hi : ∀ i : ℕ, 1 ≤ i → i < k - 3 → eval (edgePt s a c (k - 3) i) (dirD n p) = 0) (w : ℝ) :
    eval (s.v a + w • (s.v c - s.v a)) (dirD n p) = 0 := by
  have hj : ∀ x, JetZero x p → ∀ j < 2, eval x ((dirD (s.v c - s.v a))^[j] (dirD n p)) = 0 := by
    intro x hx j hj
    match j, hj with
    | 0, _ =>
      rw [Function.iterate_zero_apply, eval_dirD]
      exact Finset.sum_eq_zero fun i _ => by rw [hx.2.1 i, mul_zero]
    | 1, _ => exact dirD_dirD _ _ p x hx.2.2
  refine edge_zero (s.v a) (s.v c - s.v a) (dirD n p) (k - 1) 2 (k - 3) (by omega) (totalDegree_dirD n hp) (hj _ ha) ?_ hi (by omega) w
  rw [add_sub_cancel]
  exact hj _ hc

/-- A polynomial that vanishes with its normal derivative on an edge vanishes there with its gradient. -/
theorem edge_gradient (hs : ProperSimplex ℝ s) (hn : FacetNormals s nrm) {e : ℕ} {t : List ℕ} (h : HasEntity s.topo 1 e t)
    (p : MvPolynomial (Fin 2) ℝ) (h0 : ∀ x, OnEntity s t x → eval x p = 0)
    (h1 : ∀ n, nrm e = some n → ∀ x, OnEntity s t x → eval x (dirD n p) = 0) :
    ∃ i : Fin 3, (∀ a, a ∈ t ↔ a < 2 + 1 ∧ a ≠ i) ∧ (∀ g b, BaryForms (fun i : Fin (2 + 1) => s.v i) g b → linForm (g i) (b i) ^ 2 ∣ p) ∧
      ∀ x, OnEntity s t x → ∀ j, eval x (pderiv j p) = 0 := by
  obtain ⟨i, hi⟩ := facet_opposite (by norm_num) hs (e := e) (t := t) h
  have key : ∀ g b, BaryForms (fun i : Fin (2 + 1) => s.v i) g b → linForm (g i) (b i) ^ 2 ∣ p := by
    intro g b hb
    obtain ⟨n, c, n1, n2, n3⟩ := facet_normal (by norm_num) hn hb (e := e) (t := t) h hi
    have hx := onEntity_facet hb (hs.2.1.entity _ _ _ h).1 hi
    refine sq_dvd_of_normal (g i) (b i) n ?_ p (fun x hx0 => h0 x ((hx x).2 hx0)) (fun x hx0 => h1 n n1 x ((hx x).2 hx0))
    rw [n3]
    have hg := hb.ne_zero (by norm_num) i
    intro hc
    simp only [Pi.smul_apply, smul_eq_mul, mul_assoc, ← Finset.mul_sum] at hc
    rcases mul_eq_zero.1 hc with hc | hc
    · exact n2 hc
    · apply hg
      funext j
      have := (Finset.sum_eq_zero_iff_of_nonneg fun j _ => mul_self_nonneg (g i j)).1 hc j (Finset.mem_univ j)
      simpa using this
  refine ⟨i, hi, key, fun x hx j => ?_⟩
  obtain ⟨g, b, hb⟩ := baryForms_exist _ (proper_independent hs)
  obtain ⟨r, hr⟩ := key g b hb
  have hx0 := (onEntity_facet hb (hs.2.1.entity _ _ _ h).1 hi x).1 hx
  rw [hr, pow_two, mul_assoc, Derivation.leibniz]
  simp [hx0]

/-- A polynomial of degree `k` that vanishes with its normal derivative on all three edges. -/
theorem triangle_c1 (hs : ProperSimplex ℝ s) (hn : FacetNormals s nrm) (p : MvPolynomial (Fin 2) ℝ) {k : ℕ} (hp : p.totalDegree ≤ k)
    (h : ∀ e t, HasEntity s.topo 1 e t → (∀ x, OnEntity s t x → eval x p = 0) ∧
      ∀ n, nrm e = some n → ∀ x, OnEntity s t x → eval x (dirD n p) = 0)
    {g : Fin (2 + 1) → Fin 2 → ℝ} {b : Fin (2 + 1) → ℝ} (hb : BaryForms (fun i : Fin (2 + 1) => s.v i) g b) :
    ∃ r, p = (∏ i, linForm (g i) (b i) ^ 2) * r ∧ (r = 0 ∨ r.totalDegree + 6 ≤ k) := by
  obtain ⟨r, h1, h2⟩ := hb.quotient (by norm_num) 2 Finset.univ p hp (by
    intro i _
    obtain ⟨e, t, he, ht⟩ := facet_of_vertex (by norm_num) hs i
    obtain ⟨i', hi', hd, -⟩ := edge_gradient hs hn he p (h e t he).1 (h e t he).2
    have : i = i' := by
      by_contra hne
      have h3 := (hi' i).2 ⟨i.2, fun h => hne (Fin.ext h)⟩
      exact ((ht i).1 h3).2 rfl
    rw [this]
    exact hd g b hb)
  exact ⟨r, h1, by simpa using h2⟩

/-- The interior lattice points lie off the edges. -/
theorem interior_points_pos (hs : ProperSimplex ℝ s) (hnum : NumberedSimplex s) (k : ℕ) (hk : 1 ≤ k) {pts : List (Fin 2 → ℝ)}
    (hpts : makePoints ℝ s 2 0 k = some pts) {g : Fin (2 + 1) → Fin 2 → ℝ} {b : Fin (2 + 1) → ℝ}
    (hb : BaryForms (fun i : Fin (2 + 1) => s.v i) g b) : ∀ x ∈ pts, ∀ i, eval x (linForm (g i) (b i)) ≠ 0 := by
  obtain ⟨t, ht, -, htm, -⟩ := cell_entity hs hnum
  obtain ⟨pts', q1, q2⟩ := make_points_mem (K := ℝ) s hs.2.1 k hk ht
  rw [hpts, Option.some.injEq] at q1
  subst q1
  intro x hx i
  obtain ⟨β, b1, b2, rfl⟩ := (q2 x).1 hx
  rw [hs.1] at b2 ⊢
  have hk0 : (k : ℝ) ≠ 0 := by positivity
  have e : baryPt ℝ s.v (2 + 1) k β = ∑ j : Fin (2 + 1), ((β j : ℝ) / k) • s.v j := by
    unfold baryPt
    rw [Finset.sum_range]
  rw [e, hb.unique (fun j => (β j : ℝ) / k) (by
    rw [← Finset.sum_div, ← Nat.cast_sum, ← Finset.sum_range fun j => β j, b2, div_self hk0])]
  exact div_ne_zero (by exact_mod_cast (b1 i).2 ((htm i).2 i.2)) hk0

end
end FIAT
