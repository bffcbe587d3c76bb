/-
What the nodes of an edge determine for the Arnold-Winther elements (C61, C62).
-/
import Verif.Lemmas.ArnoldWinther
import Verif.Lemmas.MTWZero

namespace FIAT
open MvPolynomial MeasureTheory
section
variable {s : SimplexCell (Fin 2 → ℝ)}

/-- The element of symmetric matrix fields with a derivative among its nodes. -/
theorem sym_element_spec' (s : SimplexCell (Fin 2 → ℝ)) (hs : ProperSimplex ℝ s) (k : ℕ) (nodes : List (Functional ℝ (Fin 2 → ℝ)))
    (hlen : nodes.length = 2 * (2 + 1) / 2 * (k + 2).choose 2) (hwf : ∀ l ∈ nodes, l.WF 2)
    (hord : (∃ l ∈ nodes, 0 < l.maxDerivOrder) ∨ ∀ l ∈ nodes, l.deriv = [])
    (hsep : ∀ u, IsSymField k u → (∀ l ∈ nodes, l.onField (fieldC comp2 u) = 0) → u = 0) :
    ∃ el, symElement s k nodes = some el ∧ IsNodalC comp2 (IsSymField k) nodes el := by
  obtain ⟨mats, h1, φ, hdeg, h2, h3, h4⟩ := on_core (by omega) s hs (fun h => by omega) k
  obtain ⟨hli, hspan⟩ := sym_set_span φ hdeg h2 (expTab s.verts k) mats
  have hpos : 1 ≤ onSymNumMembers ((k + 2).choose 2) 2 := by
    unfold onSymNumMembers
    have h1 : 1 ≤ (k + 2).choose 2 := Nat.choose_pos (Nat.le_add_left _ _)
    exact Nat.mul_pos (by norm_num) h1
  obtain ⟨el, e1, -, -, -, -, -, e2⟩ := any_element_nodal (by norm_num) φ comp2 comp2_injective _ rfl h3 h4 (IsSymField k) hli hspan
    nodes hlen hpos hwf hord hsep
  refine ⟨el, ?_, e2⟩
  unfold symElement onSymSet
  simp only [h1, Option.bind_eq_bind, Option.bind_some]
  convert e1 <;> rfl

theorem quadForm_add' (u : Fin 2 × Fin 2 → MvPolynomial (Fin 2) ℝ) (x v w w' : Fin 2 → ℝ) :
    quadForm u x v (w + w') = quadForm u x v w + quadForm u x v w' := by
  unfold quadForm
  simp only [Pi.add_apply, mul_add, Finset.sum_add_distrib]

theorem quadForm_smul' (u : Fin 2 × Fin 2 → MvPolynomial (Fin 2) ℝ) (x : Fin 2 → ℝ) (c : ℝ) (v w : Fin 2 → ℝ) :
    quadForm u x v (c • w) = c * quadForm u x v w := by
  unfold quadForm
  simp only [Pi.smul_apply, smul_eq_mul, Fin.sum_univ_two]
  ring

/-- Two orthogonal directions span the plane. -/
theorem plane_basis {n τ : Fin 2 → ℝ} (hn : n ≠ 0) (hτ : τ ≠ 0) (h : ∑ j, n j * τ j = 0) (v : Fin 2 → ℝ) : ∃ α β : ℝ, v = α • n + β • τ := by
  have hpos : ∀ m : Fin 2 → ℝ, m ≠ 0 → m 0 ^ 2 + m 1 ^ 2 ≠ 0 := by
    intro m hm h
    apply hm
    funext j
    fin_cases j
    · show m 0 = 0; nlinarith [sq_nonneg (m 0), sq_nonneg (m 1)]
    · show m 1 = 0; nlinarith [sq_nonneg (m 0), sq_nonneg (m 1)]
  have h1 := hpos n hn
  have h2 := hpos τ hτ
  rw [Fin.sum_univ_two] at h
  have hdet : n 0 * τ 1 - n 1 * τ 0 ≠ 0 := by
    intro h0
    have : (n 0 ^ 2 + n 1 ^ 2) * (τ 0 ^ 2 + τ 1 ^ 2) = 0 := by
      linear_combination (n 0 * τ 0 + n 1 * τ 1) * h + (n 0 * τ 1 - n 1 * τ 0) * h0
    rcases mul_eq_zero.1 this with h | h
    exacts [h1 h, h2 h]
  refine ⟨(v 0 * τ 1 - v 1 * τ 0) / (n 0 * τ 1 - n 1 * τ 0), (n 0 * v 1 - n 1 * v 0) / (n 0 * τ 1 - n 1 * τ 0), ?_⟩
  funext j
  fin_cases j
  · show v 0 = _ * n 0 + _ * τ 0
    rw [div_mul_eq_mul_div, div_mul_eq_mul_div, ← add_div, eq_div_iff hdet]
    ring
  · show v 1 = _ * n 1 + _ * τ 1
    rw [div_mul_eq_mul_div, div_mul_eq_mul_div, ← add_div, eq_div_iff hdet]
    ring

/-- A cubic that vanishes at both ends of an edge and is orthogonal to the polynomials of degree one vanishes. -/
theorem aw_cubic_zero {u : Fin 2 × Fin 2 → MvPolynomial (Fin 2) ℝ} (hu : ∀ c, (u c).totalDegree ≤ 3) {a c : ℕ} {v w : Fin 2 → ℝ}
    (h0 : quadForm u (s.v a) v w = 0) (h1 : quadForm u (s.v c) v w = 0) (m0 : edgeMom s [a, c] (fun _ => 1) v w u = 0)
    (m1 : edgeMom s [a, c] (fun r => 2 * r - 1) v w u = 0) (r : ℝ) : quadForm u (s.v a + r • (s.v c - s.v a)) v w = 0 := by
  obtain ⟨c0, c1, c2, c3, hc⟩ := cubic_line (s.v a) (s.v c - s.v a) (biC v w u) (biC_degree v w hu)
  simp only [eval_biC] at hc
  obtain ⟨k0, k1, -, -⟩ := cubic_moments c0 c1 c2 c3 _ hc 1 (-1) 2
  have m0' : ∫ t in (0 : ℝ)..1, 1 * quadForm u (s.v a + t • (s.v c - s.v a)) v w = 0 := m0
  have m1' : ∫ t in (0 : ℝ)..1, (-1 + 2 * t) * quadForm u (s.v a + t • (s.v c - s.v a)) v w = 0 := by
    rw [← m1]
    unfold edgeMom
    congr 1
    funext t
    rw [show -1 + 2 * t = 2 * t - 1 by ring]
    rfl
  rw [k0] at m0'
  rw [k1] at m1'
  have e0 := hc 0
  have e1 := hc 1
  rw [zero_smul, add_zero, h0] at e0
  rw [one_smul, add_sub_cancel, h1] at e1
  have f0 : c0 = 0 := by linarith
  have f1 : c1 = 0 := by linarith
  have f2 : c2 = 0 := by linarith
  have f3 : c3 = 0 := by linarith
  rw [hc, f0, f1, f2, f3]
  ring

/-- The nodes of a closed edge of the conforming element. -/
theorem aw_edge_zero {u : Fin 2 × Fin 2 → MvPolynomial (Fin 2) ℝ} (hu : ∀ c, (u c).totalDegree ≤ 3) {a c : ℕ} (hac : a ≠ c)
    {n τ : Fin 2 → ℝ} (hn : n ≠ 0) (hτ : τ ≠ 0) (hp : ∑ j, n j * τ j = 0) (ha : ∀ i, eval (s.v a) (u i) = 0) (hc : ∀ i, eval (s.v c) (u i) = 0) :
    (edgeMom s [a, c] (fun _ => 1) n n u = 0 ∧ edgeMom s [a, c] (fun _ => 1) n τ u = 0 ∧ edgeMom s [a, c] (fun r => 2 * r - 1) n n u = 0 ∧
      edgeMom s [a, c] (fun r => 2 * r - 1) n τ u = 0) ↔ ∀ x, OnEntity s [a, c] x → ∀ v, quadForm u x n v = 0 := by
  have hq : ∀ (b : ℕ), (∀ i, eval (s.v b) (u i) = 0) → ∀ v w, quadForm u (s.v b) v w = 0 := by
    intro b hb v w
    unfold quadForm
    simp [hb]
  constructor
  · rintro ⟨m0, m1, m2, m3⟩ x hx v
    obtain ⟨r, rfl⟩ := (onEntity_pair s hac x).1 hx
    obtain ⟨α, β, rfl⟩ := plane_basis hn hτ hp v
    rw [quadForm_add', quadForm_smul', quadForm_smul', aw_cubic_zero hu (hq a ha _ _) (hq c hc _ _) m0 m2,
      aw_cubic_zero hu (hq a ha _ _) (hq c hc _ _) m1 m3]
    ring
  · intro h
    have : ∀ q v, edgeMom s [a, c] q n v u = 0 := by
      intro q v
      unfold edgeMom
      have e : ∀ r : ℝ, quadForm u (s.v ([a, c].getD 0 0) + r • (s.v ([a, c].getD 1 0) - s.v ([a, c].getD 0 0))) n v = 0 :=
        fun r => h _ ((onEntity_pair s hac _).2 ⟨r, rfl⟩) v
      simp only [e, mul_zero]
      exact intervalIntegral.integral_zero
    exact ⟨this _ _, this _ _, this _ _, this _ _⟩

/-- The nodes of an edge of the nonconforming element. -/
theorem aw_nc_edge {u : Fin 2 × Fin 2 → MvPolynomial (Fin 2) ℝ} (hu : ∀ c, (u c).totalDegree ≤ 2) {a c : ℕ} (hac : a ≠ c)
    (hne : s.v c - s.v a ≠ 0) (n τ : Fin 2 → ℝ) :
    (edgeMom s [a, c] (fun r => 6 * r ^ 2 - 6 * r + 1) n n u = 0 ↔
      ∃ q : MvPolynomial (Fin 2) ℝ, q.totalDegree ≤ 1 ∧ ∀ x, OnEntity s [a, c] x → quadForm u x n n = eval x q) ∧
    ((edgeMom s [a, c] (fun _ => 1) n n u = 0 ∧ edgeMom s [a, c] (fun _ => 1) n τ u = 0 ∧ edgeMom s [a, c] (fun r => 2 * r - 1) n n u = 0 ∧
      edgeMom s [a, c] (fun r => 2 * r - 1) n τ u = 0 ∧ edgeMom s [a, c] (fun r => 6 * r ^ 2 - 6 * r + 1) n n u = 0) ↔
      (∀ x, OnEntity s [a, c] x → quadForm u x n n = 0) ∧ ∀ α β : ℝ, edgeMom s [a, c] (fun r => α + β * r) n τ u = 0) := by
  have hdeg : (biC n n u).totalDegree ≤ 3 := (biC_degree n n hu).trans (by norm_num)
  obtain ⟨h1, h2⟩ := mtw_edge_values hac hne (biC n n u) hdeg
  have h2 := h2 1 (-1) 2 one_ne_zero two_ne_zero
  simp only [eval_biC] at h1 h2
  have h3 : ∫ t in (0 : ℝ)..1, eval (fun _ => t) (legPoly 3) * quadForm u (s.v a + t • (s.v c - s.v a)) n n = 0 := by
    have hnd := natDegree_lineRestrict (s.v a) (s.v c - s.v a) (biC_degree n n hu)
    have hs' := (lineRestrict (s.v a) (s.v c - s.v a) (biC n n u)).as_sum_range_C_mul_X_pow' (n := 3) (by omega)
    have hq : ∀ t : ℝ, quadForm u (s.v a + t • (s.v c - s.v a)) n n = (lineRestrict (s.v a) (s.v c - s.v a) (biC n n u)).coeff 0 +
        (lineRestrict (s.v a) (s.v c - s.v a) (biC n n u)).coeff 1 * t + (lineRestrict (s.v a) (s.v c - s.v a) (biC n n u)).coeff 2 * t ^ 2 +
        0 * t ^ 3 := by
      intro t
      rw [← eval_biC, ← eval_lineRestrict]
      conv_lhs => rw [hs']
      simp only [Finset.sum_range_succ, Finset.sum_range_zero, Polynomial.eval_add, Polynomial.eval_mul, Polynomial.eval_C, Polynomial.eval_pow,
        Polynomial.eval_X, zero_add, pow_zero, mul_one, pow_one, zero_mul, add_zero]
    obtain ⟨-, -, -, h⟩ := cubic_moments _ _ _ _ _ hq 0 0 0
    rw [h]
    norm_num
  have e2 : ∫ t in (0 : ℝ)..1, eval (fun _ => t) (legPoly 2) * quadForm u (s.v a + t • (s.v c - s.v a)) n n =
      edgeMom s [a, c] (fun r => 6 * r ^ 2 - 6 * r + 1) n n u := by
    unfold edgeMom
    congr 1
    funext t
    simp [legPoly]
  have e1 : ∫ t in (0 : ℝ)..1, (-1 + 2 * t) * quadForm u (s.v a + t • (s.v c - s.v a)) n n = edgeMom s [a, c] (fun r => 2 * r - 1) n n u := by
    unfold edgeMom
    congr 1
    funext t
    rw [show -1 + 2 * t = 2 * t - 1 by ring]
    rfl
  have e0 : ∫ t in (0 : ℝ)..1, 1 * quadForm u (s.v a + t • (s.v c - s.v a)) n n = edgeMom s [a, c] (fun _ => 1) n n u := rfl
  simp only [h3, e0, e1, e2, and_true, true_and] at h1 h2
  refine ⟨h1, ?_⟩
  rw [← h2]
  have hsplit : ∀ α β : ℝ, edgeMom s [a, c] (fun r => α + β * r) n τ u =
      (α + β / 2) * edgeMom s [a, c] (fun _ => 1) n τ u + β / 2 * edgeMom s [a, c] (fun r => 2 * r - 1) n τ u := by
    intro α β
    have hcont : Continuous fun t : ℝ => quadForm u (s.v ([a, c].getD 0 0) + t • (s.v ([a, c].getD 1 0) - s.v ([a, c].getD 0 0))) n τ := by
      simp only [← eval_biC]
      exact (biC n τ u).continuous_eval.comp (by fun_prop)
    unfold edgeMom
    rw [← intervalIntegral.integral_const_mul, ← intervalIntegral.integral_const_mul, ← intervalIntegral.integral_add]
    · congr 1
      funext t
      ring
    · exact (continuous_const.mul (continuous_const.mul hcont)).intervalIntegrable _ _
    · exact (continuous_const.mul ((by fun_prop : Continuous fun r : ℝ => 2 * r - 1).mul hcont)).intervalIntegrable _ _
  constructor
  · rintro ⟨m0, m1, m2, m3, m4⟩
    exact ⟨⟨m4, m0, m2⟩, fun α β => by rw [hsplit, m1, m3]; ring⟩
  · rintro ⟨⟨m4, m0, m2⟩, h⟩
    have k1 := h 1 0
    have k2 := h (-1) 2
    rw [hsplit] at k1 k2
    have m1 : edgeMom s [a, c] (fun _ => 1) n τ u = 0 := by linarith
    exact ⟨m0, m1, m2, by rw [m1] at k2; linarith, m4⟩

variable {g : Fin 3 → Fin 2 → ℝ} {b : Fin 3 → ℝ}

/-- The edge hypothesis of `aw_zero`. -/
theorem aw_facet (hs : ProperSimplex ℝ s) (hb : BaryForms (fun i : Fin 3 => s.v i) g b) {nrm : ℕ → Option (Fin 2 → ℝ)} (hn : FacetNormals s nrm)
    (P : (Fin 2 → ℝ) → (Fin 2 → ℝ) → (Fin 2 → ℝ) → Prop)
    (hP : ∀ x (c : ℝ) n v, c ≠ 0 → P x (c • n) v → P x n v)
    (hz : ∀ e t n, HasEntity s.topo 1 e t → nrm e = some n → ∀ x, OnEntity s t x → ∀ v, P x n v) :
    ∀ (i : Fin 3) x v, eval x (linForm (g i) (b i)) = 0 → P x (g i) v := by
  intro i x v hx
  obtain ⟨e, t, h1, h2⟩ := facet_of_vertex (by norm_num) hs i
  obtain ⟨n, c, n1, n2, rfl⟩ := facet_normal (by norm_num) hn hb h1 h2
  exact hP x c _ v n2 (hz e t _ h1 n1 x ((onEntity_facet hb (hs.2.1.entity _ _ _ h1).1 h2 x).2 hx) v)

/-- The tangential hypothesis of `aw_nc_zero`. -/
theorem aw_nc_tangential (hs : ProperSimplex ℝ s) (hb : BaryForms (fun i : Fin 3 => s.v i) g b) {nrm : ℕ → Option (Fin 2 → ℝ)}
    (hn : FacetNormals s nrm) {u : Fin 2 × Fin 2 → MvPolynomial (Fin 2) ℝ}
    (hz : ∀ e t n τ, HasEntity s.topo 1 e t → nrm e = some n → edgeTangent s e = some τ →
      (∀ x, OnEntity s t x → quadForm u x n n = 0) ∧
        ∀ α β : ℝ, edgeMom s t (fun r => α + β * r) n ((1 / Real.sqrt (∑ j, τ j ^ 2)) • τ) u = 0) :
    ∀ i a c : Fin 3, a ≠ i → c ≠ i → a ≠ c → ∀ α β : ℝ,
      ∫ r in (0 : ℝ)..1, (α + β * r) * quadForm u (s.v a + r • (s.v c - s.v a)) (g i) (g c) = 0 := by
  intro i a c hia hic hac
  obtain ⟨e, t, h1, h2⟩ := facet_of_vertex (by norm_num) hs i
  obtain ⟨n, κ, n1, n2, hnk⟩ := facet_normal (by norm_num) hn hb h1 h2
  obtain ⟨n', n1', n3, n4⟩ := hn e t h1
  rw [n1, Option.some.injEq] at n1'
  subst n1'
  obtain ⟨a', c', rfl, hac', -, -, hτ, hne⟩ := edge_data hs h1
  obtain ⟨z1, z2⟩ := hz e _ n _ h1 n1 hτ
  obtain ⟨A, B, hAB⟩ := plane_basis n3 hne (n4 c' (by simp) a' (by simp)) (g c)
  have hsq : (1 / Real.sqrt (∑ j, (s.v c' - s.v a') j ^ 2)) ≠ 0 := by
    refine one_div_ne_zero (Real.sqrt_ne_zero'.2 ?_)
    rw [Fin.sum_univ_two]
    by_contra hcon
    apply hne
    funext j
    fin_cases j
    · show (s.v c' - s.v a') 0 = 0; nlinarith [sq_nonneg ((s.v c' - s.v a') 0), sq_nonneg ((s.v c' - s.v a') 1)]
    · show (s.v c' - s.v a') 1 = 0; nlinarith [sq_nonneg ((s.v c' - s.v a') 0), sq_nonneg ((s.v c' - s.v a') 1)]
  generalize hK : (1 / Real.sqrt (∑ j, (s.v c' - s.v a') j ^ 2)) = K at z2 hsq
  have hval : ∀ r : ℝ, quadForm u (s.v a' + r • (s.v c' - s.v a')) (g i) (g c) =
      B / (κ * K) * quadForm u (s.v a' + r • (s.v c' - s.v a')) n (K • (s.v c' - s.v a')) := by
    intro r
    have hnn := z1 _ ((onEntity_pair s hac' _).2 ⟨r, rfl⟩)
    rw [quadForm_smul', hAB, quadForm_add', quadForm_smul', quadForm_smul']
    conv at hnn => rw [hnk, quadForm_smul, ← hnk]
    have hnn := (mul_eq_zero.1 hnn).resolve_left n2
    rw [hnn]
    conv_rhs => rw [hnk, quadForm_smul]
    field_simp
    ring
  have main : ∀ α β : ℝ, ∫ r in (0 : ℝ)..1, (α + β * r) * quadForm u (s.v a' + r • (s.v c' - s.v a')) (g i) (g c) = 0 := by
    intro α β
    have h := z2 α β
    have e1 : ∀ r : ℝ, (α + β * r) * quadForm u (s.v a' + r • (s.v c' - s.v a')) (g i) (g c) =
        B / (κ * K) * ((α + β * r) * quadForm u (s.v a' + r • (s.v c' - s.v a')) n (K • (s.v c' - s.v a'))) := by
      intro r; rw [hval]; ring
    simp only [e1]
    rw [intervalIntegral.integral_const_mul]
    have h' : ∫ r in (0 : ℝ)..1, (α + β * r) * quadForm u (s.v a' + r • (s.v c' - s.v a')) n (K • (s.v c' - s.v a')) = 0 := h
    rw [h', mul_zero]
  have hma := (h2 a).2 ⟨a.2, fun h => hia (Fin.ext h)⟩
  have hmc := (h2 c).2 ⟨c.2, fun h => hic (Fin.ext h)⟩
  have hacn : (a : ℕ) ≠ c := fun h => hac (Fin.ext h)
  simp only [List.mem_cons, List.not_mem_nil, or_false] at hma hmc
  have hcase : ((a : ℕ) = a' ∧ (c : ℕ) = c') ∨ ((a : ℕ) = c' ∧ (c : ℕ) = a') := by omega
  rcases hcase with ⟨rfl, rfl⟩ | ⟨rfl, rfl⟩
  · exact main
  · intro α β
    have h := main (α + β) (-β)
    refine Eq.trans ?_ h
    have := intervalIntegral.integral_comp_sub_left (a := 0) (b := 1)
      (fun r : ℝ => (α + β * r) * quadForm u (s.v a + r • (s.v c - s.v a)) (g i) (g c)) 1
    rw [sub_self, sub_zero] at this
    rw [← this]
    congr 1
    funext r
    rw [show s.v a + (1 - r) • (s.v c - s.v a) = s.v c + r • (s.v a - s.v c) by
      funext j; simp only [Pi.add_apply, Pi.smul_apply, Pi.sub_apply, smul_eq_mul]; ring]
    ring

end
end FIAT
