/-
Unisolvence of the Mardal-Tai-Winther element (C60).
-/
import Verif.Lemmas.Cubic

namespace FIAT
open MvPolynomial MeasureTheory
section
variable {s : SimplexCell (Fin 2 → ℝ)} {g : Fin 3 → Fin 2 → ℝ} {b : Fin 3 → ℝ}

/-- A field that is parallel to an edge: its value is the coordinate along the edge. -/
theorem parallel_edge (hb : BaryForms (fun i : Fin 3 => s.v i) g b) {i a c : Fin 3} (hia : a ≠ i) (hic : c ≠ i) (hac : a ≠ c)
    (u : Fin 2 → ℝ) (hu : ∑ j, g i j * u j = 0) :
    (∀ j, u j = (∑ l, g c l * u l) * (s.v c j - s.v a j)) ∧ ∑ l, g a l * u l = -∑ l, g c l * u l := by
  have hsum : ∑ l, g 0 l * u l + ∑ l, g 1 l * u l + ∑ l, g 2 l * u l = 0 := by
    have h := hb.sum_grad
    have h0 := congrFun h 0
    have h1 := congrFun h 1
    rw [Finset.sum_apply, Fin.sum_univ_three, Pi.zero_apply] at h0 h1
    simp only [Fin.sum_univ_two]
    linear_combination u 0 * h0 + u 1 * h1
  have hvec : ∀ j, (∑ l, g 0 l * u l) * s.v 0 j + (∑ l, g 1 l * u l) * s.v 1 j + (∑ l, g 2 l * u l) * s.v 2 j = u j := by
    intro j
    have := congrFun (hb.vector u) j
    rw [Fin.sum_univ_three] at this
    exact this
  generalize hG : (fun i : Fin 3 => ∑ l, g i l * u l) = G at *
  have hG' : ∀ i, ∑ l, g i l * u l = G i := fun i => by rw [← hG]
  simp only [hG'] at hu hsum hvec ⊢
  have e0 : ((0 : Fin 3) : ℕ) = 0 := rfl
  have e1 : ((1 : Fin 3) : ℕ) = 1 := rfl
  have e2 : ((2 : Fin 3) : ℕ) = 2 := rfl
  have key : G a = -G c := by
    fin_cases i <;> fin_cases a <;> fin_cases c <;> simp at hia hic hac hu ⊢ <;> linarith
  refine ⟨fun j => ?_, key⟩
  rw [← hvec j]
  fin_cases i <;> fin_cases a <;> fin_cases c <;> simp at hia hic hac hu key ⊢ <;> rw [key, hu] <;> ring

/-- The integral over an edge of the coordinate along the edge. -/
theorem edge_integral (hs : ProperSimplex ℝ s) (hb : BaryForms (fun i : Fin 3 => s.v i) g b) {w : Fin 2 → MvPolynomial (Fin 2) ℝ}
    (hz : ∀ (i : Fin 3) x, eval x (linForm (g i) (b i)) = 0 → eval x (dotC (g i) w) = 0)
    (ht : ∀ e a c, HasEntity s.topo 1 e [a, c] →
      ∫ r in (0 : ℝ)..1, (∑ j, (s.v c j - s.v a j) * eval (s.v a + r • (s.v c - s.v a)) (w j)) = 0)
    {i a c : Fin 3} (hia : a ≠ i) (hic : c ≠ i) (hac : a ≠ c) :
    ∫ r in (0 : ℝ)..1, eval (s.v a + r • (s.v c - s.v a)) (dotC (g c) w) = 0 := by
  obtain ⟨e, t, h1, h2⟩ := facet_of_vertex (by norm_num) hs i
  obtain ⟨a', c', rfl, hac', -, -, -, hne⟩ := edge_data hs h1
  have hon : ∀ x, OnEntity s [a', c'] x → ∑ j, g i j * eval x (w j) = 0 := fun x hx => by
    have := hz i x ((onEntity_facet hb (hs.2.1.entity _ _ _ h1).1 h2 x).1 hx)
    rwa [eval_dotC] at this
  have hz' := ht e a' c' h1
  have hpos : (s.v c' 0 - s.v a' 0) ^ 2 + (s.v c' 1 - s.v a' 1) ^ 2 ≠ 0 := by
    intro h
    apply hne
    funext j
    fin_cases j
    · show s.v c' 0 - s.v a' 0 = 0; nlinarith [sq_nonneg (s.v c' 0 - s.v a' 0), sq_nonneg (s.v c' 1 - s.v a' 1)]
    · show s.v c' 1 - s.v a' 1 = 0; nlinarith [sq_nonneg (s.v c' 0 - s.v a' 0), sq_nonneg (s.v c' 1 - s.v a' 1)]
  have hma := (h2 a).2 ⟨a.2, fun h => hia (Fin.ext h)⟩
  have hmc := (h2 c).2 ⟨c.2, fun h => hic (Fin.ext h)⟩
  have hacn : (a : ℕ) ≠ c := fun h => hac (Fin.ext h)
  simp only [List.mem_cons, List.not_mem_nil, or_false] at hma hmc
  have hcase : ((a : ℕ) = a' ∧ (c : ℕ) = c') ∨ ((a : ℕ) = c' ∧ (c : ℕ) = a') := by omega
  rcases hcase with ⟨rfl, rfl⟩ | ⟨rfl, rfl⟩
  · have hcong : ∀ r : ℝ, ∑ j, (s.v c j - s.v a j) * eval (s.v a + r • (s.v c - s.v a)) (w j) =
        ((s.v c 0 - s.v a 0) ^ 2 + (s.v c 1 - s.v a 1) ^ 2) * eval (s.v a + r • (s.v c - s.v a)) (dotC (g c) w) := by
      intro r
      obtain ⟨p1, -⟩ := parallel_edge hb hia hic hac _ (hon _ ((onEntity_pair s hacn _).2 ⟨r, rfl⟩))
      rw [Fin.sum_univ_two, p1 0, p1 1, eval_dotC]
      ring
    simp only [hcong] at hz'
    rw [intervalIntegral.integral_const_mul] at hz'
    exact (mul_eq_zero.1 hz').resolve_left hpos
  · have hcong : ∀ r : ℝ, ∑ j, (s.v a j - s.v c j) * eval (s.v c + r • (s.v a - s.v c)) (w j) =
        -((s.v a 0 - s.v c 0) ^ 2 + (s.v a 1 - s.v c 1) ^ 2) * eval (s.v c + r • (s.v a - s.v c)) (dotC (g c) w) := by
      intro r
      obtain ⟨p1, -⟩ := parallel_edge hb hia hic hac _ (hon _ ((onEntity_pair s hacn.symm _).2 ⟨r, rfl⟩))
      rw [Fin.sum_univ_two, p1 0, p1 1, eval_dotC]
      ring
    simp only [hcong] at hz'
    rw [intervalIntegral.integral_const_mul] at hz'
    have h3 := (mul_eq_zero.1 hz').resolve_left (neg_ne_zero.2 hpos)
    have h4 := intervalIntegral.integral_comp_sub_left (a := 0) (b := 1) (fun r : ℝ => eval (s.v c + r • (s.v a - s.v c)) (dotC (g c) w)) 1
    rw [sub_zero, sub_self, h3] at h4
    rw [← h4]
    congr 1
    funext r
    congr 2
    funext j
    simp
    ring

/-- A field of degree three without normal components on the edges, with constant divergence and with zero tangential integrals. -/
theorem mtw_zero (hs : ProperSimplex ℝ s) {nrm : ℕ → Option (Fin 2 → ℝ)} (hn : FacetNormals s nrm) {w : Fin 2 → MvPolynomial (Fin 2) ℝ}
    (hw : FullDeg 3 w) (hz : NormalZero s nrm w) (hdiv : ∃ k : ℝ, ∀ x, eval x (divP w) = k)
    (ht : ∀ e a c, HasEntity s.topo 1 e [a, c] →
      ∫ r in (0 : ℝ)..1, (∑ j, (s.v c j - s.v a j) * eval (s.v a + r • (s.v c - s.v a)) (w j)) = 0) : w = 0 := by
  obtain ⟨g, b, hb⟩ := baryForms_exist _ (proper_independent hs)
  have hz' := normalZero_bary (by norm_num) hs hn hb hz
  have hI : ∀ {i a c : Fin 3}, a ≠ i → c ≠ i → a ≠ c → ∫ r in (0 : ℝ)..1, eval (s.v a + r • (s.v c - s.v a)) (dotC (g c) w) = 0 :=
    fun h1 h2 h3 => edge_integral hs hb hz' ht h1 h2 h3
  have hdeg : ∀ k, (triPull s (dotC (g k) w)).totalDegree ≤ 3 := fun k => (triPull_degree _ _).trans (dotC_degree _ hw)
  obtain ⟨A, hA⟩ := cubic_form _ (hdeg 1)
  obtain ⟨B, hB⟩ := cubic_form _ (hdeg 2)
  have vA := fun x y : ℝ => (eval_triPull s (dotC (g 1) w) ![x, y]).symm.trans ((congrArg (eval ![x, y]) hA).trans (cubic_eval A x y))
  have vB := fun x y : ℝ => (eval_triPull s (dotC (g 2) w) ![x, y]).symm.trans ((congrArg (eval ![x, y]) hB).trans (cubic_eval B x y))
  have vC : ∀ x, eval x (dotC (g 0) w) = -(eval x (dotC (g 1) w) + eval x (dotC (g 2) w)) := by
    intro x
    have h0 := congrFun hb.sum_grad 0
    have h1 := congrFun hb.sum_grad 1
    rw [Finset.sum_apply, Fin.sum_univ_three, Pi.zero_apply] at h0 h1
    simp only [eval_dotC, Fin.sum_univ_two]
    linear_combination eval x (w 0) * h0 + eval x (w 1) * h1
  -- the normal components
  have n1 : ∀ y : ℝ, eval (triPt s ![0, y]) (dotC (g 1) w) = 0 := fun y => hz' 1 _ (by rw [triPt_bary hb]; simp)
  have n2 : ∀ x : ℝ, eval (triPt s ![x, 0]) (dotC (g 2) w) = 0 := fun y => hz' 2 _ (by rw [triPt_bary hb]; simp)
  have n0 : ∀ x : ℝ, eval (triPt s ![x, 1 - x]) (dotC (g 0) w) = 0 := fun y => hz' 0 _ (by rw [triPt_bary hb]; simp)
  simp only [vC] at n0
  simp only [vA, vB] at n0 n1 n2
  -- the divergence
  obtain ⟨k, hk⟩ := hdiv
  have dv := fun x y : ℝ => congrArg (eval ![x, y]) (div_triPull hb w)
  simp only [eval_triPull, hk, map_add (eval _), hA, hB, cubic_dx, cubic_dy] at dv
  -- the tangential integrals
  have p01 : ∀ r : ℝ, s.v ((0 : Fin 3) : ℕ) + r • (s.v ((1 : Fin 3) : ℕ) - s.v ((0 : Fin 3) : ℕ)) = triPt s ![r, 0] := by
    intro r; rw [triPt_eq, Fin.sum_univ_three]; funext j; simp; try ring
  have p02 : ∀ r : ℝ, s.v ((0 : Fin 3) : ℕ) + r • (s.v ((2 : Fin 3) : ℕ) - s.v ((0 : Fin 3) : ℕ)) = triPt s ![0, r] := by
    intro r; rw [triPt_eq, Fin.sum_univ_three]; funext j; simp; try ring
  have p12 : ∀ r : ℝ, s.v ((1 : Fin 3) : ℕ) + r • (s.v ((2 : Fin 3) : ℕ) - s.v ((1 : Fin 3) : ℕ)) = triPt s ![1 - r, r] := by
    intro r; rw [triPt_eq, Fin.sum_univ_three]; funext j; simp; try ring
  have i01 := hI (i := 2) (a := 0) (c := 1) (by decide) (by decide) (by decide)
  have i02 := hI (i := 1) (a := 0) (c := 2) (by decide) (by decide) (by decide)
  have i12 := hI (i := 0) (a := 1) (c := 2) (by decide) (by decide) (by decide)
  simp only [p01, vA] at i01
  simp only [p02, vB] at i02
  simp only [p12, vB] at i12
  rw [integral_poly6 (A 0 0) (A 1 0) (A 2 0) (A 3 0) 0 0 0 _ (fun t => by ring)] at i01
  rw [integral_poly6 (B 0 0) (B 0 1) (B 0 2) (B 0 3) 0 0 0 _ (fun t => by ring)] at i02
  rw [integral_poly6 (B 0 0 + B 1 0 + B 2 0 + B 3 0) (B 0 1 - B 1 0 - 2 * B 2 0 + B 1 1 - 3 * B 3 0 + B 2 1)
    (B 2 0 - B 1 1 + B 0 2 + 3 * B 3 0 - 2 * B 2 1 + B 1 2) (-B 3 0 + B 2 1 - B 1 2 + B 0 3) 0 0 0 _ (fun t => by ring)] at i12
  have e1 := n1 0; have e2 := n1 1; have e3 := n1 (-1); have e4 := n1 2
  norm_num at e1 e2 e3 e4
  have A02 : A 0 2 = 0 := by linarith
  have A03 : A 0 3 = 0 := by linarith
  have A01 : A 0 1 = 0 := by linarith
  have f1 := n2 0; have f2 := n2 1; have f3 := n2 (-1); have f4 := n2 2
  norm_num at f1 f2 f3 f4
  have B20 : B 2 0 = 0 := by linarith
  have B30 : B 3 0 = 0 := by linarith
  have B10 : B 1 0 = 0 := by linarith
  have g1 := n0 0; have g2 := n0 1; have g3 := n0 (-1); have g4 := n0 2
  have d1 := dv 0 0; have d2 := dv 1 0; have d3 := dv (-1) 0; have d4 := dv 0 1; have d5 := dv 0 (-1); have d6 := dv 1 1
  norm_num [e1, A01, A02, A03, f1, B10, B20, B30] at g1 g2 g3 g4 d1 d2 d3 d4 d5 d6 i01 i02 i12
  have hA0 : ∀ i j, i + j ≤ 3 → A i j = 0 := by
    have a1 : A 1 0 = 0 := by linarith
    have a2 : A 2 0 = 0 := by linarith
    have a3 : A 3 0 = 0 := by linarith
    have a4 : A 1 1 = 0 := by linarith
    have a5 : A 2 1 = 0 := by linarith
    have a6 : A 1 2 = 0 := by linarith
    intro i j hij
    rcases i with _ | _ | _ | _ | i <;> rcases j with _ | _ | _ | _ | j <;> first | assumption | omega
  have hB0 : ∀ i j, i + j ≤ 3 → B i j = 0 := by
    have a1 : B 0 1 = 0 := by linarith
    have a2 : B 0 2 = 0 := by linarith
    have a3 : B 0 3 = 0 := by linarith
    have a4 : B 1 1 = 0 := by linarith
    have a5 : B 2 1 = 0 := by linarith
    have a6 : B 1 2 = 0 := by linarith
    intro i j hij
    rcases i with _ | _ | _ | _ | i <;> rcases j with _ | _ | _ | _ | j <;> first | assumption | omega
  have z1 : dotC (g 1) w = 0 := by
    apply MvPolynomial.funext
    intro x
    obtain ⟨x, y, rfl⟩ := triPt_surj hb x
    rw [vA, map_zero]
    simp [hA0]
  have z2 : dotC (g 2) w = 0 := by
    apply MvPolynomial.funext
    intro x
    obtain ⟨x, y, rfl⟩ := triPt_surj hb x
    rw [vB, map_zero]
    simp [hB0]
  apply hb.all_zero
  intro i
  fin_cases i
  · apply MvPolynomial.funext
    intro x
    show eval x (dotC (g 0) w) = eval x 0
    rw [vC, z1, z2]
    simp
  · exact z1
  · exact z2

end
end FIAT
