/-
C76: H(div) and H(curl) conformity on meshes of quadrilaterals.
-/
import Verif.Props.RtcElement
import Verif.Props.QExample

namespace FIAT
open MvPolynomial

/-! ### Specification -/

/-- The Jacobian of the map `F` at `x`. -/
noncomputable def jacAt (F : Fin 2 → MvPolynomial (Fin 2) ℝ) (x : Fin 2 → ℝ) : Matrix (Fin 2) (Fin 2) ℝ :=
  Matrix.of fun i j => eval x (pderiv j (F i))

/-- The contravariant Piola map: `J v / det J`. -/
noncomputable def piolaDiv (F : Fin 2 → MvPolynomial (Fin 2) ℝ) (x v : Fin 2 → ℝ) : Fin 2 → ℝ := (jacAt F x).det⁻¹ • (jacAt F x).mulVec v

/-- The covariant Piola map: `J⁻ᵀ v`. -/
noncomputable def piolaCurl (F : Fin 2 → MvPolynomial (Fin 2) ℝ) (x v : Fin 2 → ℝ) : Fin 2 → ℝ := ((jacAt F x)⁻¹).transpose.mulVec v

/-- The point at parameter `s` on the segment between vertices `a` and `b` of the reference cell. -/
def segPoint (c : CellData ℝ) (a b : ℕ) (s : ℝ) : Fin 2 → ℝ := fun i => c.coord a i + s * (c.coord b i - c.coord a i)

/-- Specification: two cells of a mesh, with multilinear maps `F` and `F'` that are regular on the edge, share an edge whose end points
they list in the same order.  The points at parameter `s` of the two reference edges have the same image, and fields of the element with
coefficients `u` and `u'`, mapped to the mesh by `P`, have the same `B`-trace along the edge exactly if the coefficients of the dofs on
the edge are equal, in the order of `entity_dofs`. -/
def EdgeConforming (c : CellData ℝ) (ids : EntityIds Key) (N : ℕ) (w : ℕ → Fin 2 → MvPolynomial (Fin 2) ℝ)
    (P : (Fin 2 → MvPolynomial (Fin 2) ℝ) → (Fin 2 → ℝ) → (Fin 2 → ℝ) → Fin 2 → ℝ) (B : (Fin 2 → ℝ) → (Fin 2 → ℝ) → ℝ) : Prop :=
  ∀ (V : ℕ → Fin 2 → ℝ) (F F' : Fin 2 → MvPolynomial (Fin 2) ℝ) (g g' : ℕ → ℕ), CubeInMesh c V F g → CubeInMesh c V F' g' →
    ∀ (e e' a b a' b' : ℕ) (l l' : List ℕ), HasEntity c.topo (.int 1) e [a, b] → HasEntity c.topo (.int 1) e' [a', b'] →
      g a = g' a' → g b = g' b' → ids.at? (.int 1) e = some l → ids.at? (.int 1) e' = some l' →
      (∀ s, 0 ≤ s → s ≤ 1 → (jacAt F (segPoint c a b s)).det ≠ 0 ∧ (jacAt F' (segPoint c a' b' s)).det ≠ 0) →
      (∀ s i, eval (segPoint c a b s) (F i) = eval (segPoint c a' b' s) (F' i)) ∧
      ∀ u u' : ℕ → ℝ, l.map u = l'.map u' ↔ ∀ s, 0 ≤ s → s ≤ 1 →
        B (fun i => V (g b) i - V (g a) i) (P F (segPoint c a b s) (fieldAt N w u (segPoint c a b s))) =
          B (fun i => V (g b) i - V (g a) i) (P F' (segPoint c a' b' s) (fieldAt N w u' (segPoint c a' b' s)))

/-! ### Bilinear functions -/

theorem spans_pow : SpansDeg 2 (fun r => (X 0 : MvPolynomial (Fin 1) ℝ) ^ r) (fun _ => 1) := by
  intro p
  constructor
  · intro h
    refine ⟨fun r => coeff (Finsupp.single 0 r) p, ?_⟩
    ext s
    obtain ⟨n, rfl⟩ : ∃ n, s = Finsupp.single 0 n := ⟨s 0, Finsupp.ext fun i => by obtain rfl : i = 0 := Subsingleton.elim _ _; simp⟩
    rw [coeff_sum]
    simp only [coeff_C_mul, X_pow_eq_monomial, coeff_monomial, Finsupp.single_left_inj (one_ne_zero' ℕ), Finsupp.single_injective (0 : Fin 1) |>.eq_iff]
    by_cases hn : n < 2
    · rw [Finset.sum_eq_single n] <;> simp_all
    · rw [Finset.sum_eq_zero]
      · by_contra hne
        have := (degreeOf_le_iff.1 (h 0)) _ (mem_support_iff.2 hne)
        simp at this
        omega
      · intro r hr
        rw [if_neg (by have := Finset.mem_range.1 hr; omega), mul_zero]
  · rintro ⟨u, rfl⟩
    refine sum_degreeOf (a := fun _ => 1) (fun j hj i => ?_) u
    exact (degreeOf_pow_le _ _ _).trans (by
      have := hj
      rw [degreeOf_X]
      split_ifs <;> omega)

theorem bilinear_form {p : MvPolynomial (Fin 2) ℝ} (h : ∀ j, degreeOf j p ≤ 1) :
    ∃ a b c d : ℝ, p = C a + C b * X 1 + (C c * X 0 + C d * (X 0 * X 1)) := by
  have hs := spansDeg_prod spans_pow spans_pow
  obtain ⟨u, hu⟩ := (hs p).1 (fun i => by rw [append_const]; exact h i)
  refine ⟨u 0, u 1, u 2, u 3, ?_⟩
  rw [hu]
  have e0 : (Fin.castAdd 1 (0 : Fin 1) : Fin (1 + 1)) = (0 : Fin 2) := rfl
  have e1 : (Fin.natAdd 1 (0 : Fin 1) : Fin (1 + 1)) = (1 : Fin 2) := rfl
  norm_num [Finset.sum_range_succ, prodBasis, prodPoly, e0, e1]
  ring

/-- Along an edge of the quadrilateral a bilinear function is linear. -/
theorem edge_linear {p : MvPolynomial (Fin 2) ℝ} (h : ∀ j, degreeOf j p ≤ 1) {e a b : ℕ}
    (ht : HasEntity (ufcQuadrilateral : CellData ℝ).topo (.int 1) e [a, b]) (s : ℝ) :
    eval (segPoint ufcQuadrilateral a b s) p = eval (fun i : Fin 2 => (ufcQuadrilateral : CellData ℝ).coord a i) p +
        s * (eval (fun i : Fin 2 => (ufcQuadrilateral : CellData ℝ).coord b i) p - eval (fun i : Fin 2 => (ufcQuadrilateral : CellData ℝ).coord a i) p) ∧
      ∑ j : Fin 2, eval (segPoint ufcQuadrilateral a b s) (pderiv j p) * ((ufcQuadrilateral : CellData ℝ).coord b j - (ufcQuadrilateral : CellData ℝ).coord a j) =
        eval (fun i : Fin 2 => (ufcQuadrilateral : CellData ℝ).coord b i) p - eval (fun i : Fin 2 => (ufcQuadrilateral : CellData ℝ).coord a i) p := by
  obtain ⟨α, β, γ, δ, rfl⟩ := bilinear_form h
  have hc : ∀ a < 4, (fun i : Fin 2 => (ufcQuadrilateral : CellData ℝ).coord a i) = ![((a / 2 : ℕ) : ℝ), ((a % 2 : ℕ) : ℝ)] := by
    intro a ha
    funext i
    rw [quad_coord ha]
    fin_cases i <;> rfl
  have hseg : ∀ a < 4, ∀ b < 4, segPoint ufcQuadrilateral a b s = ![((a / 2 : ℕ) : ℝ) + s * (((b / 2 : ℕ) : ℝ) - ((a / 2 : ℕ) : ℝ)),
      ((a % 2 : ℕ) : ℝ) + s * (((b % 2 : ℕ) : ℝ) - ((a % 2 : ℕ) : ℝ))] := by
    intro a ha b hb
    funext i
    unfold segPoint
    rw [quad_coord ha, quad_coord hb]
    fin_cases i <;> simp
  have hd : ∀ a < 4, ∀ j : Fin 2, (ufcQuadrilateral : CellData ℝ).coord a j = ![((a / 2 : ℕ) : ℝ), ((a % 2 : ℕ) : ℝ)] j := fun a ha j =>
    congrFun (hc a ha) j
  rcases quad_edges ht with ⟨he, hab⟩ | ⟨e', he, rfl, hab⟩
  · simp only [List.cons.injEq, and_true] at hab
    obtain ⟨rfl, rfl⟩ := hab
    rw [hc _ (by omega), hc _ (by omega), hseg _ (by omega) _ (by omega), Fin.sum_univ_two, hd _ (by omega), hd _ (by omega), hd _ (by omega), hd _ (by omega)]
    interval_cases e <;> constructor <;> norm_num [pderiv_X, Pi.single_apply] <;> ring
  · simp only [List.cons.injEq, and_true] at hab
    obtain ⟨rfl, rfl⟩ := hab
    rw [hc _ (by omega), hc _ (by omega), hseg _ (by omega) _ (by omega), Fin.sum_univ_two, hd _ (by omega), hd _ (by omega), hd _ (by omega), hd _ (by omega)]
    interval_cases a <;> constructor <;> norm_num [pderiv_X, Pi.single_apply] <;> ring

/-! ### Piola maps -/

theorem cross2_piola (J : Matrix (Fin 2) (Fin 2) ℝ) (hJ : J.det ≠ 0) (t v : Fin 2 → ℝ) : cross2 (J.mulVec t) (J.det⁻¹ • J.mulVec v) = cross2 t v := by
  have h : cross2 (J.mulVec t) (J.det⁻¹ • J.mulVec v) = J.det⁻¹ * (J.det * cross2 t v) := by
    rw [Matrix.det_fin_two]
    simp [cross2, Matrix.mulVec, dotProduct, Fin.sum_univ_two]
    ring
  rw [h, inv_mul_cancel_left₀ hJ]

theorem dot2_piola (J : Matrix (Fin 2) (Fin 2) ℝ) (hJ : J.det ≠ 0) (t v : Fin 2 → ℝ) : dot2 (J.mulVec t) ((J⁻¹).transpose.mulVec v) = dot2 t v := by
  have hd : ∀ x y : Fin 2 → ℝ, dot2 x y = dotProduct x y := fun x y => by simp [dot2, dotProduct, Fin.sum_univ_two]
  rw [hd, hd, Matrix.mulVec_transpose, dotProduct_comm, ← Matrix.dotProduct_mulVec, Matrix.mulVec_mulVec,
    Matrix.nonsing_inv_mul _ (isUnit_iff_ne_zero.2 hJ), Matrix.one_mulVec, dotProduct_comm]

/-! ### Conformity -/

theorem poly_zero_unit {p : MvPolynomial (Fin 1) ℝ} (h : ∀ s : ℝ, 0 ≤ s → s ≤ 1 → eval (fun _ => s) p = 0) : p = 0 := by
  refine MvPolynomial.funext_set (fun _ => Set.Icc (0 : ℝ) 1) (fun _ => Set.Icc_infinite one_pos) fun x hx => ?_
  have hx0 := hx 0 (Set.mem_univ _)
  have : x = fun _ => x 0 := by funext i; rw [Subsingleton.elim i 0]
  rw [this, h (x 0) hx0.1 hx0.2, map_zero]

theorem edge_conforming {ids : EntityIds Key} {N n : ℕ} {w : ℕ → Fin 2 → MvPolynomial (Fin 2) ℝ} {ψ : ℕ → MvPolynomial (Fin 1) ℝ}
    {P : (Fin 2 → MvPolynomial (Fin 2) ℝ) → (Fin 2 → ℝ) → (Fin 2 → ℝ) → Fin 2 → ℝ} {B : (Fin 2 → ℝ) → (Fin 2 → ℝ) → ℝ}
    (hE : IsEdgeElement ufcQuadrilateral ids N n B w ψ)
    (hP : ∀ F x t v, (jacAt F x).det ≠ 0 → B ((jacAt F x).mulVec t) (P F x v) = B t v)
    (hψ : ∀ u : ℕ → ℝ, ∑ r ∈ Finset.range n, C (u r) * ψ r = 0 → ∀ r < n, u r = 0) :
    EdgeConforming ufcQuadrilateral ids N w P B := by
  intro V F F' g g' hF hF' e e' a b a' b' l l' ht ht' ha hb hl hl' hdet
  have hlt := good_quadrilateral.vertex_lt (α := ℝ)
  have va : a < _ := hlt _ _ _ ht a (by simp)
  have vb : b < _ := hlt _ _ _ ht b (by simp)
  have va' : a' < _ := hlt _ _ _ ht' a' (by simp)
  have vb' : b' < _ := hlt _ _ _ ht' b' (by simp)
  refine ⟨fun s i => ?_, fun u u' => ?_⟩
  · rw [(edge_linear (hF.multilinear i) ht s).1, (edge_linear (hF'.multilinear i) ht' s).1, hF.vertices a va, hF.vertices b vb,
      hF'.vertices a' va', hF'.vertices b' vb', ha, hb]
  · have hT : ∀ s, (fun i => V (g b) i - V (g a) i) = (jacAt F (segPoint ufcQuadrilateral a b s)).mulVec
        fun i => (ufcQuadrilateral : CellData ℝ).coord b i - (ufcQuadrilateral : CellData ℝ).coord a i := by
      intro s
      funext i
      have := (edge_linear (hF.multilinear i) ht s).2
      rw [hF.vertices a va, hF.vertices b vb] at this
      exact this.symm
    have hT' : ∀ s, (fun i => V (g b) i - V (g a) i) = (jacAt F' (segPoint ufcQuadrilateral a' b' s)).mulVec
        fun i => (ufcQuadrilateral : CellData ℝ).coord b' i - (ufcQuadrilateral : CellData ℝ).coord a' i := by
      intro s
      funext i
      have := (edge_linear (hF'.multilinear i) ht' s).2
      rw [hF'.vertices a' va', hF'.vertices b' vb'] at this
      rw [ha, hb]
      exact this.symm
    obtain ⟨n1, q1⟩ := hE.edge e a b l ht hl
    obtain ⟨n2, q2⟩ := hE.edge e' a' b' l' ht' hl'
    have step : ∀ s, 0 ≤ s → s ≤ 1 →
        (B (fun i => V (g b) i - V (g a) i) (P F (segPoint ufcQuadrilateral a b s) (fieldAt N w u (segPoint ufcQuadrilateral a b s))) =
          ∑ j : Fin l.length, u l[j] * eval (fun _ => s) (ψ j)) ∧
        B (fun i => V (g b) i - V (g a) i) (P F' (segPoint ufcQuadrilateral a' b' s) (fieldAt N w u' (segPoint ufcQuadrilateral a' b' s))) =
          ∑ j : Fin l'.length, u' l'[j] * eval (fun _ => s) (ψ j) := by
      intro s h0 h1
      obtain ⟨d1, d2⟩ := hdet s h0 h1
      constructor
      · rw [hT s, hP _ _ _ _ d1]; exact q1 u s
      · rw [hT' s, hP _ _ _ _ d2]; exact q2 u' s
    have conv : ∀ (L : List ℕ) (U : ℕ → ℝ) (s : ℝ), L.length = n → ∑ j : Fin L.length, U L[j] * eval (fun _ => s) (ψ j) =
        ∑ j ∈ Finset.range n, ((L.map U)[j]?).getD 0 * eval (fun _ => s) (ψ j) := by
      rintro L U s rfl
      rw [Finset.sum_range fun j => ((L.map U)[j]?).getD 0 * eval (fun _ => s) (ψ j)]
      refine Finset.sum_congr rfl fun j _ => ?_
      simp
    constructor
    · intro h s h0 h1
      rw [(step s h0 h1).1, (step s h0 h1).2, conv l u s n1, conv l' u' s n2, h]
    · intro h
      have key : ∑ j ∈ Finset.range n, C (((l.map u)[j]?).getD 0 - ((l'.map u')[j]?).getD 0) * ψ j = 0 := by
        refine poly_zero_unit fun s h0 h1 => ?_
        have := h s h0 h1
        rw [(step s h0 h1).1, (step s h0 h1).2, conv l u s n1, conv l' u' s n2] at this
        rw [map_sum]
        simp only [map_mul, eval_C, sub_mul, Finset.sum_sub_distrib]
        rw [this, sub_self]
      have hz := hψ _ key
      refine List.ext_getElem (by simp [n1, n2]) fun j h1 h2 => ?_
      have := hz j (by simpa [n1] using h1)
      rw [List.getElem?_eq_getElem h1, List.getElem?_eq_getElem h2] at this
      simpa [sub_eq_zero] using this

end FIAT
