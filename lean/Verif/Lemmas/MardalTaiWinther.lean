/-
The nodes of the Mardal-Tai-Winther element (C60).
-/
import Verif.Lemmas.EdgeMoments

namespace FIAT
open MvPolynomial MeasureTheory
section

/-- A cubic on an edge is determined by the moments against a constant, a polynomial of degree one and two Legendre polynomials. -/
theorem cubic_moments (c0 c1 c2 c3 : ℝ) (f : ℝ → ℝ) (hf : ∀ t, f t = c0 + c1 * t + c2 * t ^ 2 + c3 * t ^ 3) (k0 α β : ℝ) :
    (∫ t in (0 : ℝ)..1, k0 * f t = k0 * (c0 + c1 / 2 + c2 / 3 + c3 / 4)) ∧
    (∫ t in (0 : ℝ)..1, (α + β * t) * f t = α * (c0 + c1 / 2 + c2 / 3 + c3 / 4) + β * (c0 / 2 + c1 / 3 + c2 / 4 + c3 / 5)) ∧
    (∫ t in (0 : ℝ)..1, eval (fun _ => t) (legPoly 2) * f t = c2 / 30 + c3 / 20) ∧
    ∫ t in (0 : ℝ)..1, eval (fun _ => t) (legPoly 3) * f t = c3 / 140 := by
  refine ⟨?_, ?_, ?_, ?_⟩
  · rw [integral_poly6 (k0 * c0) (k0 * c1) (k0 * c2) (k0 * c3) 0 0 0 _ (fun t => by rw [hf]; ring)]; ring
  · rw [integral_poly6 (α * c0) (α * c1 + β * c0) (α * c2 + β * c1) (α * c3 + β * c2) (β * c3) 0 0 _ (fun t => by rw [hf]; ring)]; ring
  · rw [integral_poly6 c0 (c1 - 6 * c0) (c2 - 6 * c1 + 6 * c0) (c3 - 6 * c2 + 6 * c1) (-6 * c3 + 6 * c2) (6 * c3) 0 _
      (fun t => by rw [hf]; simp [legPoly]; ring)]
    ring
  · rw [integral_poly6 (-c0) (12 * c0 - c1) (-30 * c0 + 12 * c1 - c2) (20 * c0 - 30 * c1 + 12 * c2 - c3) (20 * c1 - 30 * c2 + 12 * c3)
      (20 * c2 - 30 * c3) (20 * c3) _ (fun t => by rw [hf]; simp [legPoly]; ring)]
    ring

/-- Specification: `w · n` is a polynomial of degree one on the line of the edge. -/
def NormalLinear (s : SimplexCell (Fin 2 → ℝ)) (t : List ℕ) (n : Fin 2 → ℝ) (w : Fin 2 → MvPolynomial (Fin 2) ℝ) : Prop :=
  ∃ p : MvPolynomial (Fin 2) ℝ, p.totalDegree ≤ 1 ∧ ∀ x, OnEntity s t x → ∑ j, n j * eval x (w j) = eval x p

/-- The edge nodes. -/
theorem mtw_edge_values {s : SimplexCell (Fin 2 → ℝ)} {a c : ℕ} (hac : a ≠ c) (hne : s.v c - s.v a ≠ 0) (p : MvPolynomial (Fin 2) ℝ)
    (hp : p.totalDegree ≤ 3) :
    (((∫ t in (0 : ℝ)..1, eval (fun _ => t) (legPoly 2) * eval (s.v a + t • (s.v c - s.v a)) p = 0) ∧
      (∫ t in (0 : ℝ)..1, eval (fun _ => t) (legPoly 3) * eval (s.v a + t • (s.v c - s.v a)) p = 0)) ↔
      ∃ q : MvPolynomial (Fin 2) ℝ, q.totalDegree ≤ 1 ∧ ∀ x, OnEntity s [a, c] x → eval x p = eval x q) ∧
    ∀ k0 α β : ℝ, k0 ≠ 0 → β ≠ 0 →
      (((∫ t in (0 : ℝ)..1, eval (fun _ => t) (legPoly 2) * eval (s.v a + t • (s.v c - s.v a)) p = 0) ∧
        (∫ t in (0 : ℝ)..1, eval (fun _ => t) (legPoly 3) * eval (s.v a + t • (s.v c - s.v a)) p = 0) ∧
        (∫ t in (0 : ℝ)..1, k0 * eval (s.v a + t • (s.v c - s.v a)) p = 0) ∧
        ∫ t in (0 : ℝ)..1, (α + β * t) * eval (s.v a + t • (s.v c - s.v a)) p = 0) ↔
        ∀ x, OnEntity s [a, c] x → eval x p = 0) := by
  obtain ⟨c0, c1, c2, c3, hc⟩ := cubic_line (s.v a) (s.v c - s.v a) p hp
  obtain ⟨-, -, m3, m4⟩ := cubic_moments c0 c1 c2 c3 _ hc 0 0 0
  refine ⟨?_, fun k0 α β hk hβ => ?_⟩
  · rw [m3, m4]
    constructor
    · rintro ⟨h2, h3⟩
      have e3 : c3 = 0 := by linarith
      have e2 : c2 = 0 := by rw [e3] at h2; linarith
      set u := s.v c - s.v a with hu
      have hpos : 0 < ∑ j, u j * u j := by
        rw [Fin.sum_univ_two]
        rcases (by
          by_contra hcon
          push Not at hcon
          exact hne (by funext j; fin_cases j; exacts [hcon.1, hcon.2]) : u 0 ≠ 0 ∨ u 1 ≠ 0) with h | h
        · nlinarith [mul_self_pos.2 h, mul_self_nonneg (u 1)]
        · nlinarith [mul_self_pos.2 h, mul_self_nonneg (u 0)]
      refine ⟨linForm (fun j => c1 / (∑ j, u j * u j) * u j) (c0 - c1 / (∑ j, u j * u j) * ∑ j, u j * s.v a j), ?_, ?_⟩
      · exact linForm_degree _ _
      · intro x hx
        obtain ⟨t, rfl⟩ := (onEntity_pair s hac x).1 hx
        rw [← hu, hc, e2, e3, eval_linForm]
        rw [Fin.sum_univ_two] at hpos
        have hne0 : u 0 ^ 2 + u 1 ^ 2 ≠ 0 := by nlinarith [hpos]
        simp only [Fin.sum_univ_two, Pi.add_apply, Pi.smul_apply, smul_eq_mul]
        field_simp
        ring
    · rintro ⟨q, q1, q2⟩
      obtain ⟨g, b, hg⟩ := affine_of_degree q q1
      have key : ∀ t : ℝ, c0 + c1 * t + c2 * t ^ 2 + c3 * t ^ 3 =
          b + ∑ j, g j * s.v a j + t * ∑ j, g j * (s.v c - s.v a) j := by
        intro t
        rw [← hc, q2 _ ((onEntity_pair s hac _).2 ⟨t, rfl⟩), hg]
        simp only [Fin.sum_univ_two, Pi.add_apply, Pi.smul_apply, smul_eq_mul]
        ring
      have k0 := key 0
      have k1 := key 1
      have k2 := key (-1)
      have k3 := key 2
      constructor <;> linarith
  · obtain ⟨m1, m2, -, -⟩ := cubic_moments c0 c1 c2 c3 _ hc k0 α β
    rw [m1, m2, m3, m4]
    constructor
    · rintro ⟨h2, h3, h0, h1⟩ x hx
      have e3 : c3 = 0 := by linarith
      have e2 : c2 = 0 := by rw [e3] at h2; linarith
      have e0 := (mul_eq_zero.1 h0).resolve_left hk
      rw [e0, mul_zero, zero_add] at h1
      have e1 := (mul_eq_zero.1 h1).resolve_left hβ
      rw [e2, e3] at e0 e1
      have f1 : c1 = 0 := by linarith
      have f0 : c0 = 0 := by linarith
      obtain ⟨t, rfl⟩ := (onEntity_pair s hac x).1 hx
      rw [hc, e2, e3, f1, f0]; ring
    · intro hz
      have key : ∀ t : ℝ, c0 + c1 * t + c2 * t ^ 2 + c3 * t ^ 3 = 0 := by
        intro t
        rw [← hc, hz _ ((onEntity_pair s hac _).2 ⟨t, rfl⟩)]
      have k0 := key 0
      have k1 := key 1
      have k2 := key (-1)
      have k3 := key 2
      have f0 : c0 = 0 := by linarith
      have f2 : c2 = 0 := by linarith
      have f3 : c3 = 0 := by linarith
      have f1 : c1 = 0 := by linarith
      rw [f0, f1, f2, f3]
      norm_num

/-- The five nodes of an edge: `mtwEdge` and two Legendre moments. -/
theorem mtw_edge_spec {leg : ℕ → List ℝ × List ℝ} (hleg : IsLeggauss 7 (leg 7).1 (leg 7).2)
    {s : SimplexCell (Fin 2 → ℝ)} (hs : ProperSimplex ℝ s) {nrm : ℕ → Option (Fin 2 → ℝ)} (hn : FacetNormals s nrm)
    {Q : QRule ℝ (Fin 1 → ℝ)} (hQ : LineExact Q 11) (hl : Q.wts.length = Q.pts.length) (hnd : Q.pts.Nodup) {phi0 phi1 : ℕ → ℝ}
    {k0 α β : ℝ} (hk : k0 ≠ 0) (hβ : β ≠ 0) (h0 : ∀ (j : ℕ) x, Q.pts[j]? = some x → phi0 j = eval x (C k0))
    (h1 : ∀ (j : ℕ) x, Q.pts[j]? = some x → phi1 j = eval x (C α + C β * X 0))
    {e : ℕ} {t : List ℕ} (h : HasEntity s.topo 1 e t) :
    ∃ l0 l1 l2 l3 l4, mtwEdge s nrm Q phi0 phi1 e = some [l0, l1, l2] ∧ legendreNormalMoment leg s nrm e 2 6 = some l3 ∧
      legendreNormalMoment leg s nrm e 3 6 = some l4 ∧ PlainNode l0 ∧ PlainNode l1 ∧ PlainNode l2 ∧ PlainNode l3 ∧ PlainNode l4 ∧
      ∀ n τ, nrm e = some n → edgeTangent s e = some τ → ∀ w, FullDeg 3 w →
        ((l3.onField (fieldOf w) = 0 ∧ l4.onField (fieldOf w) = 0) ↔ NormalLinear s t n w) ∧
        ((l0.onField (fieldOf w) = 0 ∧ l1.onField (fieldOf w) = 0 ∧ l2.onField (fieldOf w) = 0 ∧ l3.onField (fieldOf w) = 0 ∧
          l4.onField (fieldOf w) = 0) ↔ (∀ x, OnEntity s t x → ∑ j, n j * eval x (w j) = 0) ∧
          ∃ a c, t = [a, c] ∧ ∫ r in (0 : ℝ)..1, (∑ j, τ j * eval (s.v a + r • (s.v c - s.v a)) (w j)) = 0) := by
  obtain ⟨a, c, rfl, hac, ha, hc, t1, t2⟩ := edge_data hs h
  obtain ⟨n, n1, n2, n3⟩ := hn e _ h
  obtain ⟨pts, p1, p2, p3⟩ := edge_quad hs h Q hQ hl hnd
  obtain ⟨l3, a1, a2, a3⟩ := legendre_normal_spec hleg hs h n1 (m := 2) (by norm_num)
  obtain ⟨l4, b1, b2, b3⟩ := legendre_normal_spec hleg hs h n1 (m := 3) (by norm_num)
  have hval : ∀ (m : Fin 2 → ℝ) (phi : ℕ → ℝ) (L : MvPolynomial (Fin 1) ℝ), L.totalDegree ≤ 1 →
      (∀ (j : ℕ) x, Q.pts[j]? = some x → phi j = eval x L) → ∀ w, FullDeg 3 w →
      (integralMomentOfDirection 2 (vecNat m) (zipRule pts Q.wts phi)).onField (fieldOf w) =
        ∫ t in (0 : ℝ)..1, eval (fun _ => t) L * eval (s.v a + t • (s.v c - s.v a)) (dotC m w) := by
    intro m phi L hL hphi w hw
    rw [moment_direction_field _ _ _ (p2 _)]
    have := p3 phi L (dotC m w) hphi (by have := dotC_degree m hw; omega)
    rw [← this]
    congr 1
    funext x
    rw [eval_dotC]
  have hd0 : (C k0 : MvPolynomial (Fin 1) ℝ).totalDegree ≤ 1 := by rw [totalDegree_C]; norm_num
  have hd1 : (C α + C β * X 0 : MvPolynomial (Fin 1) ℝ).totalDegree ≤ 1 := by
    refine (totalDegree_add _ _).trans (max_le (by rw [totalDegree_C]; norm_num) ((totalDegree_mul _ _).trans ?_))
    rw [totalDegree_C, totalDegree_X]
  refine ⟨integralMomentOfDirection 2 (vecNat n) (zipRule pts Q.wts phi0),
    integralMomentOfDirection 2 (vecNat (s.v c - s.v a)) (zipRule pts Q.wts phi0),
    integralMomentOfDirection 2 (vecNat n) (zipRule pts Q.wts phi1), l3, l4, ?_, a1, b1, moment_direction_plain _ _ (p2 _),
    moment_direction_plain _ _ (p2 _), moment_direction_plain _ _ (p2 _), a2, b2, ?_⟩
  · unfold mtwEdge
    simp only [p1, n1, t1, Option.bind_eq_bind, Option.bind_some]
  · intro n' τ hn' hτ w hw
    rw [n1, Option.some.injEq] at hn'
    rw [t1, Option.some.injEq] at hτ
    subst hn' hτ
    obtain ⟨e1, e2⟩ := mtw_edge_values hac t2 (dotC n w) (dotC_degree n hw)
    rw [hval n phi0 _ hd0 h0 w hw, hval _ phi0 _ hd0 h0 w hw, hval n phi1 _ hd1 h1 w hw, a3 w hw, b3 w hw]
    constructor
    · rw [e1]
      unfold NormalLinear
      simp only [eval_dotC]
    · have e3 := e2 k0 α β hk hβ
      simp only [eval_C, map_add, map_mul, eval_X] at e3 ⊢
      have hz : (∫ t in (0 : ℝ)..1, k0 * eval (s.v a + t • (s.v c - s.v a)) (dotC (s.v c - s.v a) w) = 0) ↔
          ∃ a' c', [a, c] = [a', c'] ∧ ∫ r in (0 : ℝ)..1, (∑ j, (s.v c - s.v a) j * eval (s.v a' + r • (s.v c' - s.v a')) (w j)) = 0 := by
        rw [intervalIntegral.integral_const_mul, mul_eq_zero]
        simp only [hk, false_or, eval_dotC]
        constructor
        · intro h
          exact ⟨a, c, rfl, h⟩
        · rintro ⟨a', c', h, h'⟩
          simp only [List.cons.injEq, and_true] at h
          rw [h.1, h.2]
          rw [h.1, h.2] at h'
          exact h'
      simp only [eval_dotC] at e3 hz ⊢
      rw [← hz]
      constructor
      · rintro ⟨x0, x1, x2, x3, x4⟩
        exact ⟨e3.1 ⟨x3, x4, x0, x2⟩, x1⟩
      · rintro ⟨y0, y1⟩
        obtain ⟨x3, x4, x0, x2⟩ := e3.2 y0
        exact ⟨x0, y1, x2, x3, x4⟩

/-- The divergence of a polynomial vector field. -/
noncomputable def divP (w : Fin 2 → MvPolynomial (Fin 2) ℝ) : MvPolynomial (Fin 2) ℝ := ∑ j, pderiv j (w j)

theorem divP_degree {w : Fin 2 → MvPolynomial (Fin 2) ℝ} (hw : FullDeg 3 w) : (divP w).totalDegree ≤ 2 := by
  unfold divP
  refine totalDegree_finsetSum_le fun j _ => (totalDegree_pderiv_sub j (w j)).trans ?_
  have := hw j
  omega

theorem divergence_field (w : Fin 2 → MvPolynomial (Fin 2) ℝ) (Q : List ((Fin 2 → ℝ) × ℝ × ℝ)) (hQ : (Q.map fun q => q.1).Nodup) :
    (integralMomentOfDivergence 2 Q).WF 2 ∧ (integralMomentOfDivergence 2 Q).onField (fieldOf w) = quadSum Q fun x => eval x (divP w) := by
  refine ⟨⟨by simp [integralMomentOfDivergence, Dict.WF, Dict.keys], fill_wf _ _ _ hQ, ?_⟩, ?_⟩
  · unfold integralMomentOfDivergence
    simp only
    rw [fillDict_eq _ _ _ hQ]
    intro xw hx wac hw
    obtain ⟨q, -, rfl⟩ := List.mem_map.1 hx
    obtain ⟨i, -, rfl⟩ := List.mem_map.1 hw
    simp [unitAlpha]
  · unfold Functional.onField
    rw [moment_of_divergence_apply _ _ _ _ hQ]
    congr 1
    funext x
    unfold divField divP
    rw [Finset.sum_range, map_sum]
    refine Finset.sum_congr rfl fun j _ => ?_
    beta_reduce
    rw [fieldOf_apply, iterDeriv_unit]

theorem divergence_order (Q : List ((Fin 2 → ℝ) × ℝ × ℝ)) (hQ : (Q.map fun q => q.1).Nodup) (hne : Q ≠ []) :
    0 < (integralMomentOfDivergence 2 Q).maxDerivOrder := by
  obtain ⟨q, Q, rfl⟩ := List.exists_cons_of_ne_nil hne
  unfold integralMomentOfDivergence Functional.maxDerivOrder
  simp only
  rw [fillDict_eq _ _ _ hQ]
  simp [List.range_succ, unitAlpha]

/-- `DivergenceDubinerMoments(cell, 1, 2, 6)`: five nodes, which vanish on the fields with constant divergence. -/
theorem divergence_moments_spec {gj : ℕ → ℕ → List ℝ} (hgj : NodesOK gj) {s : SimplexCell (Fin 2 → ℝ)} (hs : ProperSimplex ℝ s)
    (ho : 0 < orientation fun i : Fin 3 => s.v i) :
    ∃ ls, divergenceDubinerMoments gj s 1 2 6 = some ls ∧ ls.length = 5 ∧ (∀ l ∈ ls, l.WF 2) ∧ (∃ l ∈ ls, 0 < l.maxDerivOrder) ∧
      ∀ w, FullDeg 3 w → ((∀ l ∈ ls, l.onField (fieldOf w) = 0) ↔ ∃ k : ℝ, ∀ x, eval x (divP w) = k) := by
  have hind := proper_independent hs
  have hverts : s.verts = List.ofFn fun i : Fin 3 => s.v i := verts_ofFn s hs.2.1 hs.1
  obtain ⟨φ, f1, f2⟩ := orthoSeq_exists (D := 2) (by omega) _ hind (edge_det_ne hind)
  obtain ⟨mats, m1, m2, m3⟩ := on_set_of_table (by omega) s hs (fun h => by omega) 2 φ (f1 2 (Or.inr (by omega)))
    (fun n _ => ⟨f2.indep n, f2.span n⟩)
  obtain ⟨Q, q1, q2, q3, q4⟩ := simplex_rule_spec hgj (D := 2) (by omega) (fun i : Fin 3 => s.v i) ho 6 (by norm_num)
  have q1' : simplexRule gj 2 s.verts 6 = some Q := by rw [hverts]; exact q1
  have h0 : (φ 0).totalDegree = 0 := by
    have := f2.degree (n := 0) (i := 0) (by decide)
    omega
  have hk0 : φ 0 = C (coeff 0 (φ 0)) := totalDegree_eq_zero_iff_eq_C.1 h0
  obtain ⟨T, t1, t2⟩ := values_spec (by omega) (fun i : Fin ((2 + 2).choose 2) => φ i) (onScalarSet ((2 + 2).choose 2) 2 (expTab s.verts 2) mats)
    rfl m2 m3 Q.pts
  have hzip : ∀ phi, ((zipRule Q.pts Q.wts phi).map fun q => q.1).Nodup := fun phi => by
    rw [zipRule_points _ _ q3]; exact q4
  let node : ℕ → Functional ℝ (Fin 2 → ℝ) := fun i => if h : i < (2 + 2).choose 2 then
    integralMomentOfDivergence 2 (zipRule Q.pts Q.wts (T ⟨i, h⟩ ())) else ⟨[], []⟩
  have hnode : ∀ i (h : i < (2 + 2).choose 2), node i = integralMomentOfDivergence 2 (zipRule Q.pts Q.wts (T ⟨i, h⟩ ())) := fun i h => dif_pos h
  have hval : ∀ i, i < (2 + 2).choose 2 → ∀ w, FullDeg 3 w → (node i).onField (fieldOf w) =
      ∫ x in convexHull ℝ (Set.range fun i : Fin 3 => s.v i), eval x (φ i * divP w) := by
    intro i hi w hw
    rw [hnode i hi, (divergence_field w _ (hzip _)).2, quadSum_zip Q.pts Q.wts q3 _ (fun y => eval y (φ i)) _ (by
      intro j x hx
      rw [t2 _ () j x hx, scalar_member])]
    have h1 := f2.degree (n := 2) hi
    have h2 := divP_degree hw
    rw [← q2.1 (φ i * divP w) ((totalDegree_mul _ _).trans (by omega))]
    simp only [map_mul]
  have h6 : (2 + 2).choose 2 = 6 := by decide
  refine ⟨(List.range' 1 5).map node, ?_, by simp, ?_, ?_, fun w hw => ?_⟩
  · unfold divergenceDubinerMoments
    simp only [m1, Option.bind_eq_bind, Option.bind_some, q1', t1]
    rw [show List.range' (1 * (1 + 1) / 2) ((2 + 1) * (2 + 2) / 2 - 1 * (1 + 1) / 2) = List.range' 1 5 by decide]
    have hcong : ∀ i ∈ List.range' 1 5, (if h : i < (2 + 2).choose 2 then
        some (integralMomentOfDivergence 2 (zipRule Q.pts Q.wts (T ⟨i, h⟩ ()))) else none) = some (node i) := by
      intro i hi
      have : i < (2 + 2).choose 2 := by rw [List.mem_range'] at hi; omega
      rw [dif_pos this, hnode i this]
    exact mapM_some_map _ _ _ hcong
  · intro l hl
    obtain ⟨i, hi, rfl⟩ := List.mem_map.1 hl
    have : i < (2 + 2).choose 2 := by rw [List.mem_range'] at hi; omega
    rw [hnode i this]
    exact (divergence_field 0 _ (hzip _)).1
  · refine ⟨node 1, List.mem_map_of_mem (by decide), ?_⟩
    rw [hnode 1 (by decide)]
    refine divergence_order _ (hzip _) ?_
    intro hnil
    have hp : Q.pts = [] := by
      have := zipRule_points Q.pts Q.wts q3 (T ⟨1, by decide⟩ ())
      rw [hnil] at this
      exact this.symm
    have := q2.1 (φ 0 * φ 0) ((totalDegree_mul _ _).trans (by omega))
    simp only [map_mul, f2.ortho 0 0, if_pos] at this
    have hpos := f2.pos
    rw [← this] at hpos
    simp [QRule.integrate, hp] at hpos
  · have hall : (∀ l ∈ (List.range' 1 5).map node, l.onField (fieldOf w) = 0) ↔ ∀ i, 1 ≤ i → i < 6 → (node i).onField (fieldOf w) = 0 := by
      rw [List.forall_mem_map]
      refine ⟨fun h i h1 h2 => h i (by rw [List.mem_range']; exact ⟨i - 1, by omega, by omega⟩), fun h i hi => ?_⟩
      rw [List.mem_range'] at hi
      exact h i (by omega) (by omega)
    rw [hall]
    constructor
    · intro hz
      have hpr := f2.project 2 (divP w) (divP_degree hw)
      rw [Finset.sum_eq_single ⟨0, by decide⟩ (fun l _ hl => by
        have hl0 : (l : ℕ) ≠ 0 := fun h => hl (Fin.ext h)
        have := hz l (by omega) (by have := l.2; omega)
        rw [hval l l.2 w hw] at this
        rw [this, zero_smul]) (by simp)] at hpr
      refine ⟨(|(edgeMatrix fun i : Fin 3 => s.v i).det| / 2 ^ 2)⁻¹ *
        ((∫ x in convexHull ℝ (Set.range fun i : Fin 3 => s.v i), eval x (φ 0 * divP w)) * coeff 0 (φ 0)), fun x => ?_⟩
      have h1 := congrArg (eval x) hpr
      rw [smul_eval, smul_eval] at h1
      have h2 : eval x (φ 0) = coeff 0 (φ 0) := by
        conv_lhs => rw [hk0]
        rw [eval_C]
      have hpos := f2.pos
      have h3 : eval x (φ ((⟨0, by decide⟩ : Fin ((2 + 2).choose 2)) : ℕ)) = coeff 0 (φ 0) := h2
      rw [h3] at h1
      rw [show (∫ x in convexHull ℝ (Set.range fun i : Fin 3 => s.v i), eval x (φ 0 * divP w)) * coeff 0 (φ 0) = _ from h1]
      rw [← mul_assoc, inv_mul_cancel₀ hpos.ne', one_mul]
    · rintro ⟨k, hk⟩ i h1 h2
      rw [hval i (by omega) w hw]
      have ho := f2.ortho i 0
      rw [if_neg (by omega), hk0] at ho
      simp only [eval_C] at ho
      rw [integral_mul_const] at ho
      have hne : coeff 0 (φ 0) ≠ 0 := by
        intro hc
        rw [hc, map_zero] at hk0
        exact (f2.indep 2).ne_zero ⟨0, by decide⟩ hk0
      have h3 := (mul_eq_zero.1 ho).resolve_right hne
      simp only [map_mul, hk]
      rw [integral_mul_const, h3, zero_mul]

end
end FIAT
