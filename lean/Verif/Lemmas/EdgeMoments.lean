/-
Moments on the edges of a triangle, Legendre polynomials, and polynomials in two variables by their coefficients (C60).
-/
import Verif.Model.LegendreMoments
import Verif.Lemmas.Bell
import Verif.Lemmas.FieldMoments
import Verif.Lemmas.Jets
import Verif.Props.GaussElements
import Verif.Props.BDFM

namespace FIAT
open MvPolynomial MeasureTheory
section

/-- The integral of a polynomial of degree 6 over the unit interval. -/
theorem integral_poly6 (a0 a1 a2 a3 a4 a5 a6 : ℝ) (f : ℝ → ℝ)
    (hf : ∀ t, f t = a0 + a1 * t + a2 * t ^ 2 + a3 * t ^ 3 + a4 * t ^ 4 + a5 * t ^ 5 + a6 * t ^ 6) :
    ∫ t in (0 : ℝ)..1, f t = a0 + a1 / 2 + a2 / 3 + a3 / 4 + a4 / 5 + a5 / 6 + a6 / 7 := by
  have hd : ∀ t ∈ Set.uIcc (0 : ℝ) 1, HasDerivAt (fun t : ℝ => a0 * t + a1 / 2 * t ^ 2 + a2 / 3 * t ^ 3 + a3 / 4 * t ^ 4 +
      a4 / 5 * t ^ 5 + a5 / 6 * t ^ 6 + a6 / 7 * t ^ 7) (f t) t := by
    intro t _
    have h1 : ∀ (c : ℝ) (k : ℕ), HasDerivAt (fun t : ℝ => c * t ^ k) (c * (k * t ^ (k - 1))) t := fun c k => (hasDerivAt_pow k t).const_mul c
    have h0 : HasDerivAt (fun t : ℝ => a0 * t) (a0 * 1) t := (hasDerivAt_id t).const_mul a0
    refine ((((((h0.add (h1 _ 2)).add (h1 _ 3)).add (h1 _ 4)).add (h1 _ 5)).add (h1 _ 6)).add (h1 _ 7)).congr_deriv ?_
    rw [hf]
    norm_num
    ring
  have hc : Continuous f := by
    rw [show f = fun t => a0 + a1 * t + a2 * t ^ 2 + a3 * t ^ 3 + a4 * t ^ 4 + a5 * t ^ 5 + a6 * t ^ 6 from _root_.funext hf]
    fun_prop
  rw [intervalIntegral.integral_eq_sub_of_hasDerivAt hd (hc.intervalIntegrable 0 1)]
  ring

/-- A cubic polynomial on a line. -/
theorem cubic_line (a u : Fin 2 → ℝ) (p : MvPolynomial (Fin 2) ℝ) (hp : p.totalDegree ≤ 3) :
    ∃ c0 c1 c2 c3 : ℝ, ∀ t : ℝ, eval (a + t • u) p = c0 + c1 * t + c2 * t ^ 2 + c3 * t ^ 3 := by
  have h := natDegree_lineRestrict a u hp
  have hs := (lineRestrict a u p).as_sum_range_C_mul_X_pow' (n := 4) (by omega)
  refine ⟨(lineRestrict a u p).coeff 0, (lineRestrict a u p).coeff 1, (lineRestrict a u p).coeff 2, (lineRestrict a u p).coeff 3, fun t => ?_⟩
  rw [← eval_lineRestrict]
  conv_lhs => rw [hs]
  simp only [Finset.sum_range_succ, Finset.sum_range_zero, Polynomial.eval_add, Polynomial.eval_mul, Polynomial.eval_C, Polynomial.eval_pow,
    Polynomial.eval_X, zero_add, pow_zero, mul_one, pow_one]

/-- Exactness on the unit interval. -/
def LineExact (Q : QRule ℝ (Fin 1 → ℝ)) (N : ℕ) : Prop :=
  ∀ p : MvPolynomial (Fin 1) ℝ, p.totalDegree ≤ N → Q.integrate (fun x => eval x p) = ∫ t in (0 : ℝ)..1, eval (fun _ => t) p

theorem GoodRule.line {Q : QRule ℝ (Fin 1 → ℝ)} {N : ℕ} (h : GoodRule Q (ufcVerts ℝ 1) N) : LineExact Q N := by
  intro p hp
  rw [h.1 p hp, ufc_line_integral]

/-- The quadrature of an edge. -/
theorem edge_quad {s : SimplexCell (Fin 2 → ℝ)} (hs : ProperSimplex ℝ s) {e a c : ℕ} (h : HasEntity s.topo 1 e [a, c])
    (Q : QRule ℝ (Fin 1 → ℝ)) {N : ℕ} (hQ : LineExact Q N) (hl : Q.wts.length = Q.pts.length) (hnd : Q.pts.Nodup) :
    ∃ pts, mapToEntity s 1 e Q.pts = some pts ∧ (∀ phi, ((zipRule pts Q.wts phi).map fun q => q.1).Nodup) ∧
      ∀ (phi : ℕ → ℝ) (L : MvPolynomial (Fin 1) ℝ) (p : MvPolynomial (Fin 2) ℝ),
        (∀ (j : ℕ) x, Q.pts[j]? = some x → phi j = eval x L) → L.totalDegree + p.totalDegree ≤ N →
        quadSum (zipRule pts Q.wts phi) (fun x => eval x p) =
          ∫ t in (0 : ℝ)..1, eval (fun _ => t) L * eval (s.v a + t • (s.v c - s.v a)) p := by
  obtain ⟨τ, t1, t2, t3, t4⟩ := entity_tuple hs h
  have hme : mapToEntity s 1 e Q.pts = some (Q.pts.map (entMap fun j => s.v (τ j))) := by
    unfold mapToEntity
    rw [t4, Option.bind_some, dif_pos (List.length_ofFn ..)]
    congr 1
    refine List.map_congr_left fun y _ => ?_
    rw [entMap_eq]
    congr 1
    funext j
    rw [List.get_ofFn]
    rfl
  have hac : a = τ 0 ∧ c = τ 1 := by
    simpa [List.ofFn_succ] using t3
  have hpt : ∀ y : Fin 1 → ℝ, entMap (fun j => s.v (τ j)) y = s.v a + y 0 • (s.v c - s.v a) := by
    intro y
    unfold entMap
    rw [hac.1, hac.2]
    simp
  have hpn := hnd.map (entMap_injective hs τ t1 t2)
  refine ⟨_, hme, fun phi => ?_, fun phi L p hphi hd => ?_⟩
  · rw [zipRule_points _ _ (by simpa using hl)]; exact hpn
  · rw [quadSum_zip_map, quadSum_zip Q.pts Q.wts hl _ (fun y => eval y L) _ hphi]
    have hpb : ∀ y, eval y (pullback (s.v (τ 0)) (fun j : Fin 1 => s.v (τ j.succ)) p) = eval (entMap (fun j => s.v (τ j)) y) p :=
      fun y => eval_pullback _ _ _ _
    have hdeg : (L * pullback (s.v (τ 0)) (fun j : Fin 1 => s.v (τ j.succ)) p).totalDegree ≤ N := by
      refine (totalDegree_mul _ _).trans ?_
      have h1 := totalDegree_pullback (s.v (τ 0)) (fun j : Fin 1 => s.v (τ j.succ)) p
      omega
    have := hQ _ hdeg
    simp only [map_mul, hpb, hpt] at this
    simp only [hpt]
    exact this

/-- The Gauss-Legendre rule of the Legendre moments. -/
theorem legendre_rule_spec {leg : ℕ → List ℝ × List ℝ} (N : ℕ) (hleg : IsLeggauss (N + 1) (leg (N + 1)).1 (leg (N + 1)).2) :
    ∃ Q, legendreRule leg N = some Q ∧ LineExact Q (2 * N + 1) ∧ Q.wts.length = Q.pts.length ∧ Q.pts.Nodup := by
  obtain ⟨F, f1, f2, f3, f4, f5⟩ := ufc_cell_spec (d := 1) (by omega)
  have hl : (leg (N + 1)).2.length = (leg (N + 1)).1.length := by rw [hleg.1, hleg.2.1]
  obtain ⟨A, b, Q, r1, r2, r3, r4, r5⟩ := mapped_rule_spec (ufcVerts ℝ 1) ((leg (N + 1)).1.map fun x (_ : Fin 1) => x) (leg (N + 1)).2
    (by simp [hl])
  obtain ⟨hnd, -⟩ := mapped_nodup _ f5 _ _ hl (leggauss_nodup _ _ _ hleg) Q r1
  have hA : ∀ x : ℝ, A.mulVec (fun _ => x) + b = fun i => A i 0 * x + b i := by
    intro x; funext i; simp [Matrix.mulVec, dotProduct]
  have h0 : A.mulVec (fun _ => -1) + b = ufcVerts ℝ 1 0 := by
    rw [← r2 0]; congr 2
  have h1 : A.mulVec (fun _ => 1) + b = ufcVerts ℝ 1 1 := by
    rw [← r2 1]; congr 2
    funext l
    fin_cases l
    simp [dvert]
  rw [hA] at h0 h1
  have e0 := congrFun h0 0
  have e1 := congrFun h1 0
  rw [show ufcVerts ℝ 1 0 = fun _ => 0 from by funext i; simp [ufcVerts]] at e0
  rw [show ufcVerts ℝ 1 1 = fun _ => 1 from by funext i; fin_cases i; rfl] at e1
  simp only at e0 e1
  have hA0 : A 0 0 = 1 / 2 := by linarith
  have hb0 : b 0 = 1 / 2 := by linarith
  have hmap : ∀ x : ℝ, A.mulVec (fun _ => x) + b = fun _ => (x + 1) / 2 := by
    intro x
    rw [hA]
    funext i
    fin_cases i
    simp [hA0, hb0]; ring
  refine ⟨Q, ?_, ?_, by rw [r3, r4]; simp [hl], hnd⟩
  · unfold legendreRule gaussLegendreLineRule
    simp only [f1, f4, r1, Option.bind_eq_bind, Option.bind_some]
    rw [if_neg (by omega)]
  · intro p hp
    rw [r5, Matrix.det_unique, Fin.default_eq_zero, hA0]
    have hq : ∀ t : ℝ, eval (fun _ => t) p = (lineRestrict 0 (fun _ => 1) p).eval t := by
      intro t
      rw [eval_lineRestrict]
      congr 1
      congr 1
      funext i; simp
    set q := lineRestrict 0 (fun _ => 1) p with hqd
    have hdq : q.natDegree ≤ 2 * N + 1 := natDegree_lineRestrict _ _ hp
    have hcomp : (q.comp (Polynomial.C (1 / 2) * Polynomial.X + Polynomial.C (1 / 2))).natDegree ≤ 2 * (N + 1) - 1 := by
      refine (Polynomial.natDegree_comp_le).trans ?_
      have : (Polynomial.C (1 / 2 : ℝ) * Polynomial.X + Polynomial.C (1 / 2)).natDegree ≤ 1 := by compute_degree
      calc _ ≤ q.natDegree * 1 := Nat.mul_le_mul_left _ this
        _ ≤ _ := by omega
    have hex := hleg.2.2 _ hcomp
    have hev : ∀ x : ℝ, (q.comp (Polynomial.C (1 / 2) * Polynomial.X + Polynomial.C (1 / 2))).eval x = q.eval ((x + 1) / 2) := by
      intro x
      rw [Polynomial.eval_comp]
      congr 1
      simp; ring
    simp only [hev] at hex
    have hint : (⟨(leg (N + 1)).1.map fun x (_ : Fin 1) => x, (leg (N + 1)).2⟩ : QRule ℝ (Fin 1 → ℝ)).integrate
        (fun x => eval (A.mulVec x + b) p) = ∫ x in (-1 : ℝ)..1, q.eval ((x + 1) / 2) := by
      rw [← hex]
      unfold QRule.integrate
      simp only [List.zip_map_left, List.map_map, Function.comp_def, Prod.map_fst, Prod.map_snd, id, hmap, hq]
    rw [hint]
    have hsub := intervalIntegral.integral_comp_div_add (a := -1) (b := 1) (fun t => q.eval t) (c := 2) (by norm_num) (1 / 2)
    have : (fun x : ℝ => q.eval ((x + 1) / 2)) = fun x => q.eval (x / 2 + 1 / 2) := by
      funext x; congr 1; ring
    rw [this, hsub]
    simp only [hq]
    rw [show (-1 / 2 + 1 / 2 : ℝ) = 0 by norm_num, show (1 / 2 + 1 / 2 : ℝ) = 1 by norm_num, smul_eq_mul, ← mul_assoc]
    norm_num

/-- The first Legendre polynomials on the unit interval. -/
noncomputable def legPoly : ℕ → MvPolynomial (Fin 1) ℝ
  | 0 => C 1
  | 1 => C 2 * X 0 - C 1
  | 2 => C 6 * X 0 ^ 2 - C 6 * X 0 + C 1
  | 3 => C 20 * X 0 ^ 3 - C 30 * X 0 ^ 2 + C 12 * X 0 - C 1
  | _ => 0

theorem eval_legPoly {m : ℕ} (hm : m ≤ 3) (x : Fin 1 → ℝ) : eval x (legPoly m) = evalJacobi (0 : ℝ) 0 m (2 * x 0 - 1) := by
  obtain rfl | rfl | rfl | rfl : m = 0 ∨ m = 1 ∨ m = 2 ∨ m = 3 := by omega
  · simp [legPoly, evalJacobi]
  · simp [legPoly, evalJacobi]
  · simp [legPoly, evalJacobi, jacobiStep, List.range']; ring
  · simp [legPoly, evalJacobi, jacobiStep, List.range']; ring

theorem legPoly_degree (m : ℕ) : (legPoly m).totalDegree ≤ 3 := by
  have hm : ∀ (r : ℝ) (k : ℕ), k ≤ 3 → (C r * X (0 : Fin 1) ^ k : MvPolynomial (Fin 1) ℝ).totalDegree ≤ 3 := by
    intro r k hk
    refine (totalDegree_mul _ _).trans ?_
    rw [totalDegree_C, zero_add]
    exact (totalDegree_pow _ _).trans (by rw [totalDegree_X]; omega)
  have h1 : ∀ r : ℝ, (C r * X (0 : Fin 1) : MvPolynomial (Fin 1) ℝ).totalDegree ≤ 3 := fun r => by simpa using hm r 1 (by omega)
  have h0 : ∀ r : ℝ, (C r : MvPolynomial (Fin 1) ℝ).totalDegree ≤ 3 := fun r => by rw [totalDegree_C]; omega
  match m with
  | 0 => exact h0 1
  | 1 => exact (totalDegree_sub _ _).trans (max_le (h1 _) (h0 _))
  | 2 => exact (totalDegree_add _ _).trans (max_le ((totalDegree_sub _ _).trans (max_le (hm _ _ (by omega)) (h1 _))) (h0 _))
  | 3 => exact (totalDegree_sub _ _).trans (max_le ((totalDegree_add _ _).trans (max_le ((totalDegree_sub _ _).trans
      (max_le (hm _ _ (by omega)) (hm _ _ (by omega)))) (h1 _))) (h0 _))
  | n + 4 => simp [legPoly]

/-- The table of a Legendre moment. -/
theorem legendre_table_spec {leg : ℕ → List ℝ × List ℝ} (hleg : IsLeggauss 7 (leg 7).1 (leg 7).2) {s : SimplexCell (Fin 2 → ℝ)}
    (hs : ProperSimplex ℝ s) {e a c : ℕ} (h : HasEntity s.topo 1 e [a, c]) {m : ℕ} (hm : m ≤ 3) :
    ∃ T, legendreTable leg s e m 6 = some T ∧ (T.map fun q => q.1).Nodup ∧ ∀ p : MvPolynomial (Fin 2) ℝ, p.totalDegree ≤ 10 →
      quadSum T (fun x => eval x p) = ∫ t in (0 : ℝ)..1, eval (fun _ => t) (legPoly m) * eval (s.v a + t • (s.v c - s.v a)) p := by
  obtain ⟨Q, q1, q2, q3, q4⟩ := legendre_rule_spec 6 hleg
  obtain ⟨pts, p1, p2, p3⟩ := edge_quad hs h Q q2 q3 q4
  have e : legendreTable leg s e m 6 = some (zipRule pts Q.wts fun (j : ℕ) => evalJacobi (0 : ℝ) 0 m (2 * (Q.pts.getD j 0 0) - 1)) := by
    unfold legendreTable
    simp only [q1, p1, Option.bind_eq_bind, Option.bind_some]
  refine ⟨_, e, p2 _, fun p hp => p3 _ _ p ?_ ?_⟩
  · intro j x hx
    rw [List.getD_eq_getElem?_getD, hx, Option.getD_some, eval_legPoly hm]
  · have := legPoly_degree m
    omega

theorem dotC_degree {k : ℕ} (n : Fin 2 → ℝ) {w : Fin 2 → MvPolynomial (Fin 2) ℝ} (hw : FullDeg k w) : (dotC n w).totalDegree ≤ k := by
  unfold dotC
  refine totalDegree_finsetSum_le fun j _ => (totalDegree_mul _ _).trans ?_
  rw [totalDegree_C, zero_add]
  exact hw j

/-- `IntegralLegendreNormalMoment`. -/
theorem legendre_normal_spec {leg : ℕ → List ℝ × List ℝ} (hleg : IsLeggauss 7 (leg 7).1 (leg 7).2) {s : SimplexCell (Fin 2 → ℝ)}
    (hs : ProperSimplex ℝ s) {nrm : ℕ → Option (Fin 2 → ℝ)} {e a c : ℕ} (h : HasEntity s.topo 1 e [a, c]) {n : Fin 2 → ℝ} (hn : nrm e = some n)
    {m : ℕ} (hm : m ≤ 3) :
    ∃ l, legendreNormalMoment leg s nrm e m 6 = some l ∧ PlainNode l ∧ ∀ w, FullDeg 3 w →
      l.onField (fieldOf w) = ∫ t in (0 : ℝ)..1, eval (fun _ => t) (legPoly m) * eval (s.v a + t • (s.v c - s.v a)) (dotC n w) := by
  obtain ⟨T, t1, t2, t3⟩ := legendre_table_spec hleg hs h hm
  have e : legendreNormalMoment leg s nrm e m 6 = some (integralLegendreDirectionalMoment (vecNat n) T) := by
    unfold legendreNormalMoment
    simp only [hn, t1, Option.bind_eq_bind, Option.bind_some]
  refine ⟨_, e, plain_of_pt _ (fill_wf _ _ _ t2), fun w hw => ?_⟩
  rw [← t3 _ ((dotC_degree n hw).trans (by norm_num))]
  unfold Functional.onField
  rw [legendre_directional_apply _ _ _ _ t2]
  congr 1
  funext x
  rw [eval_dotC]
  exact dotField_fieldOf w n x

/-- The orthonormal set of the reference interval: a constant and a polynomial of degree one. -/
theorem interval_set (pts : List (Fin 1 → ℝ)) :
    ∃ F S T, ufcSimplexCell 1 = some F ∧ F.verts = List.ofFn (ufcVerts ℝ 1) ∧ onPolynomialSet F 1 = some S ∧ S.values pts = some T ∧
      ∃ k0 α β : ℝ, k0 ≠ 0 ∧ β ≠ 0 ∧
        (∀ (j : ℕ) x, pts[j]? = some x → T ⟨0, by decide⟩ () j = eval x (C k0)) ∧
        ∀ (j : ℕ) x, pts[j]? = some x → T ⟨1, by decide⟩ () j = eval x (C α + C β * X 0) := by
  obtain ⟨F, f1, f2, f3, f4, f5⟩ := ufc_cell_spec (d := 1) (by omega)
  have hind := proper_independent f2
  obtain ⟨φ, g1, g2⟩ := orthoSeq_exists (D := 1) (by omega) (fun i : Fin 2 => F.v i) hind (edge_det_ne hind)
  obtain ⟨mats, m1, m2, m3⟩ := on_set_of_table (by omega) F f2 f3 1 φ (g1 1 (Or.inl rfl)) (fun n _ => ⟨g2.indep n, g2.span n⟩)
  obtain ⟨T, t1, t2⟩ := values_spec (by omega) (fun i : Fin ((1 + 1).choose 1) => φ i) (onScalarSet ((1 + 1).choose 1) 1 (expTab F.verts 1) mats)
    rfl m2 m3 pts
  have h0 : (φ 0).totalDegree = 0 := by
    have := g2.degree (n := 0) (i := 0) (by decide)
    omega
  have h1 : (φ 1).totalDegree ≤ 1 := g2.degree (n := 1) (i := 1) (by decide)
  have hk : φ 0 = C (coeff 0 (φ 0)) := totalDegree_eq_zero_iff_eq_C.1 h0
  obtain ⟨g, b, hg⟩ := affine_of_degree (φ 1) h1
  have hv1 : ∀ x : Fin 1 → ℝ, eval x (φ 1) = eval x (C b + C (g 0) * X 0) := by
    intro x
    rw [hg]
    simp
  refine ⟨F, _, T, f1, f4, m1, t1, coeff 0 (φ 0), b, g 0, ?_, ?_, ?_, ?_⟩
  · intro hc
    rw [hc, map_zero] at hk
    exact (g2.indep 1).ne_zero ⟨0, by decide⟩ hk
  · intro hc
    have hX : (X 0 : MvPolynomial (Fin 1) ℝ) ∈ Submodule.span ℝ (Set.range fun i : Fin ((1 + 1).choose 1) => φ i) := by
      rw [g2.span 1, mem_restrictTotalDegree, totalDegree_X]
    obtain ⟨c, hc'⟩ := (Submodule.mem_span_range_iff_exists_fun ℝ).1 hX
    have hev : ∀ x y : Fin 1 → ℝ, x 0 = y 0 := by
      intro x y
      have ex : ∀ (x y : Fin 1 → ℝ) (i : Fin ((1 + 1).choose 1)), eval x (φ i) = eval y (φ i) := by
        intro x y i
        have : (i : ℕ) = 0 ∨ (i : ℕ) = 1 := by
          have := i.2
          have h2 : (1 + 1).choose 1 = 2 := by decide
          omega
        rcases this with h | h
        · rw [h, hk]; simp
        · rw [h, hv1, hv1, hc]; simp
      have e : ∀ x : Fin 1 → ℝ, x 0 = ∑ i, c i * eval x (φ i) := by
        intro x
        have := congrArg (eval x) hc'
        rw [map_sum, eval_X] at this
        rw [← this]
        exact Finset.sum_congr rfl fun i _ => by rw [smul_eq_C_mul, map_mul, eval_C]
      rw [e x, e y]
      exact Finset.sum_congr rfl fun i _ => by rw [ex x y i]
    have := hev (fun _ => 0) (fun _ => 1)
    norm_num at this
  · intro j x hx
    rw [t2 _ () j x hx, scalar_member, ← hk]
  · intro j x hx
    rw [t2 _ () j x hx, scalar_member, ← hv1]

end
end FIAT
