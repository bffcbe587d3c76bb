/-
C74: interpolation commutes with the differential operators. For the integral variants, the divergence of the Raviart-Thomas or
Brezzi-Douglas-Marini interpolant of a field is the L² projection of the divergence of the field.
-/
import Verif.Lemmas.CommuteDiv

open MeasureTheory
namespace FIAT
open MvPolynomial

/-! ### Specification -/
section spec
variable {D : ℕ}

/-- `c` are the values of the nodes on the field `w`: the coefficients of the interpolant of `w`. -/
def NodeValues (nodes : List (Functional ℝ (Fin D → ℝ))) (w : Fin D → MvPolynomial (Fin D) ℝ) {m : ℕ} (c : Fin m → ℝ) : Prop :=
  ∀ (i : Fin m) l, nodes[(i : ℕ)]? = some l → l.onField (fieldOf w) = c i

/-- `f` is the L² projection of `g` onto the polynomials of degree at most `k` on the simplex with vertices `v`: `f` is such a
polynomial, and `f` and `g` have the same moments against all of them. -/
def L2Projection (v : Fin (D + 1) → Fin D → ℝ) (k : ℕ) (f g : (Fin D → ℝ) → ℝ) : Prop :=
  (∃ u : MvPolynomial (Fin D) ℝ, u.totalDegree ≤ k ∧ ∀ x, f x = eval x u) ∧
  ∀ p : MvPolynomial (Fin D) ℝ, p.totalDegree ≤ k →
    ∫ x in convexHull ℝ (Set.range v), eval x p * f x = ∫ x in convexHull ℝ (Set.range v), eval x p * g x

end spec

section
variable {D : ℕ}

/-- The interpolant behind the tables, and the nodes vanish on the interpolation error. -/
theorem interpolant {N m : ℕ} {V : (Fin D → MvPolynomial (Fin D) ℝ) → Prop} {nodes : List (Functional ℝ (Fin D → ℝ))}
    {el : PolySet ℝ (Fin D → ℝ) N m (Fin D)} (hlen : nodes.length = m) (h : IsNodalElement V nodes el) (hV : LinClosed V)
    {w : Fin D → MvPolynomial (Fin D) ℝ} {c : Fin m → ℝ} (hc : NodeValues nodes w c) :
    ∃ u : Fin D → MvPolynomial (Fin D) ℝ, V u ∧ (∀ l ∈ nodes, l.onField (fieldOf (u - w)) = 0) ∧
      (∀ j x, feValue el c (noDeriv D) j x = eval x (u j)) ∧
      ∀ (i : Fin D) j x, feValue el c (unitAlpha D i) j x = eval x (pderiv i (u j)) := by
  have hfe : ∀ α j x, α.length = D → ∀ ψ : Fin m → Fin D → MvPolynomial (Fin D) ℝ,
      (∀ α x i c, α.length = D → tabEntry el α x i c = some (eval x (iterDeriv α (ψ i c)))) →
      feValue el c α j x = eval x (iterDeriv α ((∑ i, c i • ψ i) j)) := by
    intro α j x hα ψ hψ
    have : (∑ i, c i • ψ i) j = ∑ i, C (c i) * ψ i j := by simp only [Finset.sum_apply, Pi.smul_apply, smul_eq_C_mul]
    rw [this, iterDeriv_linear, map_sum]
    unfold feValue
    exact Finset.sum_congr rfl fun i _ => by rw [hψ α x i j hα, map_mul, eval_C]; rfl
  obtain ⟨ψ, h1, h2, h3, h4⟩ := h
  have hent : ∀ α x i c, α.length = D → tabEntry el α x i c = some (eval x (iterDeriv α (ψ i c))) := by
    intro α x i c hα
    obtain ⟨res, r1, r2, r3⟩ := h4 [x] α.sum
    have hk : α ∈ Dict.keys res := (r2 α).2 ⟨hα, le_rfl⟩
    obtain ⟨T, hT⟩ := Option.isSome_iff_exists.1 (Dict.get?_isSome_iff.2 hk)
    unfold tabEntry
    rw [r1, Option.bind_some, hT, Option.map_some, r3 α T hT i c 0 x rfl]
  refine ⟨∑ i, c i • ψ i, hV m c ψ h1, fun l hl => ?_, fun j x => ?_, fun i j x => ?_⟩
  · obtain ⟨i, hi, hil⟩ := List.mem_iff_getElem.1 hl
    have hil' : nodes[i]? = some l := by rw [List.getElem?_eq_getElem hi, hil]
    have him : i < m := by omega
    rw [onField_sub, onField_comb, hc ⟨i, him⟩ l hil', Finset.sum_eq_single ⟨i, him⟩]
    · rw [h3 i l hil', if_pos rfl, mul_one, sub_self]
    · intro b _ hb
      rw [h3 i l hil', if_neg fun h => hb (Fin.ext h.symm), mul_zero]
    · simp
  · rw [hfe _ j x (by simp [noDeriv]) ψ hent, noDeriv, iterDeriv_zero]
  · rw [hfe _ j x (by simp [unitAlpha]) ψ hent, iterDeriv_unit]

theorem sub_degree_le {n : ℕ} {u w : Fin D → MvPolynomial (Fin D) ℝ} (hu : ∀ j, (u j).totalDegree ≤ n) (hw : ∀ j, (w j).totalDegree ≤ n) (j : Fin D) :
    ((u - w) j).totalDegree ≤ n := (totalDegree_sub _ _).trans (max_le (hu j) (hw j))

theorem divergence_sub (u w : Fin D → MvPolynomial (Fin D) ℝ) : divergence (u - w) = divergence u - divergence w := by
  unfold divergence
  rw [← Finset.sum_sub_distrib]
  exact Finset.sum_congr rfl fun j _ => by rw [Pi.sub_apply, map_sub]

/-- From vanishing moments of the error to the projection. -/
theorem projection_of_moments {v : Fin (D + 1) → Fin D → ℝ} {k : ℕ} {f g : (Fin D → ℝ) → ℝ} {u w : MvPolynomial (Fin D) ℝ} (hf : ∀ x, f x = eval x u)
    (hg : ∀ x, g x = eval x w) (hu : u.totalDegree ≤ k)
    (h : ∀ p : MvPolynomial (Fin D) ℝ, p.totalDegree ≤ k → ∫ x in convexHull ℝ (Set.range v), eval x (p * (u - w)) = 0) : L2Projection v k f g := by
  refine ⟨⟨u, hu, hf⟩, fun p hp => ?_⟩
  have h1 := h p hp
  have e : ∀ x, eval x (p * (u - w)) = eval x (p * u) - eval x (p * w) := fun x => by simp only [map_mul, map_sub]; ring
  simp only [e] at h1
  rw [integral_sub (hull_integrable _ (p * u).continuous_eval) (hull_integrable _ (p * w).continuous_eval), sub_eq_zero] at h1
  simp only [map_mul] at h1
  simp only [hf, hg, h1]

/-- C74: the integral variant of `RaviartThomas(cell, degree + 1)`. For every field `w` whose nodes the quadrature computes exactly, the
divergence of its interpolant, as tabulated, is the L² projection of `div w` onto the polynomials of degree `degree`. -/
theorem rt_interpolation_commutes (hD : D = 2 ∨ D = 3) (s : SimplexCell (Fin D → ℝ)) (hs : ProperSimplex ℝ s) (hnum : NumberedSimplex s)
    (ho : 0 < orientation fun i : Fin (D + 1) => s.v i) {gj : ℕ → ℕ → List ℝ} (hgj : NodesOK gj)
    {nrm : ℕ → Option (Fin D → ℝ)} (hn : FacetNormals s nrm) (degree : ℕ)
    (svd : List (Fin D → Fin ((degree + 1 + D).choose D) → ℝ) → List ℝ × List (Fin D → Fin ((degree + 1 + D).choose D) → ℝ))
    (hsvd : ∀ A B, rtRows gj degree s = some (A, B) → SvdOK svd (A ++ B))
    (T : DigitTable) (variant : Option (List Char)) (q : ℕ) (hv : dualVariant T variant degree = some (.integral q)) :
    ∃ m el nodes ids, raviartThomas gj degree svd T s nrm variant = some (⟨m, el⟩, nodes, ids) ∧
      ∀ w : Fin D → MvPolynomial (Fin D) ℝ, (∀ j, (w j).totalDegree + degree ≤ 2 * q - 1) → ∀ c, NodeValues nodes w c →
        L2Projection (fun i : Fin (D + 1) => s.v i) degree (fun x => ∑ j : Fin D, feValue el c (unitAlpha D j) j x) fun x => ∑ j, eval x (pderiv j (w j)) := by
  obtain ⟨m, el, nodes, ids, h1, h2, h3, -, -, h4⟩ := raviart_thomas_spec hD s hs hnum ho hgj hn degree svd hsvd T variant _ hv
  have hq := dual_variant_degree hv q rfl
  refine ⟨m, el, nodes, ids, h1, fun w hw c hc => ?_⟩
  have hdual : rtDual gj s nrm degree (.integral q) = some (nodes, ids) := by
    unfold raviartThomas at h1
    simp only [hv, Option.bind_eq_bind, Option.bind_some, Option.bind_eq_some_iff] at h1
    obtain ⟨S, -, dual, h5, el', -, h6⟩ := h1
    rw [h5, (Prod.mk.inj (Option.some.inj h6)).2]
  obtain ⟨u, u1, u2, -, u3⟩ := interpolant h3 h4 (linClosed_rt degree) hc
  have hdeg : ∀ j, (u j).totalDegree ≤ 2 * q - 1 - degree := fun j => (rt_fullDeg u1 j).trans (by omega)
  have hw' : ∀ j, (w j).totalDegree ≤ 2 * q - 1 - degree := fun j => by have := hw j; omega
  obtain ⟨f1, f2⟩ := rt_node_moments hD hs hnum ho hgj hq hdual (w := u - w) (fun j => by have := sub_degree_le hdeg hw' j; omega) u2
  refine projection_of_moments (u := divergence u) (w := divergence w) (fun x => ?_) (fun x => ?_) (divergence_degree (rt_fullDeg u1)) fun p hp => ?_
  · unfold divergence
    rw [map_sum]
    exact Finset.sum_congr rfl fun j _ => u3 j j x
  · unfold divergence
    rw [map_sum]
  · rw [← divergence_sub]
    exact divergence_moments_cell (by omega) hs ho hn f1 f2 p hp

/-- The nodes of the integral variant of Brezzi-Douglas-Marini. -/
theorem bdm_node_moments (hD : D = 2 ∨ D = 3) {s : SimplexCell (Fin D → ℝ)} (hs : ProperSimplex ℝ s) (hnum : NumberedSimplex s)
    (ho : 0 < orientation fun i : Fin (D + 1) => s.v i) {gj : ℕ → ℕ → List ℝ} (hgj : NodesOK gj)
    {nrm : ℕ → Option (Fin D → ℝ)} {k q : ℕ} (hq : k + 1 ≤ q) (svd : SvdFun)
    (hsvd : 2 ≤ k → ∀ A B, nedRows gj (k - 2) D s = some (A, B) → SvdOK (svd D _) (A ++ B)) (T : DigitTable) {nodes ids}
    (hnodes : bdmDual gj svd T s nrm k (.integral q) = some (nodes, ids)) {w : Fin D → MvPolynomial (Fin D) ℝ}
    (hw : ∀ j, (w j).totalDegree + k ≤ 2 * q - 1) (hz : ∀ l ∈ nodes, l.onField (fieldOf w) = 0) :
    FacetMomentsZero s nrm k w ∧ ∀ p : MvPolynomial (Fin D) ℝ, p.totalDegree + 1 ≤ k →
      ∫ x in convexHull ℝ (Set.range fun i : Fin (D + 1) => s.v i), ∑ j, eval x (w j * pderiv j p) = 0 := by
  have hD2 : 2 ≤ D := by omega
  have hD' : D = 1 ∨ D = 2 ∨ D = 3 := Or.inr hD
  have hw' : ∀ j, (w j).totalDegree ≤ 2 * q - 1 - k := fun j => by have := hw j; omega
  obtain ⟨G, g1, g2, g3, g4, g5⟩ := ufc_cell_spec (d := D - 1) (by omega)
  obtain ⟨Q, q1, q2, q3, q4⟩ := simplex_rule_spec hgj (D := D - 1) (by omega) (ufcVerts ℝ (D - 1)) g5 q (by omega)
  obtain ⟨S, T', s1, s2, φ, s3, s4⟩ := scalar_values (by omega) G g2 g3 k Q.pts
  rw [← g4] at q1
  unfold bdmDual bdmFacets at hnodes
  simp only [g1, q1, s1, s2, numEnts_facets hD2 hnum, Option.bind_eq_bind, Option.bind_some, Option.bind_eq_some_iff] at hnodes
  obtain ⟨L, hL, I, hI, ids', -, h⟩ := hnodes
  obtain ⟨rfl, rfl⟩ := Prod.mk.inj (Option.some.inj h)
  refine ⟨facet_blocks_moments hD2 hs hnum Q q2 q3 q4 φ T' s3 s4 hL hw' (by omega) fun l hl => hz l (List.mem_append_left _ hl), fun p hp => ?_⟩
  by_cases hk : 1 < k
  · rw [if_pos hk] at hI
    obtain ⟨Q', q1', q2', q3', q4'⟩ := simplex_rule_spec hgj hD' _ ho q (by omega)
    rw [← verts_ofFn s hs.2.1 hs.1] at q1'
    obtain ⟨v', hv'⟩ := variantName_dual T (.integral q) (k - 2)
    obtain ⟨m, el, nodes', ids'', e1, e2, e3, -, e4, e5⟩ := nedelec_spec hD s hs hnum ho hgj (k - 2) svd (hsvd (by omega)) T _ v' hv'
    obtain ⟨ψ, p1, p2, p3⟩ := nodal_values e4 e5
    obtain ⟨Tv, t1, t2⟩ := p3 Q'.pts
    obtain ⟨m1, m2, m3⟩ := field_moments_spec _ Q' q2' q3' q4' ψ (fun i c => ned_degree (p1 i) c) Tv t2
    unfold bdmInterior at hI
    simp only [interiorDeg, q1', Option.bind_some, e1, t1, Option.map_some] at hI
    rw [Option.some.injEq] at hI
    subst hI
    have h1 := moments_span ψ w (fun j => pderiv j p) (p2 _ (fullDeg_ned fun j => by have := totalDegree_pderiv_sub j p; omega))
      (m3 w (fun j => by have := hw j; omega) fun l hl => hz l (List.mem_append_right _ hl))
    simp only [map_sum] at h1
    exact h1
  · have h0 : ∀ j, pderiv j p = 0 := fun j => by rw [totalDegree_eq_zero_iff_eq_C.1 (show p.totalDegree = 0 by omega), pderiv_C]
    simp [h0]

theorem facetMoments_mono {s : SimplexCell (Fin D → ℝ)} {nrm : ℕ → Option (Fin D → ℝ)} {k k' : ℕ} (h : k' ≤ k) {w : Fin D → MvPolynomial (Fin D) ℝ}
    (hf : FacetMomentsZero s nrm k w) : FacetMomentsZero s nrm k' w := fun e τ n h1 h2 φ hφ => hf e τ n h1 h2 φ (hφ.trans h)

/-- C74: the integral variant of `BrezziDouglasMarini(cell, k)`: the divergence of the interpolant of a field is the L² projection of its
divergence onto the polynomials of degree `k - 1`. -/
theorem bdm_interpolation_commutes (hD : D = 2 ∨ D = 3) (s : SimplexCell (Fin D → ℝ)) (hs : ProperSimplex ℝ s) (hnum : NumberedSimplex s)
    (ho : 0 < orientation fun i : Fin (D + 1) => s.v i) {gj : ℕ → ℕ → List ℝ} (hgj : NodesOK gj)
    {nrm : ℕ → Option (Fin D → ℝ)} (hn : FacetNormals s nrm) (k : ℕ) (hk : 1 ≤ k) (svd : SvdFun)
    (hsvd : 2 ≤ k → ∀ A B, nedRows gj (k - 2) D s = some (A, B) → SvdOK (svd D _) (A ++ B))
    (T : DigitTable) (variant : Option (List Char)) (q : ℕ) (hv : dualVariant T variant k = some (.integral q)) :
    ∃ m el nodes ids, bdm gj k svd T s nrm variant = some (⟨m, el⟩, nodes, ids) ∧
      ∀ w : Fin D → MvPolynomial (Fin D) ℝ, (∀ j, (w j).totalDegree + k ≤ 2 * q - 1) → ∀ c, NodeValues nodes w c →
        L2Projection (fun i : Fin (D + 1) => s.v i) (k - 1) (fun x => ∑ j : Fin D, feValue el c (unitAlpha D j) j x) fun x => ∑ j, eval x (pderiv j (w j)) := by
  obtain ⟨m, el, nodes, ids, h1, h2, h3, -, -, h4⟩ := bdm_spec hD s hs hnum ho hgj hn k hk svd hsvd T variant _ hv
  have hq := dual_variant_degree hv q rfl
  refine ⟨m, el, nodes, ids, h1, fun w hw c hc => ?_⟩
  have hdual : bdmDual gj svd T s nrm k (.integral q) = some (nodes, ids) := by
    unfold bdm at h1
    simp only [hv, Option.bind_eq_bind, Option.bind_some, Option.bind_eq_some_iff] at h1
    obtain ⟨S, -, dual, h5, el', -, h6⟩ := h1
    rw [h5, (Prod.mk.inj (Option.some.inj h6)).2]
  obtain ⟨u, u1, u2, -, u3⟩ := interpolant h3 h4 (linClosed_full k) hc
  have hdeg : ∀ j, (u j).totalDegree ≤ 2 * q - 1 - k := fun j => (u1 j).trans (by omega)
  have hw' : ∀ j, (w j).totalDegree ≤ 2 * q - 1 - k := fun j => by have := hw j; omega
  obtain ⟨f1, f2⟩ := bdm_node_moments hD hs hnum ho hgj hq svd hsvd T hdual (w := u - w) (fun j => by have := sub_degree_le hdeg hw' j; omega) u2
  refine projection_of_moments (u := divergence u) (w := divergence w) (fun x => ?_) (fun x => ?_)
    (divergence_degree (by rw [Nat.sub_add_cancel hk]; exact u1)) fun p hp => ?_
  · unfold divergence
    rw [map_sum]
    exact Finset.sum_congr rfl fun j _ => u3 j j x
  · unfold divergence
    rw [map_sum]
  · rw [← divergence_sub]
    exact divergence_moments (by omega) hs ho hn (facetMoments_mono (by omega) f1) (fun p hp => f2 p (by omega)) p hp

end
end FIAT
