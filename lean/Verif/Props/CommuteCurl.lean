/-
C74: interpolation by the integral variant of Nedelec's first kind elements commutes with the curl.
-/
import Verif.Props.Commute
import Verif.Lemmas.CommuteConv
import Verif.Lemmas.CommuteStokes

open MeasureTheory
namespace FIAT
open MvPolynomial

/-- C74: the integral variant of `Nedelec(triangle, degree + 1)`: the scalar curl of the interpolant of a field is the L² projection of its
scalar curl onto the polynomials of degree `degree`. -/
theorem nedelec_triangle_commutes (s : SimplexCell (Fin 2 → ℝ)) (hs : ProperSimplex ℝ s) (hnum : NumberedSimplex s)
    (ho : 0 < orientation fun i : Fin (2 + 1) => s.v i) {gj : ℕ → ℕ → List ℝ} (hgj : NodesOK gj) (degree : ℕ)
    (svd : SvdFun) (hsvd : ∀ A B, nedRows gj degree 2 s = some (A, B) → SvdOK (svd 2 _) (A ++ B))
    (T : DigitTable) (variant : Option (List Char)) (q : ℕ) (hv : dualVariant T variant degree = some (.integral q)) :
    ∃ m el nodes ids, nedelec gj degree svd T s variant = some (⟨m, el⟩, nodes, ids) ∧
      ∀ w : Fin 2 → MvPolynomial (Fin 2) ℝ, (∀ j, (w j).totalDegree + degree ≤ 2 * q - 1) → ∀ c, NodeValues nodes w c →
        L2Projection (fun i : Fin (2 + 1) => s.v i) degree (fun x => feValue el c [1, 0] 1 x - feValue el c [0, 1] 0 x)
          fun x => eval x (pderiv 0 (w 1)) - eval x (pderiv 1 (w 0)) := by
  obtain ⟨m, el, nodes, ids, h1, h2, h3, -, -, h4⟩ := nedelec_spec (Or.inl rfl) s hs hnum ho hgj degree svd hsvd T variant _ hv
  have hq := dual_variant_degree hv q rfl
  refine ⟨m, el, nodes, ids, h1, fun w hw c hc => ?_⟩
  have hdual : nedDual2 gj s degree (.integral q) = some (nodes, ids) := by
    unfold nedelec at h1
    simp only [hv, Option.bind_eq_bind, Option.bind_some, Option.bind_eq_some_iff] at h1
    obtain ⟨S, -, dual, h5, el', -, h6⟩ := h1
    rw [← (Prod.mk.inj (Option.some.inj h6)).2]
    exact h5
  obtain ⟨u, u1, u2, -, u3⟩ := interpolant h3 h4 (linClosed_ned degree) hc
  have hdeg : ∀ j, (u j).totalDegree ≤ 2 * q - 1 - degree := fun j => (ned_degree u1 j).trans (by omega)
  have hw' : ∀ j, (w j).totalDegree ≤ 2 * q - 1 - degree := fun j => by have := hw j; omega
  obtain ⟨f1, f2⟩ := ned2_node_moments hs hnum ho hgj hq hdual (w := u - w) (fun j => by have := sub_degree_le hdeg hw' j; omega) u2
  refine projection_of_moments (u := scurlP u) (w := scurlP w) (fun x => ?_) (fun x => ?_) (scurl_degree u (ned_degree u1)) fun p hp => ?_
  · have e0 := u3 0 1 x
    have e1 := u3 1 0 x
    rw [show unitAlpha 2 (0 : Fin 2) = [1, 0] from rfl] at e0
    rw [show unitAlpha 2 (1 : Fin 2) = [0, 1] from rfl] at e1
    rw [e0, e1, ← map_sub]
    rfl
  · rw [← map_sub]
    rfl
  · have hsub : scurlP u - scurlP w = scurlP (u - w) := by
      unfold scurlP
      simp only [Pi.sub_apply, map_sub]
      ring
    rw [hsub]
    exact scurl_moments_cell hs ho f1 (scurl_cell f2) p hp

/-- C74: the integral variants on the tetrahedron: the curl of the Nedelec interpolant of a field is the Raviart-Thomas interpolant of its
curl. -/
theorem nedelec_tetrahedron_commutes (s : SimplexCell (Fin 3 → ℝ)) (hs : ProperSimplex ℝ s) (hnum : NumberedSimplex s)
    (ho : 0 < orientation fun i : Fin (3 + 1) => s.v i) {gj : ℕ → ℕ → List ℝ} (hgj : NodesOK gj)
    {nrm : ℕ → Option (Fin 3 → ℝ)} (hn : FacetNormals s nrm) (degree : ℕ)
    (svd : SvdFun) (hsvd : ∀ A B, nedRows gj degree 3 s = some (A, B) → SvdOK (svd 3 _) (A ++ B))
    (svd' : List (Fin 3 → Fin ((degree + 1 + 3).choose 3) → ℝ) → List ℝ × List (Fin 3 → Fin ((degree + 1 + 3).choose 3) → ℝ))
    (hsvd' : ∀ A B, rtRows gj degree s = some (A, B) → SvdOK svd' (A ++ B))
    (T : DigitTable) (variant variant' : Option (List Char)) (q q' : ℕ) (hv : dualVariant T variant degree = some (.integral q))
    (hv' : dualVariant T variant' degree = some (.integral q')) :
    ∃ m el nodes ids m' el' nodes' ids', nedelec gj degree svd T s variant = some (⟨m, el⟩, nodes, ids) ∧
      raviartThomas gj degree svd' T s nrm variant' = some (⟨m', el'⟩, nodes', ids') ∧
      ∀ w : Fin 3 → MvPolynomial (Fin 3) ℝ, (∀ j, (w j).totalDegree + degree ≤ 2 * q - 1) → (∀ j, (w j).totalDegree + degree ≤ 2 * q') →
        ∀ c c', NodeValues nodes w c → NodeValues nodes' (curlP w) c' → ∀ x,
          feValue el c [0, 1, 0] 2 x - feValue el c [0, 0, 1] 1 x = feValue el' c' (noDeriv 3) 0 x ∧
          feValue el c [0, 0, 1] 0 x - feValue el c [1, 0, 0] 2 x = feValue el' c' (noDeriv 3) 1 x ∧
          feValue el c [1, 0, 0] 1 x - feValue el c [0, 1, 0] 0 x = feValue el' c' (noDeriv 3) 2 x := by
  obtain ⟨m, el, nodes, ids, h1, h2, h3, -, -, h4⟩ := nedelec_spec (Or.inr rfl) s hs hnum ho hgj degree svd hsvd T variant _ hv
  obtain ⟨m', el', nodes', ids', h1', h2', h3', -, -, h4'⟩ := raviart_thomas_spec (Or.inr rfl) s hs hnum ho hgj hn degree svd' hsvd' T variant' _ hv'
  have hq := dual_variant_degree hv q rfl
  have hq' := dual_variant_degree hv' q' rfl
  refine ⟨m, el, nodes, ids, m', el', nodes', ids', h1, h1', fun w hw hw2 c c' hc hc' => ?_⟩
  have hdual : nedDual3 gj s degree (.integral q) = some (nodes, ids) := by
    unfold nedelec at h1
    simp only [hv, Option.bind_eq_bind, Option.bind_some, Option.bind_eq_some_iff] at h1
    obtain ⟨S, -, dual, h5, el', -, h6⟩ := h1
    rw [← (Prod.mk.inj (Option.some.inj h6)).2]
    exact h5
  have hdual' : rtDual gj s nrm degree (.integral q') = some (nodes', ids') := by
    unfold raviartThomas at h1'
    simp only [hv', Option.bind_eq_bind, Option.bind_some, Option.bind_eq_some_iff] at h1'
    obtain ⟨S, -, dual, h5, el', -, h6⟩ := h1'
    rw [h5, (Prod.mk.inj (Option.some.inj h6)).2]
  obtain ⟨u, u1, u2, -, u3⟩ := interpolant h3 h4 (linClosed_ned degree) hc
  obtain ⟨r, r1, r2, r3, -⟩ := interpolant h3' h4' (linClosed_rt degree) hc'
  have hdeg : ∀ j, (u j).totalDegree ≤ 2 * q - 1 - degree := fun j => (ned_degree u1 j).trans (by omega)
  have hw' : ∀ j, (w j).totalDegree ≤ 2 * q - 1 - degree := fun j => by have := hw j; omega
  have hw2' : ∀ j, (w j).totalDegree ≤ 2 * q' - degree := fun j => by have := hw2 j; omega
  obtain ⟨f1, f2, f3⟩ := ned3_node_moments hs hnum ho hgj hq hdual (w := u - w) (fun j => by have := sub_degree_le hdeg hw' j; omega) u2
  have hsub : curlP (u - w) = curlP u - curlP w := map_sub curlOp u w
  have hcd : ∀ j, (curlP (u - w) j).totalDegree + degree ≤ 2 * q' - 1 := by
    have hdeg' : ∀ j, (u j).totalDegree ≤ 2 * q' - degree := fun j => (ned_degree u1 j).trans (by omega)
    intro j
    have := curlP_degree (k := 2 * q' - 1 - degree) (w := u - w) (fun j => (sub_degree_le hdeg' hw2' j).trans (by omega)) j
    omega
  have hz := rt_nodes_zero (Or.inr rfl) hs hnum ho hgj hn hq' hdual' hcd (curl_facet_moments hs hn f1 f2) (curl_cell_moments hs ho f2 f3)
  obtain ⟨nodes'', ids'', d1, -, -, -, d5⟩ := rt_dual_spec (Or.inr rfl) s hs hnum ho hgj hn degree (.integral q') (dual_variant_degree hv')
  obtain ⟨rfl, rfl⟩ := Prod.mk.inj (Option.some.inj (hdual'.symm.trans d1))
  have hru : IsRT degree (curlP u - r) := by
    have := linClosed_rt degree 2 ![1, -1] ![curlP u, r] (fun i => by
      fin_cases i
      · exact fullDeg_rt (curlP_degree (ned_degree u1))
      · exact r1)
    rw [Fin.sum_univ_two] at this
    simpa [sub_eq_add_neg] using this
  have hur : curlP u - r = 0 := by
    refine d5 _ hru fun l hl => ?_
    have e1 := hz l hl
    have e2 := r2 l hl
    rw [hsub, onField_sub] at e1
    rw [onField_sub] at e2 ⊢
    linarith
  have hr : r = curlP u := (sub_eq_zero.1 hur).symm
  intro x
  have e0 : unitAlpha 3 (0 : Fin 3) = [1, 0, 0] := rfl
  have e1 : unitAlpha 3 (1 : Fin 3) = [0, 1, 0] := rfl
  have e2 : unitAlpha 3 (2 : Fin 3) = [0, 0, 1] := rfl
  simp only [r3, ← e0, ← e1, ← e2, u3, hr, ← map_sub]
  exact ⟨rfl, rfl, rfl⟩

end FIAT
