/-
C23: the Brezzi-Douglas-Marini element, FIAT/brezzi_douglas_marini.py.
-/
import Verif.Lemmas.FieldMoments
import Verif.Props.NedelecElement

namespace FIAT
open MvPolynomial
section
variable {D : ℕ}

theorem variantName_dual (T : DigitTable) (v : DualVariant) (degree : ℕ) :
    ∃ v', dualVariant T (some (variantName v)) degree = some v' := by
  cases v with
  | point => exact ⟨.point, rfl⟩
  | integral q =>
    refine ⟨.integral (5 * (degree + 1)), ?_⟩
    unfold dualVariant variantName
    rw [variant_integral]

theorem ned_degree {k : ℕ} {w : Fin D → MvPolynomial (Fin D) ℝ} (hw : IsNed k w) (j : Fin D) : (w j).totalDegree ≤ k + 1 :=
  (ned_dotX hw).1 j

/-- The number of interior dofs of the BDM element: the dimension of the Nedelec space of degree `k - 1`. -/
def bdmInner (D k : ℕ) : ℕ := if 1 < k then nedDim D (k - 2) else 0

theorem bdm_count (hD : D = 2 ∨ D = 3) (k : ℕ) (hk : 1 ≤ k) :
    (D + 1) * (k + (D - 1)).choose (D - 1) + bdmInner D k = D * (k + D).choose D := by
  obtain ⟨k, rfl⟩ : ∃ k', k = k' + 1 := ⟨k - 1, by omega⟩
  unfold bdmInner nedDim
  rcases hD with rfl | rfl
  · have h1 := choose_two' (k + 1)
    rw [show k + 1 + (2 - 1) = k + 2 by omega, show (2 - 1 : ℕ) = 1 from rfl, Nat.choose_one_right]
    by_cases hk : 1 < k + 1
    · rw [if_pos hk, if_pos rfl]
      obtain ⟨j, rfl⟩ : ∃ j, k = j + 1 := ⟨k - 1, by omega⟩
      rw [show j + 1 + 1 - 2 = j by omega]
      nlinarith
    · rw [if_neg hk]
      obtain rfl : k = 0 := by omega
      rfl
  · have h1 := choose_two' (k + 1)
    have h2 := choose_three' (k + 1)
    rw [show k + 1 + (3 - 1) = k + 1 + 2 by omega, show (3 - 1 : ℕ) = 2 from rfl]
    by_cases hk : 1 < k + 1
    · rw [if_pos hk, if_neg (by omega)]
      obtain ⟨j, rfl⟩ : ∃ j, k = j + 1 := ⟨k - 1, by omega⟩
      rw [show j + 1 + 1 - 2 = j by omega]
      have h3 : 2 ∣ (j + 1) * (j + 3) * (j + 4) := by
        have := (Nat.even_mul_succ_self (j + 3)).two_dvd
        rw [mul_assoc]
        exact this.mul_left _
      obtain ⟨c, hc⟩ := h3
      rw [hc, Nat.mul_div_cancel_left _ two_pos]
      nlinarith
    · rw [if_neg hk]
      obtain rfl : k = 0 := by omega
      rfl

/-- The facet blocks. -/
theorem bdm_facets_spec (hD : D = 2 ∨ D = 3) {s : SimplexCell (Fin D → ℝ)} (hs : ProperSimplex ℝ s) (hnum : NumberedSimplex s)
    {gj : ℕ → ℕ → List ℝ} (hgj : NodesOK gj) {nrm : ℕ → Option (Fin D → ℝ)} (hn : FacetNormals s nrm) (k : ℕ) (v : DualVariant)
    (hv : ∀ q, v = .integral q → k + 1 ≤ q) :
    ∃ F, bdmFacets gj s nrm k v = some ((List.range (D + 1)).map F) ∧ ∀ e < D + 1, FacetBlock s nrm k e (F e) := by
  have hD2 : 2 ≤ D := by omega
  cases v with
  | point =>
    obtain ⟨F, f1, f2⟩ := facet_point_blocks hD2 hs hnum hn k
    refine ⟨F, ?_, f2⟩
    simp only [bdmFacets, numEnts_facets hD2 hnum, f1, Option.bind_some]
  | integral q =>
    have hq := hv q rfl
    obtain ⟨G, g1, g2, g3, g4, g5⟩ := ufc_cell_spec (d := D - 1) (by omega)
    obtain ⟨Q, q1, q2, q3, q4⟩ := simplex_rule_spec hgj (D := D - 1) (by omega) (ufcVerts ℝ (D - 1)) g5 q (by omega)
    obtain ⟨S, T, s1, s2, φ, s3, s4⟩ := scalar_values (by omega) G g2 g3 k Q.pts
    obtain ⟨F, f1, f2⟩ := facet_moment_blocks hD2 hs hnum hn k Q q2 (by omega) q3 q4 φ T s3 s4
    rw [← g4] at q1
    refine ⟨F, ?_, f2⟩
    simp only [bdmFacets, g1, q1, s1, s2, numEnts_facets hD2 hnum, f1, Option.bind_eq_bind, Option.bind_some]

/-- The interior nodes: with vanishing normal components they determine a field of degree `k`. -/
theorem bdm_interior_spec (hD : D = 2 ∨ D = 3) {s : SimplexCell (Fin D → ℝ)} (hs : ProperSimplex ℝ s) (hnum : NumberedSimplex s)
    (ho : 0 < orientation fun i : Fin (D + 1) => s.v i) {gj : ℕ → ℕ → List ℝ} (hgj : NodesOK gj)
    {nrm : ℕ → Option (Fin D → ℝ)} (hn : FacetNormals s nrm) (k : ℕ) (svd : SvdFun)
    (hsvd : 2 ≤ k → ∀ A B, nedRows gj (k - 2) D s = some (A, B) → SvdOK (svd D _) (A ++ B)) (T : DigitTable) (v : DualVariant)
    (hv : ∀ q, v = .integral q → k + 1 ≤ q) :
    ∃ I, (if 1 < k then bdmInterior gj svd T s k v else some []) = some I ∧ I.length = bdmInner D k ∧ (∀ l ∈ I, PlainNode l) ∧
      ∀ w, FullDeg k w → NormalZero s nrm w → (∀ l ∈ I, l.onField (fieldOf w) = 0) → w = 0 := by
  have hD' : D = 1 ∨ D = 2 ∨ D = 3 := Or.inr hD
  obtain ⟨g, b, hb⟩ := baryForms_exist _ (proper_independent hs)
  unfold bdmInner
  by_cases hk : 1 < k
  · rw [if_pos hk, if_pos hk]
    have hq : k + 1 ≤ interiorDeg k v := by
      cases v with
      | point => simp only [interiorDeg]; omega
      | integral q => exact hv q rfl
    obtain ⟨Q, q1, q2, q3, q4⟩ := simplex_rule_spec hgj hD' _ ho (interiorDeg k v) (by omega)
    rw [← verts_ofFn s hs.2.1 hs.1] at q1
    obtain ⟨v', hv'⟩ := variantName_dual T v (k - 2)
    obtain ⟨m, el, nodes, ids, e1, e2, e3, -, e4, e5⟩ := nedelec_spec hD s hs hnum ho hgj (k - 2) svd (hsvd (by omega)) T _ v' hv'
    obtain ⟨ψ, p1, p2, p3⟩ := nodal_values e4 e5
    obtain ⟨Tv, t1, t2⟩ := p3 Q.pts
    obtain ⟨m1, m2, m3⟩ := field_moments_spec _ Q q2 q3 q4 ψ (fun i c => ned_degree (p1 i) c) Tv t2
    refine ⟨fieldMoments Q Tv, ?_, m1.trans e2, m2, fun w hw hz hI => ?_⟩
    · unfold bdmInterior
      rw [q1, Option.bind_some, e1, Option.bind_some]
      simp only [t1, Option.map_some]
    · refine bdm_core (by omega) hb (proper_independent hs) hw (normalZero_bary (by omega) hs hn hb hz) fun p _ hp => ?_
      exact moments_span ψ w p (p2 p hp) (m3 w (fun j => by have := hw j; omega) hI)
  · rw [if_neg hk, if_neg hk]
    refine ⟨[], rfl, rfl, by simp, fun w hw hz _ => ?_⟩
    exact bdm_core (by omega) hb (proper_independent hs) hw (normalZero_bary (by omega) hs hn hb hz) fun p h _ => by omega

/-- Dofs and separation of `BDMDualSet`. -/
theorem bdm_dual_spec (hD : D = 2 ∨ D = 3) (s : SimplexCell (Fin D → ℝ)) (hs : ProperSimplex ℝ s) (hnum : NumberedSimplex s)
    (ho : 0 < orientation fun i : Fin (D + 1) => s.v i) {gj : ℕ → ℕ → List ℝ} (hgj : NodesOK gj)
    {nrm : ℕ → Option (Fin D → ℝ)} (hn : FacetNormals s nrm) (k : ℕ) (hk1 : 1 ≤ k) (svd : SvdFun)
    (hsvd : 2 ≤ k → ∀ A B, nedRows gj (k - 2) D s = some (A, B) → SvdOK (svd D _) (A ++ B)) (T : DigitTable) (v : DualVariant)
    (hv : ∀ q, v = .integral q → k + 1 ≤ q) :
    ∃ nodes ids, bdmDual gj svd T s nrm k v = some (nodes, ids) ∧ nodes.length = D * (k + D).choose D ∧
      (∀ l ∈ nodes, PlainNode l) ∧
      HDivDofs s nrm (FullDeg k) ((k + (D - 1)).choose (D - 1)) (bdmInner D k) nodes ids ∧
      ∀ w, FullDeg k w → (∀ l ∈ nodes, l.onField (fieldOf w) = 0) → w = 0 := by
  have hD2 : 2 ≤ D := by omega
  obtain ⟨F, f1, hF⟩ := bdm_facets_spec hD hs hnum hgj hn k v hv
  obtain ⟨I, i1, i2, i3, i4⟩ := bdm_interior_spec hD hs hnum ho hgj hn k svd hsvd T v hv
  obtain ⟨t0, ht0⟩ := facet_exists hD2 hnum (e := 0) (by omega)
  obtain ⟨pts, p1, p2, -, -⟩ := entity_points hs (by omega) (by omega) ht0 k
  rw [show k + (D - 1) + 1 = D + k by omega] at p1
  obtain ⟨ids, d1, d2⟩ := facetIds_spec hD2 hnum k (if 1 < k then some I.length else none) p1
    (fun x => if x.1 = D then I else F x.2) (fun e he => by rw [if_neg (by dsimp only; omega), (hF e he).1, p2]) (by
      rw [if_pos rfl]
      by_cases hk : 1 < k
      · rw [if_pos hk, Option.getD_some]
      · rw [if_neg hk, i2, bdmInner, if_neg hk]; rfl)
  rw [flatMap_blocks hD2] at d2
  have htr : ∀ w, FullDeg k w → ∀ e t n, HasEntity s.topo (D - 1) e t → nrm e = some n →
      ∃ p : MvPolynomial (Fin D) ℝ, p.totalDegree ≤ k ∧ ∀ x, OnEntity s t x → ∑ j, n j * eval x (w j) = eval x p := by
    intro w hw e t n _ _
    refine ⟨∑ j, C (n j) * w j, sum_degree _ _ _ fun j _ => Cmul_degree _ (hw j), fun x _ => ?_⟩
    rw [map_sum]
    exact Finset.sum_congr rfl fun j _ => by rw [map_mul, eval_C]
  have hdofs := hdiv_dofs hD2 hnum k _ (FullDeg k) htr F hF I i2 d2
  have hfl : ∀ l, l ∈ ((List.range (D + 1)).map F).flatten ↔ ∃ e, e < D + 1 ∧ l ∈ F e := by
    intro l
    simp only [List.mem_flatten, List.mem_map, List.mem_range]
    constructor
    · rintro ⟨_, ⟨e, he, rfl⟩, hl⟩; exact ⟨e, he, hl⟩
    · rintro ⟨e, he, hl⟩; exact ⟨_, ⟨e, he, rfl⟩, hl⟩
  refine ⟨_, ids, ?_, ?_, ?_, hdofs, ?_⟩
  · unfold bdmDual
    simp only [f1, i1, d1, Option.bind_eq_bind, Option.bind_some]
  · rw [← bdm_count hD k hk1, List.length_append, List.length_flatten, List.map_map, i2]
    have : (List.range (D + 1)).map (List.length ∘ F) = (List.range (D + 1)).map fun _ => (k + (D - 1)).choose (D - 1) :=
      List.map_congr_left fun e he => (hF e (List.mem_range.1 he)).1
    rw [this]
    simp
  · intro l hl
    rcases List.mem_append.1 hl with h | h
    · obtain ⟨e, he, h⟩ := (hfl l).1 h
      exact (hF e he).2.1 l h
    · exact i3 l h
  · intro w hw hz
    refine i4 w hw ?_ fun l hl => hz l (List.mem_append_right _ hl)
    intro e t n h hne
    have he : e < D + 1 := by
      have := ((hnum.1 (D - 1) (by omega)).2 e).1 ⟨t, h⟩
      rw [Nat.sub_add_cancel (by omega)] at this
      simpa using this
    obtain ⟨p, p1, p2⟩ := htr w hw e t n h hne
    exact ((hF e he).2.2 t h n hne w p p1 p2).1 fun l hl => hz l (List.mem_append_left _ ((hfl l).2 ⟨e, he, hl⟩))

/-- C23: `BrezziDouglasMarini(cell, k, variant)` on a triangle or tetrahedron, for every `k ≥ 1` and every variant string
`check_format_variant` accepts.  The element has `D dim P_k` dofs, `dim P_k(facet)` on each facet; `entity_dofs` is a partition of
`range(#dofs)`; the functions it tabulates are the basis of `P_k^D` dual to its nodes; the dofs of a facet determine the normal
component there.  For `k ≥ 2` the interior nodes use a Nedelec element, whose construction calls the SVD. -/
theorem bdm_spec (hD : D = 2 ∨ D = 3) (s : SimplexCell (Fin D → ℝ)) (hs : ProperSimplex ℝ s) (hnum : NumberedSimplex s)
    (ho : 0 < orientation fun i : Fin (D + 1) => s.v i) {gj : ℕ → ℕ → List ℝ} (hgj : NodesOK gj)
    {nrm : ℕ → Option (Fin D → ℝ)} (hn : FacetNormals s nrm) (k : ℕ) (hk : 1 ≤ k) (svd : SvdFun)
    (hsvd : 2 ≤ k → ∀ A B, nedRows gj (k - 2) D s = some (A, B) → SvdOK (svd D _) (A ++ B))
    (T : DigitTable) (variant : Option (List Char)) (v : DualVariant) (hv : dualVariant T variant k = some v) :
    ∃ m el nodes ids, bdm gj k svd T s nrm variant = some (⟨m, el⟩, nodes, ids) ∧
      m = D * (k + D).choose D ∧ nodes.length = m ∧
      HDivDofs s nrm (FullDeg k) ((k + (D - 1)).choose (D - 1)) (bdmInner D k) nodes ids ∧
      el.sd = D ∧ IsNodalElement (FullDeg k) nodes el := by
  obtain ⟨m, S, s1, s2, s3, φ, s6, s7, s8, s9⟩ := vec_space_spec hD s hs ho k hk
  obtain ⟨nodes, ids, d1, d2, d3, d4, d5⟩ := bdm_dual_spec hD s hs hnum ho hgj hn k hk svd hsvd T v (dual_variant_degree hv)
  have hm : 1 ≤ m := by
    rw [s3]
    exact Nat.mul_pos (by omega) (Nat.choose_pos (by omega))
  obtain ⟨el, e1, e0, -, -, -, -, e2⟩ := vector_element_nodal (by omega) φ S s2 s6 s7 (FullDeg k) s8 s9 nodes (d2.trans s3.symm) hm
    d3 d5
  refine ⟨m, el, nodes, ids, ?_, s3, d2.trans s3.symm, d4, e0, e2⟩
  unfold bdm
  simp only [hv, s1, d1, e1, if_neg (by omega : ¬ k < 1), Option.bind_eq_bind, Option.bind_some]

/-- Below degree one the constructor raises. -/
theorem bdm_degree_zero (gj : ℕ → ℕ → List ℝ) (svd : SvdFun) (T : DigitTable) (s : SimplexCell (Fin D → ℝ))
    (nrm : ℕ → Option (Fin D → ℝ)) (variant : Option (List Char)) : bdm gj 0 svd T s nrm variant = none := by
  unfold bdm
  cases dualVariant T variant 0 <;> rfl

end
end FIAT
