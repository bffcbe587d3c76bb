/-
C50: the Morley element (FIAT/morley.py).
-/
import Verif.Lemmas.TriangleDual
import Verif.Lemmas.AffinePoly
import Verif.Props.Argyris

namespace FIAT
open MvPolynomial
section
variable {s : SimplexCell (Fin 2 → ℝ)} {nrm : ℕ → Option (Fin 2 → ℝ)}

/-- The nodes of the entities. -/
noncomputable def morleyBlk (s : SimplexCell (Fin 2 → ℝ)) (nrm : ℕ → Option (Fin 2 → ℝ)) (x : ℕ × ℕ) : List (Functional ℝ (Fin 2 → ℝ)) :=
  if x.1 = 0 then [pointEvaluation (s.v x.2)]
  else if x.1 = 1 then ((midpointNormal s nrm x.2).getD []).flatMap Prod.snd
  else []

theorem midpoint_edge (hs : ProperSimplex ℝ s) {e a c : ℕ} (h : HasEntity s.topo 1 e [a, c]) {n : Fin 2 → ℝ} (hn : nrm e = some n) :
    midpointNormal s nrm e = some [(1, [pointNormalDerivative 2 (vecNat n) (s.v a + (1 / 2 : ℝ) • (s.v c - s.v a))])] := by
  unfold midpointNormal
  rw [edge_list (by norm_num) hs h 2, hn]
  simp [edgePt]

theorem morley_dual_blocks (hs : ProperSimplex ℝ s) (hnum : NumberedSimplex s) (hn : FacetNormals s nrm) :
    ∃ nodes ids, morleyDual s nrm = some (nodes, ids) ∧ EntityBlocks s.topo (allEnts 2) (morleyBlk s nrm) nodes ids := by
  obtain ⟨st0, st1, a1, a2, a3⟩ := triangle_dual hnum (blk := morleyBlk s nrm)
    (fun v => (s.verts[v]?).map fun x => [(1, [pointEvaluation x])]) (fun e => midpointNormal s nrm e) (by
      intro v hv
      refine ⟨[(1, [pointEvaluation (s.v v)])], ?_, by simp, by simp [morleyBlk]⟩
      simp only [vertex_get hs hv, Option.map_some]) (by
      intro e t h
      obtain ⟨a, c, rfl, -⟩ := edge_tuple hs h
      obtain ⟨n, n1, -⟩ := hn e _ h
      exact ⟨_, midpoint_edge hs h n1, by simp, by simp [morleyBlk, midpoint_edge hs h n1]⟩)
  unfold morleyDual
  simp only [a1, a2, Option.bind_eq_bind, Option.bind_some]
  have hb : morleyBlk s nrm (2, 0) = [] := by simp [morleyBlk]
  rw [hb] at a3
  refine ⟨_, _, rfl, ?_⟩
  have := a3 (Dict.put st1.2.2 2 [(0, [])]) fun d e => by
    rw [EntityIds.at?_put]
    by_cases hd2 : d = 2
    · subst hd2
      by_cases he : e = 0
      · subst he; simp [Dict.get?]
      · rw [if_pos rfl, if_pos rfl, if_neg he]
        simp [Dict.get?, Ne.symm he]
    · rw [if_neg (fun h => hd2 h.symm), if_neg hd2]
  simpa using this

private theorem plane_zero {n u : Fin 2 → ℝ} {w : Fin 2 → ℝ} (hn : n ≠ 0) (hu : u ≠ 0) (hnu : ∑ j, n j * u j = 0)
    (hnw : ∑ j, n j * w j = 0) (huw : ∑ j, u j * w j = 0) : w = 0 := by
  rw [Fin.sum_univ_two] at hnu hnw huw
  have hn2 : 0 < n 0 ^ 2 + n 1 ^ 2 := by
    by_contra hc
    apply hn
    funext j
    have h0 : n 0 = 0 := by nlinarith [sq_nonneg (n 0), sq_nonneg (n 1)]
    have h1 : n 1 = 0 := by nlinarith [sq_nonneg (n 0), sq_nonneg (n 1)]
    fin_cases j
    · exact h0
    · exact h1
  have hu2 : 0 < u 0 ^ 2 + u 1 ^ 2 := by
    by_contra hc
    apply hu
    funext j
    have h0 : u 0 = 0 := by nlinarith [sq_nonneg (u 0), sq_nonneg (u 1)]
    have h1 : u 1 = 0 := by nlinarith [sq_nonneg (u 0), sq_nonneg (u 1)]
    fin_cases j
    · exact h0
    · exact h1
  have hdet : (n 0 * u 1 - n 1 * u 0) ^ 2 = (n 0 ^ 2 + n 1 ^ 2) * (u 0 ^ 2 + u 1 ^ 2) := by
    have : (n 0 ^ 2 + n 1 ^ 2) * (u 0 ^ 2 + u 1 ^ 2) = (n 0 * u 1 - n 1 * u 0) ^ 2 + (n 0 * u 0 + n 1 * u 1) ^ 2 := by ring
    rw [this, hnu]; ring
  have hd : n 0 * u 1 - n 1 * u 0 ≠ 0 := by
    intro h0
    rw [h0] at hdet
    have := mul_pos hn2 hu2
    rw [← hdet] at this
    norm_num at this
  have w0 : (n 0 * u 1 - n 1 * u 0) * w 0 = 0 := by linear_combination u 1 * hnw - n 1 * huw
  have w1 : (n 0 * u 1 - n 1 * u 0) * w 1 = 0 := by linear_combination n 0 * huw - u 0 * hnw
  funext j
  fin_cases j
  · exact (mul_eq_zero.1 w0).resolve_left hd
  · exact (mul_eq_zero.1 w1).resolve_left hd

/-- On an edge of a triangle, with `p` quadratic: end values and the normal derivative at the midpoint determine the gradient there. -/
theorem morley_gradient (hs : ProperSimplex ℝ s) (hn : FacetNormals s nrm) {e a c : ℕ} (h : HasEntity s.topo 1 e [a, c]) {n : Fin 2 → ℝ}
    (hne : nrm e = some n) (p : MvPolynomial (Fin 2) ℝ) (hp : p.totalDegree ≤ 2) (ha : eval (s.v a) p = 0) (hc : eval (s.v c) p = 0)
    (hz : ∑ j, n j * eval (s.v a + (1 / 2 : ℝ) • (s.v c - s.v a)) (pderiv j p) = 0) (j : Fin 2) :
    eval (s.v a + (1 / 2 : ℝ) • (s.v c - s.v a)) (pderiv j p) = 0 := by
  have ht := midpoint_derivative (s.v a) (s.v c - s.v a) p hp ha (by rw [add_sub_cancel]; exact hc)
  rw [eval_dirD] at ht
  obtain ⟨n', n1, n2, n3⟩ := hn e _ h
  rw [hne, Option.some.injEq] at n1
  subst n1
  have hperp := n3 c (by simp) a (by simp)
  obtain ⟨a', c', hac', hac, ha3, hc3⟩ := edge_tuple hs h
  obtain ⟨rfl, rfl⟩ : a = a' ∧ c = c' := by simpa using hac'
  have hu : s.v c - s.v a ≠ 0 := by
    intro h0
    have hinj := (proper_independent hs).injective
    have := @hinj ⟨a, ha3⟩ ⟨c, hc3⟩ (sub_eq_zero.1 h0).symm
    exact hac (Fin.mk.inj this)
  exact congrFun (plane_zero n2 hu hperp hz ht) j

/-- C50: `Morley(triangle)`: vertex values and normal derivatives at the edge midpoints; the element tabulates the basis of `P_2` dual
to them; the dofs on the closure of an edge determine the values at its ends and the whole gradient at its midpoint. -/
theorem morley_spec (s : SimplexCell (Fin 2 → ℝ)) (hs : ProperSimplex ℝ s) (hnum : NumberedSimplex s)
    (nrm : ℕ → Option (Fin 2 → ℝ)) (hn : FacetNormals s nrm) :
    ∃ el nodes ids, morley s nrm = some (el, nodes, ids) ∧ IsNodalScalar 2 nodes el ∧ ProperDofs s nodes ids ∧
      (∀ v < 3, DofsOf nodes ids 0 v fun p => [eval (s.v v) p]) ∧
      (∀ e a c n, HasEntity s.topo 1 e [a, c] → nrm e = some n →
        DofsOf nodes ids 1 e fun p => [∑ j, n j * eval (s.v a + (1 / 2 : ℝ) • (s.v c - s.v a)) (pderiv j p)]) ∧
      ids.at? 2 0 = some [] ∧
      ∀ e a c, HasEntity s.topo 1 e [a, c] → ∀ p : MvPolynomial (Fin 2) ℝ, p.totalDegree ≤ 2 → ZeroOnClosure s nodes ids [a, c] p →
        eval (s.v a) p = 0 ∧ eval (s.v c) p = 0 ∧ ∀ j, eval (s.v a + (1 / 2 : ℝ) • (s.v c - s.v a)) (pderiv j p) = 0 := by
  obtain ⟨nodes, ids, h1, h2⟩ := morley_dual_blocks hs hnum hn
  have hmem : ∀ {d e t}, HasEntity s.topo d e t → (d, e) ∈ allEnts 2 := fun h => (mem_allEnts hnum _).2 ⟨_, h⟩
  have hvert : ∀ v p, (morleyBlk s nrm (0, v)).map (fun node => node.onField (scalarField p)) = [eval (s.v v) p] := by
    intro v p
    simp [morleyBlk, point_eval_scalar]
  have hedge : ∀ e a c n, HasEntity s.topo 1 e [a, c] → nrm e = some n → ∀ p,
      (morleyBlk s nrm (1, e)).map (fun node => node.onField (scalarField p)) =
        [∑ j, n j * eval (s.v a + (1 / 2 : ℝ) • (s.v c - s.v a)) (pderiv j p)] := by
    intro e a c n h hne p
    simp only [morleyBlk, one_ne_zero, if_false, if_true, midpoint_edge hs h hne]
    simp only [Option.getD_some, List.flatMap_cons, List.flatMap_nil, List.append_nil, List.map_cons, List.map_nil]
    rw [point_normal_scalar, eval_dirD]
  have htr : ∀ e a c, HasEntity s.topo 1 e [a, c] → ∀ p : MvPolynomial (Fin 2) ℝ, p.totalDegree ≤ 2 → ZeroOnClosure s nodes ids [a, c] p →
        eval (s.v a) p = 0 ∧ eval (s.v c) p = 0 ∧ ∀ j, eval (s.v a + (1 / 2 : ℝ) • (s.v c - s.v a)) (pderiv j p) = 0 := by
    intro e a c h p hp hz
    have hlt := (hs.2.1.entity _ _ _ h).2.2
    rw [hs.1] at hlt
    have hv : ∀ b ∈ [a, c], eval (s.v b) p = 0 := by
      intro b hb
      have := scalar_block_zero hnum h2 hz (vertex_entity hs hnum (hlt b hb)) (by simpa using hb)
      rw [hvert] at this
      exact this _ (by simp)
    obtain ⟨n, n1, -⟩ := hn e _ h
    have := scalar_block_zero hnum h2 hz h fun a ha => ha
    rw [hedge e a c n h n1] at this
    exact ⟨hv a (by simp), hv c (by simp), morley_gradient hs hn h n1 p hp (hv a (by simp)) (hv c (by simp)) (this _ (by simp))⟩
  obtain ⟨tc, htc, -, -, -⟩ := cell_entity hs hnum
  have hlen : nodes.length = (2 + 2).choose 2 := by
    rw [triangle_length hnum h2 1 1 0 (fun v _ => by simp [morleyBlk]) (by
      intro e t h
      obtain ⟨a, c, rfl, -⟩ := edge_tuple hs h
      obtain ⟨n, n1, -⟩ := hn e _ h
      simp [morleyBlk, midpoint_edge hs h n1]) (by simp [morleyBlk])]
    rfl
  have hsep : Separates 2 nodes := by
    intro p hp hz
    have hcl := closure_of_all (s := s) ids hz
    have hgrad : ∀ j, pderiv j p = 0 := by
      intro j
      refine affine_zero_of_facets (by norm_num) hs (pderiv j p) ((totalDegree_pderiv_sub j p).trans (by omega)) ?_
      intro e t h
      obtain ⟨a, c, rfl, -⟩ := edge_tuple hs (e := e) (t := t) h
      have := (htr e a c h p hp (hcl _)).2.2 j
      rw [← this]
      congr 2
      simp only [List.map_cons, List.map_nil, List.sum_cons, List.sum_nil, add_zero, Nat.cast_ofNat]
      rw [smul_sub, smul_add]
      module
    have h0 : eval (s.v 0) p = 0 := by
      have := scalar_block_zero hnum h2 (hcl [0]) (vertex_entity hs hnum (v := 0) (by norm_num)) (by simp)
      rw [hvert] at this
      exact this _ (by simp)
    refine MvPolynomial.funext fun x => ?_
    rw [const_of_grad p hgrad x (s.v 0), h0, map_zero]
  obtain ⟨el, e1, e2⟩ := functional_element_spec (Or.inr (Or.inl rfl)) s hs (fun h => absurd h (by norm_num)) 2 nodes hlen (by
      intro l hl
      rw [h2.1, List.mem_flatMap] at hl
      obtain ⟨⟨d, e⟩, hx, hl⟩ := hl
      obtain ⟨t, ht⟩ := (mem_allEnts hnum _).1 hx
      by_cases hd0 : d = 0
      · subst hd0
        simp only [morleyBlk, if_true, List.mem_singleton] at hl
        subst hl
        exact wf_eval _
      by_cases hd1 : d = 1
      · subst hd1
        obtain ⟨a, c, rfl, -⟩ := edge_tuple hs ht
        obtain ⟨n, n1, -⟩ := hn e _ ht
        simp only [morleyBlk, one_ne_zero, if_false, if_true, midpoint_edge hs ht n1] at hl
        simp only [Option.getD_some, List.flatMap_cons, List.flatMap_nil, List.append_nil, List.mem_singleton] at hl
        subst hl
        exact wf_normal _ _
      · simp [morleyBlk, hd0, hd1] at hl)
    (by
      left
      obtain ⟨t, ht⟩ := ((hnum.1 1 (by omega)).2 0).2 (by decide)
      obtain ⟨a, c, rfl, -⟩ := edge_tuple hs ht
      obtain ⟨n, n1, -⟩ := hn 0 _ ht
      refine ⟨pointNormalDerivative 2 (vecNat n) (s.v a + (1 / 2 : ℝ) • (s.v c - s.v a)), ?_, ?_⟩
      · rw [h2.1, List.mem_flatMap]
        refine ⟨(1, 0), hmem ht, ?_⟩
        simp [morleyBlk, midpoint_edge hs ht n1]
      · simp [pointNormalDerivative, Functional.maxDerivOrder, unitAlpha, List.range_succ])
    hsep
  refine ⟨el, nodes, ids, ?_, e2, ⟨h2.layout.1, h2.layout.2.1⟩, ?_, ?_, ?_, htr⟩
  · unfold morley
    simp only [h1, e1, Option.bind_eq_bind, Option.bind_some]
  · intro v hv'
    exact h2.dofsOf (hmem (vertex_entity hs hnum hv')) _ (hvert v)
  · intro e a c n h hne
    exact h2.dofsOf (hmem h) _ (hedge e a c n h hne)
  · obtain ⟨l, k1, k2⟩ := h2.layout.2.2 2 0 (hmem htc)
    rw [k1]
    simp only [morleyBlk, OfNat.ofNat_ne_zero, if_false, List.map_nil, List.map_eq_nil_iff, show (2 : ℕ) ≠ 1 by norm_num] at k2
    rw [k2]

/-- The hypotheses are met by the UFC triangle. -/
example : ∃ el nodes ids, morley ((ufcTriangle : CellData ℝ).toSimplex 2) (ufcNormal 2 ((ufcTriangle : CellData ℝ).toSimplex 2)) =
    some (el, nodes, ids) ∧ nodes.length = 6 := by
  obtain ⟨el, nodes, ids, h1, ⟨_, _, _, h2, _⟩, -⟩ := morley_spec _ proper_ufcTriangle numbered_ufcTriangle _
    (ufc_triangle_unit_normals _ proper_ufcTriangle)
  exact ⟨el, nodes, ids, h1, h2⟩

end
end FIAT
