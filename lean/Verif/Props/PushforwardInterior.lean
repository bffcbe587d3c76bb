/-
C89: the interior dofs of the point variant of the Raviart-Thomas element are not carried by the mapping that the class reports.
-/
import Verif.Props.PushforwardExample

namespace FIAT
open MvPolynomial
section
variable {D : ℕ} {A : Matrix (Fin D) (Fin D) ℝ} {b : Fin D → ℝ} {s s' : SimplexCell (Fin D → ℝ)}

theorem flatten_block {α : Type} : ∀ (L : List (List α)) (c : ℕ) (row : List α), L[c]? = some row → ∀ x, row[0]? = some x →
    L.flatten[((L.take c).map List.length).sum]? = some x
  | [], c, row, h, x, hx => by simp at h
  | r :: L, 0, row, h, x, hx => by
    have hr : r = row := by simpa using h
    subst hr
    have : 0 < r.length := (List.getElem?_eq_some_iff.1 hx).1
    rw [List.take_zero, List.map_nil, List.sum_nil, List.flatten_cons, List.getElem?_append_left this, hx]
  | r :: L, c + 1, row, h, x, hx => by
    have ih := flatten_block L c row (by simpa using h) x hx
    rw [List.take_succ_cons, List.map_cons, List.sum_cons, List.flatten_cons, List.getElem?_append_right (by omega), Nat.add_sub_cancel_left]
    exact ih

/-- The interior nodes of the point variant: for each component and each point the value of the component there. -/
theorem rt_interior_nodes (hD : D = 2 ∨ D = 3) (hs : ProperSimplex ℝ s) (hnum : NumberedSimplex s)
    {nrm : ℕ → Option (Fin D → ℝ)} (hn : FacetNormals s nrm) {k : ℕ} (hk : k ≠ 0) {nodes ids} {gj : ℕ → ℕ → List ℝ}
    (hd : rtDual gj s nrm k .point = some (nodes, ids)) :
    ∃ pts Fl, makePoints ℝ s D 0 (k + D) = some pts ∧ pts ≠ [] ∧ nodes.length = Fl + D * pts.length ∧
      ∀ c : Fin D, ∃ a x, pts[0]? = some x ∧ nodes[Fl + c * pts.length]? = some a ∧
        ∀ w : Fin D → MvPolynomial (Fin D) ℝ, a.onField (fieldOf w) = eval x (w c) := by
  obtain ⟨F, f1, f2⟩ := facet_point_blocks (by omega) hs hnum hn k
  obtain ⟨pts, p1, p2, p3⟩ := dmats_points_unisolvent s hs.1 hs.2.1 hs.2.2.1 (by omega) (k - 1)
  rw [show k - 1 + D + 1 = k + D by omega] at p1
  have hpos : 0 < pts.length := by rw [p2]; exact Nat.choose_pos (by omega)
  obtain ⟨G, g1, g2⟩ := mapM_choose D (fun (d : ℕ) => pts.mapM fun pt => componentPointEvaluation (d : ℤ) [D] pt)
    (fun c (row : List (Functional ℝ (Fin D → ℝ))) => row.length = pts.length ∧ ∀ hc : c < D, ∃ a x, pts[0]? = some x ∧ row[0]? = some a ∧
        ∀ w : Fin D → MvPolynomial (Fin D) ℝ, a.onField (fieldOf w) = eval x (w ⟨c, hc⟩)) (by
      intro c hc
      have hex : ∀ x : Fin D → ℝ, ∃ l, componentPointEvaluation ((c : ℕ) : ℤ) [D] x = some l := fun x => by
        obtain ⟨l, h, -⟩ := component_point_field (fun _ => 0) ⟨c, hc⟩ x
        exact ⟨l, h⟩
      choose N hN using hex
      refine ⟨pts.map N, ?_, List.length_map _, fun _ => ⟨N pts[0], pts[0], List.getElem?_eq_getElem hpos, ?_, fun w => ?_⟩⟩
      · have : ∀ l : List (Fin D → ℝ), l.mapM (fun pt => componentPointEvaluation (c : ℤ) [D] pt) = some (l.map N) := by
          intro l
          induction l with
          | nil => rfl
          | cons a l ih => rw [List.mapM_cons, hN, ih]; rfl
        exact this pts
      · rw [List.getElem?_map, List.getElem?_eq_getElem hpos]; rfl
      · obtain ⟨l, h1, -, h3⟩ := component_point_field w ⟨c, hc⟩ pts[0]
        have h2 := hN pts[0]
        rw [h1, Option.some.injEq] at h2
        rw [← h2]
        exact h3) []
  have hnodes : nodes = ((List.range (D + 1)).map F).flatten ++ ((List.range D).map G).flatten := by
    unfold rtDual at hd
    obtain ⟨n, h1, hd⟩ := Option.bind_eq_some_iff.1 hd
    have hn : n = nodes := by
      dsimp only at hd
      rw [if_neg hk] at hd
      obtain ⟨i, -, hd⟩ := Option.bind_eq_some_iff.1 hd
      obtain ⟨j, -, hd⟩ := Option.bind_eq_some_iff.1 hd
      rw [Option.some.injEq, Prod.mk.injEq] at hd
      exact hd.1
    subst hn
    simp only [rtPointNodes, numEnts_facets (show 2 ≤ D by omega) hnum, f1, Option.bind_eq_bind, Option.bind_some, if_neg hk, p1, g1, Option.map_some] at h1
    exact (Option.some.inj h1).symm
  have hrow : ∀ c ≤ D, ((((List.range D).map G).take c).map List.length).sum = c * pts.length := by
    intro c hc
    rw [← List.map_take, List.take_range, min_eq_left hc, List.map_map]
    have : (List.range c).map (List.length ∘ G) = (List.range c).map fun _ => pts.length := by
      refine List.map_congr_left fun e he => ?_
      exact (g2 e (by have := List.mem_range.1 he; omega)).2.1
    rw [this]
    simp
  refine ⟨pts, ((List.range (D + 1)).map F).flatten.length, p1, fun h => by rw [h] at hpos; simp at hpos, ?_, fun c => ?_⟩
  · have h0 := hrow D le_rfl
    rw [List.take_of_length_le (by simp)] at h0
    rw [hnodes, List.length_append, List.length_flatten (L := (List.range D).map G), h0]
  · obtain ⟨a, x, h1, h2, h3⟩ := (g2 c c.2).2.2 c.2
    refine ⟨a, x, h1, ?_, h3⟩
    rw [hnodes, List.getElem?_append_right (by omega), Nat.add_sub_cancel_left, ← hrow c (by omega)]
    refine flatten_block _ c (G c) ?_ a h2
    rw [List.getElem?_map, List.getElem?_range c.2]
    rfl

/-- C89, refuted part: for the point variant of a Raviart-Thomas element of degree at least 1 the dofs of the interior are not carried by
the mapping that the class reports, for any affine map whose contravariant Piola transform is not the identity: some dof takes different
values on a field of the space and on its push-forward. -/
theorem raviart_thomas_interior_refuted (hD : D = 2 ∨ D = 3) (hs : ProperSimplex ℝ s) (hnum : NumberedSimplex s)
    (ho : 0 < orientation fun i : Fin (D + 1) => s.v i) (h : MappedCell A b s s') (hA : 0 < A.det) (hne : A.det • A⁻¹ ≠ 1) {gj : ℕ → ℕ → List ℝ}
    (hgj : NodesOK gj) {nrm nrm' : ℕ → Option (Fin D → ℝ)} (hn : FacetNormals s nrm) (hn' : FacetNormals s' nrm')
    (hnn : ∀ e t n, HasEntity s.topo (D - 1) e t → nrm e = some n → nrm' e = some (A.det • A⁻¹.transpose.mulVec n)) (k : ℕ) (hk : 1 ≤ k) :
    ∃ nodes nodes' ids l i a a' w w', rtDual gj s nrm k .point = some (nodes, ids) ∧ rtDual gj s' nrm' k .point = some (nodes', ids) ∧
      ids.at? D 0 = some l ∧ i ∈ l ∧ nodes[i]? = some a ∧ nodes'[i]? = some a' ∧ IsRT k w ∧ IsRT k w' ∧
      (∀ x, Pushes (declaredMapping .raviartThomas) A (fun c => eval x (w c)) fun c => eval (cellMap A b x) (w' c)) ∧
      a.onField (fieldOf w) ≠ a'.onField (fieldOf w') := by
  have hs' := h.proper hs
  have hnum' := numbered_mapped h hnum
  have ho' : 0 < orientation fun i : Fin (D + 1) => s'.v i := by rw [h.orientation hs]; exact mul_pos hA ho
  obtain ⟨nodes, ids, d1, d2, -, d4, -⟩ := rt_dual_spec hD s hs hnum ho hgj hn k .point (fun q hq => by cases hq)
  obtain ⟨nodes', ids', d1', d2', -, d4', -⟩ := rt_dual_spec hD s' hs' hnum' ho' hgj hn' k .point (fun q hq => by cases hq)
  obtain rfl := rtDual_ids h d1 d1'
  obtain ⟨pts, Fl, p1, p2, p3, p4⟩ := rt_interior_nodes hD hs hnum hn (by omega) d1
  obtain ⟨pts', Fl', p1', p2', p3', p4'⟩ := rt_interior_nodes hD hs' hnum' hn' (by omega) d1'
  have hpp : pts' = pts.map (cellMap A b) := by
    rw [makePoints_map h, p1] at p1'
    exact (Option.some.inj p1').symm
  have hlen : pts'.length = pts.length := by rw [hpp, List.length_map]
  have hF : Fl' = Fl := by rw [hlen] at p3'; omega
  obtain ⟨c, j, hcj⟩ : ∃ c j, A.det * A⁻¹ c j ≠ (1 : Matrix (Fin D) (Fin D) ℝ) c j := by
    by_contra hcon
    push Not at hcon
    exact hne (by ext c j; rw [Matrix.smul_apply, smul_eq_mul]; exact hcon c j)
  obtain ⟨a, x, q1, q2, q3⟩ := p4 c
  obtain ⟨a', x', q1', q2', q3'⟩ := p4' c
  rw [hF, hlen] at q2'
  have hw' : IsRT k (fun l : Fin D => (C (if l = j then 1 else 0) : MvPolynomial (Fin D) ℝ)) :=
    fullDeg_rt fun l => by rw [totalDegree_C]; omega
  have hi : Fl + (c : ℕ) * pts.length < nodes.length := (List.getElem?_eq_some_iff.1 q2).1
  have hval : a.onField (fieldOf (conPull A b fun l : Fin D => (C (if l = j then 1 else 0) : MvPolynomial (Fin D) ℝ))) ≠
      a'.onField (fieldOf fun l : Fin D => (C (if l = j then 1 else 0) : MvPolynomial (Fin D) ℝ)) := by
    rw [q3, q3', eval_conPull, eval_C]
    simp only [eval_C, mul_ite, mul_one, mul_zero]
    rw [Finset.sum_ite_eq' Finset.univ j, if_pos (Finset.mem_univ _)]
    rw [Matrix.one_apply] at hcj
    exact hcj
  obtain ⟨Φ, -, hΦ⟩ := rt_natural hD hgj k .point (fun q hq => by cases hq)
  obtain ⟨⟨d, e⟩, ⟨ll, r1, r2⟩, -⟩ := d4.partition.2 _ hi
  obtain ⟨t, hent⟩ := (d4.same d e).1 (by rw [r1]; rfl)
  have hdD : ¬ d < D := fun hd => by
    obtain ⟨u, u', u1, u2, u3⟩ := div_trace_nodes hs h hn hnn (hΦ s nrm nodes ids' hs hnum ho hn d1) (hΦ s' nrm' nodes' ids' hs' hnum' ho' hn' d1')
      d4 r1 hd _ r2
    rw [q2, Option.some.injEq] at u1
    rw [q2', Option.some.injEq] at u2
    subst u1 u2
    exact hval (u3 _)
  have hd : d = D := by
    obtain ⟨τ, t1, t2, -, -⟩ := entity_tuple hs hent
    have := Fintype.card_le_of_injective (fun j => (⟨τ j, t2 j⟩ : Fin (D + 1))) (fun x y hxy => t1 (Fin.mk.inj hxy))
    simp at this
    omega
  subst hd
  have he : e = 0 := by
    have := ((hnum.1 d le_rfl).2 e).1 ⟨t, hent⟩
    simpa using this
  subst he
  exact ⟨nodes, nodes', ids', ll, _, a, a', _, _, d1, d1', r1, r2, q2, q2', conPull_rt h.regular b hw', hw',
    (pushes_con_iff h.regular b _ _).2 rfl, hval⟩

/-- The conditions are met by the UFC triangle and a sheared image of it. -/
example {gj : ℕ → ℕ → List ℝ} (hgj : NodesOK gj) :
    ∃ nodes nodes' ids l i a a' w w' nrm', rtDual gj tri (ufcScaledNormal tri triLengths) 1 .point = some (nodes, ids) ∧
      rtDual gj (mapCell !![2, 1; 0, 1] ![1, 0] tri) nrm' 1 .point = some (nodes', ids) ∧
      ids.at? 2 0 = some l ∧ i ∈ l ∧ nodes[i]? = some a ∧ nodes'[i]? = some a' ∧
      (∀ x, Pushes (declaredMapping .raviartThomas) !![2, 1; 0, 1] (fun c => eval x (w c)) fun c => eval (cellMap !![2, 1; 0, 1] ![1, 0] x) (w' c)) ∧
      a.onField (fieldOf w) ≠ a'.onField (fieldOf w') := by
  have hdet : (!![2, 1; 0, 1] : Matrix (Fin 2) (Fin 2) ℝ).det = 2 := by rw [Matrix.det_fin_two_of]; norm_num
  have hm : MappedCell !![2, 1; 0, 1] ![1, 0] tri (mapCell !![2, 1; 0, 1] ![1, 0] tri) := mapCell_mapped (by rw [hdet]; norm_num)
  have hn := ufc_triangle_normals _ (proper_ufcTriangle (K := ℝ)) triLengths
  have hne : (!![2, 1; 0, 1] : Matrix (Fin 2) (Fin 2) ℝ).det • (!![2, 1; 0, 1] : Matrix (Fin 2) (Fin 2) ℝ)⁻¹ ≠ 1 := fun hc => by
    have h1 := congrArg (fun M => !![2, 1; 0, 1] * M) hc
    simp only [Matrix.mul_smul, Matrix.mul_one] at h1
    rw [Matrix.mul_nonsing_inv _ (by rw [hdet]; norm_num), hdet] at h1
    have := congrFun (congrFun h1 0) 1
    norm_num at this
  obtain ⟨nodes, nodes', ids, l, i, a, a', w, w', h1, h2, h3, h4, h5, h6, -, -, h7, h8⟩ := raviart_thomas_interior_refuted (Or.inl rfl)
    (proper_ufcTriangle (K := ℝ)) numbered_ufcTriangle tri_oriented hm (by rw [hdet]; norm_num) hne hgj hn
    (facet_normals_mapped proper_ufcTriangle hm hn) (fun e t n _ h => by rw [h]; rfl) 1 le_rfl
  exact ⟨nodes, nodes', ids, l, i, a, a', w, w', _, h1, h2, h3, h4, h5, h6, h7, h8⟩

end
end FIAT
