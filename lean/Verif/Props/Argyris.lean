/-
C51: Argyris elements of every degree (FIAT/argyris.py).
-/
import Verif.Lemmas.TriangleDual
import Verif.Props.RTExample

namespace FIAT
open MvPolynomial
section
variable {s : SimplexCell (Fin 2 → ℝ)} {nrm : ℕ → Option (Fin 2 → ℝ)}

/-- The nodes of the entities. -/
noncomputable def argyrisBlk (s : SimplexCell (Fin 2 → ℝ)) (nrm : ℕ → Option (Fin 2 → ℝ)) (degree : ℕ) (x : ℕ × ℕ) :
    List (Functional ℝ (Fin 2 → ℝ)) :=
  if x.1 = 0 then jetNodes (s.v x.2)
  else if x.1 = 1 then ((argyrisEdge s nrm degree x.2).getD []).flatMap Prod.snd
  else if 5 < degree then ((makePoints ℝ s 2 0 (degree - 3)).getD []).map pointEvaluation else []

theorem argyris_edge (hs : ProperSimplex ℝ s) {e a c : ℕ} (h : HasEntity s.topo 1 e [a, c]) {n : Fin 2 → ℝ} (hn : nrm e = some n)
    (degree : ℕ) : ∃ chunks, argyrisEdge s nrm degree e = some chunks ∧ (∀ q ∈ chunks, q.1 = q.2.length) ∧
      chunks.flatMap Prod.snd =
        ((List.range' 1 (degree - 4)).map fun i => pointNormalDerivative 2 (vecNat n) (edgePt s a c (degree - 3) i)) ++
        (List.range' 1 (degree - 5)).map fun i => pointEvaluation (edgePt s a c (degree - 4) i) := by
  have e1 := edge_list (by norm_num) hs h (degree - 3)
  have e2 := edge_list (by norm_num) hs h (degree - 4)
  unfold argyrisEdge
  rw [e1, Option.bind_some, hn]
  simp only [Option.map_some]
  rw [mapM_some_map _ (fun pt => some (pointNormalDerivative 2 (vecNat n) pt)) (fun pt => pointNormalDerivative 2 (vecNat n) pt)
    (fun _ _ => rfl), Option.bind_some, List.map_map]
  have h4 : degree - 3 - 1 = degree - 4 := by omega
  have h5 : degree - 4 - 1 = degree - 5 := by omega
  by_cases hd : 5 < degree
  · rw [if_pos hd, e2, Option.map_some]
    refine ⟨_, rfl, by simp, ?_⟩
    simp only [List.flatMap_cons, List.flatMap_nil, List.append_nil, List.map_map, h4, h5]
    rfl
  · rw [if_neg hd]
    refine ⟨_, rfl, by simp, ?_⟩
    simp only [List.flatMap_cons, List.flatMap_nil, List.append_nil, h4]
    rw [show degree - 5 = 0 by omega]
    simp

theorem argyris_dual_blocks (hs : ProperSimplex ℝ s) (hnum : NumberedSimplex s) (hn : FacetNormals s nrm) (degree : ℕ) :
    ∃ nodes ids, argyrisDual s nrm degree = some (nodes, ids) ∧ EntityBlocks s.topo (allEnts 2) (argyrisBlk s nrm degree) nodes ids := by
  obtain ⟨st0, st1, a1, a2, a3⟩ := triangle_dual hnum (blk := argyrisBlk s nrm degree)
    (fun v => (jet2 s v).map fun l => [(6, l)]) (fun e => argyrisEdge s nrm degree e) (by
      intro v hv
      refine ⟨[(6, jetNodes (s.v v))], ?_, ?_, ?_⟩
      · simp only [jet2, vertex_get hs hv, Option.map_some]; rfl
      · simp [jetNodes]
      · simp [argyrisBlk]) (by
      intro e t h
      obtain ⟨a, c, rfl, -⟩ := edge_tuple hs h
      obtain ⟨n, n1, -⟩ := hn e _ h
      obtain ⟨chunks, c1, c2, -⟩ := argyris_edge hs h n1 degree
      exact ⟨chunks, c1, c2, by simp [argyrisBlk, c1]⟩)
  unfold argyrisDual
  simp only [a1, a2, Option.bind_eq_bind, Option.bind_some]
  by_cases hd : 5 < degree
  · obtain ⟨pts, p1, -⟩ := dmats_points_unisolvent s hs.1 hs.2.1 hs.2.2.1 (by norm_num) (degree - 6)
    rw [show degree - 6 + 2 + 1 = degree - 3 by omega] at p1
    rw [if_pos hd, p1, Option.map_some]
    have hb : argyrisBlk s nrm degree (2, 0) = pts.map pointEvaluation := by simp [argyrisBlk, hd, p1]
    rw [hb] at a3
    refine ⟨_, _, rfl, a3 _ fun d e => ?_⟩
    rw [setIds_at, EntityIds.at?_put]
    by_cases hd2 : d = 2
    · subst hd2
      by_cases he : e = 0
      · subst he; simp
      · rw [if_neg (by tauto), if_pos rfl, if_pos rfl, if_neg he]; rfl
    · rw [if_neg (fun h => hd2 h.1.symm), if_neg (fun h => hd2 h.symm), if_neg hd2]
  · rw [if_neg hd]
    have hb : argyrisBlk s nrm degree (2, 0) = [] := by simp [argyrisBlk, hd]
    rw [hb] at a3
    refine ⟨_, _, rfl, ?_⟩
    have := a3 (Dict.put (Dict.put st1.2.2 2 []) 2 [(0, [])]) fun d e => by
      rw [EntityIds.at?_put, EntityIds.at?_put]
      by_cases hd2 : d = 2
      · subst hd2
        by_cases he : e = 0
        · subst he; simp [Dict.get?]
        · rw [if_pos rfl, if_pos rfl, if_neg he]
          simp [Dict.get?, Ne.symm he]
      · rw [if_neg (fun h => hd2 h.symm), if_neg (fun h => hd2 h.symm), if_neg hd2]
    simpa using this

/-- Specification of the dofs of an edge `[a, c]` with normal `n`: normal derivatives at `degree - 4` equispaced points, then values at
`degree - 5` equispaced points. -/
noncomputable def argyrisEdgeDofs (s : SimplexCell (Fin 2 → ℝ)) (a c : ℕ) (n : Fin 2 → ℝ) (degree : ℕ) (p : MvPolynomial (Fin 2) ℝ) : List ℝ :=
  ((List.range' 1 (degree - 4)).map fun (i : ℕ) => ∑ j, n j * eval (s.v a + ((i : ℝ) / (degree - 3 : ℕ)) • (s.v c - s.v a)) (pderiv j p)) ++
    (List.range' 1 (degree - 5)).map fun (i : ℕ) => eval (s.v a + ((i : ℝ) / (degree - 4 : ℕ)) • (s.v c - s.v a)) p

theorem argyris_edge_block (hs : ProperSimplex ℝ s) {e a c : ℕ} (h : HasEntity s.topo 1 e [a, c]) {n : Fin 2 → ℝ} (hn : nrm e = some n)
    (degree : ℕ) (p : MvPolynomial (Fin 2) ℝ) :
    (argyrisBlk s nrm degree (1, e)).map (fun node => node.onField (scalarField p)) = argyrisEdgeDofs s a c n degree p := by
  obtain ⟨chunks, c1, -, c3⟩ := argyris_edge hs h hn degree
  have : argyrisBlk s nrm degree (1, e) = chunks.flatMap Prod.snd := by simp [argyrisBlk, c1]
  rw [this, c3, argyrisEdgeDofs, List.map_append, List.map_map, List.map_map]
  congr 1
  · refine List.map_congr_left fun i _ => ?_
    rw [Function.comp_apply, point_normal_scalar, eval_dirD, edgePt]
  · refine List.map_congr_left fun i _ => ?_
    rw [Function.comp_apply, point_eval_scalar, edgePt]

theorem argyris_edge_trace (hs : ProperSimplex ℝ s) (hn : FacetNormals s nrm) {degree : ℕ} (hd : 5 ≤ degree) {e : ℕ} {t : List ℕ}
    (h : HasEntity s.topo 1 e t) (p : MvPolynomial (Fin 2) ℝ) (hp : p.totalDegree ≤ degree) (hj : ∀ a ∈ t, JetZero (s.v a) p)
    (hz : ∀ r ∈ (argyrisBlk s nrm degree (1, e)).map (fun node => node.onField (scalarField p)), r = 0) :
    (∀ x, OnEntity s t x → eval x p = 0) ∧ ∀ n, nrm e = some n → ∀ x, OnEntity s t x → eval x (dirD n p) = 0 := by
  obtain ⟨a, c, rfl, hac, -⟩ := edge_tuple hs h
  obtain ⟨n, n1, -⟩ := hn e _ h
  rw [argyris_edge_block hs h n1] at hz
  have z1 : ∀ i : ℕ, 1 ≤ i → i < degree - 3 → eval (edgePt s a c (degree - 3) i) (dirD n p) = 0 := by
    intro i i1 i2
    rw [eval_dirD]
    refine hz _ (List.mem_append_left _ (List.mem_map.2 ⟨i, ?_, rfl⟩))
    rw [List.mem_range'_1]; omega
  have z2 : ∀ i : ℕ, 1 ≤ i → i < degree - 4 → eval (edgePt s a c (degree - 4) i) p = 0 := by
    intro i i1 i2
    refine hz _ (List.mem_append_right _ (List.mem_map.2 ⟨i, ?_, rfl⟩))
    rw [List.mem_range'_1]; omega
  constructor
  · intro x hx
    obtain ⟨w, rfl⟩ := (onEntity_pair s hac x).1 hx
    exact edge_value hd p hp (hj a (by simp)) (hj c (by simp)) z2 w
  · intro n' hn' x hx
    rw [n1, Option.some.injEq] at hn'
    subst hn'
    obtain ⟨w, rfl⟩ := (onEntity_pair s hac x).1 hx
    exact edge_normal (by omega) n p hp (hj a (by simp)) (hj c (by simp)) z1 w

/-- C51: `Argyris(triangle, degree)` for every degree at least 5: the dofs of a vertex are the value, gradient and Hessian, the dofs
of an edge are normal derivatives and values at equispaced points, the interior dofs are the values at the interior lattice; the
element tabulates the basis of `P_degree` dual to these; and the dofs on the closure of an edge determine the value and
the whole gradient along the edge, so that glued cells give C1 functions. -/
theorem argyris_spec (s : SimplexCell (Fin 2 → ℝ)) (hs : ProperSimplex ℝ s) (hnum : NumberedSimplex s)
    (nrm : ℕ → Option (Fin 2 → ℝ)) (hn : FacetNormals s nrm) (degree : ℕ) (hd : 5 ≤ degree) :
    ∃ el nodes ids, argyris s nrm degree = some (el, nodes, ids) ∧ IsNodalScalar degree nodes el ∧ ProperDofs s nodes ids ∧
      (∀ v < 3, DofsOf nodes ids 0 v (jetValues (s.v v))) ∧
      (∀ e a c n, HasEntity s.topo 1 e [a, c] → nrm e = some n → DofsOf nodes ids 1 e (argyrisEdgeDofs s a c n degree)) ∧
      (degree = 5 → ids.at? 2 0 = some []) ∧
      (5 < degree → ∃ pts, makePoints ℝ s 2 0 (degree - 3) = some pts ∧ DofsOf nodes ids 2 0 fun p => pts.map fun x => eval x p) ∧
      ∀ e t, HasEntity s.topo 1 e t → ∀ p : MvPolynomial (Fin 2) ℝ, p.totalDegree ≤ degree → ZeroOnClosure s nodes ids t p →
        ∀ x, OnEntity s t x → eval x p = 0 ∧ ∀ j, eval x (pderiv j p) = 0 := by
  obtain ⟨nodes, ids, h1, h2⟩ := argyris_dual_blocks hs hnum hn degree
  have hmem : ∀ {d e t}, HasEntity s.topo d e t → (d, e) ∈ allEnts 2 := fun h => (mem_allEnts hnum _).2 ⟨_, h⟩
  have hvert : ∀ v p, (argyrisBlk s nrm degree (0, v)).map (fun node => node.onField (scalarField p)) = jetValues (s.v v) p := by
    intro v p
    rw [← jetNodes_values]
    simp [argyrisBlk]
  have hjet : ∀ t p, ZeroOnClosure s nodes ids t p → ∀ a ∈ t, a < 3 → JetZero (s.v a) p := by
    intro t p hz a ha hlt
    have hva := vertex_entity hs hnum hlt
    have := scalar_block_zero hnum h2 hz hva (by simpa using ha)
    rw [hvert] at this
    exact jetZero_of_values this
  have hedge : ∀ e t, HasEntity s.topo 1 e t → ∀ t' p, p.totalDegree ≤ degree → ZeroOnClosure s nodes ids t' p → (∀ a ∈ t, a ∈ t') →
      (∀ x, OnEntity s t x → eval x p = 0) ∧ ∀ n, nrm e = some n → ∀ x, OnEntity s t x → eval x (dirD n p) = 0 := by
    intro e t h t' p hp hz hsub
    have hlt := (hs.2.1.entity _ _ _ h).2.2
    rw [hs.1] at hlt
    exact argyris_edge_trace hs hn hd h p hp (fun a ha => hjet t' p hz a (hsub a ha) (hlt a ha)) (scalar_block_zero hnum h2 hz h hsub)
  have htrace : ∀ e t, HasEntity s.topo 1 e t → ∀ p : MvPolynomial (Fin 2) ℝ, p.totalDegree ≤ degree → ZeroOnClosure s nodes ids t p →
        ∀ x, OnEntity s t x → eval x p = 0 ∧ ∀ j, eval x (pderiv j p) = 0 := by
    intro e t h p hp hz x hx
    obtain ⟨k1, k2⟩ := hedge e t h t p hp hz fun a ha => ha
    obtain ⟨-, -, -, k3⟩ := edge_gradient hs hn h p k1 k2
    exact ⟨k1 x hx, k3 x hx⟩
  have hint : 5 < degree → ∃ pts, makePoints ℝ s 2 0 (degree - 3) = some pts ∧ argyrisBlk s nrm degree (2, 0) = pts.map pointEvaluation ∧
      pts.length = (degree - 4).choose 2 ∧ ∀ p : MvPolynomial (Fin 2) ℝ, p.totalDegree ≤ degree - 6 → (∀ x ∈ pts, eval x p = 0) → p = 0 := by
    intro h5
    obtain ⟨pts, p1, p2, p3⟩ := dmats_points_unisolvent s hs.1 hs.2.1 hs.2.2.1 (by norm_num) (degree - 6)
    rw [show degree - 6 + 2 + 1 = degree - 3 by omega] at p1
    rw [show degree - 6 + 2 = degree - 4 by omega] at p2
    exact ⟨pts, p1, by simp [argyrisBlk, h5, p1], p2, p3⟩
  obtain ⟨tc, htc, -, hmc, -⟩ := cell_entity hs hnum
  have hsep : Separates degree nodes := by
    intro p hp hz
    have hcl := closure_of_all (s := s) ids hz
    obtain ⟨g, b, hb⟩ := baryForms_exist _ (proper_independent hs)
    obtain ⟨r, r1, r2⟩ := triangle_c1 hs hn p hp (fun e t h => hedge e t h t p hp (hcl t) fun a ha => ha) hb
    rcases r2 with rfl | r2
    · rw [r1, mul_zero]
    · obtain ⟨pts, p1, p2, -, p4⟩ := hint (by omega)
      have hr : r = 0 := by
        refine p4 r (by omega) fun x hx => ?_
        have hpx : eval x p = 0 := by
          have := scalar_block_zero hnum h2 (hcl tc) htc fun a ha => ha
          rw [p2, List.map_map] at this
          have := this _ (List.mem_map_of_mem hx)
          rwa [Function.comp_apply, point_eval_scalar] at this
        rw [r1, map_mul, map_prod] at hpx
        rcases mul_eq_zero.1 hpx with hc | hc
        · exfalso
          obtain ⟨i, -, hi⟩ := Finset.prod_eq_zero_iff.1 hc
          rw [map_pow] at hi
          exact interior_points_pos hs hnum _ (by omega) p1 hb x hx i (pow_eq_zero_iff two_ne_zero |>.1 hi)
        · exact hc
      rw [r1, hr, mul_zero]
  have hlen : nodes.length = (degree + 2).choose 2 := by
    have hn2 : (argyrisBlk s nrm degree (2, 0)).length = (degree - 4).choose 2 := by
      by_cases h5 : 5 < degree
      · obtain ⟨pts, -, p2, p3, -⟩ := hint h5
        rw [p2, List.length_map, p3]
      · have : degree = 5 := by omega
        subst this
        simp [argyrisBlk]
    rw [triangle_length hnum h2 6 ((degree - 4) + (degree - 5)) ((degree - 4).choose 2) (fun v _ => by simp [argyrisBlk, jetNodes]) (by
      intro e t h
      obtain ⟨a, c, rfl, -⟩ := edge_tuple hs h
      obtain ⟨n, n1, -⟩ := hn e _ h
      have := congrArg List.length (argyris_edge_block hs h n1 degree 0)
      simpa [argyrisEdgeDofs] using this) hn2]
    obtain ⟨m, rfl⟩ := Nat.exists_eq_add_of_le hd
    rw [show 5 + m - 4 = m + 1 by omega, show 5 + m - 5 = m by omega, show 5 + m + 2 = m + 7 by omega]
    simp only [Nat.choose_succ_succ, Nat.choose_one_right, Nat.choose_zero_right]
    omega
  obtain ⟨el, e1, e2⟩ := functional_element_spec (Or.inr (Or.inl rfl)) s hs (fun h => absurd h (by norm_num)) degree nodes hlen (by
      intro l hl
      rw [h2.1, List.mem_flatMap] at hl
      obtain ⟨⟨d, e⟩, hx, hl⟩ := hl
      obtain ⟨t, ht⟩ := (mem_allEnts hnum _).1 hx
      by_cases hd0 : d = 0
      · subst hd0
        exact jetNodes_wf (s.v e) l (by simpa [argyrisBlk] using hl)
      by_cases hd1 : d = 1
      · subst hd1
        obtain ⟨a, c, rfl, -⟩ := edge_tuple hs ht
        obtain ⟨n, n1, -⟩ := hn e _ ht
        obtain ⟨chunks, c1, -, c3⟩ := argyris_edge hs ht n1 degree
        have : argyrisBlk s nrm degree (1, e) = chunks.flatMap Prod.snd := by simp [argyrisBlk, c1]
        rw [this, c3, List.mem_append, List.mem_map, List.mem_map] at hl
        rcases hl with ⟨i, -, rfl⟩ | ⟨i, -, rfl⟩
        · exact wf_normal _ _
        · exact wf_eval _
      · simp only [argyrisBlk, hd0, hd1, if_false] at hl
        split_ifs at hl
        · obtain ⟨y, -, rfl⟩ := List.mem_map.1 hl
          exact wf_eval _
        · simp at hl)
    (by
      left
      refine ⟨pointDerivative (s.v 0) [2, 0], ?_, ?_⟩
      · rw [h2.1, List.mem_flatMap]
        refine ⟨(0, 0), hmem (vertex_entity hs hnum (by omega)), ?_⟩
        simp [argyrisBlk, jetNodes]
      · rw [order_deriv]; simp)
    hsep
  refine ⟨el, nodes, ids, ?_, e2, ⟨h2.layout.1, h2.layout.2.1⟩, ?_, ?_, ?_, ?_, htrace⟩
  · unfold argyris
    simp only [h1, e1, Option.bind_eq_bind, Option.bind_some]
  · intro v hv'
    exact h2.dofsOf (hmem (vertex_entity hs hnum hv')) _ (hvert v)
  · intro e a c n h hne
    exact h2.dofsOf (hmem h) _ (argyris_edge_block hs h hne degree)
  · rintro rfl
    obtain ⟨l, k1, k2⟩ := h2.layout.2.2 2 0 (hmem htc)
    rw [k1]
    simp only [argyrisBlk, OfNat.ofNat_ne_zero, if_false, lt_self_iff_false, List.map_nil, List.map_eq_nil_iff,
      show (2 : ℕ) ≠ 1 by norm_num] at k2
    rw [k2]
  · intro h5
    obtain ⟨pts, p1, p2, -⟩ := hint h5
    refine ⟨pts, p1, h2.dofsOf (hmem htc) _ fun p => ?_⟩
    rw [p2, List.map_map]
    exact List.map_congr_left fun x _ => point_eval_scalar x p

/-- C51: below degree 5 the constructor fails: the 18 vertex dofs are not as many as the dimension of `P_degree`. -/
theorem argyris_low_degree (s : SimplexCell (Fin 2 → ℝ)) (hs : ProperSimplex ℝ s) (hnum : NumberedSimplex s)
    (nrm : ℕ → Option (Fin 2 → ℝ)) (hn : FacetNormals s nrm) (degree : ℕ) (hd : degree < 5) : argyris s nrm degree = none := by
  obtain ⟨nodes, ids, h1, h2⟩ := argyris_dual_blocks hs hnum hn degree
  have hlen : nodes.length = 18 := by
    rw [triangle_length hnum h2 6 0 0 (fun v _ => by simp [argyrisBlk, jetNodes]) (by
      intro e t h
      obtain ⟨a, c, rfl, -⟩ := edge_tuple hs h
      obtain ⟨n, n1, -⟩ := hn e _ h
      have := congrArg List.length (argyris_edge_block hs h n1 degree 0)
      rw [List.length_map] at this
      rw [this, argyrisEdgeDofs, show degree - 4 = 0 by omega, show degree - 5 = 0 by omega]
      simp) (by simp [argyrisBlk, show ¬ 5 < degree by omega])]
  unfold argyris
  simp only [h1, Option.bind_eq_bind, Option.bind_some]
  cases he : functionalElement s degree nodes with
  | none => rfl
  | some el =>
    exfalso
    have := functional_element_square s degree nodes el he
    rw [hlen] at this
    interval_cases degree <;> simp [Nat.choose] at this

/-- C51: C1 conformity in terms of two functions: `p` and `q` are the functions of two cells sharing an edge. -/
theorem argyris_conforming (s : SimplexCell (Fin 2 → ℝ)) (hs : ProperSimplex ℝ s) (nrm : ℕ → Option (Fin 2 → ℝ)) (hn : FacetNormals s nrm)
    (degree : ℕ) (hd : 5 ≤ degree) (e a c : ℕ) (h : HasEntity s.topo 1 e [a, c]) (n : Fin 2 → ℝ) (hne : nrm e = some n)
    (p q : MvPolynomial (Fin 2) ℝ) (hp : p.totalDegree ≤ degree) (hq : q.totalDegree ≤ degree)
    (ha : jetValues (s.v a) p = jetValues (s.v a) q) (hc : jetValues (s.v c) p = jetValues (s.v c) q)
    (he : argyrisEdgeDofs s a c n degree p = argyrisEdgeDofs s a c n degree q) (x : Fin 2 → ℝ) (hx : OnEntity s [a, c] x) :
    eval x p = eval x q ∧ ∀ j, eval x (pderiv j p) = eval x (pderiv j q) := by
  have hjet : ∀ y, jetValues y p = jetValues y q → JetZero y (p - q) := by
    intro y hy
    apply jetZero_of_values
    simp only [jetValues, List.cons.injEq, and_true] at hy
    simp only [jetValues, map_sub, List.mem_cons, List.not_mem_nil, or_false, forall_eq_or_imp, forall_eq, sub_eq_zero]
    exact hy
  have hz : ∀ r ∈ (argyrisBlk s nrm degree (1, e)).map (fun node => node.onField (scalarField (p - q))), r = 0 := by
    rw [argyris_edge_block hs h hne]
    unfold argyrisEdgeDofs at he ⊢
    obtain ⟨he1, he2⟩ := List.append_inj he (by simp)
    intro r hr
    rcases List.mem_append.1 hr with hr | hr
    · obtain ⟨i, hi, rfl⟩ := List.mem_map.1 hr
      have := (List.map_inj_left.1 he1) i hi
      simp only [map_sub, mul_sub, Finset.sum_sub_distrib] at this ⊢
      rw [this, sub_self]
    · obtain ⟨i, hi, rfl⟩ := List.mem_map.1 hr
      have := (List.map_inj_left.1 he2) i hi
      rw [map_sub, this, sub_self]
  obtain ⟨k1, k2⟩ := argyris_edge_trace hs hn hd h (p - q) ((totalDegree_sub _ _).trans (max_le hp hq)) (by
    intro y hy
    rcases List.mem_cons.1 hy with rfl | hy
    · exact hjet _ ha
    · rw [List.mem_singleton] at hy; subst hy; exact hjet _ hc) hz
  obtain ⟨-, -, -, k3⟩ := edge_gradient hs hn h (p - q) k1 k2
  have h1 := k1 x hx
  rw [map_sub, sub_eq_zero] at h1
  refine ⟨h1, fun j => ?_⟩
  have h2 := k3 x hx j
  rw [map_sub, map_sub, sub_eq_zero] at h2
  exact h2

private theorem put_put (d : EntityIds ℕ) (k : ℕ) (x y : Dict ℕ (List ℕ)) : Dict.put (Dict.put d k x) k y = Dict.put d k y := by
  induction d with
  | nil => simp [Dict.put]
  | cons q d ih =>
    obtain ⟨k', v⟩ := q
    by_cases h : k' = k
    · simp [Dict.put, h]
    · simp [Dict.put, h, ih]

private theorem foldlM_congr' {α β : Type} (f g : β → α → Option β) (l : List α) (h : ∀ b, ∀ a ∈ l, f b a = g b a) (b : β) :
    l.foldlM f b = l.foldlM g b := by
  induction l generalizing b with
  | nil => rfl
  | cons a l ih =>
    rw [List.foldlM_cons, List.foldlM_cons, h b a (by simp)]
    congr 1
    funext b'
    exact ih (fun b a ha => h b a (by simp [ha])) b'

/-- C51: `QuinticArgyris(triangle)` is the element `Argyris(triangle, 5)`: same basis, same nodes, same `entity_dofs`. -/
theorem quintic_argyris_eq (s : SimplexCell (Fin 2 → ℝ)) (hs : ProperSimplex ℝ s) (hnum : NumberedSimplex s)
    (nrm : ℕ → Option (Fin 2 → ℝ)) (hn : FacetNormals s nrm) : quinticArgyris s nrm = argyris s nrm 5 := by
  have hloop : ∀ st, entityLoop s 1 (fun e => midpointNormal s nrm e) st = entityLoop s 1 (fun e => argyrisEdge s nrm 5 e) st := by
    intro st
    obtain ⟨es, h1, -, -, -, h3⟩ := sorted_keys hnum (d := 1) (by omega)
    unfold entityLoop
    rw [h1, Option.bind_some, Option.bind_some]
    refine foldlM_congr' _ _ _ (fun b q hq => ?_) _
    have hq' : q.1 < (2 + 1).choose (1 + 1) := by rw [← List.mem_range, ← h3]; exact List.mem_map_of_mem hq
    obtain ⟨t, ht⟩ := ((hnum.1 1 (by omega)).2 q.1).2 hq'
    obtain ⟨a, c, rfl, -⟩ := edge_tuple hs ht
    obtain ⟨n, n1, -⟩ := hn q.1 _ ht
    congr 1
    have e1 := edge_list (by norm_num) hs ht 2
    beta_reduce
    unfold midpointNormal argyrisEdge
    rw [show 5 - 3 = 2 from rfl, e1, n1]
    rfl
  have hdual : quinticArgyrisDual s nrm = argyrisDual s nrm 5 := by
    unfold quinticArgyrisDual argyrisDual
    simp only [hloop, lt_self_iff_false, if_false, put_put]
  unfold quinticArgyris argyris
  rw [hdual]

/-- `compute_normal` of `UFCTriangle` meets the contract. -/
theorem ufc_triangle_unit_normals (s : SimplexCell (Fin 2 → ℝ)) (hs : ProperSimplex ℝ s) : FacetNormals s (ufcNormal 2 s) := by
  have := ufc_triangle_normals s hs fun _ => []
  have e : ufcScaledNormal s (fun _ => []) = ufcNormal 2 s := by
    funext i
    simp [ufcScaledNormal, volumeOf]
  rwa [e] at this

/-- The hypotheses are met by the UFC triangle with its normals: degree 7 has 36 dofs. -/
example : ∃ el nodes ids, argyris ((ufcTriangle : CellData ℝ).toSimplex 2) (ufcNormal 2 ((ufcTriangle : CellData ℝ).toSimplex 2)) 7 =
    some (el, nodes, ids) ∧ nodes.length = 36 := by
  obtain ⟨el, nodes, ids, h1, ⟨_, _, _, h2, _⟩, -⟩ := argyris_spec _ proper_ufcTriangle numbered_ufcTriangle _
    (ufc_triangle_unit_normals _ proper_ufcTriangle) 7 (by norm_num)
  exact ⟨el, nodes, ids, h1, h2⟩

end
end FIAT
