/-
C52: the Bell element (FIAT/bell.py).
-/
import Verif.Lemmas.Bell
import Verif.Props.Argyris

namespace FIAT
open MvPolynomial
section
variable {s : SimplexCell (Fin 2 → ℝ)} {nrm : ℕ → Option (Fin 2 → ℝ)}

/-- The dof of an edge, as a moment over the parametrised edge. -/
theorem bell_edge (hs : ProperSimplex ℝ s) {e a c : ℕ} (h : HasEntity s.topo 1 e [a, c]) {n : Fin 2 → ℝ} (hn : nrm e = some n)
    (Q : QRule ℝ (Fin 1 → ℝ)) (hQ : GoodRule Q (ufcVerts ℝ 1) 9) (hl : Q.wts.length = Q.pts.length) (hnd : Q.pts.Nodup) :
    ∃ node, bellEdge s nrm Q e = some node ∧ node.WF 2 ∧ ∀ p : MvPolynomial (Fin 2) ℝ, p.totalDegree ≤ 5 →
      node.onField (scalarField p) = ∫ t in (0 : ℝ)..1, legendre4 t * eval (s.v a + t • (s.v c - s.v a)) (dirD n p) := by
  obtain ⟨τ, t1, t2, t3, t4⟩ := entity_tuple hs h
  have hme : mapToEntity s 1 e Q.pts = some (Q.pts.map (entMap fun j => s.v (τ j))) := by
    unfold mapToEntity
    rw [t4, Option.bind_some, dif_pos (List.length_ofFn ..)]
    congr 1
    refine List.map_congr_left fun y _ => ?_
    rw [entMap_eq]
    congr 1
    funext j
    rw [List.get_ofFn]
    rfl
  have hac : a = τ 0 ∧ c = τ 1 := by
    simpa [List.ofFn_succ] using t3
  have hpt : ∀ y : Fin 1 → ℝ, entMap (fun j => s.v (τ j)) y = s.v a + y 0 • (s.v c - s.v a) := by
    intro y
    unfold entMap
    rw [hac.1, hac.2]
    simp
  have hpn := hnd.map (entMap_injective hs τ t1 t2)
  have hzp : ∀ phi, ((zipRule (Q.pts.map (entMap fun j => s.v (τ j))) Q.wts phi).map fun q => q.1).Nodup := by
    intro phi
    rw [zipRule_points _ _ (by simpa using hl)]; exact hpn
  refine ⟨_, by unfold bellEdge; rw [hme, Option.bind_some, hn, Option.map_some], wf_normal_moment _ _ (hzp _), fun p hp => ?_⟩
  rw [normal_moment_scalar _ _ (hzp _), quadSum_zip_map,
    quadSum_zip Q.pts Q.wts hl _ (fun y => legendre4 (y 0)) _ (by
      intro j x hx
      rw [List.getD_eq_getElem?_getD, hx, Option.getD_some, evalJacobi_legendre4])]
  have hL : ∃ L : MvPolynomial (Fin 1) ℝ, L.totalDegree ≤ 4 ∧ ∀ y, eval y L = legendre4 (y 0) := by
    refine ⟨C 70 * X 0 ^ 4 - C 140 * X 0 ^ 3 + C 90 * X 0 ^ 2 - C 20 * X 0 + C 1, ?_, fun y => by simp [legendre4]⟩
    have hm : ∀ (r : ℝ) (k : ℕ), k ≤ 4 → (C r * X (0 : Fin 1) ^ k : MvPolynomial (Fin 1) ℝ).totalDegree ≤ 4 := by
      intro r k hk
      refine (totalDegree_mul _ _).trans ?_
      rw [totalDegree_C, zero_add]
      exact (totalDegree_pow _ _).trans (by rw [totalDegree_X]; omega)
    have h1 : (C 20 * X (0 : Fin 1) : MvPolynomial (Fin 1) ℝ).totalDegree ≤ 4 := by simpa using hm 20 1 (by omega)
    have h0 : (C 1 : MvPolynomial (Fin 1) ℝ).totalDegree ≤ 4 := by rw [totalDegree_C]; omega
    refine (totalDegree_add _ _).trans (max_le ?_ h0)
    refine (totalDegree_sub _ _).trans (max_le ?_ h1)
    refine (totalDegree_add _ _).trans (max_le ?_ (hm _ _ (by omega)))
    exact (totalDegree_sub _ _).trans (max_le (hm _ _ (by omega)) (hm _ _ (by omega)))
  obtain ⟨L, L1, L2⟩ := hL
  have hpb : ∀ y, eval y (pullback (s.v (τ 0)) (fun j : Fin 1 => s.v (τ j.succ)) (dirD n p)) = eval (entMap (fun j => s.v (τ j)) y) (dirD n p) :=
    fun y => eval_pullback _ _ _ _
  have hd : (L * pullback (s.v (τ 0)) (fun j : Fin 1 => s.v (τ j.succ)) (dirD n p)).totalDegree ≤ 9 := by
    refine (totalDegree_mul _ _).trans ?_
    have h1 := totalDegree_pullback (s.v (τ 0)) (fun j : Fin 1 => s.v (τ j.succ)) (dirD n p)
    have h2 := totalDegree_dirD n hp
    omega
  have := hQ.1 _ hd
  rw [ufc_line_integral] at this
  simp only [map_mul, L2, hpb, hpt] at this
  simp only [hpt]
  exact this

/-- The nodes of the entities. -/
noncomputable def bellBlk (s : SimplexCell (Fin 2 → ℝ)) (nrm : ℕ → Option (Fin 2 → ℝ)) (Q : QRule ℝ (Fin 1 → ℝ)) (x : ℕ × ℕ) :
    List (Functional ℝ (Fin 2 → ℝ)) :=
  if x.1 = 0 then jetNodes (s.v x.2)
  else if x.1 = 1 then (bellEdge s nrm Q x.2).toList
  else []

private theorem bell_loop (f : ℕ → Option (Functional ℝ (Fin 2 → ℝ))) (st : ℕ × List (Functional ℝ (Fin 2 → ℝ)) × EntityIds ℕ)
    (es : List (ℕ × List ℕ)) (hkeys : es.map Prod.fst = [0, 1, 2]) (h18 : st.1 = 18)
    {st1 : ℕ × List (Functional ℝ (Fin 2 → ℝ)) × EntityIds ℕ}
    (h : es.foldlM (fun (st : ℕ × List (Functional ℝ (Fin 2 → ℝ)) × EntityIds ℕ) (q : ℕ × List ℕ) =>
      ((f q.1).map fun node => [(1, [node])]).map fun chunks =>
        chunks.foldl (chunkStep 1 q.1) (st.1, st.2.1, setIds st.2.2 1 q.1 [])) (st.1, st.2.1, Dict.put st.2.2 1 []) = some st1) :
    ∃ ids, es.foldlM (fun (r : List (Functional ℝ (Fin 2 → ℝ)) × EntityIds ℕ) (q : ℕ × List ℕ) =>
      (f q.1).map fun node => (r.1 ++ [node], setIds r.2 1 q.1 [18 + q.1])) (st.2.1, Dict.put st.2.2 1 []) = some (st1.2.1, ids) ∧
      ∀ d e, ids.at? d e = st1.2.2.at? d e := by
  match es, hkeys with
  | [(_, t0), (_, t1), (_, t2)], hk =>
    simp only [List.map_cons, List.map_nil, List.cons.injEq, and_true] at hk
    obtain ⟨rfl, rfl, rfl⟩ := hk
    cases h0 : f 0 with
    | none => simp [h0] at h
    | some n0 =>
      cases h1 : f 1 with
      | none => simp [h0, h1] at h
      | some n1 =>
        cases h2 : f 2 with
        | none => simp [h0, h1, h2] at h
        | some n2 =>
          simp only [List.foldlM_cons, List.foldlM_nil, h0, h1, h2, Option.map_some, Option.bind_eq_bind, Option.bind_some,
            Option.pure_def, Option.some.injEq, List.foldl_cons, List.foldl_nil, chunkStep] at h ⊢
          subst h
          refine ⟨_, rfl, fun d e => ?_⟩
          simp only [setIds_at, h18]
          by_cases hd : 1 = d
          · subst hd
            by_cases e0 : 0 = e
            · subst e0; simp
            by_cases e1 : 1 = e
            · subst e1; simp
            by_cases e2 : 2 = e
            · subst e2; simp
            · simp [e0, e1, e2]
          · simp [hd]

theorem bell_dual_blocks (hs : ProperSimplex ℝ s) (hnum : NumberedSimplex s) (hn : FacetNormals s nrm) {gj : ℕ → ℕ → List ℝ}
    (hgj : NodesOK gj) :
    ∃ nodes ids Q, bellDual gj s nrm = some (nodes, ids) ∧ GoodRule Q (ufcVerts ℝ 1) 9 ∧ Q.wts.length = Q.pts.length ∧ Q.pts.Nodup ∧
      EntityBlocks s.topo (allEnts 2) (bellBlk s nrm Q) nodes ids := by
  obtain ⟨G, g1, g2, g3, g4, g5⟩ := ufc_cell_spec (d := 1) (by omega)
  obtain ⟨Q, q1, q2, q3, q4⟩ := simplex_rule_spec hgj (D := 1) (by omega) (ufcVerts ℝ 1) g5 5 (by omega)
  obtain ⟨st0, st1, a1, a2, a3⟩ := triangle_dual hnum (blk := bellBlk s nrm Q)
    (fun v => (jet2 s v).map fun l => [(6, l)]) (fun e => (bellEdge s nrm Q e).map fun node => [(1, [node])]) (by
      intro v hv
      refine ⟨[(6, jetNodes (s.v v))], ?_, ?_, ?_⟩
      · simp only [jet2, vertex_get hs hv, Option.map_some]; rfl
      · simp [jetNodes]
      · simp [bellBlk]) (by
      intro e t h
      obtain ⟨a, c, rfl, -⟩ := edge_tuple hs h
      obtain ⟨n, n1, -⟩ := hn e _ h
      obtain ⟨node, c1, -⟩ := bell_edge hs h n1 Q q2 q3 q4
      exact ⟨[(1, [node])], by rw [c1]; rfl, by simp, by simp [bellBlk, c1]⟩)
  obtain ⟨es, k1, -, -, -, k5⟩ := sorted_keys hnum (d := 1) (by omega)
  have h18 : st0.1 = 18 := by
    obtain ⟨st0', b1, b2⟩ := loop_dim hnum (d := 0) (by omega) (blk := bellBlk s nrm Q) (fun v => (jet2 s v).map fun l => [(6, l)]) (by
      intro v hv
      refine ⟨[(6, jetNodes (s.v v))], ?_, ?_, ?_⟩
      · simp only [jet2, vertex_get hs (show v < 3 by simpa using hv), Option.map_some]; rfl
      · simp [jetNodes]
      · simp [bellBlk]) (loopInv_nil _)
    rw [a1, Option.some.injEq] at b1
    subst b1
    rw [b2.cur]
    rfl
  have a2' := a2
  unfold entityLoop at a2'
  rw [k1, Option.bind_some] at a2'
  obtain ⟨ids, c1, c2⟩ := bell_loop (fun e => bellEdge s nrm Q e) st0 (sortedItems es) k5 h18 a2'
  have hb : bellBlk s nrm Q (2, 0) = [] := by simp [bellBlk]
  rw [hb] at a3
  refine ⟨st1.2.1, Dict.put ids 2 [(0, [])], Q, ?_, q2, q3, q4, ?_⟩
  · unfold bellDual
    simp only [a1, g1, g4, q1, k1, c1, Option.bind_eq_bind, Option.bind_some, show (8 + 1 + 1) / 2 = 5 from rfl]
  · have := a3 (Dict.put ids 2 [(0, [])]) fun d e => by
      rw [EntityIds.at?_put]
      by_cases hd2 : d = 2
      · subst hd2
        by_cases he : e = 0
        · subst he; simp [Dict.get?]
        · rw [if_pos rfl, if_pos rfl, if_neg he]
          simp [Dict.get?, Ne.symm he]
      · rw [if_neg (fun h => hd2 h.symm), if_neg hd2, c2]
    simpa using this

/-- The edge dof of a polynomial of degree five is the leading coefficient of its normal derivative along the edge, over 630. -/
theorem bell_moment (a u n : Fin 2 → ℝ) (p : MvPolynomial (Fin 2) ℝ) (hp : p.totalDegree ≤ 5) :
    ∫ t in (0 : ℝ)..1, legendre4 t * eval (a + t • u) (dirD n p) = (lineRestrict a u (dirD n p)).coeff 4 / 630 := by
  rw [← legendre4_moment _ (natDegree_lineRestrict a u (totalDegree_dirD n hp))]
  simp only [eval_lineRestrict]

theorem bell_normal {a c : ℕ} (n : Fin 2 → ℝ) (p : MvPolynomial (Fin 2) ℝ) (hp : p.totalDegree ≤ 5)
    (ha : JetZero (s.v a) p) (hc : JetZero (s.v c) p)
    (hz : ∫ t in (0 : ℝ)..1, legendre4 t * eval (s.v a + t • (s.v c - s.v a)) (dirD n p) = 0) (w : ℝ) :
    eval (s.v a + w • (s.v c - s.v a)) (dirD n p) = 0 := by
  rw [bell_moment _ _ _ p hp] at hz
  have hdeg := natDegree_lineRestrict (s.v a) (s.v c - s.v a) (totalDegree_dirD n hp)
  have h4 : (lineRestrict (s.v a) (s.v c - s.v a) (dirD n p)).coeff 4 = 0 := by
    have : (630 : ℝ) ≠ 0 := by norm_num
    simpa using hz
  have hdeg3 : (lineRestrict (s.v a) (s.v c - s.v a) (dirD n p)).natDegree < 4 := by
    by_contra hcon
    have h5 : (lineRestrict (s.v a) (s.v c - s.v a) (dirD n p)).natDegree = 4 := by omega
    have h6 : (lineRestrict (s.v a) (s.v c - s.v a) (dirD n p)).leadingCoeff = 0 := by
      rw [Polynomial.leadingCoeff, h5, h4]
    rw [Polynomial.leadingCoeff_eq_zero] at h6
    rw [h6] at h5
    simp at h5
  have hj : ∀ x, JetZero x p → ∀ j < 2, eval x ((dirD (s.v c - s.v a))^[j] (dirD n p)) = 0 := by
    intro x hx j hj
    match j, hj with
    | 0, _ =>
      rw [Function.iterate_zero_apply, eval_dirD]
      exact Finset.sum_eq_zero fun i _ => by rw [hx.2.1 i, mul_zero]
    | 1, _ => exact dirD_dirD _ _ p x hx.2.2
  have hq : lineRestrict (s.v a) (s.v c - s.v a) (dirD n p) = 0 := by
    refine hermite_zero {0, 1} (fun _ => 2) _ ?_ (by simpa using hdeg3)
    intro x hx j hj2
    rw [iterate_derivative_lineRestrict, eval_lineRestrict]
    simp only [Finset.mem_insert, Finset.mem_singleton] at hx
    rcases hx with rfl | rfl
    · rw [zero_smul, add_zero]; exact hj _ ha j hj2
    · rw [one_smul, add_sub_cancel]; exact hj _ hc j hj2
  rw [← eval_lineRestrict, hq, Polynomial.eval_zero]

/-- C52: `Bell(triangle)`: the dofs of a vertex are the value, gradient and Hessian; the dof of edge `e`, number `18 + e`, is the moment of the
normal derivative along the edge against the fourth Legendre polynomial; the element tabulates the basis of `P_5` dual to these;
functions whose dofs on the closure of an edge are zero vanish there with their gradients. -/
theorem bell_spec (s : SimplexCell (Fin 2 → ℝ)) (hs : ProperSimplex ℝ s) (hnum : NumberedSimplex s)
    (nrm : ℕ → Option (Fin 2 → ℝ)) (hn : FacetNormals s nrm) (gj : ℕ → ℕ → List ℝ) (hgj : NodesOK gj) :
    ∃ el nodes ids, bell gj s nrm = some (el, nodes, ids) ∧ IsNodalScalar 5 nodes el ∧ ProperDofs s nodes ids ∧
      (∀ v < 3, DofsOf nodes ids 0 v (jetValues (s.v v))) ∧
      (∀ e a c n, HasEntity s.topo 1 e [a, c] → nrm e = some n → ids.at? 1 e = some [18 + e] ∧
        ∃ node, nodes[18 + e]? = some node ∧ ∀ p : MvPolynomial (Fin 2) ℝ, p.totalDegree ≤ 5 → node.onField (scalarField p) =
          ∫ t in (0 : ℝ)..1, (70 * t ^ 4 - 140 * t ^ 3 + 90 * t ^ 2 - 20 * t + 1) *
            ∑ j, n j * eval (s.v a + t • (s.v c - s.v a)) (pderiv j p)) ∧
      ids.at? 2 0 = some [] ∧
      ∀ e t, HasEntity s.topo 1 e t → ∀ p : MvPolynomial (Fin 2) ℝ, p.totalDegree ≤ 5 → ZeroOnClosure s nodes ids t p →
        ∀ x, OnEntity s t x → eval x p = 0 ∧ ∀ j, eval x (pderiv j p) = 0 := by
  obtain ⟨nodes, ids, Q, h1, q2, q3, q4, h2⟩ := bell_dual_blocks hs hnum hn hgj
  have hmem : ∀ {d e t}, HasEntity s.topo d e t → (d, e) ∈ allEnts 2 := fun h => (mem_allEnts hnum _).2 ⟨_, h⟩
  have hvert : ∀ v p, (bellBlk s nrm Q (0, v)).map (fun node => node.onField (scalarField p)) = jetValues (s.v v) p := by
    intro v p
    rw [← jetNodes_values]
    simp [bellBlk]
  have hjet : ∀ t p, ZeroOnClosure s nodes ids t p → ∀ a ∈ t, a < 3 → JetZero (s.v a) p := by
    intro t p hz a ha hlt
    have hva := vertex_entity hs hnum hlt
    have := scalar_block_zero hnum h2 hz hva (by simpa using ha)
    rw [hvert] at this
    exact jetZero_of_values this
  have hedge : ∀ e t, HasEntity s.topo 1 e t → ∀ p : MvPolynomial (Fin 2) ℝ, p.totalDegree ≤ 5 → ZeroOnClosure s nodes ids t p →
      (∀ x, OnEntity s t x → eval x p = 0) ∧ ∀ n, nrm e = some n → ∀ x, OnEntity s t x → eval x (dirD n p) = 0 := by
    intro e t h p hp hz
    have hlt := (hs.2.1.entity _ _ _ h).2.2
    rw [hs.1] at hlt
    obtain ⟨a, c, rfl, hac, -⟩ := edge_tuple hs h
    have ja := hjet _ p hz a (by simp) (hlt a (by simp))
    have jc := hjet _ p hz c (by simp) (hlt c (by simp))
    constructor
    · intro x hx
      obtain ⟨w, rfl⟩ := (onEntity_pair s hac x).1 hx
      exact edge_value le_rfl p hp ja jc (fun i i1 i2 => by omega) w
    · intro n hne x hx
      obtain ⟨w, rfl⟩ := (onEntity_pair s hac x).1 hx
      obtain ⟨node, c1, -, c3⟩ := bell_edge hs h hne Q q2 q3 q4
      have := scalar_block_zero hnum h2 hz h (fun a ha => ha) (node.onField (scalarField p)) (by simp [bellBlk, c1])
      rw [c3 p hp] at this
      exact bell_normal n p hp ja jc this w
  have htrace : ∀ e t, HasEntity s.topo 1 e t → ∀ p : MvPolynomial (Fin 2) ℝ, p.totalDegree ≤ 5 → ZeroOnClosure s nodes ids t p →
        ∀ x, OnEntity s t x → eval x p = 0 ∧ ∀ j, eval x (pderiv j p) = 0 := by
    intro e t h p hp hz x hx
    obtain ⟨k1, k2⟩ := hedge e t h p hp hz
    obtain ⟨i, -, -, k3⟩ := edge_gradient hs hn h p k1 k2
    exact ⟨k1 x hx, k3 x hx⟩
  obtain ⟨tc, htc, -, hmc, -⟩ := cell_entity hs hnum
  have hsep : Separates 5 nodes := by
    intro p hp hz
    have hcl := closure_of_all (s := s) ids hz
    obtain ⟨g, b, hb⟩ := baryForms_exist _ (proper_independent hs)
    obtain ⟨r, r1, r2⟩ := triangle_c1 hs hn p hp (fun e t h => hedge e t h p hp (hcl t)) hb
    rcases r2 with rfl | r2
    · rw [r1, mul_zero]
    · omega
  have hlen : nodes.length = (5 + 2).choose 2 := by
    rw [triangle_length hnum h2 6 1 0 (fun v _ => by simp [bellBlk, jetNodes]) (by
      intro e t h
      obtain ⟨a, c, rfl, -⟩ := edge_tuple hs h
      obtain ⟨n, n1, -⟩ := hn e _ h
      obtain ⟨node, c1, -⟩ := bell_edge hs h n1 Q q2 q3 q4
      simp [bellBlk, c1]) (by simp [bellBlk])]
    rfl
  obtain ⟨el, e1, e2⟩ := functional_element_spec (Or.inr (Or.inl rfl)) s hs (fun h => absurd h (by norm_num)) 5 nodes hlen (by
      intro l hl
      rw [h2.1, List.mem_flatMap] at hl
      obtain ⟨⟨d, e⟩, hx, hl⟩ := hl
      obtain ⟨t, ht⟩ := (mem_allEnts hnum _).1 hx
      by_cases hd0 : d = 0
      · subst hd0
        exact jetNodes_wf (s.v e) l (by simpa [bellBlk] using hl)
      by_cases hd1 : d = 1
      · subst hd1
        obtain ⟨a, c, rfl, -⟩ := edge_tuple hs ht
        obtain ⟨n, n1, -⟩ := hn e _ ht
        obtain ⟨node, c1, c2, -⟩ := bell_edge hs ht n1 Q q2 q3 q4
        simp only [bellBlk, one_ne_zero, if_false, if_true, c1, Option.toList_some, List.mem_singleton] at hl
        subst hl
        exact c2
      · simp [bellBlk, hd0, hd1] at hl)
    (by
      left
      refine ⟨pointDerivative (s.v 0) [2, 0], ?_, ?_⟩
      · rw [h2.1, List.mem_flatMap]
        refine ⟨(0, 0), hmem (vertex_entity hs hnum (by omega)), ?_⟩
        simp [bellBlk, jetNodes]
      · rw [order_deriv]; simp)
    hsep
  refine ⟨el, nodes, ids, ?_, e2, ⟨h2.layout.1, h2.layout.2.1⟩, ?_, ?_, ?_, htrace⟩
  · unfold bell
    simp only [h1, e1, Option.bind_eq_bind, Option.bind_some]
  · intro v hv'
    exact h2.dofsOf (hmem (vertex_entity hs hnum hv')) _ (hvert v)
  · intro e a c n h hne
    obtain ⟨node, c1, -, c3⟩ := bell_edge hs h hne Q q2 q3 q4
    have he : e < 3 := ((hnum.1 1 (by omega)).2 e).1 ⟨_, h⟩
    have hlen1 : (bellBlk s nrm Q (1, e)).length = 1 := by simp [bellBlk, c1]
    have hb0 : ∀ v, (bellBlk s nrm Q (0, v)).length = 6 := by intro v; simp [bellBlk, jetNodes]
    have hb1 : ∀ e' < 3, (bellBlk s nrm Q (1, e')).length = 1 := by
      intro e' he'
      obtain ⟨t', ht'⟩ := ((hnum.1 1 (by omega)).2 e').2 he'
      obtain ⟨a', c', rfl, -⟩ := edge_tuple hs ht'
      obtain ⟨n', n1, -⟩ := hn e' _ ht'
      obtain ⟨node', d1, -⟩ := bell_edge hs ht' n1 Q q2 q3 q4
      simp [bellBlk, d1]
    have hid : ids.at? 1 e = some [18 + e] := by
      rw [h2.2.2.2.1 1 e (hmem h), hlen1, show allEnts 2 = [(0, 0), (0, 1), (0, 2), (1, 0), (1, 1), (1, 2), (2, 0)] from rfl]
      have f0 := hb1 0 (by omega)
      have f1 := hb1 1 (by omega)
      interval_cases e <;> simp [blockBefore_cons, hb0, f0, f1]
    have hnode : nodes[18 + e]? = some node := by
      obtain ⟨l, k1, k2⟩ := h2.layout.2.2 1 e (hmem h)
      rw [hid, Option.some.injEq] at k1
      subst k1
      simpa [bellBlk, c1] using k2
    refine ⟨hid, node, hnode, fun p hp => ?_⟩
    rw [c3 p hp]
    simp only [eval_dirD]
    rfl
  · obtain ⟨l, k1, k2⟩ := h2.layout.2.2 2 0 (hmem htc)
    rw [k1]
    simp only [bellBlk, OfNat.ofNat_ne_zero, if_false, List.map_nil, List.map_eq_nil_iff, show (2 : ℕ) ≠ 1 by norm_num] at k2
    rw [k2]

/-- C52: "the first 18 basis functions are the reference element bfs": a polynomial of degree five whose edge dof is zero has a normal derivative of
degree at most three along that edge, and conversely. -/
theorem bell_constraint (a u n : Fin 2 → ℝ) (p : MvPolynomial (Fin 2) ℝ) (hp : p.totalDegree ≤ 5) :
    (∫ t in (0 : ℝ)..1, (70 * t ^ 4 - 140 * t ^ 3 + 90 * t ^ 2 - 20 * t + 1) * ∑ j, n j * eval (a + t • u) (pderiv j p) = 0) ↔
      ∃ q : Polynomial ℝ, q.natDegree ≤ 3 ∧ ∀ t, ∑ j, n j * eval (a + t • u) (pderiv j p) = q.eval t := by
  have h := bell_moment a u n p hp
  simp only [eval_dirD, legendre4] at h
  rw [h]
  have hdeg := natDegree_lineRestrict a u (totalDegree_dirD n hp)
  constructor
  · intro hz
    have h4 : (lineRestrict a u (dirD n p)).coeff 4 = 0 := by simpa using hz
    refine ⟨lineRestrict a u (dirD n p), ?_, fun t => by rw [eval_lineRestrict, eval_dirD]⟩
    by_contra hcon
    have h5 : (lineRestrict a u (dirD n p)).natDegree = 4 := by omega
    have h6 : (lineRestrict a u (dirD n p)).leadingCoeff = 0 := by rw [Polynomial.leadingCoeff, h5, h4]
    rw [Polynomial.leadingCoeff_eq_zero] at h6
    rw [h6] at h5
    simp at h5
  · rintro ⟨q, hq, hq2⟩
    have : lineRestrict a u (dirD n p) = q := Polynomial.funext fun t => by rw [eval_lineRestrict, eval_dirD, hq2]
    rw [this, Polynomial.coeff_eq_zero_of_natDegree_lt (by omega), zero_div]

/-- The hypotheses are met by the UFC triangle with its normals and the exact Gauss nodes. -/
example : ∃ gj nrm el nodes ids, bell gj ((ufcTriangle : CellData ℝ).toSimplex 2) nrm = some (el, nodes, ids) ∧ nodes.length = 21 := by
  obtain ⟨gj, hgj⟩ := nodesOK_exists
  obtain ⟨el, nodes, ids, h1, ⟨_, _, _, h2, _⟩, -⟩ := bell_spec _ proper_ufcTriangle numbered_ufcTriangle _ (ufc_triangle_unit_normals _ proper_ufcTriangle) gj hgj
  exact ⟨gj, _, el, nodes, ids, h1, h2⟩

end
end FIAT
