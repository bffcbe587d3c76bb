/-
C88: the scalar elements that report the mapping "affine": is the element built on the image of a cell under an affine map the image of
the element built on the cell?
-/
import Verif.Model.Mapping
import Verif.Lemmas.Transport
import Verif.Props.DeRham
import Verif.Props.Hermite
import Verif.Props.ConformExample

namespace FIAT
open MvPolynomial
section
variable {D : ℕ}

/-- Specification: the functions of `el'` are those of `el` composed with the inverse of the map `x ↦ A x + b` (the mapping `affine`), in the
same order: `tabulate` returns the same values at mapped points, and the gradients are related by the chain rule. -/
def MapsScalar {N m : ℕ} (mapping : PullBack) (A : Matrix (Fin D) (Fin D) ℝ) (b : Fin D → ℝ) (el el' : PolySet ℝ (Fin D → ℝ) N m Unit) : Prop :=
  mapping = .affine ∧ ∀ pts : List (Fin D → ℝ), ∃ (r r' : Dict (List ℕ) (Fin m → Unit → ℕ → ℝ)) (T T' : Fin m → Unit → ℕ → ℝ)
    (G G' : Fin D → Fin m → Unit → ℕ → ℝ),
    el.tabulate pts 1 = some r ∧ el'.tabulate (pts.map (cellMap A b)) 1 = some r' ∧
    Dict.get? r (List.replicate D 0) = some T ∧ Dict.get? r' (List.replicate D 0) = some T' ∧
    (∀ c : Fin D, Dict.get? r (unitAlpha D c) = some (G c)) ∧ (∀ c : Fin D, Dict.get? r' (unitAlpha D c) = some (G' c)) ∧
    ∀ i, ∀ j < pts.length, T i () j = T' i () j ∧ ∀ c, G c i () j = ∑ l, A l c * G' l i () j

variable {A : Matrix (Fin D) (Fin D) ℝ} {b : Fin D → ℝ} {s s' : SimplexCell (Fin D → ℝ)}

/-- Two nodal elements whose nodes correspond. -/
theorem maps_scalar_core {N m k : ℕ} {nodes nodes' : List (Functional ℝ (Fin D → ℝ))} {el el' : PolySet ℝ (Fin D → ℝ) N m Unit}
    (h : IsNodalScalar k nodes el) (h' : IsNodalScalar k nodes' el')
    (hnat : ∀ (i : ℕ) l, nodes[i]? = some l → ∃ l', nodes'[i]? = some l' ∧ ∀ p, l.onField (scalarField (pullCell A b p)) = l'.onField (scalarField p)) :
    MapsScalar .affine A b el el' := by
  obtain ⟨ψ, a1, a2, a3, a4, a5⟩ := h
  obtain ⟨ψ', a1', a2', a3', a4', a5'⟩ := h'
  have hf : ∀ (p : MvPolynomial (Fin D) ℝ), fieldC (fun _ : Unit => ([] : List ℕ)) (fun _ => p) = scalarField p := by
    intro p
    funext c
    simp [scalarField, fieldC]
  have hq : (fun (i : Fin m) (_ : Unit) => pullCell A b (ψ' i)) = fun i _ => ψ i := by
    refine dual_family_unique (fun _ : Unit => ([] : List ℕ)) a3 (fun i l hl j => ?_) (fun j => ?_) (fun i l hl j => ?_)
    · rw [hf]; exact a4 i l hl j
    · obtain ⟨a, ha⟩ := (Submodule.mem_span_range_iff_exists_fun ℝ).1 (a2 _ ((degree_pullCell A b (ψ' j)).trans (a1' j)))
      refine (Submodule.mem_span_range_iff_exists_fun ℝ).2 ⟨a, ?_⟩
      funext u
      rw [Finset.sum_apply, ← ha]
      rfl
    · rw [hf]
      obtain ⟨l', h1, h2⟩ := hnat i l hl
      rw [h2]
      exact a4' i l' h1 j
  have hψ : ∀ i, ψ i = pullCell A b (ψ' i) := fun i => (congrFun (congrFun hq i) ()).symm
  refine ⟨rfl, fun pts => ?_⟩
  obtain ⟨r, r1, r2, r3⟩ := a5 pts 1
  obtain ⟨r', r1', r2', r3'⟩ := a5' (pts.map (cellMap A b)) 1
  have hz : (List.replicate D 0).length = D ∧ (List.replicate D 0).sum ≤ 1 := by simp
  have hu : ∀ c : Fin D, (unitAlpha D c).length = D ∧ (unitAlpha D c).sum ≤ 1 := fun c => ⟨by simp [unitAlpha], (unitAlpha_sum c).le⟩
  have hget : ∀ {r : Dict (List ℕ) (Fin m → Unit → ℕ → ℝ)} {α}, α ∈ Dict.keys r → ∃ T, Dict.get? r α = some T := fun h =>
    Option.isSome_iff_exists.1 (Dict.get?_isSome_iff.2 h)
  obtain ⟨T, hT⟩ := hget ((r2 _).2 hz)
  obtain ⟨T', hT'⟩ := hget ((r2' _).2 hz)
  choose G hG using fun c : Fin D => hget ((r2 _).2 (hu c))
  choose G' hG' using fun c : Fin D => hget ((r2' _).2 (hu c))
  refine ⟨r, r', T, T', G, G', r1, r1', hT, hT', hG, hG', fun i j hj => ?_⟩
  have hx : pts[j]? = some pts[j] := List.getElem?_eq_getElem hj
  have hx' : (pts.map (cellMap A b))[j]? = some (cellMap A b pts[j]) := by rw [List.getElem?_map, hx]; rfl
  refine ⟨?_, fun c => ?_⟩
  · rw [r3 _ _ hT i () j _ hx, r3' _ _ hT' i () j _ hx', iterDeriv_zero, iterDeriv_zero, hψ, eval_pullCell]
  · rw [r3 _ _ (hG c) i () j _ hx, iterDeriv_unit, hψ, pderiv_pullCell, map_sum]
    refine Finset.sum_congr rfl fun l _ => ?_
    rw [map_mul, eval_C, eval_pullCell, r3' _ _ (hG' l) i () j _ hx', iterDeriv_unit]


/-- The nodes of point evaluations at mapped points. -/
theorem point_nodes_map {pts pts' : List (Fin D → ℝ)} (h : pts' = pts.map (cellMap A b)) (i : ℕ) (l : Functional ℝ (Fin D → ℝ))
    (hl : (pts.map pointEvaluation)[i]? = some l) : ∃ l', (pts'.map pointEvaluation)[i]? = some l' ∧
      ∀ p, l.onField (scalarField (pullCell A b p)) = l'.onField (scalarField p) := by
  rw [List.getElem?_map, Option.map_eq_some_iff] at hl
  obtain ⟨x, hx, rfl⟩ := hl
  refine ⟨pointEvaluation (cellMap A b x), by rw [h, List.map_map, List.getElem?_map, hx]; rfl, fun p => ?_⟩
  rw [point_eval_scalar, point_eval_scalar, eval_pullCell]

theorem lagrangeDual_map (h : MappedCell A b s s') (k : ℕ) :
    lagrangeDual ℝ s' k = (lagrangeDual ℝ s k).map fun r => (r.1.map (cellMap A b), r.2) := by
  unfold lagrangeDual
  rw [h.topo, numberEntities_map s.topo (cellMap A b) (fun d e => makePoints ℝ s d e k) _ fun d e => makePoints_map h d e k]
  cases numberEntities s.topo fun d e => makePoints ℝ s d e k <;> rfl

/-- `lagrange_nodal` with `IsNodalScalar`. -/
theorem lagrange_nodal_scalar (hD : D = 1 ∨ D = 2 ∨ D = 3) (hs : ProperSimplex ℝ s)
    (hv : Increasing fun i : Fin (D + 1) => s.v i) (k : ℕ) (hk : 1 ≤ k) :
    ∃ el ids nodes, lagrangeElement s k = some (el, ids) ∧ lagrangeDual ℝ s k = some (nodes, ids) ∧
      IsNodalScalar k (nodes.map pointEvaluation) el := by
  obtain ⟨el, ids, nodes, h1, h2, h3, ψ, a1, a2, a3, a4⟩ := lagrange_nodal hD s hs hv k hk
  refine ⟨el, ids, nodes, h1, h2, fun i => ψ i (), a1, fun p hp => ?_, h3, fun i l hl j => ?_, fun pts order => ?_⟩
  · obtain ⟨a, ha⟩ := (Submodule.mem_span_range_iff_exists_fun ℝ).1 (a2 (fun _ => p) hp)
    refine (Submodule.mem_span_range_iff_exists_fun ℝ).2 ⟨a, ?_⟩
    have := congrFun ha ()
    rwa [Finset.sum_apply] at this
  · rw [← a3 i l hl j]
    congr 1
    funext c
    simp [scalarField, fieldC]
  · obtain ⟨res, r1, r2, r3⟩ := a4 pts order
    exact ⟨res, r1, r2, r3⟩

/-- C88: Lagrange elements.  `s'` is the image of the cell `s`; the two elements have the same `entity_dofs`, and the mapping that the class
reports carries the basis functions of one to those of the other, in order. -/
theorem lagrange_maps_partial (hD : D = 1 ∨ D = 2 ∨ D = 3) (hs : ProperSimplex ℝ s)
    (hv : Increasing fun i : Fin (D + 1) => s.v i) (hv' : Increasing fun i : Fin (D + 1) => s'.v i) (h : MappedCell A b s s') (k : ℕ) (hk : 1 ≤ k) :
    ∃ el el' ids, lagrangeElement s k = some (el, ids) ∧ lagrangeElement s' k = some (el', ids) ∧
      MapsScalar (declaredMapping .lagrange) A b el el' := by
  have hs' := h.proper hs
  obtain ⟨el, ids, nodes, h1, h2, h3⟩ := lagrange_nodal_scalar hD hs hv k hk
  obtain ⟨el', ids', nodes', h1', h2', h3'⟩ := lagrange_nodal_scalar hD hs' hv' k hk
  have hd := lagrangeDual_map h k
  rw [h2, h2', Option.map_some, Option.some.injEq, Prod.mk.injEq] at hd
  obtain ⟨e1, rfl⟩ := hd
  exact ⟨el, el', ids', h1, h1', maps_scalar_core h3 h3' (point_nodes_map e1)⟩

theorem cellMap_centroid {n : ℕ} (hn : n ≠ 0) (A : Matrix (Fin D) (Fin D) ℝ) (b : Fin D → ℝ) (L : List (Fin D → ℝ)) (hL : L.length = n) :
    cellMap A b ((1 / (n : ℝ)) • L.sum) = (1 / (n : ℝ)) • (L.map (cellMap A b)).sum := by
  have key : ∀ L : List (Fin D → ℝ), (L.map (cellMap A b)).sum = A.mulVec L.sum + (L.length : ℝ) • b := by
    intro L
    induction L with
    | nil => simp
    | cons x L ih =>
      rw [List.map_cons, List.sum_cons, ih, List.sum_cons, List.length_cons, Matrix.mulVec_add]
      unfold cellMap
      push_cast
      rw [add_smul, one_smul]
      abel
  rw [key, hL, smul_add, smul_smul, one_div, inv_mul_cancel₀ (Nat.cast_ne_zero.2 hn), one_smul]
  unfold cellMap
  rw [Matrix.mulVec_smul]

/-- C88: discontinuous Lagrange elements of every degree. -/
theorem discontinuous_lagrange_maps_partial (hD : D = 1 ∨ D = 2 ∨ D = 3) (hs : ProperSimplex ℝ s)
    (hv : Increasing fun i : Fin (D + 1) => s.v i) (hv' : Increasing fun i : Fin (D + 1) => s'.v i) (h : MappedCell A b s s') (k : ℕ) :
    ∃ el nodes ids el' nodes' ids', discontinuousLagrange s k = some (el, nodes, ids) ∧ discontinuousLagrange s' k = some (el', nodes', ids') ∧
      MapsScalar (declaredMapping .discontinuousLagrange) A b el el' := by
  have hs' := h.proper hs
  obtain ⟨el, nodes, ids, h1, h2, -, h3, h4⟩ := discontinuous_lagrange_spec hD s hs hv k
  obtain ⟨el', nodes', ids', h1', h2', -, h3', h4'⟩ := discontinuous_lagrange_spec hD s' hs' hv' k
  refine ⟨el, nodes, ids, el', nodes', ids', h1, h1', maps_scalar_core h2 h2' ?_⟩
  by_cases hk : k = 0
  · rw [h3 hk, h3' hk]
    have e : (1 / ((D : ℝ) + 1)) • ∑ i : Fin (D + 1), s'.v i = cellMap A b ((1 / ((D : ℝ) + 1)) • ∑ i : Fin (D + 1), s.v i) := by
      have e1 := cellMap_centroid (n := D + 1) (by omega) A b (List.ofFn fun i : Fin (D + 1) => s.v i) (by simp)
      rw [List.map_ofFn, List.sum_ofFn, List.sum_ofFn] at e1
      push_cast at e1
      rw [e1]
      congr 1
      refine Finset.sum_congr rfl fun i _ => ?_
      refine h.v ?_
      rw [hs.2.1.nverts, hs.1]
      exact i.2
    exact point_nodes_map (pts := [_]) (pts' := [_]) (by rw [List.map_cons, List.map_nil, e])
  · obtain ⟨pts, i1, p1, rfl⟩ := h4 (by omega)
    obtain ⟨pts', i1', p1', rfl⟩ := h4' (by omega)
    have hd := lagrangeDual_map h k
    rw [p1, p1', Option.map_some, Option.some.injEq, Prod.mk.injEq] at hd
    exact point_nodes_map hd.1

theorem numbered_map (h : MappedCell A b s s') (hnum : NumberedSimplex s) : NumberedSimplex s' := by
  unfold NumberedSimplex numEnts at *
  rw [h.topo]
  exact hnum

/-- C88: Crouzeix-Raviart elements. -/
theorem crouzeix_raviart_maps_partial (hD : D = 1 ∨ D = 2 ∨ D = 3) (hs : ProperSimplex ℝ s) (hnum : NumberedSimplex s)
    (hv : Increasing fun i : Fin (D + 1) => s.v i) (hv' : Increasing fun i : Fin (D + 1) => s'.v i) (h : MappedCell A b s s') :
    ∃ el nodes ids el' nodes' ids', crouzeixRaviart s 1 = some (el, nodes, ids) ∧ crouzeixRaviart s' 1 = some (el', nodes', ids') ∧
      MapsScalar (declaredMapping .crouzeixRaviart) A b el el' := by
  have hs' := h.proper hs
  have hD1 : 1 ≤ D := by omega
  obtain ⟨el, nodes, ids, h1, h2, -⟩ := crouzeix_raviart_spec hD s hs hnum hv
  obtain ⟨el', nodes', ids', h1', h2', -⟩ := crouzeix_raviart_spec hD s' hs' (numbered_map h hnum) hv'
  obtain ⟨n1, i1, d1, d2, d3, -⟩ := cr_dual_spec hD1 hs hnum
  obtain ⟨n1', i1', d1', d2', d3', -⟩ := cr_dual_spec hD1 hs' (numbered_map h hnum)
  have hn : ∀ {s : SimplexCell (Fin D → ℝ)} {el nodes ids n1 i1}, crouzeixRaviart s 1 = some (el, nodes, ids) → crDual s = some (n1, i1) → nodes = n1 := by
    intro s el nodes ids n1 i1 h d
    unfold crouzeixRaviart at h
    rw [if_neg (by simp), d] at h
    simp only [Option.bind_eq_bind, Option.bind_some] at h
    obtain ⟨el1, -, h⟩ := Option.bind_eq_some_iff.1 h
    rw [Option.some.injEq, Prod.mk.injEq, Prod.mk.injEq] at h
    exact h.2.1.symm
  obtain rfl := hn h1 d1
  obtain rfl := hn h1' d1'
  refine ⟨el, nodes, ids, el', nodes', ids', h1, h1', maps_scalar_core h2 h2' fun i l hl => ?_⟩
  have hi : i < D + 1 := by rw [← d2]; exact (List.getElem?_eq_some_iff.1 hl).1
  obtain ⟨t, ht⟩ := ((hnum.1 (D - 1) (by omega)).2 i).2 (by rw [Nat.sub_add_cancel hD1]; simpa using hi)
  have ht' : HasEntity s'.topo (D - 1) i t := by rw [h.topo]; exact ht
  refine ⟨_, d3' i t ht', fun p => ?_⟩
  rw [d3 i t ht, Option.some.injEq] at hl
  subst hl
  rw [point_eval_scalar, point_eval_scalar, eval_pullCell]
  obtain ⟨-, t2, t3⟩ := hs.2.1.entity _ _ _ ht
  rw [cellMap_centroid (by omega) A b (t.map s.v) (by rw [List.length_map, t2]; omega), List.map_map]
  congr 3
  refine congrArg List.sum (List.map_congr_left fun a ha => ?_)
  rw [Function.comp_apply, h.v]
  rw [hs.2.1.nverts]
  exact t3 a ha

end

/-- The hypotheses are met: the UFC triangle and a sheared image of it, and an interval of length 2. -/
example (k : ℕ) (hk : 1 ≤ k) : ∃ el el' ids, lagrangeElement tri k = some (el, ids) ∧ lagrangeElement (mapCell !![2, 1; 0, 1] ![1, 0] tri) k = some (el', ids) ∧
    MapsScalar (declaredMapping .lagrange) !![2, 1; 0, 1] ![1, 0] el el' :=
  lagrange_maps_partial (Or.inr (Or.inl rfl)) proper_ufcTriangle (fun h => absurd h (by norm_num)) (fun h => absurd h (by norm_num))
    (mapCell_mapped (by rw [Matrix.det_fin_two_of]; norm_num)) k hk

example (k : ℕ) : ∃ el nodes ids el' nodes' ids', discontinuousLagrange tet k = some (el, nodes, ids) ∧
    discontinuousLagrange (mapCell (2 : Matrix (Fin 3) (Fin 3) ℝ) ![1, 0, 5] tet) k = some (el', nodes', ids') ∧
    MapsScalar (declaredMapping .discontinuousLagrange) 2 ![1, 0, 5] el el' :=
  discontinuous_lagrange_maps_partial (Or.inr (Or.inr rfl)) proper_ufcTetrahedron (fun h => absurd h (by norm_num)) (fun h => absurd h (by norm_num))
    (mapCell_mapped (by rw [← Matrix.diagonal_ofNat, Matrix.det_diagonal]; norm_num)) k

example : ∃ el nodes ids el' nodes' ids', crouzeixRaviart tri 1 = some (el, nodes, ids) ∧
    crouzeixRaviart (mapCell !![2, 1; 0, 1] ![1, 0] tri) 1 = some (el', nodes', ids') ∧
    MapsScalar (declaredMapping .crouzeixRaviart) !![2, 1; 0, 1] ![1, 0] el el' :=
  crouzeix_raviart_maps_partial (Or.inr (Or.inl rfl)) proper_ufcTriangle numbered_ufcTriangle (fun h => absurd h (by norm_num)) (fun h => absurd h (by norm_num))
    (mapCell_mapped (by rw [Matrix.det_fin_two_of]; norm_num))

/-- C88: the cubic Hermite element reports the mapping `affine` too, but the mapping does not carry the element of the unit interval to the element
of an interval of length 2: the derivative nodes do not correspond. -/
theorem cubic_hermite_maps_refuted {s' : SimplexCell (Fin 1 → ℝ)} {b : Fin 1 → ℝ}
    (h : MappedCell !![2] b ((ufcInterval : CellData ℝ).toSimplex 1) s') (hv' : Increasing fun i : Fin (1 + 1) => s'.v i)
    {el nodes ids el' nodes' ids'} (h1 : cubicHermite ((ufcInterval : CellData ℝ).toSimplex 1) 3 = some (el, nodes, ids))
    (h1' : cubicHermite s' 3 = some (el', nodes', ids')) : ¬ MapsScalar (declaredMapping .cubicHermite) !![2] b el el' := by
  have hs' := h.proper proper_ufcInterval
  rintro ⟨-, hm⟩
  have hinc : Increasing fun i : Fin (1 + 1) => ((ufcInterval : CellData ℝ).toSimplex 1).v i := fun _ => by
    norm_num [SimplexCell.v, CellData.toSimplex, ufcInterval]
  have hnum : NumberedSimplex ((ufcInterval : CellData ℝ).toSimplex 1) := numbered_ufcInterval
  obtain ⟨_, _, _, e, ⟨ψ, -, -, a3, a4, a5⟩, -, d1, -⟩ := cubic_hermite_spec (D := 1) (by norm_num) _ proper_ufcInterval hnum hinc
  rw [h1, Option.some.injEq, Prod.mk.injEq, Prod.mk.injEq] at e
  obtain ⟨rfl, rfl, rfl⟩ := e
  obtain ⟨_, _, _, e, ⟨ψ', -, -, a3', a4', a5'⟩, -, d1', -⟩ := cubic_hermite_spec (D := 1) (by norm_num) _ hs' (numbered_map h hnum) hv'
  rw [h1', Option.some.injEq, Prod.mk.injEq, Prod.mk.injEq] at e
  obtain ⟨rfl, rfl, rfl⟩ := e
  have hdof : ∀ {s : SimplexCell (Fin 1 → ℝ)} {nodes ids}, DofsOf nodes ids 0 0 (fun p => eval (s.v 0) p :: List.ofFn fun i : Fin 1 => eval (s.v 0) (pderiv i p)) →
      ∃ (i : ℕ) (l : Functional ℝ (Fin 1 → ℝ)), nodes[i]? = some l ∧ ∀ p, l.onField (scalarField p) = eval (s.v 0) (pderiv 0 p) := by
    rintro s nodes ids ⟨l, -, hl⟩
    have h0 := hl 0
    have hlen := congrArg List.length h0
    simp only [List.length_map, List.length_cons, List.length_ofFn] at hlen
    obtain ⟨i0, k1, rfl⟩ := List.length_eq_two.1 hlen
    simp only [List.map_cons, List.map_nil, List.ofFn_succ, List.ofFn_zero, List.cons.injEq, Option.map_eq_some_iff] at hl
    obtain ⟨-, ⟨node, n1, -⟩, -⟩ := hl 0
    refine ⟨k1, node, n1, fun p => ?_⟩
    obtain ⟨-, ⟨node', n1', n2⟩, -⟩ := hl p
    rw [n1, Option.some.injEq] at n1'
    rw [n1', n2]
  obtain ⟨i, l, l1, l2⟩ := hdof (d1 0 (by norm_num))
  obtain ⟨i', l', l1', l2'⟩ := hdof (d1' 0 (by norm_num))
  have hi := (List.getElem?_eq_some_iff.1 l1).1
  obtain ⟨r, r', T, T', G, G', t1, t1', -, -, t3, t3', t4⟩ := hm [((ufcInterval : CellData ℝ).toSimplex 1).v 0]
  have h2 := (t4 ⟨i, by omega⟩ 0 (by simp)).2 0
  obtain ⟨_, e, -, q⟩ := a5 [((ufcInterval : CellData ℝ).toSimplex 1).v 0] 1
  rw [t1, Option.some.injEq] at e
  subst e
  obtain ⟨_, e, -, q'⟩ := a5' ([((ufcInterval : CellData ℝ).toSimplex 1).v 0].map (cellMap !![2] b)) 1
  rw [t1', Option.some.injEq] at e
  subst e
  rw [Finset.univ_unique, Finset.sum_singleton, show (default : Fin 1) = 0 from rfl, q _ _ (t3 0) _ () 0 _ rfl, q' _ _ (t3' 0) _ () 0 _ rfl,
    iterDeriv_unit, iterDeriv_unit, ← l2, a4 i l l1, ← h.v (by simp [CellData.toSimplex, ufcInterval]), ← l2', a4' i' l' l1'] at h2
  rw [if_pos rfl] at h2
  have hA : (!![2] : Matrix (Fin 1) (Fin 1) ℝ) 0 0 = 2 := rfl
  rw [hA] at h2
  split at h2 <;> norm_num at h2

/-- The hypotheses are met by the unit interval and the interval `[1, 3]`. -/
example : ∃ el nodes ids el' nodes' ids', cubicHermite ((ufcInterval : CellData ℝ).toSimplex 1) 3 = some (el, nodes, ids) ∧
    cubicHermite (mapCell !![2] ![1] ((ufcInterval : CellData ℝ).toSimplex 1)) 3 = some (el', nodes', ids') ∧
    ¬ MapsScalar (declaredMapping .cubicHermite) !![2] ![1] el el' := by
  have hm : MappedCell !![2] ![1] ((ufcInterval : CellData ℝ).toSimplex 1) (mapCell !![2] ![1] ((ufcInterval : CellData ℝ).toSimplex 1)) :=
    mapCell_mapped (by simp)
  have hinc : Increasing fun i : Fin (1 + 1) => ((ufcInterval : CellData ℝ).toSimplex 1).v i := fun _ => by
    norm_num [SimplexCell.v, CellData.toSimplex, ufcInterval]
  have hinc' : Increasing fun i : Fin (1 + 1) => (mapCell !![2] ![1] ((ufcInterval : CellData ℝ).toSimplex 1)).v i := fun _ => by
    norm_num [mapCell, cellMap, SimplexCell.v, CellData.toSimplex, ufcInterval, Matrix.mulVec, dotProduct]
  obtain ⟨el, nodes, ids, h1, -⟩ := cubic_hermite_spec (Or.inl rfl) _ proper_ufcInterval numbered_ufcInterval hinc
  obtain ⟨el', nodes', ids', h1', -⟩ := cubic_hermite_spec (Or.inl rfl) _ (hm.proper proper_ufcInterval) (numbered_map hm numbered_ufcInterval) hinc'
  exact ⟨el, nodes, ids, el', nodes', ids', h1, h1', cubic_hermite_maps_refuted hm hinc' h1 h1'⟩

end FIAT
