/-
C91: Bernstein elements, and the elements with derivative dofs (Morley, Argyris, Bell, discontinuous Taylor), and the mapping "affine" they report.
-/
import Verif.Props.Pushforward
import Verif.Props.Morley
import Verif.Props.Argyris
import Verif.Props.Bell
import Verif.Props.Taylor
import Verif.Props.Bernstein
import Verif.Props.ConformUfc

namespace FIAT
open MvPolynomial
section
variable {D : ℕ} {A : Matrix (Fin D) (Fin D) ℝ} {b : Fin D → ℝ} {s s' : SimplexCell (Fin D → ℝ)}

/-- Two nodal elements of which one node of each corresponds up to a factor other than 1. -/
theorem maps_scalar_refuted_core {N m k : ℕ} {nodes nodes' : List (Functional ℝ (Fin D → ℝ))} {el el' : PolySet ℝ (Fin D → ℝ) N m Unit}
    (h : IsNodalScalar k nodes el) (h' : IsNodalScalar k nodes' el') {i i' : ℕ} {l l' : Functional ℝ (Fin D → ℝ)} (hl : nodes[i]? = some l)
    (hl' : nodes'[i']? = some l') {c : ℝ} (hc : c ≠ 1)
    (hnat : ∀ p, l.onField (scalarField (pullCell A b p)) = c * l'.onField (scalarField p)) (mapping : PullBack) :
    ¬ MapsScalar mapping A b el el' := by
  obtain ⟨ψ, -, -, a3, a4, a5⟩ := h
  obtain ⟨ψ', -, -, -, a4', a5'⟩ := h'
  rintro ⟨-, hm⟩
  have hψ : ∀ j, ψ j = pullCell A b (ψ' j) := by
    intro j
    refine MvPolynomial.funext fun x => ?_
    obtain ⟨r, r', T, T', G, G', t1, t1', t2, t2', -, -, t4⟩ := hm [x]
    obtain ⟨_, e, -, q⟩ := a5 [x] 1
    rw [t1, Option.some.injEq] at e
    subst e
    obtain ⟨_, e, -, q'⟩ := a5' ([x].map (cellMap A b)) 1
    rw [t1', Option.some.injEq] at e
    subst e
    have h2 := (t4 j 0 (by simp)).1
    rw [q _ _ t2 j () 0 x rfl, q' _ _ t2' j () 0 _ rfl, iterDeriv_zero, iterDeriv_zero] at h2
    rw [h2, eval_pullCell]
  have hi : i < m := a3 ▸ (List.getElem?_eq_some_iff.1 hl).1
  have h1 := a4 i l hl ⟨i, hi⟩
  rw [if_pos rfl, hψ, hnat, a4' i' l' hl'] at h1
  split at h1
  · rw [mul_one] at h1
    exact hc h1
  · rw [mul_zero] at h1
    exact zero_ne_one h1

/-- A named dof of an entity. -/
theorem DofsOf.node {nodes : List (Functional ℝ (Fin D → ℝ))} {ids : EntityIds ℕ} {d e : ℕ} {F : MvPolynomial (Fin D) ℝ → List ℝ}
    (h : DofsOf nodes ids d e F) {j : ℕ} {v : MvPolynomial (Fin D) ℝ → ℝ} (hv : ∀ p, (F p)[j]? = some (v p)) :
    ∃ (i : ℕ) (l : Functional ℝ (Fin D → ℝ)), nodes[i]? = some l ∧ ∀ p, l.onField (scalarField p) = v p := by
  obtain ⟨L, -, hL⟩ := h
  have key : ∀ p, ∃ i l, L[j]? = some i ∧ nodes[i]? = some l ∧ l.onField (scalarField p) = v p := by
    intro p
    have h1 := congrArg (fun M : List (Option ℝ) => M[j]?) (hL p)
    simp only [List.getElem?_map, hv p, Option.map_some] at h1
    obtain ⟨i, hi, h2⟩ := Option.map_eq_some_iff.1 h1
    obtain ⟨l, h3, h4⟩ := Option.map_eq_some_iff.1 h2
    exact ⟨i, l, hi, h3, h4⟩
  obtain ⟨i, l, k1, k2, -⟩ := key 0
  refine ⟨i, l, k2, fun p => ?_⟩
  obtain ⟨i', l', k1', k2', k3⟩ := key p
  rw [k1, Option.some.injEq] at k1'
  subst k1'
  rw [k2, Option.some.injEq] at k2'
  subst k2'
  exact k3

theorem pderiv_pull_scale (c : ℝ) (b : Fin D → ℝ) (p : MvPolynomial (Fin D) ℝ) (a : Fin D) :
    pderiv a (pullCell (c • (1 : Matrix (Fin D) (Fin D) ℝ)) b p) = C c * pullCell (c • (1 : Matrix (Fin D) (Fin D) ℝ)) b (pderiv a p) := by
  rw [pderiv_pullCell, Finset.sum_eq_single a]
  · rw [Matrix.smul_apply, Matrix.one_apply_eq, smul_eq_mul, mul_one]
  · intro l _ hl
    rw [Matrix.smul_apply, Matrix.one_apply_ne hl, smul_zero, C_0, zero_mul]
  · simp

theorem BaryForms.coords {v : Fin (D + 1) → Fin D → ℝ} {g : Fin (D + 1) → Fin D → ℝ} {β : Fin (D + 1) → ℝ} (h : BaryForms v g β) :
    BaryCoords v fun i => linForm (g i) (β i) := by
  refine fun i => ⟨⟨g i, β i, add_comm _ _⟩, fun j => ?_⟩
  have h1 := h.unique (Pi.single j 1) (by simp) i
  have h2 : ∑ l, (Pi.single j 1 : Fin (D + 1) → ℝ) l • v l = v j := by
    rw [Finset.sum_eq_single j (fun l _ hl => by rw [Pi.single_eq_of_ne hl, zero_smul]) (by simp), Pi.single_eq_same, one_smul]
  rw [h2] at h1
  rw [h1, Pi.single_apply]

/-- C91, Bernstein: rows of the table of values of the element on the image of a cell at the images of points are those of the table on the cell. -/
theorem bernstein_maps (hD : 1 ≤ D) (hs : ProperSimplex ℝ s) (h : MappedCell A b s s') (k : ℕ) {N : ℕ} (x : Fin N → Fin D → ℝ) :
    declaredMapping .bernstein = .affine ∧ ∃ r r' T, bernsteinTabulate (fun i : Fin (D + 1) => s.v i) k 0 x = some r ∧
      bernsteinTabulate (fun i : Fin (D + 1) => s'.v i) k 0 (fun p => cellMap A b (x p)) = some r' ∧
      Dict.get? r (List.replicate D 0) = some T ∧ Dict.get? r' (List.replicate D 0) = some T := by
  obtain ⟨g, β, hg⟩ := baryForms_exist _ (proper_independent hs)
  obtain ⟨g', β', hg'⟩ := baryForms_exist _ (proper_independent (h.proper hs))
  obtain ⟨lam, hlamd⟩ : ∃ lam : Fin (D + 1) → MvPolynomial (Fin D) ℝ, lam = fun i => linForm (g i) (β i) := ⟨_, rfl⟩
  obtain ⟨lam', hlamd'⟩ : ∃ lam' : Fin (D + 1) → MvPolynomial (Fin D) ℝ, lam' = fun i => linForm (g' i) (β' i) := ⟨_, rfl⟩
  have hlam : BaryCoords (fun i : Fin (D + 1) => s.v i) lam := hlamd ▸ hg.coords
  have hlam' : BaryCoords (fun i : Fin (D + 1) => s'.v i) lam' := hlamd' ▸ hg'.coords
  have hpull : ∀ i, pullCell A b (lam' i) = lam i := by
    intro i
    refine MvPolynomial.funext fun x => ?_
    rw [eval_pullCell, hlamd, hlamd']
    have hx : cellMap A b x = ∑ j, eval x (linForm (g j) (β j)) • s'.v (j : ℕ) := by
      have e1 : ∀ j : Fin (D + 1), s'.v j = cellMap A b (s.v j) := fun j => h.v (by rw [hs.2.1.nverts, hs.1]; exact j.2)
      conv_lhs => rw [← hg.comb x]
      simp only [e1, cellMap, smul_add, Finset.sum_add_distrib, ← Finset.sum_smul, hg.sum_one, one_smul, Matrix.mulVec_sum, Matrix.mulVec_smul]
    rw [hx]
    exact hg'.unique _ (hg.sum_one x) i
  obtain ⟨r, r1, r2, r3⟩ := bernstein_tabulate_partial hD _ lam hlam k 0 x
  obtain ⟨r', r1', r2', r3'⟩ := bernstein_tabulate_partial hD _ lam' hlam' k 0 (fun p => cellMap A b (x p))
  have hz : (List.replicate D 0).length = D ∧ (List.replicate D 0).sum ≤ 0 := by simp
  obtain ⟨T, hT⟩ := Option.isSome_iff_exists.1 (Dict.get?_isSome_iff.2 ((r2 _).2 hz))
  obtain ⟨T', hT'⟩ := Option.isSome_iff_exists.1 (Dict.get?_isSome_iff.2 ((r2' _).2 hz))
  have hTT : T' = T := by
    obtain ⟨l1, l2⟩ := r3 _ _ hT
    obtain ⟨l1', l2'⟩ := r3' _ _ hT'
    refine List.ext_getElem (l1'.trans l1.symm) fun i hi hi' => ?_
    have hki : i < (mis (D + 1) k).length := by
      rw [mis_length _ _ (by omega)]
      rw [show k + (D + 1) - 1 = k + D by omega, show D + 1 - 1 = D by omega, ← l1]
      exact hi'
    funext p
    rw [l2 i _ _ (List.getElem?_eq_getElem hki) (List.getElem?_eq_getElem hi') p, l2' i _ _ (List.getElem?_eq_getElem hki) (List.getElem?_eq_getElem hi) p]
    simp only [iterDeriv_zero, bernsteinPoly, map_mul, map_prod, map_pow, eval_C, ← eval_pullCell, hpull]
  exact ⟨rfl, r, r', T, r1, r1', hT, by rw [hT', hTT]⟩

/-- C91, refuted: the scaling of the plane by a factor other than 1 does not carry Argyris elements to Argyris elements. -/
theorem argyris_maps_refuted {s s' : SimplexCell (Fin 2 → ℝ)} {b : Fin 2 → ℝ} {c : ℝ} (hc : c ≠ 1) (hs : ProperSimplex ℝ s) (hnum : NumberedSimplex s)
    (h : MappedCell (c • (1 : Matrix (Fin 2) (Fin 2) ℝ)) b s s') {nrm nrm' : ℕ → Option (Fin 2 → ℝ)} (hn : FacetNormals s nrm)
    (hn' : FacetNormals s' nrm') (degree : ℕ) (hd : 5 ≤ degree) :
    ∃ el nodes ids el' nodes' ids', argyris s nrm degree = some (el, nodes, ids) ∧ argyris s' nrm' degree = some (el', nodes', ids') ∧
      ¬ MapsScalar (declaredMapping .argyris) (c • 1) b el el' := by
  obtain ⟨el, nodes, ids, h1, h2, -, h3, -⟩ := argyris_spec s hs hnum nrm hn degree hd
  obtain ⟨el', nodes', ids', h1', h2', -, h3', -⟩ := argyris_spec s' (h.proper hs) (numbered_map h hnum) nrm' hn' degree hd
  obtain ⟨i, l, l1, l2⟩ := (h3 0 (by norm_num)).node (j := 1) (v := fun p => eval (s.v 0) (pderiv 0 p)) fun p => rfl
  obtain ⟨i', l', l1', l2'⟩ := (h3' 0 (by norm_num)).node (j := 1) (v := fun p => eval (s'.v 0) (pderiv 0 p)) fun p => rfl
  refine ⟨el, nodes, ids, el', nodes', ids', h1, h1', maps_scalar_refuted_core h2 h2' l1 l1' hc (fun p => ?_) _⟩
  rw [l2, l2', pderiv_pull_scale, map_mul, eval_C, eval_pullCell, h.v (by rw [hs.2.1.nverts, hs.1]; norm_num)]

/-- C91, refuted: the same for Bell elements. -/
theorem bell_maps_refuted {s s' : SimplexCell (Fin 2 → ℝ)} {b : Fin 2 → ℝ} {c : ℝ} (hc : c ≠ 1) (hs : ProperSimplex ℝ s) (hnum : NumberedSimplex s)
    (h : MappedCell (c • (1 : Matrix (Fin 2) (Fin 2) ℝ)) b s s') {nrm nrm' : ℕ → Option (Fin 2 → ℝ)} (hn : FacetNormals s nrm)
    (hn' : FacetNormals s' nrm') {gj : ℕ → ℕ → List ℝ} (hgj : NodesOK gj) :
    ∃ el nodes ids el' nodes' ids', bell gj s nrm = some (el, nodes, ids) ∧ bell gj s' nrm' = some (el', nodes', ids') ∧
      ¬ MapsScalar (declaredMapping .bell) (c • 1) b el el' := by
  obtain ⟨el, nodes, ids, h1, h2, -, h3, -⟩ := bell_spec s hs hnum nrm hn gj hgj
  obtain ⟨el', nodes', ids', h1', h2', -, h3', -⟩ := bell_spec s' (h.proper hs) (numbered_map h hnum) nrm' hn' gj hgj
  obtain ⟨i, l, l1, l2⟩ := (h3 0 (by norm_num)).node (j := 1) (v := fun p => eval (s.v 0) (pderiv 0 p)) fun p => rfl
  obtain ⟨i', l', l1', l2'⟩ := (h3' 0 (by norm_num)).node (j := 1) (v := fun p => eval (s'.v 0) (pderiv 0 p)) fun p => rfl
  refine ⟨el, nodes, ids, el', nodes', ids', h1, h1', maps_scalar_refuted_core h2 h2' l1 l1' hc (fun p => ?_) _⟩
  rw [l2, l2', pderiv_pull_scale, map_mul, eval_C, eval_pullCell, h.v (by rw [hs.2.1.nverts, hs.1]; norm_num)]

/-- C91, refuted: the same for Morley elements; the normals, of unit length, of the two cells are the same. -/
theorem morley_maps_refuted {s s' : SimplexCell (Fin 2 → ℝ)} {b : Fin 2 → ℝ} {c : ℝ} (hc : c ≠ 1) (hs : ProperSimplex ℝ s) (hnum : NumberedSimplex s)
    (h : MappedCell (c • (1 : Matrix (Fin 2) (Fin 2) ℝ)) b s s') {nrm nrm' : ℕ → Option (Fin 2 → ℝ)} (hn : FacetNormals s nrm)
    (hn' : FacetNormals s' nrm') (hnn : ∀ e t, HasEntity s.topo 1 e t → nrm' e = nrm e) :
    ∃ el nodes ids el' nodes' ids', morley s nrm = some (el, nodes, ids) ∧ morley s' nrm' = some (el', nodes', ids') ∧
      ¬ MapsScalar (declaredMapping .morley) (c • 1) b el el' := by
  obtain ⟨el, nodes, ids, h1, h2, -, -, h3, -⟩ := morley_spec s hs hnum nrm hn
  obtain ⟨el', nodes', ids', h1', h2', -, -, h3', -⟩ := morley_spec s' (h.proper hs) (numbered_map h hnum) nrm' hn'
  obtain ⟨t, ht⟩ := ((hnum.1 1 (by norm_num)).2 0).2 (by decide)
  obtain ⟨a, d, rfl, -, ha, hd⟩ := edge_tuple hs ht
  have ht' : HasEntity s'.topo 1 0 [a, d] := by rw [h.topo]; exact ht
  obtain ⟨n, hne, -⟩ := hn 0 _ ht
  obtain ⟨i, l, l1, l2⟩ := (h3 0 a d n ht hne).node (j := 0) fun p => rfl
  obtain ⟨i', l', l1', l2'⟩ := (h3' 0 a d n ht' ((hnn 0 _ ht).trans hne)).node (j := 0) fun p => rfl
  refine ⟨el, nodes, ids, el', nodes', ids', h1, h1', maps_scalar_refuted_core h2 h2' l1 l1' hc (fun p => ?_) _⟩
  have hx : s'.v a + (1 / 2 : ℝ) • (s'.v d - s'.v a) = cellMap (c • 1) b (s.v a + (1 / 2 : ℝ) • (s.v d - s.v a)) := by
    rw [h.v (by rw [hs.2.1.nverts, hs.1]; exact ha), h.v (by rw [hs.2.1.nverts, hs.1]; exact hd), cellMap_diff, cellMap_add, Matrix.mulVec_smul]
  rw [l2, l2', hx, Finset.mul_sum]
  refine Finset.sum_congr rfl fun j _ => ?_
  rw [pderiv_pull_scale, map_mul, eval_C, eval_pullCell]
  ring

/-- C91, refuted: the same for discontinuous Taylor elements of degree at least 1, for positive factors. -/
theorem discontinuous_taylor_maps_refuted (hD : D = 1 ∨ D = 2 ∨ D = 3) {c : ℝ} (hc : c ≠ 1) (hs : ProperSimplex ℝ s) (hnum : NumberedSimplex s)
    (h : MappedCell (c • (1 : Matrix (Fin D) (Fin D) ℝ)) b s s') (hv : Increasing fun i : Fin (D + 1) => s.v i)
    (hv' : Increasing fun i : Fin (D + 1) => s'.v i) (ho : 0 < orientation fun i : Fin (D + 1) => s.v i)
    (ho' : 0 < orientation fun i : Fin (D + 1) => s'.v i) {gj : ℕ → ℕ → List ℝ} (hgj : NodesOK gj) (k : ℕ) (hk : 1 ≤ k) :
    ∃ el nodes ids el' nodes' ids', discontinuousTaylor gj s k = some (el, nodes, ids) ∧ discontinuousTaylor gj s' k = some (el', nodes', ids') ∧
      ¬ MapsScalar (declaredMapping .discontinuousTaylor) (c • 1) b el el' := by
  obtain ⟨el, mean, rest, ids, h1, h2, -, -, αs, -, g2, -, g4⟩ := discontinuous_taylor_spec hD s hs hnum hv ho gj hgj k hk
  obtain ⟨el', mean', rest', ids', h1', h2', -, -, αs', -, g2', -, g4'⟩ :=
    discontinuous_taylor_spec hD s' (h.proper hs) (numbered_map h hnum) hv' ho' gj hgj k hk
  have i0 : Fin D := ⟨0, by omega⟩
  have hnode : ∀ {αs : List (List ℕ)} {rest : List (Functional ℝ (Fin D → ℝ))} {y : Fin D → ℝ} (mean : Functional ℝ (Fin D → ℝ)), unitAlpha D i0 ∈ αs →
      (∀ p, rest.map (fun node => node.onField (scalarField p)) = αs.map fun α => eval y (iterDeriv α p)) →
      ∃ (i : ℕ) (l : Functional ℝ (Fin D → ℝ)), (mean :: rest)[i]? = some l ∧ ∀ p, l.onField (scalarField p) = eval y (pderiv i0 p) := by
    intro αs rest y mean hα hr
    obtain ⟨j, hj, hj'⟩ := List.getElem_of_mem hα
    have hlen : rest.length = αs.length := by
      have := congrArg List.length (hr 0)
      simpa using this
    refine ⟨j + 1, rest[j], by rw [List.getElem?_cons_succ]; exact List.getElem?_eq_getElem (by omega), fun p => ?_⟩
    have h1 := congrArg (fun M : List ℝ => M[j]?) (hr p)
    simp only [List.getElem?_map, List.getElem?_eq_getElem hj, List.getElem?_eq_getElem (show j < rest.length by omega), Option.map_some,
      Option.some.injEq] at h1
    rw [h1, hj', iterDeriv_unit]
  have hu : (unitAlpha D i0).length = D ∧ 1 ≤ (unitAlpha D i0).sum ∧ (unitAlpha D i0).sum ≤ k := by
    rw [unitAlpha_sum]
    exact ⟨by simp [unitAlpha], le_rfl, hk⟩
  obtain ⟨i, l, l1, l2⟩ := hnode mean ((g2 _).2 hu) g4
  obtain ⟨i', l', l1', l2'⟩ := hnode mean' ((g2' _).2 hu) g4'
  refine ⟨el, _, ids, el', _, ids', h1, h1', maps_scalar_refuted_core h2 h2' l1 l1' hc (fun p => ?_) _⟩
  have hx : (1 / ((D : ℝ) + 1)) • ∑ i : Fin (D + 1), s'.v i = cellMap (c • 1) b ((1 / ((D : ℝ) + 1)) • ∑ i : Fin (D + 1), s.v i) := by
    have e1 : ∀ i : Fin (D + 1), s'.v i = cellMap (c • 1) b (s.v i) := fun i => h.v (by rw [hs.2.1.nverts, hs.1]; exact i.2)
    simp only [e1, cellMap, Finset.sum_add_distrib, Finset.sum_const, Finset.card_univ, Fintype.card_fin, smul_add, Matrix.mulVec_smul,
      ← Matrix.mulVec_sum]
    congr 1
    rw [← Nat.cast_smul_eq_nsmul ℝ, smul_smul]
    push_cast
    rw [one_div, inv_mul_cancel₀ (by positivity), one_smul]
  rw [l2, l2', hx, pderiv_pull_scale, map_mul, eval_C, eval_pullCell]

/-- A scaled cell has the normals of the cell. -/
theorem facet_normals_scaled {c : ℝ} (hs : ProperSimplex ℝ s) (h : MappedCell (c • (1 : Matrix (Fin D) (Fin D) ℝ)) b s s')
    {nrm : ℕ → Option (Fin D → ℝ)} (hn : FacetNormals s nrm) : FacetNormals s' nrm := by
  intro e t ht
  have ht' : HasEntity s.topo (D - 1) e t := by rw [← h.topo]; exact ht
  obtain ⟨n, h1, h2, h3⟩ := hn e t ht'
  refine ⟨n, h1, h2, fun a ha d hd => ?_⟩
  obtain ⟨-, -, hlt⟩ := hs.2.1.entity _ _ _ ht'
  have hv : ∀ a ∈ t, s'.v a = cellMap (c • 1) b (s.v a) := fun a ha => h.v (by rw [hs.2.1.nverts]; exact hlt a ha)
  have e1 : ∀ j, s'.v a j - s'.v d j = c * (s.v a j - s.v d j) := fun j => by
    rw [hv a ha, hv d hd, ← Pi.sub_apply, cellMap_diff, Matrix.smul_mulVec, Matrix.one_mulVec]
    rfl
  rw [Finset.sum_congr rfl fun j _ => by rw [e1, mul_left_comm], ← Finset.mul_sum, h3 a ha d hd, mul_zero]

end

/-! The hypotheses are met by the UFC triangle and its image under `x ↦ 2x + (1, 0)`. -/

theorem tri_scaled : MappedCell ((2 : ℝ) • (1 : Matrix (Fin 2) (Fin 2) ℝ)) ![1, 0] tri (mapCell ((2 : ℝ) • 1) ![1, 0] tri) :=
  mapCell_mapped (by norm_num [Matrix.det_fin_two])

example : ∃ r r' T, bernsteinTabulate (fun i : Fin (2 + 1) => tri.v i) 3 0 (fun _ : Fin 1 => ![1 / 3, 1 / 3]) = some r ∧
    bernsteinTabulate (fun i : Fin (2 + 1) => (mapCell ((2 : ℝ) • 1) ![1, 0] tri).v i) 3 0
      (fun _ : Fin 1 => cellMap ((2 : ℝ) • (1 : Matrix (Fin 2) (Fin 2) ℝ)) ![1, 0] ![1 / 3, 1 / 3]) = some r' ∧
      Dict.get? r [0, 0] = some T ∧ Dict.get? r' [0, 0] = some T :=
  (bernstein_maps (by norm_num) proper_ufcTriangle tri_scaled 3 fun _ : Fin 1 => ![1 / 3, 1 / 3]).2

example : ∃ el nodes ids el' nodes' ids', argyris tri (ufcNormal 2 tri) 6 = some (el, nodes, ids) ∧
    argyris (mapCell ((2 : ℝ) • 1) ![1, 0] tri) (ufcNormal 2 (mapCell ((2 : ℝ) • 1) ![1, 0] tri)) 6 = some (el', nodes', ids') ∧
    ¬ MapsScalar (declaredMapping .argyris) ((2 : ℝ) • 1) ![1, 0] el el' :=
  argyris_maps_refuted (by norm_num) proper_ufcTriangle numbered_ufcTriangle tri_scaled (ufc_triangle_unit_normals _ proper_ufcTriangle)
    (ufc_triangle_unit_normals _ (tri_scaled.proper proper_ufcTriangle)) 6 (by norm_num)

example {gj : ℕ → ℕ → List ℝ} (hgj : NodesOK gj) : ∃ el nodes ids el' nodes' ids', bell gj tri (ufcNormal 2 tri) = some (el, nodes, ids) ∧
    bell gj (mapCell ((2 : ℝ) • 1) ![1, 0] tri) (ufcNormal 2 (mapCell ((2 : ℝ) • 1) ![1, 0] tri)) = some (el', nodes', ids') ∧
    ¬ MapsScalar (declaredMapping .bell) ((2 : ℝ) • 1) ![1, 0] el el' :=
  bell_maps_refuted (by norm_num) proper_ufcTriangle numbered_ufcTriangle tri_scaled (ufc_triangle_unit_normals _ proper_ufcTriangle)
    (ufc_triangle_unit_normals _ (tri_scaled.proper proper_ufcTriangle)) hgj

example : ∃ el nodes ids el' nodes' ids', morley tri (ufcNormal 2 tri) = some (el, nodes, ids) ∧
    morley (mapCell ((2 : ℝ) • 1) ![1, 0] tri) (ufcNormal 2 tri) = some (el', nodes', ids') ∧
    ¬ MapsScalar (declaredMapping .morley) ((2 : ℝ) • 1) ![1, 0] el el' :=
  morley_maps_refuted (by norm_num) proper_ufcTriangle numbered_ufcTriangle tri_scaled (ufc_triangle_unit_normals _ proper_ufcTriangle)
    (facet_normals_scaled proper_ufcTriangle tri_scaled (ufc_triangle_unit_normals _ proper_ufcTriangle)) fun _ _ _ => rfl

example {gj : ℕ → ℕ → List ℝ} (hgj : NodesOK gj) : ∃ el nodes ids el' nodes' ids', discontinuousTaylor gj tri 2 = some (el, nodes, ids) ∧
    discontinuousTaylor gj (mapCell ((2 : ℝ) • 1) ![1, 0] tri) 2 = some (el', nodes', ids') ∧
    ¬ MapsScalar (declaredMapping .discontinuousTaylor) ((2 : ℝ) • 1) ![1, 0] el el' :=
  discontinuous_taylor_maps_refuted (Or.inr (Or.inl rfl)) (by norm_num) proper_ufcTriangle numbered_ufcTriangle tri_scaled
    (fun h => absurd h (by norm_num)) (fun h => absurd h (by norm_num)) tri_oriented
    (by rw [tri_scaled.orientation proper_ufcTriangle]; exact mul_pos (by norm_num [Matrix.det_fin_two]) tri_oriented) hgj 2 (by norm_num)

end FIAT
