/-
C93: the one-dimensional spectral elements GaussLegendre, GaussLobattoLegendre and GaussRadau report the mapping "affine": is the element of the
image of a line cell the image of the element of the cell?
-/
import Verif.Props.Pushforward
import Verif.Props.GaussElements
import Verif.Props.DPC

namespace FIAT
open Polynomial

/-! ### Specification -/

/-- The tables of the overridden `tabulate` of the element on the image of the cell, at the images of the points, and those of the element on the
cell, up to any number of derivatives: the factor of the derivatives of order `r` is that of the chain rule.  The points are nodes or farther than
1e-8 from the nodes (`AwayFrom`), the only points at which the formula of the code is used in exact arithmetic. -/
def LineTablesMap {k : ℕ} (mapping : PullBack) (A : Matrix (Fin 1) (Fin 1) ℝ) (b : Fin 1 → ℝ) (s s' : SimplexCell (Fin 1 → ℝ)) (el el' : LineElement k) :
    Prop :=
  mapping = .affine ∧ ∀ (order : ℕ) (points : List (Fin 1 → ℝ)), (∀ x ∈ points, AwayFrom el.nodes x) →
    (∀ x ∈ points, AwayFrom el'.nodes (cellMap A b x)) →
    ∃ res res', el.tabulate s order points none = some res ∧ el'.tabulate s' order (points.map (cellMap A b)) none = some res' ∧
      ∀ r ≤ order, ∃ T T', Dict.get? res [r] = some T ∧ Dict.get? res' [r] = some T' ∧
        ∀ (i : Fin el.nodes.length) (i' : Fin el'.nodes.length) (p : Fin points.length) (p' : Fin (points.map (cellMap A b)).length),
          (i : ℕ) = (i' : ℕ) → (p : ℕ) = (p' : ℕ) → T i p = A 0 0 ^ r * T' i' p'

/-! ### Lemmas -/

variable {A : Matrix (Fin 1) (Fin 1) ℝ} {b : Fin 1 → ℝ} {s s' : SimplexCell (Fin 1 → ℝ)}

theorem cellMap_line (A : Matrix (Fin 1) (Fin 1) ℝ) (b x : Fin 1 → ℝ) : cellMap A b x 0 = A 0 0 * x 0 + b 0 := by
  simp [cellMap, Matrix.mulVec, dotProduct]

/-- The points of a rule of the reference line mapped to a cell and to the image of the cell. -/
theorem mapped_rule_mapped (hs : ProperSimplex ℝ s) (h : MappedCell A b s s') (pts : List (Fin 1 → ℝ)) (ws : List ℝ) (hl : ws.length = pts.length)
    {Q Q' : QRule ℝ (Fin 1 → ℝ)} (hQ : mappedRule s.verts pts ws = some Q) (hQ' : mappedRule s'.verts pts ws = some Q') :
    Q'.pts = Q.pts.map (cellMap A b) := by
  have hs' := h.proper hs
  rw [verts_ofFn s hs.2.1 hs.1] at hQ
  rw [verts_ofFn s' hs'.2.1 hs'.1] at hQ'
  obtain ⟨B, c, R, r1, r2, r3, -⟩ := mapped_rule_spec (fun i : Fin (1 + 1) => s.v i) pts ws hl
  obtain ⟨B', c', R', r1', r2', r3', -⟩ := mapped_rule_spec (fun i : Fin (1 + 1) => s'.v i) pts ws hl
  rw [hQ, Option.some.injEq] at r1
  rw [hQ', Option.some.injEq] at r1'
  subst r1 r1'
  have hn : s.verts.length = 2 := by rw [verts_ofFn s hs.2.1 hs.1]; simp
  have e0 := congrFun (r2 0) 0
  have e1 := congrFun (r2 1) 0
  have e0' := congrFun (r2' 0) 0
  have e1' := congrFun (r2' 1) 0
  have hv0 : s'.v 0 = cellMap A b (s.v 0) := h.v (by omega)
  have hv1 : s'.v 1 = cellMap A b (s.v 1) := h.v (by omega)
  have d0 : dvert 1 0 0 = -1 := by simp [dvert]
  have d1 : dvert 1 1 0 = 1 := by simp [dvert]
  simp only [Pi.add_apply, Matrix.mulVec, dotProduct, Finset.univ_unique, Fin.default_eq_zero, Finset.sum_singleton, d0, d1] at e0 e1 e0' e1'
  have f0 : s'.v 0 0 = A 0 0 * s.v 0 0 + b 0 := by rw [hv0, cellMap_line]
  have f1 : s'.v 1 0 = A 0 0 * s.v 1 0 + b 0 := by rw [hv1, cellMap_line]
  simp only [Fin.val_zero, Fin.val_one] at e0 e1 e0' e1'
  rw [f0] at e0'
  rw [f1] at e1'
  rw [r3, r3', List.map_map]
  refine List.map_congr_left fun x _ => ?_
  funext l
  rw [Subsingleton.elim l 0, Function.comp_apply, cellMap_line]
  simp only [Pi.add_apply, Matrix.mulVec, dotProduct, Finset.univ_unique, Fin.default_eq_zero, Finset.sum_singleton]
  rw [← e0] at e0'
  rw [← e1] at e1'
  linear_combination ((x 0 + 1) / 2) * e1' + ((1 - x 0) / 2) * e0'

theorem iterate_derivative_line (p : ℝ[X]) (a c : ℝ) (r : ℕ) :
    derivative^[r] (p.comp (C a * X + C c)) = C (a ^ r) * (derivative^[r] p).comp (C a * X + C c) := by
  induction r with
  | zero => simp
  | succ r ih =>
    rw [Function.iterate_succ_apply', Function.iterate_succ_apply', ih, derivative_C_mul, derivative_comp]
    simp only [derivative_add, derivative_mul, derivative_C, derivative_X, zero_mul, mul_one, zero_add, add_zero, pow_succ, C_mul]
    ring

theorem line_tables_map {k : ℕ} {el el' : LineElement k} (hlen : el.nodes.length = k + 1) (hnd : el.nodes.Nodup)
    (hn : el'.nodes = el.nodes.map (cellMap A b)) {ℓ ℓ' : ℕ → ℝ[X]} (h1 : LineNodal k el.nodes ℓ) (h2 : BaryTabulates el s ℓ)
    (h1' : LineNodal k el'.nodes ℓ') (h2' : BaryTabulates el' s' ℓ') : LineTablesMap .affine A b s s' el el' := by
  have hℓ : ∀ j ≤ k, ℓ j = (ℓ' j).comp (C (A 0 0) * X + C (b 0)) := by
    intro j hj
    have hinj : Function.Injective fun i : Fin el.nodes.length => el.nodes.get i 0 := by
      intro i i' hi
      refine List.nodup_iff_injective_get.1 hnd (_root_.funext fun l => ?_)
      rw [Subsingleton.elim l 0]; exact hi
    refine Polynomial.eq_of_natDegree_lt_card_of_eval_eq _ _ hinj (fun i => ?_) ?_
    · have g : el.nodes[(i : ℕ)]? = some (el.nodes.get i) := List.getElem?_eq_getElem i.2
      have g' : el'.nodes[(i : ℕ)]? = some (cellMap A b (el.nodes.get i)) := by rw [hn, List.getElem?_map, g]; rfl
      have q' := (h1' j hj).2 i _ g'
      rw [cellMap_line] at q'
      rw [(h1 j hj).2 i _ g, eval_comp, ← q']
      simp
    · rw [Fintype.card_fin, hlen]
      refine Nat.lt_succ_of_le (max_le (h1 j hj).1 ?_)
      refine natDegree_comp_le.trans ?_
      refine (Nat.mul_le_mul (h1' j hj).1 (natDegree_linear_le (a := A 0 0) (b := b 0))).trans ?_
      omega
  refine ⟨rfl, fun order points ha ha' => ?_⟩
  obtain ⟨res, r1, r2, r3⟩ := h2 order points none _ (Or.inl ⟨rfl, rfl⟩) ha
  obtain ⟨res', r1', r2', r3'⟩ := h2' order (points.map (cellMap A b)) none _ (Or.inl ⟨rfl, rfl⟩) (by
    intro x hx
    obtain ⟨y, hy, rfl⟩ := List.mem_map.1 hx
    exact ha' y hy)
  refine ⟨res, res', r1, r1', fun r hr => ?_⟩
  obtain ⟨T, hT⟩ := Option.isSome_iff_exists.1 (Dict.get?_isSome_iff.2 ((r2 [r]).2 ⟨r, hr, rfl⟩))
  obtain ⟨T', hT'⟩ := Option.isSome_iff_exists.1 (Dict.get?_isSome_iff.2 ((r2' [r]).2 ⟨r, hr, rfl⟩))
  refine ⟨T, T', hT, hT', fun i i' p p' hi hp => ?_⟩
  have hik : (i : ℕ) ≤ k := by have := i.2; omega
  rw [r3 r T hT, r3' r T' hT', ← hi, hℓ i hik, iterate_derivative_line]
  have hget : (points.map (cellMap A b)).get p' = cellMap A b (points.get p) := by
    simp only [List.get_eq_getElem, List.getElem_map, ← hp]
  rw [hget, eval_mul, eval_C, eval_comp, cellMap_line]
  simp

/-! ### C93 -/

private theorem line_rule_of {k : ℕ} {s : SimplexCell (Fin 1 → ℝ)} {lr : Option (QRule ℝ (Fin 1 → ℝ))} {ids : EntityIds ℕ} {el : LineElement k}
    (h : lineElement s k lr ids = some el) : ∃ Q, lr = some Q ∧ el.nodes = Q.pts ∧ el.ids = ids ∧ pointElement s k Q.pts = some el.polySet := by
  unfold lineElement at h
  simp only [Option.bind_eq_bind, Option.bind_eq_some_iff] at h
  obtain ⟨Q, hQ, e, he, h⟩ := h
  rw [Option.some.injEq] at h
  subst h
  exact ⟨Q, hQ, rfl, rfl, he⟩

private theorem nodal_of_line {k : ℕ} {s : SimplexCell (Fin 1 → ℝ)} (hs : ProperSimplex ℝ s) (hv : 1e-10 < s.v 1 0 - s.v 0 0)
    {pts : List (Fin 1 → ℝ)} (hlen : pts.length = k + 1) (hnd : pts.Nodup) {S} (h : pointElement s k pts = some S) :
    IsNodalScalar k (pts.map pointEvaluation) S := by
  obtain ⟨el, e1, e2⟩ := point_element_nodal (Or.inl rfl) s hs (fun _ => hv) k pts (by rw [hlen]; simp) (line_unisolvent k pts hlen hnd)
  rw [h, Option.some.injEq] at e1
  rw [e1]
  exact e2

/-- C93, `GaussLegendre(line, k)`. -/
theorem gauss_legendre_maps (hs : ProperSimplex ℝ s) (ht : s.topo = lineTopo) (h : MappedCell A b s s') (hv : 1e-10 < s.v 1 0 - s.v 0 0)
    (hv' : 1e-10 < s'.v 1 0 - s'.v 0 0) (k : ℕ) (xs ws : List ℝ) (hx : IsLeggauss (k + 1) xs ws) :
    ∃ el el', gaussLegendreElement s k xs ws = some el ∧ gaussLegendreElement s' k xs ws = some el' ∧ el'.ids = el.ids ∧
      LineTablesMap (declaredMapping .gaussLegendre) A b s s' el el' ∧
      MapsScalar (declaredMapping .gaussLegendre) A b el.polySet el'.polySet := by
  have hs' := h.proper hs
  have ht' : s'.topo = lineTopo := by rw [h.topo, ht]
  obtain ⟨el, e1, e2, e3, -, ℓ, e4, e5⟩ := gauss_legendre_element s hs ht hv k xs ws hx
  obtain ⟨el', e1', e2', e3', -, ℓ', e4', e5'⟩ := gauss_legendre_element s' hs' ht' hv' k xs ws hx
  obtain ⟨Q, q1, q2, q3, q4⟩ := line_rule_of e1
  obtain ⟨Q', q1', q2', q3', q4'⟩ := line_rule_of e1'
  rw [gaussLegendreLineRule, if_neg (by omega)] at q1 q1'
  have hm := mapped_rule_mapped hs h _ _ (by rw [List.length_map, hx.1, hx.2.1]) q1 q1'
  rw [← q2, ← q2'] at hm
  rw [← q2] at q4
  rw [← q2'] at q4'
  exact ⟨el, el', e1, e1', by rw [q3, q3'], line_tables_map e2 e3 hm e4 e5 e4' e5',
    maps_scalar_core (nodal_of_line hs hv e2 e3 q4) (nodal_of_line hs' hv' e2' e3' q4') fun i l hl => point_nodes_map hm i l hl⟩

/-- C93, `GaussLobattoLegendre(line, k)`, `k ≥ 1`. -/
theorem gauss_lobatto_maps (eigh : EighFun) (hE : IsEigh eigh) (hs : ProperSimplex ℝ s) (ht : s.topo = lineTopo) (h : MappedCell A b s s')
    (hv : 1e-10 < s.v 1 0 - s.v 0 0) (hv' : 1e-10 < s'.v 1 0 - s'.v 0 0) (k : ℕ) (hk : 1 ≤ k) :
    ∃ el el', gaussLobattoElement eigh s k = some el ∧ gaussLobattoElement eigh s' k = some el' ∧ el'.ids = el.ids ∧
      LineTablesMap (declaredMapping .gaussLobattoLegendre) A b s s' el el' ∧
      MapsScalar (declaredMapping .gaussLobattoLegendre) A b el.polySet el'.polySet := by
  have hs' := h.proper hs
  have ht' : s'.topo = lineTopo := by rw [h.topo, ht]
  obtain ⟨el, e1, e2, e3, -, -, -, -, -, -, ℓ, e4, e5⟩ := gauss_lobatto_element eigh hE s hs ht hv k hk
  obtain ⟨el', e1', e2', e3', -, -, -, -, -, -, ℓ', e4', e5'⟩ := gauss_lobatto_element eigh hE s' hs' ht' hv' k hk
  obtain ⟨Q, q1, q2, q3, q4⟩ := line_rule_of e1
  obtain ⟨Q', q1', q2', q3', q4'⟩ := line_rule_of e1'
  obtain ⟨xs, ws, g1, g2, g3, -⟩ := gll_reference eigh hE (k + 1) (by omega)
  rw [gllLineRule, g1, Option.bind_some] at q1 q1'
  have hm := mapped_rule_mapped hs h _ _ (by rw [List.length_map, g2, g3]) q1 q1'
  rw [← q2, ← q2'] at hm
  rw [← q2] at q4
  rw [← q2'] at q4'
  have hnd : ∀ {l : List (Fin 1 → ℝ)}, (l.Pairwise fun x y => x 0 < y 0) → l.Nodup := fun hl => hl.imp fun {x y} hxy he => by
    rw [he] at hxy; exact lt_irrefl _ hxy
  exact ⟨el, el', e1, e1', by rw [q3, q3'], line_tables_map e2 (hnd e3) hm e4 e5 e4' e5',
    maps_scalar_core (nodal_of_line hs hv e2 (hnd e3) q4) (nodal_of_line hs' hv' e2' (hnd e3') q4') fun i l hl => point_nodes_map hm i l hl⟩

/-- C93, `GaussRadau(line, k)`. -/
theorem gauss_radau_maps (hs : ProperSimplex ℝ s) (ht : s.topo = lineTopo) (h : MappedCell A b s s') (hv : 1e-10 < s.v 1 0 - s.v 0 0)
    (hv' : 1e-10 < s'.v 1 0 - s'.v 0 0) (k : ℕ) (xs : List ℝ) (hx : RadauNodes (k + 1) xs) :
    ∃ el el', gaussRadauElement s k xs = some el ∧ gaussRadauElement s' k xs = some el' ∧ el'.ids = el.ids ∧
      MapsScalar (declaredMapping .gaussRadau) A b el.polySet el'.polySet := by
  have hs' := h.proper hs
  have ht' : s'.topo = lineTopo := by rw [h.topo, ht]
  obtain ⟨el, e1, e2, e3, -⟩ := gauss_radau_element s hs ht hv k xs hx
  obtain ⟨el', e1', e2', e3', -⟩ := gauss_radau_element s' hs' ht' hv' k xs hx
  obtain ⟨Q, q1, q2, q3, q4⟩ := line_rule_of e1
  obtain ⟨Q', q1', q2', q3', q4'⟩ := line_rule_of e1'
  rw [radauLineRule, if_pos (by omega)] at q1 q1'
  obtain ⟨p1, p2, -⟩ := radau_points (k + 1) (by omega) true xs hx
  have hm := mapped_rule_mapped hs h _ _ (by rw [List.length_map, p1, p2]) q1 q1'
  rw [← q2, ← q2'] at hm
  rw [← q2] at q4
  rw [← q2'] at q4'
  exact ⟨el, el', e1, e1', by rw [q3, q3'],
    maps_scalar_core (nodal_of_line hs hv e2 e3 q4) (nodal_of_line hs' hv' e2' e3' q4') fun i l hl => point_nodes_map hm i l hl⟩

/-! ### Non-vacuity: the unit interval and the interval [1, 3] -/

private theorem iv_mapped : MappedCell !![2] ![1] ((ufcInterval : CellData ℝ).toSimplex 1) (mapCell !![2] ![1] ((ufcInterval : CellData ℝ).toSimplex 1)) :=
  mapCell_mapped (by simp)

private theorem iv_gap : (1e-10 : ℝ) < ((ufcInterval : CellData ℝ).toSimplex 1).v 1 0 - ((ufcInterval : CellData ℝ).toSimplex 1).v 0 0 := by
  norm_num [SimplexCell.v, CellData.toSimplex, ufcInterval]

private theorem iv_gap' : (1e-10 : ℝ) < (mapCell !![2] ![1] ((ufcInterval : CellData ℝ).toSimplex 1)).v 1 0 -
    (mapCell !![2] ![1] ((ufcInterval : CellData ℝ).toSimplex 1)).v 0 0 := by
  norm_num [mapCell, cellMap, SimplexCell.v, CellData.toSimplex, ufcInterval, Matrix.mulVec, dotProduct]

example (k : ℕ) : ∃ xs ws el el', gaussLegendreElement ((ufcInterval : CellData ℝ).toSimplex 1) k xs ws = some el ∧
    gaussLegendreElement (mapCell !![2] ![1] ((ufcInterval : CellData ℝ).toSimplex 1)) k xs ws = some el' ∧
    MapsScalar (declaredMapping .gaussLegendre) !![2] ![1] el.polySet el'.polySet := by
  obtain ⟨xs, ws, hx⟩ := leggauss_exists (k + 1) (by omega)
  obtain ⟨el, el', h1, h2, -, -, h3⟩ := gauss_legendre_maps proper_ufcInterval rfl iv_mapped iv_gap iv_gap' k xs ws hx
  exact ⟨xs, ws, el, el', h1, h2, h3⟩

example (k : ℕ) (hk : 1 ≤ k) : ∃ eigh el el', gaussLobattoElement eigh ((ufcInterval : CellData ℝ).toSimplex 1) k = some el ∧
    gaussLobattoElement eigh (mapCell !![2] ![1] ((ufcInterval : CellData ℝ).toSimplex 1)) k = some el' ∧
    LineTablesMap (declaredMapping .gaussLobattoLegendre) !![2] ![1] ((ufcInterval : CellData ℝ).toSimplex 1)
      (mapCell !![2] ![1] ((ufcInterval : CellData ℝ).toSimplex 1)) el el' := by
  obtain ⟨eigh, hE⟩ := eigh_exists
  obtain ⟨el, el', h1, h2, -, h3, -⟩ := gauss_lobatto_maps eigh hE proper_ufcInterval rfl iv_mapped iv_gap iv_gap' k hk
  exact ⟨eigh, el, el', h1, h2, h3⟩

example (k : ℕ) : ∃ xs el el', gaussRadauElement ((ufcInterval : CellData ℝ).toSimplex 1) k xs = some el ∧
    gaussRadauElement (mapCell !![2] ![1] ((ufcInterval : CellData ℝ).toSimplex 1)) k xs = some el' ∧
    MapsScalar (declaredMapping .gaussRadau) !![2] ![1] el.polySet el'.polySet := by
  obtain ⟨xs, hx⟩ := radau_nodes_exist (k + 1) (by omega)
  obtain ⟨el, el', h1, h2, -, h3⟩ := gauss_radau_maps proper_ufcInterval rfl iv_mapped iv_gap iv_gap' k xs hx
  exact ⟨xs, el, el', h1, h2, h3⟩

end FIAT
