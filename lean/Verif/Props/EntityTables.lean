/-
C69: interpolation with the shipped elements, tables on shared entities, and what happens on the simplices that are not UFC cells.
-/
import Verif.Props.EntityTabulate
import Verif.Props.ConformExample
import Verif.Props.Hermite

namespace FIAT
open MvPolynomial
section
variable {D : ℕ}

theorem iterDeriv_const (α : List ℕ) (hα : α.length = D) (a : ℝ) :
    iterDeriv α (C a : MvPolynomial (Fin D) ℝ) = if α.sum = 0 then C a else 0 := by
  have key : ∀ (L : List (Fin D)), L.foldl (fun q (i : Fin D) => (fun r => pderiv i r)^[α.getD (i : ℕ) 0] q) (C a : MvPolynomial (Fin D) ℝ) =
      if ∀ i ∈ L, α.getD (i : ℕ) 0 = 0 then C a else 0 := by
    intro L
    have hz : ∀ L : List (Fin D), L.foldl (fun q (i : Fin D) => (fun r => pderiv i r)^[α.getD (i : ℕ) 0] q) (0 : MvPolynomial (Fin D) ℝ) = 0 := by
      intro L
      induction L with
      | nil => rfl
      | cons i L ih =>
        rw [List.foldl_cons, Function.iterate_fixed (by simp), ih]
    induction L with
    | nil => simp
    | cons i L ih =>
      rw [List.foldl_cons]
      rcases hn : α.getD (i : ℕ) 0 with _ | n
      · rw [Function.iterate_zero, id, ih]
        simp only [List.mem_cons, forall_eq_or_imp, hn, true_and]
      · rw [Function.iterate_succ, Function.comp_apply, pderiv_C, Function.iterate_fixed (by simp), hz, if_neg]
        intro h
        have := h i (by simp)
        omega
  unfold iterDeriv
  rw [key]
  congr 1
  rw [List.sum_eq_zero_iff]
  apply propext
  constructor
  · intro h x hx
    obtain ⟨i, hi, rfl⟩ := List.getElem_of_mem hx
    have := h ⟨i, by omega⟩ (by simp)
    rwa [List.getD_eq_getElem _ _ hi] at this
  · intro h i _
    rw [List.getD_eq_getElem _ _ (by omega)]
    exact h _ (List.getElem_mem _)

/-- A Lagrange element is nodal for `P_k`. -/
theorem lagrange_nodal (hD : D = 1 ∨ D = 2 ∨ D = 3) (s : SimplexCell (Fin D → ℝ)) (hs : ProperSimplex ℝ s)
    (hv : Increasing fun i : Fin (D + 1) => s.v i) (k : ℕ) (hk : 1 ≤ k) :
    ∃ el ids nodes, lagrangeElement s k = some (el, ids) ∧ lagrangeDual ℝ s k = some (nodes, ids) ∧
      (nodes.map pointEvaluation : List (Functional ℝ (Fin D → ℝ))).length = (k + D).choose D ∧
      IsNodalC (fun _ : Unit => ([] : List ℕ)) (fun w => (w ()).totalDegree ≤ k) (nodes.map pointEvaluation) el := by
  obtain ⟨el, ids, nodes, h1, h2, ℓ, h3, h4, h5⟩ := lagrange_element_spec hD s hs hv k hk
  have hlen : nodes.length = (k + D).choose D := by
    obtain ⟨nodes', ids', h6, h7⟩ := lagrange_num_nodes (K := ℝ) s hs.2.1 hs.2.2.1 k hk (by rw [hs.1]; omega)
    rw [h2, Option.some.injEq, Prod.mk.injEq] at h6
    rw [h6.1, h7, hs.1]
  have hfield : ∀ (x : Fin D → ℝ) (w : Unit → MvPolynomial (Fin D) ℝ),
      (pointEvaluation x).onField (fieldC (fun _ : Unit => ([] : List ℕ)) w) = eval x (w ()) := by
    intro x w
    rw [← point_eval_scalar]
    congr 1
    funext c
    simp [scalarField, fieldC]
  refine ⟨el, ids, nodes, h1, h2, by rw [List.length_map, hlen], fun i _ => ℓ i, h3, fun w hw => ?_, fun i l hl j => ?_, fun pts order => ?_⟩
  · rw [Submodule.mem_span_range_iff_exists_fun ℝ]
    have hget : ∀ i : Fin ((k + D).choose D), ∃ x, nodes[(i : ℕ)]? = some x := fun i => ⟨_, List.getElem?_eq_getElem (by omega)⟩
    choose X hX using hget
    refine ⟨fun i => eval (X i) (w ()), ?_⟩
    funext u
    rw [Finset.sum_apply, ← sub_eq_zero]
    refine lagrange_unisolvent s hs.1 hs.2.1 hs.2.2.1 (by omega) k hk nodes ids h2 _ ?_ ?_
    · refine (totalDegree_sub _ _).trans (max_le ?_ hw)
      refine (totalDegree_finsetSum_le fun i _ => ?_)
      exact (totalDegree_smul_le _ _).trans (h3 i)
    · intro x hx
      obtain ⟨i, hi, rfl⟩ := List.getElem_of_mem hx
      have hxi : nodes[i]? = some nodes[i] := List.getElem?_eq_getElem hi
      rw [map_sub, map_sum, Finset.sum_eq_single ⟨i, by omega⟩]
      · rw [Pi.smul_apply, smul_eval, h4 i _ hxi, if_pos rfl, mul_one]
        have := hX ⟨i, by omega⟩
        rw [hxi, Option.some.injEq] at this
        beta_reduce
        rw [← this, sub_self]
      · intro b _ hb
        rw [Pi.smul_apply, smul_eval, h4 i _ hxi, if_neg (fun h => hb (Fin.ext h.symm)), mul_zero]
      · simp
  · rw [List.getElem?_map, Option.map_eq_some_iff] at hl
    obtain ⟨x, hx, rfl⟩ := hl
    rw [hfield]
    exact h4 i x hx j
  · obtain ⟨res, r1, r2, r3⟩ := h5 pts order
    exact ⟨res, r1, r2, fun α T hT i c j x hx => r3 α T hT i c j x hx⟩

/-- C69: the Lagrange basis functions are a partition of unity: in every table of `tabulate` the values sum to 1, the derivatives to
0, at every point, on the cell as well as on any entity of a UFC simplex. -/
theorem lagrange_partition_of_unity (hD : D = 1 ∨ D = 2 ∨ D = 3) (s : SimplexCell (Fin D → ℝ)) (hs : ProperSimplex ℝ s)
    (hv : Increasing fun i : Fin (D + 1) => s.v i) (k : ℕ) (hk : 1 ≤ k) :
    ∃ el ids, lagrangeElement s k = some (el, ids) ∧
      (∀ (ufc : Bool) pts order, ∃ res, tabulateCell ufc s el order pts = some res ∧
        ∀ α T, Dict.get? res α = some T → ∀ j < pts.length, ∑ i, T i () j = if α.sum = 0 then 1 else 0) ∧
      ∀ d e t, HasEntity s.topo d e t → d < D → ∀ (pts : List (Fin d → ℝ)) order, ∃ res, tabulateOn true s el order d e pts = some res ∧
        ∀ α T, Dict.get? res α = some T → ∀ j < pts.length, ∑ i, T i () j = if α.sum = 0 then 1 else 0 := by
  obtain ⟨el, ids, nodes, h1, h2, h3, h4⟩ := lagrange_nodal hD s hs hv k hk
  have hone : ∀ i : Fin ((k + D).choose D), dofOf (nodes.map pointEvaluation) (fieldC (fun _ : Unit => ([] : List ℕ))
      (fun _ => (1 : MvPolynomial (Fin D) ℝ))) i = 1 := by
    intro i
    unfold dofOf
    have hi : (i : ℕ) < nodes.length := by rw [List.length_map] at h3; omega
    rw [List.getElem?_map, List.getElem?_eq_getElem hi, Option.map_some, Option.elim_some, pointEval_onField]
    simp [fieldC]
  have main : ∀ (res : Dict (List ℕ) (Fin ((k + D).choose D) → Unit → ℕ → ℝ)) order (X : List (Fin D → ℝ)),
      Reproduces (fun _ : Unit => ([] : List ℕ)) (fun w => (w ()).totalDegree ≤ k) (nodes.map pointEvaluation) res order X →
      ∀ α T, Dict.get? res α = some T → ∀ j < X.length, ∑ i, T i () j = if α.sum = 0 then 1 else 0 := by
    intro res order X hr α T hT j hj
    have hα := ((hr.1 α).1 (List.mem_map.2 ⟨_, Dict.mem_of_get? hT, rfl⟩)).1
    have := hr.2 α T hT (fun _ => 1) (by simp) () j _ (List.getElem?_eq_getElem hj)
    simp only [hone, one_mul] at this
    rw [this]
    have h1 := iterDeriv_const α hα (1 : ℝ)
    rw [C_1] at h1
    rw [h1]
    split_ifs <;> simp
  refine ⟨el, ids, h1, fun ufc pts order => ?_, fun d e t ht hd pts order => ?_⟩
  · obtain ⟨res, r1, r2⟩ := interpolation_cell (s := s) (ufc := ufc) (by omega) h3 h4 pts order
    exact ⟨res, r1, main res order pts r2⟩
  · obtain ⟨τ, t1, t2, rfl, t4⟩ := entity_tuple hs ht
    obtain ⟨res, r1, r2⟩ := interpolation_entity hs hd τ ht h3 h4 pts order
    exact ⟨res, r1, fun α T hT j hj => main res order _ r2 α T hT j (by rwa [List.length_map])⟩

variable {X : ℕ → Fin D → ℝ} {s s' : SimplexCell (Fin D → ℝ)} {A A' : Matrix (Fin D) (Fin D) ℝ} {b b' : Fin D → ℝ} {g g' : ℕ → ℕ}

/-- C69: what a mesh code does with Lagrange elements.  Two UFC cells share an entity; the coefficients `a` and `a'` agree on the dofs
that `entity_dofs` lists for the shared entity and its sub-entities.  Then the two functions, evaluated by `tabulate(0, pts, (d, e))`
and `tabulate(0, pts, (d, e'))` at any points of the reference entity, agree. -/
theorem lagrange_tables_agree (hD : D = 1 ∨ D = 2 ∨ D = 3) (hs : ProperSimplex ℝ s) (hs' : ProperSimplex ℝ s')
    (hv : Increasing fun i : Fin (D + 1) => s.v i) (hv' : Increasing fun i : Fin (D + 1) => s'.v i) (k : ℕ) (hk : 1 ≤ k)
    (hm : InMesh X s A b g) (hm' : InMesh X s' A' b' g') :
    ∃ el ids el' ids', lagrangeElement s k = some (el, ids) ∧ lagrangeElement s' k = some (el', ids') ∧
      ∀ d e e' t t', d < D → HasEntity s.topo d e t → HasEntity s'.topo d e' t' → SharedEntity g t g' t' → ∀ a a' : ℕ → ℝ,
      (∀ d1 e1 e1' t1 t1' l l', HasEntity s.topo d1 e1 t1 → (∀ i ∈ t1, i ∈ t) → HasEntity s'.topo d1 e1' t1' → SharedEntity g t1 g' t1' →
        ids.at? d1 e1 = some l → ids'.at? d1 e1' = some l' → l.map a = l'.map a') →
      ∀ pts : List (Fin d → ℝ), ∃ res res' T T', tabulateOn true s el 0 d e pts = some res ∧ tabulateOn true s' el' 0 d e' pts = some res' ∧
        Dict.get? res (List.replicate D 0) = some T ∧ Dict.get? res' (List.replicate D 0) = some T' ∧
        ∀ j < pts.length, ∑ i : Fin ((k + D).choose D), a i * T i () j = ∑ i : Fin ((k + D).choose D), a' i * T' i () j := by
  obtain ⟨el, ids, nodes, h1, h2, ℓ, h3, h4, h5⟩ := lagrange_element_spec hD s hs hv k hk
  obtain ⟨el', ids', nodes', h1', h2', ℓ', h3', h4', h5'⟩ := lagrange_element_spec hD s' hs' hv' k hk
  refine ⟨el, ids, el', ids', h1, h1', fun d e e' t t' hd ht ht' hsh a a' hmatch pts => ?_⟩
  have hvals : ∀ {s : SimplexCell (Fin D → ℝ)} {nodes ids} (ℓ : Fin ((k + D).choose D) → MvPolynomial (Fin D) ℝ) (a : ℕ → ℝ), ProperSimplex ℝ s → lagrangeDual ℝ s k = some (nodes, ids) →
      (∀ (i : ℕ) x, nodes[i]? = some x → ∀ j, eval x (ℓ j) = if i = (j : ℕ) then 1 else 0) → ∀ {d1 e1 l}, ids.at? d1 e1 = some l →
      DofValues (nodes.map pointEvaluation) ids (fun f => f.onField (scalarField (∑ i : Fin ((k + D).choose D), C (a i) * ℓ i))) d1 e1 (l.map a) := by
    intro s nodes ids ℓ a hs h2 h4 d1 e1 l hl
    have hlen : nodes.length = (k + D).choose D := by
      obtain ⟨nodes', ids', h6, h7⟩ := lagrange_num_nodes (K := ℝ) s hs.2.1 hs.2.2.1 k hk (by rw [hs.1]; omega)
      rw [h2, Option.some.injEq, Prod.mk.injEq] at h6
      rw [h6.1, h7, hs.1]
    have h7 := lagrange_dof_points s hs.2.1 k hk nodes ids h2 _ _ _ hl
    refine ⟨l, hl, ?_⟩
    rw [List.map_map]
    refine List.map_congr_left fun i hi => ?_
    have h8 : nodes[i]? ∈ l.map fun i => nodes[i]? := List.mem_map_of_mem hi
    rw [h7] at h8
    obtain ⟨x, -, hx⟩ := List.mem_map.1 h8
    have hi' : i < (k + D).choose D := by
      rw [← hlen]
      by_contra hc
      rw [List.getElem?_eq_none (by omega)] at hx
      cases hx
    rw [List.getElem?_map, ← hx, Option.map_some, Option.map_some, Function.comp_apply, point_eval_scalar, map_sum,
      Finset.sum_eq_single ⟨i, hi'⟩]
    · rw [map_mul, eval_C, h4 i x hx.symm, if_pos rfl, mul_one]
    · intro c _ hc
      rw [map_mul, h4 i x hx.symm, if_neg (fun h => hc (Fin.ext h.symm)), mul_zero]
    · simp
  have hdeg : ∀ (a : ℕ → ℝ) (ℓ : Fin ((k + D).choose D) → MvPolynomial (Fin D) ℝ), (∀ i, (ℓ i).totalDegree ≤ k) →
      (∑ i : Fin ((k + D).choose D), C (a i) * ℓ i).totalDegree ≤ k := by
    intro a ℓ h
    refine totalDegree_finsetSum_le fun i _ => ?_
    rw [← smul_eq_C_mul]
    exact (totalDegree_smul_le _ _).trans (h i)
  have hagree := (lagrange_conforming hs hs' k hk h2 h2' hm hm' hd ht ht' hsh (hdeg a ℓ h3) (hdeg a' ℓ' h3')).1 (by
    intro d1 e1 t1 d1' e1' t1' he hsub he' hsh1
    obtain ⟨rfl, -⟩ := shared_tuple hs hs' hm hm' he he' hsh1
    refine ⟨rfl, ?_⟩
    obtain ⟨l, hl⟩ := Option.isSome_iff_exists.1 (((lagrange_dofs_partition s hs.2.1 k hk nodes ids h2).1 _ _).2 ⟨_, he⟩)
    obtain ⟨l', hl'⟩ := Option.isSome_iff_exists.1 (((lagrange_dofs_partition s' hs'.2.1 k hk nodes' ids' h2').1 _ _).2 ⟨_, he'⟩)
    rw [dofsMatch_iff (hvals ℓ a hs h2 h4 hl) (hvals ℓ' a' hs' h2' h4' hl'), hmatch _ _ _ _ _ _ _ he hsub he' hsh1 hl hl']
    simp)
  have hmap := (shared_tuple hs hs' hm hm' ht ht' hsh).2
  obtain ⟨τ, t1, t2, rfl, t4⟩ := entity_tuple hs ht
  obtain ⟨τ', t1', t2', rfl, t4'⟩ := entity_tuple hs' ht'
  have hV := shared_verts hm hm' t2 t2' hmap
  obtain ⟨res, r1, r2, r3⟩ := h5 (pts.map (entMap fun j => s.v (τ j))) 0
  obtain ⟨res', r1', r2', r3'⟩ := h5' (pts.map (entMap fun j => s'.v (τ' j))) 0
  have hget : ∀ {res : Dict (List ℕ) (Fin ((k + D).choose D) → Unit → ℕ → ℝ)}, (∀ α, α ∈ Dict.keys res ↔ α.length = D ∧ α.sum ≤ 0) →
      ∃ T, Dict.get? res (List.replicate D 0) = some T := by
    intro res h
    exact Option.isSome_iff_exists.1 (Dict.get?_isSome_iff.2 ((h _).2 (by simp)))
  obtain ⟨T, hT⟩ := hget r2
  obtain ⟨T', hT'⟩ := hget r2'
  refine ⟨res, res', T, T', ?_, ?_, hT, hT', fun j hj => ?_⟩
  · unfold tabulateOn
    rw [entity_transform_ufc hs hd τ ht, Option.bind_some, r1]
  · unfold tabulateOn
    rw [entity_transform_ufc hs' hd τ' ht', Option.bind_some, r1']
  · have e1 : (pts.map (entMap fun j => s.v (τ j)))[j]? = some (entMap (fun j => s.v (τ j)) pts[j]) := by
      rw [List.getElem?_map, List.getElem?_eq_getElem hj]; rfl
    have e1' : (pts.map (entMap fun j => s'.v (τ' j)))[j]? = some (entMap (fun j => s'.v (τ' j)) pts[j]) := by
      rw [List.getElem?_map, List.getElem?_eq_getElem hj]; rfl
    have e2 := hagree _ _ ((onEntity_iff s τ t1 _).2 ⟨pts[j], rfl⟩) ((onEntity_iff s' τ' t1' _).2 ⟨pts[j], rfl⟩)
      ((shared_points hs hm t1 t2 hV _ _).2 rfl)
    simp only [map_sum, map_mul, eval_C] at e2
    refine (Finset.sum_congr rfl fun i _ => ?_).trans (e2.trans (Finset.sum_congr rfl fun i _ => ?_))
    · rw [r3 _ T hT i () j _ e1, iterDeriv_zero]
    · rw [r3' _ T' hT' i () j _ e1', iterDeriv_zero]

end
end FIAT
