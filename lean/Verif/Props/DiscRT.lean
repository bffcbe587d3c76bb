/-
C58: the discontinuous Raviart-Thomas element (FIAT/discontinuous_raviart_thomas.py).
-/
import Verif.Model.DiscRT
import Verif.Props.RTElement
import Verif.Props.RTExample
import Verif.Props.Discontinuous

namespace FIAT
open MvPolynomial
section
variable {D : ℕ}

private theorem drt_nodes_eq (s : SimplexCell (Fin D → ℝ)) (nrm : ℕ → Option (Fin D → ℝ)) (k : ℕ) : drtNodes s nrm k = rtPointNodes s nrm k := by
  unfold drtNodes rtPointNodes facetPointNodes
  by_cases hk : k = 0
  · subst hk; rfl
  · simp only [if_neg hk, if_pos (Nat.pos_of_ne_zero hk)]

private theorem drt_ids (hD : 2 ≤ D) {s : SimplexCell (Fin D → ℝ)} (hnum : NumberedSimplex s) (n : ℕ) :
    ∃ ids, drtIds s n = some ids ∧ AllOnCell s.topo D ids n := by
  obtain ⟨i1, a1, a2⟩ := emptyLoop_spec hnum (List.range (D - 1)) (fun d hd => by have := List.mem_range.1 hd; omega) []
  obtain ⟨i2, b1, b2⟩ := emptyLoop_spec hnum [D - 1] (fun d hd => by have := List.mem_singleton.1 hd; omega) i1
  have hat : ∀ d e, EntityIds.at? (Dict.put i2 D [(0, List.range n)]) d e =
      if D = d then (if e = 0 then some (List.range n) else none) else if d < D ∧ e < (D + 1).choose (d + 1) then some [] else none := by
    intro d e
    rw [EntityIds.at?_put]
    by_cases hd : D = d
    · rw [if_pos hd, if_pos hd]
      by_cases he : e = 0
      · subst he; rfl
      · have : ¬ 0 = e := fun h => he h.symm
        rw [if_neg he]
        simp [Dict.get?, this]
    · rw [if_neg hd, if_neg hd, b2, a2]
      have h0 : EntityIds.at? ([] : EntityIds ℕ) d e = none := rfl
      rw [h0]
      by_cases he : e < (D + 1).choose (d + 1)
      · simp only [he, and_true, List.mem_singleton, List.mem_range]
        by_cases h1 : d = D - 1
        · rw [if_pos h1, if_pos (by omega)]
        · rw [if_neg h1]
          exact if_congr (by omega) rfl rfl
      · simp [he]
  refine ⟨Dict.put i2 D [(0, List.range n)], ?_, fun d e => ?_, ?_, fun d e l hl hne => ?_⟩
  · unfold drtIds
    simp only [a1, b1, Option.bind_eq_bind, Option.bind_some]
  · rw [hat]
    constructor
    · intro h
      split_ifs at h with h1 h2 h3
      · subst h1 h2
        exact ((hnum.1 D le_rfl).2 0).2 (by simp)
      · simp at h
      · exact ((hnum.1 d h3.1.le).2 e).2 h3.2
      · simp at h
    · rintro ⟨t, ht⟩
      have hd := hnum.2 d e t ht
      have he := ((hnum.1 d hd).2 e).1 ⟨t, ht⟩
      split_ifs with h1 h2 h3
      · rfl
      · subst h1
        rw [Nat.choose_self] at he; omega
      · rfl
      · omega
  · rw [hat, if_pos rfl, if_pos rfl]
  · rw [hat] at hl
    split_ifs at hl with h1 h2 h3
    · exact absurd (by rw [h1, h2]) hne
    · exact (Option.some.inj hl).symm

/-- C58: `DiscontinuousRaviartThomas(cell, degree + 1)` on a triangle or tetrahedron has the same nodes and the same nodal basis as the
point variant of `RaviartThomas(cell, degree + 1)`, i.e. it tabulates the basis of the Raviart-Thomas space dual to its nodes; and all its dofs
belong to the cell. -/
theorem discontinuous_raviart_thomas_spec (hD : D = 2 ∨ D = 3) (s : SimplexCell (Fin D → ℝ)) (hs : ProperSimplex ℝ s) (hnum : NumberedSimplex s)
    (ho : 0 < orientation fun i : Fin (D + 1) => s.v i) {gj : ℕ → ℕ → List ℝ} (hgj : NodesOK gj)
    {nrm : ℕ → Option (Fin D → ℝ)} (hn : FacetNormals s nrm) (degree : ℕ)
    (svd : List (Fin D → Fin ((degree + 1 + D).choose D) → ℝ) → List ℝ × List (Fin D → Fin ((degree + 1 + D).choose D) → ℝ))
    (hsvd : ∀ A B, rtRows gj degree s = some (A, B) → SvdOK svd (A ++ B)) (T : DigitTable) :
    ∃ m el nodes ids ids', discontinuousRaviartThomas gj degree svd s nrm = some (⟨m, el⟩, nodes, ids) ∧
      raviartThomas gj degree svd T s nrm none = some (⟨m, el⟩, nodes, ids') ∧
      m = D * (degree + D).choose D + (degree + D - 1).choose (D - 1) ∧ nodes.length = m ∧
      IsNodalElement (IsRT degree) nodes el ∧ AllOnCell s.topo D ids m := by
  have hv : dualVariant T none degree = some .point := rfl
  obtain ⟨m, el, nodes, ids', h1, h2, h3, -, -, h4⟩ := raviart_thomas_spec hD s hs hnum ho hgj hn degree svd hsvd T none .point hv
  obtain ⟨ids, i1, i2⟩ := drt_ids (by omega) hnum m
  refine ⟨m, el, nodes, ids, ids', ?_, h1, h2, h3, h4, i2⟩
  unfold raviartThomas rtDual at h1
  simp only [hv, Option.bind_eq_bind, Option.bind_some, Option.bind_eq_some_iff] at h1
  obtain ⟨S, s1, dual, ⟨nodes', n1, e1⟩, el', e2, e3⟩ := h1
  have e1' : dual.1 = nodes' := by
    split_ifs at e1 with hk <;> simp only [Option.map_eq_some_iff, Option.bind_eq_some_iff] at e1
    · obtain ⟨ids'', -, e1⟩ := e1
      rw [← Option.some.inj e1]
    · obtain ⟨_, -, ids'', -, e1⟩ := e1
      rw [← Option.some.inj e1]
  obtain ⟨e4, e5⟩ := Prod.mk.inj (Option.some.inj e3)
  rw [e1'] at e2
  have e6 : nodes' = nodes := by rw [← e1', e5]
  subst e6
  unfold discontinuousRaviartThomas
  simp only [s1, drt_nodes_eq, n1, h3, i1, Option.bind_eq_bind, Option.bind_some]
  rw [e2, Option.bind_some, ← e4]

/-- The hypotheses are met: the lowest-order element on the UFC triangle. -/
example (DT : DigitTable) : ∃ gj m el nodes ids, NodesOK gj ∧ discontinuousRaviartThomas (D := 2) gj 0 someSvd ((ufcTriangle : CellData ℝ).toSimplex 2)
    (ufcScaledNormal ((ufcTriangle : CellData ℝ).toSimplex 2) fun _ => [Real.sqrt 2]) = some (⟨m, el⟩, nodes, ids) ∧ m = 3 := by
  obtain ⟨gj, hgj⟩ := nodesOK_exists
  obtain ⟨m, el, nodes, ids, -, h1, -, h2, -⟩ := discontinuous_raviart_thomas_spec (Or.inl rfl) _ (proper_ufcTriangle (K := ℝ)) numbered_ufcTriangle
    (by norm_num [orientation, Matrix.det_fin_two, SimplexCell.v, CellData.toSimplex, ufcTriangle]) hgj
    (ufc_triangle_normals _ proper_ufcTriangle fun _ => [Real.sqrt 2]) 0 someSvd (fun A B h => rt_svd_example hgj A B h) DT
  exact ⟨gj, m, el, nodes, ids, hgj, h1, h2⟩

end
end FIAT
