/-
C49: cubic Hermite elements (FIAT/hermite.py).
-/
import Verif.Lemmas.Hermite
import Verif.Lemmas.AnyElement
import Verif.Props.PolyDim

namespace FIAT
open MvPolynomial
section
variable {D : ℕ}

theorem totalNodes {s : SimplexCell (Fin D → ℝ)} {L : List (ℕ × ℕ)} {blk : ℕ × ℕ → List (Functional ℝ (Fin D → ℝ))}
    {nodes : List (Functional ℝ (Fin D → ℝ))} {ids : EntityIds ℕ} (h : EntityBlocks s.topo L blk nodes ids) (n : ℕ → ℕ)
    (hn : ∀ x ∈ L, (blk x).length = n x.1) : nodes.length = (L.map fun x => n x.1).sum := by
  rw [h.1, List.length_flatMap]
  congr 1
  exact List.map_congr_left fun x hx => hn x hx

/-- C49: `CubicHermite(cell, 3)` on an interval, triangle or tetrahedron: the dofs of a vertex are the value and the partial derivatives
there, the dof of a triangular face is the value at its barycentre, other entities have none; the element tabulates the basis of
`P_3` dual to these dofs; and the dofs on the closure of an entity determine the trace there, so that glued
cells give continuous functions. -/
theorem cubic_hermite_spec (hD : D = 1 ∨ D = 2 ∨ D = 3) (s : SimplexCell (Fin D → ℝ)) (hs : ProperSimplex ℝ s) (hnum : NumberedSimplex s)
    (hv : Increasing fun i : Fin (D + 1) => s.v i) :
    ∃ el nodes ids, cubicHermite s 3 = some (el, nodes, ids) ∧ IsNodalScalar 3 nodes el ∧ ProperDofs s nodes ids ∧
      (∀ v < D + 1, DofsOf nodes ids 0 v fun p => eval (s.v v) p :: List.ofFn fun i : Fin D => eval (s.v v) (pderiv i p)) ∧
      (∀ f t, HasEntity s.topo 2 f t → DofsOf nodes ids 2 f fun p => [eval ((1 / (3 : ℝ)) • (t.map s.v).sum) p]) ∧
      (∀ d e t, HasEntity s.topo d e t → d ≠ 0 → d ≠ 2 → ids.at? d e = some []) ∧
      ∀ d e t, HasEntity s.topo d e t → ∀ p : MvPolynomial (Fin D) ℝ, p.totalDegree ≤ 3 → ZeroOnClosure s nodes ids t p →
        ∀ x, OnEntity s t x → eval x p = 0 := by
  obtain ⟨nodes, ids, h1, h2⟩ := hermite_dual_blocks (by omega) hs hnum
  have hmem : ∀ {d e t}, HasEntity s.topo d e t → (d, e) ∈ allEnts D := fun h => (mem_allEnts hnum _).2 ⟨_, h⟩
  have htrace : ∀ d e t, HasEntity s.topo d e t → ∀ p : MvPolynomial (Fin D) ℝ, p.totalDegree ≤ 3 → ZeroOnClosure s nodes ids t p →
        ∀ x, OnEntity s t x → eval x p = 0 := by
    intro d e t h p hp hz
    refine hermite_trace hs p hp d e t h ?_ ?_
    · intro a ha
      have hlt := (hs.2.1.entity _ _ _ h).2.2 a ha
      rw [hs.1] at hlt
      have hva := vertex_entity hs hnum hlt
      have := h2.zero_closure hz hva (hmem hva) (by simpa using ha)
      have hall : ∀ r ∈ (hermiteBlk s (0, a)).map (fun node => node.onField (scalarField p)), r = 0 := by
        intro r hr
        obtain ⟨node, hn, rfl⟩ := List.mem_map.1 hr
        exact this node hn
      rw [hermite_vertex_block] at hall
      exact ⟨hall _ (by simp), fun i => hall _ (List.mem_cons_of_mem _ ((List.mem_ofFn' _ _).2 ⟨i, rfl⟩))⟩
    · intro f t' hf hsub
      have := h2.zero_closure hz hf (hmem hf) hsub
      have hall : ∀ r ∈ (hermiteBlk s (2, f)).map (fun node => node.onField (scalarField p)), r = 0 := by
        intro r hr
        obtain ⟨node, hn, rfl⟩ := List.mem_map.1 hr
        exact this node hn
      rw [hermite_face_block hs hf] at hall
      exact hall _ (by simp)
  have hlen : nodes.length = (3 + D).choose D := by
    rw [totalNodes h2 (fun d => if d = 0 then D + 1 else if d = 2 then 1 else 0) (by
      rintro ⟨d, e⟩ hx
      obtain ⟨t, ht⟩ := (mem_allEnts hnum _).1 hx
      simp only at ht ⊢
      by_cases hd0 : d = 0
      · subst hd0; simp [hermiteBlk]
      · by_cases hd2 : d = 2
        · subst hd2
          have := congrArg List.length (hermite_face_block hs ht (0 : MvPolynomial (Fin D) ℝ))
          simpa using this
        · simp [hermiteBlk, hd0, hd2])]
    rcases hD with rfl | rfl | rfl <;> rfl
  have hmemN : ∀ l ∈ nodes, ∃ d e t, HasEntity s.topo d e t ∧ l ∈ hermiteBlk s (d, e) := by
    intro l hl
    rw [h2.1, List.mem_flatMap] at hl
    obtain ⟨⟨d, e⟩, hx, hl⟩ := hl
    obtain ⟨t, ht⟩ := (mem_allEnts hnum _).1 hx
    exact ⟨d, e, t, ht, hl⟩
  obtain ⟨tc, htc, -, -, hall⟩ := cell_entity hs hnum
  obtain ⟨el, e1, e2⟩ := functional_element_spec hD s hs hv 3 nodes hlen (by
      intro l hl
      obtain ⟨d, e, t, -, hl⟩ := hmemN l hl
      simp only [hermiteBlk] at hl
      split_ifs at hl
      · rcases List.mem_cons.1 hl with rfl | hl
        · exact wf_eval _
        · obtain ⟨i, -, rfl⟩ := List.mem_map.1 hl
          exact wf_deriv _ _ (unitAlpha_length i)
      · obtain ⟨y, -, rfl⟩ := List.mem_map.1 hl
        exact wf_eval _
      · simp at hl)
    (by
      left
      refine ⟨pointDerivative (s.v 0) (unitAlpha D (⟨0, by omega⟩ : Fin D)), ?_, ?_⟩
      · rw [h2.1, List.mem_flatMap]
        refine ⟨(0, 0), hmem (vertex_entity hs hnum (by omega)), ?_⟩
        simp only [hermiteBlk, if_true]
        exact List.mem_cons_of_mem _ (List.mem_map.2 ⟨0, List.mem_range.2 (by omega), rfl⟩)
      · rw [order_deriv, unitAlpha_sum]; exact one_pos)
    (by
      intro p hp hz
      refine MvPolynomial.funext fun x => ?_
      rw [map_zero]
      exact htrace D 0 tc htc p hp (fun _ _ _ _ _ _ _ i _ node hn => hz node (List.mem_of_getElem? hn)) x (hall x))
  refine ⟨el, nodes, ids, ?_, e2, ⟨h2.layout.1, h2.layout.2.1⟩, ?_, ?_, ?_, htrace⟩
  · unfold cubicHermite
    simp only [h1, e1, ne_eq, not_true_eq_false, if_false, Option.bind_eq_bind, Option.bind_some]
  · intro v hv'
    exact h2.dofsOf (hmem (vertex_entity hs hnum hv')) _ (hermite_vertex_block s v)
  · intro f t hf
    exact h2.dofsOf (hmem hf) _ (hermite_face_block hs hf)
  · intro d e t h hd0 hd2
    obtain ⟨l, k1, k2⟩ := h2.layout.2.2 d e (hmem h)
    rw [k1]
    simp only [hermiteBlk, hd0, hd2, if_false, List.map_nil, List.map_eq_nil_iff] at k2
    rw [k2]

/-- C49: any other degree is rejected. -/
theorem cubic_hermite_degree (s : SimplexCell (Fin D → ℝ)) (deg : ℕ) (h : deg ≠ 3) : cubicHermite s deg = none := if_pos h

/-- C49: C0 conformity.  `p` and `q` are the functions of two cells that share the entity `t` (of the cell `s`): if the values and
partial derivatives at its vertices and the values at the barycentres of its faces agree, `p = q` on the whole entity. -/
theorem cubic_hermite_conforming (s : SimplexCell (Fin D → ℝ)) (hs : ProperSimplex ℝ s)
    (d e : ℕ) (t : List ℕ) (h : HasEntity s.topo d e t) (p q : MvPolynomial (Fin D) ℝ) (hp : p.totalDegree ≤ 3) (hq : q.totalDegree ≤ 3)
    (hv : ∀ a ∈ t, eval (s.v a) p = eval (s.v a) q ∧ ∀ i, eval (s.v a) (pderiv i p) = eval (s.v a) (pderiv i q))
    (hf : ∀ f t', HasEntity s.topo 2 f t' → (∀ a ∈ t', a ∈ t) →
      eval ((1 / (3 : ℝ)) • (t'.map s.v).sum) p = eval ((1 / (3 : ℝ)) • (t'.map s.v).sum) q) (x : Fin D → ℝ) (hx : OnEntity s t x) :
    eval x p = eval x q := by
  have := hermite_trace hs (p - q) ((totalDegree_sub _ _).trans (max_le hp hq)) d e t h
    (fun a ha => ⟨by rw [map_sub, (hv a ha).1, sub_self], fun i => by rw [map_sub, map_sub, (hv a ha).2 i, sub_self]⟩)
    (fun f t' h1 h2 => by rw [map_sub, hf f t' h1 h2, sub_self]) x hx
  rw [map_sub] at this
  linarith

/-- The hypotheses are met by the UFC triangle and tetrahedron: 10 and 20 dofs. -/
example : ∃ el nodes ids, cubicHermite ((ufcTriangle : CellData ℝ).toSimplex 2) 3 = some (el, nodes, ids) ∧ nodes.length = 10 := by
  obtain ⟨el, nodes, ids, h1, ⟨_, _, _, h2, _⟩, -⟩ := cubic_hermite_spec (Or.inr (Or.inl rfl)) _ proper_ufcTriangle numbered_ufcTriangle
    (fun h => absurd h (by norm_num))
  exact ⟨el, nodes, ids, h1, h2⟩

example : ∃ el nodes ids, cubicHermite ((ufcTetrahedron : CellData ℝ).toSimplex 3) 3 = some (el, nodes, ids) ∧ nodes.length = 20 := by
  obtain ⟨el, nodes, ids, h1, ⟨_, _, _, h2, _⟩, -⟩ := cubic_hermite_spec (Or.inr (Or.inr rfl)) _ proper_ufcTetrahedron numbered_ufcTetrahedron
    (fun h => absurd h (by norm_num))
  exact ⟨el, nodes, ids, h1, h2⟩

end
end FIAT
