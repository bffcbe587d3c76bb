/-
The quadratic Lagrange element on a triangle and its edge functions (C59).
-/
import Verif.Model.BDFM
import Verif.Lemmas.LagrangeCore
import Verif.Lemmas.AffinePoly
import Verif.Props.RTElement
import Verif.Lemmas.TriangleC1
import Verif.Lemmas.EntityQuot

namespace FIAT
open MvPolynomial
section

/-- The midpoint of the edge with vertex numbers `t`. -/
noncomputable def edgeMid (s : SimplexCell (Fin 2 → ℝ)) (t : List ℕ) : Fin 2 → ℝ := (1 / 2 : ℝ) • (t.map s.v).sum

theorem edgeMid_points {s : SimplexCell (Fin 2 → ℝ)} (hs : ProperSimplex ℝ s) {e : ℕ} {t : List ℕ} (h : HasEntity s.topo 1 e t) :
    makePoints ℝ s 1 e 2 = some [edgeMid s t] := by
  have := centroid_points hs h
  rw [this]
  unfold edgeMid
  norm_num

theorem vertex_points {s : SimplexCell (Fin 2 → ℝ)} (hs : ProperSimplex ℝ s) {e : ℕ} {t : List ℕ} (h : HasEntity s.topo 0 e t) (k : ℕ) :
    makePoints ℝ s 0 e k = some [s.v e] := by
  have h1 := centroid_points hs h
  have ht := hs.2.1.vertex _ _ h
  subst ht
  simp only [List.map_cons, List.map_nil, List.sum_cons, List.sum_nil, add_zero] at h1
  norm_num at h1
  rw [← h1]
  unfold makePoints
  rw [if_pos rfl, if_pos rfl]

/-- The dof of an edge or vertex of the quadratic Lagrange element. -/
private theorem one_dof {s : SimplexCell (Fin 2 → ℝ)} (hs : ProperSimplex ℝ s) {nodes : List (Fin 2 → ℝ)} {ids : EntityIds ℕ}
    (hdual : lagrangeDual ℝ s 2 = some (nodes, ids)) {d e : ℕ} {t : List ℕ} (h : HasEntity s.topo d e t) {x : Fin 2 → ℝ}
    (hp : makePoints ℝ s d e 2 = some [x]) : ∃ k, ids.at? d e = some [k] ∧ nodes[k]? = some x := by
  obtain ⟨h1, h2, -⟩ := lagrange_dofs_partition s hs.2.1 2 (by norm_num) nodes ids hdual
  obtain ⟨l, hl⟩ := Option.isSome_iff_exists.1 ((h1 d e).2 ⟨t, h⟩)
  have h3 := lagrange_dof_points s hs.2.1 2 (by norm_num) nodes ids hdual d e l hl
  rw [hp] at h3
  simp only [Option.getD_some, List.map_cons, List.map_nil] at h3
  obtain ⟨k, rfl⟩ := List.length_eq_one_iff.1 (by simpa using congrArg List.length h3)
  simp only [List.map_cons, List.map_nil, List.cons.injEq, and_true] at h3
  exact ⟨k, hl, h3⟩

/-- A quadratic polynomial that vanishes at the vertices and the midpoints is zero. -/
theorem quadratic_zero {s : SimplexCell (Fin 2 → ℝ)} (hs : ProperSimplex ℝ s) (hnum : NumberedSimplex s) (p : MvPolynomial (Fin 2) ℝ)
    (hp : p.totalDegree ≤ 2) (h0 : ∀ i < 3, eval (s.v i) p = 0)
    (h1 : ∀ e t, HasEntity s.topo 1 e t → eval (edgeMid s t) p = 0) : p = 0 := by
  obtain ⟨nodes, ids, d1, d2⟩ := lagrange_num_nodes (K := ℝ) s hs.2.1 hs.2.2.1 2 (by norm_num) (by rw [hs.1]; norm_num)
  refine lagrange_unisolvent s hs.1 hs.2.1 hs.2.2.1 (by norm_num) 2 (by norm_num) nodes ids d1 p hp fun x hx => ?_
  obtain ⟨k, hk⟩ := List.mem_iff_getElem?.1 hx
  obtain ⟨a1, a2, -⟩ := lagrange_dofs_partition s hs.2.1 2 (by norm_num) nodes ids d1
  obtain ⟨⟨d, e⟩, ⟨l, l1, l2⟩, -⟩ := a2.2 k (List.getElem?_eq_some_iff.1 hk).1
  simp only at l1
  obtain ⟨t, ht⟩ := (a1 d e).1 (by rw [l1]; rfl)
  have hd := hnum.2 d e t ht
  have he := ((hnum.1 d hd).2 e).1 ⟨t, ht⟩
  have key : ∀ y, makePoints ℝ s d e 2 = some [y] → x = y := by
    intro y hy
    obtain ⟨k', k1, k2⟩ := one_dof hs d1 ht hy
    rw [l1, Option.some.injEq] at k1
    rw [k1, List.mem_singleton] at l2
    rw [← l2, hk, Option.some.injEq] at k2
    exact k2
  rcases (by omega : d = 0 ∨ d = 1 ∨ d = 2) with rfl | rfl | rfl
  · rw [key _ (vertex_points hs ht 2)]
    exact h0 e (by simpa using he)
  · rw [key _ (edgeMid_points hs ht)]
    exact h1 e t ht
  · exfalso
    have h3 := lagrange_dof_points s hs.2.1 2 (by norm_num) nodes ids d1 2 e l l1
    obtain ⟨pts, q1, -⟩ := make_points_mem (K := ℝ) s hs.2.1 2 (by norm_num) ht
    have hl := entity_points_length hs hnum (by norm_num) ht 2 (by norm_num) q1
    have : pts = [] := List.length_eq_zero_iff.1 (by rw [hl]; decide)
    rw [q1, this] at h3
    simp only [Option.getD_some, List.map_nil, List.map_eq_nil_iff] at h3
    rw [h3] at l2
    simp at l2

/-- The edge functions of `Lagrange(ref_el, 2)`. -/
theorem lagrange_edges {s : SimplexCell (Fin 2 → ℝ)} (hs : ProperSimplex ℝ s) (hnum : NumberedSimplex s)
    {φ : Fin ((2 + 2).choose 2) → MvPolynomial (Fin 2) ℝ} (hli : LinearIndependent ℝ φ) (hdeg : ∀ i, (φ i).totalDegree ≤ 2)
    (mats : List (Matrix (Fin ((2 + 2).choose 2)) (Fin ((2 + 2).choose 2)) ℝ))
    (h1 : onPolynomialSet s 2 = some (onScalarSet ((2 + 2).choose 2) 2 (expTab s.verts 2) mats))
    (h2 : BaseSpec φ (expTab s.verts 2)) (h3 : DmatSpec φ mats) :
    ∃ (el : PolySet ℝ (Fin 2 → ℝ) ((2 + 2).choose 2) ((2 + 2).choose 2) Unit) (ids : EntityIds ℕ) (es : Dict ℕ (List ℕ))
      (d : Fin 3 → Fin ((2 + 2).choose 2)), lagrangeElement s 2 = some (el, ids) ∧
      Dict.get? ids 1 = some es ∧ (∀ p, p ∈ es ↔ ∃ e : Fin 3, p = ((e : ℕ), [((d e : Fin ((2 + 2).choose 2)) : ℕ)])) ∧
      (∀ e, (el.member φ (d e) ()).totalDegree ≤ 2) ∧ (∀ e, ∀ i < 3, eval (s.v i) (el.member φ (d e) ()) = 0) ∧
      ∀ (e : Fin 3) (f : ℕ) t, HasEntity s.topo 1 f t → eval (edgeMid s t) (el.member φ (d e) ()) = if f = (e : ℕ) then 1 else 0 := by
  obtain ⟨nodes, ids, d1, d2⟩ := lagrange_num_nodes (K := ℝ) s hs.2.1 hs.2.2.1 2 (by norm_num) (by rw [hs.1]; norm_num)
  rw [hs.1] at d2
  obtain ⟨el, c1, c2⟩ := lagrange_ciarlet s hs.1 hs.2.1 hs.2.2.1 (by norm_num) 2 (by norm_num) rfl φ hdeg hli _ h2 mats h3 nodes ids d1
  obtain ⟨a1, a2, -⟩ := lagrange_dofs_partition s hs.2.1 2 (by norm_num) nodes ids d1
  have hedge : ∀ e : Fin 3, ∃ t, HasEntity s.topo 1 e t := fun e => facet_exists (D := 2) le_rfl hnum e.2
  choose T hT using hedge
  have hdof : ∀ e : Fin 3, ∃ k, ids.at? 1 e = some [k] ∧ nodes[k]? = some (edgeMid s (T e)) := fun e =>
    one_dof hs d1 (hT e) (edgeMid_points hs (hT e))
  choose k k1 k2 using hdof
  have hk : ∀ e, k e < (2 + 2).choose 2 := fun e => by rw [← d2]; exact (List.getElem?_eq_some_iff.1 (k2 e)).1
  obtain ⟨es, e1⟩ : ∃ es, Dict.get? ids 1 = some es := by
    have := k1 0
    unfold EntityIds.at? at this
    rw [Option.bind_eq_some_iff] at this
    obtain ⟨es, e1, -⟩ := this
    exact ⟨es, e1⟩
  have hwf := (lagrange_ids_wf d1).2 _ (Dict.mem_of_get? e1)
  have hlt : ∀ e t, HasEntity s.topo 1 e t → e < 3 := fun e t h => by
    have := ((hnum.1 1 (by norm_num)).2 e).1 ⟨t, h⟩
    simpa using this
  have hat : ∀ e, ids.at? 1 e = Dict.get? es e := fun e => by unfold EntityIds.at?; rw [e1]; rfl
  have hneq : ∀ d e d' e' i, ids.at? d e = some [i] → ids.at? d' e' = some [i] → (d, e) = (d', e') := by
    intro d e d' e' i hd hd'
    obtain ⟨p, -, hp⟩ := a2.2 i ((a2.1 d e _ hd).2 i (by simp))
    rw [hp (d, e) ⟨_, hd, by simp⟩, hp (d', e') ⟨_, hd', by simp⟩]
  refine ⟨el, ids, es, fun e => ⟨k e, hk e⟩, ?_, e1, ?_, ?_, ?_, ?_⟩
  · unfold lagrangeElement
    simp only [h1, Option.bind_eq_bind, Option.bind_some, d1]
    have c1' : ciarletElement (onExpTab ((2 + 2).choose 2) 2 (onScalarSet ((2 + 2).choose 2) 2 (expTab s.verts 2) mats).base
      (onScalarSet ((2 + 2).choose 2) 2 (expTab s.verts 2) mats).dmats) (fun _ : Unit => [])
      (onScalarSet ((2 + 2).choose 2) 2 (expTab s.verts 2) mats) (nodes.map pointEvaluation) = some el := by
      convert c1 <;> rfl
    rw [c1']
    rfl
  · rintro ⟨e, l⟩
    constructor
    · intro hp
      have hg := Dict.get?_of_mem hwf hp
      have hent := (a1 1 e).1 (by rw [hat, hg]; rfl)
      obtain ⟨t, ht⟩ := hent
      refine ⟨⟨e, hlt e t ht⟩, ?_⟩
      have := k1 ⟨e, hlt e t ht⟩
      rw [hat, hg, Option.some.injEq] at this
      rw [this]
    · rintro ⟨e', he⟩
      rw [he]
      exact Dict.mem_of_get? (by rw [← hat]; exact k1 e')
  · intro e
    unfold PolySet.member
    refine totalDegree_finsetSum_le fun i _ => ?_
    refine (totalDegree_mul _ _).trans ?_
    rw [totalDegree_C, zero_add]; exact hdeg i
  · intro e i hi
    obtain ⟨j, j1, j2⟩ := one_dof hs d1 (vertex_entity hs hnum hi) (vertex_points hs (vertex_entity hs hnum hi) 2)
    rw [c2 j _ j2, if_neg]
    rintro rfl
    have := hneq _ _ _ _ _ j1 (k1 e)
    simp at this
  · intro e f t ht
    have hf := hlt f t ht
    have hte : t = T ⟨f, hf⟩ := hasEntity_unique ht (hT ⟨f, hf⟩)
    rw [hte, c2 _ _ (k2 ⟨f, hf⟩)]
    refine if_congr ?_ rfl rfl
    constructor
    · intro h
      have := hneq _ _ _ _ _ (k1 ⟨f, hf⟩) (by rw [show k ⟨f, hf⟩ = k e from h]; exact k1 e)
      simpa using this
    · intro h
      have : (⟨f, hf⟩ : Fin 3) = e := Fin.ext h
      rw [this]

end
end FIAT
