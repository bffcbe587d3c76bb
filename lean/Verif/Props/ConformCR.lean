/-
C79: weak continuity of Crouzeix-Raviart functions across the facets of a mesh.
-/
import Verif.Props.ConformExample
import Verif.Props.CrouzeixRaviart
import Verif.Lemmas.Commute

namespace FIAT
open MvPolynomial MeasureTheory
section
variable {D : ℕ}

theorem ufc_hull_compact (d : ℕ) : IsCompact (convexHull ℝ (Set.range (ufcVerts ℝ d))) :=
  Set.Finite.isCompact_convexHull ℝ (Set.finite_range _)

theorem entMap_integrable {d : ℕ} (vc : Fin (d + 1) → Fin D → ℝ) (p : MvPolynomial (Fin D) ℝ) :
    IntegrableOn (fun y => eval (entMap vc y) p) (convexHull ℝ (Set.range (ufcVerts ℝ d))) := by
  refine ContinuousOn.integrableOn_compact (ufc_hull_compact d) (Continuous.continuousOn ?_)
  refine (MvPolynomial.continuous_eval p).comp ?_
  have : entMap vc = fun y => (1 - ∑ j, y j) • vc 0 + ∑ j : Fin d, y j • vc j.succ := _root_.funext fun y => entMap_comb vc y
  rw [this]
  fun_prop

/-- The integral of an affine function over a simplex, in the coordinates of the reference simplex: the value at the barycentre
divided by `d!`. -/
theorem affine_integral {d : ℕ} (vc : Fin (d + 1) → Fin D → ℝ) (p : MvPolynomial (Fin D) ℝ) (hp : p.totalDegree ≤ 1) :
    ∫ y in convexHull ℝ (Set.range (ufcVerts ℝ d)), eval (entMap vc y) p =
      eval ((1 / ((d + 1 : ℕ) : ℝ)) • ∑ r, vc r) p / (d.factorial : ℝ) := by
  have h1 : ∀ y : Fin d → ℝ, eval (entMap vc y) p = ∑ r, ufcBary y r * eval (vc r) p := fun y => by
    rw [ufc_entMap_bary, affine_comb p hp _ _ (ufcBary_sum y)]
  have h2 : ∀ r : Fin (d + 1), ∫ y in convexHull ℝ (Set.range (ufcVerts ℝ d)), ufcBary y r = 1 / (d + 1).factorial := fun r => by
    have := ufc_bary_prod d (Pi.single r 1)
    rw [ufcVerts_eq]
    have e1 : ∀ y : Fin d → ℝ, ∏ i, ufcBary y i ^ (Pi.single r 1 : Fin (d + 1) → ℕ) i = ufcBary y r := fun y => by
      rw [Finset.prod_eq_single r (fun i _ hi => by rw [Pi.single_eq_of_ne hi, pow_zero]) (by simp), Pi.single_eq_same, pow_one]
    have e2 : ∏ i, ((Pi.single r 1 : Fin (d + 1) → ℕ) i).factorial = 1 := Finset.prod_eq_one fun i _ => by
      by_cases hi : i = r
      · subst hi; simp
      · rw [Pi.single_eq_of_ne hi]; rfl
    simp only [e1, e2, Finset.sum_pi_single', Finset.mem_univ, if_true, Nat.cast_one] at this
    rw [this]
  have h3 : ∀ r : Fin (d + 1), IntegrableOn (fun y : Fin d → ℝ => ufcBary y r * eval (vc r) p) (convexHull ℝ (Set.range (ufcVerts ℝ d))) := fun r => by
    refine ContinuousOn.integrableOn_compact (ufc_hull_compact d) (Continuous.continuousOn ?_)
    refine Continuous.mul ?_ continuous_const
    refine Fin.cases ?_ (fun j => ?_) r
    · show Continuous fun y : Fin d → ℝ => 1 - ∑ j, y j
      fun_prop
    · show Continuous fun y : Fin d → ℝ => y j
      fun_prop
  have hd : ((d + 1 : ℕ) : ℝ) ≠ 0 := by positivity
  have hf : (d.factorial : ℝ) ≠ 0 := by positivity
  rw [Finset.smul_sum, affine_comb p hp (fun _ : Fin (d + 1) => 1 / ((d + 1 : ℕ) : ℝ)) _ (by simp; field_simp)]
  simp only [h1]
  rw [integral_finset_sum _ fun r _ => h3 r]
  simp only [integral_mul_const, h2]
  rw [← Finset.mul_sum, ← Finset.mul_sum, Nat.factorial_succ]
  push_cast
  field_simp

variable {X : ℕ → Fin D → ℝ} {s s' : SimplexCell (Fin D → ℝ)} {A A' : Matrix (Fin D) (Fin D) ℝ} {b b' : Fin D → ℝ} {g g' : ℕ → ℕ}

private theorem cr_values (hD : 1 ≤ D) (hs : ProperSimplex ℝ s) (hnum : NumberedSimplex s)
    {nodes : List (Functional ℝ (Fin D → ℝ))} {ids : EntityIds ℕ} (hdual : crDual s = some (nodes, ids)) {e : ℕ} {t : List ℕ}
    (ht : HasEntity s.topo (D - 1) e t) (p : MvPolynomial (Fin D) ℝ) :
    DofValues nodes ids (fun a => a.onField (scalarField p)) (D - 1) e [eval ((1 / (D : ℝ)) • (t.map s.v).sum) p] := by
  obtain ⟨nodes1, ids1, h1, -, h3, h4⟩ := cr_dual_spec hD hs hnum
  rw [hdual, Option.some.injEq, Prod.mk.injEq] at h1
  obtain ⟨rfl, rfl⟩ := h1
  have he : e < D + 1 := by
    have := ((hnum.1 (D - 1) (by omega)).2 e).1 ⟨t, ht⟩
    rwa [Nat.sub_add_cancel hD, Nat.choose_succ_self_right] at this
  refine ⟨[e], by rw [h4, if_pos ⟨rfl, he⟩], ?_⟩
  rw [List.map_cons, List.map_nil, h3 e t ht, Option.map_some, point_eval_scalar]
  rfl

/-- C79: two cells of a mesh, images of reference cells `s` and `s'`, share a facet.  The facet dofs of the Crouzeix-Raviart
functions `u` and `u'` are equal if and only if the jump of the two functions has mean zero over the shared facet, if and only if they
agree at its barycentre; `y` ranges over the reference facet, and both parametrizations give the same point of the mesh. -/
theorem crouzeix_raviart_weakly_conforming (hD : 1 ≤ D) (hs : ProperSimplex ℝ s) (hs' : ProperSimplex ℝ s') (hnum : NumberedSimplex s)
    (hnum' : NumberedSimplex s') {nodes nodes' : List (Functional ℝ (Fin D → ℝ))} {ids ids' : EntityIds ℕ}
    (hdual : crDual s = some (nodes, ids)) (hdual' : crDual s' = some (nodes', ids')) (hm : InMesh X s A b g) (hm' : InMesh X s' A' b' g')
    {e e' : ℕ} {τ τ' : Fin (D - 1 + 1) → ℕ} (ht : HasEntity s.topo (D - 1) e (List.ofFn τ)) (ht' : HasEntity s'.topo (D - 1) e' (List.ofFn τ'))
    (hsh : SharedEntity g (List.ofFn τ) g' (List.ofFn τ')) {u u' : MvPolynomial (Fin D) ℝ} (hu : u.totalDegree ≤ 1) (hu' : u'.totalDegree ≤ 1) :
    (∀ y, cellMap A b (entMap (fun r => s.v (τ r)) y) = cellMap A' b' (entMap (fun r => s'.v (τ' r)) y)) ∧
    (DofsMatch 1 nodes ids (fun a => a.onField (scalarField u)) nodes' ids' (fun a => a.onField (scalarField u')) (D - 1) e e' ↔
      ∫ y in convexHull ℝ (Set.range (ufcVerts ℝ (D - 1))),
        (eval (entMap (fun r => s.v (τ r)) y) u - eval (entMap (fun r => s'.v (τ' r)) y) u') = 0) ∧
    (DofsMatch 1 nodes ids (fun a => a.onField (scalarField u)) nodes' ids' (fun a => a.onField (scalarField u')) (D - 1) e e' ↔
      eval (entMap (fun r => s.v (τ r)) fun _ => 1 / D) u = eval (entMap (fun r => s'.v (τ' r)) fun _ => 1 / D) u') := by
  have hmap := (shared_tuple hs hs' hm hm' ht ht' hsh).2
  have hlt : ∀ {s : SimplexCell (Fin D → ℝ)} {e : ℕ} {τ : Fin (D - 1 + 1) → ℕ}, ProperSimplex ℝ s → HasEntity s.topo (D - 1) e (List.ofFn τ) →
      ∀ j, τ j < D + 1 := fun hs h j => by
    have := (hs.2.1.entity _ _ _ h).2.2 (_) ((List.mem_ofFn' _ _).2 ⟨j, rfl⟩)
    rwa [hs.1] at this
  have hD1 : ((D - 1 + 1 : ℕ) : ℝ) = D := by rw [Nat.sub_add_cancel hD]
  have hcen : ∀ v : Fin (D - 1 + 1) → Fin D → ℝ, entMap v (fun _ => 1 / (D : ℝ)) = (1 / (D : ℝ)) • ∑ r, v r := fun v => by
    rw [entMap_comb, Fin.sum_univ_succ, smul_add, Finset.smul_sum]
    congr 2
    rw [Finset.sum_const, Finset.card_univ, Fintype.card_fin, nsmul_eq_mul]
    have : ((D - 1 : ℕ) : ℝ) = D - 1 := by rw [Nat.cast_sub hD, Nat.cast_one]
    have hD0 : (D : ℝ) ≠ 0 := by positivity
    rw [this]
    field_simp
    ring
  have hsum : ∀ (s : SimplexCell (Fin D → ℝ)) (τ : Fin (D - 1 + 1) → ℕ), ((List.ofFn τ).map s.v).sum = ∑ r, s.v (τ r) := fun s τ => by
    rw [List.map_ofFn, List.sum_ofFn]; rfl
  have hdofs : DofsMatch 1 nodes ids (fun a => a.onField (scalarField u)) nodes' ids' (fun a => a.onField (scalarField u')) (D - 1) e e' ↔
      eval ((1 / (D : ℝ)) • ∑ r, s.v (τ r)) u = eval ((1 / (D : ℝ)) • ∑ r, s'.v (τ' r)) u' := by
    rw [dofsMatch_iff (cr_values hD hs hnum hdual ht u) (cr_values hD hs' hnum' hdual' ht' u'), hsum, hsum]
    simp
  refine ⟨fun y => ?_, ?_, ?_⟩
  · rw [cellMap_entMap, cellMap_entMap]
    simp only [shared_verts hm hm' (hlt hs ht) (hlt hs' ht') hmap]
  · rw [integral_sub (entMap_integrable _ _) (entMap_integrable _ _), affine_integral _ _ hu, affine_integral _ _ hu', hD1, ← sub_div,
      div_eq_zero_iff, sub_eq_zero, hdofs, or_iff_left (by positivity)]
  · rw [hcen, hcen, hdofs]

/-- The two triangles of the square and the two tetrahedra of the bipyramid meet the hypotheses. -/
example {nodes ids} (h : crDual tri = some (nodes, ids)) {u u' : MvPolynomial (Fin 2) ℝ} (hu : u.totalDegree ≤ 1) (hu' : u'.totalDegree ≤ 1) :=
  crouzeix_raviart_weakly_conforming (τ := ![1, 2]) (τ' := ![0, 1]) (by norm_num) (proper_ufcTriangle (K := ℝ)) proper_ufcTriangle numbered_ufcTriangle
    numbered_ufcTriangle h h square_left square_right square_edges.1 square_edges.2.1 square_edges.2.2 hu hu'

example {nodes ids} (h : crDual tet = some (nodes, ids)) {u u' : MvPolynomial (Fin 3) ℝ} (hu : u.totalDegree ≤ 1) (hu' : u'.totalDegree ≤ 1) :=
  crouzeix_raviart_weakly_conforming (τ := ![1, 2, 3]) (τ' := ![0, 1, 2]) (by norm_num) (proper_ufcTetrahedron (K := ℝ)) proper_ufcTetrahedron
    numbered_ufcTetrahedron numbered_ufcTetrahedron h h bipyramid_lower bipyramid_upper bipyramid_faces.1 bipyramid_faces.2.1 bipyramid_faces.2.2 hu hu'

/-- The dual sets exist. -/
example : (∃ nodes ids, crDual tri = some (nodes, ids)) ∧ ∃ nodes ids, crDual tet = some (nodes, ids) := by
  obtain ⟨n, i, h, -⟩ := cr_dual_spec (by norm_num) (proper_ufcTriangle (K := ℝ)) numbered_ufcTriangle
  obtain ⟨n', i', h', -⟩ := cr_dual_spec (by norm_num) (proper_ufcTetrahedron (K := ℝ)) numbered_ufcTetrahedron
  exact ⟨⟨n, i, h⟩, n', i', h'⟩

end
end FIAT
