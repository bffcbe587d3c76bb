/-
C54: discontinuous Taylor elements (FIAT/discontinuous_taylor.py).
-/
import Verif.Lemmas.AffinePoly
import Verif.Lemmas.AnyElement
import Verif.Props.RTExample

namespace FIAT
open MvPolynomial
section
variable {D : ℕ}

theorem iterDeriv_pderiv (α : List ℕ) (j : Fin D) (q : MvPolynomial (Fin D) ℝ) : iterDeriv α (pderiv j q) = pderiv j (iterDeriv α q) := by
  unfold iterDeriv
  generalize List.finRange D = L
  induction L generalizing q with
  | nil => rfl
  | cons i L ih =>
    rw [List.foldl_cons, List.foldl_cons]
    have : (fun r => pderiv i r)^[α.getD (i : ℕ) 0] (pderiv j q) = pderiv j ((fun r => pderiv i r)^[α.getD (i : ℕ) 0] q) := by
      generalize α.getD (i : ℕ) 0 = n
      induction n with
      | zero => rfl
      | succ n ihn => rw [Function.iterate_succ_apply', ihn, Function.iterate_succ_apply', pderiv_comm]
    rw [this, ih]

private theorem set_sum (α : List ℕ) (j : ℕ) (hj : j < α.length) : (α.set j (α.getD j 0 + 1)).sum = α.sum + 1 := by
  rw [List.sum_set]
  have e := List.sum_take_add_sum_drop α j
  rw [List.drop_eq_getElem_cons hj, List.sum_cons] at e
  rw [if_pos hj, List.getD_eq_getElem _ _ hj]
  omega

/-- A polynomial of degree at most `m` all of whose derivatives of order at most `m` vanish at a point. -/
theorem taylor_zero (x : Fin D → ℝ) (m : ℕ) (q : MvPolynomial (Fin D) ℝ) (hq : q.totalDegree ≤ m)
    (h : ∀ α : List ℕ, α.length = D → α.sum ≤ m → eval x (iterDeriv α q) = 0) : q = 0 := by
  induction m generalizing q with
  | zero =>
    have h0 := h (List.replicate D 0) (by simp) (by simp)
    rw [iterDeriv_zero] at h0
    have := totalDegree_eq_zero_iff_eq_C.1 (Nat.le_zero.1 hq)
    rw [this, eval_C] at h0
    rw [this, h0, C_0]
  | succ m ih =>
    have hg : ∀ j, pderiv j q = 0 := by
      intro j
      refine ih (pderiv j q) ((totalDegree_pderiv_sub j q).trans (by omega)) fun α h1 h2 => ?_
      have hj : (j : ℕ) < α.length := by rw [h1]; exact j.2
      rw [iterDeriv_pderiv, ← iterDeriv_succ α j hj]
      exact h _ (by simp [h1]) (by rw [set_sum α j hj]; omega)
    refine MvPolynomial.funext fun y => ?_
    have h0 := h (List.replicate D 0) (by simp) (by simp)
    rw [iterDeriv_zero] at h0
    rw [const_of_grad q hg y x, h0, map_zero]

/-- Without the value itself the polynomial is constant. -/
theorem taylor_const (x : Fin D → ℝ) (m : ℕ) (q : MvPolynomial (Fin D) ℝ) (hq : q.totalDegree ≤ m)
    (h : ∀ α : List ℕ, α.length = D → 1 ≤ α.sum → α.sum ≤ m → eval x (iterDeriv α q) = 0) : q = C (eval x q) := by
  rcases m with _ | m
  · have := totalDegree_eq_zero_iff_eq_C.1 (Nat.le_zero.1 hq)
    rw [this, eval_C]
  · have hg : ∀ j, pderiv j q = 0 := by
      intro j
      refine taylor_zero x m (pderiv j q) ((totalDegree_pderiv_sub j q).trans (by omega)) fun α h1 h2 => ?_
      have hj : (j : ℕ) < α.length := by rw [h1]; exact j.2
      rw [iterDeriv_pderiv, ← iterDeriv_succ α j hj]
      exact h _ (by simp [h1]) (by rw [set_sum α j hj]; omega) (by rw [set_sum α j hj]; omega)
    refine MvPolynomial.funext fun y => ?_
    rw [const_of_grad q hg y x, eval_C]

theorem taylor_count (hD : 1 ≤ D) (k : ℕ) : ((List.range' 1 k).flatMap fun j => mis D j).length + 1 = (k + D).choose D := by
  induction k with
  | zero => simp
  | succ k ih =>
    rw [List.range'_concat, List.flatMap_append, List.length_append, List.flatMap_singleton, mis_length D _ hD]
    obtain ⟨d, rfl⟩ : ∃ d, D = d + 1 := ⟨D - 1, by omega⟩
    rw [show k + 1 + (d + 1) = (k + (d + 1)) + 1 by omega, Nat.choose_succ_succ, ← ih]
    rw [show 1 + 1 * k + (d + 1) - 1 = k + (d + 1) by omega, show d + 1 - 1 = d by omega]
    omega

theorem taylor_ids {s : SimplexCell (Fin D → ℝ)} (hnum : NumberedSimplex s) (n : ℕ) :
    AllOnCell s.topo D (setIds (blankIds s.topo) D 0 (List.range' 0 n)) n := by
  have hcell : ∃ t, HasEntity s.topo D 0 t := ((hnum.1 D le_rfl).2 0).2 (by simp)
  refine ⟨fun d e => ?_, ?_, ?_⟩
  · rw [setIds_at]
    by_cases h : D = d ∧ 0 = e
    · obtain ⟨rfl, rfl⟩ := h
      rw [if_pos ⟨rfl, rfl⟩]
      simpa using hcell
    · rw [if_neg h, Option.isSome_iff_exists]
      constructor
      · rintro ⟨l, hl⟩
        exact ((blankIds_at s.topo d e l).1 hl).2
      · intro hv
        exact ⟨[], (blankIds_at s.topo d e []).2 ⟨rfl, hv⟩⟩
  · rw [setIds_at, if_pos ⟨rfl, rfl⟩, List.range_eq_range']
  · intro d e l hl hne
    rw [setIds_at, if_neg (fun h => hne (by rw [h.1, h.2]))] at hl
    exact ((blankIds_at s.topo d e l).1 hl).1

/-- C54: `DiscontinuousTaylor(cell, degree)`, `degree ≥ 1`: the first dof is the integral over the cell, the others are the partial derivatives
of order 1 to `degree` at the barycentre, all of them on the cell; the element tabulates the basis of `P_degree` dual to these. -/
theorem discontinuous_taylor_spec (hD : D = 1 ∨ D = 2 ∨ D = 3) (s : SimplexCell (Fin D → ℝ)) (hs : ProperSimplex ℝ s) (hnum : NumberedSimplex s)
    (hv : Increasing fun i : Fin (D + 1) => s.v i) (ho : 0 < orientation fun i : Fin (D + 1) => s.v i)
    (gj : ℕ → ℕ → List ℝ) (hgj : NodesOK gj) (k : ℕ) (hk : 1 ≤ k) :
    ∃ el mean rest ids, discontinuousTaylor gj s k = some (el, mean :: rest, ids) ∧ IsNodalScalar k (mean :: rest) el ∧
      AllOnCell s.topo D ids ((k + D).choose D) ∧
      (∀ p : MvPolynomial (Fin D) ℝ, p.totalDegree ≤ k → mean.onField (scalarField p) =
        ∫ x in convexHull ℝ (Set.range fun i : Fin (D + 1) => s.v i), eval x p) ∧
      ∃ αs : List (List ℕ), αs.Nodup ∧ (∀ α, α ∈ αs ↔ α.length = D ∧ 1 ≤ α.sum ∧ α.sum ≤ k) ∧ (αs.map List.sum).Pairwise (· ≤ ·) ∧
        ∀ p : MvPolynomial (Fin D) ℝ, rest.map (fun node => node.onField (scalarField p)) =
          αs.map fun α => eval ((1 / ((D : ℝ) + 1)) • ∑ i : Fin (D + 1), s.v i) (iterDeriv α p) := by
  have hverts := verts_ofFn s hs.2.1 hs.1
  obtain ⟨Q, q1, q2, q3, q4⟩ := simplex_rule_spec hgj hD _ ho (2 * (k + 1)) (by omega)
  have hmid : (1 / (s.verts.length : ℝ)) • s.verts.sum = (1 / ((D : ℝ) + 1)) • ∑ i : Fin (D + 1), s.v i := by
    rw [hverts, List.length_ofFn, List.sum_ofFn]
    push_cast
    rfl
  set x0 : Fin D → ℝ := (1 / ((D : ℝ) + 1)) • ∑ i : Fin (D + 1), s.v i with hx0
  let αs : List (List ℕ) := (List.range' 1 k).flatMap fun j => mis D j
  have hα : ∀ α, α ∈ αs ↔ α.length = D ∧ 1 ≤ α.sum ∧ α.sum ≤ k := by
    intro α
    simp only [αs, List.mem_flatMap, List.mem_range'_1]
    constructor
    · rintro ⟨j, h1, h2⟩
      have := (mis_mem D j (by omega) α).1 h2
      omega
    · rintro ⟨h1, h2, h3⟩
      exact ⟨α.sum, by omega, (mis_mem D _ (by omega) α).2 ⟨h1, rfl⟩⟩
  have hzp : ((zipRule Q.pts Q.wts fun _ => (1 : ℝ)).map fun q => q.1).Nodup := by
    rw [zipRule_points _ _ q3]; exact q4
  have hmean : ∀ p : MvPolynomial (Fin D) ℝ, p.totalDegree ≤ k → (integralMoment (zipRule Q.pts Q.wts fun _ => 1) []).onField (scalarField p) =
        ∫ x in convexHull ℝ (Set.range fun i : Fin (D + 1) => s.v i), eval x p := by
    intro p hp
    rw [moment_scalar _ hzp, quadSum_zip Q.pts Q.wts q3 _ (fun _ => 1) _ (fun _ _ _ => rfl), ← q2.1 p (by omega)]
    simp only [one_mul]
  have hrest : ((List.range' 1 k).flatMap fun j => (mis D j).map fun alpha => (pointDerivative x0 alpha : Functional ℝ (Fin D → ℝ))) =
      αs.map fun alpha => pointDerivative x0 alpha := by
    rw [List.map_flatMap]
  have hvals : ∀ p : MvPolynomial (Fin D) ℝ, (αs.map fun alpha => (pointDerivative x0 alpha : Functional ℝ (Fin D → ℝ))).map
      (fun node => node.onField (scalarField p)) = αs.map fun α => eval x0 (iterDeriv α p) := by
    intro p
    rw [List.map_map]
    exact List.map_congr_left fun α _ => point_deriv_scalar x0 α p
  have hlen : (integralMoment (zipRule Q.pts Q.wts fun _ => 1) [] :: αs.map fun alpha => (pointDerivative x0 alpha : Functional ℝ (Fin D → ℝ))).length =
      (k + D).choose D := by
    rw [List.length_cons, List.length_map]
    exact taylor_count (by omega) k
  obtain ⟨el, e1, e2⟩ := functional_element_spec hD s hs hv k
    (integralMoment (zipRule Q.pts Q.wts fun _ => 1) [] :: αs.map fun alpha => (pointDerivative x0 alpha : Functional ℝ (Fin D → ℝ))) hlen
    (by
      intro l hl
      rcases List.mem_cons.1 hl with rfl | hl
      · exact wf_moment _ hzp _
      · obtain ⟨α, h1, rfl⟩ := List.mem_map.1 hl
        exact wf_deriv _ _ ((hα α).1 h1).1)
    (by
      left
      have h1 : unitAlpha D 0 ∈ αs := by
        have := unitAlpha_sum (⟨0, by omega⟩ : Fin D)
        exact (hα _).2 ⟨unitAlpha_length 0, by rw [this], by rw [this]; exact hk⟩
      refine ⟨_, List.mem_cons_of_mem _ (List.mem_map_of_mem h1), ?_⟩
      rw [order_deriv, unitAlpha_sum (⟨0, by omega⟩ : Fin D)]
      norm_num)
    (by
      intro p hp hz
      have hder : ∀ α : List ℕ, α.length = D → 1 ≤ α.sum → α.sum ≤ k → eval x0 (iterDeriv α p) = 0 := by
        intro α h1 h2 h3
        have := hz _ (List.mem_cons_of_mem _ (List.mem_map_of_mem ((hα α).2 ⟨h1, h2, h3⟩)))
        rwa [point_deriv_scalar] at this
      have hp0 := taylor_const x0 k p hp hder
      have h0 := hz _ (List.mem_cons_self ..)
      rw [hmean p hp] at h0
      have hi := proper_independent hs
      rcases le_total 0 (eval x0 p) with hc | hc
      · exact poly_zero_of_integral _ hi p (fun x _ => by rw [hp0, eval_C]; exact hc) h0
      · have : -p = 0 := poly_zero_of_integral _ hi (-p) (fun x _ => by rw [map_neg, hp0, eval_C]; linarith) (by
          simp only [map_neg, MeasureTheory.integral_neg, h0, neg_zero])
        exact neg_eq_zero.1 this)
  refine ⟨el, _, _, setIds (blankIds s.topo) D 0 (List.range' 0 ((integralMoment (zipRule Q.pts Q.wts fun _ => 1) [] ::
    αs.map fun alpha => (pointDerivative x0 alpha : Functional ℝ (Fin D → ℝ))).length)), ?_, e2, ?_, hmean, αs, ?_, hα, ?_, hvals⟩
  · unfold discontinuousTaylor
    rw [if_neg (by omega)]
    unfold taylorDual
    simp only [hverts, q1, Option.bind_eq_bind, Option.bind_some]
    rw [← hverts, hmid, hrest, e1]
    rfl
  · rw [← hlen]
    exact taylor_ids hnum _
  · rw [List.nodup_flatMap]
    refine ⟨fun j _ => mis_nodup D j, ?_⟩
    refine (List.nodup_range' ..).imp fun {a b} hab => ?_
    intro α h1 h2
    have h3 := (mis_mem D a (by omega) α).1 h1
    have h4 := (mis_mem D b (by omega) α).1 h2
    omega
  · rw [List.pairwise_map, List.pairwise_flatMap]
    refine ⟨fun j _ => ?_, ?_⟩
    · refine List.Pairwise.imp_of_mem (R := fun _ _ => True) (fun {a b} ha hb _ => ?_) (List.pairwise_of_forall fun _ _ => trivial)
      rw [((mis_mem D j (by omega) a).1 ha).2, ((mis_mem D j (by omega) b).1 hb).2]
    · refine (List.pairwise_lt_range' ..).imp fun {a b} hab x hx y hy => ?_
      rw [((mis_mem D a (by omega) x).1 hx).2, ((mis_mem D b (by omega) y).1 hy).2]
      exact hab.le

/-- C54: `DiscontinuousTaylor(cell, 0)` is `P0`: one dof, the value at the barycentre. -/
theorem discontinuous_taylor_zero (hD : D = 1 ∨ D = 2 ∨ D = 3) (s : SimplexCell (Fin D → ℝ)) (hs : ProperSimplex ℝ s)
    (hv : Increasing fun i : Fin (D + 1) => s.v i) (gj : ℕ → ℕ → List ℝ) :
    ∃ el node ids, discontinuousTaylor gj s 0 = some (el, [node], ids) ∧ IsNodalScalar 0 [node] el ∧ AllOnCell s.topo D ids 1 ∧
      ∀ p : MvPolynomial (Fin D) ℝ, node.onField (scalarField p) = eval ((1 / ((D : ℝ) + 1)) • ∑ i : Fin (D + 1), s.v i) p := by
  have hverts := verts_ofFn s hs.2.1 hs.1
  have hmid : (1 / (s.verts.length : ℝ)) • s.verts.sum = (1 / ((D : ℝ) + 1)) • ∑ i : Fin (D + 1), s.v i := by
    rw [hverts, List.length_ofFn, List.sum_ofFn]
    push_cast
    rfl
  obtain ⟨ids, i1, i2⟩ := p0_all_on_cell s.topo hs.2.1.wf D hs.2.2.2
  obtain ⟨el, e1, e2⟩ := functional_element_spec hD s hs hv 0 [pointEvaluation ((1 / ((D : ℝ) + 1)) • ∑ i : Fin (D + 1), s.v i)] (by simp)
    (by
      intro l hl
      rw [List.mem_singleton] at hl
      subst hl
      exact wf_eval _)
    (by
      right
      intro l hl
      rw [List.mem_singleton] at hl
      subst hl
      rfl)
    (by
      intro p hp hz
      have h0 := hz _ (List.mem_singleton.2 rfl)
      rw [point_eval_scalar] at h0
      have := totalDegree_eq_zero_iff_eq_C.1 (Nat.le_zero.1 hp)
      rw [this, eval_C] at h0
      rw [this, h0, C_0])
  refine ⟨el, _, ids, ?_, e2, i2, fun p => point_eval_scalar _ p⟩
  unfold discontinuousTaylor
  rw [if_pos rfl]
  simp only [i1, hmid, e1, Option.bind_eq_bind, Option.bind_some]

/-- The hypotheses are met by the UFC triangle and degree 4: 15 dofs. -/
example : ∃ gj el nodes ids, discontinuousTaylor gj ((ufcTriangle : CellData ℝ).toSimplex 2) 4 = some (el, nodes, ids) ∧ nodes.length = 15 := by
  obtain ⟨gj, hgj⟩ := nodesOK_exists
  obtain ⟨el, mean, rest, ids, h1, ⟨_, _, _, h2, _⟩, -⟩ := discontinuous_taylor_spec (Or.inr (Or.inl rfl)) _ proper_ufcTriangle
    numbered_ufcTriangle (fun h => absurd h (by norm_num))
    (by norm_num [orientation, Matrix.det_fin_two, SimplexCell.v, CellData.toSimplex, ufcTriangle]) gj hgj 4 (by norm_num)
  exact ⟨gj, el, _, ids, h1, h2⟩

end
end FIAT
