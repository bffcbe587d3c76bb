/-
C53: Crouzeix-Raviart elements (FIAT/crouzeix_raviart.py).
-/
import Verif.Lemmas.AffinePoly
import Verif.Lemmas.AnyElement

namespace FIAT
open MvPolynomial
section
variable {D : ℕ}

/-- Loop invariant of the dual set: the keys seen so far have their node and dof. -/
private theorem cr_fold {s : SimplexCell (Fin D → ℝ)} {n : ℕ} (node : ℕ → Functional ℝ (Fin D → ℝ)) (f : ℕ → Option (List (Fin D → ℝ)))
    (es : List (ℕ × List ℕ)) (hnd : (es.map Prod.fst).Nodup) (hlt : ∀ q ∈ es, q.1 < n)
    (hf : ∀ q ∈ es, ∃ pts x, f q.1 = some pts ∧ pts.head? = some x ∧ node q.1 = pointEvaluation x)
    (r : List (Option (Functional ℝ (Fin D → ℝ))) × EntityIds ℕ) (hl : r.1.length = n) (S : List ℕ)
    (h1 : ∀ i < n, ∀ (h : i < r.1.length), (i ∈ S → r.1[i] = some (node i)))
    (h2 : ∀ d e, r.2.at? d e = if d = D - 1 ∧ e ∈ S then some [e] else (blankIds s.topo).at? d e)
    (hS : ∀ q ∈ es, q.1 ∉ S) :
    ∃ r', es.foldlM (fun (r : List (Option (Functional ℝ (Fin D → ℝ))) × EntityIds ℕ) (q : ℕ × List ℕ) =>
      (f q.1).bind fun pts => pts.head?.bind fun x =>
        if q.1 < r.1.length then
          some (r.1.set q.1 (some (pointEvaluation x)), setIds r.2 (D - 1) q.1 ((r.2.at? (D - 1) q.1).getD [] ++ [q.1]))
        else none) r = some r' ∧ r'.1.length = n ∧
      (∀ i < n, ∀ (h : i < r'.1.length), i ∈ S ++ es.map Prod.fst → r'.1[i] = some (node i)) ∧
      ∀ d e, r'.2.at? d e = if d = D - 1 ∧ e ∈ S ++ es.map Prod.fst then some [e] else (blankIds s.topo).at? d e := by
  induction es generalizing r S with
  | nil => exact ⟨r, rfl, hl, fun i hi h hs => h1 i hi h (by simpa using hs), fun d e => by simpa using h2 d e⟩
  | cons q es ih =>
    obtain ⟨pts, x, p1, p2, p3⟩ := hf q (by simp)
    have hq := hlt q (by simp)
    rw [List.map_cons, List.nodup_cons] at hnd
    obtain ⟨r', a1, a2, a3, a4⟩ := ih hnd.2 (fun q' hq' => hlt q' (by simp [hq'])) (fun q' hq' => hf q' (by simp [hq']))
      (r.1.set q.1 (some (pointEvaluation x)), setIds r.2 (D - 1) q.1 ((r.2.at? (D - 1) q.1).getD [] ++ [q.1])) (by simpa using hl)
      (S ++ [q.1]) (by
        intro i hi h hs
        simp only [List.getElem_set]
        by_cases hiq : q.1 = i
        · rw [if_pos hiq, ← p3, hiq]
        · rw [if_neg hiq]
          exact h1 i hi (by omega) ((List.mem_append.1 hs).resolve_right fun h => hiq (List.mem_singleton.1 h).symm)) (by
        intro d e
        simp only [setIds_at, h2]
        have hnS := hS q (by simp)
        by_cases hde : D - 1 = d ∧ q.1 = e
        · obtain ⟨rfl, rfl⟩ := hde
          rw [if_pos ⟨rfl, rfl⟩, if_neg (by tauto), if_pos ⟨rfl, by simp⟩]
          congr 1
          cases hb : (blankIds s.topo).at? (D - 1) q.1 with
          | none => rfl
          | some l => rw [((blankIds_at s.topo _ _ l).1 hb).1]; rfl
        · rw [if_neg hde]
          by_cases hS' : d = D - 1 ∧ e ∈ S
          · rw [if_pos hS', if_pos ⟨hS'.1, List.mem_append_left _ hS'.2⟩]
          · rw [if_neg hS', if_neg]
            rintro ⟨h3, h4⟩
            rcases List.mem_append.1 h4 with h4 | h4
            · exact hS' ⟨h3, h4⟩
            · exact hde ⟨h3.symm, (List.mem_singleton.1 h4).symm⟩) (by
        intro q' hq' hc
        rcases List.mem_append.1 hc with hc | hc
        · exact hS q' (by simp [hq']) hc
        · exact hnd.1 ((List.mem_singleton.1 hc) ▸ List.mem_map_of_mem hq'))
    refine ⟨r', ?_, a2, ?_, ?_⟩
    · rw [List.foldlM_cons, p1, Option.bind_some, p2, Option.bind_some, if_pos (by omega)]
      exact a1
    · intro i hi h hs
      exact a3 i hi h (by simpa using hs)
    · intro d e
      rw [a4 d e, List.append_assoc]; rfl

theorem cr_dual_spec (hD : 1 ≤ D) {s : SimplexCell (Fin D → ℝ)} (hs : ProperSimplex ℝ s) (hnum : NumberedSimplex s) :
    ∃ nodes ids, crDual s = some (nodes, ids) ∧ nodes.length = D + 1 ∧
      (∀ e t, HasEntity s.topo (D - 1) e t → nodes[e]? = some (pointEvaluation ((1 / (D : ℝ)) • (t.map s.v).sum))) ∧
      ∀ d e, ids.at? d e = if d = D - 1 ∧ e < D + 1 then some [e] else (blankIds s.topo).at? d e := by
  obtain ⟨es, h1, h2, h3, h4, -⟩ := sorted_keys hnum (d := D - 1) (by omega)
  have hc : (D + 1).choose (D - 1 + 1) = D + 1 := by rw [Nat.sub_add_cancel hD]; simp
  rw [hc] at h2 h4
  have hent : ∀ e, ∃ node : Functional ℝ (Fin D → ℝ), ∀ t, HasEntity s.topo (D - 1) e t → node = pointEvaluation ((1 / (D : ℝ)) • (t.map s.v).sum) ∧
      makePoints ℝ s (D - 1) e D = some [(1 / (D : ℝ)) • (t.map s.v).sum] := by
    intro e
    by_cases he : ∃ t, HasEntity s.topo (D - 1) e t
    · obtain ⟨t, ht⟩ := he
      refine ⟨pointEvaluation ((1 / (D : ℝ)) • (t.map s.v).sum), fun t' ht' => ?_⟩
      have htt : t = t' := by
        obtain ⟨es1, k1, k2⟩ := ht
        obtain ⟨es2, k3, k4⟩ := ht'
        rw [k1, Option.some.injEq] at k3
        subst k3
        rw [k2, Option.some.injEq] at k4
        exact k4
      subst htt
      have := centroid_points hs ht
      rw [Nat.sub_add_cancel hD, show (((D - 1 : ℕ) : ℝ) + 1) = D by
        rw [← Nat.cast_add_one, Nat.sub_add_cancel hD]] at this
      exact ⟨rfl, this⟩
    · exact ⟨pointEvaluation 0, fun t ht => absurd ⟨t, ht⟩ he⟩
  choose node hnode using hent
  have hE : ∀ e < D + 1, ∃ t, HasEntity s.topo (D - 1) e t := fun e he => ((hnum.1 (D - 1) (by omega)).2 e).2 (by rw [hc]; exact he)
  obtain ⟨r, a1, a2, a3, a4⟩ := cr_fold (s := s) (n := D + 1) node (fun i => makePoints ℝ s (D - 1) i D) es h3
    (fun q hq => (h4 q.1).1 (List.mem_map_of_mem hq)) (by
      intro q hq
      obtain ⟨t, ht⟩ := hE q.1 ((h4 q.1).1 (List.mem_map_of_mem hq))
      obtain ⟨k1, k2⟩ := hnode q.1 t ht
      exact ⟨_, _, k2, rfl, k1⟩)
    (List.replicate es.length none, blankIds s.topo) (by simp [h2]) [] (by simp) (by simp) (by simp)
  have hr : r.1 = (List.range (D + 1)).map fun i => some (node i) := by
    apply List.ext_getElem
    · simp [a2]
    · intro i k1 k2
      have hi : i < D + 1 := by omega
      rw [a3 i hi k1 (by rw [List.nil_append]; exact (h4 i).2 hi)]
      simp
  refine ⟨(List.range (D + 1)).map node, r.2, ?_, by simp, ?_, ?_⟩
  · unfold crDual
    have a1' : es.foldlM (fun (r : List (Option (Functional ℝ (Fin D → ℝ))) × EntityIds ℕ) (q : ℕ × List ℕ) =>
      (makePoints ℝ s (D - 1) q.1 D).bind fun pts => pts.head?.bind fun x =>
        if q.1 < r.1.length then
          some (r.1.set q.1 (some (pointEvaluation x)), setIds r.2 (D - 1) q.1 ((r.2.at? (D - 1) q.1).getD [] ++ [q.1]))
        else none) (List.replicate es.length none, blankIds s.topo) = some r := a1
    simp only [h1, a1', Option.bind_eq_bind, Option.bind_some, hr]
    rw [List.mapM_map]
    rw [mapM_some_map _ (id ∘ fun i => some (node i)) node fun _ _ => rfl]
    rfl
  · intro e t ht
    have he : e < D + 1 := by
      have := ((hnum.1 (D - 1) (by omega)).2 e).1 ⟨t, ht⟩
      rwa [hc] at this
    rw [List.getElem?_map, List.getElem?_range he, Option.map_some, (hnode e t ht).1]
  · intro d e
    rw [a4, List.nil_append]
    exact if_congr (and_congr_right fun _ => h4 e) rfl rfl

/-- C53: `CrouzeixRaviart(cell, 1)` on an interval, triangle or tetrahedron: dof number `i` is the value at the barycentre of facet `i`;
the element tabulates the basis of `P_1` dual to these values. -/
theorem crouzeix_raviart_spec (hD : D = 1 ∨ D = 2 ∨ D = 3) (s : SimplexCell (Fin D → ℝ)) (hs : ProperSimplex ℝ s) (hnum : NumberedSimplex s)
    (hv : Increasing fun i : Fin (D + 1) => s.v i) :
    ∃ el nodes ids, crouzeixRaviart s 1 = some (el, nodes, ids) ∧ IsNodalScalar 1 nodes el ∧ ProperDofs s nodes ids ∧
      (∀ e t, HasEntity s.topo (D - 1) e t → ids.at? (D - 1) e = some [e] ∧
        DofsOf nodes ids (D - 1) e fun p => [eval ((1 / (D : ℝ)) • (t.map s.v).sum) p]) ∧
      ∀ d e t, HasEntity s.topo d e t → d ≠ D - 1 → ids.at? d e = some [] := by
  obtain ⟨nodes, ids, h1, h2, h3, h4⟩ := cr_dual_spec (by omega) hs hnum
  have hc : (D + 1).choose (D - 1 + 1) = D + 1 := by rw [Nat.sub_add_cancel (by omega)]; simp
  have hE : ∀ e, (∃ t, HasEntity s.topo (D - 1) e t) ↔ e < D + 1 := fun e => by
    rw [(hnum.1 (D - 1) (by omega)).2 e, hc]
  have hall : ∀ l ∈ nodes, ∃ x, l = pointEvaluation x := by
    intro l hl
    obtain ⟨i, hi, rfl⟩ := List.getElem_of_mem hl
    obtain ⟨t, ht⟩ := (hE i).2 (by omega)
    have := h3 i t ht
    rw [List.getElem?_eq_getElem hi, Option.some.injEq] at this
    exact ⟨_, this⟩
  obtain ⟨el, e1, e2⟩ := functional_element_spec hD s hs hv 1 nodes (by rw [h2]; rcases hD with rfl | rfl | rfl <;> rfl)
    (by
      intro l hl
      obtain ⟨x, rfl⟩ := hall l hl
      exact wf_eval _)
    (by
      right
      intro l hl
      obtain ⟨x, rfl⟩ := hall l hl
      rfl)
    (by
      intro p hp hz
      refine affine_zero_of_facets (by omega) hs p hp fun e t ht => ?_
      have := hz _ (List.mem_of_getElem? (h3 e t ht))
      rwa [point_eval_scalar] at this)
  have hfacet : ∀ e t, HasEntity s.topo (D - 1) e t → ids.at? (D - 1) e = some [e] := by
    intro e t ht
    rw [h4, if_pos ⟨rfl, (hE e).1 ⟨t, ht⟩⟩]
  have hother : ∀ d e, ¬ (d = D - 1 ∧ e < D + 1) → ∀ l, ids.at? d e = some l → l = [] := by
    intro d e hn l hl
    rw [h4, if_neg hn] at hl
    exact ((blankIds_at s.topo d e l).1 hl).1
  refine ⟨el, nodes, ids, ?_, e2, ⟨⟨?_, ?_⟩, ?_⟩, ?_, ?_⟩
  · unfold crouzeixRaviart
    simp only [h1, e1, ne_eq, not_true_eq_false, if_false, Option.bind_eq_bind, Option.bind_some]
  · intro d e l hl
    by_cases hd : d = D - 1 ∧ e < D + 1
    · rw [h4, if_pos hd, Option.some.injEq] at hl
      subst hl
      have := hd.2
      simp [h2]; omega
    · rw [hother d e hd l hl]; simp
  · intro i hi
    rw [h2] at hi
    refine ⟨(D - 1, i), ⟨[i], by rw [h4, if_pos ⟨rfl, hi⟩], by simp⟩, ?_⟩
    rintro ⟨d, e⟩ ⟨l, hl, hil⟩
    by_cases hd : d = D - 1 ∧ e < D + 1
    · simp only [h4, if_pos hd, Option.some.injEq] at hl
      subst hl
      rw [List.mem_singleton] at hil
      rw [hd.1, hil]
    · rw [hother d e hd l hl] at hil; simp at hil
  · intro d e
    rw [h4]
    by_cases hd : d = D - 1 ∧ e < D + 1
    · rw [if_pos hd]
      simp only [Option.isSome_some, true_iff]
      rw [hd.1]
      exact (hE e).2 hd.2
    · rw [if_neg hd, Option.isSome_iff_exists]
      constructor
      · rintro ⟨l, hl⟩
        exact ((blankIds_at s.topo d e l).1 hl).2
      · intro hv
        exact ⟨[], (blankIds_at s.topo d e []).2 ⟨rfl, hv⟩⟩
  · intro e t ht
    refine ⟨hfacet e t ht, [e], hfacet e t ht, fun p => ?_⟩
    simp only [List.map_cons, List.map_nil, h3 e t ht, Option.map_some, point_eval_scalar]
  · intro d e t ht hd
    rw [h4, if_neg (fun h => hd h.1)]
    exact (blankIds_at s.topo d e []).2 ⟨rfl, t, ht⟩

/-- C53: any other degree is rejected. -/
theorem crouzeix_raviart_degree (s : SimplexCell (Fin D → ℝ)) (degree : ℕ) (h : degree ≠ 1) : crouzeixRaviart s degree = none := if_pos h

/-- C53: the facet dof of an affine function is the mean of its vertex values on the facet. -/
theorem crouzeix_raviart_mean (s : SimplexCell (Fin D → ℝ)) (hs : ProperSimplex ℝ s) (hD : 1 ≤ D) (e : ℕ) (t : List ℕ)
    (h : HasEntity s.topo (D - 1) e t) (p : MvPolynomial (Fin D) ℝ) (hp : p.totalDegree ≤ 1) :
    eval ((1 / (D : ℝ)) • (t.map s.v).sum) p = (t.map fun a => eval (s.v a) p).sum / D := by
  obtain ⟨h1, h2, -⟩ := hs.2.1.entity _ _ _ h
  rw [Nat.sub_add_cancel hD] at h2
  have hD0 : (D : ℝ) ≠ 0 := by positivity
  have e1 : (t.map s.v).sum = ∑ i : Fin t.length, s.v t[i] := by
    rw [← List.sum_ofFn]; congr 1; apply List.ext_getElem <;> simp
  have e2 : (t.map fun a => eval (s.v a) p).sum = ∑ i : Fin t.length, eval (s.v t[i]) p := by
    rw [← List.sum_ofFn]; congr 1; apply List.ext_getElem <;> simp
  rw [e1, e2, Finset.smul_sum, affine_comb p hp (fun _ : Fin t.length => 1 / (D : ℝ)) _ (by simp [h2, hD0]), ← Finset.mul_sum]
  ring

/-- The hypotheses are met by the UFC tetrahedron. -/
example : ∃ el nodes ids, crouzeixRaviart ((ufcTetrahedron : CellData ℝ).toSimplex 3) 1 = some (el, nodes, ids) ∧ nodes.length = 4 := by
  obtain ⟨el, nodes, ids, h1, ⟨_, _, _, h2, _⟩, -⟩ := crouzeix_raviart_spec (Or.inr (Or.inr rfl)) _ proper_ufcTetrahedron
    numbered_ufcTetrahedron (fun h => absurd h (by norm_num))
  exact ⟨el, nodes, ids, h1, h2⟩

end
end FIAT
