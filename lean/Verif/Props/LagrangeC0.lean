/-
C75: the Lagrange element on a UFC simplex is a continuous element.
-/
import Verif.Props.ProductElement

namespace FIAT
open MvPolynomial
section
variable {D : ℕ} {c : CellData ℝ}

/-- The map from reference coordinates of entity `(d, e)` of a UFC simplex, `get_entity_transform(d, e)`. -/
noncomputable def simplexEmb (s : SimplexCell (Fin D → ℝ)) : Key → ℕ → List ℝ → Fin D → ℝ
  | .int d, e, p => (simplexTransform true s d e).elim 0 fun F => F (vecOf p)
  | _, _, _ => 0

theorem tuple_hull (hs : ProperSimplex ℝ (c.toSimplex D)) {d e : ℕ} {t : List ℕ} (ht : HasEntity (c.toSimplex D).topo d e t)
    (w : ℕ → ℝ) (h0 : ∀ j, j ∉ t → w j = 0) (h1 : ∑ j ∈ Finset.range (D + 1), w j = 1) {x : Fin D → ℝ}
    (hx : x = ∑ j ∈ Finset.range (D + 1), w j • (c.toSimplex D).v j) : OnHull c t x := by
  obtain ⟨nd, -, hlt⟩ := hs.2.1.entity _ _ _ ht
  rw [hs.1] at hlt
  have hsub : t.toFinset ⊆ Finset.range (D + 1) := fun a ha => Finset.mem_range.2 (hlt a (List.mem_toFinset.1 ha))
  refine ⟨w, ?_, fun i => ?_⟩
  · rw [← List.sum_toFinset _ nd, ← h1]
    exact Finset.sum_subset hsub fun a _ ha => h0 a fun h => ha (List.mem_toFinset.2 h)
  · rw [← List.sum_toFinset _ nd, hx, Finset.sum_apply]
    simp only [Pi.smul_apply, smul_eq_mul, coord_simplex]
    symm
    exact Finset.sum_subset hsub fun a _ ha => by rw [h0 a fun h => ha (List.mem_toFinset.2 h), zero_mul]

theorem cell_tuple (hs : ProperSimplex ℝ (c.toSimplex D)) {e : ℕ} {t : List ℕ} (ht : HasEntity (c.toSimplex D).topo D e t) (j : ℕ)
    (hj : j < D + 1) : j ∈ t := by
  obtain ⟨nd, hl, hlt⟩ := hs.2.1.entity _ _ _ ht
  rw [hs.1] at hlt
  have h := Finset.eq_of_subset_of_card_le (s := t.toFinset) (t := Finset.range (D + 1))
    (fun a ha => Finset.mem_range.2 (hlt a (List.mem_toFinset.1 ha))) (by rw [List.toFinset_card_of_nodup nd, hl, Finset.card_range])
  rw [← List.mem_toFinset, h]
  exact Finset.mem_range.2 hj

/-- Every point of the space is on the hull of the cell. -/
theorem cell_hull (hs : ProperSimplex ℝ (c.toSimplex D)) {e : ℕ} {t : List ℕ} (ht : HasEntity (c.toSimplex D).topo D e t)
    (x : Fin D → ℝ) : OnHull c t x := by
  obtain ⟨g, b, hb⟩ := baryForms_exist _ (proper_independent hs)
  refine tuple_hull hs ht (fun j => if h : j < D + 1 then eval x (linForm (g ⟨j, h⟩) (b ⟨j, h⟩)) else 0) (fun j hj => dif_neg
    fun h => hj (cell_tuple hs ht j h)) ?_ ?_
  · rw [Finset.sum_range, ← hb.sum_one x]
    exact Finset.sum_congr rfl fun i _ => by rw [dif_pos i.2]
  · rw [Finset.sum_range]
    conv_lhs => rw [← hb.comb x]
    exact Finset.sum_congr rfl fun i _ => by rw [dif_pos i.2]

theorem entMap_hull (hs : ProperSimplex ℝ (c.toSimplex D)) {d e : ℕ} (τ : Fin (d + 1) → ℕ)
    (ht : HasEntity (c.toSimplex D).topo d e (List.ofFn τ)) (y : Fin d → ℝ) :
    OnHull c (List.ofFn τ) (entMap (fun j => (c.toSimplex D).v (τ j)) y) := by
  obtain ⟨τ', inj, t2, t3, -⟩ := entity_tuple hs ht
  obtain rfl := ofFn_inj' t3
  have hmap : ∀ F : ℕ → ℝ, ((List.ofFn τ).map F).sum = ∑ j, F (τ j) := by
    intro F
    rw [List.map_ofFn, List.sum_ofFn]
    rfl
  set w : Fin (d + 1) → ℝ := Fin.cons (1 - ∑ j, y j) y with hw
  have hws : ∑ j, w j = 1 := by rw [hw, Fin.sum_univ_succ]; simp
  refine ⟨fun a => ∑ j, if τ j = a then w j else 0, ?_, fun i => ?_⟩
  · rw [hmap, ← hws]
    refine Finset.sum_congr rfl fun j _ => ?_
    rw [Finset.sum_eq_single j (fun b _ hb => if_neg fun h => hb (inj h)) (fun h => absurd (Finset.mem_univ _) h), if_pos rfl]
  · rw [hmap]
    have : ∀ j, (∑ k, if τ k = τ j then w k else 0) = w j := fun j => by
      rw [Finset.sum_eq_single j (fun b _ hb => if_neg fun h => hb (inj h)) (fun h => absurd (Finset.mem_univ _) h), if_pos rfl]
    simp only [this]
    rw [Fin.sum_univ_succ, hw]
    simp only [Fin.cons_zero, Fin.cons_succ, entMap, Pi.add_apply, Finset.sum_apply, Pi.smul_apply, Pi.sub_apply, smul_eq_mul,
      coord_simplex, mul_sub, Finset.sum_sub_distrib, ← Finset.sum_mul]
    ring

/-- Specification: the dofs of entity `(d, e)` are, in the order of `entity_dofs`, the evaluations at the images of the reference points
`P d`, which do not depend on `e`. -/
def DofsPlaced (E : TabElem ℝ ℝ) (ids : EntityIds Key) (nodes : List (List ℝ)) (emb : Key → ℕ → List ℝ → Fin E.sd → ℝ)
    (P : Key → List (List ℝ)) : Prop :=
  (∀ d, ∀ p ∈ P d, p.length = d.tupleSum) ∧
  ∀ d e t l, HasEntity E.cell.topo d e t → ids.at? d e = some l →
    l.map (fun i => (nodes[i]?).map (vecOf : List ℝ → Fin E.sd → ℝ)) = (P d).map fun p => some (emb d e p)

/-- The reference points of a Lagrange element. -/
noncomputable def lagrangePlaces (s : SimplexCell (Fin D → ℝ)) (k : ℕ) : Key → List (List ℝ)
  | .int d => if d = 0 then [[]] else if d = D then ((makePoints ℝ s D 0 k).getD []).map List.ofFn else (refLattice d k).map List.ofFn
  | _ => []

/-- C75: `Lagrange(cell, k)`, `k ≥ 1`, on a UFC interval, triangle or tetrahedron is a continuous element with basis functions of degree
at most `k`, which span the polynomials of degree `k`. -/
theorem lagrange_c0_element (hD : D = 1 ∨ D = 2 ∨ D = 3) (gc : GoodCell c) (hc : IntKeys c.topo) (hdim : c.HasDim D)
    (hs : ProperSimplex ℝ (c.toSimplex D)) (hv : Increasing fun i : Fin (D + 1) => (c.toSimplex D).v i) (k : ℕ) (hk : 1 ≤ k) :
    ∃ (el : PolySet ℝ (Fin D → ℝ) ((k + D).choose D) ((k + D).choose D) Unit) (ids : EntityIds ℕ) (nodes : List (Fin D → ℝ))
      (φ : ℕ → MvPolynomial (Fin D) ℝ), lagrangeElement (c.toSimplex D) k = some (el, ids) ∧
      lagrangeDual ℝ (c.toSimplex D) k = some (nodes, ids) ∧ (∀ i, (φ i).totalDegree ≤ k) ∧
      (∀ p : MvPolynomial (Fin D) ℝ, p.totalDegree ≤ k → ∃ u : ℕ → ℝ, p = ∑ i ∈ Finset.range ((k + D).choose D), C (u i) * φ i) ∧
      IsC0Element (ciarletTab true c el) (intIds ids) (nodes.map List.ofFn) φ (simplexEmb (c.toSimplex D)) ∧
      DofsPlaced (ciarletTab true c el) (intIds ids) (nodes.map List.ofFn) (simplexEmb (c.toSimplex D))
        (lagrangePlaces (c.toSimplex D) k) := by
  obtain ⟨el, ids, nodes, h1, h2, ℓ, h3, h4, h5⟩ := lagrange_element_spec hD _ hs hv k hk
  have hlen : nodes.length = (k + D).choose D := by
    obtain ⟨nodes', ids', h6, h7⟩ := lagrange_num_nodes (K := ℝ) _ hs.2.1 hs.2.2.1 k hk (by rw [hs.1]; omega)
    rw [h2, Option.some.injEq, Prod.mk.injEq] at h6
    rw [h6.1, h7, hs.1]
  set φ : ℕ → MvPolynomial (Fin D) ℝ := fun i => if h : i < (k + D).choose D then ℓ ⟨i, h⟩ else 0 with hφ
  have hdeg : ∀ i, (φ i).totalDegree ≤ k := by
    intro i
    rw [hφ]
    beta_reduce
    split_ifs
    · exact h3 _
    · simp
  have hnod : ∀ (i : ℕ) x, nodes[i]? = some x → ∀ j < (k + D).choose D, eval x (φ j) = if i = j then 1 else 0 := by
    intro i x hx j hj
    rw [hφ]
    beta_reduce
    rw [dif_pos hj]
    exact h4 i x hx ⟨j, hj⟩
  have hvec : ∀ x : Fin D → ℝ, vecOf (List.ofFn x) = x := by
    intro x
    funext i
    simp [vecOf]
  obtain ⟨p1, p2, -⟩ := lagrange_dofs_partition _ hs.2.1 k hk nodes ids h2
  obtain ⟨o1, o2⟩ := lagrange_ids_order gc hc hs.2.1.1 h2
  have hkey : ∀ {key : Key} {e : ℕ} {t : List ℕ}, HasEntity c.topo key e t → ∃ d, key = .int d ∧ d ≤ D ∧
      HasEntity (c.toSimplex D).topo d e t := by
    intro key e t ht
    obtain ⟨es, m1, -⟩ := ht.mem
    obtain ⟨d, hd⟩ := hc _ m1
    simp only at hd
    subst hd
    have ht' := (toSimplex_entity hc D d e t).2 ht
    refine ⟨d, rfl, ?_, ht'⟩
    obtain ⟨es', q1, -⟩ := ht'
    exact hs.2.2.2.2.2 d (Dict.get?_isSome_iff.1 (by rw [q1]; rfl))
  have htrans : ∀ {d e : ℕ} {t : List ℕ}, d ≤ D → HasEntity (c.toSimplex D).topo d e t →
      ∃ F : (Fin d → ℝ) → Fin D → ℝ, simplexTransform true (c.toSimplex D) d e = some F ∧ ∀ y, OnHull c t (F y) := by
    intro d e t hd ht
    rcases Nat.lt_or_ge d D with h | h
    · obtain ⟨τ, -, -, rfl, -⟩ := entity_tuple hs ht
      exact ⟨_, entity_transform_ufc hs h τ ht, entMap_hull hs τ ht⟩
    · obtain rfl : d = D := by omega
      have he := hs.2.2.2.2.1 e t ht
      subst he
      exact ⟨id, by rw [entity_transform_cell true _ (by omega), if_pos rfl], fun y => cell_hull hs ht y⟩
  refine ⟨el, ids, nodes, φ, h1, h2, hdeg, fun p hp => ?_, ⟨gc, hdim, rfl, ?_, o1, o2, intIds_same hc p1, ?_, ⟨?_, ?_⟩, ?_, ?_, ?_, ?_, ?_⟩,
    ?_, ?_⟩
  · have hget : ∀ i : ℕ, ∃ x, i < (k + D).choose D → nodes[i]? = some x := by
      intro i
      by_cases hi : i < (k + D).choose D
      · exact ⟨nodes[i]'(by omega), fun _ => List.getElem?_eq_getElem (by omega)⟩
      · exact ⟨0, fun h => absurd h hi⟩
    choose X hX using hget
    refine ⟨fun i => eval (X i) p, ?_⟩
    rw [← sub_eq_zero]
    refine lagrange_unisolvent _ hs.1 hs.2.1 hs.2.2.1 (by omega) k hk nodes ids h2 _ ?_ ?_
    · refine (totalDegree_sub _ _).trans (max_le hp (totalDegree_finsetSum_le fun i _ => ?_))
      refine (totalDegree_mul _ _).trans ?_
      rw [totalDegree_C, zero_add]
      exact hdeg i
    · intro x hx
      obtain ⟨i, hi, rfl⟩ := List.getElem_of_mem hx
      have hxi : nodes[i]? = some nodes[i] := List.getElem?_eq_getElem hi
      have hi' : i < (k + D).choose D := by omega
      rw [map_sub, map_sum, Finset.sum_eq_single i]
      · rw [map_mul, eval_C, hnod i _ hxi i hi', if_pos rfl, mul_one]
        have := hX i hi'
        rw [hxi, Option.some.injEq] at this
        beta_reduce
        rw [← this, sub_self]
      · intro j hj hji
        rw [map_mul, hnod i _ hxi j (Finset.mem_range.1 hj), if_neg (Ne.symm hji), mul_zero]
      · intro h; exact absurd (Finset.mem_range.2 hi') h
  · change 1 ≤ D; omega
  · change DofsPartition (intIds ids) ((k + D).choose D)
    rw [← hlen]
    exact intIds_partition p2
  · rw [List.length_map, hlen]; rfl
  · intro p hp
    obtain ⟨x, -, rfl⟩ := List.mem_map.1 hp
    exact List.length_ofFn ..
  · intro i p hp j hj
    rw [List.getElem?_map, Option.map_eq_some_iff] at hp
    obtain ⟨x, hx, rfl⟩ := hp
    change eval (vecOf (List.ofFn x) : Fin D → ℝ) (φ j) = _
    rw [hvec]
    exact hnod i x hx j hj
  · intro key e t l ht hl i hi p hp
    obtain ⟨d, rfl, hd, ht'⟩ := hkey ht
    rw [intIds_at] at hl
    obtain ⟨x, hx, w, w1, w2, w3, w4⟩ := lagrange_node_interior (K := ℝ) _ hs.2.1 k hk nodes ids h2 ht' hl hi
    rw [hs.1] at w3 w4
    rw [List.getElem?_map, hx, Option.map_some, Option.some.injEq] at hp
    subst hp
    change OnHull c t (vecOf (List.ofFn x) : Fin D → ℝ)
    rw [hvec]
    exact tuple_hull hs ht' w w2 w3 w4
  · change TraceDofs c D ((k + D).choose D) (intIds ids) φ
    rw [← hlen]
    refine lagrange_trace_dofs hc hs hk h2 (fun i _ => hdeg i) (fun i x hx j hj => hnod i x hx j (by omega))
  · intro key e t p ht
    obtain ⟨d, rfl, hd, ht'⟩ := hkey ht
    obtain ⟨F, f1, f2⟩ := htrans hd ht'
    change OnHull c t ((simplexTransform true (c.toSimplex D) d e).elim 0 fun F => F (vecOf p))
    rw [f1]
    exact f2 _
  · intro key e t ht order pts hpts
    obtain ⟨d, rfl, hd, ht'⟩ := hkey ht
    obtain ⟨F, f1, f2⟩ := htrans hd ht'
    obtain ⟨res, r1, r2, r3⟩ := h5 ((pts.map fun p => (vecOf p : Fin d → ℝ)).map F) order
    have hres : (ciarletTab true c el).tabulate order pts (.int d, e) = some (res.map fun q =>
        (q.1, fun (x _ j : ℕ) => if h : x < (k + D).choose D then q.2 ⟨x, h⟩ () j else 0)) := by
      change (tabulateOn true (c.toSimplex D) el order d e (pts.map fun p => (vecOf p : Fin d → ℝ))).map _ = _
      unfold tabulateOn
      rw [f1, Option.bind_some, r1, Option.map_some]
    have hget : ∀ a, Dict.get? (res.map fun q => (q.1, fun (x _ j : ℕ) => if h : x < (k + D).choose D then q.2 ⟨x, h⟩ () j else 0)) a =
        (Dict.get? res a).map fun q => fun (x _ j : ℕ) => if h : x < (k + D).choose D then q ⟨x, h⟩ () j else 0 := fun a =>
      Dict.get?_map res (fun _ q => fun (x _ j : ℕ) => if h : x < (k + D).choose D then q ⟨x, h⟩ () j else 0) a
    refine ⟨_, hres, fun a => ?_, fun a arr ha x hx j p hp => ?_⟩
    · rw [hget, Option.isSome_map, Dict.get?_isSome_iff]
      exact r2 a
    · rw [hget, Option.map_eq_some_iff] at ha
      obtain ⟨T, hT, rfl⟩ := ha
      change x < (k + D).choose D at hx
      beta_reduce
      rw [dif_pos hx]
      have := r3 a T hT ⟨x, hx⟩ () j (F (vecOf p)) (by rw [List.getElem?_map, List.getElem?_map, hp]; rfl)
      rw [this]
      change _ = eval ((simplexTransform true (c.toSimplex D) d e).elim 0 fun F => F (vecOf p)) _
      rw [f1, hφ]
      beta_reduce
      rw [dif_pos hx]
      rfl
  · intro key p hp
    cases key with
    | int d =>
      change p ∈ (if d = 0 then [[]] else if d = D then ((makePoints ℝ (c.toSimplex D) D 0 k).getD []).map List.ofFn else
        (refLattice d k).map List.ofFn) at hp
      change p.length = d
      split_ifs at hp with h0 h1
      · rw [List.mem_singleton] at hp; rw [hp, h0]; rfl
      · obtain ⟨x, -, rfl⟩ := List.mem_map.1 hp
        rw [List.length_ofFn, h1]
      · obtain ⟨x, -, rfl⟩ := List.mem_map.1 hp
        rw [List.length_ofFn]
    | nil => exact absurd hp List.not_mem_nil
    | cons a b => exact absurd hp List.not_mem_nil
  · intro key e t l ht hl
    obtain ⟨d, rfl, hd, ht'⟩ := hkey ht
    rw [intIds_at] at hl
    have h7 := lagrange_dof_points _ hs.2.1 k hk nodes ids h2 d e l hl
    have h8 : l.map (fun i => ((nodes.map List.ofFn)[i]?).map (vecOf : List ℝ → Fin D → ℝ)) = l.map fun i => nodes[i]? := by
      refine List.map_congr_left fun i _ => ?_
      rw [List.getElem?_map, Option.map_map]
      have : ((vecOf : List ℝ → Fin D → ℝ) ∘ List.ofFn) = id := _root_.funext fun x => hvec x
      rw [this, Option.map_id]
      rfl
    change l.map (fun i => ((nodes.map List.ofFn)[i]?).map (vecOf : List ℝ → Fin D → ℝ)) = _
    rw [h8, h7]
    change _ = (if d = 0 then [[]] else if d = D then ((makePoints ℝ (c.toSimplex D) D 0 k).getD []).map List.ofFn else
        (refLattice d k).map List.ofFn).map fun p => some ((simplexTransform true (c.toSimplex D) d e).elim 0 fun F => F (vecOf p))
    by_cases h0 : d = 0
    · subst h0
      rw [if_pos rfl]
      have h9 := hs.2.1.vertex _ _ ht'
      obtain ⟨τ, -, t2, t3, -⟩ := entity_tuple hs ht'
      have h10 : τ 0 = e := by rw [t3] at h9; simpa using h9
      rw [h9] at ht'
      have := t2 0
      rw [h10] at this
      unfold makePoints simplexTransform
      rw [if_pos rfl, if_pos rfl, vertexOf_spec hs ht']
      have hlt : e < (c.toSimplex D).verts.length := by rw [hs.2.1.nverts, hs.1]; exact this
      rw [List.getElem?_eq_getElem hlt]
      unfold SimplexCell.v
      rw [List.getElem?_eq_getElem hlt]
      rfl
    · rw [if_neg h0]
      by_cases h1 : d = D
      · subst h1
        have he := hs.2.2.2.2.1 e t ht'
        subst he
        rw [if_pos rfl, entity_transform_cell true _ (by omega), if_pos rfl, List.map_map]
        refine List.map_congr_left fun x _ => ?_
        simp only [Function.comp, Option.elim_some, id]
        rw [show (vecOf (List.ofFn x) : Fin d → ℝ) = x from hvec x]
      · rw [if_neg h1]
        obtain ⟨τ, -, -, rfl, t4⟩ := entity_tuple hs ht'
        rw [entity_transform_ufc hs (by omega) τ ht', make_points_ref hs (by omega) (by omega) τ t4, List.map_map]
        rw [Option.getD_some, List.map_map]
        refine List.map_congr_left fun x _ => ?_
        simp only [Function.comp, Option.elim_some]
        congr 2
        funext i
        simp [vecOf]

end
end FIAT
