/-
C56: Hellan-Herrmann-Johnson elements (FIAT/hellan_herrmann_johnson.py).
-/
import Verif.Lemmas.FieldBlocks
import Verif.Lemmas.TriangleDual
import Verif.Props.RTExample

namespace FIAT
open MvPolynomial
section
variable {s : SimplexCell (Fin 2 → ℝ)}

private noncomputable def hhjBlk (s : SimplexCell (Fin 2 → ℝ)) (nrm : ℕ → Option (Fin 2 → ℝ)) (r : ℕ) (x : ℕ × ℕ) :
    List (Functional ℝ (Fin 2 → ℝ)) :=
  if x.1 = 0 then [] else if x.1 = 1 then ((hhjEdge s nrm r x.2).map Prod.snd).getD [] else ((hhjTrig s r 0).map Prod.fst).getD []

private theorem hhj_edge (hs : ProperSimplex ℝ s) (hnum : NumberedSimplex s) {nrm : ℕ → Option (Fin 2 → ℝ)} (r : ℕ) {e : ℕ} {t : List ℕ}
    (h : HasEntity s.topo 1 e t) {n : Fin 2 → ℝ} (hn : nrm e = some n) :
    ∃ pts, makePoints ℝ s 1 e (r + 2) = some pts ∧ pts.length = r + 1 ∧
      hhjBlk s nrm r (1, e) = (pts.map fun pt => pointwiseInnerProduct 2 (vecNat n) (vecNat n) pt) ∧
      hhjEdge s nrm r e = some ((hhjBlk s nrm r (1, e)).length, hhjBlk s nrm r (1, e)) := by
  obtain ⟨pts, p1, -⟩ := make_points_mem (K := ℝ) s hs.2.1 (r + 2) (by omega) h
  have hl := entity_points_length hs hnum le_rfl h (r + 2) (by omega) p1
  have hb : hhjEdge s nrm r e = some (pts.length, pts.map fun pt => pointwiseInnerProduct 2 (vecNat n) (vecNat n) pt) := by
    unfold hhjEdge
    rw [p1, Option.bind_some, hn]; rfl
  have hk : hhjBlk s nrm r (1, e) = pts.map fun pt => pointwiseInnerProduct 2 (vecNat n) (vecNat n) pt := by
    unfold hhjBlk
    rw [if_neg (by norm_num), if_pos rfl, hb]; rfl
  exact ⟨pts, p1, by simpa using hl, hk, by rw [hb, hk, List.length_map]⟩

private theorem hhj_cell (hs : ProperSimplex ℝ s) (hnum : NumberedSimplex s) {nrm : ℕ → Option (Fin 2 → ℝ)} (r : ℕ) :
    ∃ pts, makePoints ℝ s 2 0 (r + 2) = some pts ∧ pts.length = (r + 1).choose 2 ∧
      hhjBlk s nrm r (2, 0) = ([((![1, 0] : Fin 2 → ℝ), (![1, 0] : Fin 2 → ℝ)), (![1, 0], ![0, 1]), (![0, 1], ![0, 1])].flatMap
        fun v => pts.map fun pt => pointwiseInnerProduct 2 (vecNat v.1) (vecNat v.2) pt) ∧
      ∀ o, hhjTrig s r o = some (hhjBlk s nrm r (2, 0), [(0, List.range' o (hhjBlk s nrm r (2, 0)).length)]) := by
  obtain ⟨t, ht, -⟩ := cell_entity hs hnum
  obtain ⟨pts, p1, -⟩ := make_points_mem (K := ℝ) s hs.2.1 (r + 2) (by omega) ht
  have hl := entity_points_length hs hnum (by omega) ht (r + 2) (by omega) p1
  have hk : hhjBlk s nrm r (2, 0) = ([((![1, 0] : Fin 2 → ℝ), (![1, 0] : Fin 2 → ℝ)), (![1, 0], ![0, 1]), (![0, 1], ![0, 1])].flatMap
        fun v => pts.map fun pt => pointwiseInnerProduct 2 (vecNat v.1) (vecNat v.2) pt) := by
    unfold hhjBlk hhjTrig
    rw [if_neg (by norm_num), if_neg (by norm_num), p1]; rfl
  refine ⟨pts, p1, by simpa using hl, hk, fun o => ?_⟩
  have hlen : (hhjBlk s nrm r (2, 0)).length = 3 * pts.length := by
    rw [hk]; simp; ring
  rw [hlen, hk]
  unfold hhjTrig
  rw [p1]; rfl

private theorem hhj_dual_blocks (hs : ProperSimplex ℝ s) (hnum : NumberedSimplex s) {nrm : ℕ → Option (Fin 2 → ℝ)} (hn : FacetNormals s nrm)
    (r : ℕ) : ∃ nodes ids, hhjDual s nrm r = some (nodes, ids) ∧ EntityBlocks s.topo (allEnts 2) (hhjBlk s nrm r) nodes ids := by
  have h0 := noVertex_inv (D := 2) (blk := hhjBlk s nrm r) (fun e => by unfold hhjBlk; rw [if_pos rfl])
  obtain ⟨q, h1, h2⟩ := generate_spec h0 1 3 (entsOf_nodup 2 0) (fun x hx => by rw [(mem_entsOf.1 hx).1]; norm_num) (hhjEdge s nrm r) (by
    intro e he
    obtain ⟨t, ht⟩ := ((hnum.1 1 (by omega)).2 e).2 he
    obtain ⟨n, hn, -⟩ := hn e t ht
    obtain ⟨-, -, -, -, h3⟩ := hhj_edge hs hnum r ht hn
    exact h3)
  have hL : entsOf 2 0 ++ (List.range 3).map (fun e => (1, e)) = (List.range 2).flatMap (entsOf 2) := rfl
  rw [hL] at h2
  obtain ⟨pts, -, -, -, c1⟩ := hhj_cell hs hnum (nrm := nrm) r
  have hcur : q.1 = q.2.1.length := by
    have := h2.cur
    have e2 := h2.nodes
    simp only [List.nil_append] at this e2
    rw [this, (blockLoop_spec _ _ (entsFlat_nodup 2) _).1, e2, List.length_flatMap, Nat.zero_add]
  have hL2 : (List.range 2).flatMap (entsOf 2) ++ [(2, 0)] = allEnts 2 := rfl
  have h3 := h2.last (Dict.put (Dict.put (noVertexDofs 2) 1 q.2.2) 2 [(0, List.range' q.2.1.length (hhjBlk s nrm r (2, 0)).length)]) (by
    intro d e
    rw [EntityIds.at?_put]
    by_cases hd : 2 = d
    · subst hd
      rw [if_pos rfl, if_pos rfl, hcur]
      by_cases he : e = 0
      · subst he; rfl
      · rw [if_neg he]
        have : ¬ 0 = e := fun h => he h.symm
        simp [Dict.get?, this]
    · rw [if_neg hd, if_neg (fun h => hd h.symm)])
  rw [hL2] at h3
  refine ⟨_, _, ?_, h3.blocks hnum (entsFlat_nodup 3) (mem_allEnts hnum)⟩
  unfold hhjDual
  have h1' : generateDofs 3 (hhjEdge s nrm r) 0 = some q := h1
  simp only [h1', Option.bind_eq_bind, Option.bind_some, c1, List.nil_append]

/-- Specification of the Hellan-Herrmann-Johnson dofs of degree `r` on a triangle: on an edge with (scaled) normal `n`, the numbers
`n^T u(x) n` at the `r + 1` points of `make_points(1, e, r + 2)`; in the triangle the entries `u_00`, `u_01`, `u_11` at the points of
`make_points(2, 0, r + 2)`; nothing at the vertices; and the dofs of an edge determine the normal-normal part of a symmetric field of
degree `r` on the edge. -/
structure HHJDofs (s : SimplexCell (Fin 2 → ℝ)) (nrm : ℕ → Option (Fin 2 → ℝ)) (r : ℕ) (nodes : List (Functional ℝ (Fin 2 → ℝ)))
    (ids : EntityIds ℕ) : Prop where
  proper : ProperDofs s nodes ids
  vertex : ∀ e t, HasEntity s.topo 0 e t → ids.at? 0 e = some []
  edge : ∀ e t, HasEntity s.topo 1 e t → ∃ n pts, nrm e = some n ∧ makePoints ℝ s 1 e (r + 2) = some pts ∧ pts.length = r + 1 ∧
    FieldDofsOf comp2 (IsSymField r) nodes ids 1 e fun u => pts.map fun x => quadForm u x n n
  cell : ∃ pts, makePoints ℝ s 2 0 (r + 2) = some pts ∧ pts.length = (r + 1).choose 2 ∧
    FieldDofsOf comp2 (IsSymField r) nodes ids 2 0 fun u =>
      pts.map (fun x => eval x (u (0, 0))) ++ pts.map (fun x => eval x (u (0, 1))) ++ pts.map fun x => eval x (u (1, 1))
  conforming : ∀ e t, HasEntity s.topo 1 e t → ∀ u, IsSymField r u →
    (∀ l, ids.at? 1 e = some l → ∀ i ∈ l, ∀ node, nodes[i]? = some node → node.onField (fieldC comp2 u) = 0) →
    ∀ x, OnEntity s t x → ∀ n, (∀ a ∈ t, ∀ c ∈ t, ∑ j, n j * (s.v a j - s.v c j) = 0) → quadForm u x n n = 0

private theorem quad_e (u : Fin 2 × Fin 2 → MvPolynomial (Fin 2) ℝ) (x : Fin 2 → ℝ) : quadForm u x ![1, 0] ![1, 0] = eval x (u (0, 0)) ∧
    quadForm u x ![1, 0] ![0, 1] = eval x (u (0, 1)) ∧ quadForm u x ![0, 1] ![0, 1] = eval x (u (1, 1)) := by
  simp [quadForm, Fin.sum_univ_two]

/-- C56: `HellanHerrmannJohnson(cell, r)` on a triangle exists for every `r ≥ 0`, tabulates the basis of the symmetric-matrix-valued
polynomials of degree `r` dual to its nodes, and its dofs are those of `HHJDofs`. -/
theorem hhj_spec (s : SimplexCell (Fin 2 → ℝ)) (hs : ProperSimplex ℝ s) (hnum : NumberedSimplex s) (nrm : ℕ → Option (Fin 2 → ℝ))
    (hn : FacetNormals s nrm) (r : ℕ) :
    ∃ el nodes ids, hellanHerrmannJohnson s nrm r = some (el, nodes, ids) ∧ IsNodalC comp2 (IsSymField r) nodes el ∧
      nodes.length = 3 * (r + 2).choose 2 ∧ HHJDofs s nrm r nodes ids := by
  obtain ⟨nodes, ids, h1, h2⟩ := hhj_dual_blocks hs hnum hn r
  obtain ⟨cp, c1, c2, c3, -⟩ := hhj_cell hs hnum (nrm := nrm) r
  have hE : ∀ e t, HasEntity s.topo 1 e t → ∃ n pts, nrm e = some n ∧ makePoints ℝ s 1 e (r + 2) = some pts ∧ pts.length = r + 1 ∧
      hhjBlk s nrm r (1, e) = (pts.map fun pt => pointwiseInnerProduct 2 (vecNat n) (vecNat n) pt) := by
    intro e t ht
    obtain ⟨n, hn, -⟩ := hn e t ht
    obtain ⟨pts, p1, p2, p3, -⟩ := hhj_edge hs hnum r ht hn
    exact ⟨n, pts, hn, p1, p2, p3⟩
  have hC0 : ∀ e, (∃ t, HasEntity s.topo 2 e t) → e = 0 := by
    intro e he
    have := ((hnum.1 2 le_rfl).2 e).1 he
    simpa using this
  have hlen : nodes.length = 3 * (r + 2).choose 2 := by
    rw [ents_length hnum h2 (fun d => if d = 0 then 0 else if d = 1 then r + 1 else 3 * (r + 1).choose 2) (by
      intro d e t h
      have hdD := hnum.2 d e t h
      by_cases hd : d = 0
      · subst hd
        rw [if_pos rfl]
        unfold hhjBlk
        rw [if_pos rfl]; rfl
      · rw [if_neg hd]
        by_cases hd1 : d = 1
        · subst hd1
          obtain ⟨n, pts, -, -, p2, p3⟩ := hE e t h
          rw [if_pos rfl, p3, List.length_map, p2]
        · obtain rfl : d = 2 := by omega
          obtain rfl := hC0 e ⟨t, h⟩
          rw [if_neg hd1, c3]
          simp [c2]
          ring)]
    have e1 : (r + 2).choose 2 = (r + 1).choose 2 + (r + 1) := by rw [Nat.choose_succ_succ' (r + 1) 1]; simp; ring
    rw [e1]
    simp only [Finset.sum_range_succ, Finset.sum_range_zero, if_true, Nat.one_ne_zero, if_false, OfNat.ofNat_ne_zero]
    norm_num [Nat.choose]
    ring
  have hform : ∀ l ∈ nodes, ∃ (v w x : Fin 2 → ℝ), l = pointwiseInnerProduct 2 (vecNat v) (vecNat w) x := by
    intro l hl
    rw [h2.1] at hl
    obtain ⟨⟨d, e⟩, hx, hl⟩ := List.mem_flatMap.1 hl
    obtain ⟨t, ht⟩ := (mem_allEnts hnum _).1 hx
    have hdD := hnum.2 d e t ht
    by_cases hd : d = 0
    · unfold hhjBlk at hl
      rw [if_pos hd] at hl
      simp at hl
    · by_cases hd1 : d = 1
      · subst hd1
        obtain ⟨n, pts, -, -, -, p3⟩ := hE e t ht
        rw [p3] at hl
        obtain ⟨x, -, rfl⟩ := List.mem_map.1 hl
        exact ⟨n, n, x, rfl⟩
      · obtain rfl : d = 2 := by omega
        obtain rfl := hC0 e ⟨t, ht⟩
        rw [c3] at hl
        obtain ⟨v, -, hl⟩ := List.mem_flatMap.1 hl
        obtain ⟨x, -, rfl⟩ := List.mem_map.1 hl
        exact ⟨v.1, v.2, x, rfl⟩
  obtain ⟨g, b, hb⟩ := baryForms_exist _ (proper_independent hs)
  -- the normal-normal part on an edge
  have hedge : ∀ e t, HasEntity s.topo 1 e t → ∀ n, nrm e = some n → ∀ u, IsSymField r u →
      (∀ node ∈ hhjBlk s nrm r (1, e), node.onField (fieldC comp2 u) = 0) → ∀ x, OnEntity s t x → quadForm u x n n = 0 := by
    intro e t ht n hn' u hu hz x hx
    obtain ⟨n', pts, q1, p1, p2, p3⟩ := hE e t ht
    rw [hn', Option.some.injEq] at q1
    subst q1
    rw [p3] at hz
    rw [← eval_biC]
    refine entity_points_quot hs le_rfl ht (r + 2) (by omega) p1 r _ (biC_degree _ _ hu.2) ∅ (by simp) (by simp) (by simp) ?_ x hx
    intro y hy
    rw [eval_biC, ← inner_onField n n y hu.1]
    exact hz _ (List.mem_map_of_mem hy)
  obtain ⟨el, e1, e2⟩ := sym_element_spec (by norm_num) s hs (fun h => absurd h (by norm_num)) r nodes hlen
    (by
      intro l hl
      obtain ⟨v, w, x, rfl⟩ := hform l hl
      exact inner_wf _ _ _)
    (by
      intro l hl
      obtain ⟨v, w, x, rfl⟩ := hform l hl
      rfl)
    (by
      intro u hu hz
      have hz' : ∀ x, (∃ t, HasEntity s.topo x.1 x.2 t) → ∀ node ∈ hhjBlk s nrm r x, node.onField (fieldC comp2 u) = 0 := by
        intro x hx node hnode
        apply hz
        rw [h2.1]
        exact List.mem_flatMap.2 ⟨x, (mem_allEnts hnum x).2 hx, hnode⟩
      obtain ⟨T, t1, t2, t3, t4⟩ := cell_entity hs hnum
      -- every `g_i^T u g_i` is zero
      have hg : ∀ i x, quadForm u x (g i) (g i) = 0 := by
        intro i x
        obtain ⟨e, t, ht, hti⟩ := facet_of_vertex (by omega) hs i
        obtain ⟨n, c, f1, f2, f3⟩ := facet_normal (by omega) hn hb ht hti
        have key : quadForm u x n n = 0 := by
          rw [← eval_biC]
          refine entity_points_quot hs (by omega) t1 (r + 2) (by omega) c1 r _ (biC_degree _ _ hu.2) {(i : ℕ)} ?_ (by simp) ?_ ?_ x (t4 x)
          · intro a ha
            rw [Finset.mem_singleton] at ha
            rw [ha]; exact (t3 i).2 i.2
          · intro a ha t' hn' ht' y hy
            rw [Finset.mem_singleton] at ha
            subst ha
            rw [eval_biC]
            refine hedge e t ht n f1 u hu (hz' (1, e) ⟨t, ht⟩) y ?_
            refine (onEntity_congr s hn' (hs.2.1.entity _ _ _ ht).1 (fun c => ?_) y).1 hy
            rw [ht', t3, hti]
          · intro y hy
            have hzc := hz' (2, 0) ⟨T, t1⟩
            rw [c3] at hzc
            have hm : ∀ v ∈ [((![1, 0] : Fin 2 → ℝ), (![1, 0] : Fin 2 → ℝ)), (![1, 0], ![0, 1]), (![0, 1], ![0, 1])],
                quadForm u y v.1 v.2 = 0 := by
              intro v hv
              rw [← inner_onField v.1 v.2 y hu.1]
              exact hzc _ (List.mem_flatMap.2 ⟨v, hv, List.mem_map_of_mem hy⟩)
            have m1 := hm (![1, 0], ![1, 0]) (by simp)
            have m2 := hm (![1, 0], ![0, 1]) (by simp)
            have m3 := hm (![0, 1], ![0, 1]) (by simp)
            obtain ⟨q1, q2, q3⟩ := quad_e u y
            simp only [q1, q2, q3] at m1 m2 m3
            rw [eval_biC]
            unfold quadForm
            simp only [Fin.sum_univ_two]
            rw [hu.1 1 0, m1, m2, m3]
            ring
        rw [f3, quadForm_smul, quadForm_symm hu.1, quadForm_smul] at key
        rcases mul_eq_zero.1 key with h | h
        · exact absurd h f2
        · exact (mul_eq_zero.1 h).resolve_left f2
      -- hence all `g_i^T u g_j`
      have hgg : ∀ x i j, quadForm u x (g i) (g j) = 0 := by
        intro x
        have hsum := hb.sum_grad
        rw [Fin.sum_univ_three] at hsum
        have key : ∀ a c d : Fin 3, g a + g c + g d = 0 → quadForm u x (g c) (g d) = 0 := by
          intro a c d h
          have h1 := hg a x
          have e1 : g a = (-1 : ℝ) • (g c - (-1 : ℝ) • g d) := by
            have : g a = -(g c + g d) := by rw [eq_neg_iff_add_eq_zero, ← h]; abel
            rw [this]; simp; abel
          rw [e1, quadForm_smul, quadForm_symm hu.1, quadForm_smul, quadForm_sub, quadForm_sub', quadForm_sub', quadForm_smul,
            quadForm_smul, hg c x, quadForm_symm hu.1 x (g c), quadForm_smul, quadForm_symm hu.1 x (g d) ((-1 : ℝ) • g d), quadForm_smul,
            hg d x, quadForm_symm hu.1 x (g d) (g c)] at h1
          linarith
        intro i j
        fin_cases i <;> fin_cases j
        · exact hg 0 x
        · exact key 2 0 1 (by rw [← hsum]; abel)
        · exact key 1 0 2 (by rw [← hsum]; abel)
        · exact key 2 1 0 (by rw [← hsum]; abel)
        · exact hg 1 x
        · exact key 0 1 2 (by rw [← hsum])
        · exact key 1 2 0 (by rw [← hsum]; abel)
        · exact key 0 2 1 (by rw [← hsum]; abel)
        · exact hg 2 x
      funext c
      obtain ⟨i, j⟩ := c
      apply MvPolynomial.funext
      intro x
      rw [Pi.zero_apply, map_zero, ← quadForm_entry]
      rw [hb.unit i, quadForm_sum]
      refine Finset.sum_eq_zero fun a _ => ?_
      rw [hb.unit j, quadForm_symm hu.1, quadForm_sum, Finset.sum_eq_zero fun c _ => ?_, mul_zero]
      rw [hgg, mul_zero])
  refine ⟨el, nodes, ids, ?_, e2, hlen, ⟨⟨h2.layout.1, h2.layout.2.1⟩, ?_, ?_, ?_, ?_⟩⟩
  · unfold hellanHerrmannJohnson
    simp only [h1, e1, Option.bind_eq_bind, Option.bind_some]
  · intro e t h
    obtain ⟨l, l1, l2⟩ := h2.layout.2.2 0 e ((mem_allEnts hnum _).2 ⟨_, h⟩)
    have : hhjBlk s nrm r (0, e) = [] := by unfold hhjBlk; rw [if_pos rfl]
    rw [this] at l2
    have : l = [] := by simpa using l2
    rw [l1, this]
  · intro e t ht
    obtain ⟨n, pts, q1, p1, p2, p3⟩ := hE e t ht
    refine ⟨n, pts, q1, p1, p2, h2.fieldDofsOf ((mem_allEnts hnum _).2 ⟨_, ht⟩) _ fun u hu => ?_⟩
    rw [p3, List.map_map]
    exact List.map_congr_left fun x _ => inner_onField n n x hu.1
  · obtain ⟨T, t1, -⟩ := cell_entity hs hnum
    refine ⟨cp, c1, c2, h2.fieldDofsOf ((mem_allEnts hnum _).2 ⟨_, t1⟩) _ fun u hu => ?_⟩
    rw [c3]
    simp only [List.flatMap_cons, List.flatMap_nil, List.append_nil, List.map_append, List.map_map, Function.comp_def,
      inner_onField _ _ _ hu.1, (quad_e u _).1, (quad_e u _).2.1, (quad_e u _).2.2, List.append_assoc]
  · intro e t ht u hu hz x hx n hno
    obtain ⟨l, l1, l2⟩ := h2.layout.2.2 1 e ((mem_allEnts hnum _).2 ⟨_, ht⟩)
    obtain ⟨i, hti⟩ := facet_opposite (by omega) hs ht
    obtain ⟨m, c, f1, f2, f3⟩ := facet_normal (by omega) hn hb ht hti
    have hm : quadForm u x m m = 0 := by
      refine hedge e t ht m f1 u hu (fun node hnode => ?_) x hx
      have : some node ∈ l.map (fun i => nodes[i]?) := by rw [l2]; exact List.mem_map_of_mem hnode
      obtain ⟨j, hj, hj'⟩ := List.mem_map.1 this
      exact hz l l1 j hj node hj'
    obtain ⟨c', hc'⟩ := hb.normal (by omega) i n fun a d ha hd =>
      hno a ((hti a).2 ⟨a.2, fun h => ha (Fin.ext h)⟩) d ((hti d).2 ⟨d.2, fun h => hd (Fin.ext h)⟩)
    rw [f3, quadForm_smul, quadForm_symm hu.1, quadForm_smul] at hm
    have hgg : quadForm u x (g i) (g i) = 0 := by
      rcases mul_eq_zero.1 hm with h | h
      · exact absurd h f2
      · exact (mul_eq_zero.1 h).resolve_left f2
    rw [hc', quadForm_smul, quadForm_symm hu.1, quadForm_smul, hgg, mul_zero, mul_zero]

/-- The hypotheses are met: lowest-order HHJ on the UFC triangle, with the code's scaled normals, has one dof per edge. -/
example : ∃ el nodes ids, hellanHerrmannJohnson ((ufcTriangle : CellData ℝ).toSimplex 2)
    (ufcScaledNormal ((ufcTriangle : CellData ℝ).toSimplex 2) fun _ => [1]) 0 = some (el, nodes, ids) ∧ nodes.length = 3 := by
  obtain ⟨el, nodes, ids, h1, -, h2, -⟩ := hhj_spec _ proper_ufcTriangle numbered_ufcTriangle _
    (ufc_triangle_normals _ proper_ufcTriangle _) 0
  exact ⟨el, nodes, ids, h1, h2⟩

end
end FIAT
