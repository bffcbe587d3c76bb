/-
C55: Regge elements (FIAT/regge.py).
-/
import Verif.Lemmas.FieldBlocks

namespace FIAT
open MvPolynomial
section
variable {D : ℕ}

/-- A symmetric field of degree `r` whose dofs on an entity and on its sub-entities are zero has `t^T u t = 0` on the entity, for all its
edges. -/
private theorem regge_closure {s : SimplexCell (Fin D → ℝ)} (hs : ProperSimplex ℝ s) {r : ℕ} {u : Fin D × Fin D → MvPolynomial (Fin D) ℝ}
    (hu : IsSymField r u) (T : List ℕ)
    (hz : ∀ d e t, 1 ≤ d → HasEntity s.topo d e t → (∀ a ∈ t, a ∈ T) → ∀ pts, makePoints ℝ s d e (r + 2) = some pts → ∀ x ∈ pts,
      ∀ a ∈ t, ∀ b ∈ t, quadForm u x (s.v a - s.v b) (s.v a - s.v b) = 0) (d : ℕ) :
    ∀ e t, 1 ≤ d → HasEntity s.topo d e t → (∀ a ∈ t, a ∈ T) → ∀ a ∈ t, ∀ b ∈ t, ∀ x, OnEntity s t x →
      quadForm u x (s.v a - s.v b) (s.v a - s.v b) = 0 := by
  induction d with
  | zero => intro e t h; omega
  | succ d ih =>
    intro e t hd h hT a ha b hb x hx
    by_cases hab : a = b
    · subst hab
      rw [sub_self]
      simp [quadForm]
    obtain ⟨h1, h2, h3⟩ := hs.2.1.entity _ _ _ h
    rw [hs.1] at h3
    obtain ⟨pts, p1, -⟩ := make_points_mem (K := ℝ) s hs.2.1 (r + 2) (by omega) h
    rw [← eval_biC]
    have hcard : ((t.toFinset.erase a).erase b).card = d := by
      rw [Finset.card_erase_of_mem (Finset.mem_erase.2 ⟨fun h => hab h.symm, List.mem_toFinset.2 hb⟩),
        Finset.card_erase_of_mem (List.mem_toFinset.2 ha), List.toFinset_card_of_nodup h1, h2]
      omega
    refine entity_points_quot hs hd h (r + 2) (by omega) p1 r _ (biC_degree _ _ hu.2) ((t.toFinset.erase a).erase b) ?_
      (by rw [hcard]; omega) ?_ ?_ x hx
    · intro c hc
      rw [Finset.mem_erase, Finset.mem_erase, List.mem_toFinset] at hc
      exact hc.2.2
    · intro c hc t' hn' ht' y hy
      have hc2 : c ≠ b ∧ c ≠ a ∧ c ∈ t := by
        rw [Finset.mem_erase, Finset.mem_erase, List.mem_toFinset] at hc; exact hc
      have ha' : a ∈ t' := (ht' a).2 ⟨ha, hc2.2.1.symm⟩
      have hb' : b ∈ t' := (ht' b).2 ⟨hb, hc2.1.symm⟩
      have hlen : t'.length = d + 1 := by
        have e1 : t'.toFinset = t.toFinset.erase c := by
          ext q
          rw [List.mem_toFinset, ht', Finset.mem_erase, List.mem_toFinset]; tauto
        rw [← List.toFinset_card_of_nodup hn', e1, Finset.card_erase_of_mem (List.mem_toFinset.2 hc2.2.2), List.toFinset_card_of_nodup h1, h2]
        omega
      have hd1 : 1 ≤ d := by
        rw [← hcard]
        exact Finset.card_pos.2 ⟨c, hc⟩
      obtain ⟨e', t'', q1, q2⟩ := sub_entity hs t' hn' (List.ne_nil_of_mem ha') (fun q hq => h3 q ((ht' q).1 hq).1)
      rw [hlen, Nat.add_sub_cancel] at q1
      rw [eval_biC]
      exact ih e' t'' hd1 q1 (fun q hq => hT q ((ht' q).1 ((q2 q).1 hq)).1) a ((q2 a).2 ha') b ((q2 b).2 hb') y
        ((onEntity_congr s (hs.2.1.entity _ _ _ q1).1 hn' q2 y).2 hy)
    · intro y hy
      rw [eval_biC]
      exact hz _ _ _ hd h hT pts p1 y hy a ha b hb

/-- The block of an entity. -/
private noncomputable def reggeBlk (s : SimplexCell (Fin D → ℝ)) (r : ℕ) (x : ℕ × ℕ) : List (Functional ℝ (Fin D → ℝ)) :=
  if x.1 = 0 then [] else ((reggeBlock s r x.1 x.2).map Prod.snd).getD []

private theorem regge_block {s : SimplexCell (Fin D → ℝ)} (hs : ProperSimplex ℝ s) (hnum : NumberedSimplex s) (r : ℕ) {d e : ℕ} {t : List ℕ}
    (hd : 1 ≤ d) (h : HasEntity s.topo d e t) :
    ∃ pts, makePoints ℝ s d e (r + 2) = some pts ∧ reggeBlk s r (d, e) =
        (pts.flatMap fun pt => (edgeVectors (t.map s.v)).map fun t => pointwiseInnerProduct D (vecNat t) (vecNat t) pt) ∧
      reggeBlock s r d e = some ((reggeBlk s r (d, e)).length, reggeBlk s r (d, e)) ∧
      (reggeBlk s r (d, e)).length = (r + 1).choose d * (d + 1).choose 2 := by
  obtain ⟨pts, p1, -⟩ := make_points_mem (K := ℝ) s hs.2.1 (r + 2) (by omega) h
  have hl := entity_points_length hs hnum hd h (r + 2) (by omega) p1
  have hb : reggeBlock s r d e = some (pts.length * (edgeVectors (t.map s.v)).length,
      pts.flatMap fun pt => (edgeVectors (t.map s.v)).map fun t => pointwiseInnerProduct D (vecNat t) (vecNat t) pt) := by
    unfold reggeBlock
    rw [p1, Option.bind_some, face_edge_tangents_spec hs h]
    rfl
  have hk : reggeBlk s r (d, e) =
      (pts.flatMap fun pt => (edgeVectors (t.map s.v)).map fun t => pointwiseInnerProduct D (vecNat t) (vecNat t) pt) := by
    unfold reggeBlk
    rw [if_neg (by simp only; omega), hb]; rfl
  have hlen : (reggeBlk s r (d, e)).length = pts.length * (edgeVectors (t.map s.v)).length := by
    rw [hk, List.length_flatMap]
    simp
  refine ⟨pts, p1, hk, by rw [hb, hlen, hk], ?_⟩
  rw [hlen, hl, edgeVectors_length, List.length_map, (hs.2.1.entity _ _ _ h).2.1]
  rfl

private theorem regge_dim {s : SimplexCell (Fin D → ℝ)} (hs : ProperSimplex ℝ s) (hnum : NumberedSimplex s) (r : ℕ) {d : ℕ} (hd : 1 ≤ d)
    (hdD : d ≤ D) {st : ℕ × List (Functional ℝ (Fin D → ℝ)) × EntityIds ℕ}
    (h : LoopInv (reggeBlk s r) ((List.range d).flatMap (entsOf D)) st) :
    ∃ q, reggeDofs s d r st.2.1.length = some q ∧
      LoopInv (reggeBlk s r) ((List.range (d + 1)).flatMap (entsOf D)) ((st.2.1 ++ q.1).length, st.2.1 ++ q.1, Dict.put st.2.2 d q.2) := by
  have hcur : ∀ {L : List (ℕ × ℕ)} {st : ℕ × List (Functional ℝ (Fin D → ℝ)) × EntityIds ℕ} , L.Nodup → LoopInv (reggeBlk s r) L st →
      st.1 = st.2.1.length := by
    intro L st hL h
    rw [h.cur, (blockLoop_spec _ _ hL _).1, h.nodes, List.length_flatMap, Nat.zero_add]
  obtain ⟨q, h1, h2⟩ := generate_spec h d ((D + 1).choose (d + 1)) (entsFlat_nodup d) (by
    intro x hx
    obtain ⟨d', h1, h2⟩ := List.mem_flatMap.1 hx
    have := (mem_entsOf.1 h2).1
    have := List.mem_range.1 h1
    omega) (reggeBlock s r d) (by
    intro e he
    obtain ⟨t, ht⟩ := ((hnum.1 d hdD).2 e).2 he
    obtain ⟨-, -, -, h3, -⟩ := regge_block hs hnum r hd ht
    exact h3)
  have hL : (List.range (d + 1)).flatMap (entsOf D) = (List.range d).flatMap (entsOf D) ++ (List.range ((D + 1).choose (d + 1))).map fun e => (d, e) := by
    rw [List.range_succ, List.flatMap_append]
    simp [entsOf]
  rw [← hL] at h2
  refine ⟨q.2, ?_, ?_⟩
  · unfold reggeDofs
    rw [(hnum.1 d hdD).1, Option.bind_some, ← hcur (entsFlat_nodup d) h, h1]
    rfl
  · rw [← hcur (entsFlat_nodup (d + 1)) h2]
    exact h2

private theorem regge_dual_blocks (hD : D = 2 ∨ D = 3) {s : SimplexCell (Fin D → ℝ)} (hs : ProperSimplex ℝ s) (hnum : NumberedSimplex s) (r : ℕ) :
    ∃ nodes ids, reggeDual s r = some (nodes, ids) ∧ EntityBlocks s.topo (allEnts D) (reggeBlk s r) nodes ids := by
  have h0 : LoopInv (reggeBlk s r) ((List.range 1).flatMap (entsOf D)) (0, [], noVertexDofs D) := by
    have := noVertex_inv (D := D) (blk := reggeBlk s r) (fun e => by unfold reggeBlk; rw [if_pos rfl])
    simpa using this
  obtain ⟨q1, a1, a2⟩ := regge_dim hs hnum r le_rfl (by omega) h0
  rcases hD with rfl | rfl
  · obtain ⟨q3, c1, c2⟩ := regge_dim hs hnum r (by omega) le_rfl a2
    refine ⟨_, _, ?_, c2.blocks hnum (entsFlat_nodup 3) (mem_allEnts hnum)⟩
    unfold reggeDual
    simp only [List.length_nil, List.nil_append] at a1 c1
    rw [if_neg (by omega)]
    simp only [a1, Option.bind_eq_bind, Option.bind_some]
    rw [if_neg (by omega), Option.bind_some, c1]
    rfl
  · obtain ⟨q2, b1, b2⟩ := regge_dim hs hnum r (by omega) (by omega) a2
    obtain ⟨q3, c1, c2⟩ := regge_dim hs hnum r (by omega) le_rfl b2
    refine ⟨_, _, ?_, c2.blocks hnum (entsFlat_nodup 4) (mem_allEnts hnum)⟩
    unfold reggeDual
    simp only [List.length_nil, List.nil_append] at a1 b1 c1
    rw [if_neg (by omega)]
    simp only [a1, Option.bind_eq_bind, Option.bind_some]
    rw [if_pos trivial, b1, Option.map_some, Option.bind_some, c1]
    rfl

/-- Specification of the Regge dofs of degree `r` on a cell: on an entity of dimension at least 1, the numbers `t^T u(x) t` for the
points `x` of `make_points(d, e, r + 2)` and the edge vectors `t` of the entity; nothing at the vertices; and the dofs of an entity and its
sub-entities determine the tangential-tangential part of a symmetric field of degree `r` on the entity. -/
structure ReggeDofs (s : SimplexCell (Fin D → ℝ)) (r : ℕ) (nodes : List (Functional ℝ (Fin D → ℝ))) (ids : EntityIds ℕ) : Prop where
  proper : ProperDofs s nodes ids
  vertex : ∀ e t, HasEntity s.topo 0 e t → ids.at? 0 e = some []
  entity : ∀ d e t, 1 ≤ d → HasEntity s.topo d e t → ∃ pts, makePoints ℝ s d e (r + 2) = some pts ∧ pts.length = (r + 1).choose d ∧
    FieldDofsOf comp2 (IsSymField r) nodes ids d e fun u => pts.flatMap fun x => (edgeVectors (t.map s.v)).map fun τ => quadForm u x τ τ
  conforming : ∀ d e t, 1 ≤ d → HasEntity s.topo d e t → ∀ u, IsSymField r u → FieldZeroOnClosure comp2 s nodes ids t u →
    ∀ x, OnEntity s t x → ∀ a ∈ t, ∀ b ∈ t, ∀ c ∈ t, ∀ f ∈ t, quadForm u x (s.v a - s.v b) (s.v c - s.v f) = 0

/-- C55: `Regge(cell, r)` on a triangle or tetrahedron exists for every `r ≥ 0`, tabulates the basis of the symmetric-matrix-valued
polynomials of degree `r` dual to its nodes, and its dofs are those of `ReggeDofs`. -/
theorem regge_spec (hD : D = 2 ∨ D = 3) (s : SimplexCell (Fin D → ℝ)) (hs : ProperSimplex ℝ s) (hnum : NumberedSimplex s) (r : ℕ) :
    ∃ el nodes ids, regge s r = some (el, nodes, ids) ∧ IsNodalC comp2 (IsSymField r) nodes el ∧
      nodes.length = D * (D + 1) / 2 * (r + D).choose D ∧ ReggeDofs s r nodes ids := by
  obtain ⟨nodes, ids, h1, h2⟩ := regge_dual_blocks hD hs hnum r
  have hblk := fun {d e t} (hd : 1 ≤ d) (h : HasEntity s.topo d e t) => regge_block hs hnum r hd h
  have hlen : nodes.length = D * (D + 1) / 2 * (r + D).choose D := by
    rw [ents_length hnum h2 (fun d => if d = 0 then 0 else (r + 1).choose d * (d + 1).choose 2) (by
      intro d e t h
      by_cases hd : d = 0
      · subst hd
        rw [if_pos rfl]
        unfold reggeBlk
        rw [if_pos rfl]; rfl
      · rw [if_neg hd]
        obtain ⟨-, -, -, -, h4⟩ := hblk (by omega) h
        exact h4)]
    rcases hD with rfl | rfl
    · have e1 : (r + 2).choose 2 = (r + 1).choose 2 + (r + 1) := by rw [Nat.choose_succ_succ' (r + 1) 1]; simp; ring
      rw [e1]
      simp only [Finset.sum_range_succ, Finset.sum_range_zero, if_true, Nat.one_ne_zero, if_false, Nat.choose_one_right, OfNat.ofNat_ne_zero]
      norm_num [Nat.choose]
      ring
    · have e1 : (r + 3).choose 3 = (r + 1).choose 3 + 2 * (r + 1).choose 2 + (r + 1) := by
        rw [Nat.choose_succ_succ' (r + 2) 2, Nat.choose_succ_succ' (r + 1) 1, Nat.choose_succ_succ' (r + 1) 2]; simp; ring
      rw [e1]
      simp only [Finset.sum_range_succ, Finset.sum_range_zero, if_true, Nat.one_ne_zero, if_false, Nat.choose_one_right, OfNat.ofNat_ne_zero]
      norm_num [Nat.choose]
      ring
  have hclos : ∀ T u, IsSymField r u → FieldZeroOnClosure comp2 s nodes ids T u → ∀ d e t, 1 ≤ d → HasEntity s.topo d e t →
      (∀ a ∈ t, a ∈ T) → ∀ pts, makePoints ℝ s d e (r + 2) = some pts → ∀ x ∈ pts,
      ∀ a ∈ t, ∀ b ∈ t, quadForm u x (s.v a - s.v b) (s.v a - s.v b) = 0 := by
    intro T u hu hz d e t hd h hT pts hp x hx a ha b hb
    obtain ⟨pts', p1, p2, -⟩ := hblk hd h
    rw [hp, Option.some.injEq] at p1
    subst p1
    have hzero := h2.field_zero_closure hz h ((mem_allEnts hnum _).2 ⟨_, h⟩) hT
    rw [p2] at hzero
    have hv : ∀ w ∈ edgeVectors (t.map s.v), quadForm u x w w = 0 := by
      intro w hw
      rw [← inner_onField w w x hu.1]
      exact hzero _ (List.mem_flatMap.2 ⟨x, hx, List.mem_map.2 ⟨w, hw, rfl⟩⟩)
    by_cases hab : a = b
    · subst hab; rw [sub_self]; simp [quadForm]
    rcases edgeVectors_mem (v := s.v) ha hb hab with hm | hm
    · have := hv _ hm
      rw [show s.v b - s.v a = (-1 : ℝ) • (s.v a - s.v b) by simp, quadForm_smul, quadForm_symm hu.1, quadForm_smul] at this
      linarith
    · exact hv _ hm
  obtain ⟨el, e1, e2⟩ := sym_element_spec (by tauto) s hs (by rcases hD with rfl | rfl <;> exact fun h => absurd h (by norm_num)) r nodes hlen
    (by
      intro l hl
      rw [h2.1] at hl
      obtain ⟨x, hx, hl⟩ := List.mem_flatMap.1 hl
      obtain ⟨t, ht⟩ := (mem_allEnts hnum x).1 hx
      by_cases hd : x.1 = 0
      · unfold reggeBlk at hl
        rw [if_pos hd] at hl
        simp at hl
      · obtain ⟨pts, -, p2, -⟩ := hblk (by omega) ht
        rw [p2] at hl
        obtain ⟨y, -, hl⟩ := List.mem_flatMap.1 hl
        obtain ⟨w, -, rfl⟩ := List.mem_map.1 hl
        exact inner_wf _ _ _)
    (by
      intro l hl
      rw [h2.1] at hl
      obtain ⟨x, hx, hl⟩ := List.mem_flatMap.1 hl
      obtain ⟨t, ht⟩ := (mem_allEnts hnum x).1 hx
      by_cases hd : x.1 = 0
      · unfold reggeBlk at hl
        rw [if_pos hd] at hl
        simp at hl
      · obtain ⟨pts, -, p2, -⟩ := hblk (by omega) ht
        rw [p2] at hl
        obtain ⟨y, -, hl⟩ := List.mem_flatMap.1 hl
        obtain ⟨w, -, rfl⟩ := List.mem_map.1 hl
        rfl)
    (by
      intro u hu hz
      obtain ⟨t, t1, t2, t3, t4⟩ := cell_entity hs hnum
      refine sym_zero_of_edges (proper_independent hs) hu.1 fun x a b => ?_
      exact regge_closure hs hu t (hclos t u hu (field_closure_of_all ids hz t)) D 0 t (by omega) t1 (fun _ h => h) a ((t3 a).2 a.2) b
        ((t3 b).2 b.2) x (t4 x))
  refine ⟨el, nodes, ids, ?_, e2, hlen, ⟨⟨h2.layout.1, h2.layout.2.1⟩, ?_, ?_, ?_⟩⟩
  · unfold regge
    simp only [h1, e1, Option.bind_eq_bind, Option.bind_some]
  · intro e t h
    obtain ⟨l, l1, l2⟩ := h2.layout.2.2 0 e ((mem_allEnts hnum _).2 ⟨_, h⟩)
    have : reggeBlk s r (0, e) = [] := by unfold reggeBlk; rw [if_pos rfl]
    rw [this] at l2
    have : l = [] := by simpa using l2
    rw [l1, this]
  · intro d e t hd h
    obtain ⟨pts, p1, p2, -⟩ := hblk hd h
    refine ⟨pts, p1, entity_points_length hs hnum hd h (r + 2) (by omega) p1, h2.fieldDofsOf ((mem_allEnts hnum _).2 ⟨_, h⟩) _ fun u hu => ?_⟩
    rw [p2, List.map_flatMap]
    simp only [List.map_map]
    refine List.flatMap_congr fun x _ => List.map_congr_left fun w _ => ?_
    exact inner_onField w w x hu.1
  · intro d e t hd h u hu hz x hx
    refine quadForm_polarize hu.1 x s.v {a | a ∈ t} fun a ha b hb => ?_
    exact regge_closure hs hu t (hclos t u hu hz) d e t hd h (fun _ h => h) a ha b hb x hx

/-- C55: other dimensions are rejected. -/
theorem regge_dimension (s : SimplexCell (Fin D → ℝ)) (r : ℕ) (h : D < 2 ∨ 3 < D) : regge s r = none := by
  unfold regge reggeDual
  rw [if_pos h]; rfl

/-- The hypotheses are met: lowest-order Regge on the UFC tetrahedron has one dof per edge, 6 in all. -/
example : ∃ el nodes ids, regge ((ufcTetrahedron : CellData ℝ).toSimplex 3) 0 = some (el, nodes, ids) ∧ nodes.length = 6 := by
  obtain ⟨el, nodes, ids, h1, -, h2, -⟩ := regge_spec (Or.inr rfl) _ proper_ufcTetrahedron numbered_ufcTetrahedron 0
  exact ⟨el, nodes, ids, h1, h2⟩

/-- A field that meets the hypothesis of `conforming` in a non-trivial way: the constant identity matrix has `t^T u t = |t|^2`. -/
example (x t : Fin 2 → ℝ) : IsSymField 0 (fun c : Fin 2 × Fin 2 => if c.1 = c.2 then (1 : MvPolynomial (Fin 2) ℝ) else 0) ∧
    quadForm (fun c : Fin 2 × Fin 2 => if c.1 = c.2 then (1 : MvPolynomial (Fin 2) ℝ) else 0) x t t = t 0 ^ 2 + t 1 ^ 2 := by
  refine ⟨⟨fun i j => by simp [eq_comm], fun c => by beta_reduce; split_ifs <;> simp⟩, ?_⟩
  simp [quadForm, Fin.sum_univ_two]
  ring

end
end FIAT
