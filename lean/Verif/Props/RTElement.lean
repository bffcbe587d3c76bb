/-
C23: the Raviart-Thomas element, FIAT/raviart_thomas.py.
-/
import Verif.Lemmas.RTDual
import Verif.Props.Variant

namespace FIAT
open MvPolynomial
section
variable {D : ℕ}

/-- Specification of the dofs of an H(div) element: `ids` lists every dof once, under the entities of the topology; a facet
has `nf` dofs, the cell `nc`, other entities none; for a field of the space the dofs of a facet vanish exactly when the normal
component of the field vanishes on that facet. -/
structure HDivDofs (s : SimplexCell (Fin D → ℝ)) (nrm : ℕ → Option (Fin D → ℝ)) (V : (Fin D → MvPolynomial (Fin D) ℝ) → Prop)
    (nf nc : ℕ) (nodes : List (Functional ℝ (Fin D → ℝ))) (ids : EntityIds ℕ) : Prop where
  partition : DofsPartition ids nodes.length
  same : SameEntities s.topo ids
  facet : ∀ e t, HasEntity s.topo (D - 1) e t → ∃ l, ids.at? (D - 1) e = some l ∧ l.length = nf
  cell : ∃ l, ids.at? D 0 = some l ∧ l.length = nc
  other : ∀ d e t, HasEntity s.topo d e t → d + 1 < D → ids.at? d e = some []
  conforming : ∀ e t n l, HasEntity s.topo (D - 1) e t → nrm e = some n → ids.at? (D - 1) e = some l → ∀ w, V w →
    ((∀ i ∈ l, ∃ node, nodes[i]? = some node ∧ node.onField (fieldOf w) = 0) ↔
      ∀ x, OnEntity s t x → ∑ j, n j * eval x (w j) = 0)

theorem block_zero {l : List ℕ} {nodes blk : List (Functional ℝ (Fin D → ℝ))}
    (h : l.map (fun i => nodes[i]?) = blk.map some) (w : Fin D → MvPolynomial (Fin D) ℝ) :
    (∀ i ∈ l, ∃ node, nodes[i]? = some node ∧ node.onField (fieldOf w) = 0) ↔ ∀ a ∈ blk, a.onField (fieldOf w) = 0 := by
  constructor
  · intro hz a ha
    have : some a ∈ l.map (fun i => nodes[i]?) := by rw [h]; exact List.mem_map_of_mem ha
    obtain ⟨i, hi, hi2⟩ := List.mem_map.1 this
    obtain ⟨node, n1, n2⟩ := hz i hi
    rw [hi2, Option.some.injEq] at n1
    rw [n1, n2]
  · intro hz i hi
    have : nodes[i]? ∈ blk.map some := by rw [← h]; exact List.mem_map.2 ⟨i, hi, rfl⟩
    obtain ⟨a, ha, ha2⟩ := List.mem_map.1 this
    exact ⟨a, ha2.symm, hz a ha⟩

/-- The dofs of an element made of facet blocks and one interior block. -/
theorem hdiv_dofs (hD : 2 ≤ D) {s : SimplexCell (Fin D → ℝ)} (hnum : NumberedSimplex s)
    {nrm : ℕ → Option (Fin D → ℝ)} (k nc : ℕ) (V : (Fin D → MvPolynomial (Fin D) ℝ) → Prop)
    (htr : ∀ w, V w → ∀ e t n, HasEntity s.topo (D - 1) e t → nrm e = some n →
      ∃ p : MvPolynomial (Fin D) ℝ, p.totalDegree ≤ k ∧ ∀ x, OnEntity s t x → ∑ j, n j * eval x (w j) = eval x p)
    (F : ℕ → List (Functional ℝ (Fin D → ℝ))) (hF : ∀ e < D + 1, FacetBlock s nrm k e (F e))
    (I : List (Functional ℝ (Fin D → ℝ))) (hI : I.length = nc) {ids : EntityIds ℕ}
    (hids : EntityBlocks s.topo (entsOf D (D - 1) ++ entsOf D D) (fun x => if x.1 = D then I else F x.2)
      (((List.range (D + 1)).map F).flatten ++ I) ids) :
    HDivDofs s nrm V ((k + (D - 1)).choose (D - 1)) nc (((List.range (D + 1)).map F).flatten ++ I) ids := by
  have hc : (D + 1).choose (D - 1 + 1) = D + 1 := by rw [Nat.sub_add_cancel (by omega)]; simp
  obtain ⟨h1, h2, h3⟩ := hids.layout
  have hfac : ∀ e t, HasEntity s.topo (D - 1) e t → e < D + 1 := by
    intro e t h
    have := ((hnum.1 (D - 1) (by omega)).2 e).1 ⟨t, h⟩
    rwa [hc] at this
  have hmem : ∀ e, e < D + 1 → (D - 1, e) ∈ entsOf D (D - 1) ++ entsOf D D := fun e he =>
    List.mem_append_left _ (mem_entsOf.2 ⟨rfl, by rw [hc]; exact he⟩)
  have hfb : ∀ e, e < D + 1 → ∃ l, ids.at? (D - 1) e = some l ∧
      l.map (fun i => (((List.range (D + 1)).map F).flatten ++ I)[i]?) = (F e).map some := by
    intro e he
    obtain ⟨l, l1, l2⟩ := h3 (D - 1) e (hmem e he)
    refine ⟨l, l1, ?_⟩
    rwa [if_neg (by dsimp only; omega)] at l2
  refine ⟨h1, h2, ?_, ?_, ?_, ?_⟩
  · intro e t h
    obtain ⟨l, l1, l2⟩ := hfb e (hfac e t h)
    refine ⟨l, l1, ?_⟩
    have := congrArg List.length l2
    rw [List.length_map, List.length_map, (hF e (hfac e t h)).1] at this
    exact this
  · obtain ⟨l, l1, l2⟩ := h3 D 0 (List.mem_append_right _ (by rw [entsOf_top]; simp))
    refine ⟨l, l1, ?_⟩
    have := congrArg List.length l2
    rw [List.length_map, List.length_map, if_pos rfl, hI] at this
    exact this
  · intro d e t h hd
    refine hids.2.2.2.2.1 d e ?_ ⟨t, h⟩
    rw [List.mem_append, mem_entsOf, mem_entsOf]
    rintro (⟨h, -⟩ | ⟨h, -⟩) <;> simp only at h <;> omega
  · intro e t n l h hn hl w hw
    obtain ⟨l', l1, l2⟩ := hfb e (hfac e t h)
    rw [hl, Option.some.injEq] at l1
    subst l1
    rw [block_zero l2]
    obtain ⟨p, p1, p2⟩ := htr w hw e t n h hn
    exact (hF e (hfac e t h)).2.2 t h n hn w p p1 p2

/-- The blocks as one list. -/
theorem flatMap_blocks (hD : 2 ≤ D) {β : Type} (F : ℕ → List β) (I : List β) :
    (entsOf D (D - 1) ++ entsOf D D).flatMap (fun x => if x.1 = D then I else F x.2) =
      ((List.range (D + 1)).map F).flatten ++ I := by
  rw [List.flatMap_append, entsOf_top]
  congr 1
  · unfold entsOf
    rw [Nat.sub_add_cancel (by omega)]
    rw [List.flatMap_map]
    rw [show (D + 1).choose D = D + 1 by simp, ← List.flatMap_def]
    refine List.flatMap_congr fun e _ => ?_
    rw [if_neg (by dsimp only; omega)]
  · simp

/-- The nodes and the dofs of `RTDualSet`. -/
theorem rt_dual_spec (hD : D = 2 ∨ D = 3) (s : SimplexCell (Fin D → ℝ)) (hs : ProperSimplex ℝ s) (hnum : NumberedSimplex s)
    (ho : 0 < orientation fun i : Fin (D + 1) => s.v i) {gj : ℕ → ℕ → List ℝ} (hgj : NodesOK gj)
    {nrm : ℕ → Option (Fin D → ℝ)} (hn : FacetNormals s nrm) (k : ℕ) (v : DualVariant) (hv : ∀ q, v = .integral q → k + 1 ≤ q) :
    ∃ nodes ids, rtDual gj s nrm k v = some (nodes, ids) ∧
      nodes.length = D * (k + D).choose D + (k + D - 1).choose (D - 1) ∧ (∀ l ∈ nodes, PlainNode l) ∧
      HDivDofs s nrm (IsRT k) ((k + (D - 1)).choose (D - 1)) (D * dimLower D k) nodes ids ∧
      ∀ w, IsRT k w → (∀ l ∈ nodes, l.onField (fieldOf w) = 0) → w = 0 := by
  have hD2 : 2 ≤ D := by omega
  have hinc : Increasing fun i : Fin (D + 1) => s.v i := fun h => by omega
  have hD' : D = 1 ∨ D = 2 ∨ D = 3 := Or.inr hD
  -- blocks
  obtain ⟨F, I, hF, hI, hnodes⟩ : ∃ F I, (∀ e < D + 1, FacetBlock s nrm k e (F e)) ∧ RTInterior s nrm k I ∧
      (match v with
        | .integral quad_deg => rtIntegralNodes gj s nrm k quad_deg
        | .point => rtPointNodes s nrm k) = some (((List.range (D + 1)).map F).flatten ++ I) := by
    cases v with
    | point =>
      obtain ⟨F, f1, f2⟩ := facet_point_blocks hD2 hs hnum hn k
      by_cases hk : k = 0
      · subst hk
        refine ⟨F, [], f2, rt_interior_empty (by omega) hs hn, ?_⟩
        simp only [rtPointNodes, numEnts_facets hD2 hnum, f1, Option.bind_eq_bind, Option.bind_some, if_true, List.append_nil]
      · obtain ⟨pts, L, l1, l2, l3⟩ := rt_interior_points (by omega) hs hnum hn k hk
        refine ⟨F, L.flatten, f2, l3, ?_⟩
        simp only [rtPointNodes, numEnts_facets hD2 hnum, f1, Option.bind_eq_bind, Option.bind_some, if_neg hk, l1, l2,
          Option.map_some]
    | integral q =>
      have hq := hv q rfl
      obtain ⟨G, g1, g2, g3, g4, g5⟩ := ufc_cell_spec (d := D - 1) (by omega)
      obtain ⟨Q, q1, q2, q3, q4⟩ := simplex_rule_spec hgj (D := D - 1) (by omega) (ufcVerts ℝ (D - 1)) g5 q (by omega)
      obtain ⟨S, T, s1, s2, φ, s3, s4⟩ := scalar_values (by omega) G g2 g3 k Q.pts
      obtain ⟨F, f1, f2⟩ := facet_moment_blocks hD2 hs hnum hn k Q q2 (by omega) q3 q4 φ T s3 s4
      rw [← g4] at q1
      by_cases hk : k = 0
      · subst hk
        refine ⟨F, [], f2, rt_interior_empty (by omega) hs hn, ?_⟩
        simp only [rtIntegralNodes, g1, q1, s1, s2, numEnts_facets hD2 hnum, f1, Option.bind_eq_bind, Option.bind_some,
          if_true, List.append_nil]
      · obtain ⟨Q', q1', q2', q3', q4'⟩ := simplex_rule_spec hgj hD' _ ho q (by omega)
        obtain ⟨S', T', s1', s2', φ', s3', s4'⟩ := scalar_values hD' s hs hinc (k - 1) Q'.pts
        rw [← verts_ofFn s hs.2.1 hs.1] at q1'
        refine ⟨F, _, f2, rt_interior_moments (by omega) hs hn k hk Q' q2' (by omega) q3' q4' φ' T' s3' s4', ?_⟩
        simp only [rtIntegralNodes, g1, q1, s1, s2, numEnts_facets hD2 hnum, f1, Option.bind_eq_bind, Option.bind_some,
          if_neg hk, q1', s1', s2', Option.map_some]
  -- dofs
  obtain ⟨t0, ht0⟩ := facet_exists hD2 hnum (e := 0) (by omega)
  obtain ⟨pts, p1, p2, -, -⟩ := entity_points hs (by omega) (by omega) ht0 k
  rw [show k + (D - 1) + 1 = D + k by omega] at p1
  obtain ⟨ids, i1, i2⟩ := facetIds_spec hD2 hnum k (if k = 0 then none else some (dimLower D k * D)) p1
    (fun x => if x.1 = D then I else F x.2) (fun e he => by rw [if_neg (by dsimp only; omega), (hF e he).1, p2]) (by
      rw [if_pos rfl, hI.1]
      by_cases hk : k = 0
      · rw [if_pos hk, hk]; simp [dimLower]
      · rw [if_neg hk, Option.getD_some, mul_comm])
  rw [flatMap_blocks hD2] at i2
  have htr : ∀ w, IsRT k w → ∀ e t n, HasEntity s.topo (D - 1) e t → nrm e = some n →
      ∃ p : MvPolynomial (Fin D) ℝ, p.totalDegree ≤ k ∧ ∀ x, OnEntity s t x → ∑ j, n j * eval x (w j) = eval x p :=
    fun w hw e t n h hne => rt_normal_trace (by omega) hs hn hw h hne
  have hdofs := hdiv_dofs hD2 hnum k _ (IsRT k) htr F hF I hI.1 i2
  have hfl : ∀ l, l ∈ ((List.range (D + 1)).map F).flatten ↔ ∃ e, e < D + 1 ∧ l ∈ F e := by
    intro l
    simp only [List.mem_flatten, List.mem_map, List.mem_range]
    constructor
    · rintro ⟨_, ⟨e, he, rfl⟩, hl⟩; exact ⟨e, he, hl⟩
    · rintro ⟨e, he, hl⟩; exact ⟨_, ⟨e, he, rfl⟩, hl⟩
  refine ⟨_, ids, ?_, ?_, ?_, hdofs, ?_⟩
  · unfold rtDual
    cases v <;> simp only at hnodes <;> by_cases hk : k = 0 <;>
      simp only [hk, if_true, if_false] at i1 <;>
      simp only [hnodes, hk, if_true, if_false, polyDim_pred hD', Option.map_some, Option.bind_eq_bind, Option.bind_some, i1]
    all_goals subst hk; simp only [hnodes, i1, Option.bind_some]
  · rw [List.length_append, List.length_flatten, List.map_map, hI.1]
    have : (List.range (D + 1)).map (List.length ∘ F) = (List.range (D + 1)).map fun _ => (k + (D - 1)).choose (D - 1) :=
      List.map_congr_left fun e he => (hF e (List.mem_range.1 he)).1
    rw [this]
    have h1 := choose_diff (D := D) (by omega) k
    have h2 := dimLower_le (D := D) k
    simp only [List.map_const', List.length_range, List.sum_replicate, smul_eq_mul]
    rw [show k + (D - 1) = k + D - 1 by omega, ← h1]
    obtain ⟨c, hc⟩ := Nat.exists_eq_add_of_le h2
    rw [hc]
    simp only [Nat.add_sub_cancel_left]
    ring
  · intro l hl
    rcases List.mem_append.1 hl with h | h
    · obtain ⟨e, he, h⟩ := (hfl l).1 h
      exact (hF e he).2.1 l h
    · exact hI.2.1 l h
  · intro w hw hz
    refine hI.2.2 w hw ?_ fun l hl => hz l (List.mem_append_right _ hl)
    intro e t n h hne
    have he : e < D + 1 := by
      have := ((hnum.1 (D - 1) (by omega)).2 e).1 ⟨t, h⟩
      rw [Nat.sub_add_cancel (by omega)] at this
      simpa using this
    obtain ⟨p, p1, p2⟩ := htr w hw e t n h hne
    exact ((hF e he).2.2 t h n hne w p p1 p2).1 fun l hl => hz l (List.mem_append_left _ ((hfl l).2 ⟨e, he, hl⟩))

/-- C23: `RaviartThomas(cell, degree + 1, variant)` on a triangle or tetrahedron, for every degree and every variant string
`check_format_variant` accepts.  The element has `D dim P_degree + dim P_degree(facet)` dofs; `entity_dofs` is a partition of
`range(#dofs)`; the functions it tabulates are the basis of the Raviart-Thomas space `P_k^D + x P_k` dual to its nodes; the
dofs of a facet determine the normal component there. -/
theorem raviart_thomas_spec (hD : D = 2 ∨ D = 3) (s : SimplexCell (Fin D → ℝ)) (hs : ProperSimplex ℝ s) (hnum : NumberedSimplex s)
    (ho : 0 < orientation fun i : Fin (D + 1) => s.v i) {gj : ℕ → ℕ → List ℝ} (hgj : NodesOK gj)
    {nrm : ℕ → Option (Fin D → ℝ)} (hn : FacetNormals s nrm) (degree : ℕ)
    (svd : List (Fin D → Fin ((degree + 1 + D).choose D) → ℝ) → List ℝ × List (Fin D → Fin ((degree + 1 + D).choose D) → ℝ))
    (hsvd : ∀ A B, rtRows gj degree s = some (A, B) → SvdOK svd (A ++ B))
    (T : DigitTable) (variant : Option (List Char)) (v : DualVariant) (hv : dualVariant T variant degree = some v) :
    ∃ m el nodes ids, raviartThomas gj degree svd T s nrm variant = some (⟨m, el⟩, nodes, ids) ∧
      m = D * (degree + D).choose D + (degree + D - 1).choose (D - 1) ∧ nodes.length = m ∧
      HDivDofs s nrm (IsRT degree) ((degree + (D - 1)).choose (D - 1)) (D * dimLower D degree) nodes ids ∧
      el.sd = D ∧ IsNodalElement (IsRT degree) nodes el := by
  have hvq : ∀ q, v = .integral q → degree + 1 ≤ q := by
    rintro q rfl
    unfold dualVariant checkFormatVariant at hv
    simp only at hv
    split at hv <;> rename_i h <;> simp at hv
    subst hv
    revert h
    split <;> intro h
    · split_ifs at h <;> simp_all
    · split_ifs at h
  obtain ⟨m, S, s1, s2, s3, φ, s4, s5, s6, s7, s8, s9⟩ := rt_space_spec hD s hs ho hgj degree svd hsvd
  obtain ⟨nodes, ids, d1, d2, d3, d4, d5⟩ := rt_dual_spec hD s hs hnum ho hgj hn degree v hvq
  have hm : 1 ≤ m := by
    rw [s3]
    have : 0 < (degree + D - 1).choose (D - 1) := Nat.choose_pos (by omega)
    omega
  obtain ⟨el, e1, e0, -, -, -, -, e2⟩ := vector_element_nodal (by omega) φ S s2 s6 s7 (IsRT degree) s8 s9 nodes (d2.trans s3.symm) hm
    d3 d5
  refine ⟨m, el, nodes, ids, ?_, s3, d2.trans s3.symm, d4, e0, e2⟩
  unfold raviartThomas
  simp only [hv, s1, d1, e1, Option.bind_eq_bind, Option.bind_some]

end
end FIAT
