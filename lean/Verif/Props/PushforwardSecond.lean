/-
C89: Nedelec elements of the second kind and the covariant Piola mapping that the class reports.
-/
import Verif.Props.PushforwardExample
import Verif.Props.ConformCurl2

namespace FIAT
open MvPolynomial
section

/-- The loop over the blocks looks only at their lengths. -/
theorem multIds_lengths {N N' : Type} (dim offset : ℕ) (B : List (List N)) (B' : List (List N')) (h : B.map List.length = B'.map List.length)
    (ids : EntityIds ℕ) : multIds dim offset B ids = multIds dim offset B' ids := by
  have key : ∀ (B : List (List N)) (B' : List (List N')) (i : ℕ) (ids : EntityIds ℕ), B.map List.length = B'.map List.length →
      (B.zipIdx i).foldl (fun (ids : EntityIds ℕ) (b : List N × ℕ) => setIds ids dim b.2 (List.range' (offset + b.1.length * b.2) b.1.length)) ids =
      (B'.zipIdx i).foldl (fun (ids : EntityIds ℕ) (b : List N' × ℕ) => setIds ids dim b.2 (List.range' (offset + b.1.length * b.2) b.1.length)) ids := by
    intro B
    induction B with
    | nil =>
      intro B' i ids h
      cases B' with
      | nil => rfl
      | cons b B' => simp at h
    | cons a B ih =>
      intro B' i ids h
      cases B' with
      | nil => simp at h
      | cons b B' =>
        rw [List.map_cons, List.map_cons, List.cons.injEq] at h
        rw [List.zipIdx_cons, List.zipIdx_cons, List.foldl_cons, List.foldl_cons, h.1]
        exact ih B' _ _ h.2
  exact key B B' 0 ids h

theorem map_lengths {α β : Type} {F : ℕ → List α} {G : ℕ → List β} {m n : ℕ} (h : ∀ e < m, (F e).length = n) (h' : ∀ e < m, (G e).length = n) :
    ((List.range m).map F).map List.length = ((List.range m).map G).map List.length := by
  rw [List.map_map, List.map_map]
  exact List.map_congr_left fun e he => (h e (List.mem_range.1 he)).trans (h' e (List.mem_range.1 he)).symm

theorem nedelec2_dual_of {D : ℕ} {gj : ℕ → ℕ → List ℝ} {k : ℕ} {svd : SvdFun} {T : DigitTable} {s : SimplexCell (Fin D → ℝ)} {isUfc : Bool}
    {nrm : ℕ → Option (Fin D → ℝ)} {nrm2 : ℕ → Option (Fin 2 → ℝ)} {variant : Option (List Char)} {v : DualVariant}
    (hv : dualVariant T variant k = some v) {x : Σ m, PolySet ℝ (Fin D → ℝ) ((k + D).choose D) m (Fin D)} {nodes ids}
    (h : nedelec2 gj k svd T s isUfc nrm nrm2 variant = some (x, nodes, ids)) : n2Dual gj svd T isUfc nrm2 k v D s nrm = some (nodes, ids) := by
  unfold nedelec2 at h
  rw [hv] at h
  simp only [Option.bind_eq_bind, Option.bind_some] at h
  obtain ⟨S, -, h⟩ := Option.bind_eq_some_iff.1 h
  obtain ⟨d, hd, h⟩ := Option.bind_eq_some_iff.1 h
  obtain ⟨el, -, h⟩ := Option.bind_eq_some_iff.1 h
  rw [Option.some.injEq, Prod.mk.injEq] at h
  rw [hd, h.2]

/-- C89: Nedelec elements of the second kind on triangles, of every degree, in the sense of `nedelec_maps_partial`. -/
theorem nedelec2_triangle_maps_partial {s s' : SimplexCell (Fin 2 → ℝ)} {A : Matrix (Fin 2) (Fin 2) ℝ} {b : Fin 2 → ℝ} (hs : ProperSimplex ℝ s)
    (hnum : NumberedSimplex s) (ho : 0 < orientation fun i : Fin (2 + 1) => s.v i) (h : MappedCell A b s s') (hA : 0 < A.det)
    {gj : ℕ → ℕ → List ℝ} (hgj : NodesOK gj) {nrm nrm' : ℕ → Option (Fin 2 → ℝ)} (hn : FacetNormals s nrm) (hn' : FacetNormals s' nrm')
    (nrm2 : ℕ → Option (Fin 2 → ℝ)) (isUfc isUfc' : Bool) (k : ℕ) (hk : 1 ≤ k) (svd : SvdFun)
    (hsvd : 2 ≤ k → ∀ A B, rtRows gj (k - 2) s = some (A, B) → SvdOK (svd 2 _) (A ++ B))
    (hsvd' : 2 ≤ k → ∀ A B, rtRows gj (k - 2) s' = some (A, B) → SvdOK (svd 2 _) (A ++ B))
    (T : DigitTable) (variant : Option (List Char)) (v : DualVariant) (hv : dualVariant T variant k = some v) :
    ∃ m el el' nodes nodes' ids, nedelec2 gj k svd T s isUfc nrm nrm2 variant = some (⟨m, el⟩, nodes, ids) ∧
      nedelec2 gj k svd T s' isUfc' nrm' nrm2 variant = some (⟨m, el'⟩, nodes', ids) ∧
      DofsCarried (declaredMapping .nedelecSecondKind) A b ids nodes nodes' ∧
      (ids.at? 2 0 = some [] → MapsVector (declaredMapping .nedelecSecondKind) A b el el') ∧ (k = 1 → ids.at? 2 0 = some []) := by
  have hs' := h.proper hs
  have hnum' := numbered_mapped h hnum
  have ho' : 0 < orientation fun i : Fin (2 + 1) => s'.v i := by rw [h.orientation hs]; exact mul_pos hA ho
  have hvd := dual_variant_degree hv
  obtain ⟨m, el, nodes, ids, h1, rfl, h3, h4, -, h5⟩ := nedelec2_triangle_spec s hs hnum ho hgj hn nrm2 isUfc k hk svd hsvd T variant v hv
  obtain ⟨m', el', nodes', ids', h1', rfl, h3', h4', -, h5'⟩ :=
    nedelec2_triangle_spec s' hs' hnum' ho' hgj hn' nrm2 isUfc' k hk svd hsvd' T variant v hv
  have d1 : n2Dual2 gj svd T s nrm k v = some (nodes, ids) := nedelec2_dual_of hv h1
  have d1' : n2Dual2 gj svd T s' nrm' k v = some (nodes', ids') := nedelec2_dual_of hv h1'
  have hids : ids' = ids := by
    obtain ⟨F, f1, f2⟩ := edge_blocks_spec le_rfl hs hnum hgj (FullDeg k) k full_edge_trace v hvd
    obtain ⟨I, i1, i2, -, -⟩ := n2_cell_spec (Or.inl rfl) hs hnum ho hgj hn k svd hsvd T v
    obtain ⟨F', f1', f2'⟩ := edge_blocks_spec le_rfl hs' hnum' hgj (FullDeg k) k full_edge_trace v hvd
    obtain ⟨I', i1', i2', -, -⟩ := n2_cell_spec (Or.inl rfl) hs' hnum' ho' hgj hn' k svd hsvd' T v
    have hl := map_lengths (fun e he => (f2 e he).1) (fun e he => (f2' e he).1)
    unfold n2Dual2 at d1 d1'
    rw [f1] at d1
    rw [f1'] at d1'
    simp only [i1, Option.bind_eq_bind, Option.bind_some] at d1
    simp only [i1', Option.bind_eq_bind, Option.bind_some] at d1'
    rw [Option.some.injEq, Prod.mk.injEq] at d1 d1'
    rw [← d1.2, ← d1'.2, multIds_lengths _ _ _ _ hl, List.length_flatten, List.length_flatten, hl, i2, i2']
  subst hids
  obtain ⟨Φ1, hΦ⟩ := edge_natural (D := 2) le_rfl hgj k v hvd
  have key : ∀ (s : SimplexCell (Fin 2 → ℝ)) (nrm : ℕ → Option (Fin 2 → ℝ)) nodes ids, ProperSimplex ℝ s → NumberedSimplex s →
      0 < orientation (fun i : Fin (2 + 1) => s.v i) → FacetNormals s nrm →
      (2 ≤ k → ∀ A B, rtRows gj (k - 2) s = some (A, B) → SvdOK (svd 2 _) (A ++ B)) → n2Dual2 gj svd T s nrm k v = some (nodes, ids) →
      CurlNatural s nodes ids (fun d => match d with | 1 => Φ1 | _ => fun _ => []) := by
    intro s nrm nodes ids hs hnum ho hn hsvd hd
    obtain ⟨nodes', ids', blk, a1, a2, a3, -, -⟩ := n2_dual2_full s hs hnum ho hgj hn k hk svd hsvd T v hvd
    have : some (nodes, ids) = some (nodes', ids') := hd.symm.trans a1
    rw [Option.some.injEq, Prod.mk.injEq] at this
    obtain ⟨rfl, rfl⟩ := this
    intro d e τ hd1 hd2 he w
    obtain rfl : d = 1 := by omega
    have := hΦ s _ hs hnum a3 e τ he w
    beta_reduce at this
    change DofValues _ _ _ _ _ (Φ1 _)
    rw [← this]
    obtain ⟨l, l1, l2⟩ := a2.layout.2.2 1 e (mem_curlEnts.2 ⟨le_rfl, by omega, ((hnum.1 1 (by omega)).2 e).1 ⟨_, he⟩⟩)
    exact dofValues_of_block l1 l2
  have ht : ∀ d e l, ids'.at? d e = some l → d < 2 → TraceNodes (tangPull (affVerts A b)) nodes nodes' l := fun d e l hl hd =>
    curl_trace_nodes hs h (key s nrm nodes ids' hs hnum ho hn hsvd d1) (key s' nrm' nodes' ids' hs' hnum' ho' hn' hsvd' d1') h4 hl hd
  have hR := fun w w' => pushes_cov_iff (A := A) h.regular b w w'
  refine ⟨_, el, el', nodes, nodes', ids', h1, h1', dofsCarried_of hR ht, fun hint => ?_, fun h0 => ?_⟩
  · exact maps_vector_core (V := FullDeg k) hR (fun w hw j => tangPull_degree _ hw j) h3 h5 h5' hs hnum h4.partition h4.same ht hint
  · obtain ⟨t, ht⟩ := ((hnum.1 2 le_rfl).2 0).2 (by simp)
    obtain ⟨l, l1, l2⟩ := h4.count 2 0 t ht
    rw [if_neg (by omega), n2Count, if_neg (by omega), List.length_eq_zero_iff] at l2
    rw [l1, l2]

/-- C89: Nedelec elements of the second kind on tetrahedra, of degree 1 (for higher degrees the class asks for the UFC tetrahedron itself). -/
theorem nedelec2_tetrahedron_maps_partial {s s' : SimplexCell (Fin 3 → ℝ)} {A : Matrix (Fin 3) (Fin 3) ℝ} {b : Fin 3 → ℝ} (hs : ProperSimplex ℝ s)
    (hnum : NumberedSimplex s) (ho : 0 < orientation fun i : Fin (3 + 1) => s.v i) (h : MappedCell A b s s') (hA : 0 < A.det)
    {gj : ℕ → ℕ → List ℝ} (hgj : NodesOK gj) {nrm nrm' : ℕ → Option (Fin 3 → ℝ)} (hn : FacetNormals s nrm) (hn' : FacetNormals s' nrm')
    {nrm2 : ℕ → Option (Fin 2 → ℝ)} (hn2 : FacetNormals ((ufcTriangle : CellData ℝ).toSimplex 2) nrm2) (isUfc isUfc' : Bool) (svd : SvdFun)
    (T : DigitTable) (variant : Option (List Char)) (v : DualVariant) (hv : dualVariant T variant 1 = some v) :
    ∃ m el el' nodes nodes' ids, nedelec2 gj 1 svd T s isUfc nrm nrm2 variant = some (⟨m, el⟩, nodes, ids) ∧
      nedelec2 gj 1 svd T s' isUfc' nrm' nrm2 variant = some (⟨m, el'⟩, nodes', ids) ∧
      DofsCarried (declaredMapping .nedelecSecondKind) A b ids nodes nodes' ∧
      MapsVector (declaredMapping .nedelecSecondKind) A b el el' := by
  have hs' := h.proper hs
  have hnum' := numbered_mapped h hnum
  have ho' : 0 < orientation fun i : Fin (3 + 1) => s'.v i := by rw [h.orientation hs]; exact mul_pos hA ho
  have hvd := dual_variant_degree hv
  obtain ⟨m, el, nodes, ids, h1, rfl, h3, h4, -, h5⟩ := nedelec2_tetrahedron_spec s hs hnum ho hgj hn hn2 1 le_rfl isUfc
    (fun h => absurd h (by norm_num)) svd (fun h => absurd h (by norm_num)) (fun h => absurd h (by norm_num)) T variant v hv
  obtain ⟨m', el', nodes', ids', h1', rfl, h3', h4', -, h5'⟩ := nedelec2_tetrahedron_spec s' hs' hnum' ho' hgj hn' hn2 1 le_rfl isUfc'
    (fun h => absurd h (by norm_num)) svd (fun h => absurd h (by norm_num)) (fun h => absurd h (by norm_num)) T variant v hv
  have d1 : n2Dual3 gj svd T s isUfc nrm nrm2 1 v = some (nodes, ids) := nedelec2_dual_of hv h1
  have d1' : n2Dual3 gj svd T s' isUfc' nrm' nrm2 1 v = some (nodes', ids') := nedelec2_dual_of hv h1'
  have hids : ids' = ids := by
    obtain ⟨F, f1, f2⟩ := edge_blocks_spec (by norm_num) hs hnum hgj (FullDeg 1) 1 full_edge_trace v hvd
    obtain ⟨I, i1, i2, -, -⟩ := n2_cell_spec (Or.inr rfl) hs hnum ho hgj hn 1 svd (fun h => absurd h (by norm_num)) T v
    obtain ⟨F', f1', f2'⟩ := edge_blocks_spec (by norm_num) hs' hnum' hgj (FullDeg 1) 1 full_edge_trace v hvd
    obtain ⟨I', i1', i2', -, -⟩ := n2_cell_spec (Or.inr rfl) hs' hnum' ho' hgj hn' 1 svd (fun h => absurd h (by norm_num)) T v
    have hl := map_lengths (fun e he => (f2 e he).1) (fun e he => (f2' e he).1)
    have hlF : ((List.range ((3 + 1).choose 2)).map F).flatten.length = ((List.range ((3 + 1).choose 2)).map F').flatten.length := by
      rw [List.length_flatten, List.length_flatten, hl]
    have hF : ∀ (s : SimplexCell (Fin 3 → ℝ)) isUfc, n2FaceBlocks gj svd T s isUfc nrm2 1 v = some [] := fun s isUfc => by
      unfold n2FaceBlocks
      rw [if_pos (by norm_num)]
    unfold n2Dual3 at d1 d1'
    rw [f1, hF] at d1
    rw [f1', hF] at d1'
    simp only [i1, Option.bind_eq_bind, Option.bind_some] at d1
    simp only [i1', Option.bind_eq_bind, Option.bind_some] at d1'
    rw [Option.some.injEq, Prod.mk.injEq] at d1 d1'
    rw [← d1.2, ← d1'.2, multIds_lengths _ _ _ _ hl, List.length_append, List.length_append, hlF, i2, i2']
  subst hids
  obtain ⟨Φ1, hΦ⟩ := edge_natural (D := 3) (by norm_num) hgj 1 v hvd
  have key : ∀ (s : SimplexCell (Fin 3 → ℝ)) (isUfc : Bool) (nrm : ℕ → Option (Fin 3 → ℝ)) nodes ids, ProperSimplex ℝ s → NumberedSimplex s →
      0 < orientation (fun i : Fin (3 + 1) => s.v i) → FacetNormals s nrm → n2Dual3 gj svd T s isUfc nrm nrm2 1 v = some (nodes, ids) →
      CurlNatural s nodes ids (fun d => match d with | 1 => Φ1 | _ => fun _ => []) := by
    intro s isUfc nrm nodes ids hs hnum ho hn hd
    obtain ⟨nodes', ids', blk, a1, a2, a3, -, a5, -⟩ := n2_dual3_full s hs hnum ho hgj hn hn2 1 le_rfl isUfc (fun h => absurd h (by norm_num)) svd
      (fun h => absurd h (by norm_num)) (fun h => absurd h (by norm_num)) T v hvd
    have : some (nodes, ids) = some (nodes', ids') := hd.symm.trans a1
    rw [Option.some.injEq, Prod.mk.injEq] at this
    obtain ⟨rfl, rfl⟩ := this
    intro d e τ hd1 hd2 he w
    obtain ⟨l, l1, l2⟩ := a2.layout.2.2 d e (mem_curlEnts.2 ⟨hd1, by omega, ((hnum.1 d (by omega)).2 e).1 ⟨_, he⟩⟩)
    rcases (by omega : d = 1 ∨ d = 2) with rfl | rfl
    · have := hΦ s _ hs hnum a3 e τ he w
      beta_reduce at this
      change DofValues _ _ _ _ _ (Φ1 _)
      rw [← this]
      exact dofValues_of_block l1 l2
    · have := dofValues_of_block l1 l2 (ev := fun a => a.onField (fieldOf w))
      rw [a5 (by norm_num) e] at this
      exact this
  have ht : ∀ d e l, ids'.at? d e = some l → d < 3 → TraceNodes (tangPull (affVerts A b)) nodes nodes' l := fun d e l hl hd =>
    curl_trace_nodes hs h (key s isUfc nrm nodes ids' hs hnum ho hn d1) (key s' isUfc' nrm' nodes' ids' hs' hnum' ho' hn' d1') h4 hl hd
  have hR := fun w w' => pushes_cov_iff (A := A) h.regular b w w'
  have hint : ids'.at? 3 0 = some [] := by
    obtain ⟨t, ht⟩ := ((hnum.1 3 le_rfl).2 0).2 (by simp)
    obtain ⟨l, l1, l2⟩ := h4.count 3 0 t ht
    rw [if_neg (by omega), n2Count, if_neg (by omega), List.length_eq_zero_iff] at l2
    rw [l1, l2]
  exact ⟨_, el, el', nodes, nodes', ids', h1, h1', dofsCarried_of hR ht,
    maps_vector_core (V := FullDeg 1) hR (fun w hw j => tangPull_degree _ hw j) h3 h5 h5' hs hnum h4.partition h4.same ht hint⟩

/-- The lowest order elements on the UFC triangle and a sheared image of it. -/
example {gj : ℕ → ℕ → List ℝ} (hgj : NodesOK gj) (T : DigitTable) (nrm2 : ℕ → Option (Fin 2 → ℝ)) :
    ∃ m el el' nodes nodes' ids nrm', nedelec2 gj 1 someSvdFun T tri true (ufcScaledNormal tri triLengths) nrm2 none = some (⟨m, el⟩, nodes, ids) ∧
      nedelec2 gj 1 someSvdFun T (mapCell !![2, 1; 0, 1] ![1, 0] tri) false nrm' nrm2 none = some (⟨m, el'⟩, nodes', ids) ∧
      MapsVector (declaredMapping .nedelecSecondKind) !![2, 1; 0, 1] ![1, 0] el el' := by
  have hdet : (!![2, 1; 0, 1] : Matrix (Fin 2) (Fin 2) ℝ).det = 2 := by rw [Matrix.det_fin_two_of]; norm_num
  have hm : MappedCell !![2, 1; 0, 1] ![1, 0] tri (mapCell !![2, 1; 0, 1] ![1, 0] tri) := mapCell_mapped (by rw [hdet]; norm_num)
  have hn := ufc_triangle_normals _ (proper_ufcTriangle (K := ℝ)) triLengths
  obtain ⟨m, el, el', nodes, nodes', ids, h1, h2, -, h3, h4⟩ := nedelec2_triangle_maps_partial (proper_ufcTriangle (K := ℝ)) numbered_ufcTriangle tri_oriented hm
    (by rw [hdet]; norm_num) hgj hn (facet_normals_mapped proper_ufcTriangle hm hn) nrm2 true false 1 le_rfl someSvdFun
    (fun h => absurd h (by norm_num)) (fun h => absurd h (by norm_num)) T none .point rfl
  exact ⟨m, el, el', nodes, nodes', ids, _, h1, h2, h3 (h4 rfl)⟩

/-- The lowest order elements on the UFC tetrahedron and a stretched image of it. -/
example {gj : ℕ → ℕ → List ℝ} (hgj : NodesOK gj) (T : DigitTable) (sv : ℕ → List ℝ) :
    ∃ m el el' nodes nodes' ids nrm', nedelec2 gj 1 someSvdFun T tet true (ufcScaledNormal tet sv) (ufcScaledNormal tri triLengths) none =
        some (⟨m, el⟩, nodes, ids) ∧
      nedelec2 gj 1 someSvdFun T (mapCell (Matrix.diagonal ![2, 1, 1]) 0 tet) false nrm' (ufcScaledNormal tri triLengths) none =
        some (⟨m, el'⟩, nodes', ids) ∧
      MapsVector (declaredMapping .nedelecSecondKind) (Matrix.diagonal ![2, 1, 1]) 0 el el' := by
  have hdet : (Matrix.diagonal ![2, 1, 1] : Matrix (Fin 3) (Fin 3) ℝ).det = 2 := by
    rw [Matrix.det_diagonal, Fin.prod_univ_three]
    change (2 : ℝ) * 1 * 1 = 2
    norm_num
  have hm : MappedCell (Matrix.diagonal ![2, 1, 1]) 0 tet (mapCell (Matrix.diagonal ![2, 1, 1]) 0 tet) := mapCell_mapped (by rw [hdet]; norm_num)
  have hn := ufc_tetrahedron_normals _ (proper_ufcTetrahedron (K := ℝ)) sv
  obtain ⟨m, el, el', nodes, nodes', ids, h1, h2, -, h3⟩ := nedelec2_tetrahedron_maps_partial (proper_ufcTetrahedron (K := ℝ)) numbered_ufcTetrahedron tet_oriented hm
    (by rw [hdet]; norm_num) hgj hn (facet_normals_mapped proper_ufcTetrahedron hm hn) (ufc_triangle_normals _ proper_ufcTriangle triLengths) true false
    someSvdFun T none .point rfl
  exact ⟨m, el, el', nodes, nodes', ids, _, h1, h2, h3⟩

end
end FIAT
