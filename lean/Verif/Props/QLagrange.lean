/-
C75: Lagrange elements on the quadrilateral and the hexahedron.
-/
import Verif.Props.QMesh

namespace FIAT
open MvPolynomial

/-- The `Lagrange` element of degree `k` on the interval, its `entity_dofs` and its points. -/
def IsLineLagrange (k : ℕ) (L : TabElem ℝ ℝ) (ids : EntityIds Key) (nodes : List (List ℝ)) : Prop :=
  ∃ (el : PolySet ℝ (Fin 1 → ℝ) ((k + 1).choose 1) ((k + 1).choose 1) Unit) (ids0 : EntityIds ℕ) (ps : List (Fin 1 → ℝ)),
    lagrangeElement ((ufcInterval : CellData ℝ).toSimplex 1) k = some (el, ids0) ∧
    lagrangeDual ℝ ((ufcInterval : CellData ℝ).toSimplex 1) k = some (ps, ids0) ∧
    L = ciarletTab true ufcInterval el ∧ ids = intIds ids0 ∧ nodes = ps.map List.ofFn

/-- There is exactly one such element. -/
theorem lineLagrange_exists (k : ℕ) (hk : 1 ≤ k) : ∃ L ids nodes, IsLineLagrange k L ids nodes := by
  obtain ⟨el, ids, ps, -, -, h1, h2, -⟩ := line_element k hk
  exact ⟨_, _, _, el, ids, ps, h1, h2, rfl, rfl, rfl⟩

theorem lineLagrange_unique {k : ℕ} {L L' : TabElem ℝ ℝ} {ids ids' : EntityIds Key} {nodes nodes' : List (List ℝ)}
    (h : IsLineLagrange k L ids nodes) (h' : IsLineLagrange k L' ids' nodes') : L = L' ∧ ids = ids' ∧ nodes = nodes' := by
  obtain ⟨el, ids0, ps, h1, h2, rfl, rfl, rfl⟩ := h
  obtain ⟨el', ids0', ps', h1', h2', rfl, rfl, rfl⟩ := h'
  rw [h1] at h1'
  rw [h2] at h2'
  simp only [Option.some.injEq, Prod.mk.injEq] at h1' h2'
  obtain ⟨rfl, rfl⟩ := h1'
  obtain ⟨rfl, -⟩ := h2'
  exact ⟨rfl, rfl, rfl⟩

theorem line_cube {k : ℕ} (hk : 1 ≤ k) {L : TabElem ℝ ℝ} {ids : EntityIds Key} {nodes : List (List ℝ)} (h : IsLineLagrange k L ids nodes) :
    L.sd = 1 ∧ L.dim = k + 1 ∧ L.cell = ufcInterval ∧ L.shape = none ∧ ∃ φ emb P W pts, (∀ p ∈ pts, p.length = 1) ∧ (k = 1 → pts = []) ∧
      IsCubeElement L ids nodes φ emb P W (fun _ => k) ∧ Uniform L P W pts ∧
      ∀ {A : TabElem ℝ ℝ} {P' W'}, GoodCell A.cell → Uniform A P' W' pts → Uniform (productTab A L) (prodPlaces P' P) (prodWeights W' W) pts := by
  obtain ⟨el, ids0, ps, φ, pts, h1, h2, h3, h4, h5⟩ := line_element k hk
  obtain ⟨rfl, rfl, rfl⟩ := lineLagrange_unique h ⟨el, ids0, ps, h1, h2, rfl, rfl, rfl⟩
  exact ⟨rfl, Nat.choose_one_right _, rfl, rfl, φ, _, _, _, pts, h3, h4, h5, line_uniform el pts, fun g u => uniform_product g u el⟩

theorem hex_flat_nested : IsFlatOf (tensorProductCell [tensorProductCell [ufcInterval, ufcInterval], ufcInterval] : CellData ℝ).topo
    (ufcHexahedron : CellData ℝ).topo := by
  have hg' : ∀ c ∈ [(ufcInterval : CellData ℝ), ufcInterval], GoodCell c := by simp [good_interval]
  have hg : ∀ c ∈ [(tensorProductCell [ufcInterval, ufcInterval] : CellData ℝ), ufcInterval], GoodCell c := by
    simp [good_interval, tensor_good _ hg']
  refine isFlat_of (tensor_good _ hg).wf (tensor_sortedItems _ hg) good_hexahedron.wf ?_
  have h1 : (tensorProductCell [tensorProductCell [ufcInterval, ufcInterval], ufcInterval] : CellData ℝ).topo =
    (tensorProductCell [tensorProductCell [ufcInterval, ufcInterval], ufcInterval] : CellData ℤ).topo := rfl
  have h2 : (ufcHexahedron : CellData ℝ).topo = (ufcHexahedron : CellData ℤ).topo := rfl
  rw [h1, h2]
  decide +kernel

theorem flatCell_quad : IsFlatCell (tensorProductCell [ufcInterval, ufcInterval]) (ufcQuadrilateral : CellData ℝ) := ⟨rfl, quad_flat⟩

theorem flatCell_hex : IsFlatCell (tensorProductCell [tensorProductCell [ufcInterval, ufcInterval], ufcInterval])
    (ufcHexahedron : CellData ℝ) :=
  ⟨by simp [ufcHexahedron, tensorProductCell, pyProduct, ufcInterval], hex_flat_nested⟩

theorem intKeys_quad : IntKeys (ufcQuadrilateral : CellData ℝ).topo := by
  intro p hp
  have h : ∀ p ∈ (ufcQuadrilateral : CellData ℤ).topo, ∃ k, p.1 = Key.int k := by
    intro p hp
    obtain ⟨q, -, rfl⟩ := List.mem_map.1 hp
    exact ⟨_, rfl⟩
  exact h p hp

theorem intKeys_hex : IntKeys (ufcHexahedron : CellData ℝ).topo := by
  intro p hp
  have h : ∀ p ∈ (ufcHexahedron : CellData ℤ).topo, ∃ k, p.1 = Key.int k := by
    intro p hp
    obtain ⟨q, -, rfl⟩ := List.mem_map.1 hp
    exact ⟨_, rfl⟩
  exact h p hp

/-- C75: `FlattenedDimensions(TensorProductElement(Lagrange(I, k), Lagrange(I, l)))` on the quadrilateral. -/
theorem quadrilateral_element {k l : ℕ} (hk : 1 ≤ k) (hl : 1 ≤ l) {A B : TabElem ℝ ℝ} {idsA idsB : EntityIds Key} {ps qs : List (List ℝ)}
    (hA : IsLineLagrange k A idsA ps) (hB : IsLineLagrange l B idsB qs) :
    ∃ (E : TabElem ℝ ℝ) (ids : EntityIds Key), flattenedDimensions (productTab A B) (tensorEntityIds B.dim idsA idsB) = some (E, ids) ∧
      E.cell = ufcQuadrilateral ∧ E.dim = (k + 1) * (l + 1) ∧
      tensorNodes A.sd (ps.map pointNode) (qs.map pointNode) = some ((prodNodes ps qs).map fun r => (pointNode r).fn) ∧
      ∃ (hsd : E.sd = 2) (φ : ℕ → MvPolynomial (Fin E.sd) ℝ) (emb : Key → ℕ → List ℝ → Fin E.sd → ℝ),
        IsC0Element E ids (prodNodes ps qs) φ emb ∧ SpansDeg E.dim φ fun i => ![k, l] (Fin.cast hsd i) := by
  obtain ⟨a1, a2, a3, -, φ, e1, P, W, pts, -, -, a4, -, -⟩ := line_cube hk hA
  obtain ⟨b1, b2, b3, -, ψ, e2, Q, V, pts', -, -, b4, -, -⟩ := line_cube hl hB
  have h := cube_product a4 b4
  have hcell : (productTab A B).cell = tensorProductCell [ufcInterval, ufcInterval] := by
    change tensorProductCell [A.cell, B.cell] = _; rw [a3, b3]
  have hsd : (productTab A B).sd = 2 := by change A.sd + B.sd = 2; rw [a1, b1]
  refine ⟨_, _, if_pos hsd, rfl, ?_, tensorNodes_points _ _ _, hsd, _, _,
    flatten_c0 h.c0 (by rw [hcell]; exact flatCell_quad) good_quadrilateral, ?_⟩
  · change A.dim * B.dim = _; rw [a2, b2]
  · have hs := h.span
    have hfun : (Fin.append (fun _ => k) (fun _ => l) : Fin (A.sd + B.sd) → ℕ) = fun i => ![k, l] (Fin.cast hsd i) := by
      funext i
      refine Fin.addCases (fun j => ?_) (fun j => ?_) i
      · rw [Fin.append_left]
        have : Fin.cast hsd (Fin.castAdd B.sd j) = 0 := Fin.ext (by have := j.2; change (j : ℕ) = 0; omega)
        rw [this]; rfl
      · rw [Fin.append_right]
        have : Fin.cast hsd (Fin.natAdd A.sd j) = 1 := Fin.ext (by have := j.2; change A.sd + (j : ℕ) = 1; omega)
        rw [this]; rfl
    rw [hfun] at hs
    exact hs

/-- C75: `FlattenedDimensions(TensorProductElement(TensorProductElement(Lagrange(I, k), Lagrange(I, l)), Lagrange(I, m)))` on the
hexahedron. -/
theorem hexahedron_element {k l m : ℕ} (hk : 1 ≤ k) (hl : 1 ≤ l) (hm : 1 ≤ m) {A B C : TabElem ℝ ℝ} {idsA idsB idsC : EntityIds Key}
    {ps qs rs : List (List ℝ)} (hA : IsLineLagrange k A idsA ps) (hB : IsLineLagrange l B idsB qs) (hC : IsLineLagrange m C idsC rs) :
    ∃ (E : TabElem ℝ ℝ) (ids : EntityIds Key),
      flattenedDimensions (productTab (productTab A B) C) (tensorEntityIds C.dim (tensorEntityIds B.dim idsA idsB) idsC) = some (E, ids) ∧
      E.cell = ufcHexahedron ∧ E.dim = (k + 1) * (l + 1) * (m + 1) ∧
      tensorNodes (A.sd + B.sd) ((prodNodes ps qs).map pointNode) (rs.map pointNode) =
        some ((prodNodes (prodNodes ps qs) rs).map fun r => (pointNode r).fn) ∧
      ∃ (hsd : E.sd = 3) (φ : ℕ → MvPolynomial (Fin E.sd) ℝ) (emb : Key → ℕ → List ℝ → Fin E.sd → ℝ),
        IsC0Element E ids (prodNodes (prodNodes ps qs) rs) φ emb ∧ SpansDeg E.dim φ fun i => ![k, l, m] (Fin.cast hsd i) := by
  obtain ⟨a1, a2, a3, -, φ, e1, P, W, pts, -, -, a4, -, -⟩ := line_cube hk hA
  obtain ⟨b1, b2, b3, -, ψ, e2, Q, V, pts', -, -, b4, -, -⟩ := line_cube hl hB
  obtain ⟨c1, c2, c3, -, χ, e3, R, U, pts'', -, -, c4, -, -⟩ := line_cube hm hC
  have h := cube_product (cube_product a4 b4) c4
  have hcell : (productTab (productTab A B) C).cell = tensorProductCell [tensorProductCell [ufcInterval, ufcInterval], ufcInterval] := by
    change tensorProductCell [tensorProductCell [A.cell, B.cell], C.cell] = _; rw [a3, b3, c3]
  have hsd : (productTab (productTab A B) C).sd = 3 := by change A.sd + B.sd + C.sd = 3; rw [a1, b1, c1]
  refine ⟨_, _, (if_neg (by rw [hsd]; norm_num)).trans (if_pos hsd), rfl, ?_, tensorNodes_points _ _ _, hsd, _, _,
    flatten_c0 h.c0 (by rw [hcell]; exact flatCell_hex) good_hexahedron, ?_⟩
  · change A.dim * B.dim * C.dim = _; rw [a2, b2, c2]
  · have hs := h.span
    have hfun : (Fin.append (Fin.append (fun _ => k) (fun _ => l)) (fun _ => m) : Fin (A.sd + B.sd + C.sd) → ℕ) =
        fun i => ![k, l, m] (Fin.cast hsd i) := by
      funext i
      refine Fin.addCases (fun i => ?_) (fun j => ?_) i
      · rw [Fin.append_left]
        refine Fin.addCases (fun j => ?_) (fun j => ?_) i
        · rw [Fin.append_left]
          have : Fin.cast hsd (Fin.castAdd C.sd (Fin.castAdd B.sd j)) = 0 := Fin.ext (by have := j.2; change (j : ℕ) = 0; omega)
          exact (congrArg ![k, l, m] this).symm
        · rw [Fin.append_right]
          have : Fin.cast hsd (Fin.castAdd C.sd (Fin.natAdd A.sd j)) = 1 := Fin.ext (by have := j.2; change A.sd + (j : ℕ) = 1; omega)
          exact (congrArg ![k, l, m] this).symm
      · rw [Fin.append_right]
        have : Fin.cast hsd (Fin.natAdd (A.sd + B.sd) j) = 2 := Fin.ext (by have := j.2; change A.sd + B.sd + (j : ℕ) = 2; omega)
        exact (congrArg ![k, l, m] this).symm
    have hs' : SpansDeg (n := A.sd + B.sd + C.sd) (productTab (productTab A B) C).dim (prodBasis C.dim (prodBasis B.dim φ ψ) χ)
        (Fin.append (Fin.append (fun _ => k) (fun _ => l)) (fun _ => m) : Fin (A.sd + B.sd + C.sd) → ℕ) := hs
    rw [hfun] at hs'
    exact hs'

theorem append_const {m n : ℕ} (k : ℕ) : (Fin.append (fun _ : Fin m => k) (fun _ : Fin n => k)) = fun _ => k := by
  funext i
  refine Fin.addCases (fun j => ?_) (fun j => ?_) i
  · rw [Fin.append_left]
  · rw [Fin.append_right]

theorem quad_cube {k : ℕ} (hk : 1 ≤ k) {L : TabElem ℝ ℝ} {ids : EntityIds Key} {nodes : List (List ℝ)} (h : IsLineLagrange k L ids nodes) :
    ∃ φ emb P W pts, IsCubeElement (flatOf (productTab L L) ufcQuadrilateral) (flatIds (tensorEntityIds L.dim ids ids)) (prodNodes nodes nodes)
      φ emb P W (fun _ => k) ∧ Uniform (flatOf (productTab L L) ufcQuadrilateral) P W pts ∧ (k = 1 → pts = []) := by
  obtain ⟨a1, a2, a3, -, φ, e1, P, W, pts, a5, a6, a4, a7, a8⟩ := line_cube hk h
  have h2 := cube_product a4 a4
  have hcell : (productTab L L).cell = tensorProductCell [ufcInterval, ufcInterval] := by
    change tensorProductCell [L.cell, L.cell] = _; rw [a3]
  obtain ⟨P', W', q1, q2⟩ := uniform_flatten h2 (a8 a4.c0.good a7) a5 (by rw [hcell]; exact flatCell_quad) good_quadrilateral intKeys_quad
  rw [append_const] at q1
  exact ⟨_, _, P', W', pts, q1, q2, a6⟩

theorem hex_cube {k : ℕ} (hk : 1 ≤ k) {L : TabElem ℝ ℝ} {ids : EntityIds Key} {nodes : List (List ℝ)} (h : IsLineLagrange k L ids nodes) :
    ∃ φ emb P W pts, IsCubeElement (flatOf (productTab (productTab L L) L) ufcHexahedron)
      (flatIds (tensorEntityIds L.dim (tensorEntityIds L.dim ids ids) ids)) (prodNodes (prodNodes nodes nodes) nodes)
      φ emb P W (fun _ => k) ∧ Uniform (flatOf (productTab (productTab L L) L) ufcHexahedron) P W pts ∧ (k = 1 → pts = []) := by
  obtain ⟨a1, a2, a3, -, φ, e1, P, W, pts, a5, a6, a4, a7, a8⟩ := line_cube hk h
  have h2 := cube_product a4 a4
  have h2' : IsCubeElement (productTab L L) (tensorEntityIds L.dim ids ids) (prodNodes nodes nodes) (prodBasis L.dim φ φ)
      (prodEmb L.cell e1 e1) (prodPlaces P P) (prodWeights W W) (fun _ => k) := by
    have := h2
    rw [append_const] at this
    exact this
  have h3 := cube_product h2' a4
  have hcell : (productTab (productTab L L) L).cell = tensorProductCell [tensorProductCell [ufcInterval, ufcInterval], ufcInterval] := by
    change tensorProductCell [tensorProductCell [L.cell, L.cell], L.cell] = _; rw [a3]
  obtain ⟨P', W', q1, q2⟩ := uniform_flatten h3 (a8 h2.c0.good (a8 a4.c0.good a7)) a5 (by rw [hcell]; exact flatCell_hex) good_hexahedron
    intKeys_hex
  rw [append_const] at q1
  exact ⟨_, _, P', W', pts, q1, q2, a6⟩

theorem multilinear_quad : MultilinearShared ufcQuadrilateral 2 := by
  obtain ⟨L, ids, nodes, h⟩ := lineLagrange_exists 1 le_rfl
  obtain ⟨φ, emb, P, W, pts, q1, q2, q3⟩ := quad_cube le_rfl h
  obtain rfl := q3 rfl
  have := multilinear_shared q1 q2
  have hsd : (flatOf (productTab L L) ufcQuadrilateral).sd = 2 := by
    change L.sd + L.sd = 2; rw [(line_cube le_rfl h).1]
  rw [hsd] at this
  exact this

theorem multilinear_hex : MultilinearShared ufcHexahedron 3 := by
  obtain ⟨L, ids, nodes, h⟩ := lineLagrange_exists 1 le_rfl
  obtain ⟨φ, emb, P, W, pts, q1, q2, q3⟩ := hex_cube le_rfl h
  obtain rfl := q3 rfl
  have := multilinear_shared q1 q2
  have hsd : (flatOf (productTab (productTab L L) L) ufcHexahedron).sd = 3 := by
    change L.sd + L.sd + L.sd = 3; rw [(line_cube le_rfl h).1]
  rw [hsd] at this
  exact this

/-- C75: quadrilateral Lagrange elements are continuous. -/
theorem quadrilateral_continuous {k : ℕ} (hk : 1 ≤ k) {L : TabElem ℝ ℝ} {ids : EntityIds Key} {nodes : List (List ℝ)}
    (h : IsLineLagrange k L ids nodes) : ∃ (E : TabElem ℝ ℝ) (eids : EntityIds Key),
      flattenedDimensions (productTab L L) (tensorEntityIds L.dim ids ids) = some (E, eids) ∧ E.cell = ufcQuadrilateral ∧ E.sd = 2 ∧
      ∃ (φ : ℕ → MvPolynomial (Fin E.sd) ℝ) (emb : Key → ℕ → List ℝ → Fin E.sd → ℝ), IsC0Element E eids (prodNodes nodes nodes) φ emb ∧
        (SpansDeg E.dim φ fun _ => k) ∧ ContinuousAcross E.cell E.sd E.dim eids φ := by
  obtain ⟨φ, emb, P, W, pts, q1, q2, q3⟩ := quad_cube hk h
  have hsd : (productTab L L).sd = 2 := by change L.sd + L.sd = 2; rw [(line_cube hk h).1]
  refine ⟨_, _, if_pos hsd, rfl, hsd, φ, emb, q1.c0, q1.span, cube_continuous q1 ?_ ?_⟩
  · change CubeLike ufcQuadrilateral (productTab L L).sd
    rw [hsd]; exact cubeLike_quadrilateral
  · change MultilinearShared ufcQuadrilateral (productTab L L).sd
    rw [hsd]; exact multilinear_quad

/-- C75: hexahedral Lagrange elements are continuous. -/
theorem hexahedron_continuous {k : ℕ} (hk : 1 ≤ k) {L : TabElem ℝ ℝ} {ids : EntityIds Key} {nodes : List (List ℝ)}
    (h : IsLineLagrange k L ids nodes) : ∃ (E : TabElem ℝ ℝ) (eids : EntityIds Key),
      flattenedDimensions (productTab (productTab L L) L) (tensorEntityIds L.dim (tensorEntityIds L.dim ids ids) ids) = some (E, eids) ∧
      E.cell = ufcHexahedron ∧ E.sd = 3 ∧
      ∃ (φ : ℕ → MvPolynomial (Fin E.sd) ℝ) (emb : Key → ℕ → List ℝ → Fin E.sd → ℝ),
        IsC0Element E eids (prodNodes (prodNodes nodes nodes) nodes) φ emb ∧
        (SpansDeg E.dim φ fun _ => k) ∧ ContinuousAcross E.cell E.sd E.dim eids φ := by
  obtain ⟨φ, emb, P, W, pts, q1, q2, q3⟩ := hex_cube hk h
  have hsd : (productTab (productTab L L) L).sd = 3 := by change L.sd + L.sd + L.sd = 3; rw [(line_cube hk h).1]
  refine ⟨_, _, (if_neg (by rw [hsd]; norm_num)).trans (if_pos hsd), rfl, hsd, φ, emb, q1.c0, q1.span, cube_continuous q1 ?_ ?_⟩
  · change CubeLike ufcHexahedron (productTab (productTab L L) L).sd
    rw [hsd]; exact cubeLike_hexahedron
  · change MultilinearShared ufcHexahedron (productTab (productTab L L) L).sd
    rw [hsd]; exact multilinear_hex

end FIAT
