/-
C76: two wrapped products, enriched and flattened.
-/
import Verif.Props.RtcCore

namespace FIAT
open MvPolynomial

theorem flat_same {c' c : CellData ℝ} (g : GoodCell c') (hc : IsFlatCell c' c) {ids : EntityIds Key} (hw : Topology.WF ids)
    (ho : InOrder ids) (hs : SameEntities c'.topo ids) : SameEntities c.topo (flatIds ids) := by
  intro k i
  constructor
  · intro h
    obtain ⟨l, hl⟩ := Option.isSome_iff_exists.1 h
    obtain ⟨m, h1, -⟩ := Option.bind_eq_some_iff.1 hl
    obtain ⟨d, rfl⟩ := intMap_key h1
    obtain ⟨D, e, q1, q2⟩ := (flat_dofs' g hc hw ho hs _ _ _).1 hl
    obtain ⟨v, hv⟩ := (hs D e).1 (by rw [q2]; rfl)
    exact ⟨v, (flat_entities' g hc _ _ _).2 ⟨D, e, q1, hv⟩⟩
  · rintro ⟨v, hv⟩
    obtain ⟨d, rfl⟩ := hc.flat.ints _ _ _ hv
    obtain ⟨D, e, q1, q2⟩ := (flat_entities' g hc _ _ _).1 hv
    obtain ⟨l, hl⟩ := Option.isSome_iff_exists.1 ((hs D e).2 ⟨v, q2⟩)
    rw [(flat_dofs' g hc hw ho hs d i l).2 ⟨D, e, q1, hl⟩]
    rfl

theorem flat_partition {c' c : CellData ℝ} (g : GoodCell c') (hc : IsFlatCell c' c) {ids : EntityIds Key} (hw : Topology.WF ids)
    (ho : InOrder ids) (hs : SameEntities c'.topo ids) {n : ℕ} (hp : DofsPartition ids n) : DofsPartition (flatIds ids) n := by
  have dkey : ∀ {k i l}, (flatIds ids).at? k i = some l → ∃ d, k = .int d := by
    intro k i l h
    obtain ⟨m, h1, -⟩ := Option.bind_eq_some_iff.1 h
    exact intMap_key h1
  refine ⟨fun k i l hl => ?_, fun x hx => ?_⟩
  · obtain ⟨d, rfl⟩ := dkey hl
    obtain ⟨D, e, -, q2⟩ := (flat_dofs' g hc hw ho hs _ _ _).1 hl
    exact hp.1 _ _ _ q2
  · obtain ⟨⟨D, e⟩, ⟨l, h1, h2⟩, h3⟩ := hp.2 x hx
    obtain ⟨v, m, hm1, hm2⟩ := (hs D e).1 (by rw [h1]; rfl)
    obtain ⟨j, hj, hj'⟩ := unflatten_bijective c'.topo g.wf.1 g.wf.2 D e m v hm1 hm2
    refine ⟨(.int D.tupleSum, j), ⟨l, (flat_dofs' g hc hw ho hs _ _ _).2 ⟨D, e, hj, h1⟩, h2⟩, ?_⟩
    rintro ⟨k, j'⟩ ⟨l', h4, h5⟩
    obtain ⟨d, rfl⟩ := dkey h4
    obtain ⟨D', e', q1, q2⟩ := (flat_dofs' g hc hw ho hs _ _ _).1 h4
    have h6 := h3 (D', e') ⟨l', q2, h5⟩
    simp only [Prod.mk.injEq] at h6
    obtain ⟨rfl, rfl⟩ := h6
    have h7 := (unflatten_sound c'.topo g.wf.1 g.wf.2 hc.flat.sorted _ _ _ _ q1).1
    subst h7
    rw [hj' j' q1]

theorem good_square : GoodCell (tensorProductCell [ufcInterval, ufcInterval] : CellData ℝ) := tensor_good _ (by simp [good_interval])

theorem square_order : ∀ d es, (d, es) ∈ (tensorProductCell [ufcInterval, ufcInterval] : CellData ℝ).topo → Dict.keys es = List.range es.length := by
  have h1 : (tensorProductCell [ufcInterval, ufcInterval] : CellData ℝ).topo = (tensorProductCell [ufcInterval, ufcInterval] : CellData ℤ).topo := rfl
  rw [h1]
  have h : ∀ p ∈ (tensorProductCell [ufcInterval, ufcInterval] : CellData ℤ).topo, Dict.keys p.2 = List.range p.2.length := by decide +kernel
  exact fun d es hm => h (d, es) hm

/-- The element `FlattenedDimensions(EnrichedElement(X, Y))` of two wrapped products of elements on the interval. -/
theorem flat_pair {X Y : EnrichPart} {w w' : ℕ → Fin 2 → MvPolynomial (Fin 2) ℝ} {emb : Key → ℕ → List ℝ → Fin 2 → ℝ}
    (hX : TabulatesFields X.el w emb) (hY : TabulatesFields Y.el w' emb)
    (cX : X.el.cell = tensorProductCell [ufcInterval, ufcInterval]) (cY : Y.el.cell = tensorProductCell [ufcInterval, ufcInterval])
    (dX : X.el.sd = 2) (hmap : Y.map = X.map) (sX : X.el.shape = some 2) (sY : Y.el.shape = some 2)
    (iX : Topology.WF X.ids ∧ SameEntities X.el.cell.topo X.ids ∧ DofsPartition X.ids X.el.dim)
    (iY : Topology.WF Y.ids ∧ SameEntities X.el.cell.topo Y.ids ∧ DofsPartition Y.ids Y.el.dim) :
    ∃ E ids, ((enrichedElement [X, Y]).bind fun E => (flattenedDimensions E.1 E.2.1).map fun F => (F.1, F.2, E.2.2.1)) =
        some (E, ids, X.map) ∧ E.cell = ufcQuadrilateral ∧ E.sd = 2 ∧ E.shape = some 2 ∧ E.dim = X.el.dim + Y.el.dim ∧
      SameEntities E.cell.topo ids ∧ DofsPartition ids E.dim ∧
      TabulatesFields E (appendFields X.el.dim w w') (flatEmb (tensorProductCell [ufcInterval, ufcInterval] : CellData ℝ).topo emb) ∧
      ∀ d i D e lX lY, Dict.get? (computeUnflatteningMap (tensorProductCell [ufcInterval, ufcInterval] : CellData ℝ).topo) (d, i) = some (D, e) →
        X.ids.at? D e = some lX → Y.ids.at? D e = some lY → ids.at? (.int d) i = some (lX ++ lY.map (X.el.dim + ·)) := by
  obtain ⟨E, ids, e1, e2, e3, e4, e5, e6, e7, e8⟩ := enriched_fields hX hY (by rw [cX, cY]) hmap sX sY (by rw [cX]; exact good_square.wf) iX iY
  have hsd : E.sd = 2 := e3.trans dX
  have hcell : E.cell = tensorProductCell [ufcInterval, ufcInterval] := e2.trans cX
  have hshape := concatenate_shape _ _ _ e6
  rw [cX] at hshape
  have hw : Topology.WF ids := shape_wf hshape.symm good_square.wf
  have ho : InOrder ids := shape_order hshape.symm square_order
  have hs : SameEntities (tensorProductCell [ufcInterval, ufcInterval] : CellData ℝ).topo ids := by rw [← cX]; exact e7.same
  refine ⟨flatOf E ufcQuadrilateral, flatIds ids, ?_, rfl, hsd, e4, e5, flat_same good_square flatCell_quad hw ho hs, ?_, ?_, ?_⟩
  · rw [e1, Option.bind_some]
    change (flattenedDimensions E ids).map _ = _
    unfold flattenedDimensions
    rw [if_pos hsd]
    rfl
  · have := flat_partition good_square flatCell_quad hw ho hs e7.part
    change DofsPartition (flatIds ids) E.dim
    rw [e5]
    simpa using this
  · have := flat_fields e8 (by rw [hcell]; exact good_square) (c := ufcQuadrilateral) (by rw [hcell]; exact flatCell_quad)
    rwa [hcell] at this
  · intro d i D e lX lY h1 h2 h3
    exact (flat_dofs' good_square flatCell_quad hw ho hs _ _ _).2 ⟨D, e, h1, concat_two e7 iX.2.2 h2 h3⟩

end FIAT
