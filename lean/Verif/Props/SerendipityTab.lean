/-
C34, continued: the numbering on the product cell, and `tabulate` with its cache of derivatives.
-/
import Verif.Props.SerendipityPoints
import Verif.Props.PolySet
import Verif.Lemmas.Combine

namespace FIAT
open MvPolynomial

section unflatten

private theorem fold_setIds (τ : Key × ℕ → Key × ℕ) (lf : Key × ℕ → List ℕ) (X : List (Key × ℕ))
    (hτ : X.Pairwise fun x y => τ x ≠ τ y) (u : EntityIds Key) (k : Key) (e : ℕ) (l : List ℕ) :
    (X.foldl (fun (u : EntityIds Key) x => setIds u (τ x).1 (τ x).2 (lf x)) u).at? k e = some l ↔
      (∃ x ∈ X, τ x = (k, e) ∧ lf x = l) ∨ (∀ x ∈ X, τ x ≠ (k, e)) ∧ u.at? k e = some l := by
  induction X generalizing u with
  | nil => simp
  | cons x X ih =>
    rw [List.pairwise_cons] at hτ
    rw [List.foldl_cons, ih hτ.2, setIds_at]
    constructor
    · rintro (⟨y, hy, h⟩ | ⟨h1, h2⟩)
      · exact Or.inl ⟨y, by simp [hy], h⟩
      · split_ifs at h2 with hc
        · exact Or.inl ⟨x, by simp, Prod.ext hc.1 hc.2, by simpa using h2⟩
        · refine Or.inr ⟨?_, h2⟩
          intro y hy
          rcases List.mem_cons.1 hy with rfl | hy
          · intro hxy; exact hc (by rw [hxy]; exact ⟨rfl, rfl⟩)
          · exact h1 y hy
    · rintro (⟨y, hy, h, h'⟩ | ⟨h1, h2⟩)
      · rcases List.mem_cons.1 hy with rfl | hy
        · refine Or.inr ⟨fun z hz hzk => hτ.1 z hz (by rw [h, hzk]), ?_⟩
          rw [h, if_pos ⟨rfl, rfl⟩, h']
        · exact Or.inl ⟨y, hy, h, h'⟩
      · refine Or.inr ⟨fun y hy => h1 y (by simp [hy]), ?_⟩
        rw [if_neg]
        · exact h2
        · rintro ⟨ha, hb⟩; exact h1 x (by simp) (Prod.ext ha hb)

private theorem start_at (L : List (Key × Dict ℕ (List ℕ))) (u : EntityIds Key) (h : ∀ k e, u.at? k e = none) (k : Key)
    (e : ℕ) : (L.foldl (fun (u : EntityIds Key) p => Dict.put u p.1 []) u).at? k e = none := by
  induction L generalizing u with
  | nil => exact h k e
  | cons p L ih =>
    rw [List.foldl_cons]
    refine ih _ fun k' e' => ?_
    rw [EntityIds.at?_put]
    split_ifs
    · rfl
    · exact h k' e'

/-- `flat` is the flattened version of the topology `t`. -/
structure IsFlatOf (t flat : Topology Key) : Prop where
  wf : t.WF
  sorted : ∀ p ∈ t, sortedItems p.2 = p.2
  flat_wf : flat.WF
  ints : ∀ k e v, HasEntity flat k e v → ∃ d, k = .int d
  same : ∀ d i v, HasEntity flat (.int d) i v ↔ flatAt t d i = some v

/-- C34: the numbering on the product cell (`entity_dofs` of the element) is constructed, gives each product entity the
dofs of the flattened entity it corresponds to, and partitions the same dofs. -/
theorem serendipity_unflatten (t flat : Topology Key) (hf : IsFlatOf t flat) (ids : EntityIds Key) (n : ℕ)
    (hp : DofsPartition ids n) (hs : SameEntities flat ids) :
    ∃ u, serUnflatten t flat ids = some u ∧ DofsPartition u n ∧ SameEntities t u ∧
      ∀ d i k e, (computeUnflatteningMap t).get? (d, i) = some (k, e) → u.at? k e = ids.at? (.int d) i := by
  let X : List (Key × ℕ) := (sortedItems flat).flatMap fun p => p.2.map fun q => (p.1, q.1)
  have hX : ∀ k e, (k, e) ∈ X ↔ ∃ v, HasEntity flat k e v := by
    intro k e
    simp only [X, List.mem_flatMap, List.mem_map, mem_sortedItems]
    constructor
    · rintro ⟨p, hp1, q, hq, heq⟩
      cases heq
      exact ⟨q.2, p.2, Dict.get?_of_mem hf.flat_wf.1 hp1, Dict.get?_of_mem (hf.flat_wf.2 _ hp1) hq⟩
    · rintro ⟨v, hv⟩
      obtain ⟨es, h1, h2⟩ := hv.mem
      exact ⟨(k, es), h1, (e, v), h2, rfl⟩
  have hXnd : X.Nodup := by
    simp only [X]
    rw [List.nodup_flatMap]
    refine ⟨fun p hp1 => ?_, ?_⟩
    · have := hf.flat_wf.2 _ (mem_sortedItems.1 hp1)
      have h2 : (p.2.map fun q => (p.1, q.1)) = (p.2.map Prod.fst).map fun e => (p.1, e) := by rw [List.map_map]; rfl
      rw [h2]
      exact List.Nodup.map (fun a b h => (Prod.mk.inj h).2) this
    · have h1 : (sortedItems flat).Pairwise fun a b => a.1 < b.1 := sortedItems_pairwise_lt hf.flat_wf.1
      refine h1.imp fun h => ?_
      rw [Function.onFun, List.disjoint_left]
      intro x hx hx'
      rw [List.mem_map] at hx hx'
      obtain ⟨q, _, rfl⟩ := hx
      obtain ⟨q', _, h'⟩ := hx'
      rw [Prod.mk.injEq] at h'
      exact absurd h'.1 (ne_of_gt h)
  -- the target and the dofs of each flattened entity
  have hfl : ∀ x ∈ X, ∃ d kt l, x.1 = .int d ∧ (computeUnflatteningMap t).get? (d, x.2) = some kt ∧
      ids.at? x.1 x.2 = some l := by
    intro x hx
    obtain ⟨v, hv⟩ := (hX x.1 x.2).1 hx
    obtain ⟨d, hd⟩ := hf.ints _ _ _ hv
    have h1 := (unflatten_domain t hf.sorted d x.2).1 (by
      rw [(hf.same d x.2 v).1 (by rw [← hd]; exact hv)]; rfl)
    obtain ⟨kt, hkt⟩ := Option.isSome_iff_exists.1 h1
    obtain ⟨l, hl⟩ := Option.isSome_iff_exists.1 ((hs x.1 x.2).2 ⟨v, hv⟩)
    exact ⟨d, kt, l, hd, hkt, hl⟩
  let τ : Key × ℕ → Key × ℕ := fun x =>
    match x.1 with
    | .int d => ((computeUnflatteningMap t).get? (d, x.2)).getD (.nil, 0)
    | _ => (.nil, 0)
  let lf : Key × ℕ → List ℕ := fun x => (ids.at? x.1 x.2).getD []
  have hτ : ∀ d i kt, (computeUnflatteningMap t).get? (d, i) = some kt → τ (.int d, i) = kt := by
    intro d i kt h
    simp [τ, h]
  have hinj : ∀ x ∈ X, ∀ y ∈ X, τ x = τ y → x = y := by
    intro x hx y hy hxy
    obtain ⟨d, kt, l, h1, h2, h3⟩ := hfl x hx
    obtain ⟨d', kt', l', h1', h2', h3'⟩ := hfl y hy
    have e1 : τ x = kt := by rw [← hτ d x.2 kt h2, ← h1]
    have e2 : τ y = kt' := by rw [← hτ d' y.2 kt' h2', ← h1']
    have ekt : kt = kt' := by rw [← e1, ← e2, hxy]
    subst ekt
    obtain ⟨g1, m, v, g2, g3, g4⟩ := unflatten_sound t hf.wf.1 hf.wf.2 hf.sorted d x.2 kt.1 kt.2 h2
    obtain ⟨g1', -⟩ := unflatten_sound t hf.wf.1 hf.wf.2 hf.sorted d' y.2 kt.1 kt.2 h2'
    have hdd : d = d' := g1.trans g1'.symm
    subst hdd
    obtain ⟨i, -, hi⟩ := unflatten_bijective t hf.wf.1 hf.wf.2 kt.1 kt.2 m v g2 g3
    have a1 := hi x.2 (by rw [← g1]; exact h2)
    have a2 := hi y.2 (by rw [← g1]; exact h2')
    exact Prod.ext (h1.trans h1'.symm) (a1.trans a2.symm)
  have hpw : X.Pairwise fun x y => τ x ≠ τ y :=
    hXnd.imp_of_mem fun hx hy hne h => hne (hinj _ hx _ hy h)
  have hrun : serUnflatten t flat ids = some (X.foldl (fun (u : EntityIds Key) x => setIds u (τ x).1 (τ x).2 (lf x))
      ((sortedItems t).foldl (fun (u : EntityIds Key) p => Dict.put u p.1 []) [])) := by
    unfold serUnflatten
    rw [← foldlM_some X (fun (u : EntityIds Key) x =>
      (match x.1 with | .int n => some n | _ => none : Option ℕ).bind fun fd =>
        (Dict.get? (computeUnflatteningMap t) (fd, x.2)).bind fun kt =>
          (ids.at? x.1 x.2).bind fun l => some (setIds u kt.1 kt.2 l)) _ ?_]
    · simp only [X]
      rw [foldlM_flatMap]
      refine congrArg (fun f => List.foldlM f _ _) ?_
      funext u p
      rw [List.foldlM_map]
      rfl
    · intro x hx u
      obtain ⟨d, kt, l, h1, h2, h3⟩ := hfl x hx
      obtain ⟨k, i⟩ := x
      simp only at h1 h2 h3
      subst h1
      simp only [h2, h3, Option.bind_some, lf, Option.getD_some]
      rw [hτ d i kt h2]
  have hstart := start_at (sortedItems t) [] (fun k e => rfl)
  have hat : ∀ k e l, (X.foldl (fun (u : EntityIds Key) x => setIds u (τ x).1 (τ x).2 (lf x))
      ((sortedItems t).foldl (fun (u : EntityIds Key) p => Dict.put u p.1 []) [])).at? k e = some l ↔
      ∃ x ∈ X, τ x = (k, e) ∧ lf x = l := by
    intro k e l
    rw [fold_setIds τ lf X hpw]
    rw [hstart]
    simp
  have hlf : ∀ x ∈ X, ids.at? x.1 x.2 = some (lf x) := by
    intro x hx
    obtain ⟨d, kt, l, h1, h2, h3⟩ := hfl x hx
    simp [lf, h3]
  have hmemX : ∀ k e l, ids.at? k e = some l → (k, e) ∈ X := fun k e l h =>
    (hX k e).2 ((hs k e).1 (by rw [h]; rfl))
  have hτsound : ∀ x ∈ X, ∃ v, HasEntity t (τ x).1 (τ x).2 v := by
    intro x hx
    obtain ⟨d, kt, l, h1, h2, h3⟩ := hfl x hx
    obtain ⟨g1, m, v, g2, g3, g4⟩ := unflatten_sound t hf.wf.1 hf.wf.2 hf.sorted d x.2 kt.1 kt.2 h2
    have e1 : τ x = kt := by rw [← hτ d x.2 kt h2, ← h1]
    rw [e1]
    exact ⟨v, m, g2, g3⟩
  refine ⟨_, hrun, ⟨?_, ?_⟩, ?_, ?_⟩
  · intro k e l hl
    rw [hat] at hl
    obtain ⟨x, hx, -, rfl⟩ := hl
    exact hp.1 _ _ _ (hlf x hx)
  · intro i hi
    obtain ⟨x, ⟨l, hl, hil⟩, hu⟩ := hp.2 i hi
    have hx := hmemX _ _ _ hl
    refine ⟨τ x, ⟨l, ?_, hil⟩, ?_⟩
    · refine (hat _ _ _).2 ⟨x, hx, rfl, ?_⟩
      simpa using (hlf x hx).symm.trans hl
    · rintro ⟨k, e⟩ ⟨l', hl', hil'⟩
      obtain ⟨y, hy, hy2, rfl⟩ := (hat _ _ _).1 hl'
      rw [← hy2, hu y ⟨_, hlf y hy, hil'⟩]
  · intro k e
    constructor
    · intro h
      obtain ⟨l, hl⟩ := Option.isSome_iff_exists.1 h
      obtain ⟨x, hx, hx2, -⟩ := (hat _ _ _).1 hl
      have := hτsound x hx
      rwa [hx2] at this
    · rintro ⟨v, m, hm, hv⟩
      obtain ⟨i, hi, -⟩ := unflatten_bijective t hf.wf.1 hf.wf.2 k e m v hm hv
      obtain ⟨g1, m', v', g2, g3, g4⟩ := unflatten_sound t hf.wf.1 hf.wf.2 hf.sorted _ _ _ _ hi
      have hmem : (Key.int k.tupleSum, i) ∈ X := (hX _ _).2 ⟨v', (hf.same _ _ _).2 g4⟩
      rw [(hat k e _).2 ⟨_, hmem, hτ _ _ _ hi, rfl⟩]
      rfl
  · intro d i k e h
    obtain ⟨g1, m', v', g2, g3, g4⟩ := unflatten_sound t hf.wf.1 hf.wf.2 hf.sorted _ _ _ _ h
    have hmem : (Key.int d, i) ∈ X := (hX _ _).2 ⟨v', (hf.same _ _ _).2 g4⟩
    rw [(hat k e _).2 ⟨_, hmem, hτ _ _ _ h, rfl⟩, hlf _ hmem]

/-- A computable sufficient condition. -/
theorem isFlat_of {t flat : Topology Key} (hwf : t.WF) (hsort : ∀ p ∈ t, sortedItems p.2 = p.2)
    (hfwf : flat.WF) (hflat : flat = (flattenEntities t).map fun q => (Key.int q.1, q.2)) : IsFlatOf t flat := by
  have hget : ∀ d, Dict.get? flat (.int d) = (flattenEntities t).get? d := by
    intro d
    rw [hflat]
    generalize flattenEntities t = L
    induction L with
    | nil => rfl
    | cons q L ih =>
      rw [List.map_cons, Dict.get?_cons, Dict.get?_cons]
      by_cases h : q.1 = d
      · simp [h]
      · rw [if_neg (by simpa using h), if_neg h]; exact ih
  refine ⟨hwf, hsort, hfwf, ?_, ?_⟩
  · rintro k e v ⟨es, h1, -⟩
    have := Dict.mem_of_get? h1
    rw [hflat, List.mem_map] at this
    obtain ⟨q, _, hq⟩ := this
    cases hq
    exact ⟨_, rfl⟩
  · intro d i v
    rw [flatAt, ← hget, Option.bind_eq_some_iff]
    rfl

/-- The quadrilateral is the flattened product of two intervals, the hexahedron that of three intervals, and of a
quadrilateral and an interval; flattening the flat cells changes nothing. -/
theorem quad_flat : IsFlatOf (tensorProductCell [ufcInterval, ufcInterval] : CellData ℝ).topo
    (ufcQuadrilateral : CellData ℝ).topo :=
  have hg : ∀ c ∈ [(ufcInterval : CellData ℝ), ufcInterval], GoodCell c := by simp [good_interval]
  isFlat_of (tensor_good _ hg).wf (tensor_sortedItems _ hg) good_quadrilateral.wf rfl

theorem hex_flat : IsFlatOf (tensorProductCell [ufcInterval, ufcInterval, ufcInterval] : CellData ℝ).topo
    (ufcHexahedron : CellData ℝ).topo :=
  have hg : ∀ c ∈ [(ufcInterval : CellData ℝ), ufcInterval, ufcInterval], GoodCell c := by simp [good_interval]
  isFlat_of (tensor_good _ hg).wf (tensor_sortedItems _ hg) good_hexahedron.wf rfl

theorem hex_flat' : IsFlatOf (tensorProductCell [ufcQuadrilateral, ufcInterval] : CellData ℝ).topo
    (ufcHexahedron : CellData ℝ).topo := by
  have hg : ∀ c ∈ [(ufcQuadrilateral : CellData ℝ), ufcInterval], GoodCell c := by
    simp [good_interval, good_quadrilateral]
  refine isFlat_of (tensor_good _ hg).wf (tensor_sortedItems _ hg) good_hexahedron.wf ?_
  have h1 : (tensorProductCell [ufcQuadrilateral, ufcInterval] : CellData ℝ).topo =
    (tensorProductCell [ufcQuadrilateral, ufcInterval] : CellData ℤ).topo := rfl
  have h2 : (ufcHexahedron : CellData ℝ).topo = (ufcHexahedron : CellData ℤ).topo := rfl
  rw [h1, h2]
  decide +kernel

theorem quad_flat_self : IsFlatOf (ufcQuadrilateral : CellData ℝ).topo (ufcQuadrilateral : CellData ℝ).topo := by
  have h2 : (ufcQuadrilateral : CellData ℝ).topo = (ufcQuadrilateral : CellData ℤ).topo := rfl
  have hs : ∀ p ∈ (ufcQuadrilateral : CellData ℤ).topo, sortedItems p.2 = p.2 := by decide +kernel
  exact isFlat_of good_quadrilateral.wf (by rw [h2]; exact hs) good_quadrilateral.wf (by rw [h2]; decide +kernel)

theorem hex_flat_self : IsFlatOf (ufcHexahedron : CellData ℝ).topo (ufcHexahedron : CellData ℝ).topo := by
  have h2 : (ufcHexahedron : CellData ℝ).topo = (ufcHexahedron : CellData ℤ).topo := rfl
  have hs : ∀ p ∈ (ufcHexahedron : CellData ℤ).topo, sortedItems p.2 = p.2 := by decide +kernel
  exact isFlat_of good_hexahedron.wf (by rw [h2]; exact hs) good_hexahedron.wf (by rw [h2]; decide +kernel)

/-- The two theorems together, for the element on the quadrilateral seen as a product of two intervals. -/
example (r : ℕ) (hr : 1 ≤ r) : ∃ basis ids u, serendipity2 ufcQuadrilateral r = some (basis, ids) ∧
    serUnflatten (tensorProductCell [ufcInterval, ufcInterval] : CellData ℝ).topo (ufcQuadrilateral : CellData ℝ).topo ids =
      some u ∧ DofsPartition u basis.length := by
  obtain ⟨b, i, h, _, h3, h4, -⟩ := serendipity_quad_dofs r hr
  obtain ⟨u, hu, hu2, -⟩ := serendipity_unflatten _ _ quad_flat i _ h3 h4
  exact ⟨b, i, u, h, hu, hu2⟩

end unflatten

section tabulate
variable {D : ℕ}

/-- Specification: a cache of derivatives is right if each entry holds the derivatives it is named after, and the basis
functions themselves are present. -/
def SerCache (basis : List (MvPolynomial (Fin D) ℝ)) (cache : Dict (List ℕ) (List (MvPolynomial (Fin D) ℝ))) : Prop :=
  Dict.get? cache (List.replicate D 0) = some basis ∧
  ∀ alpha polys, Dict.get? cache alpha = some polys → polys = basis.map (iterDeriv alpha)

/-- The cache after the constructor, serendipity.py:105. -/
theorem serCache_initial (basis : List (MvPolynomial (Fin D) ℝ)) : SerCache basis [(List.replicate D 0, basis)] := by
  refine ⟨by simp [Dict.get?], fun alpha polys h => ?_⟩
  simp only [Dict.get?] at h
  split_ifs at h with hc
  · rw [← hc, ← Option.some.inj h]
    conv_lhs => rw [← List.map_id basis]
    exact List.map_congr_left fun p _ => (iterDeriv_zero p).symm

private theorem tab_step (basis : List (MvPolynomial (Fin D) ℝ)) (points : List (Fin D → ℝ))
    (T : Dict (List ℕ) (List (List ℝ))) (cache : Dict (List ℕ) (List (MvPolynomial (Fin D) ℝ)))
    (hc : SerCache basis cache) (alpha : List ℕ) :
    ∃ cache', serTabStep points (T, cache) alpha =
      some (Dict.put T alpha (basis.map fun p => points.map fun x => eval x (iterDeriv alpha p)), cache') ∧
      SerCache basis cache' := by
  unfold serTabStep
  cases h : Dict.get? cache alpha with
  | some polys =>
    refine ⟨cache, ?_, hc⟩
    simp only [h, Option.bind_eq_bind, Option.bind_some]
    rw [hc.2 alpha polys h, List.map_map]
    rfl
  | none =>
    refine ⟨Dict.put cache alpha (basis.map (serDiff alpha)), ?_, ?_, ?_⟩
    · simp only [h, hc.1, Option.map_some, Option.bind_eq_bind, Option.bind_some]
      rw [List.map_map]
      rfl
    · rw [Dict.get?_put]
      split_ifs with hz
      · exfalso
        rw [hz, hc.1] at h
        cases h
      · exact hc.1
    · intro beta polys hb
      rw [Dict.get?_put] at hb
      split_ifs at hb with hz
      · rw [← Option.some.inj hb, ← hz]; rfl
      · exact hc.2 beta polys hb

/-- C34: with a right cache, `tabulate(order, points)` succeeds, the table contains for every derivative of order up to
`order` the values of the derivatives of the basis functions at the points, and the new cache is right. -/
theorem serendipity_tabulate (hD : 1 ≤ D) (basis : List (MvPolynomial (Fin D) ℝ))
    (cache : Dict (List ℕ) (List (MvPolynomial (Fin D) ℝ))) (hc : SerCache basis cache) (order : ℕ)
    (points : List (Fin D → ℝ)) :
    ∃ T cache', serTabulate cache order points = some (T, cache') ∧ SerCache basis cache' ∧
      (∀ alpha, alpha ∈ Dict.keys T ↔ alpha.length = D ∧ alpha.sum ≤ order) ∧
      ∀ alpha : List ℕ, alpha.length = D → alpha.sum ≤ order →
        Dict.get? T alpha = some (basis.map fun p => points.map fun x => eval x (iterDeriv alpha p)) := by
  have key : ∀ (L : List (List ℕ)) (T : Dict (List ℕ) (List (List ℝ)))
      (cache : Dict (List ℕ) (List (MvPolynomial (Fin D) ℝ))), SerCache basis cache →
      ∃ T' cache', L.foldlM (serTabStep points) (T, cache) = some (T', cache') ∧ SerCache basis cache' ∧
      (∀ alpha, alpha ∈ Dict.keys T' ↔ alpha ∈ L ∨ alpha ∈ Dict.keys T) ∧
      ∀ alpha, Dict.get? T' alpha = if alpha ∈ L then
        some (basis.map fun p => points.map fun x => eval x (iterDeriv alpha p)) else Dict.get? T alpha := by
    intro L
    induction L with
    | nil => intro T cache hc; exact ⟨T, cache, rfl, hc, by simp, by simp⟩
    | cons a L ih =>
      intro T cache hc
      obtain ⟨c1, h1, h2⟩ := tab_step basis points T cache hc a
      obtain ⟨T', c2, h3, h4, h5, h6⟩ := ih (Dict.put T a (basis.map fun p => points.map fun x => eval x (iterDeriv a p)))
        c1 h2
      refine ⟨T', c2, ?_, h4, ?_, ?_⟩
      · rw [List.foldlM_cons, h1]
        exact h3
      · intro alpha
        rw [h5, Dict.mem_keys_put, List.mem_cons]
        tauto
      · intro alpha
        rw [h6, Dict.get?_put]
        by_cases ha : alpha ∈ L
        · simp [ha]
        · by_cases haa : a = alpha
          · subst haa; simp [ha]
          · rw [if_neg ha, if_neg haa, if_neg]
            simp only [List.mem_cons, not_or]
            exact ⟨fun h => haa h.symm, ha⟩
  obtain ⟨T, c, h1, h2, h3, h4⟩ := key (jetKeys D order) [] cache hc
  refine ⟨T, c, h1, h2, fun alpha => ?_, fun alpha ha hs => ?_⟩
  · rw [h3, jetKeys_mem D order hD]; simp [Dict.keys]
  · rw [h4, if_pos ((jetKeys_mem D order hD alpha).2 ⟨ha, hs⟩)]

/-- A sequence of calls of `tabulate` on the same element: the list of the tables. -/
noncomputable def serTabulateSeq (cache : Dict (List ℕ) (List (MvPolynomial (Fin D) ℝ))) :
    List (ℕ × List (Fin D → ℝ)) → Option (List (Dict (List ℕ) (List (List ℝ))))
  | [] => some []
  | c :: cs => (serTabulate cache c.1 c.2).bind fun r => (serTabulateSeq r.2 cs).map fun Ts => r.1 :: Ts

/-- C34: the result of a call of `tabulate` does not depend on the calls made before it: after any sequence of calls on a
newly constructed element, each table holds the derivatives of the basis functions at the points of its own call. -/
theorem serendipity_tabulate_history (hD : 1 ≤ D) (basis : List (MvPolynomial (Fin D) ℝ))
    (calls : List (ℕ × List (Fin D → ℝ))) :
    ∃ Ts, serTabulateSeq [(List.replicate D 0, basis)] calls = some Ts ∧ Ts.length = calls.length ∧
      ∀ (k : ℕ) c T, calls[k]? = some c → Ts[k]? = some T → ∀ alpha : List ℕ, alpha.length = D → alpha.sum ≤ c.1 →
        Dict.get? T alpha = some (basis.map fun p => c.2.map fun x => eval x (iterDeriv alpha p)) := by
  have key : ∀ cache, SerCache basis cache → ∃ Ts, serTabulateSeq cache calls = some Ts ∧ Ts.length = calls.length ∧
      ∀ (k : ℕ) c T, calls[k]? = some c → Ts[k]? = some T → ∀ alpha : List ℕ, alpha.length = D → alpha.sum ≤ c.1 →
        Dict.get? T alpha = some (basis.map fun p => c.2.map fun x => eval x (iterDeriv alpha p)) := by
    induction calls with
    | nil => intro cache _; exact ⟨[], rfl, rfl, by simp⟩
    | cons c cs ih =>
      intro cache hc
      obtain ⟨T, c', h1, h2, -, h3⟩ := serendipity_tabulate hD basis cache hc c.1 c.2
      obtain ⟨Ts, g1, g2, g3⟩ := ih c' h2
      refine ⟨T :: Ts, ?_, by simp [g2], ?_⟩
      · rw [serTabulateSeq, h1, Option.bind_some, g1]; rfl
      · intro k d T' hd hT'
        rcases k with _ | k
        · simp only [List.getElem?_cons_zero, Option.some.injEq] at hd hT'
          subst hd hT'
          exact h3
        · rw [List.getElem?_cons_succ] at hd hT'
          exact g3 k d T' hd hT'
  exact key _ (serCache_initial basis)

/-- Non-vacuity: two calls, the second of which finds the first derivatives in the cache. -/
example : ∃ Ts, serTabulateSeq (D := 2) [([0, 0], quadBasis 2)] [(1, [fun _ => 0]), (2, [fun _ => 1])] = some Ts ∧
    Ts.length = 2 := by
  obtain ⟨Ts, h, h2, -⟩ := serendipity_tabulate_history (D := 2) (by norm_num) (quadBasis 2)
    [(1, [fun _ => 0]), (2, [fun _ => 1])]
  exact ⟨Ts, h, h2⟩

end tabulate

section degree
variable {D : ℕ}

private theorem func_degree (r : ℕ) (hr : 1 ≤ r) (e : SerEnt D) (he : e.OK) (p : MvPolynomial (Fin D) ℝ)
    (hp : p ∈ e.funcs r) : p.totalDegree ≤ (if e.2.length = 0 then 0 else r) + (D - e.2.length) := by
  rw [SerEnt.funcs, List.mem_map] at hp
  obtain ⟨a, ha, rfl⟩ := hp
  rw [mem_serIdx r hr e he] at ha
  have hcard : ∑ c, (if e.1 c = none then 1 else 0) = e.2.length := by
    rw [← List.toFinset_card_of_nodup he.1, Finset.sum_boole]
    simp only [Nat.cast_id]
    congr 1
    ext c
    simp [he.2.1 c]
  have hcard' : ∑ c, (if e.1 c = none then 0 else 1) = D - e.2.length := by
    have : ∑ c : Fin D, ((if e.1 c = none then 1 else 0) + (if e.1 c = none then 0 else 1)) = D := by
      rw [Finset.sum_congr rfl (g := fun _ => 1) (fun c _ => by split_ifs <;> rfl)]
      simp
    rw [Finset.sum_add_distrib, hcard] at this
    omega
  rw [totalDegree]
  refine Finset.sup_le fun m hm => ?_
  rw [serPhi_eq_prodPol, mem_support_iff, coeff_C_mul, coeff_prodPol] at hm
  have hm2 := right_ne_zero_of_mul hm
  rw [Finset.prod_ne_zero_iff] at hm2
  rw [Finsupp.sum_fintype _ _ (by simp)]
  have hle : ∀ c, m c ≤ a c + 2 * (if e.1 c = none then 1 else 0) + (if e.1 c = none then 0 else 1) := by
    intro c
    have h1 := (Polynomial.le_natDegree_of_ne_zero (hm2 c (Finset.mem_univ c))).trans (serFac_natDegree _ _)
    by_cases hc : e.1 c = none
    · rw [if_pos hc] at h1 ⊢
      rw [if_pos hc]; omega
    · rw [if_neg hc] at h1 ⊢
      rw [if_neg hc]; omega
  have h := Finset.sum_le_sum fun c (_ : c ∈ Finset.univ) => hle c
  rw [Finset.sum_add_distrib, Finset.sum_add_distrib, ← Finset.mul_sum, hcard, hcard'] at h
  split_ifs with h0
  · have hz : ∑ c, a c = 0 := Finset.sum_eq_zero fun c _ => ha.1 c (by
      intro hc
      have := (he.2.1 c).2 hc
      rw [List.length_eq_zero_iff.1 h0] at this
      simp at this)
    omega
  · omega

/-- C34: on the quadrilateral `degree()` bounds the degree of the basis functions. -/
theorem serendipity_quad_degree (r : ℕ) (hr : 1 ≤ r) (basis : List (MvPolynomial (Fin 2) ℝ)) (ids : EntityIds Key)
    (h : serendipity2 ufcQuadrilateral r = some (basis, ids)) (p : MvPolynomial (Fin 2) ℝ) (hp : p ∈ basis) :
    p.totalDegree ≤ serDegree r := by
  rw [serendipity2] at h
  split_ifs at h
  rw [Option.some.injEq, Prod.mk.injEq] at h
  have hb : basis = quadEnts.flatMap (SerEnt.funcs r) := by rw [← quad_basis, ← h.1]; rfl
  rw [hb, List.mem_flatMap] at hp
  obtain ⟨e, he, hp⟩ := hp
  have := func_degree r hr e (quad_cell.ents.ok e he) p hp
  unfold serDegree
  split_ifs at this <;> omega

/-- On the hexahedron it does not: for degree 1, `degree()` is 2 and a vertex function has total degree 3.  The degree of
the basis functions is at most `r + 2`. -/
theorem serendipity_hex_degree (r : ℕ) (hr : 1 ≤ r) (basis : List (MvPolynomial (Fin 3) ℝ)) (ids : EntityIds Key)
    (h : serendipity3 ufcHexahedron r = some (basis, ids)) :
    (∀ p ∈ basis, p.totalDegree ≤ r + 2) ∧ (r = 1 → ∃ p ∈ basis, serDegree r < p.totalDegree) := by
  rw [serendipity3] at h
  split_ifs at h
  rw [Option.some.injEq, Prod.mk.injEq] at h
  have hb : basis = hexEnts.flatMap (SerEnt.funcs r) := by rw [← hex_basis, ← h.1]; rfl
  constructor
  · intro p hp
    rw [hb, List.mem_flatMap] at hp
    obtain ⟨e, he, hp⟩ := hp
    have := func_degree r hr e (hex_cell.ents.ok e he) p hp
    split_ifs at this <;> omega
  · rintro rfl
    refine ⟨X 0 * X 1 * X 2, ?_, ?_⟩
    · rw [hb, List.mem_flatMap]
      refine ⟨(![some true, some true, some true], []), by decide +kernel, ?_⟩
      simp [SerEnt.funcs, serIdx, serPhi, serFactor, serLam, Fin.prod_univ_three]
    · have : (X 0 * X 1 * X 2 : MvPolynomial (Fin 3) ℝ) =
          monomial (Finsupp.single 0 1 + Finsupp.single 1 1 + Finsupp.single 2 1) 1 := by
        simp [X, monomial_mul]
      rw [this, totalDegree_monomial _ (by norm_num), Finsupp.sum_fintype _ _ (by simp), Fin.sum_univ_three]
      simp [serDegree, Finsupp.single_apply]

end degree

end FIAT
