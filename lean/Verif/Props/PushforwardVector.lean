/-
C89: Raviart-Thomas, Brezzi-Douglas-Marini and Nedelec elements and the Piola mappings they report.
-/
import Verif.Lemmas.PiolaTransport
import Verif.Props.ConformExample

namespace FIAT
open MvPolynomial
section
variable {D : ℕ}

/-- Specification: the values of the basis functions of `el'` at mapped points are the push-forwards, under the named mapping, of the values of
those of `el`, in the same order. -/
def MapsVector {N N' m : ℕ} (mapping : PullBack) (A : Matrix (Fin D) (Fin D) ℝ) (b : Fin D → ℝ) (el : PolySet ℝ (Fin D → ℝ) N m (Fin D))
    (el' : PolySet ℝ (Fin D → ℝ) N' m (Fin D)) : Prop :=
  ∀ pts : List (Fin D → ℝ), ∃ (r r' : Dict (List ℕ) (Fin m → Fin D → ℕ → ℝ)) (T T' : Fin m → Fin D → ℕ → ℝ),
    el.tabulate pts 0 = some r ∧ el'.tabulate (pts.map (cellMap A b)) 0 = some r' ∧
    Dict.get? r (List.replicate D 0) = some T ∧ Dict.get? r' (List.replicate D 0) = some T' ∧
    ∀ i, ∀ j < pts.length, Pushes mapping A (fun c => T i c j) fun c => T' i c j

/-- Specification: the dofs of the vertices, edges and faces (of dimension less than `D`) take the same values on a field and on its
push-forward. -/
def DofsCarried (mapping : PullBack) (A : Matrix (Fin D) (Fin D) ℝ) (b : Fin D → ℝ) (ids : EntityIds ℕ)
    (nodes nodes' : List (Functional ℝ (Fin D → ℝ))) : Prop :=
  ∀ d e l, ids.at? d e = some l → d < D → ∀ i ∈ l, ∃ a a', nodes[i]? = some a ∧ nodes'[i]? = some a' ∧
    ∀ w w' : Fin D → MvPolynomial (Fin D) ℝ, (∀ x, Pushes mapping A (fun c => eval x (w c)) fun c => eval (cellMap A b x) (w' c)) →
      a.onField (fieldOf w) = a'.onField (fieldOf w')

variable {A : Matrix (Fin D) (Fin D) ℝ} {b : Fin D → ℝ} {s s' : SimplexCell (Fin D → ℝ)}

theorem dofsCarried_of {mapping : PullBack} {R : (Fin D → MvPolynomial (Fin D) ℝ) → Fin D → MvPolynomial (Fin D) ℝ}
    (hR : ∀ w w' : Fin D → MvPolynomial (Fin D) ℝ, (∀ x, Pushes mapping A (fun c => eval x (w c)) fun c => eval (cellMap A b x) (w' c)) ↔ w = R w')
    {ids : EntityIds ℕ} {nodes nodes' : List (Functional ℝ (Fin D → ℝ))}
    (h : ∀ d e l, ids.at? d e = some l → d < D → TraceNodes R nodes nodes' l) : DofsCarried mapping A b ids nodes nodes' := by
  intro d e l hl hd i hi
  obtain ⟨a, a', h1, h2, h3⟩ := h d e l hl hd i hi
  refine ⟨a, a', h1, h2, fun w w' hw => ?_⟩
  rw [(hR w w').1 hw]
  exact h3 w'

theorem maps_vector_core {N N' m : ℕ} {mapping : PullBack} {R : (Fin D → MvPolynomial (Fin D) ℝ) → Fin D → MvPolynomial (Fin D) ℝ}
    (hR : ∀ w w' : Fin D → MvPolynomial (Fin D) ℝ, (∀ x, Pushes mapping A (fun c => eval x (w c)) fun c => eval (cellMap A b x) (w' c)) ↔ w = R w')
    {V : (Fin D → MvPolynomial (Fin D) ℝ) → Prop} (hV : ∀ w, V w → V (R w)) {ids : EntityIds ℕ} {nodes nodes' : List (Functional ℝ (Fin D → ℝ))}
    {el : PolySet ℝ (Fin D → ℝ) N m (Fin D)} {el' : PolySet ℝ (Fin D → ℝ) N' m (Fin D)} (hlen : nodes.length = m)
    (h : IsNodalElement V nodes el) (h' : IsNodalElement V nodes' el') (hs : ProperSimplex ℝ s) (hnum : NumberedSimplex s)
    (hp : DofsPartition ids nodes.length) (hsame : SameEntities s.topo ids)
    (ht : ∀ d e l, ids.at? d e = some l → d < D → TraceNodes R nodes nodes' l) (hint : ids.at? D 0 = some []) : MapsVector mapping A b el el' := by
  obtain ⟨ψ, a1, a2, a3, a4⟩ := h
  obtain ⟨ψ', a1', a2', a3', a4'⟩ := h'
  have hq : (fun i : Fin m => R (ψ' i)) = ψ := by
    refine dual_family_unique (fun c : Fin D => [(c : ℕ)]) hlen (fun i l hl j => a3 i l hl j) (fun j => a2 _ (hV _ (a1' j))) (fun i l hl j => ?_)
    have hi : i < nodes.length := (List.getElem?_eq_some_iff.1 hl).1
    obtain ⟨⟨d, e⟩, ⟨ll, q1, q2⟩, -⟩ := hp.2 i hi
    obtain ⟨t, hent⟩ := (hsame d e).1 (by rw [q1]; rfl)
    have hd : d < D := by
      obtain ⟨τ, t1, t2, -, -⟩ := entity_tuple hs hent
      have hle : d ≤ D := by
        have := Fintype.card_le_of_injective (fun j => (⟨τ j, t2 j⟩ : Fin (D + 1))) (fun x y hxy => t1 (Fin.mk.inj hxy))
        simpa using this
      rcases hle.lt_or_eq with hlt | rfl
      · exact hlt
      · have he : e = 0 := by
          have := ((hnum.1 d le_rfl).2 e).1 ⟨t, hent⟩
          simpa using this
        subst he
        rw [hint, Option.some.injEq] at q1
        rw [← q1] at q2
        cases q2
    obtain ⟨a, a', b1, b2, b3⟩ := ht d e ll q1 hd i q2
    rw [hl, Option.some.injEq] at b1
    subst b1
    exact (b3 (ψ' j)).trans (a3' i a' b2 j)
  intro pts
  obtain ⟨r, r1, r2, r3⟩ := a4 pts 0
  obtain ⟨r', r1', r2', r3'⟩ := a4' (pts.map (cellMap A b)) 0
  have hz : (List.replicate D 0).length = D ∧ (List.replicate D 0).sum ≤ 0 := by simp
  obtain ⟨T, hT⟩ := Option.isSome_iff_exists.1 (Dict.get?_isSome_iff.2 ((r2 _).2 hz))
  obtain ⟨T', hT'⟩ := Option.isSome_iff_exists.1 (Dict.get?_isSome_iff.2 ((r2' _).2 hz))
  refine ⟨r, r', T, T', r1, r1', hT, hT', fun i j hj => ?_⟩
  have hx : pts[j]? = some pts[j] := List.getElem?_eq_getElem hj
  have hx' : (pts.map (cellMap A b))[j]? = some (cellMap A b pts[j]) := by rw [List.getElem?_map, hx]; rfl
  have e1 : (fun c => T i c j) = fun c => eval pts[j] (ψ i c) := by
    funext c
    rw [r3 _ _ hT i c j _ hx, iterDeriv_zero]
  have e2 : (fun c => T' i c j) = fun c => eval (cellMap A b pts[j]) (ψ' i c) := by
    funext c
    rw [r3' _ _ hT' i c j _ hx', iterDeriv_zero]
  rw [e1, e2]
  exact (hR (ψ i) (ψ' i)).2 (congrFun hq i).symm pts[j]

/-- The entity dofs of the Nedelec dual do not depend on the coordinates of the vertices. -/
theorem nedDual_ids (hD : D = 2 ∨ D = 3) (h : MappedCell A b s s') {gj : ℕ → ℕ → List ℝ} {k : ℕ} {v : DualVariant} {nodes nodes' ids ids'}
    (h1 : nedDual gj k v D s = some (nodes, ids)) (h2 : nedDual gj k v D s' = some (nodes', ids')) : ids' = ids := by
  rcases hD with rfl | rfl
  · change nedDual2 gj s k v = _ at h1
    change nedDual2 gj s' k v = _ at h2
    unfold nedDual2 at h1 h2
    obtain ⟨e1, -, h1⟩ := Option.bind_eq_some_iff.1 h1
    obtain ⟨e2, -, h1⟩ := Option.bind_eq_some_iff.1 h1
    obtain ⟨f1, -, h2⟩ := Option.bind_eq_some_iff.1 h2
    obtain ⟨f2, -, h2⟩ := Option.bind_eq_some_iff.1 h2
    obtain ⟨i0, hi0, h1⟩ := Option.bind_eq_some_iff.1 h1
    obtain ⟨p0, hp0, h1⟩ := Option.bind_eq_some_iff.1 h1
    obtain ⟨st, hst, h1⟩ := Option.bind_eq_some_iff.1 h1
    obtain ⟨i1, hi1, h1⟩ := Option.bind_eq_some_iff.1 h1
    rw [emptyLoop_map h, hi0, makePoints_map h, hp0] at h2
    simp only [Option.bind_eq_bind, Option.bind_some, Option.map_some, List.length_map, sameLoop_map h, hst, hi1] at h2
    rw [Option.some.injEq, Prod.mk.injEq] at h1 h2
    exact h2.2.symm.trans h1.2
  · change nedDual3 gj s k v = _ at h1
    change nedDual3 gj s' k v = _ at h2
    unfold nedDual3 at h1 h2
    obtain ⟨e1, -, h1⟩ := Option.bind_eq_some_iff.1 h1
    obtain ⟨e2, -, h1⟩ := Option.bind_eq_some_iff.1 h1
    obtain ⟨e3, -, h1⟩ := Option.bind_eq_some_iff.1 h1
    obtain ⟨f1, -, h2⟩ := Option.bind_eq_some_iff.1 h2
    obtain ⟨f2, -, h2⟩ := Option.bind_eq_some_iff.1 h2
    obtain ⟨f3, -, h2⟩ := Option.bind_eq_some_iff.1 h2
    have key : ∀ st, (if 0 < k then (makePoints ℝ s' 2 0 (k + 2)).bind fun fpts => sameLoop s 2 (2 * fpts.length) st else some st) =
        (if 0 < k then (makePoints ℝ s 2 0 (k + 2)).bind fun fpts => sameLoop s 2 (2 * fpts.length) st else some st) := by
      intro st
      rw [makePoints_map h]
      cases makePoints ℝ s 2 0 (k + 2) <;> simp
    obtain ⟨i0, hi0, h1⟩ := Option.bind_eq_some_iff.1 h1
    obtain ⟨p0, hp0, h1⟩ := Option.bind_eq_some_iff.1 h1
    obtain ⟨st, hst, h1⟩ := Option.bind_eq_some_iff.1 h1
    obtain ⟨st2, hst2, h1⟩ := Option.bind_eq_some_iff.1 h1
    obtain ⟨i1, hi1, h1⟩ := Option.bind_eq_some_iff.1 h1
    rw [emptyLoop_map h, hi0, makePoints_map h, hp0] at h2
    simp only [Option.bind_eq_bind, Option.bind_some, Option.map_some, List.length_map, sameLoop_map h, hst, key] at h2
    rw [hst2] at h2
    simp only [Option.bind_some, hi1] at h2
    rw [Option.some.injEq, Prod.mk.injEq] at h1 h2
    exact h2.2.symm.trans h1.2

theorem nedelec_dual_of {gj : ℕ → ℕ → List ℝ} {degree : ℕ} {svd : SvdFun} {T : DigitTable} {variant : Option (List Char)} {v : DualVariant}
    (hv : dualVariant T variant degree = some v) {x : Σ m, PolySet ℝ (Fin D → ℝ) ((degree + 1 + D).choose D) m (Fin D)} {nodes ids}
    (h : nedelec gj degree svd T s variant = some (x, nodes, ids)) : nedDual gj degree v D s = some (nodes, ids) := by
  unfold nedelec at h
  rw [hv] at h
  simp only [Option.bind_eq_bind, Option.bind_some] at h
  obtain ⟨S, -, h⟩ := Option.bind_eq_some_iff.1 h
  obtain ⟨d, hd, h⟩ := Option.bind_eq_some_iff.1 h
  obtain ⟨el, -, h⟩ := Option.bind_eq_some_iff.1 h
  rw [Option.some.injEq, Prod.mk.injEq] at h
  rw [hd, h.2]

/-- C89: Nedelec elements of the first kind of every degree, on a cell and on its image under an orientation preserving affine map: the dofs of
edges and faces are carried by the mapping that the class reports; when the cell has no dofs of its own (the lowest degree, and the second lowest
on tetrahedra) the mapping carries the basis functions of one element to those of the other. -/
theorem nedelec_maps_partial (hD : D = 2 ∨ D = 3) (hs : ProperSimplex ℝ s) (hnum : NumberedSimplex s) (ho : 0 < orientation fun i : Fin (D + 1) => s.v i)
    (h : MappedCell A b s s') (hA : 0 < A.det) {gj : ℕ → ℕ → List ℝ} (hgj : NodesOK gj) (degree : ℕ) (svd : SvdFun)
    (hsvd : ∀ B C, nedRows gj degree D s = some (B, C) → SvdOK (svd D _) (B ++ C))
    (hsvd' : ∀ B C, nedRows gj degree D s' = some (B, C) → SvdOK (svd D _) (B ++ C))
    (T : DigitTable) (variant : Option (List Char)) (v : DualVariant) (hv : dualVariant T variant degree = some v) :
    ∃ m el el' nodes nodes' ids, nedelec gj degree svd T s variant = some (⟨m, el⟩, nodes, ids) ∧
      nedelec gj degree svd T s' variant = some (⟨m, el'⟩, nodes', ids) ∧
      DofsCarried (declaredMapping .nedelec) A b ids nodes nodes' ∧
      (ids.at? D 0 = some [] → MapsVector (declaredMapping .nedelec) A b el el') ∧ (D * (degree + 1).choose D = 0 → ids.at? D 0 = some []) := by
  have hs' := h.proper hs
  have hnum' : NumberedSimplex s' := by
    unfold NumberedSimplex numEnts at *
    rw [h.topo]
    exact hnum
  have ho' : 0 < orientation fun i : Fin (D + 1) => s'.v i := by rw [h.orientation hs]; exact mul_pos hA ho
  obtain ⟨m, el, nodes, ids, h1, rfl, h3, h4, -, h5⟩ := nedelec_spec hD s hs hnum ho hgj degree svd hsvd T variant v hv
  obtain ⟨m', el', nodes', ids', h1', rfl, h3', h4', -, h5'⟩ := nedelec_spec hD s' hs' hnum' ho' hgj degree svd hsvd' T variant v hv
  have d1 := nedelec_dual_of hv h1
  have d1' := nedelec_dual_of hv h1'
  obtain rfl := nedDual_ids hD h d1 d1'
  obtain ⟨Φ, hΦ⟩ := ned_natural hD hgj degree v (dual_variant_degree hv)
  have ht : ∀ d e l, ids'.at? d e = some l → d < D → TraceNodes (tangPull (affVerts A b)) nodes nodes' l := fun d e l hl hd =>
    curl_trace_nodes hs h (hΦ s nodes ids' hs hnum ho d1) (hΦ s' nodes' ids' hs' hnum' ho' d1') h4 hl hd
  have hR := fun w w' => pushes_cov_iff (A := A) h.regular b w w'
  refine ⟨_, el, el', nodes, nodes', ids', h1, h1', dofsCarried_of hR ht, fun hint => ?_, fun h0 => ?_⟩
  · exact maps_vector_core hR (fun w hw => tangPull_ned _ hw) h3 h5 h5' hs hnum h4.partition h4.same ht hint
  · obtain ⟨t, ht⟩ := ((hnum.1 D le_rfl).2 0).2 (by simp)
    obtain ⟨l, l1, l2⟩ := h4.count D 0 t ht
    rw [if_neg (by omega)] at l2
    have : l = [] := List.length_eq_zero_iff.1 (l2.trans h0)
    rw [l1, this]

theorem numbered_mapped (h : MappedCell A b s s') (hnum : NumberedSimplex s) : NumberedSimplex s' := by
  unfold NumberedSimplex numEnts at *
  rw [h.topo]
  exact hnum

theorem raviart_thomas_dual_of {gj : ℕ → ℕ → List ℝ} {degree : ℕ}
    {svd : List (Fin D → Fin ((degree + 1 + D).choose D) → ℝ) → List ℝ × List (Fin D → Fin ((degree + 1 + D).choose D) → ℝ)}
    {T : DigitTable} {nrm : ℕ → Option (Fin D → ℝ)} {variant : Option (List Char)} {v : DualVariant}
    (hv : dualVariant T variant degree = some v) {x : Σ m, PolySet ℝ (Fin D → ℝ) ((degree + 1 + D).choose D) m (Fin D)} {nodes ids}
    (h : raviartThomas gj degree svd T s nrm variant = some (x, nodes, ids)) : rtDual gj s nrm degree v = some (nodes, ids) := by
  unfold raviartThomas at h
  rw [hv] at h
  simp only [Option.bind_eq_bind, Option.bind_some] at h
  obtain ⟨S, -, h⟩ := Option.bind_eq_some_iff.1 h
  obtain ⟨d, hd, h⟩ := Option.bind_eq_some_iff.1 h
  obtain ⟨el, -, h⟩ := Option.bind_eq_some_iff.1 h
  rw [Option.some.injEq, Prod.mk.injEq] at h
  rw [hd, h.2]

theorem rtDual_ids (h : MappedCell A b s s') {gj : ℕ → ℕ → List ℝ} {nrm nrm' : ℕ → Option (Fin D → ℝ)} {k : ℕ} {v : DualVariant} {nodes nodes' ids ids'}
    (h1 : rtDual gj s nrm k v = some (nodes, ids)) (h2 : rtDual gj s' nrm' k v = some (nodes', ids')) : ids' = ids := by
  have key : ∀ {s : SimplexCell (Fin D → ℝ)} {nrm nodes ids}, rtDual gj s nrm k v = some (nodes, ids) →
      ∃ I, (if k = 0 then some none else (polyDim D ((k : ℤ) - 1)).map fun n => some (n * D)) = some I ∧ facetIds s k I = some ids := by
    intro s nrm nodes ids h
    unfold rtDual at h
    cases v <;> dsimp only at h <;> obtain ⟨e1, -, h⟩ := Option.bind_eq_some_iff.1 h
    all_goals
      by_cases hk : k = 0
      · rw [if_pos hk] at h
        obtain ⟨I, hI, h⟩ := Option.bind_eq_some_iff.1 h
        obtain ⟨J, hJ, h⟩ := Option.bind_eq_some_iff.1 h
        rw [Option.some.injEq, Prod.mk.injEq] at h
        exact ⟨I, by rw [if_pos hk]; exact hI, by rw [hJ, h.2]⟩
      · rw [if_neg hk] at h
        obtain ⟨I, hI, h⟩ := Option.bind_eq_some_iff.1 h
        obtain ⟨J, hJ, h⟩ := Option.bind_eq_some_iff.1 h
        rw [Option.some.injEq, Prod.mk.injEq] at h
        exact ⟨I, by rw [if_neg hk]; exact hI, by rw [hJ, h.2]⟩
  obtain ⟨I, hI, h1⟩ := key h1
  obtain ⟨J, hJ, h2⟩ := key h2
  obtain rfl := Option.some.inj (hI.symm.trans hJ)
  rw [facetIds_map h, h1] at h2
  exact (Option.some.inj h2).symm

/-- C89: Raviart-Thomas elements of every degree: the facet dofs are carried by the mapping that the class reports, and in the lowest degree so
are the basis functions.  The scaled normals of the two cells correspond (`scaled_normals_carried` for UFC normals). -/
theorem raviart_thomas_maps_partial (hD : D = 2 ∨ D = 3) (hs : ProperSimplex ℝ s) (hnum : NumberedSimplex s)
    (ho : 0 < orientation fun i : Fin (D + 1) => s.v i) (h : MappedCell A b s s') (hA : 0 < A.det) {gj : ℕ → ℕ → List ℝ} (hgj : NodesOK gj)
    {nrm nrm' : ℕ → Option (Fin D → ℝ)} (hn : FacetNormals s nrm) (hn' : FacetNormals s' nrm')
    (hnn : ∀ e t n, HasEntity s.topo (D - 1) e t → nrm e = some n → nrm' e = some (A.det • A⁻¹.transpose.mulVec n)) (degree : ℕ)
    (svd : List (Fin D → Fin ((degree + 1 + D).choose D) → ℝ) → List ℝ × List (Fin D → Fin ((degree + 1 + D).choose D) → ℝ))
    (hsvd : ∀ B C, rtRows gj degree s = some (B, C) → SvdOK svd (B ++ C)) (hsvd' : ∀ B C, rtRows gj degree s' = some (B, C) → SvdOK svd (B ++ C))
    (T : DigitTable) (variant : Option (List Char)) (v : DualVariant) (hv : dualVariant T variant degree = some v) :
    ∃ m el el' nodes nodes' ids, raviartThomas gj degree svd T s nrm variant = some (⟨m, el⟩, nodes, ids) ∧
      raviartThomas gj degree svd T s' nrm' variant = some (⟨m, el'⟩, nodes', ids) ∧
      DofsCarried (declaredMapping .raviartThomas) A b ids nodes nodes' ∧
      (ids.at? D 0 = some [] → MapsVector (declaredMapping .raviartThomas) A b el el') ∧ (degree = 0 → ids.at? D 0 = some []) := by
  have hs' := h.proper hs
  have hnum' := numbered_mapped h hnum
  have ho' : 0 < orientation fun i : Fin (D + 1) => s'.v i := by rw [h.orientation hs]; exact mul_pos hA ho
  obtain ⟨m, el, nodes, ids, h1, rfl, h3, h4, -, h5⟩ := raviart_thomas_spec hD s hs hnum ho hgj hn degree svd hsvd T variant v hv
  obtain ⟨m', el', nodes', ids', h1', rfl, h3', h4', -, h5'⟩ := raviart_thomas_spec hD s' hs' hnum' ho' hgj hn' degree svd hsvd' T variant v hv
  have d1 := raviart_thomas_dual_of hv h1
  have d1' := raviart_thomas_dual_of hv h1'
  obtain rfl := rtDual_ids h d1 d1'
  obtain ⟨Φ, -, hΦ⟩ := rt_natural hD hgj degree v (dual_variant_degree hv)
  have ht : ∀ d e l, ids'.at? d e = some l → d < D → TraceNodes (conPull A b) nodes nodes' l := fun d e l hl hd =>
    div_trace_nodes hs h hn hnn (hΦ s nrm nodes ids' hs hnum ho hn d1) (hΦ s' nrm' nodes' ids' hs' hnum' ho' hn' d1') h4 hl hd
  have hR := fun w w' => pushes_con_iff (A := A) h.regular b w w'
  refine ⟨_, el, el', nodes, nodes', ids', h1, h1', dofsCarried_of hR ht, fun hint => ?_, fun h0 => ?_⟩
  · exact maps_vector_core hR (fun w hw => conPull_rt h.regular b hw) h3 h5 h5' hs hnum h4.partition h4.same ht hint
  · obtain ⟨l, l1, l2⟩ := h4.cell
    have : l = [] := List.length_eq_zero_iff.1 (by rw [l2, h0, dimLower, if_pos rfl, mul_zero])
    rw [l1, this]

theorem bdm_dual_of {gj : ℕ → ℕ → List ℝ} {k : ℕ} {svd : SvdFun} {T : DigitTable} {nrm : ℕ → Option (Fin D → ℝ)} {variant : Option (List Char)}
    {v : DualVariant} (hv : dualVariant T variant k = some v) {x : Σ m, PolySet ℝ (Fin D → ℝ) ((k + D).choose D) m (Fin D)} {nodes ids}
    (h : bdm gj k svd T s nrm variant = some (x, nodes, ids)) : bdmDual gj svd T s nrm k v = some (nodes, ids) := by
  unfold bdm at h
  rw [hv] at h
  simp only [Option.bind_eq_bind, Option.bind_some] at h
  obtain ⟨S, -, h⟩ := Option.bind_eq_some_iff.1 h
  obtain ⟨d, hd, h⟩ := Option.bind_eq_some_iff.1 h
  obtain ⟨el, -, h⟩ := Option.bind_eq_some_iff.1 h
  rw [Option.some.injEq, Prod.mk.injEq] at h
  rw [hd, h.2]

theorem facetIds_cell {k n : ℕ} {ids : EntityIds ℕ} (h : facetIds s k (some n) = some ids) {l : List ℕ} (hl : ids.at? D 0 = some l) : l.length = n := by
  unfold facetIds at h
  obtain ⟨i, -, h⟩ := Option.bind_eq_some_iff.1 h
  obtain ⟨p, -, h⟩ := Option.bind_eq_some_iff.1 h
  obtain ⟨st, -, h⟩ := Option.bind_eq_some_iff.1 h
  rw [Option.some.injEq] at h
  rw [← h] at hl
  dsimp only at hl
  rw [setIds_at, if_pos ⟨rfl, rfl⟩, Option.some.injEq] at hl
  rw [← hl, List.length_range']

/-- C89: Brezzi-Douglas-Marini elements of every degree. -/
theorem bdm_maps_partial (hD : D = 2 ∨ D = 3) (hs : ProperSimplex ℝ s) (hnum : NumberedSimplex s)
    (ho : 0 < orientation fun i : Fin (D + 1) => s.v i) (h : MappedCell A b s s') (hA : 0 < A.det) {gj : ℕ → ℕ → List ℝ} (hgj : NodesOK gj)
    {nrm nrm' : ℕ → Option (Fin D → ℝ)} (hn : FacetNormals s nrm) (hn' : FacetNormals s' nrm')
    (hnn : ∀ e t n, HasEntity s.topo (D - 1) e t → nrm e = some n → nrm' e = some (A.det • A⁻¹.transpose.mulVec n)) (k : ℕ) (hk : 1 ≤ k) (svd : SvdFun)
    (hsvd : 2 ≤ k → ∀ B C, nedRows gj (k - 2) D s = some (B, C) → SvdOK (svd D _) (B ++ C))
    (hsvd' : 2 ≤ k → ∀ B C, nedRows gj (k - 2) D s' = some (B, C) → SvdOK (svd D _) (B ++ C))
    (T : DigitTable) (variant : Option (List Char)) (v : DualVariant) (hv : dualVariant T variant k = some v) :
    ∃ m el el' nodes nodes' ids, bdm gj k svd T s nrm variant = some (⟨m, el⟩, nodes, ids) ∧
      bdm gj k svd T s' nrm' variant = some (⟨m, el'⟩, nodes', ids) ∧
      DofsCarried (declaredMapping .brezziDouglasMarini) A b ids nodes nodes' ∧
      (ids.at? D 0 = some [] → MapsVector (declaredMapping .brezziDouglasMarini) A b el el') ∧ (k = 1 → ids.at? D 0 = some []) := by
  have hs' := h.proper hs
  have hnum' := numbered_mapped h hnum
  have ho' : 0 < orientation fun i : Fin (D + 1) => s'.v i := by rw [h.orientation hs]; exact mul_pos hA ho
  obtain ⟨m, el, nodes, ids, h1, rfl, h3, h4, -, h5⟩ := bdm_spec hD s hs hnum ho hgj hn k hk svd hsvd T variant v hv
  obtain ⟨m', el', nodes', ids', h1', rfl, h3', h4', -, h5'⟩ := bdm_spec hD s' hs' hnum' ho' hgj hn' k hk svd hsvd' T variant v hv
  have d1 := bdm_dual_of hv h1
  have d1' := bdm_dual_of hv h1'
  have key : ∀ {s : SimplexCell (Fin D → ℝ)} {nrm nodes ids nf}, bdmDual gj svd T s nrm k v = some (nodes, ids) →
      HDivDofs s nrm (FullDeg k) nf (bdmInner D k) nodes ids → facetIds s k (if 1 < k then some (bdmInner D k) else none) = some ids := by
    intro s nrm nodes ids nf h hd
    unfold bdmDual at h
    obtain ⟨f, -, h⟩ := Option.bind_eq_some_iff.1 h
    obtain ⟨c, -, h⟩ := Option.bind_eq_some_iff.1 h
    obtain ⟨i, hi, h⟩ := Option.bind_eq_some_iff.1 h
    rw [Option.some.injEq, Prod.mk.injEq] at h
    obtain ⟨-, rfl⟩ := h
    split_ifs at hi ⊢ with hk1
    · obtain ⟨l, l1, l2⟩ := hd.cell
      rw [← l2, facetIds_cell hi l1]
      exact hi
    · exact hi
  have i1 := key d1 h4
  have i2 := key d1' h4'
  rw [facetIds_map h, i1] at i2
  obtain rfl := Option.some.inj i2
  obtain ⟨Φ, -, hΦ⟩ := bdm_natural hD hgj k hk svd T v (dual_variant_degree hv)
  have ht : ∀ d e l, ids.at? d e = some l → d < D → TraceNodes (conPull A b) nodes nodes' l := fun d e l hl hd =>
    div_trace_nodes hs h hn hnn (hΦ s nrm nodes ids hs hnum ho hn hsvd d1) (hΦ s' nrm' nodes' ids hs' hnum' ho' hn' hsvd' d1') h4 hl hd
  have hR := fun w w' => pushes_con_iff (A := A) h.regular b w w'
  refine ⟨_, el, el', nodes, nodes', ids, h1, h1', dofsCarried_of hR ht, fun hint => ?_, fun h0 => ?_⟩
  · exact maps_vector_core hR (fun w hw => conPull_full A b hw) h3 h5 h5' hs hnum h4.partition h4.same ht hint
  · obtain ⟨l, l1, l2⟩ := h4.cell
    have : l = [] := List.length_eq_zero_iff.1 (by rw [l2, h0, bdmInner, if_neg (by omega)])
    rw [l1, this]

/-- C89: the scaled normals of the UFC classes correspond. -/
theorem scaled_normals_carried (hD : D = 2 ∨ D = 3) (hs : ProperSimplex ℝ s) {sv sv' : ℕ → List ℝ} (hv : FacetVolumes s sv)
    (hv' : FacetVolumes s' sv') (h : MappedCell A b s s') (e : ℕ) (t : List ℕ) (n : Fin D → ℝ) (ht : HasEntity s.topo (D - 1) e t)
    (hn : ufcScaledNormal s sv e = some n) : ufcScaledNormal s' sv' e = some (A.det • A⁻¹.transpose.mulVec n) := by
  obtain ⟨n0, h1, h2⟩ := scaled_normal_mapped hD hs hv hv' h ht
  rw [hn, Option.some.injEq] at h1
  rw [h1]
  exact h2

end
end FIAT
