/-
C90: Regge and Hellan-Herrmann-Johnson elements and the double Piola mappings they report.
-/
import Verif.Lemmas.MatrixTransport
import Verif.Props.PushforwardExample

namespace FIAT
open MvPolynomial
section
variable {D : ℕ}

/-- Specification: the values of the basis functions of `el'` at mapped points are the push-forwards, under the named mapping, of the values of
those of `el`, in the same order. -/
def MapsMatrix {N N' m : ℕ} (mapping : MatrixPullBack) (A : Matrix (Fin D) (Fin D) ℝ) (b : Fin D → ℝ)
    (el : PolySet ℝ (Fin D → ℝ) N m (Fin D × Fin D)) (el' : PolySet ℝ (Fin D → ℝ) N' m (Fin D × Fin D)) : Prop :=
  ∀ pts : List (Fin D → ℝ), ∃ (r r' : Dict (List ℕ) (Fin m → Fin D × Fin D → ℕ → ℝ)) (T T' : Fin m → Fin D × Fin D → ℕ → ℝ),
    el.tabulate pts 0 = some r ∧ el'.tabulate (pts.map (cellMap A b)) 0 = some r' ∧
    Dict.get? r (List.replicate D 0) = some T ∧ Dict.get? r' (List.replicate D 0) = some T' ∧
    ∀ i, ∀ j < pts.length, PushesMatrix mapping A (Matrix.of fun p q => T i (p, q) j) (Matrix.of fun p q => T' i (p, q) j)

/-- Specification: the dofs of entities of dimension at most `dim` take the same values on a symmetric field of degree `r` and on its
push-forward. -/
def MatrixDofsCarried (mapping : MatrixPullBack) (A : Matrix (Fin D) (Fin D) ℝ) (b : Fin D → ℝ) (r dim : ℕ) (ids : EntityIds ℕ)
    (nodes nodes' : List (Functional ℝ (Fin D → ℝ))) : Prop :=
  ∀ d e l, ids.at? d e = some l → d ≤ dim → ∀ i ∈ l, ∃ a a', nodes[i]? = some a ∧ nodes'[i]? = some a' ∧
    ∀ w w' : Fin D × Fin D → MvPolynomial (Fin D) ℝ, IsSymField r w' →
      (∀ x, PushesMatrix mapping A (Matrix.of fun p q => eval x (w (p, q))) (Matrix.of fun p q => eval (cellMap A b x) (w' (p, q)))) →
      a.onField (fieldC comp2 w) = a'.onField (fieldC comp2 w')

variable {A : Matrix (Fin D) (Fin D) ℝ} {b : Fin D → ℝ} {s s' : SimplexCell (Fin D → ℝ)}

theorem zero_sym (r : ℕ) : IsSymField r (0 : Fin D × Fin D → MvPolynomial (Fin D) ℝ) := ⟨fun _ _ => rfl, fun _ => by simp⟩

theorem maps_matrix_core {N N' m : ℕ} {mapping : MatrixPullBack} (hA : A.det ≠ 0) {r : ℕ} {ids : EntityIds ℕ}
    {nodes nodes' : List (Functional ℝ (Fin D → ℝ))} {el : PolySet ℝ (Fin D → ℝ) N m (Fin D × Fin D)}
    {el' : PolySet ℝ (Fin D → ℝ) N' m (Fin D × Fin D)} (hlen : nodes.length = m) (h : IsNodalC comp2 (IsSymField r) nodes el)
    (h' : IsNodalC comp2 (IsSymField r) nodes' el') (hp : DofsPartition ids nodes.length)
    (ht : ∀ d e l, ids.at? d e = some l → ∀ i ∈ l, ∃ a a', nodes[i]? = some a ∧ nodes'[i]? = some a' ∧ ∀ w, IsSymField r w →
      a.onField (fieldC comp2 (pullWith (pushFactor mapping A) A b w)) = a'.onField (fieldC comp2 w)) : MapsMatrix mapping A b el el' := by
  obtain ⟨ψ, a1, a2, a3, a4⟩ := h
  obtain ⟨ψ', a1', a2', a3', a4'⟩ := h'
  have hq : (fun i : Fin m => pullWith (pushFactor mapping A) A b (ψ' i)) = ψ := by
    refine dual_family_unique comp2 hlen (fun i l hl j => a3 i l hl j) (fun j => a2 _ (pullWith_sym _ _ _ (a1' j))) (fun i l hl j => ?_)
    have hi : i < nodes.length := (List.getElem?_eq_some_iff.1 hl).1
    obtain ⟨⟨d, e⟩, ⟨ll, q1, q2⟩, -⟩ := hp.2 i hi
    obtain ⟨a, a', b1, b2, b3⟩ := ht d e ll q1 i q2
    rw [hl, Option.some.injEq] at b1
    subst b1
    exact (b3 (ψ' j) (a1' j)).trans (a3' i a' b2 j)
  intro pts
  obtain ⟨r, r1, r2, r3⟩ := a4 pts 0
  obtain ⟨r', r1', r2', r3'⟩ := a4' (pts.map (cellMap A b)) 0
  have hz : (List.replicate D 0).length = D ∧ (List.replicate D 0).sum ≤ 0 := by simp
  obtain ⟨T, hT⟩ := Option.isSome_iff_exists.1 (Dict.get?_isSome_iff.2 ((r2 _).2 hz))
  obtain ⟨T', hT'⟩ := Option.isSome_iff_exists.1 (Dict.get?_isSome_iff.2 ((r2' _).2 hz))
  refine ⟨r, r', T, T', r1, r1', hT, hT', fun i j hj => ?_⟩
  have hx : pts[j]? = some pts[j] := List.getElem?_eq_getElem hj
  have hx' : (pts.map (cellMap A b))[j]? = some (cellMap A b pts[j]) := by rw [List.getElem?_map, hx]; rfl
  have e1 : (Matrix.of fun p q => T i (p, q) j) = Matrix.of fun p q => eval pts[j] (ψ i (p, q)) := by
    ext p q
    rw [Matrix.of_apply, Matrix.of_apply, r3 _ _ hT i (p, q) j _ hx, iterDeriv_zero]
  have e2 : (Matrix.of fun p q => T' i (p, q) j) = Matrix.of fun p q => eval (cellMap A b pts[j]) (ψ' i (p, q)) := by
    ext p q
    rw [Matrix.of_apply, Matrix.of_apply, r3' _ _ hT' i (p, q) j _ hx', iterDeriv_zero]
  rw [e1, e2]
  exact (pushes_field_iff hA b mapping (ψ i) (ψ' i)).2 (congrFun hq i).symm pts[j]

/-- C90: Regge elements of every degree on triangles and tetrahedra: the double covariant Piola mapping that the class reports carries all dofs and
all basis functions of the element on a cell to those of the element on its image under an affine map. -/
theorem regge_maps (hD : D = 2 ∨ D = 3) (hs : ProperSimplex ℝ s) (hnum : NumberedSimplex s) (h : MappedCell A b s s') (r : ℕ) :
    ∃ el el' nodes nodes' ids, regge s r = some (el, nodes, ids) ∧ regge s' r = some (el', nodes', ids) ∧
      MatrixDofsCarried (declaredMatrixMapping .regge) A b r D ids nodes nodes' ∧ MapsMatrix (declaredMatrixMapping .regge) A b el el' := by
  have hs' := h.proper hs
  obtain ⟨el, nodes, ids, h1, h2, h3, h4⟩ := regge_spec hD s hs hnum r
  obtain ⟨el', nodes', ids', h1', h2', h3', h4'⟩ := regge_spec hD s' hs' (numbered_mapped h hnum) r
  obtain rfl := reggeDual_ids h (regge_dual_of h1) (regge_dual_of h1')
  have ht : ∀ d e l, ids'.at? d e = some l → ∀ i ∈ l, ∃ a a', nodes[i]? = some a ∧ nodes'[i]? = some a' ∧ ∀ w, IsSymField r w →
      a.onField (fieldC comp2 (pullWith A A b w)) = a'.onField (fieldC comp2 w) := by
    intro d e l hl i hi
    obtain ⟨t, hent⟩ := (h4.proper.2 d e).1 (by rw [hl]; rfl)
    have hent' : HasEntity s'.topo d e t := by rw [h.topo]; exact hent
    by_cases hd : 1 ≤ d
    · obtain ⟨pts, p1, -, p3⟩ := h4.entity d e t hd hent
      obtain ⟨pts', p1', -, p3'⟩ := h4'.entity d e t hd hent'
      rw [makePoints_map h, p1] at p1'
      obtain rfl := Option.some.inj p1'
      refine field_nodes_carried p3 p3' (fun w hw => pullWith_sym _ _ _ hw) (fun w hw => ?_) (zero_sym r) hl hi
      have hv : t.map s'.v = (t.map s.v).map (cellMap A b) := by
        rw [List.map_map]
        refine List.map_congr_left fun a ha => h.v ?_
        rw [hs.2.1.nverts]
        exact (hs.2.1.entity _ _ _ hent).2.2 a ha
      beta_reduce
      rw [hv, edgeVectors_map (cellMap A b) A (fun a c => cellMap_sub A b a c), List.flatMap_map]
      refine List.flatMap_congr fun x _ => ?_
      rw [List.map_map]
      refine List.map_congr_left fun v _ => ?_
      rw [Function.comp, quadForm_pullWith]
    · obtain rfl : d = 0 := by omega
      rw [h4.vertex e t hent, Option.some.injEq] at hl
      rw [← hl] at hi
      cases hi
  refine ⟨el, el', nodes, nodes', ids', h1, h1', ?_, ?_⟩
  · intro d e l hl _ i hi
    obtain ⟨a, a', q1, q2, q3⟩ := ht d e l hl i hi
    refine ⟨a, a', q1, q2, fun w w' hw' hw => ?_⟩
    rw [(pushes_field_iff h.regular b _ w w').1 hw]
    exact q3 w' hw'
  · refine maps_matrix_core h.regular ?_ h2 h2' h4.proper.1 ht
    rw [h3]; rfl

end

section
variable {A : Matrix (Fin 2) (Fin 2) ℝ} {b : Fin 2 → ℝ} {s s' : SimplexCell (Fin 2 → ℝ)}

/-- C90: Hellan-Herrmann-Johnson elements: the double contravariant Piola mapping that the class reports carries the dofs of the edges, in every
degree, and all basis functions in degree 0. -/
theorem hhj_maps_partial (hs : ProperSimplex ℝ s) (hnum : NumberedSimplex s) (h : MappedCell A b s s') {nrm nrm' : ℕ → Option (Fin 2 → ℝ)}
    (hn : FacetNormals s nrm) (hn' : FacetNormals s' nrm')
    (hnn : ∀ e t n, HasEntity s.topo 1 e t → nrm e = some n → nrm' e = some (A.det • A⁻¹.transpose.mulVec n)) (r : ℕ) :
    ∃ el el' nodes nodes' ids, hellanHerrmannJohnson s nrm r = some (el, nodes, ids) ∧ hellanHerrmannJohnson s' nrm' r = some (el', nodes', ids) ∧
      MatrixDofsCarried (declaredMatrixMapping .hellanHerrmannJohnson) A b r 1 ids nodes nodes' ∧
      (r = 0 → MapsMatrix (declaredMatrixMapping .hellanHerrmannJohnson) A b el el') := by
  have hs' := h.proper hs
  obtain ⟨el, nodes, ids, h1, h2, h3, h4⟩ := hhj_spec s hs hnum nrm hn r
  obtain ⟨el', nodes', ids', h1', h2', h3', h4'⟩ := hhj_spec s' hs' (numbered_mapped h hnum) nrm' hn' r
  obtain rfl := hhjDual_ids h (hhj_dual_of h1) (hhj_dual_of h1')
  have ht : ∀ d e l, ids'.at? d e = some l → d ≤ 1 → ∀ i ∈ l, ∃ a a', nodes[i]? = some a ∧ nodes'[i]? = some a' ∧ ∀ w, IsSymField r w →
      a.onField (fieldC comp2 (pullWith (A.det • A⁻¹.transpose) A b w)) = a'.onField (fieldC comp2 w) := by
    intro d e l hl hd i hi
    obtain ⟨t, hent⟩ := (h4.proper.2 d e).1 (by rw [hl]; rfl)
    have hent' : HasEntity s'.topo d e t := by rw [h.topo]; exact hent
    by_cases hd0 : d = 0
    · subst hd0
      rw [h4.vertex e t hent, Option.some.injEq] at hl
      rw [← hl] at hi
      cases hi
    · obtain rfl : d = 1 := by omega
      obtain ⟨n, pts, n1, p1, -, p3⟩ := h4.edge e t hent
      obtain ⟨n', pts', n1', p1', -, p3'⟩ := h4'.edge e t hent'
      rw [makePoints_map h, p1] at p1'
      obtain rfl := Option.some.inj p1'
      rw [hnn e t n hent n1] at n1'
      obtain rfl := Option.some.inj n1'
      refine field_nodes_carried p3 p3' (fun w hw => pullWith_sym _ _ _ hw) (fun w hw => ?_) (zero_sym r) hl hi
      beta_reduce
      rw [List.map_map]
      refine List.map_congr_left fun x _ => ?_
      rw [Function.comp, quadForm_pullWith, Matrix.smul_mulVec]
  refine ⟨el, el', nodes, nodes', ids', h1, h1', ?_, fun hr => ?_⟩
  · intro d e l hl hd i hi
    obtain ⟨a, a', q1, q2, q3⟩ := ht d e l hl hd i hi
    refine ⟨a, a', q1, q2, fun w w' hw' hw => ?_⟩
    rw [(pushes_field_iff h.regular b _ w w').1 hw]
    exact q3 w' hw'
  · refine maps_matrix_core h.regular ?_ h2 h2' h4.proper.1 (fun d e l hl i hi => ?_)
    · rw [h3]; rfl
    · by_cases hd : d ≤ 1
      · exact ht d e l hl hd i hi
      · obtain ⟨t, hent⟩ := (h4.proper.2 d e).1 (by rw [hl]; rfl)
        obtain rfl : d = 2 := by have := hnum.2 d e t hent; omega
        obtain rfl : e = 0 := by
          have := ((hnum.1 2 le_rfl).2 e).1 ⟨t, hent⟩
          simpa using this
        obtain ⟨pts, -, p2, l', l1, l2⟩ := h4.cell
        rw [hl, Option.some.injEq] at l1
        subst l1
        have l3 := congrArg List.length (l2 0 (zero_sym r))
        have hp : pts = [] := List.length_eq_zero_iff.1 (by rw [p2, hr]; rfl)
        rw [hp] at l3
        simp only [List.map_nil, List.append_nil, List.length_map, List.length_nil] at l3
        rw [List.length_eq_zero_iff.1 l3] at hi
        cases hi

end
end FIAT
