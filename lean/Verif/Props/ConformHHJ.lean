/-
C71: normal-normal conformity across the cells of a mesh, for Hellan-Herrmann-Johnson elements.
-/
import Verif.Props.ConformRegge
import Verif.Props.ConformUfc
import Verif.Props.ConformExample
import Verif.Props.HellanHerrmannJohnson

namespace FIAT
open MvPolynomial
section
variable {D : ℕ}

/-- The double contravariant Piola map `(det A)⁻² A u Aᵀ`, at the image of `x`. -/
noncomputable def doubleContravariant (A : Matrix (Fin D) (Fin D) ℝ) (u : Fin D × Fin D → MvPolynomial (Fin D) ℝ) (x : Fin D → ℝ) :
    Matrix (Fin D) (Fin D) ℝ := (A.det⁻¹ ^ 2) • (A * Matrix.of (fun i j => eval x (u (i, j))) * A.transpose)

/-- The double contravariant map along mapped normals. -/
theorem doubleContravariant_quad {A : Matrix (Fin D) (Fin D) ℝ} (hA : A.det ≠ 0) (u : Fin D × Fin D → MvPolynomial (Fin D) ℝ) (x n m : Fin D → ℝ) :
    physNormal A n ⬝ᵥ (doubleContravariant A u x).mulVec (physNormal A m) = quadForm u x n m := by
  have hu : IsUnit A.det := isUnit_iff_ne_zero.2 hA
  have h1 : ∀ z, A.transpose.mulVec (A⁻¹.transpose.mulVec z) = z := fun z => by
    rw [Matrix.mulVec_mulVec, ← Matrix.transpose_mul, Matrix.nonsing_inv_mul _ hu, Matrix.transpose_one, Matrix.one_mulVec]
  unfold doubleContravariant physNormal
  rw [Matrix.smul_mulVec, Matrix.mulVec_smul, ← Matrix.mulVec_mulVec, ← Matrix.mulVec_mulVec, h1, dotProduct_smul, dotProduct_smul,
    smul_dotProduct, Matrix.dotProduct_mulVec, ← Matrix.mulVec_transpose, h1, quadForm_matrix]
  simp only [smul_eq_mul]
  field_simp

theorem quadForm_scale (u : Fin 2 × Fin 2 → MvPolynomial (Fin 2) ℝ) (x : Fin 2 → ℝ) (c : ℝ) (v : Fin 2 → ℝ) :
    quadForm u x (c • v) (c • v) = c ^ 2 * quadForm u x v v := by
  unfold quadForm
  simp only [Pi.smul_apply, smul_eq_mul, Fin.sum_univ_two]
  ring

theorem dot_scale (U : Matrix (Fin 2) (Fin 2) ℝ) (c : ℝ) (v : Fin 2 → ℝ) : (c • v) ⬝ᵥ U.mulVec (c • v) = c ^ 2 * (v ⬝ᵥ U.mulVec v) := by
  rw [Matrix.mulVec_smul, dotProduct_smul, smul_dotProduct, smul_eq_mul, smul_eq_mul]
  ring

/-- The pull-back of a matrix field along an affine map with any matrix acting on the values. -/
noncomputable def pullWith (Q M : Matrix (Fin D) (Fin D) ℝ) (c : Fin D → ℝ) (u : Fin D × Fin D → MvPolynomial (Fin D) ℝ) :
    Fin D × Fin D → MvPolynomial (Fin D) ℝ :=
  fun p => ∑ k, ∑ l, C (Q k p.1 * Q l p.2) * pullback (affVerts M c 0) (fun i => affVerts M c i.succ) (u (k, l))

theorem eval_pullWith (Q M : Matrix (Fin D) (Fin D) ℝ) (c : Fin D → ℝ) (u : Fin D × Fin D → MvPolynomial (Fin D) ℝ) (i j : Fin D)
    (x : Fin D → ℝ) : eval x (pullWith Q M c u (i, j)) = ∑ k, ∑ l, Q k i * (Q l j * eval (cellMap M c x) (u (k, l))) := by
  unfold pullWith
  rw [map_sum]
  refine Finset.sum_congr rfl fun k _ => ?_
  rw [map_sum]
  refine Finset.sum_congr rfl fun l _ => ?_
  rw [map_mul, eval_C, eval_pull, entMap_affVerts, mul_assoc]

theorem quadForm_pullWith (Q M : Matrix (Fin D) (Fin D) ℝ) (c : Fin D → ℝ) (u : Fin D × Fin D → MvPolynomial (Fin D) ℝ) (x v w : Fin D → ℝ) :
    quadForm (pullWith Q M c u) x v w = quadForm u (cellMap M c x) (Q.mulVec v) (Q.mulVec w) := by
  rw [quadForm_matrix, quadForm_matrix]
  have : Matrix.of (fun i j => eval x (pullWith Q M c u (i, j))) =
      Q.transpose * Matrix.of (fun i j => eval (cellMap M c x) (u (i, j))) * Q := by
    ext i j
    rw [Matrix.of_apply, eval_pullWith, Matrix.mul_apply]
    simp only [Matrix.mul_apply, Matrix.transpose_apply, Matrix.of_apply, Finset.sum_mul]
    rw [Finset.sum_comm]
    exact Finset.sum_congr rfl fun k _ => Finset.sum_congr rfl fun l _ => by ring
  rw [this, ← Matrix.mulVec_mulVec, ← Matrix.mulVec_mulVec, Matrix.dotProduct_mulVec, Matrix.vecMul_transpose]

theorem pullWith_sym {r : ℕ} (Q M : Matrix (Fin D) (Fin D) ℝ) (c : Fin D → ℝ) {u : Fin D × Fin D → MvPolynomial (Fin D) ℝ}
    (hu : IsSymField r u) : IsSymField r (pullWith Q M c u) := by
  constructor
  · intro i j
    apply MvPolynomial.funext
    intro x
    rw [eval_pullWith, eval_pullWith, Finset.sum_comm]
    exact Finset.sum_congr rfl fun k _ => Finset.sum_congr rfl fun l _ => by rw [hu.1 l k]; ring
  · rintro ⟨i, j⟩
    unfold pullWith
    refine totalDegree_finsetSum_le fun k _ => totalDegree_finsetSum_le fun l _ => ?_
    refine (totalDegree_mul _ _).trans ?_
    rw [totalDegree_C, zero_add]
    exact (totalDegree_pullback _ _ _).trans (hu.2 _)

variable {X : ℕ → Fin 2 → ℝ} {s s' : SimplexCell (Fin 2 → ℝ)} {A A' : Matrix (Fin 2) (Fin 2) ℝ} {b b' : Fin 2 → ℝ} {g g' : ℕ → ℕ}

/-- Conformity from the specification of the dofs. -/
theorem hhj_conforming_core (hs : ProperSimplex ℝ s) (hs' : ProperSimplex ℝ s') {nrm nrm' : ℕ → Option (Fin 2 → ℝ)}
    (hn : FacetNormals s nrm) {r : ℕ} {nodes nodes' : List (Functional ℝ (Fin 2 → ℝ))} {ids ids' : EntityIds ℕ} (hdofs : HHJDofs s nrm r nodes ids)
    (hdofs' : HHJDofs s' nrm' r nodes' ids') (hm : InMesh X s A b g) (hm' : InMesh X s' A' b' g')
    {e e' : ℕ} {t t' : List ℕ} (ht : HasEntity s.topo 1 e t) (ht' : HasEntity s'.topo 1 e' t')
    (hsh : SharedEntity g t g' t') {n n' : Fin 2 → ℝ} (hne : nrm e = some n) (hne' : nrm' e' = some n') {σ : ℝ} (hσ0 : σ ≠ 0)
    (hσ : physNormal A' n' = σ • physNormal A n) {u u' : Fin 2 × Fin 2 → MvPolynomial (Fin 2) ℝ} (hu : IsSymField r u) (hu' : IsSymField r u') :
    DofsMatch (σ ^ 2) nodes' ids' (fun a => a.onField (fieldC comp2 u')) nodes ids (fun a => a.onField (fieldC comp2 u)) 1 e' e ↔
      ∀ x x', OnEntity s t x → OnEntity s' t' x' → cellMap A b x = cellMap A' b' x' →
        ∀ N, (∀ a ∈ t, ∀ c ∈ t, N ⬝ᵥ (X (g a) - X (g c)) = 0) →
          N ⬝ᵥ (doubleContravariant A u x).mulVec N = N ⬝ᵥ (doubleContravariant A' u' x').mulVec N := by
  set M := A'⁻¹ * A with hM
  set cc := A'⁻¹.mulVec (b - b') with hcc
  set Q := (A.det / A'.det) • (A'.transpose * A⁻¹.transpose) with hQ
  have hG : ∀ x, cellMap A' b' (cellMap M cc x) = cellMap A b x := cell_transition hm'.regular
  set u'' := pullWith Q M cc u' with hu''
  have hV'' : IsSymField r u'' := pullWith_sym _ _ _ hu'
  have hud : IsUnit A'.det := isUnit_iff_ne_zero.2 hm'.regular
  have hnn : n' = σ • Q.mulVec n := by
    have h1 : ∀ z, A'.transpose.mulVec (A'⁻¹.transpose.mulVec z) = z := fun z => by
      rw [Matrix.mulVec_mulVec, ← Matrix.transpose_mul, Matrix.nonsing_inv_mul _ hud, Matrix.transpose_one, Matrix.one_mulVec]
    have h2 : n' = A'.det⁻¹ • A'.transpose.mulVec (physNormal A' n') := by
      unfold physNormal
      rw [Matrix.mulVec_smul, h1, smul_smul, inv_mul_cancel₀ hm'.regular, one_smul]
    rw [h2, hσ, hQ, Matrix.smul_mulVec, ← Matrix.mulVec_mulVec, Matrix.mulVec_smul]
    unfold physNormal
    rw [Matrix.mulVec_smul, smul_smul, smul_smul, smul_smul]
    congr 1
    field_simp
  have hq : ∀ x, quadForm u' (cellMap M cc x) n' n' = σ ^ 2 * quadForm u'' x n n := fun x => by
    rw [hnn, quadForm_scale, hu'', quadForm_pullWith]
  obtain ⟨n0, m1, m2, m3⟩ := hn e t ht
  rw [hne, Option.some.injEq] at m1
  subst m1
  have hmap := (shared_tuple hs hs' hm hm' ht ht' hsh).2
  have hconf := hdofs.conforming e t ht (u - u'') (isSymField_sub hu hV'')
  obtain ⟨n1, pts, a1, a2, -, l, l1, l2⟩ := hdofs.edge e t ht
  obtain ⟨n1', pts', a1', a2', -, l', l1', l2'⟩ := hdofs'.edge e' t' ht'
  rw [hne, Option.some.injEq] at a1
  rw [hne', Option.some.injEq] at a1'
  subst a1 a1'
  obtain ⟨τ, t1, t2, rfl, t4⟩ := entity_tuple hs ht
  obtain ⟨τ', t1', t2', rfl, t4'⟩ := entity_tuple hs' ht'
  have hGe : ∀ y, cellMap M cc (entMap (fun j => s.v (τ j)) y) = entMap (fun j => s'.v (τ' j)) y := by
    intro y
    rw [cellMap_entMap]
    congr 1
    funext j
    apply cellMap_injective hm'.regular b'
    rw [hG]
    exact shared_verts hm hm' t2 t2' hmap j
  rw [make_points_ref hs le_rfl (by norm_num) τ t4, Option.some.injEq] at a2
  rw [make_points_ref hs' le_rfl (by norm_num) τ' t4', Option.some.injEq] at a2'
  have hval : ∀ v, IsSymField r v → DofValues nodes ids (fun a => a.onField (fieldC comp2 v)) 1 e (pts.map fun x => quadForm v x n n) :=
    fun v hv => ⟨l, l1, l2 v hv⟩
  have hval' : DofValues nodes' ids' (fun a => a.onField (fieldC comp2 u')) 1 e' ((pts.map fun x => quadForm u'' x n n).map (σ ^ 2 * ·)) := by
    refine ⟨l', l1', (l2' u' hu').trans (congrArg (List.map some) ?_)⟩
    beta_reduce
    rw [← a2, ← a2', List.map_map, List.map_map, List.map_map]
    refine List.map_congr_left fun y _ => ?_
    simp only [Function.comp]
    rw [← hq, hGe]
  have hinj : Function.Injective (fun z : ℝ => σ ^ 2 * z) := fun z z' h => mul_left_cancel₀ (pow_ne_zero 2 hσ0) h
  have hL : DofsMatch (σ ^ 2) nodes' ids' (fun a => a.onField (fieldC comp2 u')) nodes ids (fun a => a.onField (fieldC comp2 u)) 1 e' e ↔
      ∀ i ∈ l, ∃ node, nodes[i]? = some node ∧ node.onField (fieldC comp2 (u - u'')) = 0 := by
    rw [dofsMatch_iff hval' (hval u hu), (List.map_injective_iff.2 hinj).eq_iff, eq_comm, dofValues_eq_iff (hval u hu) (hval u'' hV'') l1]
    simp only [onFieldC_sub]
  have hZ : (∀ i ∈ l, ∃ node, nodes[i]? = some node ∧ node.onField (fieldC comp2 (u - u'')) = 0) ↔
      ∀ x, OnEntity s (List.ofFn τ) x → quadForm (u - u'') x n n = 0 := by
    constructor
    · intro h x hx
      refine hconf (fun l3 hl3 i hi node hnode => ?_) x hx n m3
      rw [l1, Option.some.injEq] at hl3
      subst hl3
      obtain ⟨node', q1, q2⟩ := h i hi
      rw [hnode, Option.some.injEq] at q1
      rw [q1, q2]
    · intro h i hi
      have l3 := l2 (u - u'') (isSymField_sub hu hV'')
      have : nodes[i]?.map (fun node => node.onField (fieldC comp2 (u - u''))) ∈
          l.map fun i => nodes[i]?.map fun node => node.onField (fieldC comp2 (u - u'')) := List.mem_map_of_mem hi
      rw [l3] at this
      obtain ⟨q, hq, hr⟩ := List.mem_map.1 this
      obtain ⟨node, q1, q2⟩ := Option.map_eq_some_iff.1 hr.symm
      refine ⟨node, q1, ?_⟩
      rw [q2]
      obtain ⟨x, hx, rfl⟩ := List.mem_map.1 hq
      rw [← a2] at hx
      obtain ⟨y, -, rfl⟩ := List.mem_map.1 hx
      exact h _ ((onEntity_iff s τ t1 _).2 ⟨y, rfl⟩)
  rw [hL, hZ]
  have hdot : ∀ x c, ((c • physNormal A n) ⬝ᵥ (doubleContravariant A u x).mulVec (c • physNormal A n) =
      (c • physNormal A n) ⬝ᵥ (doubleContravariant A' u' (cellMap M cc x)).mulVec (c • physNormal A n) ↔
      c ^ 2 * quadForm (u - u'') x n n = 0) := by
    intro x c
    have e1 : physNormal A n = σ⁻¹ • physNormal A' n' := by rw [hσ, smul_smul, inv_mul_cancel₀ hσ0, one_smul]
    rw [dot_scale, dot_scale, doubleContravariant_quad hm.regular]
    rw [e1, dot_scale, doubleContravariant_quad hm'.regular, hq, quadForm_subField, ← mul_assoc (σ⁻¹ ^ 2), ← mul_pow, inv_mul_cancel₀ hσ0,
      one_pow, one_mul, mul_sub, sub_eq_zero]
  constructor
  · intro h x x' hx hx' hxx N hN
    have : x' = cellMap M cc x := cellMap_injective hm'.regular b' (by rw [hG, hxx])
    rw [this]
    obtain ⟨c, rfl⟩ := mesh_normal (by norm_num) hs hm ht m2 m3 N hN
    exact (hdot x c).2 (by rw [h x hx, mul_zero])
  · intro h x hx
    obtain ⟨y, rfl⟩ := (onEntity_iff s τ t1 _).1 hx
    have hlt : ∀ a ∈ List.ofFn τ, a < 2 + 1 := fun a ha => by have := (hs.2.1.entity _ _ _ ht).2.2 a ha; rwa [hs.1] at this
    have := h _ _ hx ((onEntity_iff s' τ' t1' _).2 ⟨y, rfl⟩) (by rw [← hGe, hG]) (physNormal A n) (by
      intro a ha c hc
      rw [← hm.vertices a (hlt a ha), ← hm.vertices c (hlt c hc), physNormal_edge hm.regular, m3 a ha c hc, mul_zero])
    have h2 := (hdot (entMap (fun j => s.v (τ j)) y) 1).1 (by rw [one_smul, hGe]; exact this)
    rwa [one_pow, one_mul] at h2

/-- C71: Hellan-Herrmann-Johnson elements are normal-normal conforming.  Two cells of a mesh, images of reference cells `s` and `s'`,
share an edge; the normals the two cells use for it, mapped to the mesh, are `N` and `σ N`.  Fields `u`, `u'` of the two spaces mapped
with the double contravariant Piola map have the same normal-normal component on the edge if and only if the dofs of the edge agree, in
the order of `entity_dofs`, up to the factor `σ²`. -/
theorem hhj_conforming (hs : ProperSimplex ℝ s) (hs' : ProperSimplex ℝ s') (hnum : NumberedSimplex s)
    (hnum' : NumberedSimplex s') {nrm nrm' : ℕ → Option (Fin 2 → ℝ)} (hn : FacetNormals s nrm) (hn' : FacetNormals s' nrm') {r : ℕ} {el el'}
    {nodes nodes' : List (Functional ℝ (Fin 2 → ℝ))} {ids ids' : EntityIds ℕ}
    (hel : hellanHerrmannJohnson s nrm r = some (el, nodes, ids)) (hel' : hellanHerrmannJohnson s' nrm' r = some (el', nodes', ids'))
    (hm : InMesh X s A b g) (hm' : InMesh X s' A' b' g') {e e' : ℕ} {t t' : List ℕ} (ht : HasEntity s.topo 1 e t)
    (ht' : HasEntity s'.topo 1 e' t') (hsh : SharedEntity g t g' t') {u u' : Fin 2 × Fin 2 → MvPolynomial (Fin 2) ℝ}
    (hu : IsSymField r u) (hu' : IsSymField r u') :
    ∃ n n' σ, nrm e = some n ∧ nrm' e' = some n' ∧ σ ≠ 0 ∧ physNormal A' n' = σ • physNormal A n ∧
      (DofsMatch (σ ^ 2) nodes' ids' (fun a => a.onField (fieldC comp2 u')) nodes ids (fun a => a.onField (fieldC comp2 u)) 1 e' e ↔
      ∀ x x', OnEntity s t x → OnEntity s' t' x' → cellMap A b x = cellMap A' b' x' →
        ∀ N, (∀ a ∈ t, ∀ c ∈ t, N ⬝ᵥ (X (g a) - X (g c)) = 0) →
          N ⬝ᵥ (doubleContravariant A u x).mulVec N = N ⬝ᵥ (doubleContravariant A' u' x').mulVec N) := by
  obtain ⟨el1, nodes1, ids1, h1, -, -, h2⟩ := hhj_spec s hs hnum nrm hn r
  obtain ⟨el2, nodes2, ids2, h1', -, -, h2'⟩ := hhj_spec s' hs' hnum' nrm' hn' r
  rw [hel, Option.some.injEq, Prod.mk.injEq, Prod.mk.injEq] at h1
  rw [hel', Option.some.injEq, Prod.mk.injEq, Prod.mk.injEq] at h1'
  obtain ⟨-, rfl, rfl⟩ := h1
  obtain ⟨-, rfl, rfl⟩ := h1'
  obtain ⟨n, n', σ, n1, n2, n3, n4⟩ := shared_normals le_rfl hs hs' hm hm' hn hn' ht ht' hsh
  exact ⟨n, n', σ, n1, n2, n3, n4, hhj_conforming_core hs hs' hn h2 h2' hm hm' ht ht' hsh n1 n2 n3 n4 hu hu'⟩

/-- C71: with the scaled normals of UFC cells the dofs of a shared edge simply agree. -/
theorem hhj_conforming_ufc (hs : ProperSimplex ℝ s) (hs' : ProperSimplex ℝ s') (hnum : NumberedSimplex s)
    (hnum' : NumberedSimplex s') {sv sv' : ℕ → List ℝ} (hv : FacetVolumes s sv) (hv' : FacetVolumes s' sv')
    (hn : FacetNormals s (ufcScaledNormal s sv)) (hn' : FacetNormals s' (ufcScaledNormal s' sv')) {r : ℕ} {el el'}
    {nodes nodes' : List (Functional ℝ (Fin 2 → ℝ))} {ids ids' : EntityIds ℕ}
    (hel : hellanHerrmannJohnson s (ufcScaledNormal s sv) r = some (el, nodes, ids))
    (hel' : hellanHerrmannJohnson s' (ufcScaledNormal s' sv') r = some (el', nodes', ids'))
    (hm : InMesh X s A b g) (hm' : InMesh X s' A' b' g') {e e' : ℕ} {t t' : List ℕ} (ht : HasEntity s.topo 1 e t)
    (ht' : HasEntity s'.topo 1 e' t') (hsh : SharedEntity g t g' t') {u u' : Fin 2 × Fin 2 → MvPolynomial (Fin 2) ℝ}
    (hu : IsSymField r u) (hu' : IsSymField r u') :
    DofsMatch 1 nodes' ids' (fun a => a.onField (fieldC comp2 u')) nodes ids (fun a => a.onField (fieldC comp2 u)) 1 e' e ↔
      ∀ x x', OnEntity s t x → OnEntity s' t' x' → cellMap A b x = cellMap A' b' x' →
        ∀ N, (∀ a ∈ t, ∀ c ∈ t, N ⬝ᵥ (X (g a) - X (g c)) = 0) →
          N ⬝ᵥ (doubleContravariant A u x).mulVec N = N ⬝ᵥ (doubleContravariant A' u' x').mulVec N := by
  obtain ⟨el1, nodes1, ids1, h1, -, -, h2⟩ := hhj_spec s hs hnum _ hn r
  obtain ⟨el2, nodes2, ids2, h1', -, -, h2'⟩ := hhj_spec s' hs' hnum' _ hn' r
  rw [hel, Option.some.injEq, Prod.mk.injEq, Prod.mk.injEq] at h1
  rw [hel', Option.some.injEq, Prod.mk.injEq, Prod.mk.injEq] at h1'
  obtain ⟨-, rfl, rfl⟩ := h1
  obtain ⟨-, rfl, rfl⟩ := h1'
  obtain ⟨n, n', n1, n2, n3⟩ := ufc_scaled_normals_match (Or.inl rfl) hs hs' hv hv' hm hm' ht ht' hsh
  have := hhj_conforming_core hs hs' hn h2 h2' hm hm' ht ht' hsh n1 n2 one_ne_zero (by rw [n3, one_smul]) hu hu'
  rwa [one_pow] at this

/-- Both kinds over the two triangles of the square, Regge also over two tetrahedra, for every degree. -/
example (r : ℕ) : ∃ el nodes ids, regge tri r = some (el, nodes, ids) ∧ ∀ u u', IsSymField r u → IsSymField r u' →
    ((∀ d1 e1 t1 d1' e1' t1', HasEntity tri.topo d1 e1 t1 → (∀ a ∈ t1, a ∈ [1, 2]) → HasEntity tri.topo d1' e1' t1' →
        SharedEntity id t1 (· + 1) t1' → d1' = d1 ∧
        DofsMatch 1 nodes ids (fun a => a.onField (fieldC comp2 u)) nodes ids (fun a => a.onField (fieldC comp2 u')) d1 e1 e1') ↔
      ∀ x x', OnEntity tri [1, 2] x → OnEntity tri [0, 1] x' → cellMap 1 0 x = cellMap !![-1, 0; 1, 1] ![1, 0] x' →
        ∀ a ∈ [1, 2], ∀ c ∈ [1, 2], ∀ f ∈ [1, 2], ∀ h ∈ [1, 2],
          (square (id a) - square (id c)) ⬝ᵥ (doubleCovariant 1 u x).mulVec (square (id f) - square (id h)) =
          (square (id a) - square (id c)) ⬝ᵥ (doubleCovariant !![-1, 0; 1, 1] u' x').mulVec (square (id f) - square (id h))) := by
  obtain ⟨el, nodes, ids, h, -⟩ := regge_spec (Or.inl rfl) tri (proper_ufcTriangle (K := ℝ)) numbered_ufcTriangle r
  exact ⟨el, nodes, ids, h, fun u u' hu hu' => regge_conforming (Or.inl rfl) (proper_ufcTriangle (K := ℝ)) proper_ufcTriangle
    numbered_ufcTriangle numbered_ufcTriangle h h square_left square_right le_rfl (by norm_num) square_edges.1 square_edges.2.1
    square_edges.2.2 hu hu'⟩

example (r : ℕ) {el nodes ids} (h : regge tet r = some (el, nodes, ids)) {u u' : Fin 3 × Fin 3 → MvPolynomial (Fin 3) ℝ}
    (hu : IsSymField r u) (hu' : IsSymField r u') := regge_conforming (Or.inr rfl) (proper_ufcTetrahedron (K := ℝ)) proper_ufcTetrahedron
  numbered_ufcTetrahedron numbered_ufcTetrahedron h h bipyramid_lower bipyramid_upper (by norm_num) (by norm_num)
  bipyramid_faces.1 bipyramid_faces.2.1 bipyramid_faces.2.2 hu hu'

example (r : ℕ) : ∃ el nodes ids, hellanHerrmannJohnson tri (ufcScaledNormal tri triLengths) r = some (el, nodes, ids) ∧
    ∀ u u', IsSymField r u → IsSymField r u' →
    (DofsMatch 1 nodes ids (fun a => a.onField (fieldC comp2 u')) nodes ids (fun a => a.onField (fieldC comp2 u)) 1 2 0 ↔
      ∀ x x', OnEntity tri [1, 2] x → OnEntity tri [0, 1] x' → cellMap 1 0 x = cellMap !![-1, 0; 1, 1] ![1, 0] x' →
        ∀ N, (∀ a ∈ [1, 2], ∀ c ∈ [1, 2], N ⬝ᵥ (square (id a) - square (id c)) = 0) →
          N ⬝ᵥ (doubleContravariant 1 u x).mulVec N = N ⬝ᵥ (doubleContravariant !![-1, 0; 1, 1] u' x').mulVec N) := by
  obtain ⟨el, nodes, ids, h, -⟩ := hhj_spec tri (proper_ufcTriangle (K := ℝ)) numbered_ufcTriangle _
    (ufc_triangle_normals _ proper_ufcTriangle triLengths) r
  exact ⟨el, nodes, ids, h, fun u u' hu hu' => hhj_conforming_ufc (proper_ufcTriangle (K := ℝ)) proper_ufcTriangle
    numbered_ufcTriangle numbered_ufcTriangle triLengths_spec triLengths_spec (ufc_triangle_normals _ proper_ufcTriangle _)
    (ufc_triangle_normals _ proper_ufcTriangle _) h h square_left square_right square_edges.1 square_edges.2.1 square_edges.2.2 hu hu'⟩

end
end FIAT
