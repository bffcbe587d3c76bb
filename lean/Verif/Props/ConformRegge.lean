/-
C71: tangential-tangential conformity across the cells of a mesh, for Regge elements.
-/
import Verif.Props.ConformCurl
import Verif.Props.Regge

namespace FIAT
open MvPolynomial
section
variable {D : ℕ}

/-- The double covariant Piola map `A⁻ᵀ u A⁻¹`, at the image of `x`. -/
noncomputable def doubleCovariant (A : Matrix (Fin D) (Fin D) ℝ) (u : Fin D × Fin D → MvPolynomial (Fin D) ℝ) (x : Fin D → ℝ) :
    Matrix (Fin D) (Fin D) ℝ := A⁻¹.transpose * Matrix.of (fun i j => eval x (u (i, j))) * A⁻¹

theorem quadForm_matrix (u : Fin D × Fin D → MvPolynomial (Fin D) ℝ) (x v w : Fin D → ℝ) :
    quadForm u x v w = v ⬝ᵥ (Matrix.of fun i j => eval x (u (i, j))).mulVec w := by
  unfold quadForm
  refine Finset.sum_congr rfl fun i _ => ?_
  show _ = v i * ∑ j, eval x (u (i, j)) * w j
  rw [Finset.mul_sum]
  exact Finset.sum_congr rfl fun j _ => mul_assoc _ _ _

/-- The double covariant map along edge vectors. -/
theorem doubleCovariant_quad {A : Matrix (Fin D) (Fin D) ℝ} (hA : A.det ≠ 0) (u : Fin D × Fin D → MvPolynomial (Fin D) ℝ) (x v w : Fin D → ℝ) :
    A.mulVec v ⬝ᵥ (doubleCovariant A u x).mulVec (A.mulVec w) = quadForm u x v w := by
  have hu : IsUnit A.det := isUnit_iff_ne_zero.2 hA
  unfold doubleCovariant
  have h1 : ∀ z, A⁻¹.mulVec (A.mulVec z) = z := fun z => by rw [Matrix.mulVec_mulVec, Matrix.nonsing_inv_mul _ hu, Matrix.one_mulVec]
  rw [quadForm_matrix, ← Matrix.mulVec_mulVec, ← Matrix.mulVec_mulVec, h1, Matrix.dotProduct_mulVec, Matrix.vecMul_transpose, h1]

theorem cellMap_sub (A : Matrix (Fin D) (Fin D) ℝ) (b u u' : Fin D → ℝ) : cellMap A b u - cellMap A b u' = A.mulVec (u - u') := by
  unfold cellMap
  rw [add_sub_add_right_eq_sub, ← Matrix.mulVec_sub]

/-- The double covariant pull-back along an affine map. -/
noncomputable def doublePull (M : Matrix (Fin D) (Fin D) ℝ) (c : Fin D → ℝ) (u : Fin D × Fin D → MvPolynomial (Fin D) ℝ) :
    Fin D × Fin D → MvPolynomial (Fin D) ℝ :=
  fun p => ∑ k, C (M k p.1) * tangPull (affVerts M c) (fun l => u (k, l)) p.2

theorem eval_doublePull (M : Matrix (Fin D) (Fin D) ℝ) (c : Fin D → ℝ) (u : Fin D × Fin D → MvPolynomial (Fin D) ℝ) (i j : Fin D)
    (x : Fin D → ℝ) : eval x (doublePull M c u (i, j)) = ∑ k, ∑ l, M k i * (M l j * eval (cellMap M c x) (u (k, l))) := by
  unfold doublePull
  rw [map_sum]
  refine Finset.sum_congr rfl fun k _ => ?_
  rw [map_mul, eval_C, eval_affPull, Finset.mul_sum]

theorem quadForm_doublePull (M : Matrix (Fin D) (Fin D) ℝ) (c : Fin D → ℝ) (u : Fin D × Fin D → MvPolynomial (Fin D) ℝ) (x v w : Fin D → ℝ) :
    quadForm (doublePull M c u) x v w = quadForm u (cellMap M c x) (M.mulVec v) (M.mulVec w) := by
  rw [quadForm_matrix, quadForm_matrix]
  have : Matrix.of (fun i j => eval x (doublePull M c u (i, j))) =
      M.transpose * Matrix.of (fun i j => eval (cellMap M c x) (u (i, j))) * M := by
    ext i j
    rw [Matrix.of_apply, eval_doublePull, Matrix.mul_apply]
    simp only [Matrix.mul_apply, Matrix.transpose_apply, Matrix.of_apply, Finset.sum_mul]
    rw [Finset.sum_comm]
    exact Finset.sum_congr rfl fun k _ => Finset.sum_congr rfl fun l _ => by ring
  rw [this, ← Matrix.mulVec_mulVec, ← Matrix.mulVec_mulVec, Matrix.dotProduct_mulVec, Matrix.vecMul_transpose]

theorem doublePull_sym {r : ℕ} (M : Matrix (Fin D) (Fin D) ℝ) (c : Fin D → ℝ) {u : Fin D × Fin D → MvPolynomial (Fin D) ℝ}
    (hu : IsSymField r u) : IsSymField r (doublePull M c u) := by
  constructor
  · intro i j
    apply MvPolynomial.funext
    intro x
    rw [eval_doublePull, eval_doublePull, Finset.sum_comm]
    exact Finset.sum_congr rfl fun k _ => Finset.sum_congr rfl fun l _ => by rw [hu.1 l k]; ring
  · rintro ⟨i, j⟩
    unfold doublePull
    refine totalDegree_finsetSum_le fun k _ => ?_
    refine (totalDegree_mul _ _).trans ?_
    rw [totalDegree_C, zero_add]
    unfold tangPull
    refine totalDegree_finsetSum_le fun l _ => ?_
    refine (totalDegree_mul _ _).trans ?_
    rw [totalDegree_C, zero_add]
    exact (totalDegree_pullback _ _ _).trans (hu.2 _)

theorem isSymField_sub {r : ℕ} {u u' : Fin D × Fin D → MvPolynomial (Fin D) ℝ} (hu : IsSymField r u) (hu' : IsSymField r u') :
    IsSymField r (u - u') :=
  ⟨fun i j => by rw [Pi.sub_apply, Pi.sub_apply, hu.1, hu'.1], fun c => (totalDegree_sub _ _).trans (max_le (hu.2 c) (hu'.2 c))⟩

theorem quadForm_subField (u u' : Fin D × Fin D → MvPolynomial (Fin D) ℝ) (x v w : Fin D → ℝ) :
    quadForm (u - u') x v w = quadForm u x v w - quadForm u' x v w := by
  unfold quadForm
  simp only [Pi.sub_apply, map_sub, mul_sub, sub_mul, Finset.sum_sub_distrib]

theorem onFieldC_sub (l : Functional ℝ (Fin D → ℝ)) (u u' : Fin D × Fin D → MvPolynomial (Fin D) ℝ) :
    l.onField (fieldC comp2 (u - u')) = l.onField (fieldC comp2 u) - l.onField (fieldC comp2 u') := by
  have h := onFieldC_comb comp2 l ![1, -1] ![u, u']
  rw [Fin.sum_univ_two, Fin.sum_univ_two] at h
  simp only [Matrix.cons_val_zero, Matrix.cons_val_one, one_smul, neg_smul, one_mul, neg_mul, ← sub_eq_add_neg] at h
  exact h

theorem edgeVectors_map (f : (Fin D → ℝ) → Fin D → ℝ) (M : Matrix (Fin D) (Fin D) ℝ) (hf : ∀ a b, f a - f b = M.mulVec (a - b))
    (l : List (Fin D → ℝ)) : edgeVectors (l.map f) = (edgeVectors l).map M.mulVec := by
  induction l with
  | nil => rfl
  | cons a l ih =>
    rw [List.map_cons, edgeVectors, edgeVectors, List.map_append, ih, List.map_map, List.map_map]
    congr 1
    exact List.map_congr_left fun b _ => hf b a

variable {X : ℕ → Fin D → ℝ} {s s' : SimplexCell (Fin D → ℝ)} {A A' : Matrix (Fin D) (Fin D) ℝ} {b b' : Fin D → ℝ} {g g' : ℕ → ℕ}

/-- Conformity from the specification of the dofs. -/
theorem regge_conforming_core (hs : ProperSimplex ℝ s) (hs' : ProperSimplex ℝ s') {r : ℕ}
    {nodes nodes' : List (Functional ℝ (Fin D → ℝ))} {ids ids' : EntityIds ℕ} (hdofs : ReggeDofs s r nodes ids)
    (hdofs' : ReggeDofs s' r nodes' ids') (hm : InMesh X s A b g) (hm' : InMesh X s' A' b' g')
    {d e d' e' : ℕ} {t t' : List ℕ} (hd : 1 ≤ d) (hdD : d < D) (ht : HasEntity s.topo d e t) (ht' : HasEntity s'.topo d' e' t')
    (hsh : SharedEntity g t g' t') {u u' : Fin D × Fin D → MvPolynomial (Fin D) ℝ} (hu : IsSymField r u) (hu' : IsSymField r u') :
    (∀ d1 e1 t1 d1' e1' t1', HasEntity s.topo d1 e1 t1 → (∀ a ∈ t1, a ∈ t) → HasEntity s'.topo d1' e1' t1' → SharedEntity g t1 g' t1' →
      d1' = d1 ∧
      DofsMatch 1 nodes ids (fun a => a.onField (fieldC comp2 u)) nodes' ids' (fun a => a.onField (fieldC comp2 u')) d1 e1 e1') ↔
      ∀ x x', OnEntity s t x → OnEntity s' t' x' → cellMap A b x = cellMap A' b' x' →
        ∀ a ∈ t, ∀ c ∈ t, ∀ f ∈ t, ∀ h ∈ t, (X (g a) - X (g c)) ⬝ᵥ (doubleCovariant A u x).mulVec (X (g f) - X (g h)) =
          (X (g a) - X (g c)) ⬝ᵥ (doubleCovariant A' u' x').mulVec (X (g f) - X (g h)) := by
  set M := A'⁻¹ * A with hM
  set cc := A'⁻¹.mulVec (b - b') with hcc
  have hG : ∀ x, cellMap A' b' (cellMap M cc x) = cellMap A b x := cell_transition hm'.regular
  set u'' := doublePull M cc u' with hu''
  have hV'' : IsSymField r u'' := doublePull_sym _ _ hu'
  have hGv : ∀ {d1 : ℕ} {τ τ' : Fin (d1 + 1) → ℕ}, (∀ j, τ j < D + 1) → (∀ j, τ' j < D + 1) →
      (List.ofFn τ).map g = (List.ofFn τ').map g' → ∀ j, cellMap M cc (s.v (τ j)) = s'.v (τ' j) := by
    intro d1 τ τ' h1 h1' h j
    apply cellMap_injective hm'.regular b'
    rw [hG]
    exact shared_verts hm hm' h1 h1' h j
  have hGe : ∀ {d1 : ℕ} {τ τ' : Fin (d1 + 1) → ℕ}, (∀ j, τ j < D + 1) → (∀ j, τ' j < D + 1) →
      (List.ofFn τ).map g = (List.ofFn τ').map g' → ∀ y, cellMap M cc (entMap (fun j => s.v (τ j)) y) = entMap (fun j => s'.v (τ' j)) y := by
    intro d1 τ τ' h1 h1' h y
    rw [cellMap_entMap]
    simp only [hGv h1 h1' h]
  -- one entity
  have hone : ∀ d1 e1 t1 e1' t1' l, 1 ≤ d1 → d1 < D → HasEntity s.topo d1 e1 t1 → HasEntity s'.topo d1 e1' t1' → SharedEntity g t1 g' t1' →
      ids.at? d1 e1 = some l →
      (DofsMatch 1 nodes ids (fun a => a.onField (fieldC comp2 u)) nodes' ids' (fun a => a.onField (fieldC comp2 u')) d1 e1 e1' ↔
        ∀ i ∈ l, ∃ node, nodes[i]? = some node ∧ node.onField (fieldC comp2 (u - u'')) = 0) := by
    intro d1 e1 t1 e1' t1' l h1 h2 he he' hsh1 hl
    have hmap := (shared_tuple hs hs' hm hm' he he' hsh1).2
    obtain ⟨pts, p1, -, p3⟩ := hdofs.entity d1 e1 t1 h1 he
    obtain ⟨pts', p1', -, p3'⟩ := hdofs'.entity d1 e1' t1' h1 he'
    obtain ⟨τ, t1, t2, rfl, t4⟩ := entity_tuple hs he
    obtain ⟨τ', t1', t2', rfl, t4'⟩ := entity_tuple hs' he'
    rw [make_points_ref hs h1 h2 τ t4, Option.some.injEq] at p1
    rw [make_points_ref hs' h1 h2 τ' t4', Option.some.injEq] at p1'
    have hval : ∀ v, IsSymField r v → DofValues nodes ids (fun a => a.onField (fieldC comp2 v)) d1 e1
        (pts.flatMap fun x => (edgeVectors ((List.ofFn τ).map s.v)).map fun τ => quadForm v x τ τ) := fun v hv => by
      obtain ⟨l, q1, q2⟩ := p3
      exact ⟨l, q1, q2 v hv⟩
    have hval' : DofValues nodes' ids' (fun a => a.onField (fieldC comp2 u')) d1 e1'
        (pts.flatMap fun x => (edgeVectors ((List.ofFn τ).map s.v)).map fun τ => quadForm u'' x τ τ) := by
      obtain ⟨l, q1, q2⟩ := p3'
      refine ⟨l, q1, (q2 u' hu').trans (congrArg (List.map some) ?_)⟩
      have hedge : edgeVectors ((List.ofFn τ').map s'.v) = (edgeVectors ((List.ofFn τ).map s.v)).map M.mulVec := by
        rw [← edgeVectors_map (cellMap M cc) M (fun a b => cellMap_sub M cc a b), List.map_map, List.map_ofFn, List.map_ofFn]
        congr 2
        funext j
        exact (hGv t2 t2' hmap j).symm
      beta_reduce
      rw [hedge, ← p1, ← p1', List.flatMap_map, List.flatMap_map]
      refine List.flatMap_congr fun y _ => ?_
      rw [List.map_map]
      refine List.map_congr_left fun v _ => ?_
      rw [Function.comp, hu'', quadForm_doublePull, hGe t2 t2' hmap]
    rw [dofsMatch_iff (hval u hu) hval']
    have e1 : ∀ L : List ℝ, L.map (1 * ·) = L := fun L => by simp
    rw [e1, dofValues_eq_iff (hval u hu) (hval u'' hV'') hl]
    simp only [onFieldC_sub]
  have hsubd : ∀ {d1 e1 t1}, HasEntity s.topo d1 e1 t1 → (∀ a ∈ t1, a ∈ t) → d1 ≤ d := by
    intro d1 e1 t1 h' hsub
    obtain ⟨n1, n2, -⟩ := hs.2.1.entity _ _ _ ht
    obtain ⟨m1, m2, -⟩ := hs.2.1.entity _ _ _ h'
    have := (m1.subperm hsub).length_le
    omega
  have hlt : ∀ a ∈ t, a < D + 1 := fun a ha => by have := (hs.2.1.entity _ _ _ ht).2.2 a ha; rwa [hs.1] at this
  have hdot : ∀ x, ∀ a ∈ t, ∀ c ∈ t, ∀ f ∈ t, ∀ h ∈ t, (quadForm (u - u'') x (s.v a - s.v c) (s.v f - s.v h) = 0 ↔
      (X (g a) - X (g c)) ⬝ᵥ (doubleCovariant A u x).mulVec (X (g f) - X (g h)) =
          (X (g a) - X (g c)) ⬝ᵥ (doubleCovariant A' u' (cellMap M cc x)).mulVec (X (g f) - X (g h))) := by
    intro x a ha c hc f hf h hh
    have e1 : ∀ a ∈ t, ∀ c ∈ t, X (g a) - X (g c) = A.mulVec (s.v a - s.v c) := fun a ha c hc => by
      rw [← hm.vertices a (hlt a ha), ← hm.vertices c (hlt c hc), cellMap_sub]
    have e2 : ∀ v, A.mulVec v = A'.mulVec (M.mulVec v) := fun v => by
      rw [Matrix.mulVec_mulVec, hM, ← Matrix.mul_assoc, Matrix.mul_nonsing_inv _ (isUnit_iff_ne_zero.2 hm'.regular), Matrix.one_mul]
    rw [e1 a ha c hc, e1 f hf h hh, doubleCovariant_quad hm.regular, e2, e2, doubleCovariant_quad hm'.regular, quadForm_subField, hu'',
      quadForm_doublePull, sub_eq_zero]
  have hL : (∀ d1 e1 t1 d1' e1' t1', HasEntity s.topo d1 e1 t1 → (∀ a ∈ t1, a ∈ t) → HasEntity s'.topo d1' e1' t1' → SharedEntity g t1 g' t1' →
      d1' = d1 ∧
      DofsMatch 1 nodes ids (fun a => a.onField (fieldC comp2 u)) nodes' ids' (fun a => a.onField (fieldC comp2 u')) d1 e1 e1') ↔
      ∀ x, OnEntity s t x → ∀ a ∈ t, ∀ c ∈ t, ∀ f ∈ t, ∀ h ∈ t, quadForm (u - u'') x (s.v a - s.v c) (s.v f - s.v h) = 0 := by
    constructor
    · intro h
      refine hdofs.conforming d e t hd ht _ (isSymField_sub hu hV'') fun d1 e1 t1 he hsub l hl i hi node hnode => ?_
      by_cases hd1 : 1 ≤ d1
      · obtain ⟨d1', e1', t1', he', hsh1, -⟩ := shared_sub (d := d) (e := e) hs' hs ht' hsh he hsub
        obtain ⟨rfl, hmatch⟩ := h d1 e1 t1 d1' e1' t1' he hsub he' hsh1
        obtain ⟨node', n1, n2⟩ := (hone _ e1 t1 e1' t1' l hd1 (lt_of_le_of_lt (hsubd he hsub) hdD) he he' hsh1 hl).1 hmatch i hi
        rw [hnode, Option.some.injEq] at n1
        rw [n1, n2]
      · obtain rfl : d1 = 0 := by omega
        rw [hdofs.vertex e1 t1 he, Option.some.injEq] at hl
        rw [← hl] at hi
        simp at hi
    · intro h d1 e1 t1 d1' e1' t1' he hsub he' hsh1
      obtain ⟨rfl, -⟩ := shared_tuple hs hs' hm hm' he he' hsh1
      refine ⟨rfl, ?_⟩
      by_cases hd1 : 1 ≤ d1'
      · obtain ⟨pts, p1, -, l, l1, l2⟩ := hdofs.entity d1' e1 t1 hd1 he
        refine (hone _ e1 t1 e1' t1' l hd1 (lt_of_le_of_lt (hsubd he hsub) hdD) he he' hsh1 l1).2 fun i hi => ?_
        have l3 := l2 (u - u'') (isSymField_sub hu hV'')
        have : nodes[i]?.map (fun node => node.onField (fieldC comp2 (u - u''))) ∈
            l.map fun i => nodes[i]?.map fun node => node.onField (fieldC comp2 (u - u'')) := List.mem_map_of_mem hi
        rw [l3] at this
        obtain ⟨q, hq, hr⟩ := List.mem_map.1 this
        obtain ⟨node, n1, n2⟩ := Option.map_eq_some_iff.1 hr.symm
        refine ⟨node, n1, ?_⟩
        rw [n2]
        obtain ⟨x, hx, hq⟩ := List.mem_flatMap.1 hq
        obtain ⟨w, hw, rfl⟩ := List.mem_map.1 hq
        have hltD := lt_of_le_of_lt (hsubd he hsub) hdD
        obtain ⟨a, ha, c, hc, rfl⟩ := mem_edgeVectors hw
        refine h x ?_ c (hsub c hc) a (hsub a ha) c (hsub c hc) a (hsub a ha)
        obtain ⟨τ, q1, q2, rfl, q4⟩ := entity_tuple hs he
        rw [make_points_ref hs hd1 hltD τ q4, Option.some.injEq] at p1
        rw [← p1] at hx
        obtain ⟨y, -, rfl⟩ := List.mem_map.1 hx
        exact onEntity_mono (hs.2.1.entity _ _ _ ht).1 (hs.2.1.entity _ _ _ he).1 hsub ((onEntity_iff s τ q1 _).2 ⟨y, rfl⟩)
      · obtain rfl : d1' = 0 := by omega
        exact ⟨[], [], hdofs.vertex e1 t1 he, hdofs'.vertex e1' t1' he', List.Forall₂.nil⟩
  rw [hL]
  constructor
  · intro h x x' hx hx' hxx a ha c hc f hf k hk
    have : x' = cellMap M cc x := cellMap_injective hm'.regular b' (by rw [hG, hxx])
    rw [this]
    exact (hdot x a ha c hc f hf k hk).1 (h x hx a ha c hc f hf k hk)
  · intro h x hx a ha c hc f hf k hk
    refine (hdot x a ha c hc f hf k hk).2 (h x _ hx ?_ (hG x).symm a ha c hc f hf k hk)
    obtain ⟨rfl, hmap⟩ := shared_tuple hs hs' hm hm' ht ht' hsh
    obtain ⟨τ, t1, t2, rfl, t4⟩ := entity_tuple hs ht
    obtain ⟨τ', t1', t2', rfl, t4'⟩ := entity_tuple hs' ht'
    obtain ⟨y, rfl⟩ := (onEntity_iff s τ t1 _).1 hx
    exact (onEntity_iff s' τ' t1' _).2 ⟨y, hGe t2 t2' hmap y⟩

/-- C71: Regge elements are tangential-tangential conforming.  Two cells of a mesh, images of reference cells `s` and `s'`, share an
edge or a face.  Fields `u`, `u'` of the Regge space mapped with the double covariant Piola map have the same values on pairs of edge
vectors of that entity if and only if the dofs of the entity and of its sub-entities are equal, in the order of `entity_dofs`. -/
theorem regge_conforming (hD : D = 2 ∨ D = 3) (hs : ProperSimplex ℝ s) (hs' : ProperSimplex ℝ s') (hnum : NumberedSimplex s)
    (hnum' : NumberedSimplex s') {r : ℕ} {el el'} {nodes nodes' : List (Functional ℝ (Fin D → ℝ))} {ids ids' : EntityIds ℕ}
    (hel : regge s r = some (el, nodes, ids)) (hel' : regge s' r = some (el', nodes', ids')) (hm : InMesh X s A b g)
    (hm' : InMesh X s' A' b' g') {d e d' e' : ℕ} {t t' : List ℕ} (hd : 1 ≤ d) (hdD : d < D) (ht : HasEntity s.topo d e t)
    (ht' : HasEntity s'.topo d' e' t') (hsh : SharedEntity g t g' t') {u u' : Fin D × Fin D → MvPolynomial (Fin D) ℝ}
    (hu : IsSymField r u) (hu' : IsSymField r u') :
    (∀ d1 e1 t1 d1' e1' t1', HasEntity s.topo d1 e1 t1 → (∀ a ∈ t1, a ∈ t) → HasEntity s'.topo d1' e1' t1' → SharedEntity g t1 g' t1' →
      d1' = d1 ∧
      DofsMatch 1 nodes ids (fun a => a.onField (fieldC comp2 u)) nodes' ids' (fun a => a.onField (fieldC comp2 u')) d1 e1 e1') ↔
      ∀ x x', OnEntity s t x → OnEntity s' t' x' → cellMap A b x = cellMap A' b' x' →
        ∀ a ∈ t, ∀ c ∈ t, ∀ f ∈ t, ∀ h ∈ t, (X (g a) - X (g c)) ⬝ᵥ (doubleCovariant A u x).mulVec (X (g f) - X (g h)) =
          (X (g a) - X (g c)) ⬝ᵥ (doubleCovariant A' u' x').mulVec (X (g f) - X (g h)) := by
  obtain ⟨el1, nodes1, ids1, h1, -, -, h2⟩ := regge_spec hD s hs hnum r
  obtain ⟨el2, nodes2, ids2, h1', -, -, h2'⟩ := regge_spec hD s' hs' hnum' r
  rw [hel, Option.some.injEq, Prod.mk.injEq, Prod.mk.injEq] at h1
  rw [hel', Option.some.injEq, Prod.mk.injEq, Prod.mk.injEq] at h1'
  obtain ⟨-, rfl, rfl⟩ := h1
  obtain ⟨-, rfl, rfl⟩ := h1'
  exact regge_conforming_core hs hs' h2 h2' hm hm' hd hdD ht ht' hsh hu hu'

end
end FIAT
