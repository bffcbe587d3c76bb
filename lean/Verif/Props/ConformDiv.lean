/-
C68: H(div) conformity across the cells of a mesh, for Raviart-Thomas and Brezzi-Douglas-Marini elements.
-/
import Verif.Lemmas.FacetNatural

namespace FIAT
open MvPolynomial
section
variable {D : ℕ}

/-- The facet dofs of `dual` on the cell `s` are the forms `Φ` of the normal trace pulled back to the reference facet. -/
def DivNatural (s : SimplexCell (Fin D → ℝ)) (nrm : ℕ → Option (Fin D → ℝ)) (nodes : List (Functional ℝ (Fin D → ℝ)))
    (ids : EntityIds ℕ) (Φ : MvPolynomial (Fin (D - 1)) ℝ → List ℝ) : Prop :=
  ∀ e (τ : Fin (D - 1 + 1) → ℕ) n, HasEntity s.topo (D - 1) e (List.ofFn τ) → nrm e = some n → ∀ w,
    DofValues nodes ids (fun a => a.onField (fieldOf w)) (D - 1) e (Φ (normPull (fun j => s.v (τ j)) n w))

theorem facet_lt (hD : 2 ≤ D) {s : SimplexCell (Fin D → ℝ)} (hnum : NumberedSimplex s) {e : ℕ} {t : List ℕ}
    (h : HasEntity s.topo (D - 1) e t) : e < D + 1 := by
  have := ((hnum.1 (D - 1) (by omega)).2 e).1 ⟨t, h⟩
  rw [Nat.sub_add_cancel (by omega)] at this
  simpa using this

/-- Assembling: nodes made of facet blocks, numbered by `facetIds`. -/
theorem divNatural_of_blocks (hD : 2 ≤ D) {s : SimplexCell (Fin D → ℝ)} (hs : ProperSimplex ℝ s) (hnum : NumberedSimplex s)
    {nrm : ℕ → Option (Fin D → ℝ)} {k : ℕ} {internal : Option ℕ} {ids : EntityIds ℕ} (hids : facetIds s k internal = some ids)
    (F : ℕ → List (Functional ℝ (Fin D → ℝ))) (hF : ∀ e < D + 1, (F e).length = (k + (D - 1)).choose (D - 1))
    (I : List (Functional ℝ (Fin D → ℝ))) (hp : DofsPartition ids (((List.range (D + 1)).map F).flatten ++ I).length)
    (Φ : MvPolynomial (Fin (D - 1)) ℝ → List ℝ)
    (hΦ : ∀ e (τ : Fin (D - 1 + 1) → ℕ) n, HasEntity s.topo (D - 1) e (List.ofFn τ) → nrm e = some n → ∀ w,
      (F e).map (fun a => a.onField (fieldOf w)) = Φ (normPull (fun j => s.v (τ j)) n w)) :
    DivNatural s nrm (((List.range (D + 1)).map F).flatten ++ I) ids Φ := by
  obtain ⟨t0, ht0⟩ := facet_exists hD hnum (e := 0) (by omega)
  obtain ⟨pts, p1, p2, -, -⟩ := entity_points hs (by omega) (by omega) ht0 k
  rw [show k + (D - 1) + 1 = D + k by omega] at p1
  intro e τ n h hn w
  obtain ⟨l, l1, l2⟩ := facet_ids_blocks hD hnum hids p1 F (fun e he => by rw [hF e he, p2]) I hp (facet_lt hD hnum h)
  rw [← hΦ e τ n h hn w]
  exact dofValues_of_block l1 l2

/-- The facet dofs of the Raviart-Thomas element are the same functions of the normal trace on every cell. -/
theorem rt_natural (hD : D = 2 ∨ D = 3) {gj : ℕ → ℕ → List ℝ} (hgj : NodesOK gj) (k : ℕ) (v : DualVariant)
    (hv : ∀ q, v = .integral q → k + 1 ≤ q) :
    ∃ Φ, TraceForm k Φ ∧ ∀ (s : SimplexCell (Fin D → ℝ)) nrm nodes ids, ProperSimplex ℝ s → NumberedSimplex s →
      0 < orientation (fun i : Fin (D + 1) => s.v i) → FacetNormals s nrm → rtDual gj s nrm k v = some (nodes, ids) →
      DivNatural s nrm nodes ids Φ := by
  have hD2 : 2 ≤ D := by omega
  have hpart : ∀ (s : SimplexCell (Fin D → ℝ)) nrm nodes ids, ProperSimplex ℝ s → NumberedSimplex s →
      0 < orientation (fun i : Fin (D + 1) => s.v i) → FacetNormals s nrm → rtDual gj s nrm k v = some (nodes, ids) →
      DofsPartition ids nodes.length := by
    intro s nrm nodes ids hs hnum ho hn h
    obtain ⟨nodes', ids', h1, -, -, h2, -⟩ := rt_dual_spec hD s hs hnum ho hgj hn k v hv
    rw [h, Option.some.injEq, Prod.mk.injEq] at h1
    rw [h1.1, h1.2]
    exact h2.partition
  cases v with
  | point =>
    refine ⟨_, lattice_form (d := D - 1) (by omega) k, ?_⟩
    intro s nrm nodes ids hs hnum ho hn h
    have hp := hpart s nrm nodes ids hs hnum ho hn h
    obtain ⟨F, f1, f2⟩ := mapM_choose (D + 1) (fun i => facetPointNodes s nrm k i) (FacetBlock s nrm k) (by
      intro e he
      obtain ⟨t, ht⟩ := facet_exists hD2 hnum he
      obtain ⟨blk, b1, b2, b3, b4⟩ := facet_points_trace hD2 hs hn ht k
      exact ⟨blk, b1, b2, b3, fun t' ht' => hasEntity_unique ht ht' ▸ b4⟩) []
    obtain ⟨internal, I, hids, rfl⟩ : ∃ internal I, facetIds s k internal = some ids ∧
        nodes = ((List.range (D + 1)).map F).flatten ++ I := by
      unfold rtDual rtPointNodes at h
      simp only [numEnts_facets hD2 hnum, f1, Option.bind_eq_bind, Option.bind_some] at h
      obtain ⟨nn, h1, h⟩ := Option.bind_eq_some_iff.1 h
      obtain ⟨internal, ids', h3, h⟩ : ∃ internal ids', facetIds s k internal = some ids' ∧ some (nn, ids') = some (nodes, ids) := by
        by_cases hk : k = 0
        · rw [if_pos hk] at h
          obtain ⟨ids', h3, h⟩ := Option.bind_eq_some_iff.1 h
          exact ⟨_, ids', h3, h⟩
        · rw [if_neg hk] at h
          obtain ⟨internal, -, h⟩ := Option.bind_eq_some_iff.1 h
          obtain ⟨ids', h3, h⟩ := Option.bind_eq_some_iff.1 h
          exact ⟨_, ids', h3, h⟩
      rw [Option.some.injEq, Prod.mk.injEq] at h
      obtain ⟨rfl, rfl⟩ := h
      refine ⟨internal, ?_⟩
      split_ifs at h1 with hk
      · rw [Option.some.injEq] at h1
        exact ⟨[], h3, by rw [← h1, List.append_nil]⟩
      · obtain ⟨pts, -, h1⟩ := Option.bind_eq_some_iff.1 h1
        obtain ⟨cells, -, h1⟩ := Option.map_eq_some_iff.1 h1
        exact ⟨cells.flatten, h3, h1.symm⟩
    exact divNatural_of_blocks hD2 hs hnum hids F (fun e he => (f2 e he).2.1) I hp _ fun e τ n he hne w =>
      facet_point_values hD2 hs k he hne (f2 e (facet_lt hD2 hnum he)).1 w
  | integral q =>
    have hq := hv q rfl
    obtain ⟨G, g1, g2, g3, g4, g5⟩ := ufc_cell_spec (d := D - 1) (by omega)
    obtain ⟨Q, q1, q2, q3, q4⟩ := simplex_rule_spec hgj (D := D - 1) (by omega) (ufcVerts ℝ (D - 1)) g5 q (by omega)
    obtain ⟨S, T, s1, s2, φ, s3, s4⟩ := scalar_values (by omega) G g2 g3 k Q.pts
    rw [← g4] at q1
    refine ⟨_, moment_form Q q2 (by omega) q3 φ T s3 s4, ?_⟩
    intro s nrm nodes ids hs hnum ho hn h
    have hp := hpart s nrm nodes ids hs hnum ho hn h
    obtain ⟨F, f1, f2⟩ := mapM_choose (D + 1) (fun i => facetMomentNodes s nrm Q T i) (FacetBlock s nrm k) (by
      intro e he
      obtain ⟨t, ht⟩ := facet_exists hD2 hnum he
      obtain ⟨blk, b1, b2, b3, b4⟩ := facet_moments_trace hs hn ht k Q q2 (by omega) q3 q4 φ T s3 s4
      exact ⟨blk, b1, b2, b3, fun t' ht' => hasEntity_unique ht ht' ▸ b4⟩) []
    obtain ⟨internal, I, hids, rfl⟩ : ∃ internal I, facetIds s k internal = some ids ∧
        nodes = ((List.range (D + 1)).map F).flatten ++ I := by
      unfold rtDual rtIntegralNodes at h
      simp only [g1, q1, s1, s2, numEnts_facets hD2 hnum, f1, Option.bind_eq_bind, Option.bind_some] at h
      obtain ⟨nn, h1, h⟩ := Option.bind_eq_some_iff.1 h
      obtain ⟨internal, ids', h3, h⟩ : ∃ internal ids', facetIds s k internal = some ids' ∧ some (nn, ids') = some (nodes, ids) := by
        by_cases hk : k = 0
        · rw [if_pos hk] at h
          obtain ⟨ids', h3, h⟩ := Option.bind_eq_some_iff.1 h
          exact ⟨_, ids', h3, h⟩
        · rw [if_neg hk] at h
          obtain ⟨internal, -, h⟩ := Option.bind_eq_some_iff.1 h
          obtain ⟨ids', h3, h⟩ := Option.bind_eq_some_iff.1 h
          exact ⟨_, ids', h3, h⟩
      rw [Option.some.injEq, Prod.mk.injEq] at h
      obtain ⟨rfl, rfl⟩ := h
      refine ⟨internal, ?_⟩
      split_ifs at h1 with hk
      · rw [Option.some.injEq] at h1
        exact ⟨[], h3, by rw [← h1, List.append_nil]⟩
      · obtain ⟨Q', -, h1⟩ := Option.bind_eq_some_iff.1 h1
        obtain ⟨P', -, h1⟩ := Option.bind_eq_some_iff.1 h1
        obtain ⟨T', -, h1⟩ := Option.map_eq_some_iff.1 h1
        exact ⟨_, h3, h1.symm⟩
    exact divNatural_of_blocks hD2 hs hnum hids F (fun e he => (f2 e he).2.1) I hp _ fun e τ n he hne w =>
      facet_moment_values hs Q q3 q4 T he hne (f2 e (facet_lt hD2 hnum he)).1 w

/-- The same for Brezzi-Douglas-Marini. -/
theorem bdm_natural (hD : D = 2 ∨ D = 3) {gj : ℕ → ℕ → List ℝ} (hgj : NodesOK gj) (k : ℕ) (hk1 : 1 ≤ k) (svd : SvdFun) (Tb : DigitTable)
    (v : DualVariant) (hv : ∀ q, v = .integral q → k + 1 ≤ q) :
    ∃ Φ, TraceForm k Φ ∧ ∀ (s : SimplexCell (Fin D → ℝ)) nrm nodes ids, ProperSimplex ℝ s → NumberedSimplex s →
      0 < orientation (fun i : Fin (D + 1) => s.v i) → FacetNormals s nrm →
      (2 ≤ k → ∀ A B, nedRows gj (k - 2) D s = some (A, B) → SvdOK (svd D _) (A ++ B)) →
      bdmDual gj svd Tb s nrm k v = some (nodes, ids) → DivNatural s nrm nodes ids Φ := by
  have hD2 : 2 ≤ D := by omega
  have hpart : ∀ (s : SimplexCell (Fin D → ℝ)) nrm nodes ids, ProperSimplex ℝ s → NumberedSimplex s →
      0 < orientation (fun i : Fin (D + 1) => s.v i) → FacetNormals s nrm →
      (2 ≤ k → ∀ A B, nedRows gj (k - 2) D s = some (A, B) → SvdOK (svd D _) (A ++ B)) →
      bdmDual gj svd Tb s nrm k v = some (nodes, ids) → DofsPartition ids nodes.length := by
    intro s nrm nodes ids hs hnum ho hn hsvd h
    obtain ⟨nodes', ids', h1, -, -, h2, -⟩ := bdm_dual_spec hD s hs hnum ho hgj hn k hk1 svd hsvd Tb v hv
    rw [h, Option.some.injEq, Prod.mk.injEq] at h1
    rw [h1.1, h1.2]
    exact h2.partition
  have hsplit : ∀ (s : SimplexCell (Fin D → ℝ)) nrm nodes ids (F : ℕ → List (Functional ℝ (Fin D → ℝ))),
      bdmFacets gj s nrm k v = some ((List.range (D + 1)).map F) → bdmDual gj svd Tb s nrm k v = some (nodes, ids) →
      ∃ internal I, facetIds s k internal = some ids ∧ nodes = ((List.range (D + 1)).map F).flatten ++ I := by
    intro s nrm nodes ids F hF h
    unfold bdmDual at h
    simp only [hF, Option.bind_eq_bind, Option.bind_some] at h
    obtain ⟨cell, -, h⟩ := Option.bind_eq_some_iff.1 h
    obtain ⟨ids', h3, h⟩ := Option.bind_eq_some_iff.1 h
    rw [Option.some.injEq, Prod.mk.injEq] at h
    obtain ⟨rfl, rfl⟩ := h
    exact ⟨_, cell, h3, rfl⟩
  cases v with
  | point =>
    refine ⟨_, lattice_form (d := D - 1) (by omega) k, ?_⟩
    intro s nrm nodes ids hs hnum ho hn hsvd h
    have hp := hpart s nrm nodes ids hs hnum ho hn hsvd h
    obtain ⟨F, f1, f2⟩ := mapM_choose (D + 1) (fun i => facetPointNodes s nrm k i) (FacetBlock s nrm k) (by
      intro e he
      obtain ⟨t, ht⟩ := facet_exists hD2 hnum he
      obtain ⟨blk, b1, b2, b3, b4⟩ := facet_points_trace hD2 hs hn ht k
      exact ⟨blk, b1, b2, b3, fun t' ht' => hasEntity_unique ht ht' ▸ b4⟩) []
    obtain ⟨internal, I, hids, rfl⟩ := hsplit s nrm nodes ids F (by
      simp only [bdmFacets, numEnts_facets hD2 hnum, f1, Option.bind_some]) h
    exact divNatural_of_blocks hD2 hs hnum hids F (fun e he => (f2 e he).2.1) I hp _ fun e τ n he hne w =>
      facet_point_values hD2 hs k he hne (f2 e (facet_lt hD2 hnum he)).1 w
  | integral q =>
    have hq := hv q rfl
    obtain ⟨G, g1, g2, g3, g4, g5⟩ := ufc_cell_spec (d := D - 1) (by omega)
    obtain ⟨Q, q1, q2, q3, q4⟩ := simplex_rule_spec hgj (D := D - 1) (by omega) (ufcVerts ℝ (D - 1)) g5 q (by omega)
    obtain ⟨S, T, s1, s2, φ, s3, s4⟩ := scalar_values (by omega) G g2 g3 k Q.pts
    rw [← g4] at q1
    refine ⟨_, moment_form Q q2 (by omega) q3 φ T s3 s4, ?_⟩
    intro s nrm nodes ids hs hnum ho hn hsvd h
    have hp := hpart s nrm nodes ids hs hnum ho hn hsvd h
    obtain ⟨F, f1, f2⟩ := mapM_choose (D + 1) (fun i => facetMomentNodes s nrm Q T i) (FacetBlock s nrm k) (by
      intro e he
      obtain ⟨t, ht⟩ := facet_exists hD2 hnum he
      obtain ⟨blk, b1, b2, b3, b4⟩ := facet_moments_trace hs hn ht k Q q2 (by omega) q3 q4 φ T s3 s4
      exact ⟨blk, b1, b2, b3, fun t' ht' => hasEntity_unique ht ht' ▸ b4⟩) []
    obtain ⟨internal, I, hids, rfl⟩ := hsplit s nrm nodes ids F (by
      simp only [bdmFacets, g1, q1, s1, s2, numEnts_facets hD2 hnum, f1, Option.bind_eq_bind, Option.bind_some]) h
    exact divNatural_of_blocks hD2 hs hnum hids F (fun e he => (f2 e he).2.1) I hp _ fun e τ n he hne w =>
      facet_moment_values hs Q q3 q4 T he hne (f2 e (facet_lt hD2 hnum he)).1 w

variable {X : ℕ → Fin D → ℝ} {s s' : SimplexCell (Fin D → ℝ)} {A A' : Matrix (Fin D) (Fin D) ℝ} {b b' : Fin D → ℝ} {g g' : ℕ → ℕ}

/-- The normal of a mesh facet obtained from the reference normal `n`: `det(A) A⁻ᵀ n`. -/
noncomputable def physNormal (A : Matrix (Fin D) (Fin D) ℝ) (n : Fin D → ℝ) : Fin D → ℝ := A.det • A⁻¹.transpose.mulVec n

theorem physNormal_dot (hA : A.det ≠ 0) (n : Fin D → ℝ) (w : Fin D → MvPolynomial (Fin D) ℝ) (x : Fin D → ℝ) :
    physNormal A n ⬝ᵥ contravariant A w x = ∑ j, n j * eval x (w j) := by
  have hu : IsUnit A.det := isUnit_iff_ne_zero.2 hA
  unfold physNormal contravariant
  rw [smul_dotProduct, dotProduct_smul, smul_eq_mul, smul_eq_mul, ← mul_assoc, mul_inv_cancel₀ hA, one_mul, Matrix.mulVec_transpose,
    ← Matrix.dotProduct_mulVec, Matrix.mulVec_mulVec, Matrix.nonsing_inv_mul _ hu, Matrix.one_mulVec]
  rfl

theorem physNormal_ne (hA : A.det ≠ 0) {n : Fin D → ℝ} (hn : n ≠ 0) : physNormal A n ≠ 0 := by
  have hu : IsUnit A.det := isUnit_iff_ne_zero.2 hA
  intro h
  apply hn
  unfold physNormal at h
  have h1 : A⁻¹.transpose.mulVec n = 0 := (smul_eq_zero.1 h).resolve_left hA
  have h2 : A.transpose.mulVec (A⁻¹.transpose.mulVec n) = n := by
    rw [Matrix.mulVec_mulVec, ← Matrix.transpose_mul, Matrix.nonsing_inv_mul _ hu, Matrix.transpose_one, Matrix.one_mulVec]
  rw [← h2, h1, Matrix.mulVec_zero]

theorem physNormal_edge (hA : A.det ≠ 0) (n u u' : Fin D → ℝ) (b : Fin D → ℝ) :
    physNormal A n ⬝ᵥ (cellMap A b u - cellMap A b u') = A.det * ∑ j, n j * (u j - u' j) := by
  have hu : IsUnit A.det := isUnit_iff_ne_zero.2 hA
  unfold physNormal cellMap
  rw [add_sub_add_right_eq_sub, ← Matrix.mulVec_sub, smul_dotProduct, smul_eq_mul, Matrix.mulVec_transpose,
    ← Matrix.dotProduct_mulVec, Matrix.mulVec_mulVec, Matrix.nonsing_inv_mul _ hu, Matrix.one_mulVec]
  rfl

/-- The vectors orthogonal to a facet of a nondegenerate simplex are the multiples of one. -/
theorem facet_orthogonal (hD : 1 ≤ D) (hs : ProperSimplex ℝ s) {e : ℕ} {t : List ℕ} (h : HasEntity s.topo (D - 1) e t) :
    ∃ m : Fin D → ℝ, ∀ n : Fin D → ℝ, (∀ a ∈ t, ∀ c ∈ t, ∑ j, n j * (s.v a j - s.v c j) = 0) → ∃ c : ℝ, n = c • m := by
  obtain ⟨g, b, hb⟩ := baryForms_exist _ (proper_independent hs)
  obtain ⟨i, hi⟩ := facet_opposite hD hs h
  refine ⟨g i, fun n hn => hb.normal hD i n fun a c ha hc => ?_⟩
  exact hn a ((hi a).2 ⟨a.2, fun h => ha (Fin.ext h)⟩) c ((hi c).2 ⟨c.2, fun h => hc (Fin.ext h)⟩)

/-- A vector orthogonal to a mesh facet is a multiple of the mapped normal. -/
theorem mesh_normal (hD : 1 ≤ D) (hs : ProperSimplex ℝ s) (hm : InMesh X s A b g) {e : ℕ} {t : List ℕ}
    (h : HasEntity s.topo (D - 1) e t) {n : Fin D → ℝ} (hn0 : n ≠ 0) (hn : ∀ a ∈ t, ∀ c ∈ t, ∑ j, n j * (s.v a j - s.v c j) = 0)
    (N : Fin D → ℝ) (hN : ∀ a ∈ t, ∀ c ∈ t, N ⬝ᵥ (X (g a) - X (g c)) = 0) : ∃ c : ℝ, N = c • physNormal A n := by
  have hu : IsUnit A.det := isUnit_iff_ne_zero.2 hm.regular
  obtain ⟨m, hmm⟩ := facet_orthogonal hD hs h
  obtain ⟨c1, hc1⟩ := hmm n hn
  have hc10 : c1 ≠ 0 := by rintro rfl; exact hn0 (by rw [hc1, zero_smul])
  have hlt : ∀ a ∈ t, a < D + 1 := fun a ha => by have := (hs.2.1.entity _ _ _ h).2.2 a ha; rwa [hs.1] at this
  obtain ⟨c2, hc2⟩ := hmm (A.transpose.mulVec N) fun a ha c hc => by
    have h1 := hN a ha c hc
    rw [← hm.vertices a (hlt a ha), ← hm.vertices c (hlt c hc)] at h1
    unfold cellMap at h1
    rw [add_sub_add_right_eq_sub, ← Matrix.mulVec_sub, Matrix.dotProduct_mulVec, ← Matrix.mulVec_transpose] at h1
    exact h1
  have h3 : N = A⁻¹.transpose.mulVec (A.transpose.mulVec N) := by
    rw [Matrix.mulVec_mulVec, ← Matrix.transpose_mul, Matrix.mul_nonsing_inv _ hu, Matrix.transpose_one, Matrix.one_mulVec]
  refine ⟨c2 / c1 / A.det, ?_⟩
  rw [h3, hc2]
  unfold physNormal
  rw [hc1, Matrix.mulVec_smul, Matrix.mulVec_smul, smul_smul, smul_smul, div_mul_cancel₀ _ hm.regular, div_mul_cancel₀ _ hc10]

/-- The normals of a shared facet computed from its two cells are proportional. -/
theorem shared_normals (hD : 2 ≤ D) (hs : ProperSimplex ℝ s) (hs' : ProperSimplex ℝ s') (hm : InMesh X s A b g)
    (hm' : InMesh X s' A' b' g') {nrm nrm' : ℕ → Option (Fin D → ℝ)} (hn : FacetNormals s nrm) (hn' : FacetNormals s' nrm')
    {e e' : ℕ} {t t' : List ℕ} (ht : HasEntity s.topo (D - 1) e t) (ht' : HasEntity s'.topo (D - 1) e' t')
    (hsh : SharedEntity g t g' t') :
    ∃ (n n' : Fin D → ℝ) (σ : ℝ), nrm e = some n ∧ nrm' e' = some n' ∧ σ ≠ 0 ∧ physNormal A' n' = σ • physNormal A n := by
  obtain ⟨n, n1, n2, n3⟩ := hn e t ht
  obtain ⟨n', n1', n2', n3'⟩ := hn' e' t' ht'
  obtain ⟨c, hc⟩ := mesh_normal (by omega) hs hm ht n2 n3 (physNormal A' n') (by
    intro a ha c hc
    obtain ⟨a', ha', ea⟩ := List.mem_map.1 ((hsh (g a)).1 (List.mem_map_of_mem ha))
    obtain ⟨c', hc', ec⟩ := List.mem_map.1 ((hsh (g c)).1 (List.mem_map_of_mem hc))
    have hlt : ∀ a ∈ t', a < D + 1 := fun a ha => by have := (hs'.2.1.entity _ _ _ ht').2.2 a ha; rwa [hs'.1] at this
    rw [← ea, ← ec, ← hm'.vertices a' (hlt a' ha'), ← hm'.vertices c' (hlt c' hc'), physNormal_edge hm'.regular, n3' a' ha' c' hc', mul_zero])
  refine ⟨n, n', c, n1, n1', ?_, hc⟩
  rintro rfl
  rw [zero_smul] at hc
  exact physNormal_ne hm'.regular n2' hc

/-- Conformity from the naturality of the facet dofs. -/
theorem div_conforming_core (hD : 2 ≤ D) (hs : ProperSimplex ℝ s) (hs' : ProperSimplex ℝ s') (hm : InMesh X s A b g)
    (hm' : InMesh X s' A' b' g') {nrm nrm' : ℕ → Option (Fin D → ℝ)} (hn : FacetNormals s nrm)
    {k : ℕ} {Φ : MvPolynomial (Fin (D - 1)) ℝ → List ℝ} (hΦ : TraceForm k Φ)
    {nodes nodes' : List (Functional ℝ (Fin D → ℝ))} {ids ids' : EntityIds ℕ} (hnat : DivNatural s nrm nodes ids Φ)
    (hnat' : DivNatural s' nrm' nodes' ids' Φ) {V V' : (Fin D → MvPolynomial (Fin D) ℝ) → Prop}
    (htr : ∀ w, V w → ∀ e t n, HasEntity s.topo (D - 1) e t → nrm e = some n →
      ∃ p : MvPolynomial (Fin D) ℝ, p.totalDegree ≤ k ∧ ∀ x, OnEntity s t x → ∑ j, n j * eval x (w j) = eval x p)
    (htr' : ∀ w, V' w → ∀ e t n, HasEntity s'.topo (D - 1) e t → nrm' e = some n →
      ∃ p : MvPolynomial (Fin D) ℝ, p.totalDegree ≤ k ∧ ∀ x, OnEntity s' t x → ∑ j, n j * eval x (w j) = eval x p)
    {e e' : ℕ} {t t' : List ℕ} (ht : HasEntity s.topo (D - 1) e t) (ht' : HasEntity s'.topo (D - 1) e' t')
    (hsh : SharedEntity g t g' t') {n n' : Fin D → ℝ} (hne : nrm e = some n) (hne' : nrm' e' = some n') {σ : ℝ} (hσ0 : σ ≠ 0)
    (hσ : physNormal A' n' = σ • physNormal A n) {w w' : Fin D → MvPolynomial (Fin D) ℝ} (hw : V w) (hw' : V' w') :
    DofsMatch σ nodes' ids' (fun a => a.onField (fieldOf w')) nodes ids (fun a => a.onField (fieldOf w)) (D - 1) e' e ↔
      ∀ x x', OnEntity s t x → OnEntity s' t' x' → cellMap A b x = cellMap A' b' x' →
        ∀ N, (∀ a ∈ t, ∀ c ∈ t, N ⬝ᵥ (X (g a) - X (g c)) = 0) → N ⬝ᵥ contravariant A w x = N ⬝ᵥ contravariant A' w' x' := by
  obtain ⟨n0, m1, m2, m3⟩ := hn e t ht
  rw [hne, Option.some.injEq] at m1
  subst m1
  obtain ⟨p, p1, p2⟩ := htr w hw e t n ht hne
  obtain ⟨p', p1', p2'⟩ := htr' w' hw' e' t' n' ht' hne'
  have hmap := (shared_tuple hs hs' hm hm' ht ht' hsh).2
  obtain ⟨τ, t1, t2, rfl, t4⟩ := entity_tuple hs ht
  obtain ⟨τ', t1', t2', rfl, t4'⟩ := entity_tuple hs' ht'
  have hv := shared_verts hm hm' t2 t2' hmap
  have hp : normPull (fun j => s.v (τ j)) n w = pullback (s.v (τ 0)) (fun i : Fin (D - 1) => s.v (τ i.succ)) p := by
    apply MvPolynomial.funext
    intro y
    rw [eval_normPull, p2 _ ((onEntity_iff s τ t1 _).2 ⟨y, rfl⟩)]
    exact (eval_pull (fun j => s.v (τ j)) p y).symm
  have hp' : normPull (fun j => s'.v (τ' j)) n' w' = pullback (s'.v (τ' 0)) (fun i : Fin (D - 1) => s'.v (τ' i.succ)) p' := by
    apply MvPolynomial.funext
    intro y
    rw [eval_normPull, p2' _ ((onEntity_iff s' τ' t1' _).2 ⟨y, rfl⟩)]
    exact (eval_pull (fun j => s'.v (τ' j)) p' y).symm
  have hd : (normPull (fun j => s.v (τ j)) n w).totalDegree ≤ k := by rw [hp]; exact (totalDegree_pullback _ _ _).trans p1
  have hd' : (normPull (fun j => s'.v (τ' j)) n' w').totalDegree ≤ k := by rw [hp']; exact (totalDegree_pullback _ _ _).trans p1'
  rw [dofsMatch_iff (hnat' e' τ' n' ht' hne' w') (hnat e τ n ht hne w), ← hΦ.hom]
  have hpt : ∀ y, eval y (normPull (fun j => s'.v (τ' j)) n' w') = eval y (C σ * normPull (fun j => s.v (τ j)) n w) ↔
      physNormal A n ⬝ᵥ contravariant A w (entMap (fun j => s.v (τ j)) y) =
        physNormal A n ⬝ᵥ contravariant A' w' (entMap (fun j => s'.v (τ' j)) y) := by
    intro y
    rw [map_mul, eval_C, eval_normPull, eval_normPull, ← physNormal_dot hm.regular n w, ← physNormal_dot hm'.regular n' w', hσ, smul_dotProduct,
      smul_eq_mul]
    exact ⟨fun h => (mul_left_cancel₀ hσ0 h).symm, fun h => by rw [h]⟩
  constructor
  · intro h x x' hx hx' hxx N hN
    have heq := hΦ.inj _ _ hd' (Cmul_degree _ hd) h
    obtain ⟨y, rfl⟩ := (onEntity_iff s τ t1 _).1 hx
    obtain ⟨y', rfl⟩ := (onEntity_iff s' τ' t1' _).1 hx'
    obtain rfl := (shared_points hs hm t1 t2 hv y y').1 hxx
    obtain ⟨c, rfl⟩ := mesh_normal (by omega) hs hm ht m2 m3 N hN
    rw [smul_dotProduct, smul_dotProduct, (hpt y).1 (by rw [heq])]
  · intro h
    refine congrArg Φ ?_
    apply MvPolynomial.funext
    intro y
    rw [hpt]
    refine h _ _ ((onEntity_iff s τ t1 _).2 ⟨y, rfl⟩) ((onEntity_iff s' τ' t1' _).2 ⟨y, rfl⟩)
      ((shared_points hs hm t1 t2 hv y y).2 rfl) _ fun a ha c hc => ?_
    rw [← hm.vertices a, ← hm.vertices c, physNormal_edge hm.regular, m3 a ha c hc, mul_zero]
    · obtain ⟨i, rfl⟩ := (List.mem_ofFn' _ _).1 hc; exact t2 i
    · obtain ⟨i, rfl⟩ := (List.mem_ofFn' _ _).1 ha; exact t2 i

/-- C68: Raviart-Thomas elements are H(div)-conforming.  Two cells of a mesh, images of reference cells `s` and `s'`, share a facet;
`n` and `n'` are the reference normals of that facet, mapped to multiples of each other with ratio `σ`.  Functions `w`, `w'` of the
Raviart-Thomas space mapped with the contravariant Piola map have the same normal component on the facet if and only if the dofs of
the facet are equal up to the factor `σ`, in the order of `entity_dofs`. -/
theorem raviart_thomas_conforming (hD : D = 2 ∨ D = 3) (hs : ProperSimplex ℝ s) (hs' : ProperSimplex ℝ s') (hnum : NumberedSimplex s)
    (hnum' : NumberedSimplex s') (ho : 0 < orientation fun i : Fin (D + 1) => s.v i) (ho' : 0 < orientation fun i : Fin (D + 1) => s'.v i)
    {gj : ℕ → ℕ → List ℝ} (hgj : NodesOK gj) {nrm nrm' : ℕ → Option (Fin D → ℝ)} (hn : FacetNormals s nrm) (hn' : FacetNormals s' nrm')
    (k : ℕ) (v : DualVariant) (hv : ∀ q, v = .integral q → k + 1 ≤ q) {nodes nodes' : List (Functional ℝ (Fin D → ℝ))}
    {ids ids' : EntityIds ℕ} (hdual : rtDual gj s nrm k v = some (nodes, ids)) (hdual' : rtDual gj s' nrm' k v = some (nodes', ids'))
    (hm : InMesh X s A b g) (hm' : InMesh X s' A' b' g') {e e' : ℕ} {t t' : List ℕ} (ht : HasEntity s.topo (D - 1) e t)
    (ht' : HasEntity s'.topo (D - 1) e' t') (hsh : SharedEntity g t g' t') {n n' : Fin D → ℝ} (hne : nrm e = some n)
    (hne' : nrm' e' = some n') {σ : ℝ} (hσ : physNormal A' n' = σ • physNormal A n) {w w' : Fin D → MvPolynomial (Fin D) ℝ}
    (hw : IsRT k w) (hw' : IsRT k w') :
    DofsMatch σ nodes' ids' (fun a => a.onField (fieldOf w')) nodes ids (fun a => a.onField (fieldOf w)) (D - 1) e' e ↔
      ∀ x x', OnEntity s t x → OnEntity s' t' x' → cellMap A b x = cellMap A' b' x' →
        ∀ N, (∀ a ∈ t, ∀ c ∈ t, N ⬝ᵥ (X (g a) - X (g c)) = 0) → N ⬝ᵥ contravariant A w x = N ⬝ᵥ contravariant A' w' x' := by
  obtain ⟨Φ, h1, h2⟩ := rt_natural hD hgj k v hv
  have hσ0 : σ ≠ 0 := by
    rintro rfl
    obtain ⟨n0, m1, m2, -⟩ := hn' e' t' ht'
    rw [hne', Option.some.injEq] at m1
    rw [zero_smul] at hσ
    exact physNormal_ne hm'.regular (m1 ▸ m2) hσ
  exact div_conforming_core (by omega) hs hs' hm hm' hn h1 (h2 s nrm nodes ids hs hnum ho hn hdual)
    (h2 s' nrm' nodes' ids' hs' hnum' ho' hn' hdual')
    (fun w hw e t n h hne => rt_normal_trace (by omega) hs hn hw h hne)
    (fun w hw e t n h hne => rt_normal_trace (by omega) hs' hn' hw h hne) ht ht' hsh hne hne' hσ0 hσ hw hw'

/-- C68: Brezzi-Douglas-Marini elements are H(div)-conforming, in the same sense. -/
theorem bdm_conforming (hD : D = 2 ∨ D = 3) (hs : ProperSimplex ℝ s) (hs' : ProperSimplex ℝ s') (hnum : NumberedSimplex s)
    (hnum' : NumberedSimplex s') (ho : 0 < orientation fun i : Fin (D + 1) => s.v i) (ho' : 0 < orientation fun i : Fin (D + 1) => s'.v i)
    {gj : ℕ → ℕ → List ℝ} (hgj : NodesOK gj) {nrm nrm' : ℕ → Option (Fin D → ℝ)} (hn : FacetNormals s nrm) (hn' : FacetNormals s' nrm')
    (k : ℕ) (hk : 1 ≤ k) (svd : SvdFun) (Tb : DigitTable)
    (hsvd : 2 ≤ k → ∀ A B, nedRows gj (k - 2) D s = some (A, B) → SvdOK (svd D _) (A ++ B))
    (hsvd' : 2 ≤ k → ∀ A B, nedRows gj (k - 2) D s' = some (A, B) → SvdOK (svd D _) (A ++ B))
    (v : DualVariant) (hv : ∀ q, v = .integral q → k + 1 ≤ q) {nodes nodes' : List (Functional ℝ (Fin D → ℝ))}
    {ids ids' : EntityIds ℕ} (hdual : bdmDual gj svd Tb s nrm k v = some (nodes, ids))
    (hdual' : bdmDual gj svd Tb s' nrm' k v = some (nodes', ids'))
    (hm : InMesh X s A b g) (hm' : InMesh X s' A' b' g') {e e' : ℕ} {t t' : List ℕ} (ht : HasEntity s.topo (D - 1) e t)
    (ht' : HasEntity s'.topo (D - 1) e' t') (hsh : SharedEntity g t g' t') {n n' : Fin D → ℝ} (hne : nrm e = some n)
    (hne' : nrm' e' = some n') {σ : ℝ} (hσ : physNormal A' n' = σ • physNormal A n) {w w' : Fin D → MvPolynomial (Fin D) ℝ}
    (hw : FullDeg k w) (hw' : FullDeg k w') :
    DofsMatch σ nodes' ids' (fun a => a.onField (fieldOf w')) nodes ids (fun a => a.onField (fieldOf w)) (D - 1) e' e ↔
      ∀ x x', OnEntity s t x → OnEntity s' t' x' → cellMap A b x = cellMap A' b' x' →
        ∀ N, (∀ a ∈ t, ∀ c ∈ t, N ⬝ᵥ (X (g a) - X (g c)) = 0) → N ⬝ᵥ contravariant A w x = N ⬝ᵥ contravariant A' w' x' := by
  obtain ⟨Φ, h1, h2⟩ := bdm_natural hD hgj k hk svd Tb v hv
  have hσ0 : σ ≠ 0 := by
    rintro rfl
    obtain ⟨n0, m1, m2, -⟩ := hn' e' t' ht'
    rw [hne', Option.some.injEq] at m1
    rw [zero_smul] at hσ
    exact physNormal_ne hm'.regular (m1 ▸ m2) hσ
  have htr : ∀ (w : Fin D → MvPolynomial (Fin D) ℝ), FullDeg k w → ∀ n : Fin D → ℝ,
      ∃ p : MvPolynomial (Fin D) ℝ, p.totalDegree ≤ k ∧ ∀ x, ∑ j, n j * eval x (w j) = eval x p := fun w hw n =>
    ⟨dotC n w, sum_degree _ _ _ fun j _ => Cmul_degree _ (hw j), fun x => (eval_dotC n w x).symm⟩
  exact div_conforming_core (by omega) hs hs' hm hm' hn h1 (h2 s nrm nodes ids hs hnum ho hn hsvd hdual)
    (h2 s' nrm' nodes' ids' hs' hnum' ho' hn' hsvd' hdual')
    (fun w hw e t n _ _ => by obtain ⟨p, h1, h2⟩ := htr w hw n; exact ⟨p, h1, fun x _ => h2 x⟩)
    (fun w hw e t n _ _ => by obtain ⟨p, h1, h2⟩ := htr w hw n; exact ⟨p, h1, fun x _ => h2 x⟩) ht ht' hsh hne hne' hσ0 hσ hw hw'

end
end FIAT
