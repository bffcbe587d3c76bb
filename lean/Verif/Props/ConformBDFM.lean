/-
C85: the Brezzi-Douglas-Fortin-Marini element is H(div)-conforming across the cells of a mesh of triangles.
-/
import Verif.Props.BDFM
import Verif.Props.BDFMExample
import Verif.Props.ConformExample

namespace FIAT
open MvPolynomial
section

/-- The edge dofs of `BDFMDualSet` are the values of the normal trace at the lattice points of the edge. -/
theorem bdfm_natural {s : SimplexCell (Fin 2 → ℝ)} (hs : ProperSimplex ℝ s) (hnum : NumberedSimplex s) {nrm : ℕ → Option (Fin 2 → ℝ)}
    (hn : FacetNormals s nrm) {nodes : List (Functional ℝ (Fin 2 → ℝ))} {ids : EntityIds ℕ} (h : bdfmDual s nrm 1 = some (nodes, ids)) :
    DivNatural s nrm nodes ids fun q => (refLattice (2 - 1) (1 + (2 - 1) + 1)).map fun y => eval y q := by
  obtain ⟨F, f1, f2⟩ := mapM_choose (2 + 1) (fun i => facetPointNodes s nrm 1 i) (FacetBlock s nrm 1) (by
    intro e he
    obtain ⟨t, ht⟩ := facet_exists (le_refl 2) hnum he
    obtain ⟨blk, b1, b2, b3, b4⟩ := facet_points_trace (le_refl 2) hs hn ht 1
    exact ⟨blk, b1, b2, b3, fun t' ht' => hasEntity_unique ht ht' ▸ b4⟩) []
  obtain ⟨t0, ht0⟩ := facet_exists (le_refl 2) hnum (e := 0) (by omega)
  obtain ⟨pts, p1, p2, -, -⟩ := entity_points hs (by omega) (by omega) ht0 1
  obtain ⟨ids0, a1, a2⟩ := emptyLoop_spec hnum (List.range (2 - 1)) (fun d hd => by have := List.mem_range.1 hd; omega) []
  have a3 : ∀ d e, EntityIds.at? ids0 d e = if d = 0 ∧ e < 3 then some [] else none := by
    intro d e
    rw [a2]
    have : (d ∈ List.range (2 - 1) ∧ e < (2 + 1).choose (d + 1)) ↔ (d = 0 ∧ e < 3) := by
      rw [List.mem_range]
      constructor
      · rintro ⟨h1, h2⟩
        obtain rfl : d = 0 := by omega
        exact ⟨rfl, by simpa using h2⟩
      · rintro ⟨rfl, h2⟩
        exact ⟨by norm_num, by simpa using h2⟩
    rw [if_congr this rfl rfl]
    rfl
  unfold bdfmDual at h
  simp only [numEnts_facets (le_refl 2) hnum, f1, a1, Option.bind_eq_bind, Option.bind_some] at h
  obtain ⟨tan, -, h⟩ := Option.bind_eq_some_iff.1 h
  simp only [Option.bind_some, p1, sameLoop_spec hnum (2 - 1) pts.length (by omega), Option.some.injEq, Prod.mk.injEq] at h
  obtain ⟨rfl, rfl⟩ := h
  have i2 := bdfm_ids hnum a3 (n := pts.length) (m := tan.flatten.length) (fun x : ℕ × ℕ => if x.1 = 2 then tan.flatten else F x.2) (fun e he => by
    rw [if_neg (by norm_num), (f2 e he).2.1, p2]) (by rw [if_pos rfl])
  rw [show entsOf 2 1 ++ entsOf 2 2 = entsOf 2 (2 - 1) ++ entsOf 2 2 from rfl, flatMap_blocks (le_refl 2)] at i2
  intro e τ n he hne w
  have hlt := facet_lt (le_refl 2) hnum he
  obtain ⟨l, l1, l2⟩ := i2.layout.2.2 (2 - 1) e (List.mem_append_left _ (mem_entsOf.2 ⟨rfl, by simpa using hlt⟩))
  rw [if_neg (by norm_num)] at l2
  have hv := facet_point_values (le_refl 2) hs 1 he hne (f2 e hlt).1 w
  beta_reduce
  rw [← hv]
  exact dofValues_of_block l1 l2

variable {X : ℕ → Fin 2 → ℝ} {s s' : SimplexCell (Fin 2 → ℝ)} {A A' : Matrix (Fin 2) (Fin 2) ℝ} {b b' : Fin 2 → ℝ} {g g' : ℕ → ℕ}

/-- C85: two triangles of a mesh share an edge; `n`, `n'` are the reference normals of that edge, mapped to multiples of each other with ratio
`σ`.  Functions of `BrezziDouglasFortinMarini(cell, 2)` mapped with the contravariant Piola map have the same normal component on the edge if
and only if the two dofs of the edge are equal up to the factor `σ`, in the order of `entity_dofs`. -/
theorem bdfm_conforming (hs : ProperSimplex ℝ s) (hs' : ProperSimplex ℝ s') (hnum : NumberedSimplex s) (hnum' : NumberedSimplex s')
    {nrm nrm' : ℕ → Option (Fin 2 → ℝ)} (hn : FacetNormals s nrm) (hn' : FacetNormals s' nrm')
    {svd svd' : List (Fin 2 → Fin ((2 + 2).choose 2) → ℝ) → List ℝ × List (Fin 2 → Fin ((2 + 2).choose 2) → ℝ)}
    {el el' : Σ m, PolySet ℝ (Fin 2 → ℝ) ((2 + 2).choose 2) m (Fin 2)} {nodes nodes' : List (Functional ℝ (Fin 2 → ℝ))} {ids ids' : EntityIds ℕ}
    (hel : brezziDouglasFortinMarini 2 svd s nrm = some (el, nodes, ids))
    (hel' : brezziDouglasFortinMarini 2 svd' s' nrm' = some (el', nodes', ids'))
    (hm : InMesh X s A b g) (hm' : InMesh X s' A' b' g') {e e' : ℕ} {t t' : List ℕ} (ht : HasEntity s.topo 1 e t)
    (ht' : HasEntity s'.topo 1 e' t') (hsh : SharedEntity g t g' t') {n n' : Fin 2 → ℝ} (hne : nrm e = some n)
    (hne' : nrm' e' = some n') {σ : ℝ} (hσ : physNormal A' n' = σ • physNormal A n) {w w' : Fin 2 → MvPolynomial (Fin 2) ℝ}
    (hw : IsBDFM s w) (hw' : IsBDFM s' w') :
    DofsMatch σ nodes' ids' (fun a => a.onField (fieldOf w')) nodes ids (fun a => a.onField (fieldOf w)) 1 e' e ↔
      ∀ x x', OnEntity s t x → OnEntity s' t' x' → cellMap A b x = cellMap A' b' x' →
        ∀ N, (∀ a ∈ t, ∀ c ∈ t, N ⬝ᵥ (X (g a) - X (g c)) = 0) → N ⬝ᵥ contravariant A w x = N ⬝ᵥ contravariant A' w' x' := by
  have hdual : ∀ {s : SimplexCell (Fin 2 → ℝ)} {nrm : ℕ → Option (Fin 2 → ℝ)}
      {svd : List (Fin 2 → Fin ((2 + 2).choose 2) → ℝ) → List ℝ × List (Fin 2 → Fin ((2 + 2).choose 2) → ℝ)}
      {el : Σ m, PolySet ℝ (Fin 2 → ℝ) ((2 + 2).choose 2) m (Fin 2)} {nodes : List (Functional ℝ (Fin 2 → ℝ))} {ids : EntityIds ℕ},
      brezziDouglasFortinMarini 2 svd s nrm = some (el, nodes, ids) → bdfmDual s nrm 1 = some (nodes, ids) := by
    intro s nrm svd el nodes ids h
    unfold brezziDouglasFortinMarini at h
    rw [if_neg (by simp)] at h
    obtain ⟨S, -, h⟩ := Option.bind_eq_some_iff.1 h
    obtain ⟨dual, h1, h⟩ := Option.bind_eq_some_iff.1 h
    obtain ⟨el', -, h⟩ := Option.bind_eq_some_iff.1 h
    rw [Option.some.injEq, Prod.mk.injEq] at h
    rw [← h.2]
    exact h1
  have htr : ∀ {s : SimplexCell (Fin 2 → ℝ)} {nrm : ℕ → Option (Fin 2 → ℝ)}, FacetNormals s nrm → ∀ w, IsBDFM s w →
      ∀ e t n, HasEntity s.topo (2 - 1) e t → nrm e = some n →
      ∃ p : MvPolynomial (Fin 2) ℝ, p.totalDegree ≤ 1 ∧ ∀ x, OnEntity s t x → ∑ j, n j * eval x (w j) = eval x p := by
    intro s nrm hn w hw e t n h hne
    obtain ⟨n', n1, n2, n3⟩ := hn e t h
    rw [hne, Option.some.injEq] at n1
    subst n1
    exact hw.2 e t h n n3
  have hσ0 : σ ≠ 0 := by
    rintro rfl
    obtain ⟨n0, m1, m2, -⟩ := hn' e' t' ht'
    rw [hne', Option.some.injEq] at m1
    rw [zero_smul] at hσ
    exact physNormal_ne hm'.regular (m1 ▸ m2) hσ
  exact div_conforming_core (le_refl 2) hs hs' hm hm' hn (lattice_form (by norm_num) 1) (bdfm_natural hs hnum hn (hdual hel))
    (bdfm_natural hs' hnum' hn' (hdual hel')) (htr hn) (htr hn') ht ht' hsh hne hne' hσ0 hσ hw hw'

/-- C85: with `compute_scaled_normal` the hypotheses about the normals hold with `σ = 1`: functions of the BDFM elements of the two triangles, mapped
with the contravariant Piola map, have the same normal component on the shared edge if and only if the two dofs of the edge are equal. -/
theorem bdfm_ufc_conforming (hs : ProperSimplex ℝ s) (hs' : ProperSimplex ℝ s') (hnum : NumberedSimplex s) (hnum' : NumberedSimplex s')
    {sv sv' : ℕ → List ℝ} (hv : FacetVolumes s sv) (hv' : FacetVolumes s' sv')
    {svd svd' : List (Fin 2 → Fin ((2 + 2).choose 2) → ℝ) → List ℝ × List (Fin 2 → Fin ((2 + 2).choose 2) → ℝ)}
    {el el' : Σ m, PolySet ℝ (Fin 2 → ℝ) ((2 + 2).choose 2) m (Fin 2)} {nodes nodes' : List (Functional ℝ (Fin 2 → ℝ))} {ids ids' : EntityIds ℕ}
    (hel : brezziDouglasFortinMarini 2 svd s (ufcScaledNormal s sv) = some (el, nodes, ids))
    (hel' : brezziDouglasFortinMarini 2 svd' s' (ufcScaledNormal s' sv') = some (el', nodes', ids'))
    (hm : InMesh X s A b g) (hm' : InMesh X s' A' b' g') {e e' : ℕ} {t t' : List ℕ} (ht : HasEntity s.topo 1 e t)
    (ht' : HasEntity s'.topo 1 e' t') (hsh : SharedEntity g t g' t') {w w' : Fin 2 → MvPolynomial (Fin 2) ℝ}
    (hw : IsBDFM s w) (hw' : IsBDFM s' w') :
    DofsMatch 1 nodes' ids' (fun a => a.onField (fieldOf w')) nodes ids (fun a => a.onField (fieldOf w)) 1 e' e ↔
      ∀ x x', OnEntity s t x → OnEntity s' t' x' → cellMap A b x = cellMap A' b' x' →
        ∀ N, (∀ a ∈ t, ∀ c ∈ t, N ⬝ᵥ (X (g a) - X (g c)) = 0) → N ⬝ᵥ contravariant A w x = N ⬝ᵥ contravariant A' w' x' := by
  obtain ⟨n, n', h1, h2, h3⟩ := ufc_scaled_normals_match (Or.inl rfl) hs hs' hv hv' hm hm' ht ht' hsh
  exact bdfm_conforming hs hs' hnum hnum' (ufc_triangle_normals _ hs _) (ufc_triangle_normals _ hs' _) hel hel' hm hm' ht ht' hsh h1 h2
    (by rw [h3, one_smul]) hw hw'

end

/-- The two triangles of the unit square, with the elements FIAT builds on them, meet the hypotheses. -/
example {svd : List (Fin 2 → Fin ((2 + 2).choose 2) → ℝ) → List ℝ × List (Fin 2 → Fin ((2 + 2).choose 2) → ℝ)}
    {el : Σ m, PolySet ℝ (Fin 2 → ℝ) ((2 + 2).choose 2) m (Fin 2)} {nodes : List (Functional ℝ (Fin 2 → ℝ))} {ids : EntityIds ℕ}
    (hel : brezziDouglasFortinMarini 2 svd tri (ufcScaledNormal tri triLengths) = some (el, nodes, ids))
    {w w' : Fin 2 → MvPolynomial (Fin 2) ℝ} (hw : IsBDFM tri w) (hw' : IsBDFM tri w') :=
  bdfm_ufc_conforming (proper_ufcTriangle (K := ℝ)) proper_ufcTriangle numbered_ufcTriangle numbered_ufcTriangle triLengths_spec triLengths_spec
    hel hel square_left square_right square_edges.1 square_edges.2.1 square_edges.2.2 hw hw'

/-- The element exists, for the decomposition whose hypothesis is met in `BDFMExample`, and its space contains the constant fields. -/
example : (∃ el nodes ids, brezziDouglasFortinMarini 2 someSvd tri (ufcScaledNormal tri triLengths) = some (el, nodes, ids)) ∧
    IsBDFM tri fun _ => 1 := by
  refine ⟨?_, ?_⟩
  · obtain ⟨m, el, nodes, ids, h1, -⟩ := brezzi_douglas_fortin_marini_spec tri (proper_ufcTriangle (K := ℝ)) numbered_ufcTriangle
      (ufc_triangle_normals _ proper_ufcTriangle triLengths) someSvd bdfm_svd_example
    exact ⟨⟨m, el⟩, nodes, ids, h1⟩
  · refine ⟨fun j => by simp, fun e t _ n _ => ⟨C (∑ j, n j), by rw [totalDegree_C]; norm_num, fun x _ => by simp⟩⟩

end FIAT
