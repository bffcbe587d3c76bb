/-
C68: H(curl) conformity across the cells of a mesh, for Nedelec elements of the second kind.
-/
import Verif.Props.ConformCurl
import Verif.Props.Nedelec2Element

namespace FIAT
open MvPolynomial
section
variable {D : ℕ}

/-- The face nodes of the second kind element as functions of the tangential trace. -/
theorem n2_face_natural {gj : ℕ → ℕ → List ℝ} (hgj : NodesOK gj) {nrm2 : ℕ → Option (Fin 2 → ℝ)}
    (hn2 : FacetNormals ((ufcTriangle : CellData ℝ).toSimplex 2) nrm2) (k : ℕ) (svd : SvdFun)
    (hsvd : ∀ A B, rtRows gj (k - 2) ((ufcTriangle : CellData ℝ).toSimplex 2) = some (A, B) → SvdOK (svd 2 _) (A ++ B))
    (T : DigitTable) (v : DualVariant) :
    ∃ Φ : (Fin 2 → MvPolynomial (Fin 2) ℝ) → List ℝ, ∀ e (τ : Fin 3 → ℕ) blk,
      HasEntity ((ufcTetrahedron : CellData ℝ).toSimplex 3).topo 2 e (List.ofFn τ) → n2FaceNodes gj svd T nrm2 k v e = some blk →
      ∀ w : Fin 3 → MvPolynomial (Fin 3) ℝ, blk.map (fun a => a.onField (fieldOf w)) =
        Φ (tangPull (fun j => ((ufcTetrahedron : CellData ℝ).toSimplex 3).v (τ j)) w) := by
  have hs : ProperSimplex ℝ ((ufcTetrahedron : CellData ℝ).toSimplex 3) := proper_ufcTetrahedron
  set s := (ufcTetrahedron : CellData ℝ).toSimplex 3 with hsdef
  obtain ⟨G, g1, g2, g3, g4, g5⟩ := ufc_cell_spec (d := 2) (by omega)
  obtain ⟨Q, q1, q2, q3, q4⟩ := simplex_rule_spec hgj (D := 2) (by omega) (ufcVerts ℝ 2) g5 (2 * (k + 1)) (by omega)
  rw [← g4] at q1
  have hG : G = (ufcTriangle : CellData ℝ).toSimplex 2 := (Option.some.inj g1).symm
  have ho2 : 0 < orientation fun i : Fin (2 + 1) => G.v i := by
    have : (fun i : Fin (2 + 1) => G.v i) = ufcVerts ℝ 2 := by
      rw [hG]
      funext i l
      fin_cases i <;> fin_cases l <;> rfl
    rw [this]; exact g5
  rw [← hG] at hn2 hsvd
  have hnum2 : NumberedSimplex G := by rw [hG]; exact numbered_ufcTriangle
  obtain ⟨v', hv'⟩ := variantName_dual T v (k - 2)
  obtain ⟨m, el, nodes, ids, e1, e2, e3, -, e4, e5⟩ := raviart_thomas_spec (Or.inl rfl) G g2 hnum2 ho2 hgj hn2 (k - 2) (svd 2 _) hsvd T _ v' hv'
  obtain ⟨ψ, p1, p2, p3⟩ := nodal_values e4 e5
  obtain ⟨Tv, tv1, tv2⟩ := p3 Q.pts
  refine ⟨fun p => (List.finRange m).map fun i => Q.integrate fun y => eval y (∑ a, p a * ψ i a), ?_⟩
  intro e τ blk h hb w
  obtain ⟨τ', t1, t2, t3, t4⟩ := entity_tuple hs h
  obtain rfl := ofFn_inj' t3
  have hinj := entMap_injective hs τ t1 t2
  set vc : Fin (2 + 1) → Fin 3 → ℝ := fun j => s.v (τ j) with hvc
  set J := faceJac (vc 0) (vc 1) (vc 2) with hJ
  have hd := faceJac_det_pos vc hinj
  have hr : Real.sqrt (J.transpose * J).det ≠ 0 := (Real.sqrt_pos.2 hd).ne'
  set r := Real.sqrt (J.transpose * J).det with hrdef
  have hl' : (Q.wts.map fun w => r * w).length = Q.pts.length := by rw [List.length_map, q3]
  have hrule : ufcFaceRule gj e (2 * (k + 1)) = some (Q, J, ⟨Q.pts.map (entMap vc), Q.wts.map fun w => r * w⟩) := by
    unfold ufcFaceRule
    rw [g1, Option.bind_some, q1, Option.bind_some]
    have h3 : ufcSimplexCell 3 = some s := rfl
    rw [h3, Option.bind_some, t4, Option.bind_some]
    have hof : (List.ofFn fun j => s.v (τ j)) = [vc 0, vc 1, vc 2] := by
      simp [List.ofFn_succ, hvc]
    rw [hof]
    have hm : (fun p : Fin 2 → ℝ => J.mulVec p + vc 0) = entMap vc := funext fun p => faceJac_map vc p
    rw [← hm]
    rfl
  unfold n2FaceNodes at hb
  rw [hrule, Option.bind_some, g1, Option.bind_some, e1, Option.bind_some] at hb
  simp only [tv1, Option.map_some, Option.some.injEq] at hb
  rw [← hb]
  unfold fieldMoments
  rw [List.map_map]
  refine List.map_congr_left fun i _ => ?_
  have := frobenius_field w Q.pts (Q.wts.map fun w => r * w) hl' (entMap vc) (q4.map hinj)
    (fun q => fun j : Fin 3 => 1 / r * J.mulVec (fun c => Tv i c q) j)
    (fun y j => 1 / r * J.mulVec (fun c => eval y (ψ i c)) j) (by
      intro q x hx j
      beta_reduce
      congr 3
      funext c
      exact tv2 i c q x hx)
  refine this.2.trans ?_
  unfold QRule.integrate
  rw [List.zip_map_right, List.map_map]
  congr 1
  refine List.map_congr_left fun x _ => ?_
  rw [Function.comp_apply]
  change r * x.2 * ∑ l, 1 / r * J.mulVec (fun c => eval x.1 (ψ i c)) l * eval (entMap vc x.1) (w l) = _
  have hsum : ∑ l, 1 / r * J.mulVec (fun c => eval x.1 (ψ i c)) l * eval (entMap vc x.1) (w l) =
      1 / r * eval x.1 (∑ a, tangPull vc w a * ψ i a) := by
    rw [map_sum, Fin.sum_univ_two, map_mul, map_mul, eval_tangPull, eval_tangPull]
    simp only [hJ, faceJac, Matrix.mulVec, dotProduct, Matrix.of_apply, Fin.sum_univ_two, Fin.sum_univ_three, Pi.sub_apply]
    have s1 : (0 : Fin 2).succ = (1 : Fin 3) := rfl
    have s2 : (1 : Fin 2).succ = (2 : Fin 3) := rfl
    rw [s1, s2]
    simp
    ring
  rw [hsum]
  field_simp

variable {X : ℕ → Fin D → ℝ} {A A' : Matrix (Fin D) (Fin D) ℝ} {b b' : Fin D → ℝ} {g g' : ℕ → ℕ}

private theorem full_sub {k : ℕ} (w w' : Fin D → MvPolynomial (Fin D) ℝ) (h : FullDeg k w) (h' : FullDeg k w') : FullDeg k (w - w') :=
  fun j => (totalDegree_sub _ _).trans (max_le (h j) (h' j))

/-- C68: Nedelec elements of the second kind on triangles are H(curl)-conforming, in the sense of `nedelec_conforming`. -/
theorem nedelec2_triangle_conforming {X : ℕ → Fin 2 → ℝ} {s s' : SimplexCell (Fin 2 → ℝ)} {A A' : Matrix (Fin 2) (Fin 2) ℝ} {b b' : Fin 2 → ℝ}
    (hs : ProperSimplex ℝ s) (hs' : ProperSimplex ℝ s') (hnum : NumberedSimplex s) (hnum' : NumberedSimplex s')
    (ho : 0 < orientation fun i : Fin (2 + 1) => s.v i) (ho' : 0 < orientation fun i : Fin (2 + 1) => s'.v i)
    {gj : ℕ → ℕ → List ℝ} (hgj : NodesOK gj) {nrm nrm' : ℕ → Option (Fin 2 → ℝ)} (hn : FacetNormals s nrm) (hn' : FacetNormals s' nrm')
    (k : ℕ) (hk : 1 ≤ k) (svd : SvdFun)
    (hsvd : 2 ≤ k → ∀ A B, rtRows gj (k - 2) s = some (A, B) → SvdOK (svd 2 _) (A ++ B))
    (hsvd' : 2 ≤ k → ∀ A B, rtRows gj (k - 2) s' = some (A, B) → SvdOK (svd 2 _) (A ++ B)) (T : DigitTable)
    (v : DualVariant) (hv : ∀ q, v = .integral q → k + 1 ≤ q)
    {nodes nodes' : List (Functional ℝ (Fin 2 → ℝ))} {ids ids' : EntityIds ℕ} (hdual : n2Dual2 gj svd T s nrm k v = some (nodes, ids))
    (hdual' : n2Dual2 gj svd T s' nrm' k v = some (nodes', ids')) (hm : InMesh X s A b g) (hm' : InMesh X s' A' b' g')
    {e d' e' : ℕ} {t t' : List ℕ} (ht : HasEntity s.topo 1 e t) (ht' : HasEntity s'.topo d' e' t')
    (hsh : SharedEntity g t g' t') {w w' : Fin 2 → MvPolynomial (Fin 2) ℝ} (hw : FullDeg k w) (hw' : FullDeg k w') :
    (∀ d1 e1 t1 d1' e1' t1', HasEntity s.topo d1 e1 t1 → (∀ a ∈ t1, a ∈ t) → HasEntity s'.topo d1' e1' t1' → SharedEntity g t1 g' t1' →
      d1' = d1 ∧
      DofsMatch 1 nodes ids (fun a => a.onField (fieldOf w)) nodes' ids' (fun a => a.onField (fieldOf w')) d1 e1 e1') ↔
      ∀ x x', OnEntity s t x → OnEntity s' t' x' → cellMap A b x = cellMap A' b' x' →
        ∀ a ∈ t, ∀ c ∈ t, (X (g a) - X (g c)) ⬝ᵥ covariant A w x = (X (g a) - X (g c)) ⬝ᵥ covariant A' w' x' := by
  obtain ⟨Φ1, h1⟩ := edge_natural (D := 2) le_rfl hgj k v hv
  have key : ∀ (s : SimplexCell (Fin 2 → ℝ)) (nrm : ℕ → Option (Fin 2 → ℝ)) nodes ids, ProperSimplex ℝ s → NumberedSimplex s →
      0 < orientation (fun i : Fin (2 + 1) => s.v i) → FacetNormals s nrm →
      (2 ≤ k → ∀ A B, rtRows gj (k - 2) s = some (A, B) → SvdOK (svd 2 _) (A ++ B)) → n2Dual2 gj svd T s nrm k v = some (nodes, ids) →
      CurlNatural s nodes ids (fun d => match d with | 1 => Φ1 | _ => fun _ => []) ∧ HCurlDofs s (FullDeg k) (n2Count k) nodes ids := by
    intro s nrm nodes ids hs hnum ho hn hsvd hd
    obtain ⟨nodes', ids', blk, a1, a2, a3, a4, -⟩ := n2_dual2_full s hs hnum ho hgj hn k hk svd hsvd T v hv
    have : some (nodes, ids) = some (nodes', ids') := hd.symm.trans a1
    rw [Option.some.injEq, Prod.mk.injEq] at this
    obtain ⟨rfl, rfl⟩ := this
    refine ⟨?_, a4⟩
    intro d e τ hd1 hd2 he w
    obtain rfl : d = 1 := by omega
    have := h1 s _ hs hnum a3 e τ he w
    beta_reduce at this
    change DofValues _ _ _ _ _ (Φ1 _)
    rw [← this]
    obtain ⟨l, l1, l2⟩ := a2.layout.2.2 1 e (mem_curlEnts.2 ⟨le_rfl, by omega, ((hnum.1 1 (by omega)).2 e).1 ⟨_, he⟩⟩)
    exact dofValues_of_block l1 l2
  obtain ⟨n1, n2⟩ := key s nrm nodes ids hs hnum ho hn hsvd hdual
  obtain ⟨n1', n2'⟩ := key s' nrm' nodes' ids' hs' hnum' ho' hn' hsvd' hdual'
  exact curl_conforming_core hs hs' hm hm' n1 n1' n2 n2' full_sub (fun vc w h => tangPull_degree vc h) le_rfl (by omega) ht ht' hsh hw hw'

/-- C68: Nedelec elements of the second kind on tetrahedra are H(curl)-conforming, in the sense of `nedelec_conforming`. -/
theorem nedelec2_tetrahedron_conforming {X : ℕ → Fin 3 → ℝ} {s s' : SimplexCell (Fin 3 → ℝ)} {A A' : Matrix (Fin 3) (Fin 3) ℝ} {b b' : Fin 3 → ℝ}
    (hs : ProperSimplex ℝ s) (hs' : ProperSimplex ℝ s') (hnum : NumberedSimplex s) (hnum' : NumberedSimplex s')
    (ho : 0 < orientation fun i : Fin (3 + 1) => s.v i) (ho' : 0 < orientation fun i : Fin (3 + 1) => s'.v i)
    {gj : ℕ → ℕ → List ℝ} (hgj : NodesOK gj) {nrm nrm' : ℕ → Option (Fin 3 → ℝ)} (hn : FacetNormals s nrm) (hn' : FacetNormals s' nrm')
    {nrm2 : ℕ → Option (Fin 2 → ℝ)} (hn2 : FacetNormals ((ufcTriangle : CellData ℝ).toSimplex 2) nrm2)
    (k : ℕ) (hk : 1 ≤ k) (isUfc isUfc' : Bool)
    (hufc : 2 ≤ k → isUfc = true ∧ s = (ufcTetrahedron : CellData ℝ).toSimplex 3)
    (hufc' : 2 ≤ k → isUfc' = true ∧ s' = (ufcTetrahedron : CellData ℝ).toSimplex 3) (svd : SvdFun)
    (hsvd2 : 2 ≤ k → ∀ A B, rtRows gj (k - 2) ((ufcTriangle : CellData ℝ).toSimplex 2) = some (A, B) → SvdOK (svd 2 _) (A ++ B))
    (hsvd : 3 ≤ k → ∀ A B, rtRows gj (k - 3) s = some (A, B) → SvdOK (svd 3 _) (A ++ B))
    (hsvd' : 3 ≤ k → ∀ A B, rtRows gj (k - 3) s' = some (A, B) → SvdOK (svd 3 _) (A ++ B)) (T : DigitTable)
    (v : DualVariant) (hv : ∀ q, v = .integral q → k + 1 ≤ q)
    {nodes nodes' : List (Functional ℝ (Fin 3 → ℝ))} {ids ids' : EntityIds ℕ}
    (hdual : n2Dual3 gj svd T s isUfc nrm nrm2 k v = some (nodes, ids))
    (hdual' : n2Dual3 gj svd T s' isUfc' nrm' nrm2 k v = some (nodes', ids')) (hm : InMesh X s A b g) (hm' : InMesh X s' A' b' g')
    {d e d' e' : ℕ} {t t' : List ℕ} (hd : 1 ≤ d) (hdD : d < 3) (ht : HasEntity s.topo d e t) (ht' : HasEntity s'.topo d' e' t')
    (hsh : SharedEntity g t g' t') {w w' : Fin 3 → MvPolynomial (Fin 3) ℝ} (hw : FullDeg k w) (hw' : FullDeg k w') :
    (∀ d1 e1 t1 d1' e1' t1', HasEntity s.topo d1 e1 t1 → (∀ a ∈ t1, a ∈ t) → HasEntity s'.topo d1' e1' t1' → SharedEntity g t1 g' t1' →
      d1' = d1 ∧
      DofsMatch 1 nodes ids (fun a => a.onField (fieldOf w)) nodes' ids' (fun a => a.onField (fieldOf w')) d1 e1 e1') ↔
      ∀ x x', OnEntity s t x → OnEntity s' t' x' → cellMap A b x = cellMap A' b' x' →
        ∀ a ∈ t, ∀ c ∈ t, (X (g a) - X (g c)) ⬝ᵥ covariant A w x = (X (g a) - X (g c)) ⬝ᵥ covariant A' w' x' := by
  obtain ⟨Φ1, h1⟩ := edge_natural (D := 3) (by omega) hgj k v hv
  obtain ⟨Φ2, h2⟩ : ∃ Φ2 : (Fin 2 → MvPolynomial (Fin 2) ℝ) → List ℝ, ∀ (s : SimplexCell (Fin 3 → ℝ)) (isUfc : Bool)
        (F : ℕ → List (Functional ℝ (Fin 3 → ℝ))), NumberedSimplex s →
        (2 ≤ k → isUfc = true ∧ s = (ufcTetrahedron : CellData ℝ).toSimplex 3) →
        (2 ≤ k → n2FaceBlocks gj svd T s isUfc nrm2 k v = some ((List.range 4).map F)) → (k < 2 → ∀ e, F e = []) →
        ∀ e (τ : Fin 3 → ℕ), HasEntity s.topo 2 e (List.ofFn τ) → ∀ w : Fin 3 → MvPolynomial (Fin 3) ℝ,
          (F e).map (fun a => a.onField (fieldOf w)) = Φ2 (tangPull (fun j => s.v (τ j)) w) := by
    by_cases hk2 : 2 ≤ k
    · obtain ⟨Φ2, h2⟩ := n2_face_natural hgj hn2 k svd (hsvd2 hk2) T v
      refine ⟨Φ2, fun s isUfc F hnum hufc hF _ e τ he w => ?_⟩
      have hlt : e < 4 := ((hnum.1 2 (by omega)).2 e).1 ⟨_, he⟩
      obtain ⟨rfl, rfl⟩ := hufc hk2
      refine h2 e τ _ he ?_ w
      have hF := hF hk2
      unfold n2FaceBlocks at hF
      have hnE : numEnts ((ufcTetrahedron : CellData ℝ).toSimplex 3) 2 = some 4 := (hnum.1 2 (by omega)).1
      rw [if_neg (by omega), if_pos rfl, hnE, Option.bind_some] at hF
      exact mapM_map_mem _ F _ hF e (List.mem_range.2 hlt)
    · exact ⟨fun _ => [], fun s isUfc F hnum _ _ hF e τ _ w => by rw [hF (by omega)]; rfl⟩
  have key : ∀ (s : SimplexCell (Fin 3 → ℝ)) (isUfc : Bool) (nrm : ℕ → Option (Fin 3 → ℝ)) nodes ids, ProperSimplex ℝ s → NumberedSimplex s →
      0 < orientation (fun i : Fin (3 + 1) => s.v i) → FacetNormals s nrm →
      (2 ≤ k → isUfc = true ∧ s = (ufcTetrahedron : CellData ℝ).toSimplex 3) →
      (3 ≤ k → ∀ A B, rtRows gj (k - 3) s = some (A, B) → SvdOK (svd 3 _) (A ++ B)) →
      n2Dual3 gj svd T s isUfc nrm nrm2 k v = some (nodes, ids) →
      CurlNatural s nodes ids (fun d => match d with | 1 => Φ1 | 2 => Φ2 | _ => fun _ => []) ∧ HCurlDofs s (FullDeg k) (n2Count k) nodes ids := by
    intro s isUfc nrm nodes ids hs hnum ho hn hufc hsvd hd
    obtain ⟨nodes', ids', blk, a1, a2, a3, a4, a5, a6, -⟩ := n2_dual3_full s hs hnum ho hgj hn hn2 k hk isUfc hufc svd hsvd2 hsvd T v hv
    have : some (nodes, ids) = some (nodes', ids') := hd.symm.trans a1
    rw [Option.some.injEq, Prod.mk.injEq] at this
    obtain ⟨rfl, rfl⟩ := this
    refine ⟨?_, a6⟩
    intro d e τ hd1 hd2 he w
    obtain ⟨l, l1, l2⟩ := a2.layout.2.2 d e (mem_curlEnts.2 ⟨hd1, by omega, ((hnum.1 d (by omega)).2 e).1 ⟨_, he⟩⟩)
    rcases (by omega : d = 1 ∨ d = 2) with rfl | rfl
    · have := h1 s _ hs hnum a3 e τ he w
      beta_reduce at this
      change DofValues _ _ _ _ _ (Φ1 _)
      rw [← this]
      exact dofValues_of_block l1 l2
    · have := h2 s isUfc (fun e => blk (2, e)) hnum hufc a4 a5 e τ he w
      change DofValues _ _ _ _ _ (Φ2 _)
      rw [← this]
      exact dofValues_of_block l1 l2
  obtain ⟨n1, n2⟩ := key s isUfc nrm nodes ids hs hnum ho hn hufc hsvd hdual
  obtain ⟨n1', n2'⟩ := key s' isUfc' nrm' nodes' ids' hs' hnum' ho' hn' hufc' hsvd' hdual'
  exact curl_conforming_core hs hs' hm hm' n1 n1' n2 n2' full_sub (fun vc w h => tangPull_degree vc h) hd hdD ht ht' hsh hw hw'

end
end FIAT
