/-
The face and cell nodes of the Nedelec elements of the second kind (C23).
-/
import Verif.Props.BDMElement

namespace FIAT
open MvPolynomial

section
variable {D : ℕ}

theorem rt_degree {k : ℕ} {w : Fin D → MvPolynomial (Fin D) ℝ} (hw : IsRT k w) (j : Fin D) : (w j).totalDegree ≤ k + 1 := by
  obtain ⟨p, q, hp, hq, h⟩ := hw
  rw [h]
  exact pdeg_add ((hp j).trans (Nat.le_succ k)) (Xmul_degree _ hq (by omega))

/-- The number of dofs of an entity of dimension `d ≥ 1`: the dimension of the Raviart-Thomas space of degree `k - d` on it
(`k + 1` on an edge). -/
def n2Count (k d : ℕ) : ℕ := if d ≤ k then d * k.choose d + (k - 1).choose (d - 1) else 0

theorem n2_dim_count (hD : D = 2 ∨ D = 3) (k : ℕ) (hk : 1 ≤ k) :
    ((List.range' 1 D).map fun d => (D + 1).choose (d + 1) * n2Count k d).sum = D * (k + D).choose D := by
  have c1 : (2 + 1).choose (1 + 1) = 3 := rfl
  have c2 : (2 + 1).choose (1 + 1 + 1) = 1 := rfl
  have c3 : (3 + 1).choose (1 + 1) = 6 := rfl
  have c4 : (3 + 1).choose (1 + 1 + 1) = 4 := rfl
  have c5 : (3 + 1).choose (1 + 1 + 1 + 1) = 1 := rfl
  obtain ⟨k, rfl⟩ : ∃ k', k = k' + 1 := ⟨k - 1, by omega⟩
  rcases hD with rfl | rfl
  · simp only [List.range', List.map_cons, List.map_nil, List.sum_cons, List.sum_nil, n2Count, Nat.choose_one_right, c1, c2]
    simp only [Nat.reduceAdd, Nat.add_sub_cancel, Nat.sub_self, Nat.choose_zero_right, Nat.reduceSub, Nat.choose_one_right]
    have h1 := choose_two' (k + 1)
    match k with
    | 0 => rfl
    | k + 1 =>
      have h2 := choose_two' k
      rw [if_pos (by omega), if_pos (by omega)]
      rw [show k + 1 + 1 = k + 2 from rfl, show k + 2 + 1 = k + 3 from rfl] at *
      nlinarith
  · simp only [List.range', List.map_cons, List.map_nil, List.sum_cons, List.sum_nil, n2Count, Nat.choose_one_right, c3, c4, c5]
    simp only [Nat.reduceAdd, Nat.add_sub_cancel, Nat.sub_self, Nat.choose_zero_right, Nat.reduceSub, Nat.choose_one_right]
    have h1 := choose_three' (k + 1)
    match k with
    | 0 => rfl
    | 1 => rfl
    | k + 2 =>
      have h2 := choose_two' (k + 1)
      have h3 := choose_two' k
      have h4 := choose_three' k
      rw [if_pos (by omega), if_pos (by omega), if_pos (by omega)]
      rw [show k + 1 + 1 = k + 2 from rfl, show k + 1 + 2 = k + 3 from rfl, show k + 2 + 1 = k + 3 from rfl] at *
      nlinarith

/-- The cell nodes: with vanishing tangential components on the facets they determine a field of degree `k`. -/
theorem n2_cell_spec (hD : D = 2 ∨ D = 3) {s : SimplexCell (Fin D → ℝ)} (hs : ProperSimplex ℝ s) (hnum : NumberedSimplex s)
    (ho : 0 < orientation fun i : Fin (D + 1) => s.v i) {gj : ℕ → ℕ → List ℝ} (hgj : NodesOK gj)
    {nrm : ℕ → Option (Fin D → ℝ)} (hn : FacetNormals s nrm) (k : ℕ) (svd : SvdFun)
    (hsvd : D ≤ k → ∀ A B, rtRows gj (k - D) s = some (A, B) → SvdOK (svd D _) (A ++ B)) (T : DigitTable) (v : DualVariant) :
    ∃ I, n2Cell gj svd T s nrm k v = some I ∧ I.length = n2Count k D ∧ (∀ l ∈ I, PlainNode l) ∧
      ∀ w, FullDeg k w → (∀ e t, HasEntity s.topo (D - 1) e t → TangOn s t w) → (∀ l ∈ I, l.onField (fieldOf w) = 0) → w = 0 := by
  have hD' : D = 1 ∨ D = 2 ∨ D = 3 := Or.inr hD
  obtain ⟨g, b, hb⟩ := baryForms_exist _ (proper_independent hs)
  unfold n2Cell n2Count
  by_cases hk : D ≤ k
  · rw [if_neg (by omega), if_pos hk]
    obtain ⟨Q, q1, q2, q3, q4⟩ := simplex_rule_spec hgj hD' _ ho (2 * (k + 1)) (by omega)
    rw [← verts_ofFn s hs.2.1 hs.1] at q1
    obtain ⟨v', hv'⟩ := variantName_dual T v (k - D)
    obtain ⟨m, el, nodes, ids, e1, e2, e3, -, e4, e5⟩ := raviart_thomas_spec hD s hs hnum ho hgj hn (k - D) (svd D _) (hsvd hk) T _ v' hv'
    obtain ⟨ψ, p1, p2, p3⟩ := nodal_values e4 e5
    obtain ⟨Tv, t1, t2⟩ := p3 Q.pts
    obtain ⟨m1, m2, m3⟩ := field_moments_spec _ Q q2 q3 q4 ψ (fun i c => rt_degree (p1 i) c) Tv t2
    refine ⟨fieldMoments Q Tv, ?_, ?_, m2, fun w hw ht hI => ?_⟩
    · rw [q1, Option.bind_some, e1, Option.bind_some]
      simp only [t1, Option.map_some]
    · rw [m1, e2, show k - D + D = k by omega]
    · refine ned2_core (by omega) hb (proper_independent hs) hw (tangZero_cell (by omega) hs ht hb) fun p _ hp => ?_
      exact moments_span ψ w p (p2 p hp) (m3 w (fun j => by have := hw j; omega) hI)
  · rw [if_pos (by omega), if_neg hk]
    refine ⟨[], rfl, rfl, by simp, fun w hw ht _ => ?_⟩
    exact ned2_core (by omega) hb (proper_independent hs) hw (tangZero_cell (by omega) hs ht hb) fun p h _ => by omega

end

section faces

/-- Faces without nodes. -/
theorem n2_face_empty {s : SimplexCell (Fin 3 → ℝ)} (hs : ProperSimplex ℝ s) {k : ℕ} (hk : k < 2) (e : ℕ) :
    TangBlock s (FullDeg k) 0 2 e [] := by
  refine ⟨rfl, by simp, fun t h w hw hlow => ?_⟩
  obtain ⟨τ, t1, t2, rfl, t4⟩ := entity_tuple hs h
  rw [tangOn_iff τ t1]
  obtain ⟨g, b, hb⟩ := baryForms_exist (ufcVerts ℝ 2) (ufcVerts_affineIndependent 2)
  simp only [List.not_mem_nil, false_imp_iff, implies_true, true_iff]
  exact ned2_core le_rfl hb (ufcVerts_affineIndependent 2) (fun a => tangPull_degree _ hw a) (tangZero_pull le_rfl hs τ t1 t2 hlow hb)
    fun p h _ => by omega

/-- The Jacobian of the face map. -/
noncomputable def faceJac (x0 x1 x2 : Fin 3 → ℝ) : Matrix (Fin 3) (Fin 2) ℝ :=
  Matrix.of fun i j => if j = 0 then (x1 - x0) i else (x2 - x0) i

theorem faceJac_map (vc : Fin (2 + 1) → Fin 3 → ℝ) (p : Fin 2 → ℝ) :
    (faceJac (vc 0) (vc 1) (vc 2)).mulVec p + vc 0 = entMap vc p := by
  funext l
  simp only [entMap, faceJac, Matrix.mulVec, dotProduct, Matrix.of_apply, Fin.sum_univ_two, Pi.add_apply, Pi.smul_apply, smul_eq_mul,
    Pi.sub_apply]
  have e1 : (0 : Fin 2).succ = (1 : Fin 3) := rfl
  have e2 : (1 : Fin 2).succ = (2 : Fin 3) := rfl
  rw [e1, e2]
  simp
  ring

theorem faceJac_det_pos (vc : Fin (2 + 1) → Fin 3 → ℝ) (hinj : Function.Injective (entMap vc)) :
    0 < ((faceJac (vc 0) (vc 1) (vc 2)).transpose * faceJac (vc 0) (vc 1) (vc 2)).det := by
  set J := faceJac (vc 0) (vc 1) (vc 2)
  have h0 : 0 ≤ (J.transpose * J).det := by
    rw [Matrix.det_fin_two]
    simp only [Matrix.mul_apply, Matrix.transpose_apply, Fin.sum_univ_three]
    have : (J 0 0 * J 0 0 + J 1 0 * J 1 0 + J 2 0 * J 2 0) * (J 0 1 * J 0 1 + J 1 1 * J 1 1 + J 2 1 * J 2 1) -
        (J 0 0 * J 0 1 + J 1 0 * J 1 1 + J 2 0 * J 2 1) * (J 0 1 * J 0 0 + J 1 1 * J 1 0 + J 2 1 * J 2 0) =
        (J 0 0 * J 1 1 - J 1 0 * J 0 1) ^ 2 + (J 1 0 * J 2 1 - J 2 0 * J 1 1) ^ 2 + (J 0 0 * J 2 1 - J 2 0 * J 0 1) ^ 2 := by ring
    rw [this]; positivity
  refine lt_of_le_of_ne h0 fun h => ?_
  obtain ⟨x, hx, hx0⟩ := Matrix.exists_mulVec_eq_zero_iff.2 h.symm
  apply hx
  have h1 : J.mulVec x = 0 := by
    have h2 : J.mulVec x ⬝ᵥ J.mulVec x = 0 := by
      rw [Matrix.dotProduct_mulVec, ← Matrix.mulVec_transpose, Matrix.mulVec_mulVec, hx0, zero_dotProduct]
    rw [dotProduct] at h2
    funext i
    have h3 := (Finset.sum_eq_zero_iff_of_nonneg fun i _ => mul_self_nonneg (J.mulVec x i)).1 h2 i (Finset.mem_univ i)
    exact mul_self_eq_zero.1 h3
  apply hinj
  rw [← faceJac_map, ← faceJac_map, h1, Matrix.mulVec_zero]

/-- The nodes of one face of the UFC tetrahedron. -/
theorem n2_face_block {gj : ℕ → ℕ → List ℝ} (hgj : NodesOK gj) {nrm2 : ℕ → Option (Fin 2 → ℝ)}
    (hn2 : FacetNormals ((ufcTriangle : CellData ℝ).toSimplex 2) nrm2) (k : ℕ) (hk : 2 ≤ k) (svd : SvdFun)
    (hsvd : ∀ A B, rtRows gj (k - 2) ((ufcTriangle : CellData ℝ).toSimplex 2) = some (A, B) → SvdOK (svd 2 _) (A ++ B))
    (T : DigitTable) (v : DualVariant) {e : ℕ} {t : List ℕ} (h : HasEntity ((ufcTetrahedron : CellData ℝ).toSimplex 3).topo 2 e t) :
    ∃ blk, n2FaceNodes gj svd T nrm2 k v e = some blk ∧
      TangBlock ((ufcTetrahedron : CellData ℝ).toSimplex 3) (FullDeg k) (n2Count k 2) 2 e blk := by
  have hs : ProperSimplex ℝ ((ufcTetrahedron : CellData ℝ).toSimplex 3) := proper_ufcTetrahedron
  set s := (ufcTetrahedron : CellData ℝ).toSimplex 3 with hsdef
  obtain ⟨τ, t1, t2, rfl, t4⟩ := entity_tuple hs h
  have hinj := entMap_injective hs τ t1 t2
  obtain ⟨G, g1, g2, g3, g4, g5⟩ := ufc_cell_spec (d := 2) (by omega)
  obtain ⟨Q, q1, q2, q3, q4⟩ := simplex_rule_spec hgj (D := 2) (by omega) (ufcVerts ℝ 2) g5 (2 * (k + 1)) (by omega)
  rw [← g4] at q1
  have hG : G = (ufcTriangle : CellData ℝ).toSimplex 2 := (Option.some.inj g1).symm
  have ho2 : 0 < orientation fun i : Fin (2 + 1) => G.v i := by
    have : (fun i : Fin (2 + 1) => G.v i) = ufcVerts ℝ 2 := by
      rw [hG]
      funext i l
      fin_cases i <;> fin_cases l <;> rfl
    rw [this]; exact g5
  rw [← hG] at hn2 hsvd
  have hnum2 : NumberedSimplex G := by rw [hG]; exact numbered_ufcTriangle
  obtain ⟨v', hv'⟩ := variantName_dual T v (k - 2)
  obtain ⟨m, el, nodes, ids, e1, e2, e3, -, e4, e5⟩ := raviart_thomas_spec (Or.inl rfl) G g2 hnum2 ho2 hgj hn2 (k - 2) (svd 2 _) hsvd T _ v' hv'
  obtain ⟨ψ, p1, p2, p3⟩ := nodal_values e4 e5
  obtain ⟨Tv, tv1, tv2⟩ := p3 Q.pts
  set vc : Fin (2 + 1) → Fin 3 → ℝ := fun j => s.v (τ j) with hvc
  set J := faceJac (vc 0) (vc 1) (vc 2) with hJ
  have hd := faceJac_det_pos vc hinj
  have hr : Real.sqrt (J.transpose * J).det ≠ 0 := (Real.sqrt_pos.2 hd).ne'
  set r := Real.sqrt (J.transpose * J).det with hrdef
  have hl' : (Q.wts.map fun w => r * w).length = Q.pts.length := by rw [List.length_map, q3]
  -- the value of the nodes
  have hnode : ∀ (i : Fin m) (w : Fin 3 → MvPolynomial (Fin 3) ℝ),
      PlainNode (frobeniusIntegralMoment [3] (((Q.pts.map (entMap vc)).zip (Q.wts.map fun w => r * w)).zipIdx.map fun q =>
        (q.1.1, q.1.2, fun (α : List ℕ) => vecNat (fun j : Fin 3 => 1 / r * J.mulVec (fun c => Tv i c q.2) j) (α.getD 0 0)))) ∧
      (FullDeg k w → (frobeniusIntegralMoment [3] (((Q.pts.map (entMap vc)).zip (Q.wts.map fun w => r * w)).zipIdx.map fun q =>
        (q.1.1, q.1.2, fun (α : List ℕ) => vecNat (fun j : Fin 3 => 1 / r * J.mulVec (fun c => Tv i c q.2) j) (α.getD 0 0)))).onField
          (fieldOf w) = ∫ y in convexHull ℝ (Set.range (ufcVerts ℝ 2)), eval y (∑ a, tangPull vc w a * ψ i a)) := by
    intro i w
    have := frobenius_field w Q.pts (Q.wts.map fun w => r * w) hl' (entMap vc) (q4.map hinj)
      (fun q => fun j : Fin 3 => 1 / r * J.mulVec (fun c => Tv i c q) j)
      (fun y j => 1 / r * J.mulVec (fun c => eval y (ψ i c)) j) (by
        intro q x hx j
        beta_reduce
        congr 3
        funext c
        exact tv2 i c q x hx)
    refine ⟨this.1, fun hw => this.2.trans ?_⟩
    have hdeg : (∑ a, tangPull vc w a * ψ i a).totalDegree ≤ 2 * (2 * (k + 1)) - 1 := by
      refine sum_degree _ _ _ fun a _ => (totalDegree_mul _ _).trans ?_
      have h1 := tangPull_degree vc hw a
      have h2 := rt_degree (p1 i) a
      omega
    refine Eq.trans ?_ (q2.1 _ hdeg)
    unfold QRule.integrate
    rw [List.zip_map_right, List.map_map]
    congr 1
    refine List.map_congr_left fun x _ => ?_
    rw [Function.comp_apply]
    change r * x.2 * ∑ l, 1 / r * J.mulVec (fun c => eval x.1 (ψ i c)) l * eval (entMap vc x.1) (w l) = _
    have hsum : ∑ l, 1 / r * J.mulVec (fun c => eval x.1 (ψ i c)) l * eval (entMap vc x.1) (w l) =
        1 / r * eval x.1 (∑ a, tangPull vc w a * ψ i a) := by
      rw [map_sum, Fin.sum_univ_two, map_mul, map_mul, eval_tangPull, eval_tangPull]
      simp only [hJ, faceJac, Matrix.mulVec, dotProduct, Matrix.of_apply, Fin.sum_univ_two, Fin.sum_univ_three, Pi.sub_apply]
      have s1 : (0 : Fin 2).succ = (1 : Fin 3) := rfl
      have s2 : (1 : Fin 2).succ = (2 : Fin 3) := rfl
      rw [s1, s2]
      simp
      ring
    rw [hsum]
    field_simp
  refine ⟨(List.finRange m).map fun i => frobeniusIntegralMoment [3] (((Q.pts.map (entMap vc)).zip (Q.wts.map fun w => r * w)).zipIdx.map fun q =>
        (q.1.1, q.1.2, fun (α : List ℕ) => vecNat (fun j : Fin 3 => 1 / r * J.mulVec (fun c => Tv i c q.2) j) (α.getD 0 0))), ?_, ?_, ?_, ?_⟩
  · have hrule : ufcFaceRule gj e (2 * (k + 1)) = some (Q, J, ⟨Q.pts.map (entMap vc), Q.wts.map fun w => r * w⟩) := by
      unfold ufcFaceRule
      rw [g1, Option.bind_some, q1, Option.bind_some]
      have h3 : ufcSimplexCell 3 = some s := rfl
      rw [h3, Option.bind_some, t4, Option.bind_some]
      have hof : (List.ofFn fun j => s.v (τ j)) = [vc 0, vc 1, vc 2] := by
        simp [List.ofFn_succ, hvc]
      rw [hof]
      have hm : (fun p : Fin 2 → ℝ => J.mulVec p + vc 0) = entMap vc := funext fun p => faceJac_map vc p
      rw [← hm]
      rfl
    unfold n2FaceNodes
    rw [hrule, Option.bind_some, g1, Option.bind_some, e1, Option.bind_some]
    simp only [tv1, Option.map_some]
    rfl
  · rw [List.length_map, List.length_finRange, e2, n2Count, if_pos hk, show k - 2 + 2 = k by omega]
  · intro l hl
    obtain ⟨i, -, rfl⟩ := List.mem_map.1 hl
    exact (hnode i 0).1
  · intro t' ht' w hw hlow
    have htt := hasEntity_unique h ht'
    subst htt
    rw [tangOn_iff τ t1]
    obtain ⟨g, b, hb⟩ := baryForms_exist (ufcVerts ℝ 2) (ufcVerts_affineIndependent 2)
    constructor
    · intro hz
      refine ned2_core le_rfl hb (ufcVerts_affineIndependent 2) (fun a => tangPull_degree _ hw a) (tangZero_pull le_rfl hs τ t1 t2 hlow hb)
        fun p _ hp => moments_span ψ _ p (p2 p hp) fun i => ?_
      rw [← (hnode i w).2 hw]
      exact hz _ (List.mem_map.2 ⟨i, List.mem_finRange i, rfl⟩)
    · intro hz l hl
      obtain ⟨i, -, rfl⟩ := List.mem_map.1 hl
      rw [(hnode i w).2 hw, hvc, hz]
      simp

end faces
end FIAT
