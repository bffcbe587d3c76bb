/-
C74: for the lowest order elements, interpolation commutes with the gradient.
-/
import Verif.Props.CommuteCurl
import Verif.Props.MiniElement

open MeasureTheory
namespace FIAT
open MvPolynomial
section
variable {D : ℕ}

/-- The edge nodes are moments. -/
theorem edge_nodes_zero (hD : 2 ≤ D) {s : SimplexCell (Fin D → ℝ)} (hs : ProperSimplex ℝ s) (hnum : NumberedSimplex s)
    {gj : ℕ → ℕ → List ℝ} (hgj : NodesOK gj) {k q n : ℕ} (hq : k + 1 ≤ q) {L} (hL : edgeBlocks gj s k (.integral q) = some L)
    {w : Fin D → MvPolynomial (Fin D) ℝ} (hw : ∀ j, (w j).totalDegree ≤ n) (hnk : n + k ≤ 2 * q - 1) (hz : EdgeMomentsZero s k w) :
    ∀ l ∈ L.flatten, l.onField (fieldOf w) = 0 := by
  intro l hl'
  obtain ⟨blk, b1, b2⟩ := List.mem_flatten.1 hl'
  obtain ⟨G, g1, g2, g3, g4, g5⟩ := ufc_cell_spec (d := 1) (by omega)
  obtain ⟨Q, q1, q2, q3, q4⟩ := simplex_rule_spec hgj (D := 1) (by omega) (ufcVerts ℝ 1) g5 q (by omega)
  obtain ⟨S, T, s1, s2, φ, s3, s4⟩ := scalar_values (by omega) G g2 g3 k Q.pts
  rw [← g4] at q1
  have hnE : numEnts s 1 = some ((D + 1).choose 2) := (hnum.1 1 (by omega)).1
  simp only [edgeBlocks, g1, q1, s1, s2, hnE, Option.bind_eq_bind, Option.bind_some] at hL
  obtain ⟨e, he, hb⟩ := mapM_mem_inv _ _ _ hL blk b1
  obtain ⟨t, ht⟩ := ((hnum.1 1 (by omega)).2 e).2 (List.mem_range.1 he)
  obtain ⟨τ, t1, t2, rfl, t4⟩ := entity_tuple hs ht
  unfold edgeMomentNodes at hb
  rw [mapToEntity_ref τ t4, Option.bind_some, edgeTangent_ref τ t4, Option.map_some, Option.some.injEq] at hb
  rw [← hb] at b2
  obtain ⟨i, -, rfl⟩ := List.mem_map.1 b2
  have hφ : (φ i).totalDegree ≤ k := by
    rw [← mem_restrictTotalDegree, ← s3]
    exact Submodule.subset_span ⟨i, rfl⟩
  rw [moment_direction_field _ _ _ (by
    rw [zipRule_points _ _ (by rw [List.length_map, q3])]
    exact q4.map (entMap_injective hs τ t1 t2)), quadSum_zip_map]
  simp only [eval_edge]
  rw [quadSum_zip Q.pts Q.wts q3 _ (fun x => eval x (φ i)) _ (s4 i)]
  have h2 := q2.1 (φ i * tangPull (fun r => s.v (τ r)) w 0) ((totalDegree_mul _ _).trans (by have := tangPull_degree (fun r => s.v (τ r)) hw 0; omega))
  have h3 := hz e τ ht (φ i) hφ
  rw [← h3, ← h2]
  simp only [map_mul]

/-- The fundamental theorem on an edge. -/
theorem edge_ftc (vc : Fin 2 → Fin D → ℝ) {f : MvPolynomial (Fin D) ℝ} (h0 : ∀ r, eval (vc r) f = 0) :
    ∫ y in convexHull ℝ (Set.range (ufcVerts ℝ 1)), eval y (tangPull vc (fun j => pderiv j f) 0) = 0 := by
  obtain ⟨G, -, -, -, -, g5⟩ := ufc_cell_spec (d := 1) (by omega)
  obtain ⟨g, b, hb⟩ := baryForms_exist _ (ufcVerts_affineIndependent (K := ℝ) 1)
  have hdt := divergence_theorem (d := 0) (ufcVerts ℝ 1) g5.ne' hb (fun i _ => i.rev) (fun i a b _ => Subsingleton.elim (α := Fin 1) a b)
    (fun i r => by fin_cases i <;> decide) (fun _ => pullback (vc 0) (fun i => vc i.succ) f)
  have e1 : divergence (fun _ : Fin 1 => pullback (vc 0) (fun i => vc i.succ) f) = tangPull vc (fun j => pderiv j f) 0 := by
    unfold divergence
    rw [Fin.sum_univ_one, pderiv_pullback]
    rfl
  rw [e1] at hdt
  rw [hdt]
  refine mul_eq_zero_of_right _ (Finset.sum_eq_zero fun i _ => ?_)
  have e2 : ∀ y : Fin 0 → ℝ, ∑ j : Fin 1, g i j * eval (entMap (fun _ : Fin 1 => ufcVerts ℝ 1 i.rev) y) (pullback (vc 0) (fun i => vc i.succ) f) = 0 := by
    intro y
    rw [Fin.sum_univ_one]
    have : entMap (fun _ : Fin 1 => ufcVerts ℝ 1 i.rev) y = ufcVerts ℝ 1 i.rev := by
      unfold entMap
      simp
    rw [this, eval_pull vc f]
    have e3 : entMap vc (ufcVerts ℝ 1 i.rev) = vc i.rev := by
      unfold entMap
      fin_cases i
      · rw [Fin.sum_univ_one]
        show vc 0 + (if (0 : Fin 1) = 0 then (1 : ℝ) else 0) • (vc 1 - vc 0) = vc 1
        rw [if_pos rfl, one_smul, add_sub_cancel]
      · simp [ufcVerts]
    rw [e3, h0, mul_zero]
  have := congrArg (fun F : (Fin 0 → ℝ) → ℝ => ∫ y in convexHull ℝ (Set.range (ufcVert 0)), F y) (_root_.funext e2)
  simpa using this

/-- The interpolant behind the tables of a scalar element with point evaluations. -/
theorem scalar_interpolant {N m : ℕ} {V : (Unit → MvPolynomial (Fin D) ℝ) → Prop} {pts : List (Fin D → ℝ)} {el : PolySet ℝ (Fin D → ℝ) N m Unit}
    (hlen : (pts.map pointEvaluation : List (Functional ℝ (Fin D → ℝ))).length = m) (hV : LinClosed V)
    (h : IsNodalC (fun _ : Unit => ([] : List ℕ)) V (pts.map pointEvaluation) el) (a : Fin m → ℝ) :
    ∃ g : MvPolynomial (Fin D) ℝ, V (fun _ => g) ∧ (∀ (i : Fin m) x, pts[(i : ℕ)]? = some x → eval x g = a i) ∧
      ∀ (j : Fin D) x, feValue el a (unitAlpha D j) () x = eval x (pderiv j g) := by
  obtain ⟨ψ, p1, p2, p3, p4⟩ := h
  have hent : ∀ α x i c, α.length = D → tabEntry el α x i c = some (eval x (iterDeriv α (ψ i c))) := by
    intro α x i c hα
    obtain ⟨res, r1, r2, r3⟩ := p4 [x] α.sum
    have hk : α ∈ Dict.keys res := (r2 α).2 ⟨hα, le_rfl⟩
    obtain ⟨T, hT⟩ := Option.isSome_iff_exists.1 (Dict.get?_isSome_iff.2 hk)
    unfold tabEntry
    rw [r1, Option.bind_some, hT, Option.map_some, r3 α T hT i c 0 x rfl]
  have hg : (fun _ : Unit => ∑ i, a i • ψ i ()) = ∑ i, a i • ψ i := by
    funext u
    rw [Finset.sum_apply]
    rfl
  refine ⟨∑ i, a i • ψ i (), by rw [hg]; exact hV m a ψ p1, fun i x hx => ?_, fun j x => ?_⟩
  · rw [map_sum, Finset.sum_eq_single i]
    · have := p3 i (pointEvaluation x) (by rw [List.getElem?_map, hx]; rfl) i
      rw [unit_scalar, point_eval_scalar, if_pos rfl] at this
      rw [smul_eval, this, mul_one]
    · intro b _ hb
      have := p3 i (pointEvaluation x) (by rw [List.getElem?_map, hx]; rfl) b
      rw [unit_scalar, point_eval_scalar, if_neg fun h => hb (Fin.ext h.symm)] at this
      rw [smul_eval, this, mul_zero]
    · simp
  · have : ∑ i, a i • ψ i () = ∑ i, C (a i) * ψ i () := Finset.sum_congr rfl fun i _ => smul_eq_C_mul _ _
    rw [this, ← iterDeriv_unit, iterDeriv_linear, map_sum]
    unfold feValue
    exact Finset.sum_congr rfl fun i _ => by rw [hent _ x i () (by simp [unitAlpha]), map_mul, eval_C]; rfl

theorem lagrange_vertex_mem {s : SimplexCell (Fin D → ℝ)} (hs : ProperSimplex ℝ s) {nodes : List (Fin D → ℝ)} {ids : EntityIds ℕ}
    (h : lagrangeDual ℝ s 1 = some (nodes, ids)) {i : ℕ} (hi : i < D + 1) : s.v i ∈ nodes := by
  have := lagrange_node_mem s hs le_rfl h (fun l => if l = i then 1 else 0) (fun l hl => if_neg (by rw [hs.1] at hl; omega)) (by
    rw [Finset.sum_ite_eq', if_pos]
    rw [hs.1]; exact Finset.mem_range.2 hi)
  have e : baryPt ℝ s.v (s.sd + 1) 1 (fun l => if l = i then 1 else 0) = s.v i := by
    unfold baryPt
    rw [Finset.sum_eq_single i]
    · simp
    · intro l _ hl
      simp [hl]
    · intro hc
      rw [hs.1] at hc
      exact absurd (Finset.mem_range.2 hi) hc
  rwa [e] at this

/-- C74: the gradient of the linear Lagrange interpolant of a polynomial is the interpolant of its gradient by the integral variant of
`Nedelec(cell, 1)`. -/
theorem lagrange_nedelec_commutes (hD : D = 2 ∨ D = 3) (s : SimplexCell (Fin D → ℝ)) (hs : ProperSimplex ℝ s) (hnum : NumberedSimplex s)
    (ho : 0 < orientation fun i : Fin (D + 1) => s.v i) {gj : ℕ → ℕ → List ℝ} (hgj : NodesOK gj)
    (svd : SvdFun) (hsvd : ∀ A B, nedRows gj 0 D s = some (A, B) → SvdOK (svd D _) (A ++ B))
    (T : DigitTable) (variant : Option (List Char)) (q : ℕ) (hv : dualVariant T variant 0 = some (.integral q)) :
    ∃ L idsL pts m el nodes ids, lagrangeElement s 1 = some (L, idsL) ∧ lagrangeDual ℝ s 1 = some (pts, idsL) ∧
      nedelec gj 0 svd T s variant = some (⟨m, el⟩, nodes, ids) ∧
      ∀ p : MvPolynomial (Fin D) ℝ, p.totalDegree ≤ 2 * q → ∀ a c, (∀ (i : Fin _) x, pts[(i : ℕ)]? = some x → a i = eval x p) →
        NodeValues nodes (fun j => pderiv j p) c → ∀ x (j : Fin D), feValue L a (unitAlpha D j) () x = feValue el c (noDeriv D) j x := by
  have hinc : Increasing fun i : Fin (D + 1) => s.v i := fun h => by omega
  obtain ⟨L, idsL, pts, l1, l2, l3, l4⟩ := lagrange_nodal (Or.inr hD) s hs hinc 1 le_rfl
  obtain ⟨m, el, nodes, ids, h1, h2, h3, -, -, h4⟩ := nedelec_spec hD s hs hnum ho hgj 0 svd hsvd T variant _ hv
  have hq := dual_variant_degree hv q rfl
  refine ⟨L, idsL, pts, m, el, nodes, ids, l1, l2, h1, fun p hp a c ha hc => ?_⟩
  obtain ⟨g, g1, g2, g3⟩ := scalar_interpolant l3 (linClosed_deg 1) l4 a
  change g.totalDegree ≤ 1 at g1
  obtain ⟨u, u1, u2, u3, -⟩ := interpolant h3 h4 (linClosed_ned 0) hc
  have hvan : ∀ i < D + 1, eval (s.v i) (g - p) = 0 := by
    intro i hi
    obtain ⟨l, hl⟩ := List.mem_iff_getElem?.1 (lagrange_vertex_mem hs l2 hi)
    have hlt : l < (1 + D).choose D := by
      have := (List.getElem?_eq_some_iff.1 hl).1
      rw [List.length_map] at l3
      omega
    rw [map_sub, g2 ⟨l, hlt⟩ _ hl, ha ⟨l, hlt⟩ _ hl, sub_self]
  have hmom : EdgeMomentsZero s 0 (fun j => pderiv j (g - p)) := by
    intro e τ he φ hφ
    obtain ⟨τ', t1, t2, t3, -⟩ := entity_tuple hs he
    obtain rfl := ofFn_inj' t3
    rw [totalDegree_eq_zero_iff_eq_C.1 (Nat.le_zero.1 hφ)]
    simp only [map_mul, eval_C]
    rw [integral_const_mul, edge_ftc _ (fun r => hvan _ (t2 r)), mul_zero]
  have hgd : ∀ j, (pderiv j g).totalDegree ≤ 0 := fun j => (totalDegree_pderiv_sub j g).trans (by omega)
  have hdeg : ∀ j, (pderiv j (g - p)).totalDegree ≤ 2 * q - 1 := by
    intro j
    have h1 := totalDegree_pderiv_sub j (g - p)
    have h2 := (totalDegree_sub g p).trans (max_le (g1.trans (by omega : 1 ≤ 2 * q)) hp)
    omega
  have hnodes : ∀ l ∈ nodes, l.onField (fieldOf fun j => pderiv j (g - p)) = 0 := by
    have hdual : nedDual gj 0 (.integral q) D s = some (nodes, ids) := by
      unfold nedelec at h1
      simp only [hv, Option.bind_eq_bind, Option.bind_some, Option.bind_eq_some_iff] at h1
      obtain ⟨S, -, dual, h5, el', -, h6⟩ := h1
      rw [← (Prod.mk.inj (Option.some.inj h6)).2]
      exact h5
    rcases hD with rfl | rfl
    · change nedDual2 gj s 0 (.integral q) = some (nodes, ids) at hdual
      unfold nedDual2 at hdual
      simp only [Option.bind_eq_bind, Option.bind_eq_some_iff] at hdual
      obtain ⟨L, hL, I, hI, _, -, _, -, _, -, _, -, h⟩ := hdual
      obtain ⟨rfl, -⟩ := Prod.mk.inj (Option.some.inj h)
      rw [if_neg (by omega)] at hI
      rw [← Option.some.inj hI, List.append_nil]
      exact edge_nodes_zero le_rfl hs hnum hgj hq hL hdeg (by omega) hmom
    · change nedDual3 gj s 0 (.integral q) = some (nodes, ids) at hdual
      unfold nedDual3 at hdual
      simp only [Option.bind_eq_bind, Option.bind_eq_some_iff] at hdual
      obtain ⟨L, hL, M, hM, I, hI, _, -, _, -, _, -, _, -, _, -, h⟩ := hdual
      obtain ⟨rfl, -⟩ := Prod.mk.inj (Option.some.inj h)
      rw [if_neg (by omega)] at hI hM
      rw [← Option.some.inj hI, ← Option.some.inj hM, List.append_nil, List.flatten_nil, List.append_nil]
      exact edge_nodes_zero (by omega) hs hnum hgj hq hL hdeg (by omega) hmom
  obtain ⟨nodes', ids', d1, -, -, -, d5⟩ := ned_dual_spec hD s hs hnum ho hgj 0 (.integral q) (dual_variant_degree hv)
  have hdual : nedDual gj 0 (.integral q) D s = some (nodes, ids) := by
    unfold nedelec at h1
    simp only [hv, Option.bind_eq_bind, Option.bind_some, Option.bind_eq_some_iff] at h1
    obtain ⟨S, -, dual, h5, el', -, h6⟩ := h1
    rw [← (Prod.mk.inj (Option.some.inj h6)).2]
    exact h5
  obtain ⟨rfl, rfl⟩ := Prod.mk.inj (Option.some.inj (hdual.symm.trans d1))
  have hNed : IsNed 0 (u - fun j => pderiv j g) := by
    have := linClosed_ned 0 2 ![1, -1] ![u, fun j => pderiv j g] (fun i => by
      fin_cases i
      · exact u1
      · exact fullDeg_ned hgd)
    rw [Fin.sum_univ_two] at this
    simpa [sub_eq_add_neg] using this
  have hzero := d5 _ hNed fun l hl => by
    have e1 := u2 l hl
    have e2 := hnodes l hl
    have e3 : (fun j => pderiv j (g - p)) = (fun j => pderiv j g) - fun j => pderiv j p := _root_.funext fun j => map_sub _ _ _
    rw [e3, onField_sub] at e2
    rw [onField_sub] at e1 ⊢
    linarith
  intro x j
  rw [g3, u3, sub_eq_zero.1 hzero]

end
end FIAT
