/-
The nodes of the Arnold-Winther elements (C61, C62).
-/
import Verif.Model.ArnoldWinther
import Verif.Lemmas.AWZero
import Verif.Lemmas.FieldBlocks
import Verif.Props.RTExample

namespace FIAT
open MvPolynomial MeasureTheory
section
variable {s : SimplexCell (Fin 2 → ℝ)}

/-- Specification: the moment of `v^T u w` against `q` along the edge with vertices `t`, parametrized over the unit interval. -/
noncomputable def edgeMom (s : SimplexCell (Fin 2 → ℝ)) (t : List ℕ) (q : ℝ → ℝ) (v w : Fin 2 → ℝ)
    (u : Fin 2 × Fin 2 → MvPolynomial (Fin 2) ℝ) : ℝ :=
  ∫ r in (0 : ℝ)..1, q r * quadForm u (s.v (t.getD 0 0) + r • (s.v (t.getD 1 0) - s.v (t.getD 0 0))) v w

theorem bilin_fieldC (u : Fin 2 × Fin 2 → MvPolynomial (Fin 2) ℝ) (v w x : Fin 2 → ℝ) :
    bilinField (fun (α : List ℕ) (x : Fin 2 → ℝ) => eval x (fieldC comp2 u α)) 2 (vecNat v) (vecNat w) x = quadForm u x v w := by
  unfold bilinField quadForm
  rw [Finset.sum_range]
  refine Finset.sum_congr rfl fun i _ => ?_
  rw [Finset.sum_range, Finset.mul_sum]
  refine Finset.sum_congr rfl fun j _ => ?_
  have : fieldC comp2 u [(i : ℕ), (j : ℕ)] = u (i, j) := fieldC_apply comp2_injective u (i, j)
  beta_reduce
  rw [this]
  have hv : ∀ (v : Fin 2 → ℝ) (i : Fin 2), vecNat v i = v i := fun v i => by fin_cases i <;> rfl
  rw [hv, hv, mul_assoc]

/-- `IntegralLegendreBidirectionalMoment`. -/
theorem legendre_bi_spec {leg : ℕ → List ℝ × List ℝ} (hleg : IsLeggauss 7 (leg 7).1 (leg 7).2) (hs : ProperSimplex ℝ s) (sv : ℕ → List ℝ)
    (v w : Fin 2 → ℝ) {e a c : ℕ} (h : HasEntity s.topo 1 e [a, c]) {m : ℕ} (hm : m ≤ 3) :
    ∃ l, legendreBiMoment leg s sv v w e m 6 = some l ∧ PlainNode l ∧ ∀ u : Fin 2 × Fin 2 → MvPolynomial (Fin 2) ℝ,
      (∀ c, (u c).totalDegree ≤ 3) → l.onField (fieldC comp2 u) =
        volumeOf (sv e) 1 ^ 2 * edgeMom s [a, c] (fun r => eval (fun _ => r) (legPoly m)) v w u := by
  obtain ⟨T, t1, t2, t3⟩ := legendre_table_spec hleg hs h hm
  have e : legendreBiMoment leg s sv v w e m 6 = some (integralLegendreBidirectionalMoment 2 (vecNat v) (vecNat w) (volumeOf (sv e) 1) T) := by
    unfold legendreBiMoment
    rw [t1]; rfl
  refine ⟨_, e, plain_of_pt _ (fill_wf _ _ _ t2), fun u hu => ?_⟩
  unfold Functional.onField
  rw [legendre_bidirectional_apply _ _ _ _ _ _ _ t2]
  congr 1
  have h3 := t3 (biC v w u) ((biC_degree v w hu).trans (by norm_num))
  have : bilinField (fun (α : List ℕ) (x : Fin 2 → ℝ) => eval x (fieldC comp2 u α)) 2 (vecNat v) (vecNat w) = fun x => eval x (biC v w u) := by
    funext x
    rw [bilin_fieldC, eval_biC]
  rw [this, h3]
  unfold edgeMom
  simp only [eval_biC]
  rfl

/-- The nodes of an edge: the four moments of `awEdge`, and the constraint of the nonconforming element. -/
theorem aw_edge_spec {leg : ℕ → List ℝ × List ℝ} (hleg : IsLeggauss 7 (leg 7).1 (leg 7).2) (hs : ProperSimplex ℝ s) (sv : ℕ → List ℝ)
    {nrm : ℕ → Option (Fin 2 → ℝ)} {e : ℕ} {t : List ℕ} (h : HasEntity s.topo 1 e t) {n τ : Fin 2 → ℝ} (hn : nrm e = some n)
    (hτ : edgeTangent s e = some τ) :
    ∃ l0 l1 l2 l3 l4, awEdge leg s nrm sv e = some [l0, l1, l2, l3] ∧ legendreNN leg s nrm sv e 2 6 = some l4 ∧
      (∀ l ∈ [l0, l1, l2, l3, l4], PlainNode l) ∧ ∀ u : Fin 2 × Fin 2 → MvPolynomial (Fin 2) ℝ, (∀ c, (u c).totalDegree ≤ 3) →
      [l0, l1, l2, l3, l4].map (fun l => l.onField (fieldC comp2 u)) =
        [volumeOf (sv e) 1 ^ 2 * edgeMom s t (fun _ => 1) n n u,
         volumeOf (sv e) 1 ^ 2 * edgeMom s t (fun _ => 1) n ((1 / Real.sqrt (∑ j, τ j ^ 2)) • τ) u,
         volumeOf (sv e) 1 ^ 2 * edgeMom s t (fun r => 2 * r - 1) n n u,
         volumeOf (sv e) 1 ^ 2 * edgeMom s t (fun r => 2 * r - 1) n ((1 / Real.sqrt (∑ j, τ j ^ 2)) • τ) u,
         volumeOf (sv e) 1 ^ 2 * edgeMom s t (fun r => 6 * r ^ 2 - 6 * r + 1) n n u] := by
  obtain ⟨a, c, rfl, -⟩ := edge_data hs h
  have ht : normalizedTangent s e = some ((1 / Real.sqrt (∑ j, τ j ^ 2)) • τ) := by
    unfold normalizedTangent
    rw [hτ]; rfl
  obtain ⟨l0, a0, b0, c0⟩ := legendre_bi_spec hleg hs sv n n h (m := 0) (by norm_num)
  obtain ⟨l1, a1, b1, c1⟩ := legendre_bi_spec hleg hs sv n ((1 / Real.sqrt (∑ j, τ j ^ 2)) • τ) h (m := 0) (by norm_num)
  obtain ⟨l2, a2, b2, c2⟩ := legendre_bi_spec hleg hs sv n n h (m := 1) (by norm_num)
  obtain ⟨l3, a3, b3, c3⟩ := legendre_bi_spec hleg hs sv n ((1 / Real.sqrt (∑ j, τ j ^ 2)) • τ) h (m := 1) (by norm_num)
  obtain ⟨l4, a4, b4, c4⟩ := legendre_bi_spec hleg hs sv n n h (m := 2) (by norm_num)
  refine ⟨l0, l1, l2, l3, l4, ?_, ?_, ?_, fun u hu => ?_⟩
  · unfold awEdge legendreNN legendreNT
    simp only [hn, ht, Option.bind_some, a0, a1, a2, a3, Option.bind_eq_bind]
  · unfold legendreNN
    simp only [hn, Option.bind_some, a4]
  · simp only [List.forall_mem_cons]
    exact ⟨b0, b1, b2, b3, b4, by simp⟩
  · simp only [List.map_cons, List.map_nil, c0 u hu, c1 u hu, c2 u hu, c3 u hu, c4 u hu]
    have e0 : (fun r : ℝ => eval (fun _ : Fin 1 => r) (legPoly 0)) = fun _ => 1 := by funext r; simp [legPoly]
    have e1 : (fun r : ℝ => eval (fun _ : Fin 1 => r) (legPoly 1)) = fun r => 2 * r - 1 := by funext r; simp [legPoly]
    have e2 : (fun r : ℝ => eval (fun _ : Fin 1 => r) (legPoly 2)) = fun r => 6 * r ^ 2 - 6 * r + 1 := by funext r; simp [legPoly]
    rw [e0, e1, e2]

/-- The constant moments of the components. -/
theorem aw_interior_spec {gj : ℕ → ℕ → List ℝ} (hgj : NodesOK gj) (hs : ProperSimplex ℝ s) (ho : 0 < orientation fun i : Fin 3 => s.v i) (m : ℕ)
    (hm : 2 ≤ m) :
    ∃ l0 l1 l2, awInterior gj s m = some [l0, l1, l2] ∧ (∀ l ∈ [l0, l1, l2], PlainNode l) ∧
      ∀ u : Fin 2 × Fin 2 → MvPolynomial (Fin 2) ℝ, (∀ c, (u c).totalDegree ≤ 3) →
      [l0, l1, l2].map (fun l => l.onField (fieldC comp2 u)) =
        [∫ x in convexHull ℝ (Set.range fun i : Fin 3 => s.v i), eval x (u (0, 0)),
         ∫ x in convexHull ℝ (Set.range fun i : Fin 3 => s.v i), eval x (u (0, 1)),
         ∫ x in convexHull ℝ (Set.range fun i : Fin 3 => s.v i), eval x (u (1, 1))] := by
  have hverts : s.verts = List.ofFn fun i : Fin 3 => s.v i := verts_ofFn s hs.2.1 hs.1
  obtain ⟨Q, q1, q2, q3, q4⟩ := simplex_rule_spec hgj (D := 2) (by omega) (fun i : Fin 3 => s.v i) ho m (by omega)
  have q1' : simplexRule gj 2 s.verts m = some Q := by rw [hverts]; exact q1
  have hnd : ∀ b : (Fin 2 → ℝ) × (Fin 2 → ℝ), (((Q.pts.zip Q.wts).map fun q =>
      (q.1, q.2, fun (α : List ℕ) => vecNat b.1 (α.getD 0 0) * vecNat b.2 (α.getD 1 0))).map fun q => q.1).Nodup := by
    intro b
    rw [List.map_map]
    have : ((fun q : (Fin 2 → ℝ) × ℝ × (List ℕ → ℝ) => q.1) ∘ fun q : (Fin 2 → ℝ) × ℝ =>
        (q.1, q.2, fun (α : List ℕ) => vecNat b.1 (α.getD 0 0) * vecNat b.2 (α.getD 1 0))) = Prod.fst := rfl
    rw [this, List.map_fst_zip (by rw [q3])]
    exact q4
  have hval : ∀ (v w : Fin 2 → ℝ) (u : Fin 2 × Fin 2 → MvPolynomial (Fin 2) ℝ), (∀ c, (u c).totalDegree ≤ 3) →
      (frobeniusIntegralMoment [2, 2] ((Q.pts.zip Q.wts).map fun q =>
        (q.1, q.2, fun (α : List ℕ) => vecNat v (α.getD 0 0) * vecNat w (α.getD 1 0)))).onField (fieldC comp2 u) =
        ∫ x in convexHull ℝ (Set.range fun i : Fin 3 => s.v i), eval x (biC v w u) := by
    intro v w u hu
    unfold Functional.onField
    rw [frobenius_apply _ _ _ _ (hnd (v, w)), List.map_map, ← q2.1 (biC v w u) ((biC_degree v w hu).trans (by omega))]
    unfold QRule.integrate
    congr 1
    refine List.map_congr_left fun q _ => ?_
    simp only [Function.comp_apply]
    rw [eval_biC]
    congr 1
    have hi : (indexIterator [2, 2]).toFinset = {[0, 0], [0, 1], [1, 0], [1, 1]} := by decide
    rw [hi, Finset.sum_insert (by decide), Finset.sum_insert (by decide), Finset.sum_insert (by decide), Finset.sum_singleton]
    have f : ∀ i j : Fin 2, fieldC comp2 u [(i : ℕ), (j : ℕ)] = u (i, j) := fun i j => fieldC_apply comp2_injective u (i, j)
    have f00 : fieldC comp2 u [0, 0] = u (0, 0) := f 0 0
    have f01 : fieldC comp2 u [0, 1] = u (0, 1) := f 0 1
    have f10 : fieldC comp2 u [1, 0] = u (1, 0) := f 1 0
    have f11 : fieldC comp2 u [1, 1] = u (1, 1) := f 1 1
    simp only [f00, f01, f10, f11, List.getD_cons_zero, List.getD_cons_succ]
    have v0 : ∀ v : Fin 2 → ℝ, vecNat v 0 = v 0 := fun v => rfl
    have v1 : ∀ v : Fin 2 → ℝ, vecNat v 1 = v 1 := fun v => rfl
    simp only [v0, v1, quadForm, Fin.sum_univ_two]
    ring
  have hb : ∀ (i j : Fin 2) (v w : Fin 2 → ℝ), v = Pi.single i 1 → w = Pi.single j 1 → ∀ (u : Fin 2 × Fin 2 → MvPolynomial (Fin 2) ℝ) x,
      eval x (biC v w u) = eval x (u (i, j)) := by
    rintro i j v w rfl rfl u x
    rw [eval_biC, quadForm_entry]
  have s0 : (![1, 0] : Fin 2 → ℝ) = Pi.single 0 1 := by funext i; fin_cases i <;> simp
  have s1 : (![0, 1] : Fin 2 → ℝ) = Pi.single 1 1 := by funext i; fin_cases i <;> simp
  have e : awInterior gj s m = some (awBasis.map fun b => frobeniusIntegralMoment [2, 2] ((Q.pts.zip Q.wts).map fun q =>
      (q.1, q.2, fun (α : List ℕ) => vecNat b.1 (α.getD 0 0) * vecNat b.2 (α.getD 1 0)))) := by
    unfold awInterior
    rw [q1']; rfl
  rw [awBasis] at e
  simp only [List.map_cons, List.map_nil] at e
  refine ⟨_, _, _, e, ?_, fun u hu => ?_⟩
  · simp only [List.forall_mem_cons]
    exact ⟨plain_of_pt _ (fill_wf _ _ _ (hnd (_, _))), plain_of_pt _ (fill_wf _ _ _ (hnd (_, _))), plain_of_pt _ (fill_wf _ _ _ (hnd (_, _))), by simp⟩
  · simp only [List.map_cons, List.map_nil]
    rw [hval _ _ u hu, hval _ _ u hu, hval _ _ u hu]
    simp only [hb 0 0 _ _ s0 s0, hb 0 1 _ _ s0 s1, hb 1 1 _ _ s1 s1]

/-- A polynomial of degree two is orthogonal to the last three functions of the orthonormal sequence exactly if its degree is at most one. -/
theorem ortho_high {v : Fin 3 → Fin 2 → ℝ} {κ : ℝ} {φ : ℕ → MvPolynomial (Fin 2) ℝ} (h : OrthoSeq v κ φ) {p : MvPolynomial (Fin 2) ℝ}
    (hp : p.totalDegree ≤ 2) :
    (∀ k < 3, ∫ x in convexHull ℝ (Set.range v), eval x (φ (3 + k) * p) = 0) ↔ p.totalDegree ≤ 1 := by
  constructor
  · intro hz
    have hpr := h.project 2 p hp
    have hd : (κ • p).totalDegree ≤ 1 := by
      rw [← hpr]
      refine totalDegree_finsetSum_le fun l _ => ?_
      by_cases hl : (l : ℕ) < 3
      · exact (totalDegree_smul_le _ _).trans (h.degree (n := 1) hl)
      · have h6 : (2 + 2).choose 2 = 6 := by decide
        have hlt := l.2
        have := hz ((l : ℕ) - 3) (by omega)
        rw [show 3 + ((l : ℕ) - 3) = l by omega] at this
        rw [this, zero_smul]
        simp
    have e : p = κ⁻¹ • (κ • p) := by rw [smul_smul, inv_mul_cancel₀ h.pos.ne', one_smul]
    rw [e]
    exact (totalDegree_smul_le _ _).trans hd
  · intro h1 k hk
    have hm : p ∈ Submodule.span ℝ (Set.range fun i : Fin ((1 + 2).choose 2) => φ i) := by
      rw [h.span, mem_restrictTotalDegree]; exact h1
    obtain ⟨c, hc⟩ := (Submodule.mem_span_range_iff_exists_fun ℝ).1 hm
    have hx : ∀ x, eval x (φ (3 + k) * p) = ∑ i, c i * (eval x (φ (3 + k)) * eval x (φ i)) := by
      intro x
      rw [← hc, map_mul, map_sum, Finset.mul_sum]
      refine Finset.sum_congr rfl fun i _ => ?_
      rw [smul_eval]
      ring
    simp only [hx]
    rw [integral_finsetSum]
    · refine Finset.sum_eq_zero fun i _ => ?_
      rw [integral_const_mul, h.ortho, if_neg, mul_zero]
      have := i.2
      have h3 : (1 + 2).choose 2 = 3 := by decide
      omega
    · intro i _
      exact hull_integrable _ (continuous_const.mul ((φ (3 + k)).continuous_eval.mul (φ i).continuous_eval))

theorem tensor_divergence_wf (Q : List ((Fin 2 → ℝ) × ℝ × (ℕ → ℝ))) (hQ : (Q.map fun q => q.1).Nodup) :
    (integralMomentOfTensorDivergence 2 Q).WF 2 ∧ (Q ≠ [] → 0 < (integralMomentOfTensorDivergence 2 Q).maxDerivOrder) := by
  refine ⟨⟨by simp [integralMomentOfTensorDivergence, Dict.WF, Dict.keys], fill_wf _ _ _ hQ, ?_⟩, ?_⟩
  · unfold integralMomentOfTensorDivergence
    simp only
    rw [fillDict_eq _ _ _ hQ]
    intro xw hx wac hw
    obtain ⟨q, -, rfl⟩ := List.mem_map.1 hx
    obtain ⟨i, -, hi⟩ := List.mem_flatMap.1 hw
    obtain ⟨j, -, rfl⟩ := List.mem_map.1 hi
    simp [unitAlpha]
  · intro hne
    obtain ⟨q, Q, rfl⟩ := List.exists_cons_of_ne_nil hne
    unfold integralMomentOfTensorDivergence Functional.maxDerivOrder
    simp only
    rw [fillDict_eq _ _ _ hQ]
    simp [List.range_succ, unitAlpha]

/-- The divergence constraints. -/
theorem aw_constraints_spec {gj : ℕ → ℕ → List ℝ} (hgj : NodesOK gj) (hs : ProperSimplex ℝ s) (ho : 0 < orientation fun i : Fin 3 => s.v i) :
    ∃ ls, awConstraints gj s = some ls ∧ ls.length = 6 ∧ (∀ l ∈ ls, l.WF 2) ∧ (∃ l ∈ ls, 0 < l.maxDerivOrder) ∧
      ∀ u : Fin 2 × Fin 2 → MvPolynomial (Fin 2) ℝ, (∀ c, (u c).totalDegree ≤ 3) →
        ((∀ l ∈ ls, l.onField (fieldC comp2 u) = 0) ↔ ∀ i, (divP fun j => u (i, j)).totalDegree ≤ 1) := by
  have hind := proper_independent hs
  have hverts : s.verts = List.ofFn fun i : Fin 3 => s.v i := verts_ofFn s hs.2.1 hs.1
  obtain ⟨φ, f1, f2⟩ := orthoSeq_exists (D := 2) (by omega) _ hind (edge_det_ne hind)
  obtain ⟨mats, m1, m2, m3⟩ := on_set_of_table (by omega) s hs (fun h => by omega) 2 φ (f1 2 (Or.inr (by omega)))
    (fun n _ => ⟨f2.indep n, f2.span n⟩)
  obtain ⟨Q, q1, q2, q3, q4⟩ := simplex_rule_spec hgj (D := 2) (by omega) (fun i : Fin 3 => s.v i) ho 5 (by norm_num)
  have q1' : simplexRule gj 2 s.verts 5 = some Q := by rw [hverts]; exact q1
  have hlen : (onVectorRows ((2 + 2).choose 2) 2).length = 12 := onVectorRows_length ((2 + 2).choose 2) 2
  obtain ⟨T, t1, t2⟩ := values_spec (by omega) (fun i : Fin ((2 + 2).choose 2) => φ i)
    (PolySet.ofRows 2 (expTab s.verts 2) mats (onVectorRows ((2 + 2).choose 2) 2)) rfl m2 m3 Q.pts
  let table : ℕ → List ((Fin 2 → ℝ) × ℝ × (ℕ → ℝ)) := fun i => (Q.pts.zip Q.wts).zipIdx.map fun q =>
    (q.1.1, q.1.2, vecNat fun c : Fin 2 => if h : i < (onVectorRows ((2 + 2).choose 2) 2).length then T ⟨i, h⟩ c q.2 else 0)
  have hnd : ∀ i, ((table i).map fun q => q.1).Nodup := by
    intro i
    simp only [table]
    rw [List.map_map]
    have e : ((fun q : (Fin 2 → ℝ) × ℝ × (ℕ → ℝ) => q.1) ∘ fun q : ((Fin 2 → ℝ) × ℝ) × ℕ =>
      (q.1.1, q.1.2, vecNat fun c : Fin 2 => if h : i < (onVectorRows ((2 + 2).choose 2) 2).length then T ⟨i, h⟩ c q.2 else 0)) =
        (fun q => q.1) ∘ fun q => q.1 := rfl
    rw [e, ← List.map_map, List.zipIdx_map_fst, List.map_fst_zip (by rw [q3])]
    exact q4
  have hcons : awConstraints gj s = some ([3, 4, 5, 9, 10, 11].map fun i => integralMomentOfTensorDivergence 2 (table i)) := by
    have h1 : onVectorSet s 2 = some ⟨_, PolySet.ofRows 2 (expTab s.verts 2) mats (onVectorRows ((2 + 2).choose 2) 2)⟩ := by
      unfold onVectorSet
      rw [m1]; rfl
    unfold awConstraints
    simp only [q1', h1, t1, Option.bind_eq_bind, Option.bind_some]
    rw [show List.range' 3 3 ++ List.range' 9 3 = [3, 4, 5, 9, 10, 11] by decide]
    refine mapM_some_map _ _ _ ?_
    intro i hi
    have hi' : i < (onVectorRows ((2 + 2).choose 2) 2).length := by
      rw [hlen]
      simp only [List.mem_cons, List.not_mem_nil, or_false] at hi
      omega
    rw [dif_pos hi']
    simp only [table, dif_pos hi']
  have hval : ∀ (i : Fin 2) (k : ℕ), k < 6 → ∀ u : Fin 2 × Fin 2 → MvPolynomial (Fin 2) ℝ, (∀ c, (u c).totalDegree ≤ 3) →
      (integralMomentOfTensorDivergence 2 (table (i * 6 + k))).onField (fieldC comp2 u) =
        ∫ x in convexHull ℝ (Set.range fun i : Fin 3 => s.v i), eval x (φ k * divP fun j => u (i, j)) := by
    intro i k hk u hu
    have hi' : (i : ℕ) * 6 + k < (onVectorRows ((2 + 2).choose 2) 2).length := by rw [hlen]; have := i.2; omega
    have hrow : ∀ (c : Fin 2) (j : ℕ) x, Q.pts[j]? = some x → T ⟨i * 6 + k, hi'⟩ c j = if c = i then eval x (φ k) else 0 := by
      intro c j x hx
      rw [t2 _ c j x hx, ofRows_member]
      have h2 := onVectorRows_get ((2 + 2).choose 2) 2 i k i.2 hk
      have h2' : (onVectorRows ((2 + 2).choose 2) 2)[(i : ℕ) * 6 + k]? = some (unitRow 2 ((2 + 2).choose 2) i k) := h2
      rw [List.getElem?_eq_getElem hi', Option.some.injEq] at h2'
      have hk' : k < (2 + 2).choose 2 := hk
      rw [List.get_eq_getElem, h2', rowField_unitRow φ _ _ i.2 hk']
      unfold unitField
      rw [Pi.single_apply]
      split <;> simp
    unfold Functional.onField
    rw [moment_of_tensor_divergence_apply _ _ _ (hnd _)]
    have hdeg : (φ k * divP fun j => u (i, j)).totalDegree ≤ 2 * 5 - 1 := by
      have h1 := f2.degree (n := 2) (i := k) hk
      have h2 := divP_degree (w := fun j => u (i, j)) fun j => hu _
      exact (totalDegree_mul _ _).trans (by omega)
    rw [← q2.1 _ hdeg]
    simp only [table, dif_pos hi']
    rw [List.map_map]
    refine sum_zip_values Q.pts Q.wts q3 (fun x => eval x (φ k * divP fun j => u (i, j)))
      (fun x w j => w * ∑ i' ∈ Finset.range 2, vecNat (fun c : Fin 2 => T ⟨i * 6 + k, hi'⟩ c j) i' *
        ∑ j' ∈ Finset.range 2, eval x (iterDeriv (unitAlpha 2 j') (fieldC comp2 u [i', j']))) ?_
    intro j x w hx
    congr 1
    rw [Finset.sum_range, Finset.sum_eq_single i]
    · have hv : ∀ (v : Fin 2 → ℝ) (i : Fin 2), vecNat v i = v i := fun v i => by fin_cases i <;> rfl
      rw [hv, hrow _ _ _ hx, if_pos rfl, map_mul]
      congr 1
      rw [Finset.sum_range]
      unfold divP
      rw [map_sum]
      refine Finset.sum_congr rfl fun j' _ => ?_
      rw [iterDeriv_unit]
      have : fieldC comp2 u [(i : ℕ), (j' : ℕ)] = u (i, j') := fieldC_apply comp2_injective u (i, j')
      rw [this]
    · intro i' _ hi
      have hv : ∀ (v : Fin 2 → ℝ) (i : Fin 2), vecNat v i = v i := fun v i => by fin_cases i <;> rfl
      rw [hv, hrow _ _ _ hx, if_neg hi, zero_mul]
    · simp
  refine ⟨_, hcons, rfl, ?_, ?_, fun u hu => ?_⟩
  · intro l hl
    obtain ⟨i, -, rfl⟩ := List.mem_map.1 hl
    exact (tensor_divergence_wf _ (hnd i)).1
  · refine ⟨_, List.mem_map_of_mem (List.mem_cons_self), (tensor_divergence_wf _ (hnd 3)).2 ?_⟩
    intro hnil
    have hp : Q.pts = [] := by
      have h1 : (Q.pts.zip Q.wts) = [] := by
        simpa [table] using hnil
      have h2 := List.map_fst_zip (l₁ := Q.pts) (l₂ := Q.wts) (by rw [q3])
      rw [h1] at h2
      exact h2.symm
    have := q2.1 (φ 0 * φ 0) (by
      have h1 := f2.degree (n := 2) (i := 0) (by decide)
      exact (totalDegree_mul _ _).trans (by omega))
    simp only [map_mul, f2.ortho 0 0, if_pos] at this
    have hpos := f2.pos
    rw [← this] at hpos
    simp [QRule.integrate, hp] at hpos
  · rw [List.forall_mem_map]
    have h0 := ortho_high f2 (p := divP fun j => u (0, j)) (divP_degree fun j => hu _)
    have h1 := ortho_high f2 (p := divP fun j => u (1, j)) (divP_degree fun j => hu _)
    constructor
    · intro hz i
      have hcase : i = 0 ∨ i = 1 := by fin_cases i <;> simp
      rcases hcase with rfl | rfl
      · refine h0.1 fun k hk => ?_
        rw [← hval 0 (3 + k) (by omega) u hu]
        apply hz
        obtain rfl | rfl | rfl : k = 0 ∨ k = 1 ∨ k = 2 := by omega
        all_goals simp
      · refine h1.1 fun k hk => ?_
        rw [← hval 1 (3 + k) (by omega) u hu]
        apply hz
        obtain rfl | rfl | rfl : k = 0 ∨ k = 1 ∨ k = 2 := by omega
        all_goals simp
    · intro hd i hi
      have z0 := h0.2 (hd 0)
      have z1 := h1.2 (hd 1)
      simp only [List.mem_cons, List.not_mem_nil, or_false] at hi
      rcases hi with rfl | rfl | rfl | rfl | rfl | rfl
      · exact (hval 0 3 (by omega) u hu).trans (z0 0 (by omega))
      · exact (hval 0 4 (by omega) u hu).trans (z0 1 (by omega))
      · exact (hval 0 5 (by omega) u hu).trans (z0 2 (by omega))
      · exact (hval 1 3 (by omega) u hu).trans (z1 0 (by omega))
      · exact (hval 1 4 (by omega) u hu).trans (z1 1 (by omega))
      · exact (hval 1 5 (by omega) u hu).trans (z1 2 (by omega))

end
end FIAT
