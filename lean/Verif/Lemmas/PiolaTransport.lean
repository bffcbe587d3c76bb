/-
C89: Raviart-Thomas, Brezzi-Douglas-Marini and Nedelec duals on a cell and on its image under an affine map.
-/
import Verif.Model.Mapping
import Verif.Lemmas.Transport
import Verif.Props.ConformDiv
import Verif.Props.ConformCurl2
import Verif.Props.ConformUfc

namespace FIAT
open MvPolynomial
section
variable {D : ℕ}

/-- Specification: the vector `u'` at the image of a point is the push-forward, under the named mapping, of the vector `u` at the point. -/
def Pushes (mapping : PullBack) (A : Matrix (Fin D) (Fin D) ℝ) (u u' : Fin D → ℝ) : Prop :=
  match mapping with
  | .affine => u' = u
  | .contravariant => u' = A.det⁻¹ • A.mulVec u
  | .covariant => u' = A⁻¹.transpose.mulVec u
  | .other => False

variable {A : Matrix (Fin D) (Fin D) ℝ} {b : Fin D → ℝ} {s s' : SimplexCell (Fin D → ℝ)}

theorem pushes_covariant (hA : A.det ≠ 0) (u u' : Fin D → ℝ) : Pushes .covariant A u u' ↔ u = A.transpose.mulVec u' := by
  have hu : IsUnit A.det := isUnit_iff_ne_zero.2 hA
  unfold Pushes
  constructor
  · rintro rfl
    rw [Matrix.mulVec_mulVec, ← Matrix.transpose_mul, Matrix.nonsing_inv_mul _ hu, Matrix.transpose_one, Matrix.one_mulVec]
  · rintro rfl
    change u' = A⁻¹.transpose.mulVec (A.transpose.mulVec u')
    rw [Matrix.mulVec_mulVec, ← Matrix.transpose_mul, Matrix.mul_nonsing_inv _ hu, Matrix.transpose_one, Matrix.one_mulVec]

theorem pushes_contravariant (hA : A.det ≠ 0) (u u' : Fin D → ℝ) : Pushes .contravariant A u u' ↔ u = A.det • A⁻¹.mulVec u' := by
  have hu : IsUnit A.det := isUnit_iff_ne_zero.2 hA
  unfold Pushes
  constructor
  · rintro rfl
    rw [Matrix.mulVec_smul, smul_smul, mul_inv_cancel₀ hA, one_smul, Matrix.mulVec_mulVec, Matrix.nonsing_inv_mul _ hu, Matrix.one_mulVec]
  · rintro rfl
    change u' = A.det⁻¹ • A.mulVec (A.det • A⁻¹.mulVec u')
    rw [Matrix.mulVec_smul, smul_smul, inv_mul_cancel₀ hA, one_smul, Matrix.mulVec_mulVec, Matrix.mul_nonsing_inv _ hu, Matrix.one_mulVec]

/-- The field whose contravariant push-forward is `w`. -/
noncomputable def conPull (A : Matrix (Fin D) (Fin D) ℝ) (b : Fin D → ℝ) (w : Fin D → MvPolynomial (Fin D) ℝ) : Fin D → MvPolynomial (Fin D) ℝ :=
  fun c => ∑ l, C (A.det * A⁻¹ c l) * pullCell A b (w l)

theorem eval_conPull (A : Matrix (Fin D) (Fin D) ℝ) (b : Fin D → ℝ) (w : Fin D → MvPolynomial (Fin D) ℝ) (c : Fin D) (x : Fin D → ℝ) :
    eval x (conPull A b w c) = ∑ l, A.det * A⁻¹ c l * eval (cellMap A b x) (w l) := by
  unfold conPull
  rw [map_sum]
  exact Finset.sum_congr rfl fun l _ => by rw [map_mul, eval_C, eval_pullCell]

theorem pushes_con_iff (hA : A.det ≠ 0) (b : Fin D → ℝ) (w w' : Fin D → MvPolynomial (Fin D) ℝ) :
    (∀ x, Pushes .contravariant A (fun j => eval x (w j)) fun j => eval (cellMap A b x) (w' j)) ↔ w = conPull A b w' := by
  simp only [pushes_contravariant hA]
  constructor
  · intro h
    funext c
    refine MvPolynomial.funext fun x => ?_
    rw [eval_conPull]
    refine (congrFun (h x) c).trans ?_
    rw [Pi.smul_apply, smul_eq_mul, Matrix.mulVec, dotProduct, Finset.mul_sum]
    exact Finset.sum_congr rfl fun l _ => by ring
  · rintro rfl x
    funext c
    beta_reduce
    rw [eval_conPull, Pi.smul_apply, smul_eq_mul, Matrix.mulVec, dotProduct, Finset.mul_sum]
    exact Finset.sum_congr rfl fun l _ => by ring

theorem pushes_cov_iff (hA : A.det ≠ 0) (b : Fin D → ℝ) (w w' : Fin D → MvPolynomial (Fin D) ℝ) :
    (∀ x, Pushes .covariant A (fun j => eval x (w j)) fun j => eval (cellMap A b x) (w' j)) ↔ w = tangPull (affVerts A b) w' := by
  simp only [pushes_covariant hA]
  constructor
  · intro h
    funext c
    refine MvPolynomial.funext fun x => ?_
    rw [eval_affPull]
    exact congrFun (h x) c
  · rintro rfl x
    funext c
    beta_reduce
    rw [eval_affPull]
    rfl

/-- The Raviart-Thomas space is carried to itself. -/
theorem conPull_rt (hA : A.det ≠ 0) (b : Fin D → ℝ) {k : ℕ} {w : Fin D → MvPolynomial (Fin D) ℝ} (hw : IsRT k w) : IsRT k (conPull A b w) := by
  have hu : IsUnit A.det := isUnit_iff_ne_zero.2 hA
  obtain ⟨p, q, hp, hq, hw⟩ := hw
  refine ⟨fun c => ∑ l, C (A.det * A⁻¹ c l) * (pullCell A b (p l) + C (b l) * pullCell A b q), C A.det * pullCell A b q, fun c => ?_, ?_, fun c => ?_⟩
  · refine totalDegree_finsetSum_le fun l _ => (totalDegree_mul _ _).trans ?_
    rw [totalDegree_C, zero_add]
    refine (totalDegree_add _ _).trans (max_le ((degree_pullCell _ _ _).trans (hp l)) ((totalDegree_mul _ _).trans ?_))
    rw [totalDegree_C, zero_add]
    exact (degree_pullCell _ _ _).trans hq
  · refine (totalDegree_mul _ _).trans ?_
    rw [totalDegree_C, zero_add]
    exact (degree_pullCell _ _ _).trans hq
  · refine MvPolynomial.funext fun x => ?_
    rw [eval_conPull, map_add, map_sum, map_mul, map_mul, eval_X, eval_C, eval_pullCell]
    have h1 : ∑ l, A⁻¹ c l * (A.mulVec x) l = x c := by
      have : (A⁻¹.mulVec (A.mulVec x)) c = x c := by rw [Matrix.mulVec_mulVec, Matrix.nonsing_inv_mul _ hu, Matrix.one_mulVec]
      exact this
    have h2 : ∀ l, eval (cellMap A b x) (w l) = eval (cellMap A b x) (p l) + ((A.mulVec x) l + b l) * eval (cellMap A b x) q := by
      intro l
      rw [hw l, map_add, map_mul, eval_X]
      rfl
    simp only [map_mul, map_add, eval_C, eval_pullCell, h2]
    rw [← h1, Finset.sum_mul, ← Finset.sum_add_distrib]
    exact Finset.sum_congr rfl fun l _ => by ring

theorem conPull_full (A : Matrix (Fin D) (Fin D) ℝ) (b : Fin D → ℝ) {k : ℕ} {w : Fin D → MvPolynomial (Fin D) ℝ} (hw : FullDeg k w) :
    FullDeg k (conPull A b w) := fun c => by
  refine totalDegree_finsetSum_le fun l _ => (totalDegree_mul _ _).trans ?_
  rw [totalDegree_C, zero_add]
  exact (degree_pullCell _ _ _).trans (hw l)

theorem tangPull_aff (A : Matrix (Fin D) (Fin D) ℝ) (b : Fin D → ℝ) {d : ℕ} (vc : Fin (d + 1) → Fin D → ℝ) (w : Fin D → MvPolynomial (Fin D) ℝ) :
    tangPull vc (tangPull (affVerts A b) w) = tangPull (fun j => cellMap A b (vc j)) w := by
  funext a
  refine MvPolynomial.funext fun y => ?_
  rw [eval_tangPull, eval_tangPull, dot_affPull, cellMap_entMap]

theorem normPull_con (A : Matrix (Fin D) (Fin D) ℝ) (b : Fin D → ℝ) {d : ℕ} (vc : Fin (d + 1) → Fin D → ℝ) (n : Fin D → ℝ)
    (w : Fin D → MvPolynomial (Fin D) ℝ) :
    normPull vc n (conPull A b w) = normPull (fun j => cellMap A b (vc j)) (physNormal A n) w := by
  refine MvPolynomial.funext fun y => ?_
  rw [eval_normPull, eval_normPull]
  simp only [eval_conPull, Finset.mul_sum]
  rw [Finset.sum_comm]
  refine Finset.sum_congr rfl fun l _ => ?_
  rw [cellMap_entMap]
  have : physNormal A n l = ∑ j, n j * (A.det * A⁻¹ j l) := by
    unfold physNormal
    rw [Pi.smul_apply, smul_eq_mul, Matrix.mulVec, dotProduct, Finset.mul_sum]
    exact Finset.sum_congr rfl fun j _ => by rw [Matrix.transpose_apply]; ring
  rw [this, Finset.sum_mul]
  exact Finset.sum_congr rfl fun j _ => by ring

theorem emptyLoop_map (h : MappedCell A b s s') (dims : List ℕ) (ids : EntityIds ℕ) : emptyLoop s' dims ids = emptyLoop s dims ids := by
  simp only [emptyLoop, numEnts, h.topo]

theorem sameLoop_map (h : MappedCell A b s s') (dim n : ℕ) (st : ℕ × EntityIds ℕ) : sameLoop s' dim n st = sameLoop s dim n st := by
  simp only [sameLoop, numEnts, h.topo]

theorem facetIds_map (h : MappedCell A b s s') (degree : ℕ) (internal : Option ℕ) : facetIds s' degree internal = facetIds s degree internal := by
  unfold facetIds
  rw [emptyLoop_map h, makePoints_map h]
  cases emptyLoop s (List.range (D - 1)) [] with
  | none => rfl
  | some ids =>
    cases makePoints ℝ s (D - 1) 0 (D + degree) with
    | none => rfl
    | some pts =>
      simp only [Option.bind_eq_bind, Option.bind_some, Option.map_some, List.length_map, sameLoop_map h]

/-- The dofs of all entities but the cell are carried. -/
def TraceNodes (R : (Fin D → MvPolynomial (Fin D) ℝ) → Fin D → MvPolynomial (Fin D) ℝ) (nodes nodes' : List (Functional ℝ (Fin D → ℝ))) (l : List ℕ) :
    Prop := ∀ i ∈ l, ∃ a a', nodes[i]? = some a ∧ nodes'[i]? = some a' ∧ ∀ w, a.onField (fieldOf (R w)) = a'.onField (fieldOf w)

theorem traceNodes_of_values {R : (Fin D → MvPolynomial (Fin D) ℝ) → Fin D → MvPolynomial (Fin D) ℝ} {nodes nodes' : List (Functional ℝ (Fin D → ℝ))}
    {ids : EntityIds ℕ} {d e : ℕ} {l : List ℕ} (hl : ids.at? d e = some l) (vals : (Fin D → MvPolynomial (Fin D) ℝ) → List ℝ)
    (h : ∀ w, DofValues nodes ids (fun a => a.onField (fieldOf (R w))) d e (vals w))
    (h' : ∀ w, DofValues nodes' ids (fun a => a.onField (fieldOf w)) d e (vals w)) : TraceNodes R nodes nodes' l := by
  intro i hi
  have key : ∀ w, (nodes[i]?).map (fun a => a.onField (fieldOf (R w))) = (nodes'[i]?).map (fun a => a.onField (fieldOf w)) ∧ (nodes[i]?).isSome ∧ (nodes'[i]?).isSome := by
    intro w
    obtain ⟨l1, e1, v1⟩ := h w
    obtain ⟨l2, e2, v2⟩ := h' w
    rw [hl, Option.some.injEq] at e1 e2
    subst e1 e2
    have e := v1.trans v2.symm
    rw [List.map_inj_left] at e
    have m1 : (nodes[i]?).map (fun a => a.onField (fieldOf (R w))) ∈ (vals w).map some := by rw [← v1]; exact List.mem_map.2 ⟨i, hi, rfl⟩
    have m2 : (nodes'[i]?).map (fun a => a.onField (fieldOf w)) ∈ (vals w).map some := by rw [← v2]; exact List.mem_map.2 ⟨i, hi, rfl⟩
    obtain ⟨x, -, hx⟩ := List.mem_map.1 m1
    obtain ⟨y, -, hy⟩ := List.mem_map.1 m2
    refine ⟨e i hi, ?_, ?_⟩
    · cases hn : nodes[i]? with
      | none => rw [hn] at hx; cases hx
      | some _ => rfl
    · cases hn : nodes'[i]? with
      | none => rw [hn] at hy; cases hy
      | some _ => rfl
  obtain ⟨a, ha⟩ := Option.isSome_iff_exists.1 (key 0).2.1
  obtain ⟨a', ha'⟩ := Option.isSome_iff_exists.1 (key 0).2.2
  refine ⟨a, a', ha, ha', fun w => ?_⟩
  have := (key w).1
  rw [ha, ha'] at this
  exact Option.some.inj this

theorem curl_trace_nodes (hs : ProperSimplex ℝ s) (h : MappedCell A b s s') {Φ : (d : ℕ) → (Fin d → MvPolynomial (Fin d) ℝ) → List ℝ}
    {nodes nodes' : List (Functional ℝ (Fin D → ℝ))} {ids : EntityIds ℕ} (hn : CurlNatural s nodes ids Φ) (hn' : CurlNatural s' nodes' ids Φ)
    {V : (Fin D → MvPolynomial (Fin D) ℝ) → Prop} {n : ℕ → ℕ} (hd : HCurlDofs s V n nodes ids) {d e : ℕ} {l : List ℕ} (hl : ids.at? d e = some l)
    (hdD : d < D) : TraceNodes (tangPull (affVerts A b)) nodes nodes' l := by
  obtain ⟨t, ht⟩ := (hd.same d e).1 (by rw [hl]; rfl)
  by_cases h0 : d = 0
  · obtain ⟨l', e1, e2⟩ := hd.count d e t ht
    rw [hl, Option.some.injEq] at e1
    subst e1
    rw [if_pos h0, List.length_eq_zero_iff] at e2
    rw [e2]
    intro i hi
    cases hi
  obtain ⟨τ, t1, t2, rfl, -⟩ := entity_tuple hs ht
  refine traceNodes_of_values hl (fun w => Φ d (tangPull (fun j => s'.v (τ j)) w)) (fun w => ?_) fun w => hn' d e τ (by omega) hdD (by rw [h.topo]; exact ht) w
  have := hn d e τ (by omega) hdD ht (tangPull (affVerts A b) w)
  rw [tangPull_aff] at this
  have hv : (fun j => s'.v (τ j)) = fun j => cellMap A b (s.v (τ j)) := by
    funext j
    exact h.v (by rw [hs.2.1.nverts, hs.1]; exact t2 j)
  rw [hv]
  exact this

theorem div_trace_nodes (hs : ProperSimplex ℝ s) (h : MappedCell A b s s') {nrm nrm' : ℕ → Option (Fin D → ℝ)} (hnrm : FacetNormals s nrm)
    (hnn : ∀ e t n, HasEntity s.topo (D - 1) e t → nrm e = some n → nrm' e = some (physNormal A n)) {Φ : MvPolynomial (Fin (D - 1)) ℝ → List ℝ}
    {nodes nodes' : List (Functional ℝ (Fin D → ℝ))} {ids : EntityIds ℕ} (hn : DivNatural s nrm nodes ids Φ) (hn' : DivNatural s' nrm' nodes' ids Φ)
    {V : (Fin D → MvPolynomial (Fin D) ℝ) → Prop} {nf nc : ℕ} (hd : HDivDofs s nrm V nf nc nodes ids) {d e : ℕ} {l : List ℕ} (hl : ids.at? d e = some l)
    (hdD : d < D) : TraceNodes (conPull A b) nodes nodes' l := by
  obtain ⟨t, ht⟩ := (hd.same d e).1 (by rw [hl]; rfl)
  by_cases h0 : d + 1 < D
  · have := hd.other d e t ht h0
    rw [hl, Option.some.injEq] at this
    rw [this]
    intro i hi
    cases hi
  obtain rfl : d = D - 1 := by omega
  obtain ⟨τ, t1, t2, rfl, -⟩ := entity_tuple hs ht
  obtain ⟨n, hne, -⟩ := hnrm e _ ht
  refine traceNodes_of_values hl (fun w => Φ (normPull (fun j => s'.v (τ j)) (physNormal A n) w)) (fun w => ?_)
    fun w => hn' e τ _ (by rw [h.topo]; exact ht) (hnn e _ n ht hne) w
  have := hn e τ n ht hne (conPull A b w)
  rw [normPull_con] at this
  have hv : (fun j => s'.v (τ j)) = fun j => cellMap A b (s.v (τ j)) := by
    funext j
    exact h.v (by rw [hs.2.1.nverts, hs.1]; exact t2 j)
  rw [hv]
  exact this

theorem rot_pushed {A : Matrix (Fin 2) (Fin 2) ℝ} (hA : A.det ≠ 0) (b u v : Fin 2 → ℝ) :
    physNormal A ![v 1 - u 1, -(v 0 - u 0)] =
      ![cellMap A b v 1 - cellMap A b u 1, -(cellMap A b v 0 - cellMap A b u 0)] := by
  rw [physNormal_adj hA, Matrix.adjugate_fin_two]
  funext i
  fin_cases i <;>
  · simp [cellMap, Matrix.mulVec, dotProduct, Fin.sum_univ_two]
    ring

theorem cross_pushed {A : Matrix (Fin 3) (Fin 3) ℝ} (hA : A.det ≠ 0) (b u v w : Fin 3 → ℝ) :
    physNormal A (-cross (v - u) (w - u)) = -cross (cellMap A b v - cellMap A b u) (cellMap A b w - cellMap A b u) := by
  rw [physNormal_adj hA, Matrix.adjugate_fin_three]
  funext i
  fin_cases i <;>
  · simp [cellMap, cross, Matrix.mulVec, dotProduct, Fin.sum_univ_three]
    ring

/-- The scaled normals of the image of a cell. -/
theorem scaled_normal_mapped (hD : D = 2 ∨ D = 3) (hs : ProperSimplex ℝ s) {sv sv' : ℕ → List ℝ}
    (hv : FacetVolumes s sv) (hv' : FacetVolumes s' sv') (h : MappedCell A b s s') {e : ℕ} {t : List ℕ} (ht : HasEntity s.topo (D - 1) e t) :
    ∃ n, ufcScaledNormal s sv e = some n ∧ ufcScaledNormal s' sv' e = some (physNormal A n) := by
  have hs' := h.proper hs
  have ht' : HasEntity s'.topo (D - 1) e t := by rw [h.topo]; exact ht
  obtain ⟨τ, t1, t2, rfl, t4⟩ := entity_tuple hs ht
  have hV : ∀ j, s'.v (τ j) = cellMap A b (s.v (τ j)) := fun j => h.v (by rw [hs.2.1.nverts, hs.1]; exact t2 j)
  rcases hD with rfl | rfl
  · refine ⟨_, ufc_scaled_two hs hv ht, ?_⟩
    rw [rot_pushed h.regular b, ufc_scaled_two hs' hv' ht']
    have h0 := hV 0
    have h1 := hV 1
    rw [h0, h1]
  · refine ⟨_, ufc_scaled_three hs hv ht, ?_⟩
    rw [cross_pushed h.regular b, ufc_scaled_three hs' hv' ht']
    have h0 := hV 0
    have h1 := hV 1
    have h2 := hV 2
    rw [h0, h1, h2]

end
end FIAT
