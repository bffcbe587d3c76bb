/-
C23, C72: the singular values of the lowest order Raviart-Thomas and Nedelec spaces on the UFC tetrahedron are far above the
threshold of `polynomial_set_union_normalized`, so the hypotheses of `raviart_thomas_spec` and `nedelec_spec` are met there.
-/
import Verif.Props.NedelecExample

namespace FIAT
open MvPolynomial MeasureTheory
section

theorem tet_verts : (fun i : Fin (3 + 1) => ((ufcTetrahedron : CellData ℝ).toSimplex 3).v i) = ufcVerts ℝ 3 := by
  funext i l
  fin_cases i <;> fin_cases l <;> rfl

theorem tet_orientation : orientation (ufcVerts ℝ 3) = 1 := by
  unfold orientation
  have : (Matrix.of fun i j : Fin 3 => ufcVerts ℝ 3 j.succ i - ufcVerts ℝ 3 0 i) = 1 := by
    ext i j
    simp [ufcVerts, Matrix.one_apply]
  rw [this, Matrix.det_one]

/-- The integral over the UFC tetrahedron as a linear form. -/
noncomputable def tetInt : MvPolynomial (Fin 3) ℝ →ₗ[ℝ] ℝ where
  toFun p := ∫ x in convexHull ℝ (Set.range (ufcVerts ℝ 3)), eval x p
  map_add' p q := by
    simp only [map_add]
    exact integral_add (integrable_hull _ _ p.continuous_eval) (integrable_hull _ _ q.continuous_eval)
  map_smul' a p := by
    simp only [smul_eval, RingHom.id_apply, smul_eq_mul]
    exact integral_const_mul _ _

theorem tet_moments : tetInt 1 = 1 / 6 ∧ (∀ i : Fin 3, tetInt (X i) = 1 / 24) ∧
    ∀ i j : Fin 3, tetInt (X i * X j) = if i = j then 1 / 60 else 1 / 120 := by
  have hv : ufcVerts ℝ 3 = ufcVert 3 := by
    funext i l
    fin_cases i <;> fin_cases l <;> rfl
  refine ⟨?_, fun p => ?_, fun p q => ?_⟩
  · show ∫ x in convexHull ℝ (Set.range (ufcVerts ℝ 3)), eval x 1 = _
    rw [hv]
    have h0 := ufc_monomial 3 (fun _ => 0)
    simp [Nat.factorial] at h0 ⊢; linarith
  · show ∫ x in convexHull ℝ (Set.range (ufcVerts ℝ 3)), eval x (X p) = _
    rw [hv]
    have h1 := ufc_monomial 3 (fun i => if i = p then 1 else 0)
    fin_cases p <;> (simp [Fin.prod_univ_three, Fin.sum_univ_three, Nat.factorial] at h1 ⊢; linarith)
  · show ∫ x in convexHull ℝ (Set.range (ufcVerts ℝ 3)), eval x (X p * X q) = _
    rw [hv]
    have h2 := ufc_monomial 3 (fun i => (if i = p then 1 else 0) + if i = q then 1 else 0)
    fin_cases p <;> fin_cases q <;>
      (simp [Fin.prod_univ_three, Fin.sum_univ_three, Nat.factorial, pow_two] at h2 ⊢
       first
         | linarith
         | (rw [show (fun x : Fin 3 → ℝ => x 1 * x 0) = fun x => x 0 * x 1 from _root_.funext fun x => mul_comm _ _]; linarith)
         | (rw [show (fun x : Fin 3 → ℝ => x 2 * x 0) = fun x => x 0 * x 2 from _root_.funext fun x => mul_comm _ _]; linarith)
         | (rw [show (fun x : Fin 3 → ℝ => x 2 * x 1) = fun x => x 1 * x 2 from _root_.funext fun x => mul_comm _ _]; linarith))

theorem tet_square (f a : ℝ) (g : Fin 3 → ℝ) :
    tetInt ((C f * (C a + C (1 / 8) * ∑ q, C (g q) * X q)) ^ 2) = f ^ 2 / 6 * ((a + (g 0 + g 1 + g 2) / 32) ^ 2 +
      (3 * (g 0 ^ 2 + g 1 ^ 2 + g 2 ^ 2) - 2 * (g 0 * g 1 + g 0 * g 2 + g 1 * g 2)) / 5120) := by
  have e : (C f * (C a + C (1 / 8) * ∑ q, C (g q) * X q)) ^ 2 = ((f ^ 2 * a ^ 2 : ℝ) • (1 : MvPolynomial (Fin 3) ℝ)) +
      ∑ q, (f ^ 2 * a * g q / 4) • X q + ∑ p, ∑ q, (f ^ 2 * (g p * g q) / 64) • (X p * X q) := by
    have h8 : (C (1 / 8 : ℝ) : MvPolynomial (Fin 3) ℝ) * 8 = 1 := by
      rw [show (8 : MvPolynomial (Fin 3) ℝ) = C 8 from (map_ofNat C 8).symm, ← C_mul]; norm_num
    have h4 : ∀ t : ℝ, (C (t / 4) : MvPolynomial (Fin 3) ℝ) = C t * (2 * C (1 / 8)) := fun t => by
      rw [show (2 : MvPolynomial (Fin 3) ℝ) = C 2 from (map_ofNat C 2).symm, ← C_mul, ← C_mul]; congr 1; ring
    have h64 : ∀ t : ℝ, (C (t / 64) : MvPolynomial (Fin 3) ℝ) = C t * (C (1 / 8) * C (1 / 8)) := fun t => by
      rw [← C_mul, ← C_mul]; congr 1; ring
    simp only [smul_eq_C_mul, Fin.sum_univ_three, h4, h64, C_mul, C_pow]
    ring
  rw [e, map_add, map_add, map_sum, map_sum]
  obtain ⟨M0, M1, M2⟩ := tet_moments
  have N : ∀ i, tetInt (X i ^ 2) = 1 / 60 := fun i => by rw [pow_two, M2, if_pos rfl]
  have N01 : tetInt (X 0 * X 1) = 1 / 120 := M2 0 1
  have N02 : tetInt (X 0 * X 2) = 1 / 120 := M2 0 2
  have N12 : tetInt (X 1 * X 2) = 1 / 120 := M2 1 2
  have e1 : ∑ q, tetInt ((f ^ 2 * a * g q / 4) • X q) = ∑ q, f ^ 2 * a * g q / 4 * (1 / 24) :=
    Finset.sum_congr rfl fun q _ => by rw [map_smul, M1, smul_eq_mul]
  have e2 : ∑ p, tetInt (∑ q, (f ^ 2 * (g p * g q) / 64) • (X p * X q)) = ∑ p, ∑ q, f ^ 2 * (g p * g q) / 64 * if p = q then 1 / 60 else 1 / 120 :=
    Finset.sum_congr rfl fun p _ => by
      rw [map_sum]
      exact Finset.sum_congr rfl fun q _ => by rw [map_smul, M2, smul_eq_mul]
  rw [e1, e2, map_smul, M0]
  simp only [Fin.sum_univ_three, smul_eq_mul]
  simp
  ring

/-- A lower bound for the singular values of rows that represent affine fields. -/
theorem tet_gap {φ : ℕ → MvPolynomial (Fin 3) ℝ} (hφ : OrthoSeq (ufcVerts ℝ 3) (1 / 8) φ) {f : ℝ} (hf : φ 0 = C f)
    (rows : List (Fin 3 → Fin 4 → ℝ)) (a : (ℕ → ℝ) → Fin 3 → ℝ) (g : (ℕ → ℝ) → Fin 3 → Fin 3 → ℝ)
    (hrow : ∀ c, rowField φ 4 (∑ i ∈ Finset.range rows.length, c i • rows.getD i 0) =
      fun p => C f * (C (a c p) + C (1 / 8) * ∑ q, C (g c p q) * X q))
    (hb : ∀ c : ℕ → ℝ, ∑ i ∈ Finset.range rows.length, c i ^ 2 ≤ ∑ p, (a c p ^ 2 + ∑ q, g c p q ^ 2)) (r) (h : IsSVD rows r) :
    SvdGap r.1 := by
  have hf2 : f ^ 2 / 6 = 1 / 8 := by
    have := hφ.ortho 0 0
    rw [if_pos rfl, hf] at this
    have e : tetInt (C f * C f) = 1 / 8 := by
      show ∫ x in convexHull ℝ (Set.range (ufcVerts ℝ 3)), eval x (C f * C f) = _
      simp only [map_mul]
      exact this
    rw [show (C f * C f : MvPolynomial (Fin 3) ℝ) = (f * f) • 1 by rw [smul_eq_C_mul, C_mul, mul_one], map_smul, tet_moments.1, smul_eq_mul] at e
    linarith
  refine svd_gap_of_bound h (1 / 100000) (by norm_num) fun c => ?_
  have key : ∀ p : Fin 3, 1 / 100000 * (a c p ^ 2 + ∑ q, g c p q ^ 2) ≤
      ∑ l, (∑ i ∈ Finset.range rows.length, c i * rows.getD i 0 p l) ^ 2 := by
    intro p
    have h1 := hφ.norm_sq (fun l => ∑ i ∈ Finset.range rows.length, c i * rows.getD i 0 p l)
    have h2 : ∑ l : Fin 4, (∑ i ∈ Finset.range rows.length, c i * rows.getD i 0 p l) • φ l =
        C f * (C (a c p) + C (1 / 8) * ∑ q, C (g c p q) * X q) := by
      have := congrFun (hrow c) p
      rw [rowField_apply] at this
      rw [← this]
      refine Finset.sum_congr rfl fun l _ => ?_
      simp only [Finset.sum_apply, Pi.smul_apply, smul_eq_mul]
    rw [h2] at h1
    have h3 := tet_square f (a c p) (g c p)
    have h4 : ∫ x in convexHull ℝ (Set.range (ufcVerts ℝ 3)), eval x (C f * (C (a c p) + C (1 / 8) * ∑ q, C (g c p q) * X q)) ^ 2 =
        tetInt ((C f * (C (a c p) + C (1 / 8) * ∑ q, C (g c p q) * X q)) ^ 2) := by
      show _ = ∫ x in convexHull ℝ (Set.range (ufcVerts ℝ 3)), eval x ((C f * (C (a c p) + C (1 / 8) * ∑ q, C (g c p q) * X q)) ^ 2)
      simp only [map_pow]
    rw [h4, h3, hf2] at h1
    have h5 : ∑ l, (∑ i ∈ Finset.range rows.length, c i * rows.getD i 0 p l) ^ 2 = (a c p + (g c p 0 + g c p 1 + g c p 2) / 32) ^ 2 +
      (3 * (g c p 0 ^ 2 + g c p 1 ^ 2 + g c p 2 ^ 2) - 2 * (g c p 0 * g c p 1 + g c p 0 * g c p 2 + g c p 1 * g c p 2)) / 5120 := by linarith
    rw [h5, Fin.sum_univ_three]
    have s1 := sq_nonneg (g c p 0 - g c p 1)
    have s2 := sq_nonneg (g c p 0 - g c p 2)
    have s3 := sq_nonneg (g c p 1 - g c p 2)
    have s4 := sq_nonneg (99 / 100 * a c p + (g c p 0 + g c p 1 + g c p 2) / 32)
    have s5 := sq_nonneg (g c p 0)
    have s6 := sq_nonneg (g c p 1)
    have s7 := sq_nonneg (g c p 2)
    have s8 := sq_nonneg (a c p)
    nlinarith
  calc 1 / 100000 * ∑ i ∈ Finset.range rows.length, c i ^ 2 ≤ 1 / 100000 * ∑ p, (a c p ^ 2 + ∑ q, g c p q ^ 2) := by
        have := hb c; linarith
    _ = ∑ p, 1 / 100000 * (a c p ^ 2 + ∑ q, g c p q ^ 2) := Finset.mul_sum ..
    _ ≤ _ := Finset.sum_le_sum fun p _ => key p

theorem tet_seq : ∃ φ, ExpTabulates 3 1 (fun i : Fin (3 + 1) => ((ufcTetrahedron : CellData ℝ).toSimplex 3).v i) φ ∧
    OrthoSeq (ufcVerts ℝ 3) (1 / 8) φ ∧ ∃ f, φ 0 = C f := by
  have hp : ProperSimplex ℝ ((ufcTetrahedron : CellData ℝ).toSimplex 3) := proper_ufcTetrahedron
  obtain ⟨φ, g1, g2⟩ := orthoSeq_exists (Or.inr (Or.inr rfl)) (fun i : Fin (3 + 1) => ((ufcTetrahedron : CellData ℝ).toSimplex 3).v i)
    (proper_independent hp) (by rw [← orientation_edge, tet_verts, tet_orientation]; norm_num)
  have hκ : |(edgeMatrix fun i : Fin (3 + 1) => ((ufcTetrahedron : CellData ℝ).toSimplex 3).v i).det| / 2 ^ 3 = 1 / 8 := by
    rw [← orientation_edge, tet_verts, tet_orientation]; norm_num
  rw [hκ] at g2
  have hφ0 : (φ 0).totalDegree ≤ 0 := g2.degree (n := 0) (by decide)
  rw [tet_verts] at g2
  exact ⟨φ, g1 1 (Or.inr (by omega)), g2, _, totalDegree_eq_zero_iff_eq_C.1 (Nat.le_zero.1 hφ0)⟩

/-- For degree 0 on the UFC tetrahedron the singular values are far above the threshold. -/
theorem rt_svd_tet {gj : ℕ → ℕ → List ℝ} (hgj : NodesOK gj) (A B)
    (h : rtRows gj 0 ((ufcTetrahedron : CellData ℝ).toSimplex 3) = some (A, B)) : SvdOK someSvd (A ++ B) := by
  refine ⟨someSvd_spec _, ?_⟩
  have hp : ProperSimplex ℝ ((ufcTetrahedron : CellData ℝ).toSimplex 3) := proper_ufcTetrahedron
  obtain ⟨φ, t1, t2, f, hf⟩ := tet_seq
  obtain ⟨mats, A', B', -, -, -, m4, m5, m6⟩ := rt_rows_spec (Or.inr (Or.inr rfl)) _ hp (fun h => by omega)
    (by rw [tet_verts, tet_orientation]; exact one_pos) hgj 0 φ t1 (by rw [tet_verts]; exact t2)
  rw [h, Option.some.injEq, Prod.mk.injEq] at m4
  obtain ⟨rfl, rfl⟩ := m4
  obtain ⟨β, rfl, hβ⟩ : ∃ β : Fin 3 → Fin 4 → ℝ, B = [β] ∧ rowField φ 4 β = (1 / 8 : ℝ) • xField (φ 0) := by
    have hl := congrArg List.length m6
    simp only [List.length_map, List.length_finRange] at hl
    match B, hl with
    | [β], _ =>
      refine ⟨β, rfl, ?_⟩
      have h7 : [rowField φ 4 β] = [(1 / 8 : ℝ) • xField (φ 0)] := m6
      exact (List.cons.inj h7).1
  have hA : A = [unitRow 3 4 0 0, unitRow 3 4 1 0, unitRow 3 4 2 0] := by rw [m5]; rfl
  subst hA
  have hu : ∀ p : ℕ, ∀ hp : p < 3, rowField φ 4 (unitRow 3 4 p 0) = unitField ⟨p, hp⟩ (φ 0) := fun p hp =>
    rowField_unitRow φ p 0 hp (by omega)
  change SvdGap (someSvd (D := 3) (N := 4) ([unitRow 3 4 0 0, unitRow 3 4 1 0, unitRow 3 4 2 0] ++ [β])).1
  refine tet_gap t2 hf _ (fun c p => c p) (fun c p q => if p = q then c 3 else 0) (fun c => ?_) (fun c => ?_) _ (someSvd_spec _)
  · have hl : ([unitRow 3 4 0 0, unitRow 3 4 1 0, unitRow 3 4 2 0] ++ [β]).length = 4 := rfl
    rw [hl]
    simp only [Finset.sum_range_succ, Finset.sum_range_zero, zero_add, map_add, map_smul]
    show c 0 • rowField φ 4 (unitRow 3 4 0 0) + c 1 • rowField φ 4 (unitRow 3 4 1 0) + c 2 • rowField φ 4 (unitRow 3 4 2 0) +
      c 3 • rowField φ 4 β = _
    rw [hu 0 (by omega), hu 1 (by omega), hu 2 (by omega), hβ, hf]
    funext p
    fin_cases p <;> simp [unitField, xField, smul_eq_C_mul, Fin.sum_univ_three] <;> ring
  · have hl : ([unitRow 3 4 0 0, unitRow 3 4 1 0, unitRow 3 4 2 0] ++ [β]).length = 4 := rfl
    rw [hl]
    simp [Finset.sum_range_succ, Fin.sum_univ_three]
    nlinarith [sq_nonneg (c 3)]

theorem ned_svd_tet {gj : ℕ → ℕ → List ℝ} (hgj : NodesOK gj) (A B)
    (h : nedRows gj 0 3 ((ufcTetrahedron : CellData ℝ).toSimplex 3) = some (A, B)) : SvdOK (someSvdFun 3 _) (A ++ B) := by
  refine ⟨someSvd_spec _, ?_⟩
  have hp : ProperSimplex ℝ ((ufcTetrahedron : CellData ℝ).toSimplex 3) := proper_ufcTetrahedron
  obtain ⟨φ, t1, t2, f, hf⟩ := tet_seq
  obtain ⟨mats, A', B', -, -, -, m4, m5, m6⟩ := ned_rows3_form _ hp
    (by rw [tet_verts, tet_orientation]; exact one_pos) hgj 0 φ t1 (by rw [tet_verts]; exact t2)
  have h' : nedRows3 gj 0 ((ufcTetrahedron : CellData ℝ).toSimplex 3) = some (A, B) := h
  rw [h', Option.some.injEq, Prod.mk.injEq] at m4
  obtain ⟨rfl, rfl⟩ := m4
  have hu : ∀ p : ℕ, ∀ hp : p < 3, rowField φ 4 (unitRow 3 4 p 0) = unitField ⟨p, hp⟩ (φ 0) := fun p hp =>
    rowField_unitRow φ p 0 hp (by omega)
  obtain ⟨β0, β1, β2, rfl, h0, h1, h2⟩ : ∃ β0 β1 β2 : Fin 3 → Fin 4 → ℝ, B = [β0, β1, β2] ∧
      rowField φ 4 β0 = (1 / 8 : ℝ) • crossLin3 (unitField 0 (φ 0)) ∧
      rowField φ 4 β1 = (1 / 8 : ℝ) • crossLin3 (unitField 1 (φ 0)) ∧ rowField φ 4 β2 = (1 / 8 : ℝ) • crossLin3 (unitField 2 (φ 0)) := by
    have m7 : B.map (rowField φ 4) = [(1 / 8 : ℝ) • crossLin3 (rowField φ 4 (unitRow 3 4 0 0)),
      (1 / 8 : ℝ) • crossLin3 (rowField φ 4 (unitRow 3 4 1 0)), (1 / 8 : ℝ) • crossLin3 (rowField φ 4 (unitRow 3 4 2 0))] := m6
    rw [hu 0 (by omega), hu 1 (by omega), hu 2 (by omega)] at m7
    have hl : B.length = 3 := (List.length_map (as := B) (rowField φ 4)).symm.trans (congrArg List.length m7)
    match B, hl with
    | [β0, β1, β2], _ =>
      have m8 : [rowField φ 4 β0, rowField φ 4 β1, rowField φ 4 β2] = [(1 / 8 : ℝ) • crossLin3 (unitField 0 (φ 0)),
        (1 / 8 : ℝ) • crossLin3 (unitField 1 (φ 0)), (1 / 8 : ℝ) • crossLin3 (unitField 2 (φ 0))] := m7
      simp only [List.cons.injEq, and_true] at m8
      exact ⟨β0, β1, β2, rfl, m8.1, m8.2.1, m8.2.2⟩
  have hA : A = [unitRow 3 4 0 0, unitRow 3 4 1 0, unitRow 3 4 2 0] := by rw [m5]; rfl
  subst hA
  have hl : ([unitRow 3 4 0 0, unitRow 3 4 1 0, unitRow 3 4 2 0] ++ [β0, β1, β2]).length = 6 := rfl
  change SvdGap (someSvd (D := 3) (N := 4) ([unitRow 3 4 0 0, unitRow 3 4 1 0, unitRow 3 4 2 0] ++ [β0, β1, β2])).1
  refine tet_gap t2 hf _ (fun c p => c p) (fun c p q => ![![0, - c 5, c 4], ![c 5, 0, - c 3], ![- c 4, c 3, 0]] p q)
    (fun c => ?_) (fun c => ?_) _ (someSvd_spec _)
  · rw [hl]
    simp only [Finset.sum_range_succ, Finset.sum_range_zero, zero_add, map_add, map_smul]
    show c 0 • rowField φ 4 (unitRow 3 4 0 0) + c 1 • rowField φ 4 (unitRow 3 4 1 0) + c 2 • rowField φ 4 (unitRow 3 4 2 0) +
      c 3 • rowField φ 4 β0 + c 4 • rowField φ 4 β1 + c 5 • rowField φ 4 β2 = _
    rw [hu 0 (by omega), hu 1 (by omega), hu 2 (by omega), h0, h1, h2, hf]
    funext p
    fin_cases p <;> simp [unitField, crossLin3, smul_eq_C_mul, Fin.sum_univ_three] <;> ring
  · rw [hl]
    simp [Finset.sum_range_succ, Fin.sum_univ_three]
    nlinarith [sq_nonneg (c 3), sq_nonneg (c 4), sq_nonneg (c 5)]

end
end FIAT
